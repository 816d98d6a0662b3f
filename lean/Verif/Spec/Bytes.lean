import Verif.Spec.Behaved

/-!
# Encodings of integers, and reference semantics of the parsers for fixed sequences
-/

namespace Verif

/-- Byte `k` (counted from the least significant one) of a natural number. -/
def byteAt (x k : Nat) : UInt8 := UInt8.ofNat (x / 256 ^ k)

/-- The little endian encoding in `n` bytes. -/
def leBytes (n x : Nat) : List UInt8 := (List.range n).map (byteAt x)

/-- The big endian encoding in `n` bytes. -/
def beBytes (n x : Nat) : List UInt8 := (leBytes n x).reverse

/-- The two's complement representation of an integer in `n` bytes. -/
def twos (n : Nat) (x : Int) : Nat := (x % 2 ^ (8 * n)).toNat

/-- Fewer than `n` tokens are left. -/
def Strm.FewerThan (S : Strm) (n : Nat) (i : S.Input) : Prop := ∀ ts j, S.Reads i ts j → ts.length < n

/-- Pairwise equal under `cmp`. -/
def EqualBy {τ T : Type} (cmp : τ → T → Bool) : List τ → List T → Prop
  | [], [] => True
  | c :: cs, t :: ts => cmp c t = true ∧ EqualBy cmp cs ts
  | _, _ => False

/-- The input starts with something equal to `cs`, up to `j`. -/
def Strm.StartsWith (S : Strm) {τ : Type} (cmp : τ → S.Tok → Bool) (cs : List τ) (i j : S.Input) : Prop :=
  ∃ ts, S.Reads i ts j ∧ EqualBy cmp cs ts

/-- What a parser for the sequence `cs` with result `v` should answer on `i`: success exactly if the input
starts with something equal to it, consuming that (an empty sequence is no commitment).  Otherwise a
failure: without commitment if the first token already differs or is missing, committed if the beginning
matched.  On a partial input that ends before the decision, more is asked for. -/
def Strm.IsTokens (S : Strm) {τ α : Type} (cmp : τ → S.Tok → Bool) (cs : List τ) (v : α) (i : S.Input)
    (a : Answer S.Input Unit α) : Prop :=
  (∃ j, S.StartsWith cmp cs i j ∧ a = .ok (!cs.isEmpty) v j) ∨
  (∃ pre c post j, cs = pre ++ c :: post ∧ S.StartsWith cmp pre i j ∧
    ((∃ t k, S.uncons j = (.ok t, k) ∧ cmp c t = false ∧ a = if pre = [] then .soft else .hard ()) ∨
     (S.AtEnd j ∧ a = if pre = [] ∧ S.isPartial i = false then .soft else .hard ())))

end Verif
