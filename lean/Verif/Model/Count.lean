import Verif.Model.Sequence

/-!
# How many parsers a sequence counts (`parser_count`, a `u8`)

sequence.rs:245-248 adds the counts of the members with the plain `+` of `u8`: in a build with overflow checks a sum above 255 is a
panic, in a release build it wraps around.  `Parser.count` of the model is the number itself.
-/

namespace Verif

variable {S : Strm} {σ τ α β : Type}

/-- `a + b` of two `u8` in a build with overflow checks: `none` is the panic. -/
def addChecked (a b : Option Nat) : Option Nat :=
  match a, b with
  | some a, some b => if a + b ≤ 255 then some (a + b) else none
  | _, _ => none

/-- `a + b` of two `u8` in a release build. -/
def addWrapping (a b : Nat) : Nat := (a + b) % 256

mutual

/-- What `parser_count` gives in a build with overflow checks, by the structure of the sequences: a tuple adds up its members
(sequence.rs:245-248), from the left; every other parser gives its own count, which is a `u8` (mod.rs:324-326: 1). -/
inductive CountsChecked : {σ α : Type} → Parser S σ α → Option Nat → Prop where
  | one {σ α : Type} {p : Parser S σ α} : p.count ≤ 255 → CountsChecked p (some p.count)
  | tuple {σ τ α β : Type} {p : Parser S σ α} {ps : Seq S τ β} {c d : Option Nat} : CountsChecked p c → SumsChecked c ps d →
      CountsChecked (tuple p ps) d

/-- The rest of that sum, after `c`. -/
inductive SumsChecked : {τ β : Type} → Option Nat → Seq S τ β → Option Nat → Prop where
  | nil {c : Option Nat} : SumsChecked c .nil c
  | cons {σ τ α β : Type} {p : Parser S σ α} {ps : Seq S τ β} {c d e : Option Nat} : CountsChecked p d →
      SumsChecked (addChecked c d) ps e → SumsChecked c (.cons p ps) e

end

mutual

/-- What `parser_count` gives in a release build. -/
inductive CountsWrapping : {σ α : Type} → Parser S σ α → Nat → Prop where
  | one {σ α : Type} {p : Parser S σ α} : p.count ≤ 255 → CountsWrapping p p.count
  | tuple {σ τ α β : Type} {p : Parser S σ α} {ps : Seq S τ β} {c d : Nat} : CountsWrapping p c → SumsWrapping c ps d →
      CountsWrapping (tuple p ps) d

/-- The rest of that sum, after `c`. -/
inductive SumsWrapping : {τ β : Type} → Nat → Seq S τ β → Nat → Prop where
  | nil {c : Nat} : SumsWrapping c .nil c
  | cons {σ τ α β : Type} {p : Parser S σ α} {ps : Seq S τ β} {c d e : Nat} : CountsWrapping p d →
      SumsWrapping (addWrapping c d) ps e → SumsWrapping c (.cons p ps) e

end

/-- A member of a tuple in a build with overflow checks: once it has succeeded it is asked for its count (sequence.rs:192, 225),
which panics if that is more than a `u8` holds. -/
def counted (p : Parser S σ α) : Parser S σ α :=
  { p with
    run := fun m i s =>
      let o := p.run m i s
      match o.res with
      | .commitOk _ => if p.count ≤ 255 then o else ⟨.abort .panic, o.inp, o.st⟩
      | .peekOk _ => if p.count ≤ 255 then o else ⟨.abort .panic, o.inp, o.st⟩
      | _ => o }

/-- All members of a tuple. -/
def Seq.counted {τ β : Type} : Seq S τ β → Seq S τ β
  | .nil => .nil
  | .cons p ps => .cons (Verif.counted p) ps.counted

/-- sequence.rs:86-315 a tuple in a build with overflow checks (parsing; the counts in `add_error` are not followed). -/
def tupleChecked (p : Parser S σ α) (ps : Seq S τ β) : Parser S (SeqSt σ τ α) (α × β) := tuple (counted p) ps.counted

/-- Other counts for the members. -/
def Seq.recount {τ β : Type} (f : Nat → Nat) : Seq S τ β → Seq S τ β
  | .nil => .nil
  | .cons p ps => .cons { p with count := f p.count } (ps.recount f)

/-- sequence.rs:86-315 a tuple in a release build: the counts of its members are taken modulo 256. -/
def tupleWrapping (p : Parser S σ α) (ps : Seq S τ β) : Parser S (SeqSt σ τ α) (α × β) :=
  tuple { p with count := p.count % 256 } (ps.recount (· % 256))

end Verif
