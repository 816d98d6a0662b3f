import Verif.Proof.RangeLemmas
import Verif.Spec.Bytes
import Verif.Proof.SliceLaws
import Verif.Proof.WrapLaws
import Verif.Model.Byte

/-!
# C19: integer parsers decode and are atomic
-/

namespace Verif

variable {S : Strm} {α : Type}

/-! ## Encodings -/

theorem leBytes_length (n x : Nat) : (leBytes n x).length = n := by simp [leBytes]

theorem beBytes_length (n x : Nat) : (beBytes n x).length = n := by simp [beBytes, leBytes]

private theorem leBytes_succ (n x : Nat) : leBytes (n + 1) x = UInt8.ofNat x :: leBytes n (x / 256) := by
  have h : ∀ k, byteAt x (k + 1) = byteAt (x / 256) k := fun k => by
    simp only [byteAt, Nat.pow_succ, Nat.div_div_eq_div_mul, Nat.mul_comm]
  simp only [leBytes, List.range_succ_eq_map, List.map_cons, List.map_map, List.cons.injEq]
  refine ⟨by simp [byteAt], List.map_congr_left fun k _ => h k⟩

theorem fromLe_leBytes (n x : Nat) (h : x < 256 ^ n) : fromLe (leBytes n x) = x := by
  induction n generalizing x with
  | zero => simp [leBytes, fromLe]; omega
  | succ n ih =>
    rw [leBytes_succ, fromLe, ih (x / 256) (Nat.div_lt_of_lt_mul (by rw [Nat.pow_succ] at h; omega))]
    have : (UInt8.ofNat x).toNat = x % 256 := by simp [UInt8.toNat_ofNat']
    rw [this]; omega

theorem fromBe_beBytes (n x : Nat) (h : x < 256 ^ n) : fromBe (beBytes n x) = x := by
  simp [fromBe, beBytes, fromLe_leBytes n x h]

private theorem pow256 (n : Nat) : 256 ^ n = 2 ^ (8 * n) := by
  rw [Nat.pow_mul]

theorem twos_lt (n : Nat) (x : Int) : twos n x < 256 ^ n := by
  rw [pow256, twos]
  have h : (0 : Int) < 2 ^ (8 * n) := Int.pow_pos (by decide)
  have := Int.emod_lt_of_pos x h
  have := Int.emod_nonneg x (Int.ne_of_gt h)
  have hc : ((2 ^ (8 * n) : Nat) : Int) = 2 ^ (8 * n) := by norm_cast
  omega

/-- Two's complement is undone by `toSigned`, on the range of the type. -/
theorem toSigned_twos (n : Nat) (hn : 0 < n) (x : Int) (hl : -(2 ^ (8 * n - 1)) ≤ x) (hu : x < 2 ^ (8 * n - 1)) :
    toSigned n (twos n x) = x := by
  have hp : (2 : Int) ^ (8 * n) = 2 * 2 ^ (8 * n - 1) := by
    have : 8 * n = (8 * n - 1) + 1 := by omega
    rw [this, Int.pow_succ]; simp; omega
  have hc : ((2 ^ (8 * n - 1) : Nat) : Int) = 2 ^ (8 * n - 1) := by norm_cast
  have hpos : (0 : Int) < 2 ^ (8 * n - 1) := Int.pow_pos (by decide)
  simp only [toSigned, twos, hp]
  generalize hM : (2 : Int) ^ (8 * n - 1) = M at *
  generalize hM' : (2 : Nat) ^ (8 * n - 1) = M' at *
  by_cases h0 : 0 ≤ x
  · have : x % (2 * M) = x := Int.emod_eq_of_lt h0 (by omega)
    rw [this, if_pos (by omega)]; omega
  · have : x % (2 * M) = x + 2 * M := by
      rw [← Int.add_emod_right (a := x) (b := 2 * M)]
      exact Int.emod_eq_of_lt (by omega) (by omega)
    rw [this, if_neg (by omega)]; omega

/-! ## Reading -/

private theorem readN_cases (hS : S.Lawful) (n : Nat) (buf : List S.Tok) (i : S.Input) :
    (∃ ts j, ts.length = n ∧ S.Reads i ts j ∧ readN S n buf i = (.commitOk (buf ++ ts), j)) ∨
    (S.FewerThan n i ∧ ∃ e j, S.Reach i j ∧
      ((S.isPartial i = true ∧ readN S n buf i = (.commitErr e, j)) ∨
       (S.isPartial i = false ∧ readN S n buf i = (.peekErr (Tracked.of e), j)))) := by
  induction n generalizing buf i with
  | zero => exact .inl ⟨[], i, rfl, .nil i, by simp [readN]⟩
  | succ n ih =>
    cases hu : S.uncons i with
    | mk x j =>
      cases x with
      | ok t =>
        have hp := hS.isPartial hu
        simp only [readN, Strm.unconsP, hu]
        rcases ih (buf ++ [t]) j with ⟨ts, k, h1, h2, h3⟩ | ⟨h1, e, k, h2, h3⟩
        · exact .inl ⟨t :: ts, k, by simp [h1], .cons hu h2, by simp [h3]⟩
        · refine .inr ⟨fun ts l h => ?_, e, k, Strm.Reach.trans ⟨[t], .cons hu (.nil _)⟩ h2, hp ▸ h3⟩
          cases h with
          | nil => simp
          | cons hu' h' =>
            cases hu.symm.trans hu'
            have := h1 _ _ h'
            simp only [List.length_cons]; omega
      | error e =>
        obtain rfl := hS.uncons_error hu
        refine .inr ⟨fun ts l h => ?_, S.E.fromError (S.position j) e, j, .refl j, ?_⟩
        · cases h with
          | nil => simp
          | cons hu' h' => cases hu.symm.trans hu'
        · cases hp : S.isPartial j <;> simp [readN, Strm.unconsP, hu, Strm.wrapStreamError, hp]

/-- C19: an integer parser of `n` bytes converts the next `n` tokens, or, if there are fewer, fails and
leaves the stream where it was, whatever kind of input it is. -/
theorem C19_decode (hS : S.Lawful) (n : Nat) (conv : List S.Tok → α) (m : Bool) (i : S.Input) :
    (∃ ts j, ts.length = n ∧ S.Reads i ts j ∧
      ((intParser S n conv).run m i ()).answer = .ok true (conv ts) j) ∨
    (S.FewerThan n i ∧ ((intParser S n conv).run m i ()).inp = i ∧
      ((intParser S n conv).run m i ()).answer.shape = if S.isPartial i then .hard () else .soft) := by
  rcases readN_cases hS n [] i with ⟨ts, j, h1, h2, h3⟩ | ⟨h1, e, j, h2, h3⟩
  · refine .inl ⟨ts, j, h1, h2, ?_⟩
    simp only [intParser, fnParser, Parser.ofLazy, h3]
    rfl
  · refine .inr ⟨h1, ?_⟩
    have hr := hS.reset_reach h2
    rcases h3 with ⟨hp, h3⟩ | ⟨hp, h3⟩
    · simp only [intParser, fnParser, Parser.ofLazy, h3, hr, hp]
      exact ⟨trivial, rfl⟩
    · simp only [intParser, fnParser, Parser.ofLazy, h3, hr, hp]
      exact ⟨trivial, rfl⟩

/-- C19: so with enough input the next `n` tokens are converted. -/
theorem C19_enough (hS : S.Lawful) (n : Nat) (conv : List S.Tok → α) {i j : S.Input} {ts : List S.Tok}
    (h : S.Reads i ts j) (hn : ts.length = n) : (intParser S n conv).answer i = .ok true (conv ts) j := by
  rcases C19_decode hS n conv true i with ⟨us, k, h1, h2, h3⟩ | ⟨h1, _⟩
  · obtain ⟨rfl, rfl⟩ := reads_length_unique h h2 (hn.trans h1.symm)
    exact h3
  · exact absurd (h1 _ _ h) (by omega)

/-- C19: `le_u16`, `le_u32`, `le_u64`: the encoding of a number is read back and what follows is left. -/
theorem C19_le_unsigned (hS : S.Lawful) (byte : S.Tok → UInt8) (n x : Nat) (hx : x < 2 ^ (8 * n))
    {i j : S.Input} {ts : List S.Tok} (h : S.Reads i ts j) (ht : ts.map byte = leBytes n x) :
    (leUint S byte n).answer i = .ok true x j := by
  have := C19_enough hS n (fun ts => fromLe (ts.map byte)) h (by rw [← List.length_map byte, ht, leBytes_length])
  rw [ht, fromLe_leBytes n x (by rw [pow256]; exact hx)] at this
  exact this

/-- C19: `be_u16`, `be_u32`, `be_u64`. -/
theorem C19_be_unsigned (hS : S.Lawful) (byte : S.Tok → UInt8) (n x : Nat) (hx : x < 2 ^ (8 * n))
    {i j : S.Input} {ts : List S.Tok} (h : S.Reads i ts j) (ht : ts.map byte = beBytes n x) :
    (beUint S byte n).answer i = .ok true x j := by
  have := C19_enough hS n (fun ts => fromBe (ts.map byte)) h (by rw [← List.length_map byte, ht, beBytes_length])
  rw [ht, fromBe_beBytes n x (by rw [pow256]; exact hx)] at this
  exact this

/-- C19: `le_i16`, `le_i32`, `le_i64`. -/
theorem C19_le_signed (hS : S.Lawful) (byte : S.Tok → UInt8) (n : Nat) (hn : 0 < n) (x : Int)
    (hl : -(2 ^ (8 * n - 1)) ≤ x) (hu : x < 2 ^ (8 * n - 1))
    {i j : S.Input} {ts : List S.Tok} (h : S.Reads i ts j) (ht : ts.map byte = leBytes n (twos n x)) :
    (leInt S byte n).answer i = .ok true x j := by
  have := C19_enough hS n (fun ts => toSigned n (fromLe (ts.map byte))) h
    (by rw [← List.length_map byte, ht, leBytes_length])
  rw [ht, fromLe_leBytes n _ (twos_lt n x), toSigned_twos n hn x hl hu] at this
  exact this

/-- C19: `be_i16`, `be_i32`, `be_i64`. -/
theorem C19_be_signed (hS : S.Lawful) (byte : S.Tok → UInt8) (n : Nat) (hn : 0 < n) (x : Int)
    (hl : -(2 ^ (8 * n - 1)) ≤ x) (hu : x < 2 ^ (8 * n - 1))
    {i j : S.Input} {ts : List S.Tok} (h : S.Reads i ts j) (ht : ts.map byte = beBytes n (twos n x)) :
    (beInt S byte n).answer i = .ok true x j := by
  have := C19_enough hS n (fun ts => toSigned n (fromBe (ts.map byte))) h
    (by rw [← List.length_map byte, ht, beBytes_length])
  rw [ht, fromBe_beBytes n _ (twos_lt n x), toSigned_twos n hn x hl hu] at this
  exact this

/-- C19: with fewer bytes every one of them fails and does not move the stream. -/
theorem C19_too_short (hS : S.Lawful) (n : Nat) (conv : List S.Tok → α) (m : Bool) (i : S.Input)
    (h : S.FewerThan n i) : ((intParser S n conv).run m i ()).inp = i ∧
      ((intParser S n conv).run m i ()).answer.shape = if S.isPartial i then .hard () else .soft := by
  rcases C19_decode hS n conv m i with ⟨ts, j, h1, h2, _⟩ | ⟨_, h2⟩
  · exact absurd (h _ _ h2) (by omega)
  · exact h2

/-! ## Examples -/

private abbrev B := sliceS UInt8 1

example : leBytes 2 513 = [1, 2] := rfl
example : beBytes 4 258 = [0, 0, 1, 2] := rfl
example : leBytes 2 (twos 2 (-2)) = [254, 255] := rfl
example : (leUint B id 2).answer ⟨0, [1, 2, 7]⟩ = .ok true 513 ⟨2, [7]⟩ :=
  C19_le_unsigned (slice_lawful _ _) id 2 513 (by decide) (.cons rfl (.cons rfl (.nil _))) rfl
example : (beInt B id 2).answer ⟨0, [255, 254, 7]⟩ = .ok true (-2) ⟨2, [7]⟩ :=
  C19_be_signed (slice_lawful _ _) id 2 (by decide) (-2) (by decide) (by decide)
    (.cons rfl (.cons rfl (.nil _))) rfl
example : (beUint B id 2).answer ⟨0, [1, 2, 7]⟩ = .ok true 258 ⟨2, [7]⟩ := rfl
example : ((beUint B id 2).run true ⟨0, [1]⟩ ()).inp = ⟨0, [1]⟩ := rfl
example : (beUint (partialS B) id 2).answer ⟨0, [1]⟩ =
    .hard ((partialS B).E.fromError 1 (partialS B).E.endOfInput) := rfl

end Verif
