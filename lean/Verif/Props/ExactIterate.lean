import Verif.Props.Exact
import Verif.Props.Integers
import Verif.Props.Iterate
import Verif.Props.Wrappers

/-!
# C63, C60: exactly which texts `iterate` and the integer parsers accept
-/

namespace Verif

variable {S : Strm} {σ α J : Type}

/-! ## One parser for every item -/

/-- A text for every item of the list, one after the other. -/
def Texts.Each {T : Type} (L : J → Texts T α) : List J → Texts T (List α)
  | [], w, vs, _ => w = [] ∧ vs = []
  | x :: xs, w, vs, o => ∃ u z v vs', w = u ++ z ∧ vs = v :: vs' ∧ L x u v (lead z o) ∧ Texts.Each L xs z vs' o

private theorem each_back (hS : S.Lawful) {L : J → Texts S.Tok α} {m : J → Sem S.Input Unit α}
    (h : ∀ x w v, ReadsBack (fun o => L x w v o) (m x) w v) :
    ∀ (items : List J) (w : List S.Tok) (vs : List α) (o : Option S.Tok), Texts.Each L items w vs o →
      ReadsBack (fun o' => o' = o) (Ref.iterate (fun x _ => m x) items) w vs
  | [], w, vs, o, ⟨h1, h2⟩ => by
    subst h1; subst h2
    intro i k _ hr _
    cases Strm.reads_nil.1 hr
    rfl
  | x :: xs, w, vs, o, ⟨u, z, v, vs', h1, h2, h3, h4⟩ => by
    subst h1; subst h2
    have hz := each_back hS h xs z vs' o h4
    refine readsBack_bind (f := fun v => Ref.map (Ref.iterate (fun x _ => m x) xs) (v :: ·)) (v := v) hS (fun i k hi hr hk => ?_)
      (fun i k hi hr hk => ?_)
    · obtain ⟨o', ho, hk⟩ := hk
      refine h x u v i k hi hr ?_
      rw [hk, ho]
      exact h3
    · simp only [Ref.map, hz i k hi hr hk, Answer.map]

private theorem each_only {L : J → Texts S.Tok α} {m : J → Sem S.Input Unit α} (h : ∀ x, Takes (L x) (m x)) :
    ∀ items : List J, Takes (Texts.Each L items) (Ref.iterate (fun x _ => m x) items)
  | [] => takes_value []
  | x :: xs => by
    refine takes_mono (takes_bind (f := fun v => Ref.map (Ref.iterate (fun x _ => m x) xs) (v :: ·)) (h x)
      fun v => takes_map (each_only h xs) (v :: ·)) ?_
    rintro w vs o ⟨u, z, v, h1, h2, vs', h3, h4⟩
    exact ⟨u, z, v, vs', h1, h4.symm, h2, h3⟩

/-- **C63.**  `iterate(items, |x, _| f(x))`: for every item a text of its parser, one after the other. -/
theorem C63_is_iterate (hS : S.Lawful) {f : J → Parser S σ α} {L : J → Texts S.Tok α} (hm : ∀ x, Moves (f x)) {Clean : σ → Prop}
    (hr : ∀ x, ReusableIn Clean (f x)) (init : σ) (hi : Clean init) (h : ∀ x, Describes (L x) (f x)) (items : List J) :
    Describes (Texts.Each L items) (iterate items (fun x _ => f x) init) := by
  have e : ∀ i, (iterate items (fun x _ => f x) init).shape i = Ref.iterate (fun x _ => (f x).shape) items i :=
    fun i => C45_iterate hS (fun x _ => hm x) (fun x _ => hr x) items init hi i
  refine ⟨fun w vs i k hp hk hl => ?_, takes_congr e (each_only (fun x => (h x).only) items)⟩
  rw [e i]
  exact each_back hS (fun x w v => (h x).back w v) items w vs _ hl i k hp hk rfl

/-! ## `dispatch!` -/

/-- **C63.**  `dispatch!`: the texts of the selected parser. -/
theorem C63_is_dispatch {arms : Alts S α σ} {k : Nat} {L : Texts S.Tok α} (h : Describes L (arms.arm k).2) :
    Describes L (dispatch arms k) := by
  have e : ∀ i, (dispatch arms k).shape i = (arms.arm k).2.shape i := fun i => by
    have h1 := (C34_dispatch arms k [(true, i)]).1
    simp only [Parser.calls, Parser.callsFrom, List.cons.injEq, and_true] at h1
    simp only [Prod.mk.injEq] at h1
    simp only [Parser.shape, Parser.answer, Out.answer, h1.1, h1.2]
  exact ⟨fun w v i => by rw [e i]; exact h.back w v i, takes_congr e h.only⟩

/-! ## Integers -/

/-- **C63.**  The parsers of integers: any `n` bytes. -/
theorem C63_is_int (hS : S.Lawful) {n : Nat} (hn : 0 < n) (conv : List S.Tok → α) :
    Describes (fun w v _ => w.length = n ∧ v = conv w) (intParser S n conv) := by
  constructor
  · rintro w v i k _ hr ⟨h1, rfl⟩
    rw [Parser.shape, C19_enough hS n conv hr h1]
    cases w with
    | nil => simp at h1; omega
    | cons => rfl
  · intro i c v k hs
    rcases C19_decode hS n conv true i with ⟨ts, j, h1, h2, h3⟩ | ⟨_, _, h3⟩
    · rw [Parser.shape, Parser.answer] at hs
      rw [show (intParser S n conv).run true i (intParser S n conv).init = (intParser S n conv).run true i () from rfl, h3] at hs
      cases hs
      refine ⟨ts, h2, ?_, h1, rfl⟩
      cases ts with
      | nil => simp at h1; omega
      | cons => rfl
    · have : (intParser S n conv).shape i = if S.isPartial i then .hard () else .soft := h3
      rw [this] at hs
      revert hs
      split <;> intro hs <;> cases hs

private theorem leBytes_succ (n x : Nat) : leBytes (n + 1) x = UInt8.ofNat x :: leBytes n (x / 256) := by
  have h : ∀ k, byteAt x (k + 1) = byteAt (x / 256) k := fun k => by
    simp only [byteAt, Nat.pow_succ, Nat.div_div_eq_div_mul, Nat.mul_comm]
  simp only [leBytes, List.range_succ_eq_map, List.map_cons, List.map_map, List.cons.injEq]
  refine ⟨by simp [byteAt], List.map_congr_left fun k _ => h k⟩

private theorem leBytes_fromLe : ∀ (bs : List UInt8), leBytes bs.length (fromLe bs) = bs ∧ fromLe bs < 256 ^ bs.length
  | [] => ⟨rfl, by simp [fromLe]⟩
  | b :: bs => by
    obtain ⟨h1, h2⟩ := leBytes_fromLe bs
    have hb : b.toNat < 256 := b.toNat_lt
    constructor
    · rw [List.length_cons, leBytes_succ, fromLe]
      have e1 : (b.toNat + 256 * fromLe bs) / 256 = fromLe bs := by omega
      have e2 : UInt8.ofNat (b.toNat + 256 * fromLe bs) = b := by
        apply UInt8.toNat_inj.1
        rw [UInt8.toNat_ofNat']
        omega
      rw [e1, e2, h1]
    · rw [List.length_cons, fromLe, Nat.pow_succ]
      omega

/-- **C63.**  `le_u16`, `le_u32`, `le_u64`: exactly the encodings of the numbers of the type. -/
theorem C63_is_le_unsigned (hS : S.Lawful) (byte : S.Tok → UInt8) {n : Nat} (hn : 0 < n) :
    Describes (fun w x _ => w.map byte = leBytes n x ∧ x < 256 ^ n) (leUint S byte n) := by
  refine C63_is_iff (C63_is_int hS hn _) fun w x _ => ⟨?_, ?_⟩
  · rintro ⟨rfl, rfl⟩
    have h := leBytes_fromLe (w.map byte)
    rw [List.length_map] at h
    exact ⟨h.1.symm, h.2⟩
  · rintro ⟨h1, h2⟩
    exact ⟨by rw [← List.length_map byte, h1, leBytes_length], by rw [h1, fromLe_leBytes n x h2]⟩

/-- **C63.**  `be_u16`, `be_u32`, `be_u64`: exactly the encodings of the numbers of the type. -/
theorem C63_is_be_unsigned (hS : S.Lawful) (byte : S.Tok → UInt8) {n : Nat} (hn : 0 < n) :
    Describes (fun w x _ => w.map byte = beBytes n x ∧ x < 256 ^ n) (beUint S byte n) := by
  refine C63_is_iff (C63_is_int hS hn _) fun w x _ => ⟨?_, ?_⟩
  · rintro ⟨rfl, rfl⟩
    have h := leBytes_fromLe (w.map byte).reverse
    rw [List.length_reverse, List.length_map] at h
    exact ⟨by rw [beBytes, fromBe, h.1, List.reverse_reverse], h.2⟩
  · rintro ⟨h1, h2⟩
    exact ⟨by rw [← List.length_map byte, h1, beBytes_length], by rw [h1, fromBe_beBytes n x h2]⟩

private theorem signed {n : Nat} (hn : 0 < n) {x : Nat} (hx : x < 256 ^ n) :
    twos n (toSigned n x) = x ∧ -(2 ^ (8 * n - 1)) ≤ toSigned n x ∧ toSigned n x < 2 ^ (8 * n - 1) := by
  have hp : (2 : Int) ^ (8 * n) = 2 * 2 ^ (8 * n - 1) := by
    have : 8 * n = (8 * n - 1) + 1 := by omega
    rw [this, Int.pow_succ]; simp; omega
  have hc : ((2 ^ (8 * n - 1) : Nat) : Int) = 2 ^ (8 * n - 1) := by norm_cast
  have hpos : (0 : Int) < 2 ^ (8 * n - 1) := Int.pow_pos (by decide)
  have hx' : (x : Int) < 2 * 2 ^ (8 * n - 1) := by
    rw [← hp]
    have h : x < 2 ^ (8 * n) := by rw [Nat.pow_mul]; exact hx
    have : ((2 ^ (8 * n) : Nat) : Int) = 2 ^ (8 * n) := by norm_cast
    omega
  simp only [toSigned, twos, hp]
  generalize hM : (2 : Int) ^ (8 * n - 1) = M at *
  generalize hM' : (2 : Nat) ^ (8 * n - 1) = M' at *
  by_cases h0 : x < M'
  · rw [if_pos h0, Int.emod_eq_of_lt (by omega) (by omega)]
    omega
  · rw [if_neg h0]
    have : ((x : Int) - 2 * M) % (2 * M) = x := by
      rw [← Int.add_emod_right (a := (x : Int) - 2 * M) (b := 2 * M), Int.sub_add_cancel]
      exact Int.emod_eq_of_lt (by omega) (by omega)
    rw [this]
    omega

/-- **C63.**  `le_i16`, `le_i32`, `le_i64`: exactly the two's complement encodings of the numbers of the type. -/
theorem C63_is_le_signed (hS : S.Lawful) (byte : S.Tok → UInt8) {n : Nat} (hn : 0 < n) :
    Describes (fun w x _ => w.map byte = leBytes n (twos n x) ∧ -(2 ^ (8 * n - 1)) ≤ x ∧ x < 2 ^ (8 * n - 1)) (leInt S byte n) := by
  refine C63_is_iff (C63_is_int hS hn _) fun w x _ => ⟨?_, ?_⟩
  · rintro ⟨rfl, rfl⟩
    have h := leBytes_fromLe (w.map byte)
    rw [List.length_map] at h
    have hs := signed hn h.2
    exact ⟨by rw [hs.1]; exact h.1.symm, hs.2⟩
  · rintro ⟨h1, h2, h3⟩
    exact ⟨by rw [← List.length_map byte, h1, leBytes_length], by
      rw [h1, fromLe_leBytes n _ (twos_lt n x), toSigned_twos n hn x h2 h3]⟩

/-- **C63.**  `be_i16`, `be_i32`, `be_i64`. -/
theorem C63_is_be_signed (hS : S.Lawful) (byte : S.Tok → UInt8) {n : Nat} (hn : 0 < n) :
    Describes (fun w x _ => w.map byte = beBytes n (twos n x) ∧ -(2 ^ (8 * n - 1)) ≤ x ∧ x < 2 ^ (8 * n - 1)) (beInt S byte n) := by
  refine C63_is_iff (C63_is_int hS hn _) fun w x _ => ⟨?_, ?_⟩
  · rintro ⟨rfl, rfl⟩
    have h := leBytes_fromLe (w.map byte).reverse
    rw [List.length_reverse, List.length_map] at h
    have hs := signed hn h.2
    exact ⟨by rw [fromBe, hs.1, beBytes, h.1, List.reverse_reverse], by rw [fromBe]; exact hs.2⟩
  · rintro ⟨h1, h2, h3⟩
    exact ⟨by rw [← List.length_map byte, h1, beBytes_length], by
      rw [h1, fromBe_beBytes n _ (twos_lt n x), toSigned_twos n hn x h2 h3]⟩

/-! ## Examples -/

private abbrev B := sliceS UInt8 1

/-- The bytes of a list, one after the other. -/
example (items : List UInt8) : Describes (S := B) (Texts.Each (fun b w v _ => w = [b] ∧ v = b) items)
    (iterate items (fun b _ => token B b) ()) :=
  C63_is_iterate (slice_lawful UInt8 1) (Clean := fun _ => True) (fun _ => moves_token (slice_lawful UInt8 1) _)
    (fun _ => (keeps_unit (h := false) _).reusableIn) () trivial
    (fun b => C63_is_iff (C63_is_one (fun i => C53_token (slice_lawful UInt8 1) b i)) fun w v o =>
      ⟨fun ⟨t, h1, h2⟩ => by
        by_cases h : t = b
        · rw [if_pos h] at h2; injection h2 with h3; exact ⟨by rw [h1, h], by rw [← h3, h]⟩
        · rw [if_neg h] at h2; exact (nomatch h2), fun ⟨h1, h2⟩ => ⟨b, h1, by rw [if_pos rfl, h2]⟩⟩) items

/-- The first byte selects what comes next: a parser of one or of two bytes. -/
example : Describes (fun w x _ => w.map id = beBytes 2 x ∧ x < 256 ^ 2)
    (dispatch (.cons (map (any B) UInt8.toNat) (.last (beUint B id 2))) 1) :=
  C63_is_dispatch (C63_is_be_unsigned (slice_lawful UInt8 1) id (by decide))

example : beBytes 2 258 = [1, 2] := rfl
example : (beInt B id 2).shape ⟨0, [255, 254, 7]⟩ = .ok true (-2) ⟨2, [7]⟩ := rfl
example : beBytes 2 (twos 2 (-2)) = [255, 254] := by decide

end Verif
