import Verif.Props.Exact
import Verif.Props.Recognize
import Verif.Props.Monad

/-!
# C63: exactly which texts `and_then` and `recognize` accept
-/

namespace Verif

variable {S : Strm} {σ τ α β : Type} {G : Option S.Tok → Prop} {L : Texts S.Tok α}
  {R : RangeOps S} {toks : S.Rng → List S.Tok} {wt : S.Tok → Nat}

/-! ## `and_then` -/

private theorem and_then_ok (hS : S.Lawful) {p : Parser S σ α} (hm : Moves p) (f : α → Except S.SErr β) {i j : S.Input} {c : Bool} {y : β} :
    (andThen p f).shape i = .ok c y j ↔ ∃ v, p.shape i = .ok c v j ∧ f v = .ok y := by
  have hr := hm.run true i p.init
  simp only [Parser.shape, Parser.answer, andThen, Parser.ofMode]
  revert hr
  generalize p.run true i p.init = o
  obtain ⟨r, k, s⟩ := o
  intro hr
  have he := hS.inputAtEof_eq k
  cases r with
  | commitOk v =>
    cases hv : f v with
    | ok z => simp [Out.answer, Answer.of, Answer.shape, hv]; grind
    | error e =>
      simp only [hv]
      rw [he]
      constructor
      · intro h
        exfalso
        revert h
        split
        · cases (S.inputAtEof k).1
          · simp [Out.answer, Answer.of, Answer.shape]
          · simp [hS.tryReset_eq hr, Out.answer, Answer.of, Answer.shape]
        · simp [Out.answer, Answer.of, Answer.shape]
      · rintro ⟨v', h1, h2⟩
        simp [Out.answer, Answer.of, Answer.shape] at h1
        obtain ⟨_, rfl, _⟩ := h1
        rw [hv] at h2; cases h2
  | peekOk v =>
    cases hv : f v with
    | ok z => simp [Out.answer, Answer.of, Answer.shape, hv]; grind
    | error e =>
      simp only [hv]
      rw [he]
      constructor
      · intro h
        exfalso
        revert h
        split
        · cases (S.inputAtEof k).1
          · simp [Out.answer, Answer.of, Answer.shape]
          · simp [hS.tryReset_eq hr, Out.answer, Answer.of, Answer.shape]
        · simp [Out.answer, Answer.of, Answer.shape]
      · rintro ⟨v', h1, h2⟩
        simp [Out.answer, Answer.of, Answer.shape] at h1
        obtain ⟨_, rfl, _⟩ := h1
        rw [hv] at h2; cases h2
  | peekErr e => simp [Out.answer, Answer.of, Answer.shape]
  | commitErr e => simp [Out.answer, Answer.of, Answer.shape]
  | abort a => simp [Out.answer, Answer.of, Answer.shape]

private theorem and_then_soft (hS : S.Lawful) {p : Parser S σ α} (hm : Moves p) (f : α → Except S.SErr β) {i : S.Input}
    (h : (andThen p f).shape i = .soft) : p.shape i = .soft ∨ ∃ v j e, p.shape i = .ok false v j ∧ f v = .error e := by
  have hr := hm.run true i p.init
  revert h
  simp only [Parser.shape, Parser.answer, andThen, Parser.ofMode]
  revert hr
  generalize p.run true i p.init = o
  obtain ⟨r, k, s⟩ := o
  intro hr
  have he := hS.inputAtEof_eq k
  cases r with
  | commitOk v =>
    cases hv : f v with
    | ok z => simp [Out.answer, Answer.of, Answer.shape, hv]
    | error e =>
      simp only [hv]
      rw [he]
      intro h
      exfalso
      revert h
      split
      · cases (S.inputAtEof k).1
        · simp [Out.answer, Answer.of, Answer.shape]
        · simp [hS.tryReset_eq hr, Out.answer, Answer.of, Answer.shape]
      · simp [Out.answer, Answer.of, Answer.shape]
  | peekOk v =>
    cases hv : f v with
    | ok z => simp [Out.answer, Answer.of, Answer.shape, hv]
    | error e => exact fun _ => .inr ⟨v, k, e, rfl, hv⟩
  | peekErr e => exact fun _ => .inl rfl
  | commitErr e => simp [Out.answer, Answer.of, Answer.shape]
  | abort a => simp [Out.answer, Answer.of, Answer.shape]

private theorem and_then_soft_of (hS : S.Lawful) {p : Parser S σ α} (hm : Moves p) (f : α → Except S.SErr β) {i : S.Input}
    (hi : S.isPartial i = false)
    (h : p.shape i = .soft ∨ ∃ v j e, p.shape i = .ok false v j ∧ f v = .error e) : (andThen p f).shape i = .soft := by
  have hr := hm.run true i p.init
  revert h
  simp only [Parser.shape, Parser.answer, andThen, Parser.ofMode]
  revert hr
  generalize p.run true i p.init = o
  obtain ⟨r, k, s⟩ := o
  rintro ⟨ts, hr⟩
  have hk : S.isPartial k = false := by rw [hS.reads_isPartial hr, hi]
  cases r with
  | commitOk v => simp [Out.answer, Answer.of, Answer.shape]
  | peekOk v =>
    simp only [Out.answer, Answer.of, Answer.shape]
    rintro (h | ⟨v', j, e, h1, h2⟩)
    · cases h
    · cases h1
      simp [h2, hk]
  | peekErr e => exact fun _ => rfl
  | commitErr e => simp [Out.answer, Answer.of, Answer.shape]
  | abort a => simp [Out.answer, Answer.of, Answer.shape]

/-- **C63.**  `and_then`: the texts of `p` whose value is accepted. -/
theorem C63_is_and_then (hS : S.Lawful) {p : Parser S σ α} (hm : Moves p) (hp : Describes L p) (f : α → Except S.SErr β) :
    Describes (fun w y o => ∃ v, L w v o ∧ f v = .ok y) (andThen p f) := by
  refine ⟨?_, ?_⟩
  · rintro w y i k hi h ⟨v, h1, h2⟩
    exact (and_then_ok hS hm f).2 ⟨v, hp.back w v i k hi h h1, h2⟩
  · intro i c y k h
    obtain ⟨v, h1, h2⟩ := (and_then_ok hS hm f).1 h
    obtain ⟨w, h3, h4, h5⟩ := hp.only i c v k h1
    exact ⟨w, h3, h4, v, h5, h2⟩

/-- **C63.**  It fails where `p` does, and where `p` takes nothing and the value is rejected. -/
theorem C63_is_and_then_fails (hS : S.Lawful) {p : Parser S σ α} (hm : Moves p) (hp : Describes L p) (hg : FailsBy G p)
    (f : α → Except S.SErr β) : FailsBy (fun o => G o ∨ ∃ v e, L [] v o ∧ f v = .error e) (andThen p f) := by
  refine ⟨?_, ?_⟩
  · rintro i hi (h | ⟨v, e, h1, h2⟩)
    · exact and_then_soft_of hS hm f hi (.inl (hg.back i hi h))
    · exact and_then_soft_of hS hm f hi (.inr ⟨v, i, e, hp.back [] v i i hi (.nil i) h1, h2⟩)
  · intro i h
    rcases and_then_soft hS hm f h with h | ⟨v, j, e, h1, h2⟩
    · exact .inl (hg.only i h)
    · obtain ⟨w, h3, h4, h5⟩ := hp.only i _ v j h1
      cases w with
      | nil => rw [Strm.reads_nil] at h3; subst h3; exact .inr ⟨v, e, h5, h2⟩
      | cons t w => cases h4

/-! ## `recognize` -/

private theorem reads_same (hS : S.Lawful) {i k : S.Input} {u w : List S.Tok} (h : S.Reads i u k) (h' : S.Reads i w k) : u = w := by
  rcases reads_comparable h h' with ⟨cs, e, h1⟩ | ⟨cs, e, h1⟩
  · rw [hS.reads_self h1] at e; simpa using e.symm
  · rw [hS.reads_self h1] at e; simpa using e

private theorem recognized_ok (hS : S.Lawful) (hR : R.Lawful toks wt) {p : Parser S σ α} (hm : Moves p) {i k : S.Input} {c : Bool}
    {x : S.Rng × α} : (recognizeWithValue R p).shape i = .ok c x k ↔
      (∃ c', p.shape i = .ok c' x.2 k) ∧ S.Reads i (toks x.1) k ∧ c = !(toks x.1).isEmpty := by
  have h := C18_recognize_with_value hS hR hm i
  simp only [Parser.shape]
  unfold Strm.IsRecognized at h
  obtain ⟨r, y⟩ := x
  cases ha : p.answer i with
  | ok c' v j =>
    rw [ha] at h
    obtain ⟨r', h1, h2⟩ := h
    rw [h2]
    simp only [Answer.shape]
    constructor
    · intro h; cases h; exact ⟨⟨c', rfl⟩, h1, rfl⟩
    · rintro ⟨⟨c'', h⟩, h3, rfl⟩
      cases h
      rw [hR.inj (reads_same hS h1 h3)]
  | soft => rw [ha] at h; rw [h]; simp [Answer.shape]
  | hard e => rw [ha] at h; rw [h]; simp [Answer.shape]
  | abort a => rw [ha] at h; rw [h]; simp [Answer.shape]

private theorem recognized_soft (hS : S.Lawful) (hR : R.Lawful toks wt) {p : Parser S σ α} (hm : Moves p) {i : S.Input} :
    (recognizeWithValue R p).shape i = .soft ↔ p.shape i = .soft := by
  have h := C18_recognize_with_value hS hR hm i
  simp only [Parser.shape]
  unfold Strm.IsRecognized at h
  cases ha : p.answer i with
  | ok c' v j =>
    rw [ha] at h
    obtain ⟨r', h1, h2⟩ := h
    rw [h2]; simp [Answer.shape]
  | soft => rw [ha] at h; rw [h]; exact ⟨fun _ => rfl, fun _ => rfl⟩
  | hard e => rw [ha] at h; rw [h]; simp [Answer.shape]
  | abort a => rw [ha] at h; rw [h]; simp [Answer.shape]

/-- **C63.**  `recognize_with_value`: the texts of `p`, with the text itself as a range beside the value. -/
theorem C63_is_recognize_with_value (hS : S.Lawful) (hR : R.Lawful toks wt) {p : Parser S σ α} (hm : Moves p) (hp : Describes L p) :
    Describes (fun w x o => toks x.1 = w ∧ L w x.2 o) (recognizeWithValue R p) := by
  refine ⟨?_, ?_⟩
  · rintro w x i k hi h ⟨rfl, h1⟩
    exact (recognized_ok hS hR hm).2 ⟨⟨_, hp.back _ _ i k hi h h1⟩, h, rfl⟩
  · intro i c x k h
    obtain ⟨⟨c', h1⟩, h2, h3⟩ := (recognized_ok hS hR hm).1 h
    obtain ⟨w, h4, _, h5⟩ := hp.only i c' _ k h1
    exact ⟨toks x.1, h2, h3, rfl, reads_same hS h2 h4 ▸ h5⟩

/-- **C63.**  It fails where `p` does. -/
theorem C63_is_recognize_with_value_fails (hS : S.Lawful) (hR : R.Lawful toks wt) {p : Parser S σ α} (hm : Moves p)
    (hg : FailsBy G p) : FailsBy G (recognizeWithValue R p) :=
  ⟨fun i hi h => (recognized_soft hS hR hm).2 (hg.back i hi h), fun i h => hg.only i ((recognized_soft hS hR hm).1 h)⟩

/-- **C63.**  `range::recognize`: the texts of `p`, as ranges. -/
theorem C63_is_recognize_range (hS : S.Lawful) (hR : R.Lawful toks wt) {p : Parser S σ α} (hm : Moves p) (hp : Describes L p) :
    Describes (fun w r o => toks r = w ∧ ∃ v, L w v o) (recognizeRange R p) := by
  have h := C63_is_map (C63_is_recognize_with_value hS hR hm hp) fun x => x.1
  refine C63_is_iff (p := recognizeRange R p) ⟨h.back, h.only⟩ fun w r o => ?_
  constructor
  · rintro ⟨x, ⟨h1, h2⟩, rfl⟩; exact ⟨h1, _, h2⟩
  · rintro ⟨h1, v, h2⟩; exact ⟨(r, v), ⟨h1, h2⟩, rfl⟩

/-- **C63.**  It fails where `p` does. -/
theorem C63_is_recognize_range_fails (hS : S.Lawful) (hR : R.Lawful toks wt) {p : Parser S σ α} (hm : Moves p)
    (hg : FailsBy G p) : FailsBy G (recognizeRange R p) := by
  have h := C63_is_map_fails (C63_is_recognize_with_value_fails hS hR hm hg) fun x => x.1
  exact ⟨h.back, h.only⟩

/-- **C63.**  `combinator::recognize`, where positions tell places apart: the texts of `p`, as collections of tokens. -/
theorem C63_is_recognize (hS : S.Lawful) (hpos : S.Positioned) {p : Parser S σ α} (hm : Moves p) (hp : Describes L p) :
    Describes (fun w ts o => ts = w ∧ ∃ v, L w v o) (recognize p) := by
  have key : ∀ i c ts k, (recognize p).shape i = .ok c ts k ↔ (∃ v, p.shape i = .ok c v k) ∧ S.Reads i ts k := by
    intro i c ts k
    have h := C18_recognize hS hpos hm i
    simp only [Parser.shape]
    cases ha : p.answer i with
    | ok c' v j =>
      rw [ha] at h
      obtain ⟨us, h1, h2⟩ := h
      rw [h2]
      simp only [Answer.shape]
      constructor
      · intro h; cases h; exact ⟨⟨v, rfl⟩, h1⟩
      · rintro ⟨⟨v', h⟩, h3⟩
        cases h
        rw [reads_same hS h1 h3]
    | soft => rw [ha] at h; simp only at h; rw [h]; simp [Answer.shape]
    | hard e => rw [ha] at h; simp only at h; rw [h]; simp [Answer.shape]
    | abort a => rw [ha] at h; simp only at h; rw [h]; simp [Answer.shape]
  refine ⟨?_, ?_⟩
  · rintro w ts i k hi h ⟨rfl, v, h1⟩
    exact (key _ _ _ _).2 ⟨⟨v, hp.back _ _ i k hi h h1⟩, h⟩
  · intro i c ts k h
    obtain ⟨⟨v, h1⟩, h2⟩ := (key _ _ _ _).1 h
    obtain ⟨w, h4, h6, h5⟩ := hp.only i c _ k h1
    have e := reads_same hS h2 h4
    exact ⟨w, h4, h6, e, v, h5⟩

/-- **C63.**  It fails where `p` does. -/
theorem C63_is_recognize_fails (hS : S.Lawful) (hpos : S.Positioned) {p : Parser S σ α} (hm : Moves p)
    (hg : FailsBy G p) : FailsBy G (recognize p) := by
  have key : ∀ i, (recognize p).shape i = .soft ↔ p.shape i = .soft := by
    intro i
    have h := C18_recognize hS hpos hm i
    simp only [Parser.shape]
    cases ha : p.answer i with
    | ok c' v j =>
      rw [ha] at h
      obtain ⟨us, h1, h2⟩ := h
      rw [h2]; simp [Answer.shape]
    | soft => rw [ha] at h; simp only at h; rw [h]; exact ⟨fun _ => rfl, fun _ => rfl⟩
    | hard e => rw [ha] at h; simp only at h; rw [h]; simp [Answer.shape]
    | abort a => rw [ha] at h; simp only at h; rw [h]; simp [Answer.shape]
  exact ⟨fun i hi h => (key i).2 (hg.back i hi h), fun i h => hg.only i ((key i).1 h)⟩

end Verif
