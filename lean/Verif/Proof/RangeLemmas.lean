import Verif.Proof.Moves
import Verif.Spec.Ranges

/-! # Prefixes of a stream are determined by their size -/

namespace Verif

variable {S : Strm} {R : RangeOps S} {toks : S.Rng → List S.Tok} {w : S.Tok → Nat}

theorem weight_append {T : Type} (w : T → Nat) (a b : List T) : weight w (a ++ b) = weight w a + weight w b := by
  simp [weight]

theorem weight_cons {T : Type} (w : T → Nat) (t : T) (ts : List T) : weight w (t :: ts) = w t + weight w ts := by
  simp [weight]

theorem weight_eq_zero {T : Type} {w : T → Nat} (hw : ∀ t, 0 < w t) {ts : List T} : weight w ts = 0 ↔ ts = [] := by
  cases ts with
  | nil => simp [weight]
  | cons t ts => have := hw t; simp [weight]; omega

/-- Two runs of reads from the same place: one continues the other. -/
theorem reads_comparable {i j k : S.Input} {as bs : List S.Tok} (h : S.Reads i as j) (h' : S.Reads i bs k) :
    (∃ cs, bs = as ++ cs ∧ S.Reads j cs k) ∨ (∃ cs, as = bs ++ cs ∧ S.Reads k cs j) := by
  induction h generalizing bs with
  | nil i => exact .inl ⟨bs, rfl, h'⟩
  | @cons i j l t ts h1 h2 ih =>
    cases h' with
    | nil => exact .inr ⟨t :: ts, rfl, .cons h1 h2⟩
    | cons h1' h2' =>
      cases h1.symm.trans h1'
      rcases ih h2' with ⟨cs, rfl, h⟩ | ⟨cs, rfl, h⟩
      · exact .inl ⟨cs, rfl, h⟩
      · exact .inr ⟨cs, rfl, h⟩

theorem reads_weight_unique (hw : ∀ t, 0 < w t) {i j k : S.Input} {as bs : List S.Tok} (h : S.Reads i as j)
    (h' : S.Reads i bs k) (he : weight w as = weight w bs) : as = bs ∧ j = k := by
  rcases reads_comparable h h' with ⟨cs, rfl, hc⟩ | ⟨cs, rfl, hc⟩
  · rw [weight_append] at he
    have : cs = [] := (weight_eq_zero hw).1 (by omega)
    subst this
    exact ⟨by simp, (Strm.reads_nil.1 hc).symm⟩
  · rw [weight_append] at he
    have : cs = [] := (weight_eq_zero hw).1 (by omega)
    subst this
    exact ⟨by simp, Strm.reads_nil.1 hc⟩

theorem reads_length_unique {i j k : S.Input} {as bs : List S.Tok} (h : S.Reads i as j)
    (h' : S.Reads i bs k) (he : as.length = bs.length) : as = bs ∧ j = k := by
  rcases reads_comparable h h' with ⟨cs, rfl, hc⟩ | ⟨cs, rfl, hc⟩
  · have : cs = [] := List.length_eq_zero_iff.1 (by rw [List.length_append] at he; omega)
    subst this
    exact ⟨by simp, (Strm.reads_nil.1 hc).symm⟩
  · have : cs = [] := List.length_eq_zero_iff.1 (by rw [List.length_append] at he; omega)
    subst this
    exact ⟨by simp, Strm.reads_nil.1 hc⟩

/-- Taking as much as was read gives what was read. -/
theorem unconsRange_reads (hR : R.Lawful toks w) {i j : S.Input} {ts : List S.Tok} (h : S.Reads i ts j) :
    ∃ r, toks r = ts ∧ R.unconsRange (weight w ts) i = (.ok r, j) := by
  cases hx : R.unconsRange (weight w ts) i with
  | mk x k =>
    cases x with
    | error e => exact absurd rfl ((hR.range_error hx).2 ts j h)
    | ok r =>
      obtain ⟨h1, h2⟩ := hR.range_ok hx
      rw [hR.len] at h2
      obtain ⟨h3, rfl⟩ := reads_weight_unique hR.pos h1 h h2
      exact ⟨r, h3, rfl⟩

theorem unconsRangeP_reads (hR : R.Lawful toks w) {i j : S.Input} {ts : List S.Tok} (h : S.Reads i ts j) :
    ∃ r, toks r = ts ∧
      R.unconsRangeP (weight w ts) i = (if weight w ts = 0 then .peekOk r else .commitOk r, j) := by
  obtain ⟨r, h1, h2⟩ := unconsRange_reads hR h
  exact ⟨r, h1, by simp only [RangeOps.unconsRangeP, h2]⟩

theorem retake_eq {σ α : Type} (hS : S.Lawful) (hR : R.Lawful toks w) {i j : S.Input} {ts : List S.Tok}
    (h : S.Reads i ts j) (s : Nat × σ) (f : S.Rng → α) :
    ∃ r, toks r = ts ∧ retake R (S.checkpoint i) s j f =
      ⟨if ts = [] then .peekOk (f r) else .commitOk (f r), j, (0, s.2)⟩ := by
  obtain ⟨r, h1, h2⟩ := unconsRangeP_reads hR h
  refine ⟨r, h1, ?_⟩
  simp only [retake]
  rw [hS.tryReset_eq ⟨ts, h⟩, hR.distance h, h2]
  by_cases hz : ts = []
  · simp [hz, weight, ParseResult.map, ParseResult.isOk]
  · have : ¬ weight w ts = 0 := fun h => hz ((weight_eq_zero hR.pos).1 h)
    simp [hz, this, ParseResult.map, ParseResult.isOk]

theorem accepts_pure (f : S.Tok → Bool) (ts : List S.Tok) :
    accepts (pureP f) () ts = some () → ∀ t ∈ ts, f t = true := by
  induction ts with
  | nil => simp
  | cons t ts ih =>
    intro h
    cases ht : f t with
    | false => simp [accepts, pureP, ht] at h
    | true =>
      simp only [accepts, pureP, ht] at h
      intro x hx
      cases hx with
      | head => exact ht
      | tail _ hx => exact ih h x hx

theorem scan_longest {f : S.Tok → Bool} {i j : S.Input} {ts : List S.Tok} {s' : Unit}
    (h : S.Scan (pureP f) () i ts s' j) : S.LongestPrefix f i ts j := by
  obtain ⟨h1, s1, h2, h3⟩ := h
  refine ⟨h1, accepts_pure f ts h2, ?_⟩
  rcases h3 with ⟨h3, _⟩ | ⟨t, k, h3, h4⟩
  · exact .inl h3
  · refine .inr ⟨t, k, h3, ?_⟩
    simpa [pureP] using congrArg Prod.fst h4

theorem inputAtEof_iff (hS : S.Lawful) (he : S.EndsOnly) (i : S.Input) :
    (S.inputAtEof i).1 = true ↔ S.AtEnd i := by
  unfold Strm.inputAtEof Strm.AtEnd
  cases h : S.uncons i with
  | mk r j =>
    cases r with
    | ok t => simp
    | error e =>
      have := hS.uncons_error h
      subst this
      simp [hS.reset_self, he _ _ _ h]

/-- Re-reading up to the position where the parser stopped gives back what it read. -/
theorem replay_eq (hS : S.Lawful) (hp : S.Positioned) {i j : S.Input} {ts : List S.Tok}
    (h : S.Reads i ts j) (n : Nat) (hn : ts.length < n) (els : List S.Tok) :
    replay S (S.position j) n i els = (.done, j, els ++ ts) := by
  induction h generalizing n els with
  | nil i =>
    obtain ⟨n, rfl⟩ : ∃ m, n = m + 1 := ⟨n - 1, by omega⟩
    simp [replay]
  | @cons i j k t ts h1 h2 ih =>
    obtain ⟨n, rfl⟩ : ∃ m, n = m + 1 := ⟨n - 1, by omega⟩
    simp only [List.length_cons] at hn
    have hne : ¬ S.position i = S.position k := fun h => by
      have := hp i (t :: ts) k (.cons h1 h2) h
      cases this
    simp only [replay, if_neg hne, h1]
    rw [ih n (by omega)]
    simp

end Verif
