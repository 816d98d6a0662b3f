import Verif.Props.ExactRanges
import Verif.Props.Escaped

/-!
# C63, C60: exactly which texts `escaped` accepts
-/

namespace Verif

variable {S : Strm} {σ τ α β : Type} {H : Option S.Tok → Prop} {L : Texts S.Tok α} {M : Texts S.Tok β}

/-- Ordinary parts `L`, and escapes: the token `esc`, where no ordinary part begins (`H`), and one of `M`.  At the end neither an
ordinary part nor `esc` follows. -/
inductive Texts.Escaped {T : Type} (L : Texts T α) (H : Option T → Prop) (esc : T) (M : Texts T β) : Texts T Unit where
  | nil {o : Option T} : H o → o ≠ some esc → Texts.Escaped L H esc M [] () o
  | plain {u z : List T} {v : α} {o : Option T} : L u v (lead z o) → Texts.Escaped L H esc M z () o →
      Texts.Escaped L H esc M (u ++ z) () o
  | escape {u z : List T} {v : β} {o : Option T} : H (some esc) → M u v (lead z o) → Texts.Escaped L H esc M z () o →
      Texts.Escaped L H esc M (esc :: (u ++ z)) () o

private theorem escapes_takes {p : Sem S.Input Unit α} {q : Sem S.Input Unit β} (hp : Takes L p) (hf : Leaves H p) (hq : Takes M q)
    {esc : S.Tok} {i k : S.Input} {c : Bool} (h : S.Escapes p esc q i c k) (hk : H (S.ahead k)) (hk' : S.ahead k ≠ some esc) :
    ∃ w, S.Reads i w k ∧ c = (!w.isEmpty) ∧ Texts.Escaped L H esc M w () (S.ahead k) := by
  induction h with
  | nil i => exact ⟨[], .nil i, rfl, .nil hk hk'⟩
  | plain h1 _ ih =>
    obtain ⟨z, z1, rfl, z3⟩ := ih hk hk'
    obtain ⟨u, u1, rfl, u3⟩ := hp _ _ _ _ h1
    exact ⟨u ++ z, reads_append u1 z1, isEmpty_append_not u z, .plain (ahead_reads z1 ▸ u3) z3⟩
  | escape h1 h2 h3 _ ih =>
    obtain ⟨z, z1, rfl, z3⟩ := ih hk hk'
    obtain ⟨u, u1, rfl, u3⟩ := hq _ _ _ _ h3
    exact ⟨esc :: (u ++ z), .cons h2 (reads_append u1 z1), rfl,
      .escape (ahead_some h2 ▸ hf _ h1) (ahead_reads z1 ▸ u3) z3⟩

private theorem escapes_back (hS : S.Lawful) {p : Parser S σ α} {q : Parser S τ β} (hp : Describes L p) (hf : FailsBy H p)
    (hq : Describes M q) {esc : S.Tok} {w : List S.Tok} {o : Option S.Tok} (h : Texts.Escaped L H esc M w () o) (i k : S.Input)
    (hi : S.isPartial i = false) (hr : S.Reads i w k) (ho : S.ahead k = o) :
    S.Escapes p.shape esc q.shape i (!w.isEmpty) k ∧ H o ∧ o ≠ some esc := by
  generalize hu : () = x at h
  induction h generalizing i with
  | nil h1 h2 => cases Strm.reads_nil.1 hr; exact ⟨.nil _, h1, h2⟩
  | @plain u z v o h1 _ ih =>
    obtain ⟨j, r1, r2⟩ := reads_split hr
    obtain ⟨g1, g2⟩ := ih j (by rw [hS.reads_isPartial r1, hi]) r2 ho rfl
    rw [← isEmpty_append_not]
    exact ⟨.plain (hp.back u v i j hi r1 (by rw [ahead_reads r2, ho]; exact h1)) g1, g2⟩
  | @escape u z v o h0 h1 _ ih =>
    cases hr with
    | @cons _ l _ _ _ hu hr =>
      have hl : S.isPartial l = false := by rw [hS.reads_isPartial (.cons hu (.nil l)), hi]
      obtain ⟨j, r1, r2⟩ := reads_split hr
      obtain ⟨g1, g2⟩ := ih j (by rw [hS.reads_isPartial r1, hl]) r2 ho rfl
      exact ⟨.escape (hf.back i hi (by rw [ahead_some hu]; exact h0)) hu
        (hq.back u v l j hl r1 (by rw [ahead_reads r2, ho]; exact h1)) g1, g2⟩

/-- **C63, C60.**  `escaped` accepts exactly those texts. -/
theorem C63_is_escaped [DecidableEq S.Tok] (hS : S.Lawful) {p : Parser S σ α} {q : Parser S τ β} (hmp : Moves p) (hmq : Moves q)
    (hcp : Coherent p) (hcq : Coherent q) (hc : Consuming p) (hst : Stays p) (hqc : Commits q) (esc : S.Tok)
    (hp : Describes L p) (hf : FailsBy H p) (hq : Describes M q) :
    Describes (Texts.Escaped L H esc M) (escaped p esc q) := by
  have he := C42_escaped hS hmp hmq hcp hcq hc hst hqc esc
  constructor
  · intro w v i k hi hr h
    obtain ⟨h1, h2, h3⟩ := escapes_back hS hp hf hq h i k hi hr rfl
    refine C42_unique (he i) ⟨_, k, h1, ?_⟩
    have hk : S.isPartial k = false := by rw [hS.reads_isPartial hr, hi]
    rw [hf.back k hk h2]
    dsimp only
    revert h3
    cases hu : S.uncons k with
    | mk x k' =>
      cases x with
      | ok t =>
        rw [ahead_some hu]
        intro h3
        dsimp only
        rw [if_neg (fun e => h3 (by rw [e]))]
      | error x =>
        intro _
        dsimp only
        cases hS.uncons_error hu
        rw [if_neg (by rw [hk]; simp)]
  · intro i c v k h
    obtain ⟨d, l, h1, h2⟩ := he i
    rw [show (escaped p esc q).shape i = _ from h] at h2
    cases hx : p.shape l with
    | ok _ _ _ => rw [hx] at h2; exact h2.elim
    | hard e => rw [hx] at h2; cases h2
    | abort e => rw [hx] at h2; cases h2
    | soft =>
      rw [hx] at h2
      dsimp only at h2
      have go : c = d → k = l → S.ahead l ≠ some esc → ∃ w, S.Reads i w k ∧ c = (!w.isEmpty) ∧ Texts.Escaped L H esc M w v (S.ahead k) := by
        rintro rfl rfl hne
        exact escapes_takes hp.only hf.only hq.only h1 (hf.only _ hx) hne
      cases hu : S.uncons l with
      | mk x k' =>
        rw [hu] at h2
        cases x with
        | ok t =>
          dsimp only at h2
          by_cases ht : t = esc
          · rw [if_pos ht] at h2
            cases hy : q.shape k' with
            | ok _ _ _ => rw [hy] at h2; exact h2.elim
            | _ => rw [hy] at h2; cases h2
          · rw [if_neg ht] at h2
            cases h2
            exact go rfl rfl (by rw [ahead_some hu]; exact fun e => ht (Option.some.inj e))
        | error x =>
          dsimp only at h2
          have : S.ahead l = none := by rw [Strm.ahead, hu]
          split at h2
          · cases h2
          · cases h2
            exact go rfl rfl (by rw [this]; intro h; cases h)

/-- **C63.**  It never fails without commitment. -/
theorem C63_is_escaped_fails [DecidableEq S.Tok] (hS : S.Lawful) {p : Parser S σ α} {q : Parser S τ β} (hmp : Moves p) (hmq : Moves q)
    (hcp : Coherent p) (hcq : Coherent q) (hc : Consuming p) (hst : Stays p) (hqc : Commits q) (esc : S.Tok) :
    FailsBy (fun _ => False) (escaped p esc q) := by
  refine ⟨fun _ _ h => h.elim, fun i hi => ?_⟩
  obtain ⟨d, l, h1, h2⟩ := C42_escaped hS hmp hmq hcp hcq hc hst hqc esc i
  rw [show (escaped p esc q).shape i = _ from hi] at h2
  cases hx : p.shape l with
  | ok _ _ _ => rw [hx] at h2; exact h2.elim
  | hard e => rw [hx] at h2; cases h2
  | abort e => rw [hx] at h2; cases h2
  | soft =>
    rw [hx] at h2
    dsimp only at h2
    revert h2
    split
    · split <;> intro h <;> cases h
    · split
      · split <;> intro h <;> first | exact h | cases h
      · intro h; cases h

/-! ## The text of a string literal -/

/-- Tokens other than `quote` and `esc`, and pairs of `esc` and any token. -/
inductive LiteralText {T : Type} (quote esc : T) : List T → Prop where
  | nil : LiteralText quote esc []
  | plain {t : T} {w : List T} : t ≠ quote → t ≠ esc → LiteralText quote esc w → LiteralText quote esc (t :: w)
  | escape (t : T) {w : List T} : LiteralText quote esc w → LiteralText quote esc (esc :: t :: w)

private theorem literal_append {T : Type} {quote esc : T} {u w : List T} (hu : ∀ t ∈ u, t ≠ quote ∧ t ≠ esc)
    (hw : LiteralText quote esc w) : LiteralText quote esc (u ++ w) := by
  induction u with
  | nil => exact hw
  | cons t u ih =>
    exact .plain (hu t (by simp)).1 (hu t (by simp)).2 (ih fun x hx => hu x (List.mem_cons_of_mem _ hx))

section
variable {R : RangeOps S} {toks : S.Rng → List S.Tok} {wt : S.Tok → Nat} [DecidableEq S.Tok]

/-- What may stand between the quotes, apart from escapes. -/
abbrev ordinary (quote esc : S.Tok) (t : S.Tok) : Bool := decide (t ≠ quote ∧ t ≠ esc)

private theorem literal_iff (hreach : ∀ w : List S.Tok, ∃ r, toks r = w) {quote esc : S.Tok}
    (hq : quote ≠ esc) (w : List S.Tok) (v : Unit) (o : Option S.Tok) :
    Texts.Escaped (fun w r o => toks r = w ∧ w ≠ [] ∧ (∀ t ∈ w, ordinary quote esc t = true) ∧ ∀ t, o = some t → ordinary quote esc t = false)
      (fun o => ∀ t, o = some t → ordinary quote esc t = false) esc (fun w v _ => ∃ t, w = [t] ∧ some t = some v) w v o ↔
    LiteralText quote esc w ∧ (o = none ∨ o = some quote) := by
  constructor
  · intro h
    induction h with
    | @nil o h1 h2 =>
      refine ⟨.nil, ?_⟩
      cases o with
      | none => exact .inl rfl
      | some t =>
        have := h1 t rfl
        simp only [ordinary, decide_eq_false_iff_not, not_and, Decidable.not_not] at this
        by_cases ht : t = quote
        · exact .inr (by rw [ht])
        · exact absurd (by rw [this ht]) h2
    | plain h1 _ ih => exact ⟨literal_append (fun t ht => of_decide_eq_true (h1.2.2.1 t ht)) ih.1, ih.2⟩
    | escape h0 h1 _ ih =>
      obtain ⟨t, rfl, _⟩ := h1
      exact ⟨.escape t ih.1, ih.2⟩
  · rintro ⟨h, ho⟩
    have he : ordinary quote esc esc = false := by simp [ordinary]
    induction h with
    | nil =>
      rcases ho with rfl | rfl
      · exact .nil (fun _ h => by cases h) (fun h => by cases h)
      · exact .nil (fun t h => by cases h; simp [ordinary]) (fun h => hq (Option.some.inj h))
    | @plain t w h1 h2 _ ih =>
      have ht : ordinary quote esc t = true := decide_eq_true ⟨h1, h2⟩
      have one : (∀ x, lead w o = some x → ordinary quote esc x = false) → Texts.Escaped (fun w r o => toks r = w ∧ w ≠ [] ∧
          (∀ t ∈ w, ordinary quote esc t = true) ∧ ∀ t, o = some t → ordinary quote esc t = false)
          (fun o => ∀ t, o = some t → ordinary quote esc t = false) esc (fun w v _ => ∃ t, w = [t] ∧ some t = some v) (t :: w) v o := by
        intro hl
        obtain ⟨r, hr⟩ := hreach [t]
        exact .plain (u := [t]) (v := r) ⟨hr, by simp, by simpa using ht, hl⟩ ih
      cases ih with
      | nil g1 g2 => exact one g1
      | @plain u z x _ g1 g2 =>
        obtain ⟨r, hr⟩ := hreach (t :: u)
        refine .plain (u := t :: u) (v := r) ⟨hr, by simp, ?_, g1.2.2.2⟩ g2
        intro y hy
        rcases List.mem_cons.1 hy with rfl | hy
        · exact ht
        · exact g1.2.2.1 y hy
      | escape g0 g1 g2 => exact one (fun x hx => by cases hx; exact he)
    | escape t _ ih => exact .escape (u := [t]) (v := t) (fun x hx => by cases hx; exact he) ⟨t, rfl, rfl⟩ ih

omit [DecidableEq S.Tok] in
private theorem any_commits (hS : S.Lawful) : Commits (any S) := by
  intro i c v j h
  obtain ⟨w, _, h2, t, rfl, _⟩ := (C63_is_one (C53_any hS)).only i c v j (by rw [Parser.shape, h]; rfl)
  exact h2

/-- **C63.**  `escaped(take_while1(|c| c != quote && c != esc), esc, any())`, the text of a string literal: exactly such texts, up to
a quote or the end of the input. -/
theorem C63_is_literal_text [DecidableEq S.Rng] (hS : S.Lawful) (hR : R.Lawful toks wt) (hE : S.EndsOnly) (hreach : ∀ w : List S.Tok, ∃ r, toks r = w)
    {quote esc : S.Tok} (hq : quote ≠ esc) :
    Describes (fun w _ o => LiteralText quote esc w ∧ (o = none ∨ o = some quote))
      (escaped (takeWhile1 R (ordinary quote esc)) esc (any S)) :=
  C63_is_iff (C63_is_escaped hS (Built.moves hS hR (.takeWhile1 _)) (Built.moves hS hR .any) (Built.coherent hS hR (.takeWhile1 _))
    (Built.coherent hS hR .any) (consuming_takeWhile1 hS hR hE _) (stays_takeWhile1 hS hR _) (any_commits hS) esc
    (C63_is_take_while1 hS hR hE _) (C63_is_take_while1_fails hS hR hE _) (C63_is_one (C53_any hS))) fun w v o =>
    literal_iff hreach hq w v o

/-- **C63.**  `between(token(quote), token(quote), recognize(..))` of it: exactly the string literals, and the value is what stands
between the quotes. -/
theorem C63_is_literal [DecidableEq S.Rng] (hS : S.Lawful) (hR : R.Lawful toks wt) (hE : S.EndsOnly) (hreach : ∀ w : List S.Tok, ∃ r, toks r = w)
    {quote esc : S.Tok} (hq : quote ≠ esc) :
    Describes (fun w r _ => w = quote :: (toks r ++ [quote]) ∧ LiteralText quote esc (toks r))
      (between (token S quote) (token S quote) (recognizeRange R (escaped (takeWhile1 R (ordinary quote esc)) esc (any S)))) := by
  have hm : Moves (escaped (takeWhile1 R (ordinary quote esc)) esc (any S)) :=
    Built.moves hS hR (.escaped esc (.takeWhile1 _) .any)
  refine C63_is_iff (C63_is_between hS (C63_is_one (C53_token hS quote))
    (C63_is_recognize_range hS hR hm (C63_is_literal_text hS hR hE hreach hq)) (C63_is_one (C53_token hS quote))) fun w r o => ?_
  constructor
  · rintro ⟨_, _, _, rfl, ⟨t, rfl, h1⟩, _, _, r', rfl, ⟨rfl, _, h2, _⟩, _, ⟨t', rfl, h3⟩, rfl⟩
    have e1 : t = quote := Decidable.byContradiction fun h => by rw [if_neg h] at h1; cases h1
    have e2 : t' = quote := Decidable.byContradiction fun h => by rw [if_neg h] at h3; cases h3
    subst e1 e2
    exact ⟨rfl, h2⟩
  · rintro ⟨rfl, h⟩
    exact ⟨[quote], _, quote, rfl, ⟨quote, rfl, if_pos rfl⟩, toks r, [quote], r, rfl, ⟨rfl, (), h, .inr rfl⟩, quote,
      ⟨quote, rfl, if_pos rfl⟩, rfl⟩

end

/-! ## Concrete cases -/

private abbrev B := sliceS Nat 1
private abbrev R := sliceR Nat 1

-- the hypotheses are met
example : Describes (S := B) (fun w r _ => w = 34 :: (r ++ [34]) ∧ LiteralText 34 92 r)
    (between (token B 34) (token B 34) (recognizeRange R (escaped (takeWhile1 R (ordinary (S := B) 34 92)) 92 (any B)))) :=
  C63_is_literal (slice_lawful _ _) (sliceR_lawful _ _) (slice_endsOnly _ _) (fun w => ⟨w, rfl⟩) (by decide)

-- `"a\"b"c`
example : (between (token B 34) (token B 34) (recognizeRange R (escaped (takeWhile1 R (ordinary (S := B) 34 92)) 92 (any B)))).answer
    ⟨0, [34, 97, 92, 34, 98, 34, 99]⟩ = .ok true [97, 92, 34, 98] ⟨6, [99]⟩ := rfl

end Verif
