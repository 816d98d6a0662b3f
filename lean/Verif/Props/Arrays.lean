import Verif.Proof.ResumeSlice
import Verif.Props.Chunks

/-!
# C48: choices over an array or slice

They share one partial state between the alternatives and remember the number of the one that asked for more.
-/

namespace Verif

variable {S : Strm} [DecidableEq S.Tok] [DecidableEq S.Rng] {V : Ranges S} {σ α γ : Type}
  {f : γ → Parser S σ α} {F : γ → Den S.Tok α} {k : Bool} {n : σ} {mk : Nat → List S.Tok → Bool → S.Input}

/-- **C48.**  What a choice over an array does, on any input, when started afresh: what the first alternative that does
not fail softly does. -/
theorem C48_denotes (hF : S.Feedable) (hf : FragAll V f F k true n) (vs : List γ) (i : S.Input) :
    match Den.firstOf (vs.map F) (S.isPartial i) (S.left i) with
    | .ok c v l => ∃ j, (sliceChoice (vs.map f) n).answer i = .ok c v j ∧ S.Reach i j ∧ S.left j = l
    | .pend => ∃ e, (sliceChoice (vs.map f) n).answer i = .hard e ∧ S.E.isEoi e = true
    | .soft => (sliceChoice (vs.map f) n).answer i = .soft
    | .hard => ∃ e, (sliceChoice (vs.map f) n).answer i = .hard e := by
  obtain ⟨Rdy, RepN, h0, hr, _⟩ := fragAll_resumable hF hf
  have h1 := sliceRun_step hF.lawful (hr (S.isPartial i)) true i rfl vs n (h0 _)
  have h2 := sliceLoop_hard hF.lawful (hr (S.isPartial i)) i rfl (vs.map f) vs 0 0 none true i (.refl i) n (h0 _)
  have hx : sliceRun (vs.map f) true i (0, n) = sliceLoop (vs.map f) true (S.checkpoint i) (vs.map f) 0 0 none i (0, n) := by
    unfold sliceRun
    simp
  rw [← hx] at h2
  unfold Parser.answer Out.answer
  rw [show (sliceChoice (vs.map f) n).run true i (sliceChoice (vs.map f) n).init = sliceRun (vs.map f) true i (0, n) from rfl]
  revert h1 h2
  generalize sliceRun (vs.map f) true i (0, n) = o
  cases Den.firstOf (vs.map F) (S.isPartial i) (S.left i) with
  | ok c v l =>
    rintro ⟨⟨c', h1, h2⟩, h3, h4, _⟩ _
    refine ⟨o.inp, ?_, h3, h4⟩
    rw [h1, h2 rfl]
    cases c <;> rfl
  | pend =>
    rintro ⟨e, x, h1, h2, _⟩ _
    exact ⟨e, by rw [h1]; rfl, h2⟩
  | soft =>
    rintro ⟨_, ⟨e, h1⟩, _⟩ _
    simp only [h1]; rfl
  | hard =>
    rintro _ h
    obtain ⟨e, h⟩ := h rfl
    exact ⟨e, by rw [h]; rfl⟩

private theorem den_of_array (hF : S.Feedable) (hf : FragAll V f F k true n) (vs : List γ) {i j : S.Input} {c : Bool} {v : α}
    (h : (sliceChoice (vs.map f) n).answer i = .ok c v j) :
    Den.firstOf (vs.map F) (S.isPartial i) (S.left i) = .ok c v (S.left j) := by
  have h1 := C48_denotes hF hf vs i
  rw [h] at h1
  revert h1
  cases Den.firstOf (vs.map F) (S.isPartial i) (S.left i) with
  | ok c' v' l => rintro ⟨j', h1, _, h3⟩; cases h1; rw [h3]
  | pend => rintro ⟨e, h1, _⟩; cases h1
  | soft => intro h1; cases h1
  | hard => rintro ⟨e, h1⟩; cases h1

/-- **C48**, in part.  If the whole input is accepted by a choice over an array, then so is the same input in pieces,
with the same value and the same remainder, provided that the first piece is not empty and that no alternative fails
softly after it has seen something and asked for more.  (Without these provisos: `C48_empty_piece_fails`,
`C14_array_choice_fails`.) -/
theorem C48_chunks_partial (hF : S.Feedable) (hM : S.Source mk) (hf : FragAll V f F k true n) (vs : List γ)
    (hP : ∀ v ∈ vs, (F v).Prompt) (x : List S.Tok) (hx : x ≠ []) (chunks : List (List S.Tok)) (i : S.Input)
    (hi : S.left i = x ++ chunks.flatten) {c : Bool} {v : α} {j : S.Input}
    (h : (sliceChoice (vs.map f) n).answer i = .ok c v j) :
    feed (sliceChoice (vs.map f) n) mk (S.isPartial i) 0 (0, n) [] (x :: chunks) = .ok v (S.left j) := by
  have hS := hF.lawful
  have hd := den_of_array hF hf vs h
  rw [hi] at hd
  generalize S.isPartial i = open_ at hd
  obtain ⟨Rdy, RepN, h0, hr, _, hm⟩ := fragAll_resumable hF hf
  have hg : (Den.firstOf (vs.map F)).Good := .firstOf fun D hD => by
    obtain ⟨w, _, rfl⟩ := List.mem_map.1 hD
    exact (hr true w).good
  have hl := hM.left 0 ([] ++ x) (open_ || !chunks.isEmpty)
  have hp := hM.isPartial 0 ([] ++ x) (open_ || !chunks.isEmpty)
  rw [feed]
  generalize mk 0 ([] ++ x) (open_ || !chunks.isEmpty) = i at *
  have hst := sliceRun_step hS (hr (open_ || !chunks.isEmpty)) false i hp vs n (h0 _)
  rw [hl, List.nil_append] at hst
  cases hc : Den.firstOf (vs.map F) (open_ || !chunks.isEmpty) x with
  | ok c' v' z =>
    rw [hc] at hst
    obtain ⟨⟨c'', h1, _⟩, _, h3, _⟩ := hst
    have h1' : ((sliceChoice (vs.map f) n).run false i (0, n)).res = okRes c'' v' := h1
    rw [parseWithState_ok h1']
    dsimp only
    rw [show ((sliceChoice (vs.map f) n).run false i (0, n)).inp = (sliceRun (vs.map f) false i (0, n)).inp from rfl, h3]
    cases hmore : (open_ || !chunks.isEmpty) with
    | true =>
      rw [hmore] at hc
      rw [hg.stable_ok hc open_ chunks.flatten] at hd
      simp only [Outcome.ok.injEq] at hd
      rw [← hd.2.1, ← hd.2.2]
    | false =>
      simp only [Bool.or_eq_false_iff, Bool.not_eq_false', List.isEmpty_iff] at hmore
      obtain ⟨rfl, rfl⟩ := hmore
      simp only [List.flatten_nil, List.append_nil] at hd
      rw [show (false || !([] : List (List S.Tok)).isEmpty) = false from rfl, hd] at hc
      cases hc
      simp
  | pend =>
    cases hmore : (open_ || !chunks.isEmpty) with
    | false => rw [hmore] at hc; exact absurd hc (hg.complete _)
    | true =>
      rw [hc] at hst
      obtain ⟨e, y, h1, h2, h3, h4⟩ := hst
      have h1' : ((sliceChoice (vs.map f) n).run false i (0, n)).res = .commitErr e := h1
      rw [parseWithState_err h1']
      simp only [h2, Bool.and_self, if_true]
      have hly := hS.left_reads h3
      rw [hl, List.nil_append] at hly
      rw [hmore] at h4 hc
      have hcs : chunks ≠ [] := by
        rintro rfl
        simp only [List.isEmpty_nil, Bool.not_true, Bool.or_false] at hmore
        simp only [List.flatten_nil, List.append_nil] at hd
        rw [hmore, hc] at hd
        cases hd
      refine feed_of_step hg (A := fun live t => t.1 = 0 ∧ When k (Rdy live) t.2) (F := fun _ _ => True)
        (Rep := fun live t w u => SliceRep F (RepN live) vs t w u ∧ w ++ u ≠ [])
        (fun live t w u i hL ht hu => ?_) ?_ hM hS open_ chunks 1 _ y _ (fun live => ?_) hcs (c := c) ?_
      · subst hL
        exact sliceRun_resume hS (hr (S.isPartial i)) i rfl vs hP t ht.1 ht.2 hu
      · rintro t w u ⟨⟨vs₁, v, vs₂, h1, h2, h3, h4⟩, h5⟩
        exact ⟨⟨vs₁, v, vs₂, h1, h2, hm _ _ _ _ h3, h4⟩, h5⟩
      · refine ⟨?_, ?_⟩
        · cases live with
          | true => exact h4
          | false =>
            obtain ⟨vs₁, v, vs₂, h1, h2, h3, h4⟩ := h4
            exact ⟨vs₁, v, vs₂, h1, h2, hm _ _ _ _ h3, h4⟩
        · exact fun e => hx (hly.trans e)
      · rw [← List.append_assoc]
        rw [show y ++ S.left ((sliceChoice (vs.map f) n).run false i (0, n)).inp = x from hly.symm]
        exact hd
  | soft =>
    cases hmore : (open_ || !chunks.isEmpty) with
    | true =>
      rw [hmore] at hc
      rw [hg.stable_soft hc open_ chunks.flatten] at hd
      cases hd
    | false =>
      simp only [Bool.or_eq_false_iff, Bool.not_eq_false', List.isEmpty_iff] at hmore
      obtain ⟨rfl, rfl⟩ := hmore
      simp only [List.flatten_nil, List.append_nil] at hd
      rw [show (false || !([] : List (List S.Tok)).isEmpty) = false from rfl, hd] at hc
      cases hc
  | hard =>
    cases hmore : (open_ || !chunks.isEmpty) with
    | true =>
      rw [hmore] at hc
      rw [hg.stable x chunks.flatten open_ (by rw [hc]; simp), hc] at hd
      cases hd
    | false =>
      simp only [Bool.or_eq_false_iff, Bool.not_eq_false', List.isEmpty_iff] at hmore
      obtain ⟨rfl, rfl⟩ := hmore
      simp only [List.flatten_nil, List.append_nil] at hd
      rw [show (false || !([] : List (List S.Tok)).isEmpty) = false from rfl, hd] at hc
      cases hc

/-- **C48, C46.**  A choice over an array, called for one input after the other with its state kept, gives for each what
a fresh parse gives. -/
theorem C48_serve (hF : S.Feedable) (hf : FragAll V f F true true n) (vs : List γ) (live : Bool)
    (l : List (S.Input × α × S.Input))
    (h : ∀ x ∈ l, S.isPartial x.1 = live ∧ ∃ c, (sliceChoice (vs.map f) n).answer x.1 = .ok c x.2.1 x.2.2) :
    serve (sliceChoice (vs.map f) n) (0, n) (l.map (·.1)) = some (l.map fun x => (x.2.1, S.left x.2.2)) := by
  have hS := hF.lawful
  have hden : ∀ x ∈ l, S.isPartial x.1 = live ∧
      ∃ c, Den.firstOf (vs.map F) live (S.left x.1) = .ok c x.2.1 (S.left x.2.2) := by
    intro x hx
    obtain ⟨h1, c, h2⟩ := h x hx
    refine ⟨h1, c, ?_⟩
    have := den_of_array hF hf vs h2
    rwa [h1] at this
  clear h
  obtain ⟨Rdy, RepN, h0, hr, _⟩ := fragAll_resumable hF hf
  have hn := h0 live
  have key : ∀ s, Rdy live s → serve (sliceChoice (vs.map f) n) (0, s) (l.map (·.1)) =
      some (l.map fun x => (x.2.1, S.left x.2.2)) := by
    clear hn h0
    induction l with
    | nil => intro s _; rfl
    | cons x l ih =>
      intro s hs
      obtain ⟨h1, c, h2⟩ := hden x (by simp)
      have hst := sliceRun_step hS (hr live) false x.1 h1 vs s hs
      rw [h2] at hst
      obtain ⟨⟨c', h3, _⟩, _, h4, h5, h6⟩ := hst
      have h3' : ((sliceChoice (vs.map f) n).run false x.1 (0, s)).res = okRes c' x.2.1 := h3
      rw [List.map_cons, serve, parseWithState_ok h3']
      have hst : ((sliceChoice (vs.map f) n).run false x.1 (0, s)).st = (0, (sliceRun (vs.map f) false x.1 (0, s)).st.2) :=
        Prod.ext h5 rfl
      have hin : S.left ((sliceChoice (vs.map f) n).run false x.1 (0, s)).inp = S.left x.2.2 := h4
      rw [hst]
      dsimp only
      rw [hin, ih (fun y hy => hden y (by simp [hy])) _ (h6 rfl)]
      rfl
  exact key n hn

/-- **C46.**  The same for every parser of the fragment that can be started anew after a success. -/
theorem C46_serve (hF : S.Feedable) {p : Parser S σ α} {D : Den S.Tok α} {r : Bool} (hp : Frag V p D true r) (live : Bool)
    (l : List (S.Input × α × S.Input)) (h : ∀ x ∈ l, S.isPartial x.1 = live ∧ ∃ c, p.answer x.1 = .ok c x.2.1 x.2.2) :
    serve p p.init (l.map (·.1)) = some (l.map fun x => (x.2.1, S.left x.2.2)) := by
  have hr := frag_resumable hF hp
  have hden : ∀ x ∈ l, S.isPartial x.1 = live ∧ ∃ c, D live (S.left x.1) = .ok c x.2.1 (S.left x.2.2) := by
    intro x hx
    obtain ⟨h1, c, h2⟩ := h x hx
    have := den_ok_of_answer hr h2
    exact ⟨h1, c, h1 ▸ this⟩
  clear h
  obtain ⟨Ready, Rep, hr, _⟩ := hr
  have hn := (hr live).ready_init
  generalize p.init = s at hn
  induction l generalizing s with
  | nil => rfl
  | cons x l ih =>
    obtain ⟨h1, c, h2⟩ := hden x (by simp)
    have hst := (hr live).resume x.1 h1 ((hr live).ready_rep hn) List.nil_prefix
    rw [h1, List.nil_append, h2] at hst
    obtain ⟨⟨c', h3, _⟩, _, h4, h5⟩ := hst
    rw [List.map_cons, serve, parseWithState_ok h3]
    dsimp only
    rw [h4, ih (fun y hy => hden y (by simp [hy])) _ (h5 rfl)]
    rfl

/-! ## Examples

`choice([('+', digits), ('-', digits), ('*', digits)])`. -/

private abbrev B := maybeS (sliceS Char 1)
private abbrev R : RangeOps B := maybeR (sliceR Char 1)
private def mkB (n : Nat) (ts : List Char) (more : Bool) : B.Input := (⟨100 * n, ts⟩, more)
private def VB : Ranges B := ⟨R, id, fun _ => 1, id, fun _ => [], fun _ => 0⟩
private theorem feedable_B : B.Feedable := maybe_feedable (slice_feedable Char (by decide))
private theorem source_B : B.Source mkB :=
  ⟨fun _ _ _ => (maybe_left _).trans (slice_left _ _), fun _ _ _ => rfl⟩
private theorem lawful_VB : VB.Lawful := ⟨(maybeR_units (sliceR_units Char 1)).lawful, fun _ => rfl⟩
private abbrev digits := takeWhile1 R Char.isDigit
private abbrev signed (c : Char) := pair (token B c) digits
private abbrev signedD (c : Char) : Den Char (Char × List Char × Unit) :=
  (Den.tok fun t => if t = c then some t else none).seq ((Den.span1 Char.isDigit id).seq (.pure ()))

private theorem signed_frag : FragAll VB signed signedD true true ⟨none, (), ((none, digits.init), ()), 0⟩ :=
  .pair (r := true) (r₂ := true) (.unit fun c => Frag.token (S := B) c) (.const (Frag.takeWhile1 _ lawful_VB))
    fun _ => ⟨rfl, fun _ => (Den.consuming_tok _).firm _⟩

private theorem signed_prompt (c : Char) : (signedD c).Prompt := by
  intro a b x ha hp
  cases a with
  | nil => exact absurd rfl ha
  | cons t a =>
    simp only [Den.seq, Den.bind, Den.tok, Den.map] at hp ⊢
    by_cases hc : t = c
    · simp only [hc, List.cons_append, if_true]
      intro h
      simpa using (Outcome.after_soft.1 h).2
    · simp [hc] at hp

private abbrev signs := sliceChoice (['+', '-', '*'].map signed) (⟨none, (), ((none, digits.init), ()), 0⟩ : SeqSt ..)

-- the hypotheses are met: any pieces, if the first is not empty
example (x : List Char) (hx : x ≠ []) (chunks : List (List Char)) (h : x ++ chunks.flatten = "*12;".toList) :
    feed signs mkB false 0 signs.init [] (x :: chunks) = .ok ('*', "12".toList, ()) [';'] :=
  C48_chunks_partial (i := (⟨0, "*12;".toList⟩, false)) feedable_B source_B signed_frag ['+', '-', '*']
    (fun v _ => signed_prompt v) x hx chunks (((maybe_left _).trans (slice_left _ _)).trans h.symm) (c := true)
    (j := (⟨3, [';']⟩, false)) rfl
example : feed signs mkB false 0 signs.init [] ["*".toList, "1".toList, [], "2;".toList] =
    .ok ('*', "12".toList, ()) [';'] := rfl

-- one input after the other
example : serve signs signs.init [mkB 0 "-1;".toList false, mkB 1 "+2;".toList false, mkB 2 "*34".toList false] =
    some [(('-', ['1'], ()), [';']), (('+', ['2'], ()), [';']), (('*', "34".toList, ()), [])] :=
  C48_serve feedable_B signed_frag ['+', '-', '*'] false
    [(mkB 0 "-1;".toList false, ('-', ['1'], ()), (⟨2, [';']⟩, false)),
      (mkB 1 "+2;".toList false, ('+', ['2'], ()), (⟨102, [';']⟩, false)),
      (mkB 2 "*34".toList false, ('*', "34".toList, ()), (⟨203, []⟩, false))]
    (by
      intro x hx
      simp only [List.mem_cons, List.not_mem_nil, or_false] at hx
      rcases hx with rfl | rfl | rfl <;> exact ⟨rfl, true, rfl⟩)

/-! ## Deviations -/

private abbrev whole (s : String) : B.Input := (⟨0, s.toList⟩, false)

/-- Deviation: a choice over an array, when its first piece is empty, keeps to its first alternative; the same choice
over a tuple does not. -/
theorem C48_empty_piece_fails :
    let p := sliceChoice [token B 'a', token B 'b'] ()
    let q := choice (.cons (token B 'a') (.last (token B 'b')))
    p.answer (whole "b") = .ok true 'b' (⟨1, []⟩, false) ∧
    feed p mkB false 0 p.init [] [[], ['b']] = .failed ∧
    feed q mkB false 0 q.init [] [[], ['b']] = .ok 'b' [] := ⟨rfl, rfl, rfl⟩

/-- Deviation: so does an array as a member of a sequence, when the input was cut just before it. -/
theorem C48_array_in_sequence_fails :
    let p := pair (token B '(') (sliceChoice [token B 'a', token B 'b'] ())
    p.answer (whole "(b") = .ok true ('(', 'b', ()) (⟨2, []⟩, false) ∧
    feed p mkB false 0 p.init [] [['('], ['b']] = .failed := ⟨rfl, rfl⟩

/-- Deviation: the alternatives of an array share their partial state, also in a call that is not resumed:
`parse_with_state` with a new state fails where `parse` succeeds.  (The second alternative is told that its first
member is already parsed.) -/
theorem C48_shared_state_fails :
    let p := sliceChoice [pair (optional (token B 'a')) (token B 'b'), pair (optional (token B 'c')) (token B 'd')]
      (pair (optional (token B 'a')) (token B 'b')).init
    p.parse (whole "cd") = .ok (some 'c', 'd', ()) (⟨2, []⟩, false) ∧
    ∃ e j s, p.parseWithState (whole "cd") p.init = (.error e, j, s) := ⟨rfl, _, _, _, rfl⟩

end Verif
