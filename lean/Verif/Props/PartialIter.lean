import Verif.Spec.IterFeed
import Verif.Props.Chunks

/-!
# C45: `partial_iter` on an input that arrives in pieces
-/

namespace Verif

variable {S : Strm} {σ α : Type} {p : Parser S σ α} {D : Den S.Tok α}

/-- Greedy repetition, without a bound. -/
private inductive Rounds (D : Den S.Tok α) (b : Bool) : List S.Tok → List α → List S.Tok → Prop
  | soft {a : List S.Tok} : D b a = .soft → Rounds D b a [] a
  | cons {a r rest : List S.Tok} {c : Bool} {v : α} {vs : List α} : D b a = .ok c v r → Rounds D b r vs rest →
    Rounds D b a (v :: vs) rest

private theorem rounds_of_many {b : Bool} (n : Nat) {a rest : List S.Tok} {c : Bool} {vs : List α}
    (h : D.manyN n b a = .ok c vs rest) : Rounds D b a vs rest := by
  induction n generalizing a c vs with
  | zero => cases h
  | succ n ih =>
    simp only [Den.manyN] at h
    cases hd : D b a with
    | ok c' v r =>
      rw [hd] at h
      obtain ⟨d, h1, -⟩ := Outcome.after_ok.1 h
      obtain ⟨vs', h2, rfl⟩ := Outcome.map_ok.1 h1
      exact .cons hd (ih h2)
    | pend => rw [hd] at h; cases h
    | soft => rw [hd] at h; cases h; exact .soft hd
    | hard => rw [hd] at h; cases h

private theorem iterNext_ok {it : IterS S σ} {c : Bool} {v : α} (h : (p.run it.first it.inp it.st).res = okRes c v) :
    ∃ it', iterNext p it = (some v, it') ∧ it'.inp = (p.run it.first it.inp it.st).inp ∧
      it'.st = (p.run it.first it.inp it.st).st ∧ it'.first = true := by
  cases c <;> simp only [okRes_true, okRes_false] at h <;> simp only [iterNext, h] <;> exact ⟨_, rfl, rfl, rfl, rfl⟩

private theorem iterNext_commitErr {it : IterS S σ} {e : S.Err} (h : (p.run it.first it.inp it.st).res = .commitErr e) :
    ∃ it', iterNext p it = (none, it') ∧ it'.inp = (p.run it.first it.inp it.st).inp ∧
      it'.st = (p.run it.first it.inp it.st).st ∧ it'.state = .commitErr e := by
  simp only [iterNext, h]; exact ⟨_, rfl, rfl, rfl, rfl⟩

private theorem iterNext_peekErr (hS : S.Lawful) {it : IterS S σ} {e} (h : (p.run it.first it.inp it.st).res = .peekErr e)
    (hr : S.Reach it.inp (p.run it.first it.inp it.st).inp) :
    ∃ it' e', iterNext p it = (none, it') ∧ it'.inp = it.inp ∧ it'.state = .peekErr e' := by
  simp only [iterNext, h, hS.reset_reach hr]; exact ⟨_, _, rfl, rfl, rfl⟩

/-- The rounds made by one iterator. -/
private theorem extend_rounds (hS : S.Lawful) {live r : Bool} {Ready : σ → Prop} {Rep : σ → List S.Tok → List S.Tok → Prop}
    (h : Resumes live p D true r Ready Rep) (hc : D.Consuming) (b : Bool) (x : List S.Tok)
    (hx : live = false → x = [] ∧ b = false) {vs : List α} {a rest : List S.Tok} (hr : Rounds D b a vs rest)
    (it : IterS S σ) (w u : List S.Tok) (ha : a = w ++ (S.left it.inp ++ x)) (hl : S.isPartial it.inp = live)
    (hs : it.first = true ∧ w = [] ∧ Ready it.st ∨ it.first = false ∧ Rep it.st w u ∧ u <+: S.left it.inp) (fuel : Nat)
    (hf : (S.left it.inp).length + (if it.first then 0 else 1) < fuel) (els : List α) :
    ∃ vs₁ vs₂ it', iterExtend p some fuel none els it = (els ++ vs₁, it') ∧ vs = vs₁ ++ vs₂ ∧
      ((∃ err, it'.state = .peekErr err) ∧ vs₂ = [] ∧ S.left it'.inp ++ x = rest ∨
       live = true ∧ ∃ err w', it'.state = .commitErr err ∧ S.E.isEoi err = true ∧ Rep it'.st w' (S.left it'.inp) ∧
         D true (w' ++ S.left it'.inp) = .pend ∧ Rounds D b (w' ++ (S.left it'.inp ++ x)) vs₂ rest) := by
  have key : ∀ {a : List S.Tok} (it : IterS S σ) (w u : List S.Tok), a = w ++ (S.left it.inp ++ x) → S.isPartial it.inp = live →
      (it.first = true ∧ w = [] ∧ Ready it.st ∨ it.first = false ∧ Rep it.st w u ∧ u <+: S.left it.inp) →
      Step (D live (w ++ S.left it.inp)) (When true Ready) (When r Ready) Rep w it.inp (p.run it.first it.inp it.st) ∧
      (live = true ∧ D live (w ++ S.left it.inp) = .pend ∨ D b a = (D live (w ++ S.left it.inp)).extend x) := by
    intro a it w u ha hl hs
    subst ha
    constructor
    · rcases hs with ⟨h1, rfl, h3⟩ | ⟨h1, h2, h3⟩
      · have := h.first it.inp hl h3
        rw [hl] at this
        rw [h1]
        exact this
      · have := h.resume it.inp hl h2 h3
        rw [hl] at this
        rw [h1]
        exact this
    · cases live with
      | true =>
        by_cases hp : D true (w ++ S.left it.inp) = .pend
        · exact .inl ⟨rfl, hp⟩
        · right
          rw [← List.append_assoc]
          exact h.good.stable _ _ _ hp
      | false =>
        obtain ⟨rfl, rfl⟩ := hx rfl
        right
        simp only [List.append_nil]
        cases D false (w ++ S.left it.inp) <;> simp [Outcome.extend]
  have pend : ∀ {vs a rest} (_ : Rounds D b a vs rest) (it : IterS S σ) (w : List S.Tok) (fuel : Nat) (els : List α),
      a = w ++ (S.left it.inp ++ x) → live = true → D live (w ++ S.left it.inp) = .pend →
      Step (D live (w ++ S.left it.inp)) (When true Ready) (When r Ready) Rep w it.inp (p.run it.first it.inp it.st) →
      ∃ vs₁ vs₂ it', iterExtend p some (fuel + 1) none els it = (els ++ vs₁, it') ∧ vs = vs₁ ++ vs₂ ∧
      ((∃ err, it'.state = .peekErr err) ∧ vs₂ = [] ∧ S.left it'.inp ++ x = rest ∨
       live = true ∧ ∃ err w', it'.state = .commitErr err ∧ S.E.isEoi err = true ∧ Rep it'.st w' (S.left it'.inp) ∧
         D true (w' ++ S.left it'.inp) = .pend ∧ Rounds D b (w' ++ (S.left it'.inp ++ x)) vs₂ rest) := by
    intro vs a rest hr it w fuel els ha hlive hd hst
    rw [hd] at hst
    obtain ⟨e, y, h1, h2, h3, h4⟩ := hst
    obtain ⟨it', k1, k2, k3, k4⟩ := iterNext_commitErr h1
    refine ⟨[], vs, it', ?_, rfl, .inr ⟨hlive, e, w ++ y, k4, h2, ?_, ?_, ?_⟩⟩
    · simp only [iterExtend, k1, List.append_nil]
    · rw [k3, k2]; exact h4
    · rw [k2, List.append_assoc, ← hS.left_reads h3, ← hlive]
      exact hd
    · rw [k2]
      have := hS.left_reads h3
      rw [this] at ha
      simp only [List.append_assoc] at ha ⊢
      rw [← ha]
      exact hr
  induction hr generalizing it w u fuel els with
  | @soft a hd =>
    obtain ⟨fuel, rfl⟩ : ∃ f, fuel = f + 1 := ⟨fuel - 1, by omega⟩
    obtain ⟨hst, hcase⟩ := key it w u ha hl hs
    rcases hcase with ⟨hlive, hp⟩ | hcase
    · exact pend (.soft hd) it w fuel els ha hlive hp hst
    · rw [hd] at hcase
      cases hd' : D live (w ++ S.left it.inp) with
      | soft =>
        rw [hd'] at hst
        obtain ⟨hw, ⟨e, h1⟩, h2, _⟩ := hst
        obtain ⟨it', e', k1, k2, k3⟩ := iterNext_peekErr hS h1 h2
        refine ⟨[], [], it', ?_, rfl, .inl ⟨⟨e', k3⟩, rfl, ?_⟩⟩
        · simp only [iterExtend, k1, List.append_nil]
        · rw [k2, ha, hw, List.nil_append]
      | _ => rw [hd'] at hcase; cases hcase
  | @cons a r' rest c v vs hd hr ih =>
    obtain ⟨fuel, rfl⟩ : ∃ f, fuel = f + 1 := ⟨fuel - 1, by omega⟩
    obtain ⟨hst, hcase⟩ := key it w u ha hl hs
    rcases hcase with ⟨hlive, hp⟩ | hcase
    · exact pend (.cons hd hr) it w fuel els ha hlive hp hst
    · rw [hd] at hcase
      cases hd' : D live (w ++ S.left it.inp) with
      | ok c' v' l =>
        rw [hd'] at hst hcase
        cases hcase
        obtain ⟨⟨c'', h1, _⟩, h2, h3, h4⟩ := hst
        obtain ⟨it', k1, k2, k3, k4⟩ := iterNext_ok h1
        obtain ⟨y, hy, hly⟩ := hS.reach_of_left h2
        have hlen : l.length + (if it'.first then 0 else 1) < fuel := by
          rw [k4]
          simp only [if_true, Nat.add_zero]
          rcases hs with ⟨g1, rfl, g3⟩ | ⟨g1, _, _⟩
          · have := hc _ _ _ _ _ hd'
            rw [g1] at hf
            simp only [List.nil_append, if_true] at this hf
            omega
          · rw [g1, hly, h3] at hf
            simp only [Bool.false_eq_true, if_false, List.length_append] at hf
            omega
        obtain ⟨vs₁, vs₂, it'', g1, g2, g3⟩ := ih it' [] [] (by rw [k2, h3]; rfl) (by rw [k2, hS.reach_isPartial h2, hl])
          (.inl ⟨k4, rfl, by rw [k3]; exact h4 rfl⟩) fuel (by rw [k2, h3]; exact hlen) (els ++ [v])
        refine ⟨v :: vs₁, vs₂, it'', ?_, by rw [g2]; rfl, g3⟩
        simp only [iterExtend, k1, Option.map_none]
        rw [g1]
        simp
      | _ => rw [hd'] at hcase; cases hcase

private theorem feedIter_rounds {Ready : Bool → σ → Prop} {Rep : Bool → σ → List S.Tok → List S.Tok → Prop} {r : Bool}
    (h : ∀ live, Resumes live p D true r (Ready live) (Rep live)) (hm : ∀ s w u, Rep true s w u → Rep false s w u)
    (hc : D.Consuming) {mk : Nat → List S.Tok → Bool → S.Input} (hM : S.Source mk) (hS : S.Lawful) (open_ : Bool)
    {vs : List α} {rest : List S.Tok} (chunks : List (List S.Tok)) (n : Nat) (s : σ) (w u : List S.Tok)
    (hs : ∀ live, Rep live s w u) (hne : chunks ≠ []) (hw : Rounds D open_ (w ++ (u ++ chunks.flatten)) vs rest) :
    feedIter p mk open_ n s u chunks = (vs, .ended rest) := by
  induction chunks generalizing n s w u vs with
  | nil => exact absurd rfl hne
  | cons x cs ih =>
    have hl := hM.left n (u ++ x) (open_ || !cs.isEmpty)
    have hp := hM.isPartial n (u ++ x) (open_ || !cs.isEmpty)
    unfold feedIter
    dsimp only
    generalize hi : mk n (u ++ x) (open_ || !cs.isEmpty) = i at *
    obtain ⟨vs₁, vs₂, it', g1, g2, g3⟩ := extend_rounds hS (h (open_ || !cs.isEmpty)) hc open_ cs.flatten
      (by
        intro hmore
        simp only [Bool.or_eq_false_iff, Bool.not_eq_false', List.isEmpty_iff] at hmore
        obtain ⟨rfl, rfl⟩ := hmore
        exact ⟨rfl, rfl⟩) hw (IterS.new false i s) w u
      (by simp only [IterS.new, hl, List.flatten_cons, List.append_assoc]) hp
      (.inr ⟨rfl, hs _, by simp only [IterS.new, hl]; exact List.prefix_append _ _⟩) (S.size i + 2)
      (by
        have := hS.size_left i
        simp only [IterS.new, Bool.false_eq_true, if_false]
        omega) []
    rw [g1]
    rcases g3 with ⟨⟨e, k1⟩, k2, k3⟩ | ⟨k1, e, w', k2, k3, k4, k6, k5⟩
    · simp only [k1, k3, g2, k2, List.nil_append, List.append_nil]
    · simp only [k2, k1, k3, Bool.and_self, if_true, List.nil_append]
      have hcs : cs ≠ [] := by
        rintro rfl
        simp only [List.isEmpty_nil, Bool.not_true, Bool.or_false] at k1
        simp only [List.flatten_nil, List.append_nil] at k5
        rw [k1] at k5
        cases k5 with
        | soft hd => rw [k6] at hd; cases hd
        | cons hd _ => rw [k6] at hd; cases hd
      rw [k1] at k4
      rw [ih (n + 1) it'.st w' (S.left it'.inp) (fun live => by
        cases live
        · exact hm _ _ _ k4
        · exact k4) hcs k5, g2]

/-- **C45.**  `p.partial_iter` on each piece in turn, with the state kept between the pieces, yields the values that
`many(p)` collects on the whole input, in the same order, none lost and none twice; and it ends where `many(p)` ends.
The pieces are arbitrary: an item may be spread over several of them. -/
theorem C45_partial_iter [DecidableEq S.Tok] [DecidableEq S.Rng] {V : Ranges S} {r : Bool}
    {mk : Nat → List S.Tok → Bool → S.Input} (hF : S.Feedable) (hM : S.Source mk) (hp : Frag V p D true r)
    (hc : D.Consuming) (chunks : List (List S.Tok)) (hne : chunks ≠ []) (i : S.Input) (hi : S.left i = chunks.flatten)
    {c : Bool} {vs : List α} {j : S.Input} (h : (many p).answer i = .ok c vs j) :
    feedIter p mk (S.isPartial i) 0 p.init [] chunks = (vs, .ended (S.left j)) := by
  have hr := frag_resumable hF hp
  have hd := den_ok_of_answer (resumable_many hF hr hc) h
  obtain ⟨Ready, Rep, hr, _, hm⟩ := hr
  refine feedIter_rounds hr hm hc hM hF.lawful _ chunks 0 p.init [] [] (fun live => ?_) hne ?_
  · exact (hr live).ready_rep (hr live).ready_init
  · rw [List.nil_append, List.nil_append, ← hi]
    exact rounds_of_many _ hd

private abbrev B := maybeS (sliceS Char 1)
private abbrev R : RangeOps B := maybeR (sliceR Char 1)
private def mkB (n : Nat) (ts : List Char) (more : Bool) : B.Input := (⟨100 * n, ts⟩, more)
private def VB : Ranges B := ⟨R, id, fun _ => 1, id, fun _ => [], fun _ => 0⟩

private theorem feedable_B : B.Feedable := maybe_feedable (slice_feedable Char (by decide))
private theorem source_B : B.Source mkB :=
  ⟨fun _ _ _ => (maybe_left _).trans (slice_left _ _), fun _ _ _ => rfl⟩
private theorem lawful_VB : VB.Lawful := ⟨(maybeR_units (sliceR_units Char 1)).lawful, fun _ => rfl⟩

/-- A number ended by `;`. -/
private def number := skip (takeWhile1 R Char.isDigit) (token B ';')

private theorem number_frag : ∃ D, Frag VB number D true true ∧ D.Consuming :=
  ⟨_, Frag.skip (Frag.takeWhile1 _ lawful_VB) (Frag.token (S := B) ';') (r' := true)
    fun _ => ⟨rfl, (Den.consuming_span1 _ _).firm _⟩,
    (Den.consuming_span1 _ _).bind fun _ => (Den.Good.tok _).map _⟩

-- the hypotheses of the theorem are met, and its conclusion is not trivial
example (chunks : List (List Char)) (hne : chunks ≠ []) (h : chunks.flatten = "12;345;x".toList) :
    feedIter number mkB false 0 number.init [] chunks = (["12".toList, "345".toList], .ended ['x']) := by
  obtain ⟨D, hp, hc⟩ := number_frag
  exact C45_partial_iter (i := (⟨0, "12;345;x".toList⟩, false)) feedable_B source_B hp hc chunks hne
    (((maybe_left _).trans (slice_left _ _)).trans h.symm) (c := true) (j := (⟨7, ['x']⟩, false)) (by rfl)
example : feedIter number mkB false 0 number.init [] [['1'], ['2'], [], [';', '3'], ['4'], ['5', ';', 'x']] =
    (["12".toList, "345".toList], .ended ['x']) := by rfl
-- with a fresh state for every piece, the start of a number would be lost
example : (iterExtend number some 10 none [] (IterS.new false (⟨0, ['1', '2']⟩, true) number.init)).1 = [] ∧
    (iterExtend number some 10 none [] (IterS.new false (⟨2, [';']⟩, false) number.init)).1 = [] := ⟨rfl, rfl⟩

end Verif
