import Verif.Props.RightChain
import Verif.Props.Recursion

/-!
# C52: recursive calls inside `chainr1` and `dispatch!`
-/

namespace Verif

variable {S : Strm} {σ τ υ ρ α β : Type} {b : Bool} {k : Nat} {Hole : Parser S τ α → Prop}

/-- Where both are no panics and equal. -/
private def Below (S : Strm) (b : Bool) (n : Nat) (i j : S.Input) : Prop := i = j ∧ S.isPartial i = b ∧ S.size i < n

private theorem moved (hS : S.Lawful) {p : Parser S σ β} (hm : Moves p) {i : S.Input} {c : Bool} {v : β} {j : S.Input}
    (h : p.shape i = .ok c v j) : S.size j ≤ S.size i ∧ S.isPartial j = S.isPartial i := by
  have hr := hm.run true i p.init
  revert h hr
  simp only [Parser.shape, Parser.answer]
  generalize p.run true i p.init = o
  obtain ⟨r, k, t⟩ := o
  cases r <;> intro h hr <;> cases h
  · exact ⟨hS.reach_size hr, hS.reads_isPartial hr.choose_spec⟩
  · exact ⟨hS.reach_size hr, hS.reads_isPartial hr.choose_spec⟩

private theorem below_alike (hS : S.Lawful) {p p' : Parser S σ β} (hm : Moves p) {n : Nat} (h : AgreeBelow S b n p.shape p'.shape)
    {V : β → β → Prop} (hV : ∀ v, V v v) : SemAlike (Below S b n) V p.shape p'.shape := by
  rintro i _ ⟨rfl, hb, hi⟩
  obtain ⟨h1, h2⟩ := h i hb hi
  rw [← h1]
  cases hx : p.shape i with
  | ok c v j =>
    obtain ⟨h3, h4⟩ := moved hS hm hx
    exact ⟨rfl, hV v, rfl, h4.trans hb, by omega⟩
  | soft => trivial
  | hard e => trivial
  | abort x => exact absurd hx (h2 x)

private theorem right_total {I : Type} {G : I → Prop} {p : Sem I Unit β} {op : Sem I Unit (β → β → β)}
    (hp : ∀ i, G i → (∀ x, p i ≠ .abort x) ∧ ∀ c v j, p i = .ok c v j → G j)
    (ho : ∀ i, G i → (∀ x, op i ≠ .abort x) ∧ ∀ c v j, op i = .ok c v j → G j) {i : I} {a : Answer I Unit β}
    (h : Ref.IsChainr1 p op i a) : G i → (∀ x, a ≠ .abort x) ∧ ∀ c v j, a = .ok c v j → G j := by
  refine Ref.IsChainr1.rec (motive_1 := fun i a _ => G i → (∀ x, a ≠ .abort x) ∧ ∀ c v j, a = .ok c v j → G j)
    (motive_2 := fun _ _ i a _ => G i → (∀ x, a ≠ .abort x) ∧ ∀ c v j, a = .ok c v j → G j) ?_ ?_ ?_ ?_ ?_ ?_ ?_ ?_ ?_ h
  · rintro i a rfl _ hi
    exact hp i hi
  · intro i c v j a h1 _ ih hi
    exact ih ((hp i hi).2 _ _ _ h1)
  · intro c l i _ hi
    exact ⟨fun x h => (by cases h), fun _ _ _ h => by cases h; exact hi⟩
  · intro c l i e _ hi
    exact ⟨fun x h => (by cases h), fun _ _ _ h => by cases h⟩
  · intro c l i e h1 hi
    exact absurd h1 ((ho i hi).1 e)
  · intro c l i d f j e r k a h1 _ _ ih ih' hi
    exact ih' ((ih ((ho i hi).2 _ _ _ h1)).2 _ _ _ rfl)
  · intro c l i d f j h1 _ _ hi
    exact ⟨fun x h => (by cases h), fun _ _ _ h => by cases h; exact (ho i hi).2 _ _ _ h1⟩
  · intro c l i d f j e _ _ _ hi
    exact ⟨fun x h => (by cases h), fun _ _ _ h => by cases h⟩
  · intro c l i d f j e h1 _ ih hi
    exact absurd rfl ((ih ((ho i hi).2 _ _ _ h1)).1 e)

/-- **C52.**  `chainr1`: the operands of an expression may be expressions in brackets. -/
theorem C52_chainr1 (hS : S.Lawful) {f : Parser S τ α → Parser S σ β} {g : Parser S τ α → Parser S υ (β → β → β)}
    (hf : Guarded b k Hole f) (hg : Guarded b k Hole g) (hmf : ∀ q, Hole q → Moves (f q)) (hmg : ∀ q, Hole q → Moves (g q))
    (hcf : ∀ q, Hole q → Coherent (f q)) (hcg : ∀ q, Hole q → Coherent (g q)) (hc : ∀ q, Hole q → Consuming (f q)) :
    Guarded b k Hole (fun q => chainr1 (f q) (g q)) := by
  intro n q q' hq hq' ha i hb hi
  have h := C11_chainr1_exact hS (hmf q hq) (hmg q hq) (hcf q hq) (hcg q hq) (hc q hq) i
  have h' := C11_chainr1_exact hS (hmf q' hq') (hmg q' hq') (hcf q' hq') (hcg q' hq') (hc q' hq') i
  have h1 := hf n q q' hq hq' ha
  have h2 := hg n q q' hq hq' ha
  have total : ∀ {ρ γ : Type} {p : Parser S ρ γ} {p' : Sem S.Input Unit γ}, Moves p → AgreeBelow S b (n + k) p.shape p' →
      ∀ i, S.isPartial i = b ∧ S.size i < n + k →
        (∀ x, p.shape i ≠ .abort x) ∧ ∀ c v j, p.shape i = .ok c v j → S.isPartial j = b ∧ S.size j < n + k := by
    intro ρ γ p p' hm h i hi
    refine ⟨(h i hi.1 hi.2).2, fun c v j hx => ?_⟩
    obtain ⟨h3, h4⟩ := moved hS hm hx
    exact ⟨h4.trans hi.1, by have := hi.2; omega⟩
  have h3 := (right_total (G := fun i => S.isPartial i = b ∧ S.size i < n + k) (total (hmf q hq) h1) (total (hmg q hq) h2) h
    ⟨hb, hi⟩).1
  have h4 := right_alike (Q := Below S b (n + k)) (V := fun x y => x = y) (below_alike hS (hmf q hq) h1 fun _ => rfl)
    (below_alike hS (hmg q hq) h2 fun f => by rintro x _ rfl y _ rfl; rfl) h i _ ⟨rfl, hb, hi⟩ h'
  refine ⟨?_, h3⟩
  revert h4 h3
  dsimp only
  cases (chainr1 (f q) (g q)).shape i <;> cases (chainr1 (f q') (g q')).shape i <;> intro h3 h4 <;> try exact h4.elim
  · obtain ⟨rfl, rfl, rfl, _⟩ := h4; rfl
  · rfl
  · rfl
  · exact absurd rfl (h3 _)

/-- **C52.**  `dispatch!` calls what the chosen arm calls. -/
theorem C52_dispatch {g : Parser S τ α → Alts S β ρ} {m : Nat}
    (hg : ∀ n q q', Hole q → Hole q' → AgreeBelow S b n q.shape q'.shape →
      AgreeBelow S b (n + k) ((g q).arm m).2.shape ((g q').arm m).2.shape) :
    Guarded b k Hole (fun q => dispatch (g q) m) := by
  intro n q q' hq hq' ha i hb hi
  rw [dispatch_shape, dispatch_shape]
  exact hg n q q' hq hq' ha i hb hi

/-! ## Non-vacuity -/

private abbrev B := sliceS Nat 1
private theorem hB : B.Lawful := slice_lawful Nat 1

private theorem ends {p : Parser B σ β} (h : NeverAborts p) (i : B.Input) (a : Abort) : p.shape i ≠ .abort a := by
  have := h true i p.init
  revert this
  simp only [Parser.shape, Parser.answer]
  generalize p.run true i p.init = o
  obtain ⟨r, j, s⟩ := o
  cases r <;> intro h1 h2 <;> cases h2
  exact h1 _ rfl

private theorem tok (b : Bool) (k : Nat) {H : Parser B Unit Nat → Prop} (t : Nat) :
    Guarded b k H fun _ => token B t := C52_fixed _ (ends (never_token (S := B) t))

private theorem term_moves {q : Parser B Unit Nat} (h : Moves q) :
    Moves (or (map (token B 1) fun _ => 1) (between (token B 8) (token B 9) q)) :=
  moves_or hB (moves_map hB (moves_token hB _) _) (moves_between hB (moves_token hB _) (moves_token hB _) h)

/-- `expr = term [ 2 expr ]`, `term = 1 | 8 expr 9`: differences with brackets, from the right. -/
private def diffs (q : Parser B Unit Nat) : Parser B Unit Nat :=
  parserMacroUnit (chainr1 (or (map (token B 1) fun _ => 1) (between (token B 8) (token B 9) q))
    (map (token B 2) fun _ => (· - ·)))

private theorem diffs_guarded (b : Bool) : Guarded b 1 Moves diffs :=
  (C52_parser (C52_chainr1 hB
    (C52_or hB (C52_map (tok b 1 1) _)
      (C52_between (r := 0) (r' := 0) hB (tok b 1 8) C52_call (tok b 0 9) (fun _ _ => moves_token hB _)
        (fun q h => h) (.inr ⟨by omega, fun _ _ => consuming_token (S := B) _⟩) (.inl (by omega)))
      (fun _ _ => moves_map hB (moves_token hB _) _)
      (fun q h => moves_between hB (moves_token hB _) (moves_token hB _) h))
    (C52_map (tok b 1 2) _) (fun q h => term_moves h) (fun _ _ => moves_map hB (moves_token hB _) _)
    (fun q h => .ofMode hB (term_moves h).run)
    (fun _ _ => Built.coherent (R := sliceR Nat 1) hB (sliceR_lawful _ _) (.map _ (Built.token (S := B) 2)))
    (fun q h => consuming_or hB (moves_map hB (moves_token hB _) _)
      (moves_between hB (moves_token hB _) (moves_token hB _) h) (consuming_map (consuming_token (S := B) _) _)
      (consuming_between hB (moves_token hB _) (moves_token hB _) h (consuming_token (S := B) _))))).1

/-- `1 - (1 - (1)) - 1`, unfolded as often as there are tokens. -/
example : (recur diffs () 12).shape ⟨0, [1, 2, 8, 1, 2, 8, 1, 9, 9, 2, 1]⟩ = .ok true 1 ⟨11, []⟩ := rfl

example (i : B.Input) : (∀ a, (recur diffs () (B.size i + 1)).shape i ≠ .abort a) ∧
    ∀ m, B.size i + 1 ≤ m → (recur diffs () m).shape i = (recur diffs () (B.size i + 1)).shape i :=
  C52_depth (b := false) (diffs_guarded false) (recur_zero hB _ _).1
    (fun q h => moves_parserMacroUnit hB (moves_chainr1 hB (term_moves h) (moves_map hB (moves_token hB _) _)))
    i rfl _ (by omega)

/-- The second of two arms calls the grammar after a token. -/
example (b : Bool) : Guarded b 1 Moves (fun q : Parser B Unit Nat =>
    dispatch (.cons (token B 1) (.last («with» (token B 8) q))) 1) :=
  C52_dispatch (C52_with (r := 0) hB (tok b 1 8) C52_call (fun _ _ => moves_token hB _)
    (.inr ⟨by omega, fun _ _ => consuming_token (S := B) _⟩))

end Verif
