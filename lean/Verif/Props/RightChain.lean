import Verif.Props.Chain
import Verif.Props.AlikeMore
import Verif.Props.LengthPrefix
import Verif.Props.Wrappers
import Verif.Spec.RightChain

/-!
# C11, C54: `chainr1` exactly, and over two streams
-/

namespace Verif

variable {S S' : Strm} {σ σ' τ τ' α α' β β' : Type}
variable {R : S.Input → S'.Input → Prop} {V : α → α' → Prop} {W : β → β' → Prop}

private theorem right_exact (hS : S.Lawful) {p : Parser S σ α} {op : Parser S τ (α → α → α)} (hmp : Moves p)
    (hmo : Moves op) (hcp : Coherent p) (hco : Coherent op) (hc : Consuming p) (n : Nat) :
    (∀ i, 2 * S.size i + 1 ≤ n →
      Ref.IsChainr1 p.shape op.shape i (Answer.of (chainr1Lazy p op n i).1 (chainr1Lazy p op n i).2).shape ∧
      ((chainr1Lazy p op n i).1.isOk = true → S.size (chainr1Lazy p op n i).2 + 1 ≤ S.size i)) ∧
    (∀ l c i, 2 * S.size i + 2 ≤ n → Ref.IsChainr1Rest p.shape op.shape (!c.isPeek) l i
      (Answer.of (chainr1Loop p op n l c i).1 (chainr1Loop p op n l c i).2).shape) := by
  induction n with
  | zero => exact ⟨fun i h => by omega, fun l c i h => by omega⟩
  | succ n ih =>
    have reach := chainr1_reach hS hmp hmo n
    constructor
    · intro i hn
      have h1 := hcp.lazy i
      unfold chainr1Lazy
      revert h1
      generalize p.lazy i = x
      obtain ⟨r, j⟩ := x
      intro h1
      have h0 : p.shape i = (Answer.of r j).shape := congrArg Answer.shape h1.symm
      have key : ∀ l (c : Commit Unit), p.answer i = .ok (!c.isPeek) l j →
          Ref.IsChainr1 p.shape op.shape i (Answer.of (chainr1Loop p op n l c j).1 (chainr1Loop p op n l c j).2).shape ∧
          ((chainr1Loop p op n l c j).1.isOk = true → S.size (chainr1Loop p op n l c j).2 + 1 ≤ S.size i) := by
        intro l c hr
        obtain ⟨t, ts, h⟩ := hc _ _ _ _ hr
        have h := hS.reads_size h
        simp only [List.length_cons] at h
        refine ⟨.operand (c := !c.isPeek) (v := l) (j := j) ?_ (ih.2 l c j (by omega)), fun _ => ?_⟩
        · rw [Parser.shape, hr]; rfl
        · have := hS.reach_size (reach.2 l c j)
          omega
      cases r with
      | commitOk l => exact key l (.commit ()) h1.symm
      | peekOk l => exact key l (.peek ()) h1.symm
      | _ => exact ⟨.fails h0 (by intro c v k h; cases h), fun h => by cases h⟩
    · intro l c i hn
      have h1 := hco.lazy i
      have h2 := hmo.lazy i
      unfold chainr1Loop
      simp only
      revert h1 h2
      generalize op.lazy i = x
      obtain ⟨r, j⟩ := x
      intro h1 h2
      have h3 := hS.reach_size h2
      have h0 : op.shape i = (Answer.of r j).shape := congrArg Answer.shape h1.symm
      simp only at h3
      cases r with
      | abort b => exact .opAbort h0
      | commitErr e => exact .opHard h0
      | peekErr e =>
        simp only [ParseResult.toStd, hS.reset_reach h2]
        cases c <;> exact .done h0
      | commitOk f =>
        obtain ⟨k1, k2⟩ := ih.1 j (by omega)
        have k3 := reach.1 j
        simp only [ParseResult.toStd]
        revert k1 k2 k3
        generalize chainr1Lazy p op n j = y
        obtain ⟨r, k⟩ := y
        intro k1 k2 k3
        simp only at k2
        cases r with
        | commitOk v =>
          have := ih.2 (f l v) ((c.merge (.commit ())).merge (.commit ())) k (by have := k2 rfl; omega)
          refine .again h0 k1 ?_
          cases c <;> exact this
        | peekOk v =>
          have := ih.2 (f l v) ((c.merge (.commit ())).merge (.peek ())) k (by have := k2 rfl; omega)
          refine .again h0 k1 ?_
          cases c <;> exact this
        | abort b => exact .abort h0 k1
        | commitErr e => exact .hard h0 k1
        | peekErr e =>
          simp only [hS.reset_reach k3]
          have := Ref.IsChainr1Rest.dropped (c := !c.isPeek) (l := l) h0 k1
          cases c <;> exact this
      | peekOk f =>
        obtain ⟨k1, k2⟩ := ih.1 j (by omega)
        have k3 := reach.1 j
        simp only [ParseResult.toStd]
        revert k1 k2 k3
        generalize chainr1Lazy p op n j = y
        obtain ⟨r, k⟩ := y
        intro k1 k2 k3
        simp only at k2
        cases r with
        | commitOk v =>
          have := ih.2 (f l v) ((c.merge (.peek ())).merge (.commit ())) k (by have := k2 rfl; omega)
          refine .again h0 k1 ?_
          cases c <;> exact this
        | peekOk v =>
          have := ih.2 (f l v) ((c.merge (.peek ())).merge (.peek ())) k (by have := k2 rfl; omega)
          refine .again h0 k1 ?_
          cases c <;> exact this
        | abort b => exact .abort h0 k1
        | commitErr e => exact .hard h0 k1
        | peekErr e =>
          simp only [hS.reset_reach k3]
          have := Ref.IsChainr1Rest.dropped (c := !c.isPeek) (l := l) h0 k1
          cases c <;> exact this

/-- **C11.**  `chainr1`, exactly: what it answers at any place. -/
theorem C11_chainr1_exact (hS : S.Lawful) {p : Parser S σ α} {op : Parser S τ (α → α → α)} (hmp : Moves p)
    (hmo : Moves op) (hcp : Coherent p) (hco : Coherent op) (hc : Consuming p) (i : S.Input) :
    Ref.IsChainr1 p.shape op.shape i ((chainr1 p op).shape i) :=
  ((right_exact hS hmp hmo hcp hco hc _).1 i (by omega)).1

section Two

variable {I J : Type} {Q : I → J → Prop} {p : Sem I Unit α} {p' : Sem J Unit α'} {op : Sem I Unit (α → α → α)}
  {op' : Sem J Unit (α' → α' → α')}

/-- Equal answers of the parts give equal answers of `chainr1`. -/
theorem right_alike (hp : SemAlike Q V p p')
    (ho : SemAlike Q (fun f g => ∀ x x', V x x' → ∀ y y', V y y' → V (f x y) (g x' y')) op op') {i : I}
    {a : Answer I Unit α} (h : Ref.IsChainr1 p op i a) :
    ∀ i' b, Q i i' → Ref.IsChainr1 p' op' i' b → a.Alike Q V b := by
  refine Ref.IsChainr1.rec (motive_1 := fun i a _ => ∀ i' b, Q i i' → Ref.IsChainr1 p' op' i' b → a.Alike Q V b)
    (motive_2 := fun c l i a _ => ∀ l' i' b, V l l' → Q i i' → Ref.IsChainr1Rest p' op' c l' i' b → a.Alike Q V b)
    ?_ ?_ ?_ ?_ ?_ ?_ ?_ ?_ ?_ h
  · intro i a h1 h2 i' b hq hb
    have h := hp i i' hq
    rw [h1] at h
    cases hb with
    | fails h3 h4 => rw [h3] at h; exact h
    | operand h3 _ =>
      rw [h3] at h
      cases a with
      | ok c v j => exact absurd rfl (h2 c v j)
      | _ => exact h.elim
  · intro i c v j a h1 _ ih i' b hq hb
    have h := hp i i' hq
    rw [h1] at h
    cases hb with
    | fails h3 h4 =>
      rw [h3] at h
      cases b with
      | ok c v j => exact absurd rfl (h4 c v j)
      | _ => exact h.elim
    | operand h3 h4 =>
      rw [h3] at h
      obtain ⟨rfl, h5, h6⟩ := h
      exact ih _ _ _ h5 h6 h4
  · intro c l i h1 l' i' b hl hq hb
    have h := ho i i' hq
    rw [h1] at h
    cases hb with
    | done h2 => exact ⟨rfl, hl, hq⟩
    | opHard h2 => rw [h2] at h; exact h.elim
    | opAbort h2 => rw [h2] at h; exact h.elim
    | again h2 _ _ => rw [h2] at h; exact h.elim
    | dropped h2 _ => rw [h2] at h; exact h.elim
    | hard h2 _ => rw [h2] at h; exact h.elim
    | abort h2 _ => rw [h2] at h; exact h.elim
  · intro c l i e h1 l' i' b hl hq hb
    have h := ho i i' hq
    rw [h1] at h
    cases hb with
    | opHard h2 => trivial
    | done h2 => rw [h2] at h; exact h.elim
    | opAbort h2 => rw [h2] at h; exact h.elim
    | again h2 _ _ => rw [h2] at h; exact h.elim
    | dropped h2 _ => rw [h2] at h; exact h.elim
    | hard h2 _ => trivial
    | abort h2 _ => rw [h2] at h; exact h.elim
  · intro c l i e h1 l' i' b hl hq hb
    have h := ho i i' hq
    rw [h1] at h
    cases hb with
    | opAbort h2 => rw [h2] at h; exact h
    | opHard h2 => rw [h2] at h; exact h.elim
    | done h2 => rw [h2] at h; exact h.elim
    | again h2 _ _ => rw [h2] at h; exact h.elim
    | dropped h2 _ => rw [h2] at h; exact h.elim
    | hard h2 _ => rw [h2] at h; exact h.elim
    | abort h2 _ => rw [h2] at h; exact h.elim
  · intro c l i d f j e r k a h1 _ _ ih ih' l' i' b hl hq hb
    have h := ho i i' hq
    rw [h1] at h
    cases hb with
    | opAbort h2 => rw [h2] at h; exact h.elim
    | opHard h2 => rw [h2] at h; exact h.elim
    | done h2 => rw [h2] at h; exact h.elim
    | again h2 h3 h4 =>
      rw [h2] at h
      obtain ⟨rfl, h5, h6⟩ := h
      obtain ⟨rfl, h7, h8⟩ := ih _ _ h6 h3
      exact ih' _ _ _ (h5 _ _ hl _ _ h7) h8 h4
    | dropped h2 h3 => rw [h2] at h; exact (ih _ _ h.2.2 h3).elim
    | hard h2 h3 => rw [h2] at h; exact (ih _ _ h.2.2 h3).elim
    | abort h2 h3 => rw [h2] at h; exact (ih _ _ h.2.2 h3).elim
  · intro c l i d f j h1 _ ih l' i' b hl hq hb
    have h := ho i i' hq
    rw [h1] at h
    cases hb with
    | opAbort h2 => rw [h2] at h; exact h.elim
    | opHard h2 => rw [h2] at h; exact h.elim
    | done h2 => rw [h2] at h; exact h.elim
    | again h2 h3 h4 => rw [h2] at h; exact (ih _ _ h.2.2 h3).elim
    | dropped h2 h3 =>
      rw [h2] at h
      obtain ⟨rfl, _, h6⟩ := h
      exact ⟨rfl, hl, h6⟩
    | hard h2 h3 => rw [h2] at h; exact (ih _ _ h.2.2 h3).elim
    | abort h2 h3 => rw [h2] at h; exact (ih _ _ h.2.2 h3).elim
  · intro c l i d f j e h1 _ ih l' i' b hl hq hb
    have h := ho i i' hq
    rw [h1] at h
    cases hb with
    | opAbort h2 => rw [h2] at h; exact h.elim
    | opHard h2 => trivial
    | done h2 => rw [h2] at h; exact h.elim
    | again h2 h3 h4 => rw [h2] at h; exact (ih _ _ h.2.2 h3).elim
    | dropped h2 h3 => rw [h2] at h; exact (ih _ _ h.2.2 h3).elim
    | hard h2 h3 => trivial
    | abort h2 h3 => rw [h2] at h; exact (ih _ _ h.2.2 h3).elim
  · intro c l i d f j e h1 _ ih l' i' b hl hq hb
    have h := ho i i' hq
    rw [h1] at h
    cases hb with
    | opAbort h2 => rw [h2] at h; exact h.elim
    | opHard h2 => rw [h2] at h; exact h.elim
    | done h2 => rw [h2] at h; exact h.elim
    | again h2 h3 h4 => rw [h2] at h; exact (ih _ _ h.2.2 h3).elim
    | dropped h2 h3 => rw [h2] at h; exact (ih _ _ h.2.2 h3).elim
    | hard h2 h3 => rw [h2] at h; exact (ih _ _ h.2.2 h3).elim
    | abort h2 h3 => rw [h2] at h; exact ih _ _ h.2.2 h3

end Two

/-- **C54.**  `chainr1`, as it is written. -/
theorem C54_chainr1 (hS : S.Lawful) (hS' : S'.Lawful) {p : Parser S σ α} {p' : Parser S' σ' α'} {s : Parser S τ (α → α → α)}
    {s' : Parser S' τ' (α' → α' → α')} (hp : Alike R V p p')
    (hs : Alike R (fun f g => ∀ x x', V x x' → ∀ y y', V y y' → V (f x y) (g x' y')) s s') (hm : Moves p) (hm' : Moves p')
    (hms : Moves s) (hms' : Moves s') (hk : Coherent p) (hk' : Coherent p') (hks : Coherent s) (hks' : Coherent s')
    (hc : Consuming p) (hc' : Consuming p') : Alike R V (chainr1 p s) (chainr1 p' s') := fun i j h =>
  right_alike hp hs (C11_chainr1_exact hS hm hms hk hks hc i) j _ h (C11_chainr1_exact hS' hm' hms' hk' hks' hc' j)

/-- What `dispatch!` answers is what the chosen arm answers. -/
theorem dispatch_shape (ps : Alts S α τ) (k : Nat) (i : S.Input) : (dispatch ps k).shape i = (ps.arm k).2.shape i := by
  have h := (C34_dispatch ps k [(true, i)]).1
  simp only [Parser.calls, Parser.callsFrom, List.cons.injEq, and_true, Prod.mk.injEq] at h
  simp only [Parser.shape, Parser.answer, Out.answer, h.1, h.2]

/-- **C54.**  `dispatch!`, when the arms that are chosen are alike. -/
theorem C54_dispatch {ps : Alts S α τ} {qs : Alts S' α' τ'} {k k' : Nat} (h : Alike R V (ps.arm k).2 (qs.arm k').2) :
    Alike R V (dispatch ps k) (dispatch qs k') := by
  intro i j hr
  rw [dispatch_shape, dispatch_shape]
  exact h i j hr

section Ranges

variable {T : Type} {rd : S.Tok → T} {rd' : S'.Tok → T} {Q : RangeOps S} {Q' : RangeOps S'} {toks : S.Rng → List S.Tok}
  {toks' : S'.Rng → List S'.Tok} {w : S.Tok → Nat} {w' : S'.Tok → Nat}

/-- **C54.**  `length_prefix`, on complete inputs, where tokens have the same size on both sides: related lengths are the
same number, or neither is one. -/
theorem C54_length_prefix [DecidableEq S.Tok] [DecidableEq S.Rng] [DecidableEq S'.Tok] [DecidableEq S'.Rng] (hS : S.Lawful)
    (hS' : S'.Lawful) (hQ : Q.Lawful toks w) (hQ' : Q'.Lawful toks' w')
    (hw : ∀ t t', rd t = rd' t' → w t = w' t') {p : Parser S σ α} {p' : Parser S' σ' α'} (hp : Alike (Same rd rd' false) V p p')
    (hm : Moves p) (hm' : Moves p') {f : α → Except S.SErr Nat} {g : α' → Except S'.SErr Nat}
    (hf : ∀ v v', V v v' → BothOk (fun n n' => n = n') (f v) (g v')) :
    Alike (Same rd rd' false) (WrittenRange toks toks' rd rd' fun t => [t]) (lengthPrefix Q p f) (lengthPrefix Q' p' g) := by
  have e : ∀ {S : Strm} [DecidableEq S.Tok] [DecidableEq S.Rng] {σ α : Type} {Q : RangeOps S} {toks : S.Rng → List S.Tok}
      {w : S.Tok → Nat} (_ : S.Lawful) (_ : Q.Lawful toks w) (p : Parser S σ α) (f : α → Except S.SErr Nat) (i : S.Input),
      (lengthPrefix Q p f).shape i = Ref.bind (andThen p f).shape (fun n => (take Q n).shape) i := by
    intro S _ _ σ α Q toks w hS hQ p f i
    rw [show (lengthPrefix Q p f).shape i = (thenPartial (andThen p f) (fun n => (take Q n, n)) ()).shape i from rfl]
    exact C13_thenPartial hS _ _ () (fun _ => rfl) (fun n => Built.coherent (R := Q) hS hQ (.take n)) i
  intro i j hr
  rw [e hS hQ, e hS' hQ']
  exact semAlike_bind (C54_and_then hS hS' hp hm hm' hf fun i j h => ⟨h.1, h.2.1⟩)
    (fun n n' hn => by cases hn; exact C54_take hS hS' hQ hQ' hw n) i j hr

end Ranges

/-! ## Non-vacuity -/

private abbrev A := sliceS Nat 1
private abbrev Q := sliceS Nat 4

private theorem any_alike : Alike (S := A) (S' := Q) (Same id id false) (fun x y => x = y) (any A) (any Q) :=
  C54_one (f := some) (g := some) (slice_lawful Nat 1) (slice_lawful Nat 4) (fun u => ⟨u, [], rfl, rfl, fun _ => rfl⟩)
    (C53_any (slice_lawful Nat 1)) (C53_any (slice_lawful Nat 4))

example : Alike (S := A) (S' := Q) (Same id id false) (WrittenRange id id id id fun t => [t])
    (lengthPrefix (sliceR Nat 1) (any A) fun n => if n < 9 then .ok n else .error (A.E.message (.static "long")))
    (lengthPrefix (sliceR Nat 4) (any Q) fun n => if n < 9 then .ok n else .error (Q.E.message (.static "long"))) :=
  C54_length_prefix (slice_lawful _ _) (slice_lawful _ _) (sliceR_lawful _ _) (sliceR_lawful _ _) (fun _ _ _ => rfl) any_alike
    (moves_any (slice_lawful _ _)) (moves_any (slice_lawful _ _)) (by rintro v _ rfl; by_cases h : v < 9 <;> simp [h, BothOk])

private theorem one_alike (t : Nat) : Alike (S := A) (S' := Q) (Same id id false) (fun x y => x = y) (token A t) (token Q t) :=
  C54_one (f := fun u => if u = t then some u else none) (g := fun u => if u = t then some u else none)
    (slice_lawful _ _) (slice_lawful _ _) (fun u => by
      refine ⟨u, [], rfl, ?_, fun _ => rfl⟩
      by_cases h : u = t <;> simp [h, Both]) (C53_token (slice_lawful _ _) t) (C53_token (slice_lawful _ _) t)

private theorem token_coherent (sz t : Nat) : Coherent (token (sliceS Nat sz) t) :=
  Built.coherent (R := sliceR Nat sz) (slice_lawful _ _) (sliceR_lawful _ _) (Built.token (S := sliceS Nat sz) t)

/-- `1 - 1 - 1` from the right. -/
example : Alike (S := A) (S' := Q) (Same id id false) (fun x y => x = y)
    (chainr1 (token A 1) (map (token A 2) fun _ (x y : Nat) => x - y))
    (chainr1 (token Q 1) (map (token Q 2) fun _ (x y : Nat) => x - y)) :=
  C54_chainr1 (slice_lawful _ _) (slice_lawful _ _) (one_alike 1)
    (C54_map (one_alike 2) fun _ _ _ => by rintro x _ rfl y _ rfl; rfl)
    (moves_token (slice_lawful _ _) 1) (moves_token (slice_lawful _ _) 1)
    (moves_map (slice_lawful _ _) (moves_token (slice_lawful _ _) 2) _) (moves_map (slice_lawful _ _) (moves_token (slice_lawful _ _) 2) _)
    (token_coherent 1 1) (token_coherent 4 1)
    (Built.coherent (R := sliceR Nat 1) (slice_lawful _ _) (sliceR_lawful _ _) (.map _ (Built.token (S := A) 2)))
    (Built.coherent (R := sliceR Nat 4) (slice_lawful _ _) (sliceR_lawful _ _) (.map _ (Built.token (S := Q) 2)))
    (consuming_token (S := A) 1) (consuming_token (S := Q) 1)

example : Alike (S := A) (S' := Q) (Same id id false) (fun x y => x = y)
    (dispatch (.cons (token A 1) (.last (token A 2))) 1) (dispatch (.cons (token Q 1) (.last (token Q 2))) 1) :=
  C54_dispatch (one_alike 2)

end Verif
