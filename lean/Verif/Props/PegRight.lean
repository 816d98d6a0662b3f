import Verif.Props.RightChain
import Verif.Props.PegMore

/-!
# C57: `chainr1` as a parsing expression
-/

namespace Verif

variable {S : Strm} {N σ τ α β : Type} {rules : N → Peg N S.Tok} {a b : Peg N S.Tok}

private theorem star_more {e f : Peg N S.Tok} {xs ys : List S.Tok} {r : Option (List S.Tok)} (h : e.Matches rules xs (some ys))
    (h' : (e.star.seq f).Matches rules ys r) : (e.star.seq f).Matches rules xs r := by
  cases h' with
  | seq h1 h2 => exact .seq (.more h h1) h2
  | seqFail h1 => exact .seqFail (.more h h1)

/-- The answer `x` at `i` is what the expression says, and no failure with commitment. -/
private def Fits (rules : N → Peg N S.Tok) (e : Peg N S.Tok) (i : S.Input) (xs : List S.Tok) : Answer S.Input Unit α → Prop
  | .ok _ _ j => ∃ u ys, S.Reads i u j ∧ S.Left j ys ∧ e.Matches rules xs (some ys)
  | .soft => e.Matches rules xs none
  | .hard _ => False
  | .abort _ => True

private theorem right_backtracks (hS : S.Lawful) {n : N} (hn : rules n = a.seq ((b.seq (.ref n)).star.seq (b.alt .empty)))
    {p : Sem S.Input Unit α} {op : Sem S.Input Unit (α → α → α)} (hp : Backtracks rules a p)
    (hsp : ∀ i, S.isPartial i = false → ∀ e, p i ≠ .hard e) (ho : Backtracks rules b op)
    (hso : ∀ i, S.isPartial i = false → ∀ e, op i ≠ .hard e) {i : S.Input} {x : Answer S.Input Unit α}
    (h : Ref.IsChainr1 p op i x) : ∀ xs, S.isPartial i = false → S.Left i xs → Fits rules (.ref n) i xs x := by
  refine Ref.IsChainr1.rec (motive_1 := fun i x _ => ∀ xs, S.isPartial i = false → S.Left i xs → Fits rules (.ref n) i xs x)
    (motive_2 := fun _ _ i x _ => ∀ xs, S.isPartial i = false → S.Left i xs →
      x ≠ .soft ∧ Fits rules ((b.seq (.ref n)).star.seq (b.alt .empty)) i xs x) ?_ ?_ ?_ ?_ ?_ ?_ ?_ ?_ ?_ h
  · rintro i x rfl hno xs hi hl
    have h1 := hp i xs hi hl
    cases hx : p i with
    | ok c v j => exact absurd hx (hno c v j)
    | hard e => exact absurd hx (hsp i hi e)
    | abort e => trivial
    | soft =>
      rw [hx] at h1
      refine .ref ?_
      rw [hn]
      exact .seqFail h1
  · intro i c v j x h1 _ ih xs hi hl
    have h2 := hp i xs hi hl
    rw [h1] at h2
    obtain ⟨u, ys, h3, h4, h5⟩ := h2
    obtain ⟨h0, h6⟩ := ih ys ((hS.reads_isPartial h3).trans hi) h4
    cases x with
    | ok c v k =>
      obtain ⟨u', zs, h7, h8, h9⟩ := h6
      refine ⟨u ++ u', zs, reads_append h3 h7, h8, .ref ?_⟩
      rw [hn]
      exact .seq h5 h9
    | soft => exact absurd rfl h0
    | hard e => exact h6.elim
    | abort e => trivial
  · intro c l i h1 xs hi hl
    have h2 := ho i xs hi hl
    rw [h1] at h2
    exact ⟨nofun, [], xs, .nil i, hl, .seq (.stop (.seqFail h2)) (.right h2 .empty)⟩
  · intro c l i e h1 xs hi _
    exact absurd h1 (hso i hi e)
  · intros; exact ⟨nofun, trivial⟩
  · intro c l i d f j e r k x h1 _ _ ih ih' xs hi hl
    have h2 := ho i xs hi hl
    rw [h1] at h2
    obtain ⟨u, ys, h3, h4, h5⟩ := h2
    have hj := (hS.reads_isPartial h3).trans hi
    obtain ⟨u', zs, h6, h7, h8⟩ := ih ys hj h4
    obtain ⟨h0, h9⟩ := ih' zs ((hS.reads_isPartial h6).trans hj) h7
    refine ⟨h0, ?_⟩
    cases x with
    | ok c v k =>
      obtain ⟨w, ws, h10, h11, h12⟩ := h9
      exact ⟨u ++ (u' ++ w), ws, reads_append h3 (reads_append h6 h10), h11, star_more (.seq h5 h8) h12⟩
    | soft => exact absurd rfl h0
    | hard e => exact h9.elim
    | abort e => trivial
  · intro c l i d f j h1 _ ih xs hi hl
    have h2 := ho i xs hi hl
    rw [h1] at h2
    obtain ⟨u, ys, h3, h4, h5⟩ := h2
    have h6 := ih ys ((hS.reads_isPartial h3).trans hi) h4
    exact ⟨nofun, u, ys, h3, h4, .seq (.stop (.seq h5 h6)) (.left h5)⟩
  · intro c l i d f j e h1 _ ih xs hi hl
    have h2 := ho i xs hi hl
    rw [h1] at h2
    obtain ⟨u, ys, h3, h4, h5⟩ := h2
    exact (ih ys ((hS.reads_isPartial h3).trans hi) h4).elim
  · intros; exact ⟨nofun, trivial⟩

/-- **C57.**  `chainr1(p, op)` is the recursive expression `chain = p (op chain)* op?`: the last operator may be without an
operand. -/
theorem C57_chainr1 (hS : S.Lawful) {n : N} (hn : rules n = a.seq ((b.seq (.ref n)).star.seq (b.alt .empty)))
    {p : Parser S σ α} {op : Parser S τ (α → α → α)} (hmp : Moves p) (hmo : Moves op) (hcp : Coherent p) (hco : Coherent op)
    (hc : Consuming p) (hp : Backtracks rules a p.shape) (hsp : Softly p) (ho : Backtracks rules b op.shape) (hso : Softly op) :
    Backtracks rules (.ref n) (chainr1 p op).shape ∧ Softly (chainr1 p op) := by
  have h : ∀ i xs, S.isPartial i = false → S.Left i xs →
      Fits rules (.ref n) i xs ((chainr1 p op).shape i) := fun i =>
    right_backtracks hS hn hp hsp ho hso (C11_chainr1_exact hS hmp hmo hcp hco hc i)
  constructor
  · intro i xs hi hl
    have := h i xs hi hl
    revert this
    cases (chainr1 p op).shape i with
    | hard e => exact False.elim
    | _ => exact id
  · intro i hi e he
    obtain ⟨xs, hl⟩ := left_exists hS i
    have := h i xs hi hl
    rw [he] at this
    exact this

/-! ## Non-vacuity -/

private abbrev B := sliceS Nat 1
private abbrev tk (n : Nat) : Peg Unit Nat := Peg.one fun t => (if t = n then some t else none).isSome

/-- `chain = 1 (2 chain)* 2?` -/
private def chain : Unit → Peg Unit Nat := fun _ => (tk 1).seq (((tk 2).seq (.ref ())).star.seq ((tk 2).alt .empty))

private theorem tk_follows (n : Nat) : Backtracks (S := B) chain (tk n) (token B n).shape ∧ Softly (token B n) :=
  C57_one (rules := chain) (C53_token (slice_lawful Nat 1) n)

example : Backtracks (S := B) chain (.ref ()) (chainr1 (token B 1) (map (token B 2) fun _ (x y : Nat) => x - y)).shape := by
  have hS := slice_lawful Nat 1
  have h2 := tk_follows 2
  have hs : ∀ i, (map (token B 2) fun _ (x y : Nat) => x - y).shape i = Ref.map (token B 2).shape (fun _ x y => x - y) i :=
    fun i => by
      simp only [Parser.shape, Parser.answer, Ref.map]
      rw [show (map (token B 2) fun _ (x y : Nat) => x - y).init = (token B 2).init from rfl, (C13_map _ _ true i _).1]
      cases ((token B 2).run true i (token B 2).init).answer <;> rfl
  refine (C57_chainr1 hS rfl (moves_token hS 1) (moves_map hS (moves_token hS 2) _)
    (Built.coherent (R := sliceR Nat 1) hS (sliceR_lawful _ _) (Built.token (S := B) 1))
    (Built.coherent (R := sliceR Nat 1) hS (sliceR_lawful _ _) (.map _ (Built.token (S := B) 2)))
    (consuming_token (S := B) 1) (tk_follows 1).1 (tk_follows 1).2 (C57_map h2.1 _) ?_).1
  intro i hi e he
  rw [hs, Ref.map] at he
  have := h2.2 i hi
  cases hx : (token B 2).shape i with
  | hard e => exact this e hx
  | _ => rw [hx] at he; cases he

/-- `1 - 1 -`: the operator at the end is taken. -/
example : (chainr1 (token B 1) (map (token B 2) fun _ (x y : Nat) => x - y)).shape ⟨0, [1, 2, 1, 2, 3]⟩ = .ok true 0 ⟨4, [3]⟩ := rfl
example : (Peg.ref ()).Matches chain [1, 2, 1, 2, 3] (some [3]) :=
  .ref (.seq (.one rfl) (.seq (.more (.seq (.one rfl) (.ref (.seq (.one rfl) (.seq
    (.stop (.seq (.one rfl) (.ref (.seqFail (.other rfl))))) (.left (.one rfl)))))) (.stop (.seqFail (.other rfl))))
    (.right (.other rfl) .empty)))

end Verif
