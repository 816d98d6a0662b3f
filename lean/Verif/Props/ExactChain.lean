import Verif.Props.Exact

/-!
# C63, C60: exactly which texts `chainr1` accepts

The grammar is not that of expressions: an operator after which no operand comes is dropped (`C11_chainr1_trailing`), and the chain
around it goes on after it, now from the left.
-/

namespace Verif

variable {S : Strm} {σ τ α β : Type} {G H : Option S.Tok → Prop} {L : Texts S.Tok α} {M : Texts S.Tok (α → α → α)}

mutual
/-- What `chainr1` accepts, operands being `L` and operators `M`: an operand and the rest of the chain.  `G` may follow where no
operator does, and `H` where no operand does. -/
inductive Texts.ChainR {T : Type} (L : Texts T α) (M : Texts T (α → α → α)) (G H : Option T → Prop) : Texts T α where
  | mk {u z : List T} {v r : α} {o : Option T} : L u v (lead z o) → Texts.ChainRest L M G H v z r o → Texts.ChainR L M G H (u ++ z) r o
/-- The rest of the chain after `v`. -/
inductive Texts.ChainRest {T : Type} (L : Texts T α) (M : Texts T (α → α → α)) (G H : Option T → Prop) : α → Texts T α where
  /-- No operator comes next. -/
  | stop {v : α} {o : Option T} : G o → Texts.ChainRest L M G H v [] v o
  /-- An operator, but no operand after it. -/
  | drop {v : α} {f : α → α → α} {w : List T} {o : Option T} : M w f o → H o → Texts.ChainRest L M G H v w v o
  /-- An operator and a chain, as long as it goes; then the rest. -/
  | more {v r x : α} {f : α → α → α} {a b c : List T} {o : Option T} : M a f (lead (b ++ c) o) →
      Texts.ChainR L M G H b x (lead c o) → Texts.ChainRest L M G H (f v x) c r o → Texts.ChainRest L M G H v (a ++ (b ++ c)) r o
end

private theorem of_ok {r : ParseResult α S.Err} {i j : S.Input} {c : Bool} {v : α}
    (h : Answer.of r i = .ok c v j) : r = (if c then .commitOk v else .peekOk v) ∧ i = j := by
  cases r <;> cases h <;> exact ⟨rfl, rfl⟩

/-- The answer of the recursion with so much fuel. -/
private abbrev lz (p : Parser S σ α) (op : Parser S τ (α → α → α)) (n : Nat) (i : S.Input) : Answer S.Input S.Err α :=
  Answer.of (chainr1Lazy p op n i).1 (chainr1Lazy p op n i).2

/-- The answer of the loop. -/
private abbrev lp (p : Parser S σ α) (op : Parser S τ (α → α → α)) (n : Nat) (l : α) (c : Bool) (i : S.Input) :
    Answer S.Input S.Err α :=
  Answer.of (chainr1Loop p op n l (if c then .commit () else .peek ()) i).1
    (chainr1Loop p op n l (if c then .commit () else .peek ()) i).2

private theorem lz_succ {p : Parser S σ α} {op : Parser S τ (α → α → α)} (hcp : Coherent p) (n : Nat) (i : S.Input) :
    lz p op (n + 1) i = match p.answer i with
      | .ok c v j => lp p op n v c j
      | .soft => .soft
      | .hard e => .hard e
      | .abort a => .abort a := by
  rw [lz, chainr1Lazy, ← hcp.lazy i]
  generalize p.lazy i = y
  obtain ⟨r, y⟩ := y
  cases r <;> rfl

private theorem lp_soft {p : Parser S σ α} {op : Parser S τ (α → α → α)} (n : Nat) (l : α) (c : Commit Unit) (i : S.Input) (e : Tracked S.Err) :
    (chainr1Loop p op n l c i).1 ≠ .peekErr e := by
  induction n generalizing l c i with
  | zero => rw [chainr1Loop]; intro h; cases h
  | succ n ih =>
    rw [chainr1Loop]
    dsimp only
    generalize op.lazy i = x
    obtain ⟨r, j⟩ := x
    have go : ∀ (c : Commit Unit) (f : α → α → α), (match (chainr1Lazy p op n j).1.toStd with
        | .ok r rest => chainr1Loop p op n (f l r) (c.merge rest) (chainr1Lazy p op n j).2
        | .err (.commit e) => (.commitErr e.error, (chainr1Lazy p op n j).2)
        | .err (.peek _) =>
          match S.reset (S.checkpoint j) (chainr1Lazy p op n j).2 with
          | (some e, k) => (.commitErr e, k)
          | (none, k) => (.ofStd (.ok l c), k)
        | .abort a => (.abort a, (chainr1Lazy p op n j).2)).1 ≠ .peekErr e := by
      intro c f
      generalize chainr1Lazy p op n j = y
      obtain ⟨r, y⟩ := y
      cases r with
      | commitOk v => exact ih _ _ _
      | peekOk v => exact ih _ _ _
      | commitErr e => intro h; cases h
      | abort e => intro h; cases h
      | peekErr e =>
        dsimp only [ParseResult.toStd]
        generalize S.reset (S.checkpoint j) y = z
        obtain ⟨z1, z2⟩ := z
        cases z1 <;> cases c <;> intro h <;> cases h
    cases r with
    | commitOk f => exact go _ f
    | peekOk f => exact go _ f
    | commitErr e => intro h; cases h
    | abort e => intro h; cases h
    | peekErr e =>
      dsimp only [ParseResult.toStd]
      generalize S.reset (S.checkpoint i) j = z
      obtain ⟨z1, z2⟩ := z
      cases z1 <;> cases c <;> intro h <;> cases h

private theorem lz_reach {p : Parser S σ α} {op : Parser S τ (α → α → α)} (hmp : Moves p) {n : Nat} {i k : S.Input} {e : Tracked S.Err}
    (h : chainr1Lazy p op n i = (.peekErr e, k)) : S.Reach i k := by
  cases n with
  | zero => rw [chainr1Lazy] at h; cases h
  | succ n =>
    rw [chainr1Lazy] at h
    have hr := hmp.lazy i
    revert h hr
    generalize p.lazy i = y
    obtain ⟨r, y⟩ := y
    intro h hr
    cases r with
    | commitOk v => exact absurd (congrArg Prod.fst h) (lp_soft _ _ _ _ _)
    | peekOk v => exact absurd (congrArg Prod.fst h) (lp_soft _ _ _ _ _)
    | commitErr e => cases h
    | abort e => cases h
    | peekErr e => cases h; exact hr

private theorem lp_succ (hS : S.Lawful) {p : Parser S σ α} {op : Parser S τ (α → α → α)} (hmp : Moves p) (hmo : Moves op)
    (hco : Coherent op) (n : Nat) (l : α) (c : Bool) (i : S.Input) :
    lp p op (n + 1) l c i = match op.answer i with
      | .ok d f j =>
        match lz p op n j with
        | .ok d' r k => lp p op n (f l r) (c || d || d') k
        | .soft => .ok (c || d) l j
        | .hard e => .hard e
        | .abort a => .abort a
      | .soft => .ok c l i
      | .hard e => .hard e
      | .abort a => .abort a := by
  rw [lp, chainr1Loop, ← hco.lazy i]
  have hr := hmo.lazy i
  dsimp only
  revert hr
  generalize op.lazy i = x
  obtain ⟨r, j⟩ := x
  intro hr
  have go : ∀ (d : Bool) (f : α → α → α), Answer.of (match (chainr1Lazy p op n j).1.toStd with
        | .ok r rest => chainr1Loop p op n (f l r) (((if c then .commit () else .peek () : Commit Unit).merge
            (if d then .commit () else .peek ())).merge rest) (chainr1Lazy p op n j).2
        | .err (.commit e) => (.commitErr e.error, (chainr1Lazy p op n j).2)
        | .err (.peek _) =>
          match S.reset (S.checkpoint j) (chainr1Lazy p op n j).2 with
          | (some e, k) => (.commitErr e, k)
          | (none, k) => (.ofStd (.ok l ((if c then .commit () else .peek () : Commit Unit).merge
            (if d then .commit () else .peek ()))), k)
        | .abort a => (.abort a, (chainr1Lazy p op n j).2)).1
      (match (chainr1Lazy p op n j).1.toStd with
        | .ok r rest => chainr1Loop p op n (f l r) (((if c then .commit () else .peek () : Commit Unit).merge
            (if d then .commit () else .peek ())).merge rest) (chainr1Lazy p op n j).2
        | .err (.commit e) => (.commitErr e.error, (chainr1Lazy p op n j).2)
        | .err (.peek _) =>
          match S.reset (S.checkpoint j) (chainr1Lazy p op n j).2 with
          | (some e, k) => (.commitErr e, k)
          | (none, k) => (.ofStd (.ok l ((if c then .commit () else .peek () : Commit Unit).merge
            (if d then .commit () else .peek ()))), k)
        | .abort a => (.abort a, (chainr1Lazy p op n j).2)).2 =
      match lz p op n j with
        | .ok d' r k => lp p op n (f l r) (c || d || d') k
        | .soft => .ok (c || d) l j
        | .hard e => .hard e
        | .abort a => .abort a := by
    intro d f
    have hz := fun e k => lz_reach (op := op) hmp (n := n) (i := j) (k := k) (e := e)
    rw [lz]
    revert hz
    generalize chainr1Lazy p op n j = y
    obtain ⟨r, y⟩ := y
    intro hz
    cases r with
    | commitOk v => cases c <;> cases d <;> rfl
    | peekOk v => cases c <;> cases d <;> rfl
    | commitErr e => rfl
    | abort e => rfl
    | peekErr e =>
      dsimp only [ParseResult.toStd]
      rw [hS.reset_reach (hz e y rfl)]
      cases c <;> cases d <;> rfl
  cases r with
  | commitOk f => exact go true f
  | peekOk f => exact go false f
  | commitErr e => rfl
  | abort e => rfl
  | peekErr e =>
    dsimp only [ParseResult.toStd]
    rw [hS.reset_reach hr]
    cases c <;> rfl

private theorem r_shape_ok {p : Parser S σ α} {i j : S.Input} {c : Bool} {v : α} (h : p.answer i = .ok c v j) : p.shape i = .ok c v j := by
  rw [Parser.shape, h]
  rfl

private theorem r_shape_soft {p : Parser S σ α} {i : S.Input} (h : p.answer i = .soft) : p.shape i = .soft := by
  rw [Parser.shape, h]
  rfl

private theorem r_of_shape_ok {p : Parser S σ α} {i j : S.Input} {c : Bool} {v : α} (h : p.shape i = .ok c v j) :
    p.answer i = .ok c v j := by
  revert h
  unfold Parser.shape
  cases p.answer i <;> intro h <;> cases h
  rfl

private theorem r_of_shape_soft {p : Parser S σ α} {i : S.Input} (h : p.shape i = .soft) : p.answer i = .soft := by
  revert h
  unfold Parser.shape
  cases p.answer i <;> intro h <;> cases h
  rfl

private theorem lz_soft {p : Parser S σ α} {op : Parser S τ (α → α → α)} (hcp : Coherent p) {n : Nat} {i : S.Input}
    (h : lz p op n i = .soft) : p.answer i = .soft := by
  cases n with
  | zero => rw [lz, chainr1Lazy] at h; cases h
  | succ n =>
    rw [lz_succ hcp] at h
    cases hx : p.answer i with
    | ok c v j =>
      rw [hx] at h
      dsimp only at h
      revert h
      have := fun e => lp_soft (p := p) (op := op) n v (if c then .commit () else .peek ()) j e
      unfold lp
      revert this
      generalize chainr1Loop p op n v (if c then .commit () else .peek ()) j = y
      obtain ⟨r, y⟩ := y
      intro this h
      cases r with
      | peekErr e => exact absurd rfl (this e)
      | _ => cases h
    | soft => rfl
    | hard e => rw [hx] at h; cases h
    | abort a => rw [hx] at h; cases h

private theorem only_both (hS : S.Lawful) {p : Parser S σ α} {s : Parser S τ (α → α → α)} (hmp : Moves p) (hms : Moves s)
    (hcp : Coherent p) (hcs : Coherent s) (hp : OnlyReads L p) (hf : OnlyFails H p) (hs : OnlyReads M s) (hg : OnlyFails G s) (n : Nat) :
    (∀ i c r k, lz p s n i = .ok c r k → ∃ w, S.Reads i w k ∧ c = (!w.isEmpty) ∧ Texts.ChainR L M G H w r (S.ahead k)) ∧
    (∀ l c i d r k, lp p s n l c i = .ok d r k →
      ∃ w, S.Reads i w k ∧ d = (c || !w.isEmpty) ∧ Texts.ChainRest L M G H l w r (S.ahead k)) := by
  induction n with
  | zero =>
    constructor
    · intro i c r k h; rw [lz, chainr1Lazy] at h; cases h
    · intro l c i d r k h; rw [lp, chainr1Loop] at h; cases h
  | succ n ih =>
    constructor
    · intro i c r k h
      rw [lz_succ hcp] at h
      cases hx : p.answer i with
      | ok c' v j =>
        rw [hx] at h
        obtain ⟨u, g1, rfl, g3⟩ := hp _ _ _ _ (r_shape_ok hx)
        obtain ⟨z, k1, rfl, k3⟩ := ih.2 _ _ _ _ _ _ h
        exact ⟨u ++ z, reads_append g1 k1, isEmpty_append_not u z, .mk (ahead_reads k1 ▸ g3) k3⟩
      | soft => rw [hx] at h; cases h
      | hard e => rw [hx] at h; cases h
      | abort a => rw [hx] at h; cases h
    · intro l c i d r k h
      rw [lp_succ hS hmp hms hcs] at h
      cases hx : s.answer i with
      | ok c' f j =>
        rw [hx] at h
        dsimp only at h
        obtain ⟨a, g1, rfl, g3⟩ := hs _ _ _ _ (r_shape_ok hx)
        cases hy : lz p s n j with
        | ok d' x k' =>
          rw [hy] at h
          obtain ⟨b, b1, rfl, b3⟩ := ih.1 _ _ _ _ hy
          obtain ⟨z, z1, rfl, z3⟩ := ih.2 _ _ _ _ _ _ h
          have hr := reads_append b1 z1
          refine ⟨a ++ (b ++ z), reads_append g1 hr, ?_, .more (ahead_reads hr ▸ g3) (ahead_reads z1 ▸ b3) z3⟩
          cases a <;> cases b <;> cases z <;> cases c <;> rfl
        | soft =>
          rw [hy] at h
          cases h
          exact ⟨a, g1, rfl, .drop g3 (hf _ (r_shape_soft (lz_soft hcp hy)))⟩
        | hard e => rw [hy] at h; cases h
        | abort e => rw [hy] at h; cases h
      | soft =>
        rw [hx] at h
        cases h
        exact ⟨[], .nil _, by simp, .stop (hg _ (r_shape_soft hx))⟩
      | hard e => rw [hx] at h; cases h
      | abort a => rw [hx] at h; cases h

private theorem back_both (hS : S.Lawful) {p : Parser S σ α} {s : Parser S τ (α → α → α)} (hmp : Moves p) (hms : Moves s)
    (hcp : Coherent p) (hcs : Coherent s) (hp : Describes L p) (hf : FailsBy H p) (hs : Describes M s) (hg : FailsBy G s)
    (hL : ∀ v o, ¬ L [] v o) (hM : ∀ v o, ¬ M [] v o) {w : List S.Tok} {r : α} {o : Option S.Tok}
    (h : Texts.ChainR L M G H w r o) : ∀ n i k, w.length < n → S.isPartial i = false → S.Reads i w k → S.ahead k = o →
      lz p s n i = .ok (!w.isEmpty) r k := by
  refine Texts.ChainR.rec (L := L) (M := M) (G := G) (H := H)
    (motive_1 := fun w r o _ => ∀ n i k, w.length < n → S.isPartial i = false → S.Reads i w k → S.ahead k = o →
      lz p s n i = .ok (!w.isEmpty) r k)
    (motive_2 := fun v w r o _ => ∀ n c i k, w.length < n → S.isPartial i = false → S.Reads i w k → S.ahead k = o →
      lp p s n v c i = .ok (c || !w.isEmpty) r k) ?_ ?_ ?_ ?_ h
  · intro u z v r o h1 _ ih n i k hn hi hr ho
    obtain ⟨j, r1, r2⟩ := reads_split hr
    obtain ⟨n, rfl⟩ : ∃ m, n = m + 1 := ⟨n - 1, by omega⟩
    have hu : 0 < u.length := by
      cases u with
      | nil => exact absurd h1 (hL _ _)
      | cons => simp
    rw [List.length_append] at hn
    rw [lz_succ hcp, r_of_shape_ok (hp.back u v i j hi r1 (by rw [ahead_reads r2, ho]; exact h1))]
    dsimp only
    rw [ih n _ j k (by omega) (by rw [hS.reads_isPartial r1, hi]) r2 ho, isEmpty_append_not]
  · intro v o h1 n c i k hn hi hr ho
    obtain ⟨n, rfl⟩ : ∃ m, n = m + 1 := ⟨n - 1, by omega⟩
    cases Strm.reads_nil.1 hr
    rw [lp_succ hS hmp hms hcs, r_of_shape_soft (hg.back i hi (ho ▸ h1))]
    simp
  · intro v f w o h1 h2 n c i k hn hi hr ho
    have hw : 0 < w.length := by
      cases w with
      | nil => exact absurd h1 (hM _ _)
      | cons => simp
    obtain ⟨n, rfl⟩ : ∃ m, n = m + 1 + 1 := ⟨n - 2, by omega⟩
    rw [lp_succ hS hmp hms hcs, r_of_shape_ok (hs.back w f i k hi hr (ho ▸ h1))]
    dsimp only
    rw [lz_succ hcp, r_of_shape_soft (hf.back k (by rw [hS.reads_isPartial hr, hi]) (ho ▸ h2))]
  · intro v r x f a b z o h1 _ _ ih1 ih2 n c i k hn hi hr ho
    have ha : 0 < a.length := by
      cases a with
      | nil => exact absurd h1 (hM _ _)
      | cons => simp
    simp only [List.length_append] at hn
    obtain ⟨n, rfl⟩ : ∃ m, n = m + 1 := ⟨n - 1, by omega⟩
    obtain ⟨j, r1, r2⟩ := reads_split hr
    obtain ⟨l, r3, r4⟩ := reads_split r2
    have hj : S.isPartial j = false := by rw [hS.reads_isPartial r1, hi]
    rw [lp_succ hS hmp hms hcs, r_of_shape_ok (hs.back a f i j hi r1 (by rw [ahead_reads r2, ho]; exact h1))]
    dsimp only
    rw [ih1 n j l (by omega) hj r3 (by rw [ahead_reads r4, ho])]
    dsimp only
    rw [ih2 n _ l k (by omega) (by rw [hS.reads_isPartial r3, hj]) r4 ho]
    cases a <;> cases b <;> cases z <;> cases c <;> rfl

/-- **C63, C60.**  `chainr1` accepts exactly the chains of that grammar. -/
theorem C63_is_chainr1 (hS : S.Lawful) {p : Parser S σ α} {s : Parser S τ (α → α → α)} (hmp : Moves p) (hms : Moves s)
    (hcp : Coherent p) (hcs : Coherent s) (hp : Describes L p) (hf : FailsBy H p) (hs : Describes M s) (hg : FailsBy G s)
    (hL : ∀ v o, ¬ L [] v o) (hM : ∀ v o, ¬ M [] v o) : Describes (Texts.ChainR L M G H) (chainr1 p s) := by
  constructor
  · intro w v i k hi hr h
    refine r_shape_ok (p := chainr1 p s) ?_
    refine back_both hS hmp hms hcp hcs hp hf hs hg hL hM h _ i k ?_ hi hr rfl
    have := hS.reads_size hr
    omega
  · intro i c v k h
    exact (only_both hS hmp hms hcp hcs hp.only hf.only hs.only hg.only _).1 i c v k (r_of_shape_ok h)

/-- **C63.**  It fails without commitment exactly where the operand does. -/
theorem C63_is_chainr1_fails {p : Parser S σ α} {s : Parser S τ (α → α → α)} (hcp : Coherent p) (hf : FailsBy H p) :
    FailsBy H (chainr1 p s) := by
  constructor
  · intro i hi h
    refine r_shape_soft (p := chainr1 p s) ?_
    show lz p s (2 * S.size i + 2 + 1) i = .soft
    rw [lz_succ hcp, r_of_shape_soft (hf.back i hi h)]
  · intro i h
    exact hf.only i (r_shape_soft (lz_soft hcp (r_of_shape_soft h)))

/-! ## Concrete cases -/

private abbrev B := sliceS Nat 1

private abbrev digit (t : Nat) : Option Nat := if t < 10 then some t else none

/-- Digits with 12 between them, which subtracts. -/
private abbrev minus := chainr1 (satisfyMap B digit) (map (token B 12) fun _ => ((· - ·) : Nat → Nat → Nat))

-- the hypotheses are met
example : ∃ K, Describes K minus ∧ ∃ G, FailsBy G minus := by
  have hS := slice_lawful Nat 1
  have hd := C53_satisfy_map (S := B) hS digit
  have ht := C53_token (S := B) hS 12
  have hm := moves_satisfyMap (S := B) hS digit
  have ho : Moves (map (token B 12) fun _ => ((· - ·) : Nat → Nat → Nat)) := moves_map (S := B) hS (moves_token (S := B) hS 12) _
  exact ⟨_, C63_is_chainr1 hS hm ho (Coherent.ofLazy hS hm.lazy) (Coherent.ofMode hS ho.run) (C63_is_one hd) (C63_is_one_fails hd)
      (C63_is_map (C63_is_one ht) _) (C63_is_map_fails (C63_is_one_fails ht) _)
      (by rintro v o ⟨t, h, _⟩; cases h) (by rintro v o ⟨_, ⟨t, h, _⟩, _⟩; cases h),
    _, C63_is_chainr1_fails (Coherent.ofLazy hS hm.lazy) (C63_is_one_fails hd)⟩

-- 9 - (5 - 3)
example : minus.shape (⟨0, [9, 12, 5, 12, 3]⟩ : B.Input) = .ok true 7 ⟨5, []⟩ := rfl

/-- **C11, C63, violated.**  After an operator that is dropped the chain goes on from the left: `9 - 5 - - 3` is accepted, and as
`(9 - 5) - 3`. -/
theorem C63_chainr1_left_fails :
    minus.shape (⟨0, [9, 12, 5, 12, 12, 3]⟩ : B.Input) = .ok true ((9 - 5) - 3) ⟨6, []⟩ := rfl

end Verif
