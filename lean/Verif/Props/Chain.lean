import Verif.Props.Repeat

/-!
# C11: operator chains
-/

namespace Verif

set_option linter.unusedVariables false

variable {S : Strm} {σ τ υ α β γ : Type}

/-! ## `chainl1` -/

/-- The loop of `chainl1`: rounds, and what ends them. -/
theorem chain_run (hS : S.Lawful) {T : Type} {t : Parser S T ((α → α → α) × α × Unit)}
    (hm : Moves t) {Clean : T → Prop} (hr : ReusableIn Clean t) (ht : Consuming t) (n : Nat) (l : α)
    (c : Commit Unit) (i : S.Input) (s : T) (hn : S.size i < n) (hs : Clean s) :
    ∃ vs d k, Ref.Run t.answer i vs d k ∧
      (chainl1Loop t n true l c i s).answer =
        (match t.answer k with
         | .ok _ _ _ => .abort .panic
         | .soft => .ok (!c.isPeek || d) (vs.foldl (fun l x => x.1 l x.2.1) l) k
         | .hard e => .hard e
         | .abort a => .abort a) ∧ ∀ c v j, t.answer k ≠ .ok c v j := by
  induction n generalizing l c i s with
  | zero => omega
  | succ n ih =>
    unfold chainl1Loop
    have hsame := hr.same s hs i
    have hok := hr.ok s hs i
    have hreach := hm.run true i s
    revert hsame hok hreach
    simp only
    generalize t.run true i s = o
    obtain ⟨r, j, u⟩ := o
    intro hsame hok hreach
    simp only at hreach
    have go : ∀ (b : Bool) v, r = (if b then ParseResult.commitOk v else .peekOk v) →
        ∃ vs d k, Ref.Run t.answer i vs d k ∧
        (chainl1Loop t n true (v.1 l v.2.1) (c.merge (if b then .commit () else .peek ())) j u).answer =
        (match t.answer k with
         | .ok _ _ _ => .abort .panic
         | .soft => .ok (!c.isPeek || d) (vs.foldl (fun l x => x.1 l x.2.1) l) k
         | .hard e => .hard e
         | .abort a => .abort a) ∧ ∀ c v j, t.answer k ≠ .ok c v j := by
      rintro b v rfl
      have h1 : t.answer i = .ok b v j := by cases b <;> exact hsame.symm
      obtain ⟨x, xs, hx⟩ := ht _ _ _ _ h1
      have := hS.reads_size hx
      simp only [List.length_cons] at this
      obtain ⟨vs, d, k, h2, h3, h4⟩ := ih (v.1 l v.2.1) (c.merge (if b then .commit () else .peek ())) j u
        (by omega) (hok (by cases b <;> rfl))
      refine ⟨v :: vs, b || d, k, .cons h1 h2, ?_, h4⟩
      rw [h3]
      cases t.answer k <;> try rfl
      cases b <;> cases c <;> rfl
    cases r with
    | commitOk v => exact go true v rfl
    | peekOk v => exact go false v rfl
    | commitErr e =>
      have h : t.answer i = .hard e := hsame.symm
      exact ⟨[], false, i, .nil i, by rw [h]; rfl, by rw [h]; intro _ _ _ h; cases h⟩
    | peekErr e =>
      have h : t.answer i = .soft := hsame.symm
      refine ⟨[], false, i, .nil i, ?_, by rw [h]; intro _ _ _ h; cases h⟩
      rw [h]
      simp only [ParseResult.toStd]
      rw [hS.tryReset_eq hreach]
      cases c <;> rfl
    | abort a =>
      have h : t.answer i = .abort a := hsame.symm
      exact ⟨[], false, i, .nil i, by rw [h]; rfl, by rw [h]; intro _ _ _ h; cases h⟩


private theorem isMany_map' {I E : Type} {m : Sem I E α} (f : α → β) {i : I} {a : Answer I E (List α)}
    (h : Ref.IsMany m i a) : Ref.IsMany (fun i => (m i).map f) i (a.map (·.map f)) := by
  obtain ⟨vs, c, k, h1, h2⟩ := h
  refine ⟨vs.map f, c, k, ?_, ?_⟩
  · clear h2
    induction h1 with
    | nil i => exact .nil i
    | cons h _ ih => exact .cons (by rw [h]; rfl) ih
  · revert h2
    simp only
    cases m k with
    | ok => exact id
    | _ => rintro rfl; rfl

private theorem pair_shape (op : Parser S τ (α → α → α)) (p : Parser S σ α) (i : S.Input) :
    (Ref.bind op.shape fun f => Ref.map p.shape fun x => (f, x)) i =
      ((pair op p).shape i).map fun x => (x.1, x.2.1) := by
  have h := C12_tuple op (.cons p .nil) i
  rw [pair, h]
  rw [Ref.seq]
  simp only [Ref.bind]
  cases op.shape i with
  | ok c f j =>
    simp only [Ref.map]
    rw [Ref.seq]
    simp only [Ref.bind]
    cases p.shape j with
    | ok c' x k => cases c <;> cases c' <;> rfl
    | _ => cases c <;> rfl
  | _ => rfl

private theorem consuming_pair {p : Parser S σ α} {op : Parser S τ (α → α → α)} (hm : Moves op)
    (hp : Consuming p) : Consuming (pair op p) := by
  intro i c v j h
  have h' := pair_shape op p i
  simp only [Parser.shape, h, Answer.shape, Answer.map, Ref.bind] at h'
  revert h'
  have hreach := hm.run true i op.init
  revert hreach
  unfold Parser.answer
  generalize op.run true i op.init = o
  obtain ⟨r, k, s⟩ := o
  rintro ⟨ts, hts⟩
  have go : ∀ b f, ((Ref.map p.shape fun x => ((f : α → α → α), x)) k).after b = .ok c (v.1, v.2.1) j →
      ∃ t ts, S.Reads i (t :: ts) j := by
    intro b f h
    simp only [Ref.map] at h
    have h1 : ∃ c', p.shape k = .ok c' v.2.1 j := by
      revert h
      cases p.shape k with
      | ok c' x l => intro h; cases h; exact ⟨_, rfl⟩
      | soft => cases b <;> intro h <;> cases h
      | _ => intro h; cases h
    obtain ⟨c', h1⟩ := h1
    have h2 : p.answer k = .ok c' v.2.1 j := by
      revert h1
      unfold Parser.shape
      cases p.answer k <;> intro h <;> cases h <;> rfl
    obtain ⟨u, us, hus⟩ := hp _ _ _ _ h2
    have := hts.trans hus
    cases ts with
    | nil => exact ⟨_, _, this⟩
    | cons t ts => exact ⟨_, _, this⟩
  cases r with
  | commitOk f => exact go true f
  | peekOk f => exact go false f
  | _ => intro h; cases h

/-- **C11.**  `chainl1(p, op)` parses an operand and then, greedily, an operator followed by an operand,
and combines the values from the left.  An operator after which no operand follows is a failure
(committed if the operator was), otherwise the chain ends before it. -/
theorem C11_chainl1 (hS : S.Lawful) {Clean : σ → Prop} {C : τ → Prop} {p : Parser S σ α}
    {op : Parser S τ (α → α → α)} (hmp : Moves p) (hmo : Moves op) (hp : Keeps false Clean p)
    (ho : Keeps false C op) (hc : Consuming p) (hn : StartsAnew p) (i : S.Input) :
    Ref.IsChainl1 p.shape op.shape i ((chainl1 p op).shape i) := by
  have hw := keeps_pair (keeps_boxed ho) (keeps_boxed hp)
  have hwm := moves_pair hS (moves_boxed hS hmo) (moves_boxed hS hmp)
  have hok := hp.keep p.init hp.init i
  have key : ∀ (b : Bool) (v : α) (j : S.Input) (s : σ), Clean s →
      ∃ a, Ref.IsMany (Ref.bind op.shape fun f => Ref.map p.shape fun x => (f, x)) j a ∧
      (chainl1Loop (pair (boxed op) (boxed p)) (S.size j + 2) true v (if b then .commit () else .peek ()) j
        { (pair (boxed op) (boxed p)).init with
          tail := (((pair (boxed op) (boxed p)).init.tail.1.1, s), ()) }).answer.shape =
        (a.map (List.foldl (fun l fx => fx.1 l fx.2) v)).after b := by
    intro b v j s hs
    obtain ⟨vs, d, k, h1, h2, h3⟩ := chain_run hS hwm hw.reusableIn (consuming_pair (moves_boxed hS hmo) hc)
      (S.size j + 2) v (if b then .commit () else .peek ()) j
      { (pair (boxed op) (boxed p)).init with
          tail := (((pair (boxed op) (boxed p)).init.tail.1.1, s), ()) } (by omega)
      ⟨ho.init, hs, trivial⟩
    have e : (Ref.bind op.shape fun f => Ref.map p.shape fun x => (f, x)) =
        fun i => ((fun i => (pair (boxed op) (boxed p)).shape i) i).map fun x => (x.1, x.2.1) :=
      funext fun i => pair_shape (boxed op) (boxed p) i
    rw [e]
    rw [h2]
    have h4 : ∀ a, (match (pair (boxed op) (boxed p)).shape k with
        | .ok _ _ _ => False
        | .soft => a = .ok d vs k
        | .hard e => a = .hard e
        | .abort x => a = .abort x) → Ref.IsMany (fun i => (pair (boxed op) (boxed p)).shape i) j a := by
      intro a ha
      refine ⟨vs, d, k, ?_, ?_⟩
      · clear ha h2 h3
        induction h1 with
        | nil i => exact .nil i
        | cons h _ ih => exact .cons (by simp only [Parser.shape, h, Answer.shape]) ih
      · revert ha
        simp only
        cases (pair (boxed op) (boxed p)).shape k <;> exact id
    revert h3 h4
    unfold Parser.shape
    cases (pair (boxed op) (boxed p)).answer k with
    | ok c v j => intro h; exact absurd rfl (h c v j)
    | soft =>
      intro _ h
      refine ⟨_, isMany_map' _ (h _ rfl), ?_⟩
      cases b <;> simp [Answer.shape, Answer.map, Answer.after, Commit.isPeek, List.foldl_map]
    | hard e =>
      intro _ h
      exact ⟨_, isMany_map' _ (h _ rfl), rfl⟩
    | abort e =>
      intro _ h
      exact ⟨_, isMany_map' _ (h _ rfl), rfl⟩
  unfold Ref.IsChainl1
  revert hok key
  have hn := hn i
  simp only [Parser.shape, Parser.answer, chainl1, Parser.ofMode]
  have e : (pair (boxed op) (boxed p)).init.tail.1.2 = p.init := rfl
  rw [e, hn]
  generalize p.run true i p.init = o
  obtain ⟨r, j, s⟩ := o
  intro hok key
  cases r with
  | commitOk v => exact key true v j s (hok rfl)
  | peekOk v => exact key false v j s (hok rfl)
  | commitErr e => rfl
  | peekErr e => rfl
  | abort a => rfl

/-! ## `chainr1` -/

/-- Pairs of an operator and an operand, one after the other. -/
private abbrev opRun (p : Parser S σ α) (op : Parser S τ (α → α → α)) :=
  Ref.Run (Ref.bind op.shape fun f => Ref.map p.shape fun x => (f, x))

private theorem op_pair {p : Parser S σ α} {op : Parser S τ (α → α → α)} {i j : S.Input} {c : Bool}
    {f : α → α → α} {x : α}
    (h : (Ref.bind op.shape fun f => Ref.map p.shape fun x => (f, x)) i = .ok c (f, x) j) :
    ∃ c1 k c2, op.answer i = .ok c1 f k ∧ p.answer k = .ok c2 x j ∧ c = (c1 || c2) := by
  revert h
  unfold Ref.bind Parser.shape
  cases op.answer i with
  | ok c1 g k =>
    simp only [Answer.shape, Ref.map]
    cases hp : p.answer k with
    | ok c2 y l =>
      simp only [Answer.map, Answer.after, Answer.ok.injEq, Prod.mk.injEq]
      rintro ⟨rfl, ⟨rfl, rfl⟩, rfl⟩
      exact ⟨_, _, _, ⟨rfl, rfl, rfl⟩, hp, rfl⟩
    | soft => cases c1 <;> intro h <;> cases h
    | hard => intro h; cases h
    | abort => intro h; cases h
  | _ => intro h; cases h

/-- How a chain can end at `k`: the answer, given what was combined so far. -/
private def chainEnd (p : Parser S σ α) (op : Parser S τ (α → α → α)) (k : S.Input) (c : Bool) (v : α) :
    Answer S.Input S.Err α → Prop := fun a =>
  match op.answer k with
  | .soft => a = .ok c v k
  | .hard e => a = .hard e
  | .abort x => a = .abort x
  | .ok c' _ k' =>
    match p.answer k' with
    | .ok _ _ _ => False
    | .soft => op.answer k' = .soft ∧ a = .ok (c || c') v k'
    | .hard e => a = .hard e
    | .abort x => a = .abort x

private theorem lazy_of {p : Parser S σ α} (hc : Coherent p) (i : S.Input) {a : Answer S.Input S.Err α}
    (h : p.answer i = a) : Answer.of (p.lazy i).1 (p.lazy i).2 = a := (hc.lazy i).trans h


private theorem of_ok {r : ParseResult α S.Err} {i j : S.Input} {c : Bool} {v : α}
    (h : Answer.of r i = .ok c v j) : r = (if c then .commitOk v else .peekOk v) ∧ i = j := by
  cases r <;> cases h <;> exact ⟨rfl, rfl⟩
private theorem of_soft {r : ParseResult α S.Err} {i : S.Input} (h : Answer.of r i = .soft) :
    ∃ e, r = .peekErr e := by cases r <;> cases h; exact ⟨_, rfl⟩
private theorem of_hard {r : ParseResult α S.Err} {i : S.Input} {e : S.Err} (h : Answer.of r i = .hard e) :
    r = .commitErr e := by cases r <;> cases h; rfl
private theorem of_abort {r : ParseResult α S.Err} {i : S.Input} {e : Abort}
    (h : Answer.of r i = .abort e) : r = .abort e := by cases r <;> cases h; rfl

private theorem loop_end (hS : S.Lawful) {p : Parser S σ α} {op : Parser S τ (α → α → α)} (hmp : Moves p)
    (hmo : Moves op) (hcp : Coherent p) (hco : Coherent op) (n : Nat) (l : α) (c : Commit Unit)
    (k : S.Input) {a : Answer S.Input S.Err α} (h : chainEnd p op k (!c.isPeek) l a) :
    Answer.of (chainr1Loop p op (n + 2) l c k).1 (chainr1Loop p op (n + 2) l c k).2 = a := by
  unfold chainr1Loop
  have hl := hco.lazy k
  have hr := hmo.lazy k
  revert hl hr
  simp only
  generalize op.lazy k = x
  obtain ⟨r, j⟩ := x
  simp only
  intro hl hr
  revert h
  unfold chainEnd
  rw [← hl]
  have go : ∀ (b : Bool) (f : α → α → α), r = (if b then .commitOk f else .peekOk f) →
      (match p.answer j with
      | .ok _ _ _ => False
      | .soft => op.answer j = .soft ∧ a = .ok (!c.isPeek || b) l j
      | .hard e => a = .hard e
      | .abort x => a = .abort x) →
      Answer.of (match ((chainr1Lazy p op (n + 1) j).1).toStd with
        | .ok r rest => chainr1Loop p op (n + 1) (f l r)
            ((c.merge (if b then .commit () else .peek ())).merge rest) (chainr1Lazy p op (n + 1) j).2
        | .err (.commit e) => (.commitErr e.error, (chainr1Lazy p op (n + 1) j).2)
        | .err (.peek _) =>
          match S.reset (S.checkpoint j) (chainr1Lazy p op (n + 1) j).2 with
          | (some e, k) => (.commitErr e, k)
          | (none, k) => (.ofStd (.ok l (c.merge (if b then .commit () else .peek ()))), k)
        | .abort a => (.abort a, (chainr1Lazy p op (n + 1) j).2)).1
        (match ((chainr1Lazy p op (n + 1) j).1).toStd with
        | .ok r rest => chainr1Loop p op (n + 1) (f l r)
            ((c.merge (if b then .commit () else .peek ())).merge rest) (chainr1Lazy p op (n + 1) j).2
        | .err (.commit e) => (.commitErr e.error, (chainr1Lazy p op (n + 1) j).2)
        | .err (.peek _) =>
          match S.reset (S.checkpoint j) (chainr1Lazy p op (n + 1) j).2 with
          | (some e, k) => (.commitErr e, k)
          | (none, k) => (.ofStd (.ok l (c.merge (if b then .commit () else .peek ()))), k)
        | .abort a => (.abort a, (chainr1Lazy p op (n + 1) j).2)).2 = a := by
    intro b f hb
    have hp := hcp.lazy j
    have hpr := hmp.lazy j
    rw [chainr1Lazy]
    revert hp hpr
    generalize p.lazy j = y
    obtain ⟨r', j'⟩ := y
    simp only
    intro hp hpr
    rw [← hp]
    cases r' with
    | commitOk x => intro h; exact h.elim
    | peekOk x => intro h; exact h.elim
    | peekErr e =>
      rintro ⟨-, rfl⟩
      simp only [ParseResult.toStd, hS.reset_reach hpr]
      cases b <;> cases c <;> rfl
    | commitErr e => rintro rfl; rfl
    | abort e => rintro rfl; rfl
  cases r with
  | commitOk f => exact go true f rfl
  | peekOk f => exact go false f rfl
  | peekErr e =>
    rintro rfl
    simp only [ParseResult.toStd, hS.reset_reach hr]
    cases c <;> rfl
  | commitErr e => rintro rfl; rfl
  | abort e => rintro rfl; rfl


private theorem loop_run (hS : S.Lawful) {p : Parser S σ α} {op : Parser S τ (α → α → α)} (hmp : Moves p)
    (hmo : Moves op) (hcp : Coherent p) (hco : Coherent op) {k : S.Input} :
    ∀ (vs : List ((α → α → α) × α)) (n : Nat) (l : α) (c : Commit Unit) (j : S.Input) (d : Bool),
    opRun p op j vs d k → ∀ a, chainEnd p op k (!c.isPeek || d) (Ref.foldRight l vs) a →
    Answer.of (chainr1Loop p op (n + 2 * vs.length + 2) l c j).1
      (chainr1Loop p op (n + 2 * vs.length + 2) l c j).2 = a := by
  intro vs
  induction vs with
  | nil =>
    intro n l c j d hrun a h
    cases hrun
    simp only [Bool.or_false, Ref.foldRight] at h
    exact loop_end hS hmp hmo hcp hco _ l c k h
  | cons fx vs ih =>
    obtain ⟨f, x⟩ := fx
    intro n l c j d hrun a h
    cases hrun with
    | @cons _ j2 _ c0 d' _ _ h1 h2 =>
      obtain ⟨c1, j1, c2, ho, hp, rfl⟩ := op_pair h1
      have e : n + 2 * ((f, x) :: vs).length + 2 = (n + 2 * vs.length + 3) + 1 := by
        simp only [List.length_cons]; omega
      rw [e]
      rw [chainr1Loop]
      obtain ⟨q1, q2⟩ := of_ok (lazy_of hco j ho)
      revert q1 q2
      generalize op.lazy j = y
      obtain ⟨r, y⟩ := y
      rintro rfl rfl
      simp only
      have e1 : (if c1 then ParseResult.commitOk f else .peekOk f : ParseResult (α → α → α) S.Err).toStd =
          .ok f (if c1 then .commit () else .peek ()) := by cases c1 <;> rfl
      rw [e1]
      simp only
      -- the recursive call
      have e2 : chainr1Lazy p op (n + 2 * vs.length + 3) y =
          chainr1Loop p op (n + 2 * vs.length + 2) x (if c2 then .commit () else .peek ()) j2 := by
        rw [chainr1Lazy]
        obtain ⟨q1, q2⟩ := of_ok (lazy_of hcp y hp)
        revert q1 q2
        generalize p.lazy y = z
        obtain ⟨r, z⟩ := z
        rintro rfl rfl
        cases c2 <;> rfl
      rw [e2]
      have ih := ih n x (if c2 then .commit () else .peek ()) j2 d' h2
      revert ih
      generalize chainr1Loop p op (n + 2 * vs.length + 2) x (if c2 then .commit () else .peek ()) j2 = w
      obtain ⟨r, w⟩ := w
      simp only
      intro ih
      revert h
      unfold chainEnd at ih ⊢
      revert ih
      cases hk : op.answer k with
      | soft =>
        intro ih h
        simp only at ih h
        subst h
        obtain ⟨q1, rfl⟩ := of_ok (ih _ rfl)
        subst q1
        have e3 : (if (!(if c2 then .commit () else .peek () : Commit Unit).isPeek || d') = true then
            ParseResult.commitOk (Ref.foldRight x vs) else .peekOk (Ref.foldRight x vs) :
            ParseResult α S.Err).toStd =
            .ok (Ref.foldRight x vs) (if c2 || d' then .commit () else .peek ()) := by
          cases c2 <;> cases d' <;> rfl
        rw [e3]
        simp only
        rw [loop_end hS hmp hmo hcp hco (n + 2 * vs.length + 1) _ _ w
          (a := .ok (!c.isPeek || (c1 || c2 || d')) (Ref.foldRight l ((f, x) :: vs)) w)]
        unfold chainEnd
        rw [hk]
        simp only [Ref.foldRight]
        cases c <;> cases c1 <;> cases c2 <;> cases d' <;> rfl
      | hard e =>
        intro ih h
        simp only at ih h
        subst h
        cases of_hard (ih _ rfl)
        rfl
      | abort e =>
        intro ih h
        simp only at ih h
        subst h
        cases of_abort (ih _ rfl)
        rfl
      | ok c' g k' =>
        simp only
        cases hk' : p.answer k' with
        | ok => intro _ h; exact h.elim
        | soft =>
          rintro ih ⟨hs, h⟩
          simp only at ih
          subst h
          obtain ⟨q1, rfl⟩ := of_ok (ih _ ⟨hs, rfl⟩)
          subst q1
          have e3 : (if (!(if c2 then .commit () else .peek () : Commit Unit).isPeek || d' || c') = true then
              ParseResult.commitOk (Ref.foldRight x vs) else .peekOk (Ref.foldRight x vs) :
              ParseResult α S.Err).toStd =
              .ok (Ref.foldRight x vs) (if c2 || d' || c' then .commit () else .peek ()) := by
            cases c2 <;> cases d' <;> cases c' <;> rfl
          rw [e3]
          simp only
          rw [loop_end hS hmp hmo hcp hco (n + 2 * vs.length + 1) _ _ w
            (a := .ok (!c.isPeek || (c1 || c2 || d') || c') (Ref.foldRight l ((f, x) :: vs)) w)]
          unfold chainEnd
          rw [hs]
          simp only [Ref.foldRight]
          cases c <;> cases c1 <;> cases c2 <;> cases d' <;> cases c' <;> rfl
        | hard e =>
          intro ih h
          simp only at ih h
          subst h
          cases of_hard (ih _ rfl)
          rfl
        | abort e =>
          intro ih h
          simp only at ih h
          subst h
          cases of_abort (ih _ rfl)
          rfl

private theorem run_size (hS : S.Lawful) {p : Parser S σ α} {op : Parser S τ (α → α → α)} (hmo : Moves op)
    (hc : Consuming p) {i k : S.Input} {vs : List ((α → α → α) × α)} {d : Bool} (h : opRun p op i vs d k) :
    vs.length ≤ S.size i := by
  induction h with
  | nil => exact Nat.zero_le _
  | @cons i0 _ _ _ _ _ _ h _ ih =>
    obtain ⟨c1, j1, c2, ho, hp, -⟩ := op_pair h
    obtain ⟨t, ts, h1⟩ := hc _ _ _ _ hp
    have := hS.reads_size h1
    have h2 := hmo.run true i0 op.init
    have h3 := congrArg id ho
    revert h2 h3
    simp only [id, Parser.answer]
    generalize op.run true i0 op.init = o
    obtain ⟨r, l, s⟩ := o
    intro h2 h3
    obtain ⟨-, h3⟩ := of_ok (r := r) (i := l) h3
    simp only at h2
    subst h3
    have := hS.reach_size h2
    simp only [List.length_cons] at *
    omega

private theorem chainr1_answer (hS : S.Lawful) {p : Parser S σ α} {op : Parser S τ (α → α → α)}
    (hmp : Moves p) (hmo : Moves op) (hcp : Coherent p) (hco : Coherent op) (hc : Consuming p)
    {i j k : S.Input} {c d : Bool} {v : α} {vs : List ((α → α → α) × α)} (h0 : p.answer i = .ok c v j)
    (hrun : opRun p op j vs d k) (a : Answer S.Input S.Err α)
    (he : chainEnd p op k (c || d) (Ref.foldRight v vs) a) : (chainr1 p op).answer i = a := by
  have e : (chainr1 p op).answer i = Answer.of (chainr1Lazy p op (2 * S.size i + 3) i).1
      (chainr1Lazy p op (2 * S.size i + 3) i).2 := rfl
  rw [e, chainr1Lazy]
  obtain ⟨q1, q2⟩ := of_ok (lazy_of hcp i h0)
  obtain ⟨t, ts, h1⟩ := hc _ _ _ _ h0
  have h2 := hS.reads_size h1
  have h3 := run_size hS hmo hc hrun
  have e1 : 2 * S.size i + 2 = (2 * (S.size i - vs.length)) + 2 * vs.length + 2 := by
    simp only [List.length_cons] at h2
    omega
  revert q1 q2
  generalize p.lazy i = y
  obtain ⟨r, y⟩ := y
  rintro rfl rfl
  have := loop_run hS hmp hmo hcp hco vs (2 * (S.size i - vs.length)) v (if c then .commit () else .peek ())
    y d hrun a
  rw [← e1] at this
  cases c
  · exact this he
  · exact this he

/-- **C11.**  `chainr1(p, op)`: after an operand and the longest row of operator–operand pairs, at a place
where `op` fails, the values are combined from the right; a committed failure of `op` there is the
failure of the whole. -/
theorem C11_chainr1 (hS : S.Lawful) {p : Parser S σ α} {op : Parser S τ (α → α → α)} (hmp : Moves p)
    (hmo : Moves op) (hcp : Coherent p) (hco : Coherent op) (hc : Consuming p) {i j k : S.Input}
    {c d : Bool} {v : α} {vs : List ((α → α → α) × α)} (h0 : p.answer i = .ok c v j)
    (hrun : Ref.Run (Ref.bind op.shape fun f => Ref.map p.shape fun x => (f, x)) j vs d k) :
    (op.answer k = .soft → (chainr1 p op).answer i = .ok (c || d) (Ref.foldRight v vs) k) ∧
    (∀ e, op.answer k = .hard e → (chainr1 p op).answer i = .hard e) ∧
    (∀ c' f k' e, op.answer k = .ok c' f k' → p.answer k' = .hard e → (chainr1 p op).answer i = .hard e) := by
  refine ⟨fun h => ?_, fun e h => ?_, fun c' f k' e h h' => ?_⟩
  · exact chainr1_answer hS hmp hmo hcp hco hc h0 hrun _ (by unfold chainEnd; rw [h])
  · exact chainr1_answer hS hmp hmo hcp hco hc h0 hrun _ (by unfold chainEnd; rw [h])
  · exact chainr1_answer hS hmp hmo hcp hco hc h0 hrun _ (by unfold chainEnd; simp only [h, h'])

/-- **C11**, where the code deviates: an operator after which no operand follows is *consumed and
dropped*; the chain succeeds with what came before it. -/
theorem C11_chainr1_trailing (hS : S.Lawful) {p : Parser S σ α} {op : Parser S τ (α → α → α)}
    (hmp : Moves p) (hmo : Moves op) (hcp : Coherent p) (hco : Coherent op) (hc : Consuming p)
    {i j k : S.Input} {c d : Bool} {v : α} {vs : List ((α → α → α) × α)} (h0 : p.answer i = .ok c v j)
    (hrun : Ref.Run (Ref.bind op.shape fun f => Ref.map p.shape fun x => (f, x)) j vs d k)
    {c' : Bool} {f : α → α → α} {k' : S.Input} (h1 : op.answer k = .ok c' f k') (h2 : p.answer k' = .soft)
    (h3 : op.answer k' = .soft) :
    (chainr1 p op).answer i = .ok (c || d || c') (Ref.foldRight v vs) k' :=
  chainr1_answer hS hmp hmo hcp hco hc h0 hrun _ (by
    unfold chainEnd
    simp only [h1, h2]
    exact ⟨h3, trivial⟩)

/-- **C11.**  Without an operand `chainr1` fails as `p` does. -/
theorem C11_chainr1_none {p : Parser S σ α} {op : Parser S τ (α → α → α)} (hcp : Coherent p) (i : S.Input) :
    (p.answer i = .soft → (chainr1 p op).answer i = .soft) ∧
    (∀ e, p.answer i = .hard e → (chainr1 p op).answer i = .hard e) := by
  have e : (chainr1 p op).answer i = Answer.of (chainr1Lazy p op (2 * S.size i + 3) i).1
      (chainr1Lazy p op (2 * S.size i + 3) i).2 := rfl
  rw [e, chainr1Lazy]
  refine ⟨fun h => ?_, fun e h => ?_⟩
  · obtain ⟨e, q1⟩ := of_soft (lazy_of hcp i h)
    revert q1
    generalize p.lazy i = y
    obtain ⟨r, y⟩ := y
    rintro rfl
    rfl
  · have q1 := of_hard (lazy_of hcp i h)
    revert q1
    generalize p.lazy i = y
    obtain ⟨r, y⟩ := y
    rintro rfl
    rfl

/-! ## Concrete cases -/

private abbrev B := sliceS Nat 1

/-- An operand: any token of at least 2. -/
private abbrev operand := satisfy B (fun t => decide (2 ≤ t))
/-- An operator: `1`, which subtracts. -/
private abbrev minus := map (token B 1) (fun _ => ((· - ·) : Nat → Nat → Nat))

private theorem operand_moves : Moves operand :=
  Built.moves (R := sliceR Nat 1) (slice_lawful _ _) (sliceR_lawful _ _) (.satisfy _)
private theorem minus_moves : Moves minus :=
  Built.moves (R := sliceR Nat 1) (slice_lawful _ _) (sliceR_lawful _ _) (.map _ (.token _))
private theorem operand_keeps : Keeps false (fun _ => True) operand := keeps_unit _
private theorem minus_keeps : Keeps false (fun _ => True) minus := keeps_map (keeps_unit _) _

example (i : B.Input) : Ref.IsChainl1 operand.shape minus.shape i ((chainl1 operand minus).shape i) :=
  C11_chainl1 (slice_lawful _ _) operand_moves minus_moves operand_keeps minus_keeps
    (consuming_satisfy _) (fun _ => rfl) i
/-- `(20 - 8) - 5`. -/
example : (chainl1 operand minus).answer ⟨0, [20, 1, 8, 1, 5, 0]⟩ = .ok true 7 ⟨5, [0]⟩ := rfl
/-- `20 - (8 - 5)`. -/
example : (chainr1 operand minus).answer ⟨0, [20, 1, 8, 1, 5, 0]⟩ = .ok true 17 ⟨5, [0]⟩ := rfl
example : ∃ e, (chainl1 operand minus).answer ⟨0, [20, 1, 8, 1, 0]⟩ = .hard e := ⟨_, rfl⟩
/-- The trailing operator is gone. -/
example : (chainr1 operand minus).answer ⟨0, [20, 1, 8, 1, 0]⟩ = .ok true 12 ⟨4, [0]⟩ := rfl
example : (chainr1 operand minus).answer ⟨0, [20, 1, 0]⟩ = .ok true 20 ⟨2, [0]⟩ :=
  C11_chainr1_trailing (slice_lawful _ _) operand_moves minus_moves
    (Built.coherent (R := sliceR Nat 1) (slice_lawful _ _) (sliceR_lawful _ _) (.satisfy _))
    (Built.coherent (R := sliceR Nat 1) (slice_lawful _ _) (sliceR_lawful _ _) (.map _ (.token _)))
    (consuming_satisfy _) (i := ⟨0, [20, 1, 0]⟩) (j := ⟨1, [1, 0]⟩) (c := true) rfl (.nil _) (c' := true) rfl rfl rfl

end Verif
