import Verif.Props.Repeat
import Verif.Proof.RunLemmas
import Verif.Props.Termination
import Verif.Props.Chain
import Verif.Props.Monad
import Verif.Proof.BuiltMoves
import Verif.Proof.Coherent
import Verif.Spec.Recursion

/-!
# C52: recursive grammars
-/

namespace Verif

set_option linter.unusedVariables false

variable {S : Strm} {σ τ υ ρ α β γ δ : Type}

/-! ## Recursion depth -/

private theorem agree_symm {b : Bool} {n : Nat} {m m' : Sem S.Input Unit α} (h : AgreeBelow S b n m m') :
    AgreeBelow S b n m' m := fun i hb hi => by
  obtain ⟨h1, h2⟩ := h i hb hi
  exact ⟨h1.symm, fun a => h1 ▸ h2 a⟩

private theorem agree_le {b : Bool} {n k : Nat} {m m' : Sem S.Input Unit α} (h : AgreeBelow S b n m m')
    (hk : k ≤ n) : AgreeBelow S b k m m' := fun i hb hi => h i hb (by omega)

private theorem hole_recur {Hole : Parser S τ α → Prop} {F : Parser S τ α → Parser S τ α} {init : τ}
    (h0 : Hole (recur F init 0)) (hs : ∀ q, Hole q → Hole (F q)) (n : Nat) : Hole (recur F init n) := by
  induction n with
  | zero => exact h0
  | succ n ih => exact hs _ ih

private theorem agree_recur {b : Bool} {Hole : Parser S τ α → Prop} {F : Parser S τ α → Parser S τ α} {init : τ}
    (hF : Guarded b 1 Hole F) (h0 : Hole (recur F init 0)) (hs : ∀ q, Hole q → Hole (F q)) (n : Nat) :
    ∀ d, AgreeBelow S b n (recur F init n).shape (recur F init (n + d)).shape := by
  induction n with
  | zero => intro d i hb hi; omega
  | succ n ih =>
    intro d
    have h := hF n _ _ (hole_recur h0 hs n) (hole_recur h0 hs (n + d)) (ih d)
    rw [show n + 1 + d = (n + d) + 1 by omega]
    exact h

/-- **C52.**  A recursive grammar that consumes a token before every recursive call comes to an end on
every input: on `n` tokens the calls are nested at most `n + 1` deep, and unfolding the grammar
further changes nothing. -/
theorem C52_depth {b : Bool} {Hole : Parser S τ α → Prop} {F : Parser S τ α → Parser S τ α} {init : τ}
    (hF : Guarded b 1 Hole F) (h0 : Hole (recur F init 0)) (hs : ∀ q, Hole q → Hole (F q))
    (i : S.Input) (hb : S.isPartial i = b) (n : Nat) (hn : S.size i < n) :
    (∀ a, (recur F init n).shape i ≠ .abort a) ∧
    ∀ m, n ≤ m → (recur F init m).shape i = (recur F init n).shape i := by
  refine ⟨((agree_recur hF h0 hs n 0) i hb hn).2, fun m hm => ?_⟩
  have h := ((agree_recur hF h0 hs n (m - n)) i hb hn).1
  rw [show n + (m - n) = m by omega] at h
  exact h.symm

/-- **C52.**  Such a grammar has one meaning: any parser that answers as the body applied to itself —
as the Rust function, which calls itself, does — answers as the unfolded grammar. -/
theorem C52_unique {b : Bool} {Hole : Parser S τ α → Prop} {F : Parser S τ α → Parser S τ α} {init : τ}
    (hF : Guarded b 1 Hole F) (h0 : Hole (recur F init 0)) (hs : ∀ q, Hole q → Hole (F q))
    (q : Parser S τ α) (hq : Hole q) (hfix : ∀ i, S.isPartial i = b → q.shape i = (F q).shape i)
    (i : S.Input) (hb : S.isPartial i = b) (n : Nat) (hn : S.size i < n) :
    q.shape i = (recur F init n).shape i := by
  have key : ∀ n, AgreeBelow S b n q.shape (recur F init n).shape := by
    intro n
    induction n with
    | zero => intro i hb hi; omega
    | succ n ih =>
      intro i hb hi
      rw [hfix i hb]
      exact hF n _ _ hq (hole_recur h0 hs n) ih i hb hi
  exact (key n i hb hn).1

/-- **C52.**  And the unfolded grammar satisfies its own equation. -/
theorem C52_equation {b : Bool} {Hole : Parser S τ α → Prop} {F : Parser S τ α → Parser S τ α} {init : τ}
    (hF : Guarded b 1 Hole F) (h0 : Hole (recur F init 0)) (hs : ∀ q, Hole q → Hole (F q))
    (i : S.Input) (hb : S.isPartial i = b) (n : Nat) (hn : S.size i < n) :
    (F (recur F init n)).shape i = (recur F init n).shape i :=
  (C52_depth hF h0 hs i hb n hn).2 (n + 1) (by omega)

/-! ## Which grammars are guarded -/

/-- How far successes of `m` get: at least `d` tokens. -/
private def Steps (S : Strm) (d : Nat) (m : Sem S.Input Unit α) : Prop :=
  ∀ i c v j, m i = .ok c v j → S.size j + d ≤ S.size i ∧ S.isPartial j = S.isPartial i

private theorem shape_ok_iff {p : Parser S σ α} {i : S.Input} {c : Bool} {v : α} {j : S.Input}
    (h : p.shape i = .ok c v j) : p.answer i = .ok c v j := by
  simp only [Parser.shape] at h
  revert h
  cases p.answer i <;> intro h <;> cases h
  rfl

private theorem steps_zero (hS : S.Lawful) {p : Parser S σ α} (hm : Moves p) : Steps S 0 p.shape := by
  intro i c v j h
  have h := shape_ok_iff h
  have hr := hm.run true i p.init
  revert h hr
  simp only [Parser.answer]
  generalize p.run true i p.init = o
  obtain ⟨r, k, t⟩ := o
  cases r <;> intro h hr <;> cases h
  · exact ⟨hS.reach_size hr, hS.reads_isPartial hr.choose_spec⟩
  · exact ⟨hS.reach_size hr, hS.reads_isPartial hr.choose_spec⟩

private theorem steps_one (hS : S.Lawful) {p : Parser S σ α} (hc : Consuming p) : Steps S 1 p.shape := by
  intro i c v j h
  obtain ⟨t, ts, hr⟩ := hc i c v j (shape_ok_iff h)
  have := hS.reads_size hr
  simp only [List.length_cons] at this
  exact ⟨by omega, hS.reads_isPartial hr⟩

private theorem steps_reaches (hS : S.Lawful) {k r : Nat} {Hole : Parser S τ α → Prop}
    {f : Parser S τ α → Parser S σ β} (hr : Reaches k r Hole f) (hm : ∀ q, Hole q → Moves (f q)) :
    ∃ d, k ≤ r + d ∧ ∀ q, Hole q → Steps S d (f q).shape := by
  rcases hr with h | ⟨h, hc⟩
  · exact ⟨0, h, fun q hq => steps_zero hS (hm q hq)⟩
  · exact ⟨1, h, fun q hq => steps_one hS (hc q hq)⟩

private theorem after_abort {I : Type} (c : Bool) {a : Answer I Unit α} (h : ∀ x, a ≠ .abort x) :
    ∀ x, a.after c ≠ .abort x := by
  intro x
  cases a with
  | abort y => exact absurd rfl (h y)
  | soft => cases c <;> simp [Answer.after]
  | _ => simp [Answer.after]

private theorem mapped_abort {I E : Type} (f : α → β) {a : Answer I E α} (h : ∀ x, a ≠ .abort x) :
    ∀ x, a.map f ≠ .abort x := by
  intro x
  cases a with
  | abort y => exact absurd rfl (h y)
  | _ => simp [Answer.map]

private theorem agree_bind {b : Bool} {n r d : Nat} {m m' : Sem S.Input Unit α} {f f' : α → Sem S.Input Unit β}
    (hm : AgreeBelow S b n m m') (hs : Steps S d m) (hf : ∀ v, AgreeBelow S b r (f v) (f' v))
    (hn : n ≤ r + d) : AgreeBelow S b n (Ref.bind m f) (Ref.bind m' f') := by
  intro i hb hi
  obtain ⟨h1, h2⟩ := hm i hb hi
  simp only [Ref.bind, ← h1]
  cases hx : m i with
  | ok c v j =>
    obtain ⟨h3, h4⟩ := hs i c v j hx
    obtain ⟨h5, h6⟩ := hf v j (by rw [h4, hb]) (by omega)
    exact ⟨by simp only [h5], after_abort c h6⟩
  | abort a => exact absurd hx (h2 a)
  | soft => exact ⟨rfl, fun a h => by cases h⟩
  | hard e => exact ⟨rfl, fun a h => by cases h⟩

private theorem agree_map {b : Bool} {n : Nat} {m m' : Sem S.Input Unit α} (f : α → β)
    (hm : AgreeBelow S b n m m') : AgreeBelow S b n (Ref.map m f) (Ref.map m' f) := by
  intro i hb hi
  obtain ⟨h1, h2⟩ := hm i hb hi
  simp only [Ref.map, h1]
  exact ⟨trivial, mapped_abort f (fun a => h1 ▸ h2 a)⟩

private theorem agree_congr {b : Bool} {n : Nat} {m m' l l' : Sem S.Input Unit α}
    (hl : ∀ i, S.isPartial i = b → l i = m i)
    (hl' : ∀ i, S.isPartial i = b → l' i = m' i) (h : AgreeBelow S b n m m') : AgreeBelow S b n l l' := by
  intro i hb hi
  rw [hl i hb, hl' i hb]
  exact h i hb hi

variable {b : Bool} {k r : Nat} {Hole : Parser S τ α → Prop}

/-- **C52.**  The recursive call itself. -/
theorem C52_call : Guarded b 0 Hole (fun q => q) := fun n q q' hq hq' h => h

/-- **C52.**  A parser that makes no recursive call, and itself comes to an end. -/
theorem C52_fixed (p : Parser S σ β) (hp : ∀ i a, p.shape i ≠ .abort a) : Guarded b k Hole (fun _ => p) :=
  fun n q q' hq hq' h i hb hi => ⟨rfl, hp i⟩

/-- **C52.**  Calls after more tokens are calls after fewer. -/
theorem C52_weaken {f : Parser S τ α → Parser S σ β} (h : Guarded b k Hole f) (hr : r ≤ k) :
    Guarded b r Hole f := fun n q q' hq hq' ha => agree_le (h n q q' hq hq' ha) (by omega)

/-- **C52.**  `map`. -/
theorem C52_map {f : Parser S τ α → Parser S σ β} (h : Guarded b k Hole f) (g : β → γ) :
    Guarded b k Hole (fun q => map (f q) g) := fun n q q' hq hq' ha =>
  agree_congr (fun i _ => mapShape (τ := σ) ((f q).run true i (f q).init) g)
    (fun i _ => mapShape (τ := σ) ((f q').run true i (f q').init) g) (agree_map g (h n q q' hq hq' ha))

/-- **C52.**  `p.with(q)`, `(p, q)`, `p.skip(q)`: recursive calls in the second part come after what the
first part consumes. -/
theorem C52_with (hS : S.Lawful) {f : Parser S τ α → Parser S σ β} {g : Parser S τ α → Parser S υ γ}
    (hf : Guarded b k Hole f) (hg : Guarded b r Hole g) (hm : ∀ q, Hole q → Moves (f q))
    (hr : Reaches k r Hole f) : Guarded b k Hole (fun q => «with» (f q) (g q)) := fun n q q' hq hq' ha => by
  obtain ⟨d, h1, h2⟩ := steps_reaches hS hr hm
  exact agree_congr (fun i _ => C12_with (f q) (g q) i) (fun i _ => C12_with (f q') (g q') i)
    (agree_bind (hf n q q' hq hq' ha) (h2 q hq) (fun _ => hg n q q' hq hq' ha) (by omega))

theorem C52_skip (hS : S.Lawful) {f : Parser S τ α → Parser S σ β} {g : Parser S τ α → Parser S υ γ}
    (hf : Guarded b k Hole f) (hg : Guarded b r Hole g) (hm : ∀ q, Hole q → Moves (f q))
    (hr : Reaches k r Hole f) : Guarded b k Hole (fun q => skip (f q) (g q)) := fun n q q' hq hq' ha => by
  obtain ⟨d, h1, h2⟩ := steps_reaches hS hr hm
  exact agree_congr (fun i _ => C12_skip (f q) (g q) i) (fun i _ => C12_skip (f q') (g q') i)
    (agree_bind (hf n q q' hq hq' ha) (h2 q hq) (fun _ => agree_map _ (hg n q q' hq hq' ha)) (by omega))

theorem C52_pair (hS : S.Lawful) {f : Parser S τ α → Parser S σ β} {g : Parser S τ α → Parser S υ γ}
    (hf : Guarded b k Hole f) (hg : Guarded b r Hole g) (hm : ∀ q, Hole q → Moves (f q))
    (hr : Reaches k r Hole f) : Guarded b k Hole (fun q => pair (f q) (g q)) := fun n q q' hq hq' ha => by
  obtain ⟨d, h1, h2⟩ := steps_reaches hS hr hm
  have hv : AgreeBelow S b (n + r) (Ref.value ()) (Ref.value ()) :=
    fun i _ _ => ⟨rfl, fun a h => by cases h⟩
  have hz : AgreeBelow S b (n + r) (Ref.bind (g q).shape fun x => Ref.map (Ref.value ()) fun y => (x, y))
      (Ref.bind (g q').shape fun x => Ref.map (Ref.value ()) fun y => (x, y)) := by
    intro i hb hi
    obtain ⟨h3, h4⟩ := hg n q q' hq hq' ha i hb hi
    simp only [Ref.bind, ← h3]
    refine ⟨trivial, fun a => ?_⟩
    cases hx : (g q).shape i with
    | abort x => exact absurd hx (h4 x)
    | _ => simp [Ref.map, Ref.value, Answer.map, Answer.after]
  exact agree_congr (fun i _ => C12_tuple (f q) (.cons (g q) .nil) i)
    (fun i _ => C12_tuple (f q') (.cons (g q') .nil) i)
    (agree_bind (hf n q q' hq hq' ha) (h2 q hq) (fun _ => agree_map _ hz) (by omega))

/-- **C52.**  `between(open, close, p)`. -/
theorem C52_between (hS : S.Lawful) {o : Parser S τ α → Parser S σ β} {c : Parser S τ α → Parser S υ γ}
    {f : Parser S τ α → Parser S ρ δ} {r' : Nat}
    (ho : Guarded b k Hole o) (hf : Guarded b r Hole f) (hc : Guarded b r' Hole c)
    (hmo : ∀ q, Hole q → Moves (o q)) (hmf : ∀ q, Hole q → Moves (f q))
    (hr : Reaches k r Hole o) (hr' : Reaches r r' Hole f) :
    Guarded b k Hole (fun q => between (o q) (c q) (f q)) := fun n q q' hq hq' ha => by
  obtain ⟨d, h1, h2⟩ := steps_reaches hS hr hmo
  obtain ⟨d', h1', h2'⟩ := steps_reaches hS hr' hmf
  exact agree_congr (fun i _ => C12_between (o q) (c q) (f q) i) (fun i _ => C12_between (o q') (c q') (f q') i)
    (agree_bind (ho n q q' hq hq' ha) (h2 q hq)
      (fun _ => agree_bind (hf n q q' hq hq' ha) (h2' q hq)
        (fun _ => agree_map _ (hc n q q' hq hq' ha)) (by omega)) (by omega))

private theorem agree_seq (hS : S.Lawful) {ρ β : Type} {k : Nat} {g : Parser S τ α → Seq S ρ β} (hg : GuardedSeq b Hole k g) :
    ∀ n q q', Hole q → Hole q' → AgreeBelow S b n q.shape q'.shape → AgreeBelow S b (n + k) (Ref.seq (g q)) (Ref.seq (g q')) := by
  induction hg with
  | nil => exact fun n q q' hq hq' ha i hb hi => ⟨rfl, fun a h => by cases h⟩
  | cons hf hm hr _ ih =>
    intro n q q' hq hq' ha
    obtain ⟨d, h1, h2⟩ := steps_reaches hS hr hm
    exact agree_bind (hf n q q' hq hq' ha) (h2 q hq) (fun _ => agree_map _ (ih n q q' hq hq' ha)) (by omega)

/-- **C52.**  Tuples of any length. -/
theorem C52_tuple (hS : S.Lawful) {f : Parser S τ α → Parser S σ β} {g : Parser S τ α → Seq S ρ γ}
    (hf : Guarded b k Hole f) (hm : ∀ q, Hole q → Moves (f q)) (hr : Reaches k r Hole f) (hg : GuardedSeq b Hole r g) :
    Guarded b k Hole (fun q => tuple (f q) (g q)) := fun n q q' hq hq' ha =>
  agree_congr (fun i _ => C12_tuple (f q) (g q) i) (fun i _ => C12_tuple (f q') (g q') i)
    (agree_seq hS (.cons hf hm hr hg) n q q' hq hq' ha)

/-- **C52.**  `then`: the parsers chosen by the value of the first part. -/
theorem C52_then (hS : S.Lawful) {f : Parser S τ α → Parser S σ β} {g : Parser S τ α → β → Parser S υ γ} {z : υ}
    (hf : Guarded b k Hole f) (hg : ∀ v, Guarded b r Hole (fun q => g q v)) (hm : ∀ q, Hole q → Moves (f q))
    (hz : ∀ q v, Hole q → (g q v).init = z) (hc : ∀ q v, Hole q → Coherent (g q v))
    (hr : Reaches k r Hole f) : Guarded b k Hole (fun q => thenP (f q) (g q) z) := fun n q q' hq hq' ha => by
  obtain ⟨d, h1, h2⟩ := steps_reaches hS hr hm
  exact agree_congr (fun i _ => C13_then hS (f q) (g q) z (fun v => hz q v hq) (fun v => hc q v hq) i)
    (fun i _ => C13_then hS (f q') (g q') z (fun v => hz q' v hq') (fun v => hc q' v hq') i)
    (agree_bind (hf n q q' hq hq' ha) (h2 q hq) (fun v => hg v n q q' hq hq' ha) (by omega))

/-- **C52.**  `p.or(q)`: both alternatives start at the same place. -/
theorem C52_or (hS : S.Lawful) {f : Parser S τ α → Parser S σ β} {g : Parser S τ α → Parser S υ β}
    (hf : Guarded b k Hole f) (hg : Guarded b k Hole g) (hmf : ∀ q, Hole q → Moves (f q))
    (hmg : ∀ q, Hole q → Moves (g q)) : Guarded b k Hole (fun q => or (f q) (g q)) := by
  intro n q q' hq hq' ha i hb hi
  obtain ⟨h1, h2⟩ := hf n q q' hq hq' ha i hb hi
  obtain ⟨h3, h4⟩ := hg n q q' hq hq' ha i hb hi
  have e : ∀ q, Hole q → (or (f q) (g q)).shape i = match (f q).shape i with
      | .soft => (g q).shape i
      | r => r := by
    intro q hq
    simp only [Parser.shape, C03_or hS (hmf q hq) (hmg q hq) i]
    cases (f q).answer i <;> rfl
  rw [e q hq, e q' hq', ← h1, ← h3]
  refine ⟨rfl, fun a => ?_⟩
  cases hx : (f q).shape i with
  | soft => exact h4 a
  | abort x => exact absurd hx (h2 x)
  | _ => intro h; cases h

private theorem agree_alts {ρ β : Type} {g : Parser S τ α → Alts S β ρ} (hg : GuardedAlts b k Hole g) :
    (∀ q, Hole q → ∀ x, (g q).Mem x → Moves x.2) ∧
    ∀ n q q', Hole q → Hole q' → AgreeBelow S b n q.shape q'.shape →
      AgreeBelow S b (n + k) (fun i => (Ref.choice (g q).answers i).shape) (fun i => (Ref.choice (g q').answers i).shape) := by
  induction hg with
  | @last σ β f hf hm =>
    refine ⟨fun q hq x hx => ?_, fun n q q' hq hq' ha => ?_⟩
    · cases hx; exact hm q hq
    · have e : ∀ q i, (Ref.choice (Alts.answers (.last (f q))) i).shape = (f q).shape i := by
        intro q i
        simp only [Alts.answers, Ref.choice, Parser.shape]
        cases (f q).answer i <;> rfl
      exact agree_congr (fun i _ => e q i) (fun i _ => e q' i) (hf n q q' hq hq' ha)
  | @cons σ ρ β f g hf hm _ ih =>
    refine ⟨fun q hq x hx => ?_, fun n q q' hq hq' ha => ?_⟩
    · rcases hx with rfl | hx
      · exact hm q hq
      · exact ih.1 q hq x hx
    · intro i hb hi
      obtain ⟨h1, h2⟩ := hf n q q' hq hq' ha i hb hi
      obtain ⟨h3, h4⟩ := ih.2 n q q' hq hq' ha i hb hi
      have e : ∀ q, (Ref.choice (Alts.answers (.cons (f q) (g q))) i).shape = match (f q).shape i with
          | .soft => (Ref.choice (g q).answers i).shape
          | r => r := by
        intro q
        simp only [Alts.answers, Ref.choice, Parser.shape]
        cases (f q).answer i <;> rfl
      dsimp only at h3 h4 ⊢
      rw [e q, e q', ← h1, ← h3]
      refine ⟨rfl, fun a => ?_⟩
      cases hx : (f q).shape i with
      | soft => exact h4 a
      | abort x => exact absurd hx (h2 x)
      | _ => intro h; cases h

/-- **C52.**  `choice`: all alternatives start at the same place. -/
theorem C52_choice (hS : S.Lawful) {g : Parser S τ α → Alts S β ρ} (hg : GuardedAlts b k Hole g) :
    Guarded b k Hole (fun q => choice (g q)) := fun n q q' hq hq' ha =>
  have e := fun q (hq : Hole q) i => congrArg Answer.shape (C03_choice hS ((agree_alts hg).1 q hq) true (choice (g q)).init (.inl rfl) i).1
  agree_congr (fun i _ => e q hq i) (fun i _ => e q' hq' i) ((agree_alts hg).2 n q q' hq hq' ha)

/-- **C52.**  `optional`. -/
theorem C52_optional (hS : S.Lawful) {f : Parser S τ α → Parser S σ β} (hf : Guarded b k Hole f)
    (hm : ∀ q, Hole q → Moves (f q)) : Guarded b k Hole (fun q => optional (f q)) := by
  intro n q q' hq hq' ha i hb hi
  obtain ⟨h1, h2⟩ := hf n q q' hq hq' ha i hb hi
  have e : ∀ q, Hole q → (optional (f q)).shape i = Ref.optional (f q).shape i := by
    intro q hq
    simp only [Parser.shape, C06_optional hS (hm q hq) i, Ref.optional]
    cases (f q).answer i <;> rfl
  rw [e q hq, e q' hq']
  simp only [Ref.optional, ← h1]
  refine ⟨trivial, fun a => ?_⟩
  cases hx : (f q).shape i with
  | abort x => exact absurd hx (h2 x)
  | _ => intro h; cases h

/-- **C52.**  `attempt`, on complete input. -/
theorem C52_attempt (hS : S.Lawful) {f : Parser S τ α → Parser S σ β} (hf : Guarded false k Hole f)
    (hm : ∀ q, Hole q → Moves (f q)) (hc : ∀ q, Hole q → Coherent (f q)) :
    Guarded false k Hole (fun q => attempt (f q)) := by
  intro n q q' hq hq' ha i hb hi
  obtain ⟨h1, h2⟩ := hf n q q' hq hq' ha i hb hi
  have e : ∀ q, Hole q → (attempt (f q)).shape i = Ref.attempt (f q).shape i := by
    intro q hq
    simp only [Parser.shape, C04_attempt hS (hm q hq) (hc q hq) i hb, Ref.attempt]
    cases (f q).answer i <;> rfl
  rw [e q hq, e q' hq']
  simp only [Ref.attempt, ← h1]
  refine ⟨trivial, fun a => ?_⟩
  cases hx : (f q).shape i with
  | abort x => exact absurd hx (h2 x)
  | _ => intro h; cases h

/-- **C52.**  `look_ahead`. -/
theorem C52_lookAhead (hS : S.Lawful) {f : Parser S τ α → Parser S σ β} (hf : Guarded b k Hole f)
    (hm : ∀ q, Hole q → Moves (f q)) (hc : ∀ q, Hole q → Coherent (f q)) :
    Guarded b k Hole (fun q => lookAhead (f q)) := by
  intro n q q' hq hq' ha i hb hi
  obtain ⟨h1, h2⟩ := hf n q q' hq hq' ha i hb hi
  have e : ∀ q, Hole q → (lookAhead (f q)).shape i = Ref.lookAhead (f q).shape i := by
    intro q hq
    simp only [Parser.shape, C05_lookAhead hS (hm q hq) (hc q hq) i, Ref.lookAhead]
    cases (f q).answer i <;> rfl
  rw [e q hq, e q' hq']
  simp only [Ref.lookAhead, ← h1]
  refine ⟨trivial, fun a => ?_⟩
  cases hx : (f q).shape i with
  | abort x => exact absurd hx (h2 x)
  | _ => intro h; cases h

/-- **C52.**  `not_followed_by`. -/
theorem C52_notFollowedBy (hS : S.Lawful) {f : Parser S τ α → Parser S σ β} (hf : Guarded b k Hole f)
    (hm : ∀ q, Hole q → Moves (f q)) : Guarded b k Hole (fun q => notFollowedBy (f q)) := by
  intro n q q' hq hq' ha i hb hi
  obtain ⟨h1, h2⟩ := hf n q q' hq hq' ha i hb hi
  have e : ∀ q, Hole q → (notFollowedBy (f q)).shape i = Ref.notFollowedBy (f q).shape i := by
    intro q hq
    simp only [Parser.shape, C05_notFollowedBy hS (hm q hq) i, Ref.notFollowedBy]
    cases (f q).answer i <;> rfl
  rw [e q hq, e q' hq']
  simp only [Ref.notFollowedBy, ← h1]
  refine ⟨trivial, fun a => ?_⟩
  cases hx : (f q).shape i with
  | abort x => exact absurd hx (h2 x)
  | _ => intro h; cases h

/-- **C52.**  The function itself: `parser! { fn expr() { body } }`, with or without a state of its own, or
behind `opaque`, a box or a reference. -/
theorem C52_parser {f : Parser S τ α → Parser S σ β} (hf : Guarded b k Hole f) :
    Guarded b k Hole (fun q => parserMacroUnit (f q)) ∧ Guarded b k Hole (fun q => parserMacro (f q)) ∧
    Guarded b k Hole (fun q => boxed (f q)) ∧ Guarded b k Hole (fun q => opaqueP (f q)) := by
  refine ⟨?_, hf, hf, hf⟩
  intro n q q' hq hq' ha
  exact hf n q q' hq hq' ha

/-! ### Repetition -/

private theorem agree_run {n d : Nat} {m m' : Sem S.Input Unit β} (hm : AgreeBelow S b n m m') (hs : Steps S d m)
    {i : S.Input} {vs : List β} {c : Bool} {z : S.Input} (hr : Ref.Run m i vs c z)
    (hb : S.isPartial i = b) (hi : S.size i < n) :
    Ref.Run m' i vs c z ∧ S.isPartial z = b ∧ S.size z < n := by
  induction hr with
  | nil i => exact ⟨.nil i, hb, hi⟩
  | cons h1 h2 ih =>
    obtain ⟨h3, h4⟩ := hs _ _ _ _ h1
    obtain ⟨h5, h6⟩ := ih (by rw [h4, hb]) (by omega)
    exact ⟨.cons ((hm _ hb hi).1 ▸ h1) h5, h6⟩

private theorem agree_isMany {n d : Nat} {m m' : Sem S.Input Unit β} (hm : AgreeBelow S b n m m')
    (hs : Steps S d m) {i : S.Input} (hb : S.isPartial i = b) (hi : S.size i < n)
    {a a' : Answer S.Input Unit (List β)} (h : Ref.IsMany m i a) (h' : Ref.IsMany m' i a') :
    a = a' ∧ ∀ x, a ≠ .abort x := by
  obtain ⟨vs, c, z, h1, h2⟩ := h
  obtain ⟨h3, h4, h5⟩ := agree_run hm hs h1 hb hi
  obtain ⟨h6, h7⟩ := hm z h4 h5
  refine ⟨C07_unique ⟨vs, c, z, h3, h6 ▸ h2⟩ h', fun x hx => ?_⟩
  subst hx
  revert h2
  cases hz : m z with
  | abort y => exact absurd hz (h7 y)
  | _ => intro h; cases h

private theorem steps_hole (hS : S.Lawful) {f : Parser S τ α → Parser S σ β} (hm : ∀ q, Hole q → Moves (f q)) :
    ∀ q, Hole q → Steps S 0 (f q).shape := fun q hq => steps_zero hS (hm q hq)

/-- **C52.**  `many`, of something that consumes. -/
theorem C52_many (hS : S.Lawful) {f : Parser S τ α → Parser S σ β} (hf : Guarded b k Hole f)
    (hm : ∀ q, Hole q → Moves (f q)) (hr : ∀ q, Hole q → Reusable (f q))
    (hc : ∀ q, Hole q → Consuming (f q)) : Guarded b k Hole (fun q => many (f q)) := by
  intro n q q' hq hq' ha i hb hi
  exact agree_isMany (hf n q q' hq hq' ha) (steps_zero hS (hm q hq)) hb hi
    (isMany_shape (C07_many hS (hm q hq) (hr q hq) (hc q hq) i))
    (isMany_shape (C07_many hS (hm q' hq') (hr q' hq') (hc q' hq') i))

private theorem isMany1_shape {m : Sem S.Input S.Err β} {i : S.Input} {a : Answer S.Input S.Err (List β)}
    (h : Ref.IsMany1 m i a) : Ref.IsMany1 (fun i => (m i).shape) i a.shape := by
  revert h
  simp only [Ref.IsMany1]
  cases hx : m i with
  | ok c v j => exact fun h => isMany_shape h
  | soft => rintro rfl; rfl
  | hard e => rintro rfl; rfl
  | abort x => rintro rfl; rfl

/-- **C52.**  `many1`. -/
theorem C52_many1 (hS : S.Lawful) {f : Parser S τ α → Parser S σ β} (hf : Guarded b k Hole f)
    (hm : ∀ q, Hole q → Moves (f q)) (hr : ∀ q, Hole q → Reusable (f q))
    (hc : ∀ q, Hole q → Consuming (f q)) : Guarded b k Hole (fun q => many1 (f q)) := by
  intro n q q' hq hq' ha i hb hi
  have h : Ref.IsMany1 (f q).shape i ((many1 (f q)).shape i) :=
    isMany1_shape (C08_many1 hS (hm q hq) (hr q hq) (hc q hq) i)
  have h' : Ref.IsMany1 (f q').shape i ((many1 (f q')).shape i) :=
    isMany1_shape (C08_many1 hS (hm q' hq') (hr q' hq') (hc q' hq') i)
  have hag := hf n q q' hq hq' ha
  obtain ⟨h1, h2⟩ := hag i hb hi
  simp only [Ref.IsMany1] at h h'
  rw [← h1] at h'
  revert h h'
  cases hx : (f q).shape i with
  | ok c v j => exact fun h h' => agree_isMany hag (steps_zero hS (hm q hq)) hb hi h h'
  | soft => exact fun h h' => ⟨h.trans h'.symm, fun a ha => by rw [h] at ha; cases ha⟩
  | hard e => exact fun h h' => ⟨h.trans h'.symm, fun a ha => by rw [h] at ha; cases ha⟩
  | abort x => exact absurd hx (h2 x)

private theorem steps_bind {d : Nat} {m : Sem S.Input Unit β} {f : β → Sem S.Input Unit γ} (hm : Steps S 0 m)
    (hf : ∀ v, Steps S d (f v)) : Steps S d (Ref.bind m f) := by
  intro i c v j h
  simp only [Ref.bind] at h
  revert h
  cases hx : m i with
  | ok c' w l =>
    obtain ⟨h1, h2⟩ := hm i c' w l hx
    cases hy : f w l with
    | ok d' u z =>
      intro h
      simp only [hy, Answer.after, Answer.ok.injEq] at h
      obtain ⟨-, rfl, rfl⟩ := h
      obtain ⟨h3, h4⟩ := hf w l d' u z hy
      exact ⟨by omega, by rw [h4, h2]⟩
    | soft => cases c' <;> intro h <;> simp [hy, Answer.after] at h
    | hard e => intro h; simp [hy, Answer.after] at h
    | abort x => intro h; simp [hy, Answer.after] at h
  | _ => intro h; cases h

private theorem steps_map {d : Nat} {m : Sem S.Input Unit β} (f : β → γ) (hm : Steps S d m) :
    Steps S d (Ref.map m f) := by
  intro i c v j h
  simp only [Ref.map] at h
  revert h
  cases hx : m i <;> intro h <;> cases h
  exact hm i _ _ _ hx

private theorem isSepBy1_unique {I : Type} {p : Sem I Unit β} {s : Sem I Unit γ} {i : I}
    {a a' : Answer I Unit (List β)} (h : Ref.IsSepBy1 p s i a) (h' : Ref.IsSepBy1 p s i a') : a = a' := by
  simp only [Ref.IsSepBy1] at h h'
  revert h h'
  cases p i with
  | ok c v j =>
    rintro ⟨x, h1, rfl⟩ ⟨y, h2, rfl⟩
    rw [C07_unique h1 h2]
  | _ => rintro rfl rfl; rfl

/-- **C52.**  `sep_by1`. -/
theorem C52_sepBy1 (hS : S.Lawful) {f : Parser S τ α → Parser S σ β} {g : Parser S τ α → Parser S υ γ}
    (hf : Guarded b k Hole f) (hg : Guarded b k Hole g)
    (hmf : ∀ q, Hole q → Moves (f q)) (hmg : ∀ q, Hole q → Moves (g q))
    (hrf : ∀ q, Hole q → ∃ Clean, Keeps false Clean (f q)) (hrg : ∀ q, Hole q → ∃ Clean, Keeps false Clean (g q))
    (hc : ∀ q, Hole q → Consuming (f q)) : Guarded b k Hole (fun q => sepBy1 (f q) (g q)) := by
  intro n q q' hq hq' ha i hb hi
  obtain ⟨C1, k1⟩ := hrf q hq
  obtain ⟨C2, k2⟩ := hrg q hq
  obtain ⟨C3, k3⟩ := hrf q' hq'
  obtain ⟨C4, k4⟩ := hrg q' hq'
  have h := C10_sep_by1 hS (hmf q hq) (hmg q hq) k1 k2 (hc q hq) i
  have h' := C10_sep_by1 hS (hmf q' hq') (hmg q' hq') k3 k4 (hc q' hq') i
  have hag := hf n q q' hq hq' ha
  obtain ⟨h1, h2⟩ := hag i hb hi
  simp only [Ref.IsSepBy1] at h h'
  rw [← h1] at h'
  revert h h'
  cases hx : (f q).shape i with
  | ok c v j =>
    rintro ⟨a, h3, h4⟩ ⟨a', h3', h4'⟩
    obtain ⟨h5, h6⟩ := steps_zero hS (hmf q hq) i c v j hx
    obtain ⟨rfl, h8⟩ := agree_isMany (agree_bind (hg n q q' hq hq' ha) (steps_zero hS (hmg q hq))
      (fun _ => hag) (by omega)) (steps_bind (steps_zero hS (hmg q hq)) (fun _ => steps_zero hS (hmf q hq)))
      (by rw [h6, hb]) (by omega) h3 h3'
    refine ⟨h4.trans h4'.symm, ?_⟩
    rw [h4]
    exact after_abort c (mapped_abort _ h8)
  | soft => exact fun h h' => ⟨h.trans h'.symm, fun a ha => by rw [h] at ha; cases ha⟩
  | hard e => exact fun h h' => ⟨h.trans h'.symm, fun a ha => by rw [h] at ha; cases ha⟩
  | abort x => exact absurd hx (h2 x)

/-- **C52.**  `sep_by`. -/
theorem C52_sepBy (hS : S.Lawful) {f : Parser S τ α → Parser S σ β} {g : Parser S τ α → Parser S υ γ}
    (hf : Guarded b k Hole f) (hg : Guarded b k Hole g)
    (hmf : ∀ q, Hole q → Moves (f q)) (hmg : ∀ q, Hole q → Moves (g q))
    (hrf : ∀ q, Hole q → ∃ Clean, Keeps false Clean (f q)) (hrg : ∀ q, Hole q → ∃ Clean, Keeps false Clean (g q))
    (hc : ∀ q, Hole q → Consuming (f q)) : Guarded b k Hole (fun q => sepBy (f q) (g q)) := by
  intro n q q' hq hq' ha i hb hi
  have key : ∀ q, Hole q → (sepBy (f q) (g q)).shape i = match (sepBy1 (f q) (g q)).shape i with
      | .soft => .ok false [] i
      | a => a := by
    intro q hq
    obtain ⟨C1, k1⟩ := hrf q hq
    obtain ⟨C2, k2⟩ := hrg q hq
    obtain ⟨a, h1, h2⟩ := C10_sep_by hS (hmf q hq) (hmg q hq) k1 k2 (hc q hq) i
    have h3 := C10_sep_by1 hS (hmf q hq) (hmg q hq) k1 k2 (hc q hq) i
    rw [h2, isSepBy1_unique h1 h3]
    cases (sepBy1 (f q) (g q)).shape i <;> rfl
  obtain ⟨h1, h2⟩ := C52_sepBy1 hS hf hg hmf hmg hrf hrg hc n q q' hq hq' ha i hb hi
  rw [key q hq, key q' hq', ← h1]
  refine ⟨rfl, fun a => ?_⟩
  cases hx : (sepBy1 (f q) (g q)).shape i with
  | abort x => exact absurd hx (h2 x)
  | _ => intro h; cases h

/-- **C52.**  `chainl1`: the operands of an expression may be expressions in brackets. -/
theorem C52_chainl1 (hS : S.Lawful) {f : Parser S τ α → Parser S σ β}
    {g : Parser S τ α → Parser S υ (β → β → β)} (hf : Guarded b k Hole f) (hg : Guarded b k Hole g)
    (hmf : ∀ q, Hole q → Moves (f q)) (hmg : ∀ q, Hole q → Moves (g q))
    (hrf : ∀ q, Hole q → ∃ Clean, Keeps false Clean (f q)) (hrg : ∀ q, Hole q → ∃ Clean, Keeps false Clean (g q))
    (hc : ∀ q, Hole q → Consuming (f q)) (hn : ∀ q, Hole q → StartsAnew (f q)) :
    Guarded b k Hole (fun q => chainl1 (f q) (g q)) := by
  intro n q q' hq hq' ha i hb hi
  obtain ⟨C1, k1⟩ := hrf q hq
  obtain ⟨C2, k2⟩ := hrg q hq
  obtain ⟨C3, k3⟩ := hrf q' hq'
  obtain ⟨C4, k4⟩ := hrg q' hq'
  have h := C11_chainl1 hS (hmf q hq) (hmg q hq) k1 k2 (hc q hq) (hn q hq) i
  have h' := C11_chainl1 hS (hmf q' hq') (hmg q' hq') k3 k4 (hc q' hq') (hn q' hq') i
  have hag := hf n q q' hq hq' ha
  obtain ⟨h1, h2⟩ := hag i hb hi
  simp only [Ref.IsChainl1] at h h'
  rw [← h1] at h'
  revert h h'
  cases hx : (f q).shape i with
  | ok c v j =>
    rintro ⟨a, h3, h4⟩ ⟨a', h3', h4'⟩
    obtain ⟨h5, h6⟩ := steps_zero hS (hmf q hq) i c v j hx
    obtain ⟨rfl, h8⟩ := agree_isMany (agree_bind (hg n q q' hq hq' ha) (steps_zero hS (hmg q hq))
      (fun _ => agree_map _ hag) (by omega)) (steps_bind (steps_zero hS (hmg q hq))
        (fun _ => steps_map _ (steps_zero hS (hmf q hq)))) (by rw [h6, hb]) (by omega) h3 h3'
    refine ⟨h4.trans h4'.symm, ?_⟩
    rw [h4]
    exact after_abort c (mapped_abort _ h8)
  | soft => exact fun h h' => ⟨h.trans h'.symm, fun a ha => by rw [h] at ha; cases ha⟩
  | hard e => exact fun h h' => ⟨h.trans h'.symm, fun a ha => by rw [h] at ha; cases ha⟩
  | abort x => exact absurd hx (h2 x)

private theorem agree_count {n : Nat} {m m' : Sem S.Input Unit β} (hm : AgreeBelow S b n m m') (hs : Steps S 0 m) :
    ∀ (hi lo : Nat) (i : S.Input) (a a' : Answer S.Input Unit (List β)), S.isPartial i = b → S.size i < n →
      Ref.IsCount lo hi m i a → Ref.IsCount lo hi m' i a' → a = a' ∧ ∀ x, a ≠ .abort x
  | 0, lo, i, a, a', _, _, h, h' => by
    rw [isCount_zero h, isCount_zero h']
    exact ⟨rfl, fun x h => by cases h⟩
  | hi + 1, lo, i, a, a', hb, hi', h, h' => by
    have h := isCount_step h
    have h' := isCount_step h'
    obtain ⟨h1, h2⟩ := hm i hb hi'
    rw [← h1] at h'
    cases hx : m i with
    | ok c v j =>
      rw [hx] at h h'
      obtain ⟨y, h3, rfl⟩ := h
      obtain ⟨y', h4, rfl⟩ := h'
      obtain ⟨h5, h6⟩ := hs i c v j hx
      obtain ⟨rfl, h7⟩ := agree_count hm hs hi (lo - 1) j y y' (h6.trans hb) (by omega) h3 h4
      exact ⟨rfl, after_abort c (mapped_abort _ h7)⟩
    | soft =>
      rw [hx] at h h'
      rw [h, h']
      refine ⟨rfl, fun x => ?_⟩
      split <;> exact fun h => by cases h
    | hard e => rw [hx] at h h'; rw [h, h']; exact ⟨rfl, fun x h => by cases h⟩
    | abort x => exact absurd hx (h2 x)

/-- **C52.**  `count_min_max`: a bounded number of repetitions need not consume anything. -/
theorem C52_count_min_max (hS : S.Lawful) {f : Parser S τ α → Parser S σ β} (hf : Guarded b k Hole f)
    (hm : ∀ q, Hole q → Moves (f q)) (hr : ∀ q, Hole q → Reusable (f q)) (lo hi : Nat) (hl : lo ≤ hi) :
    Guarded b k Hole (fun q => countMinMax lo hi (f q)) := by
  intro n q q' hq hq' ha i hb hi'
  exact agree_count (hf n q q' hq hq' ha) (steps_zero hS (hm q hq)) hi lo i _ _ hb hi'
    (C09_count_min_max hS (hm q hq) (hr q hq) lo hi hl i) (C09_count_min_max hS (hm q' hq') (hr q' hq') lo hi hl i)

/-- **C52.**  `count`, and the `skip_` versions. -/
theorem C52_count (hS : S.Lawful) {f : Parser S τ α → Parser S σ β} (hf : Guarded b k Hole f)
    (hm : ∀ q, Hole q → Moves (f q)) (hr : ∀ q, Hole q → Reusable (f q)) (n : Nat) :
    Guarded b k Hole (fun q => count n (f q)) ∧ Guarded b k Hole (fun q => skipCount n (f q)) ∧
    ∀ lo hi, lo ≤ hi → Guarded b k Hole (fun q => skipCountMinMax lo hi (f q)) := by
  refine ⟨fun l q q' hq hq' ha i hb hi => ?_, fun l q q' hq hq' ha i hb hi => ?_,
    fun lo hi' hl l q q' hq hq' ha i hb hi => ?_⟩
  · exact agree_count (hf l q q' hq hq' ha) (steps_zero hS (hm q hq)) n 0 i _ _ hb hi
      (C09_count hS (hm q hq) (hr q hq) n i) (C09_count hS (hm q' hq') (hr q' hq') n i)
  · obtain ⟨a, h1, h2⟩ := C09_skip_count hS (hm q hq) (hr q hq) n i
    obtain ⟨a', h1', h2'⟩ := C09_skip_count hS (hm q' hq') (hr q' hq') n i
    obtain ⟨rfl, h3⟩ := agree_count (hf l q q' hq hq' ha) (steps_zero hS (hm q hq)) n 0 i _ _ hb hi h1 h1'
    rw [h2, h2']
    exact ⟨rfl, mapped_abort _ h3⟩
  · obtain ⟨a, h1, h2⟩ := C09_skip_count_min_max hS (hm q hq) (hr q hq) lo hi' hl i
    obtain ⟨a', h1', h2'⟩ := C09_skip_count_min_max hS (hm q' hq') (hr q' hq') lo hi' hl i
    obtain ⟨rfl, h3⟩ := agree_count (hf l q q' hq hq' ha) (steps_zero hS (hm q hq)) hi' lo i _ _ hb hi h1 h1'
    rw [h2, h2']
    exact ⟨rfl, mapped_abort _ h3⟩

/-- **C52.**  `skip_many` and `skip_many1`. -/
theorem C52_skip_many (hS : S.Lawful) {f : Parser S τ α → Parser S σ β} (hf : Guarded b k Hole f)
    (hm : ∀ q, Hole q → Moves (f q)) (hr : ∀ q, Hole q → Reusable (f q)) (hc : ∀ q, Hole q → Consuming (f q)) :
    Guarded b k Hole (fun q => skipMany (f q)) ∧ Guarded b k Hole (fun q => skipMany1 (f q)) := by
  have e : ∀ q, Hole q → ∀ i, (skipMany (f q)).shape i = Ref.map (many (f q)).shape (fun _ => ()) i := by
    intro q hq i
    obtain ⟨a, h1, h2⟩ := C07_skip_many hS (hm q hq) (hr q hq) (hc q hq) i
    simp only [Parser.shape, Ref.map]
    rw [h2, C07_unique h1 (C07_many hS (hm q hq) (hr q hq) (hc q hq) i)]
    cases (many (f q)).answer i <;> rfl
  have e1 : ∀ q, Hole q → ∀ i, (skipMany1 (f q)).shape i = Ref.map (many1 (f q)).shape (fun _ => ()) i := by
    intro q hq i
    obtain ⟨a, h1, h2⟩ := C08_skip_many1 hS (hm q hq) (hr q hq) (hc q hq) i
    have h3 := C08_many1 hS (hm q hq) (hr q hq) (hc q hq) i
    have h4 : a = (many1 (f q)).answer i := by
      revert h1 h3
      simp only [Ref.IsMany1]
      cases (f q).answer i with
      | ok c v j => exact C07_unique
      | _ => rintro h h'; rw [h, h']
    simp only [Parser.shape, Ref.map]
    rw [h2, h4]
    cases (many1 (f q)).answer i <;> rfl
  exact ⟨fun n q q' hq hq' ha => agree_congr (fun i _ => e q hq i) (fun i _ => e q' hq' i)
      (agree_map _ (C52_many hS hf hm hr hc n q q' hq hq' ha)),
    fun n q q' hq hq' ha => agree_congr (fun i _ => e1 q hq i) (fun i _ => e1 q' hq' i)
      (agree_map _ (C52_many1 hS hf hm hr hc n q q' hq hq' ha))⟩

/-- **C52.**  `sep_end_by1`: the elements of a list may be lists in brackets. -/
theorem C52_sep_end_by1 (hS : S.Lawful) {f : Parser S τ α → Parser S σ β} {g : Parser S τ α → Parser S υ γ}
    (hf : Guarded b k Hole f) (hg : Guarded b k Hole g)
    (hmf : ∀ q, Hole q → Moves (f q)) (hmg : ∀ q, Hole q → Moves (g q))
    (hrf : ∀ q, Hole q → ∃ Clean, Keeps false Clean (f q)) (hrg : ∀ q, Hole q → ∃ Clean, Keeps false Clean (g q))
    (hc : ∀ q, Hole q → Consuming (f q)) : Guarded b k Hole (fun q => sepEndBy1 (f q) (g q)) := by
  intro n q q' hq hq' ha i hb hi
  obtain ⟨C1, k1⟩ := hrf q hq
  obtain ⟨C2, k2⟩ := hrg q hq
  obtain ⟨C3, k3⟩ := hrf q' hq'
  obtain ⟨C4, k4⟩ := hrg q' hq'
  have h := C10_sep_end_by1 hS (hmf q hq) (hmg q hq) k1 k2 (hc q hq) i
  have h' := C10_sep_end_by1 hS (hmf q' hq') (hmg q' hq') k3 k4 (hc q' hq') i
  have hag := hf n q q' hq hq' ha
  have hag' := hg n q q' hq hq' ha
  obtain ⟨h1, h2⟩ := hag i hb hi
  simp only [Ref.IsSepEndBy1] at h h'
  rw [← h1] at h'
  revert h h'
  generalize (sepEndBy1 (f q) (g q)).shape i = a
  generalize (sepEndBy1 (f q') (g q')).shape i = a'
  cases hx : (f q).shape i with
  | ok c v j =>
    intro h h'
    obtain ⟨h5, h6⟩ := steps_zero hS (hmf q hq) i c v j hx
    obtain ⟨vs, d, z, h7, h8⟩ := h
    obtain ⟨h9, h10, h11⟩ := agree_run (agree_bind hag' (steps_zero hS (hmg q hq)) (fun _ => hag) (by omega))
      (steps_bind (steps_zero hS (hmg q hq)) (fun _ => steps_zero hS (hmf q hq))) h7 (h6.trans hb) (by omega)
    obtain ⟨h12, h13⟩ := hag' z h10 h11
    have key : Ref.IsSepEndRest (f q').shape (g q').shape c v j a ∧ ∀ x, a ≠ .abort x := by
      cases hy : (g q).shape z with
      | soft =>
        rw [hy] at h8 h12
        refine ⟨⟨vs, d, z, h9, by rw [← h12]; exact h8⟩, fun x hx => ?_⟩
        cases h8.symm.trans hx
      | hard e =>
        rw [hy] at h8 h12
        refine ⟨⟨vs, d, z, h9, by rw [← h12]; exact h8⟩, fun x hx => ?_⟩
        cases h8.symm.trans hx
      | abort x => exact absurd hy (h13 x)
      | ok c' u l =>
        obtain ⟨h14, h15⟩ := steps_zero hS (hmg q hq) z c' u l hy
        obtain ⟨h16, h17⟩ := hag l (h15.trans h10) (by omega)
        rw [hy] at h8 h12
        dsimp only at h8
        refine ⟨⟨vs, d, z, h9, by rw [← h12]; dsimp only; rw [← h16]; exact h8⟩, fun x hx => ?_⟩
        cases hz : (f q).shape l with
        | ok _ _ _ => rw [hz] at h8; exact h8
        | soft => rw [hz] at h8; cases h8.symm.trans hx
        | hard e => rw [hz] at h8; cases h8.symm.trans hx
        | abort y => exact h17 y hz
    exact ⟨sep_rest_unique key.1 h', key.2⟩
  | soft => exact fun h h' => ⟨h.trans h'.symm, fun a ha => by rw [h] at ha; cases ha⟩
  | hard e => exact fun h h' => ⟨h.trans h'.symm, fun a ha => by rw [h] at ha; cases ha⟩
  | abort x => exact absurd hx (h2 x)

/-- **C52.**  `sep_end_by`. -/
theorem C52_sep_end_by (hS : S.Lawful) {f : Parser S τ α → Parser S σ β} {g : Parser S τ α → Parser S υ γ}
    (hf : Guarded b k Hole f) (hg : Guarded b k Hole g)
    (hmf : ∀ q, Hole q → Moves (f q)) (hmg : ∀ q, Hole q → Moves (g q))
    (hrf : ∀ q, Hole q → ∃ Clean, Keeps false Clean (f q)) (hrg : ∀ q, Hole q → ∃ Clean, Keeps false Clean (g q))
    (hc : ∀ q, Hole q → Consuming (f q)) : Guarded b k Hole (fun q => sepEndBy (f q) (g q)) := by
  intro n q q' hq hq' ha i hb hi
  have key : ∀ q, Hole q → (sepEndBy (f q) (g q)).shape i = match (sepEndBy1 (f q) (g q)).shape i with
      | .soft => .ok false [] i
      | a => a := by
    intro q hq
    obtain ⟨C1, k1⟩ := hrf q hq
    obtain ⟨C2, k2⟩ := hrg q hq
    obtain ⟨a, h1, h2⟩ := C10_sep_end_by hS (hmf q hq) (hmg q hq) k1 k2 (hc q hq) i
    have h3 := C10_sep_end_by1 hS (hmf q hq) (hmg q hq) k1 k2 (hc q hq) i
    rw [h2, sep_end_unique h1 h3]
    cases (sepEndBy1 (f q) (g q)).shape i <;> rfl
  obtain ⟨h1, h2⟩ := C52_sep_end_by1 hS hf hg hmf hmg hrf hrg hc n q q' hq hq' ha i hb hi
  rw [key q hq, key q' hq', ← h1]
  refine ⟨rfl, fun a => ?_⟩
  cases hx : (sepEndBy1 (f q) (g q)).shape i with
  | abort x => exact absurd hx (h2 x)
  | _ => intro h; cases h

/-- **C52.**  `expected`, `message` and `silent` change error messages only. -/
theorem C52_labels {f : Parser S τ α → Parser S σ β} (hf : Guarded b k Hole f) (x : Info S.Tok S.Rng) :
    Guarded b k Hole (fun q => expected (f q) x) ∧ Guarded b k Hole (fun q => message (f q) x) ∧
    Guarded b k Hole (fun q => silent (f q)) := by
  refine ⟨hf, fun n q q' hq hq' ha => ?_, fun n q q' hq hq' ha => ?_⟩
  · have e : ∀ q i, (message (f q) x).shape i = (f q).shape i := by
      intro q i
      simp only [Parser.shape, Parser.answer, message, Parser.ofMode]
      generalize (f q).run true i (f q).init = o
      obtain ⟨r, j, s⟩ := o
      cases r <;> rfl
    exact agree_congr (fun i _ => e q i) (fun i _ => e q' i) (hf n q q' hq hq' ha)
  · have e : ∀ q i, (silent (f q)).shape i = (f q).shape i := by
      intro q i
      simp only [Parser.shape, Parser.answer, silent, Parser.ofMode, Out.mapRes]
      generalize (f q).run true i (f q).init = o
      obtain ⟨r, j, s⟩ := o
      cases r <;> rfl
    exact agree_congr (fun i _ => e q i) (fun i _ => e q' i) (hf n q q' hq hq' ha)

/-! ## Left recursion -/

/-- **C52.**  Without that proviso the claim is false: a grammar that calls itself first,
`expr = expr '+' expr | digit`, comes back at no depth, on no input. -/
theorem C52_left_recursion (hS : S.Lawful) (g : Parser S Unit α → Parser S υ β) (h : (α × β × Unit) → α)
    (d : Parser S σ α) (hg : ∀ q, Moves q → Moves (g q)) (hd : Moves d) (i : S.Input) (n : Nat) :
    (recur (fun q => parserMacroUnit (or (map (pair q (g q)) h) d)) () n).shape i = .abort .diverge := by
  have hm : ∀ q, Moves q → Moves (map (pair q (g q)) h) := fun q hq => moves_map hS (moves_pair hS hq (hg q hq)) h
  have hr := moves_recur hS (F := fun q => parserMacroUnit (or (map (pair q (g q)) h) d))
    (fun q hq => moves_parserMacroUnit hS (moves_or hS (hm q hq) hd)) ()
  induction n with
  | zero => rfl
  | succ n ih =>
    have e : ∀ q : Parser S Unit α, Moves q → q.shape i = .abort .diverge →
        (parserMacroUnit (or (map (pair q (g q)) h) d)).shape i = .abort .diverge := by
      intro q hq ha
      have h1 := C12_tuple q (.cons (g q) .nil) i
      have h2 : (map (pair q (g q)) h).shape i = .abort .diverge := by
        have : (map (pair q (g q)) h).shape i = ((pair q (g q)).shape i).map h :=
          mapShape (τ := Unit) ((pair q (g q)).run true i (pair q (g q)).init) h
        rw [this, pair, h1, Ref.seq, Ref.bind, ha]
        rfl
      have h3 : (map (pair q (g q)) h).answer i = .abort .diverge := by
        simp only [Parser.shape] at h2
        revert h2
        cases (map (pair q (g q)) h).answer i <;> intro h2 <;> cases h2
        rfl
      show (or (map (pair q (g q)) h) d).shape i = _
      rw [Parser.shape, C03_or hS (hm q hq) hd, h3]
      rfl
    exact e _ (hr n) ih

/-! ## Grammars whose calls consume -/

private theorem consuming_of_steps (hS : S.Lawful) {p : Parser S σ β} (hm : Moves p) (h : Steps S 1 p.shape) :
    Consuming p := by
  intro i c v j ha
  have hs : p.shape i = .ok c v j := by rw [Parser.shape, ha]; rfl
  obtain ⟨h1, -⟩ := h i c v j hs
  have hr := hm.run true i p.init
  have hj : S.Reach i j := by
    revert ha hr
    simp only [Parser.answer]
    generalize p.run true i p.init = o
    obtain ⟨r, k, t⟩ := o
    cases r <;> intro ha hr <;> cases ha <;> exact hr
  obtain ⟨ts, hr⟩ := hj
  cases ts with
  | nil =>
    have := hS.reads_size hr
    simp only [List.length_nil] at this
    omega
  | cons t ts => exact ⟨t, ts, hr⟩

/-- Both alternatives consume. -/
theorem consuming_or (hS : S.Lawful) {p : Parser S σ β} {q : Parser S τ β} (hp : Moves p) (hq : Moves q)
    (hcp : Consuming p) (hcq : Consuming q) : Consuming (or p q) := by
  intro i c v j h
  rw [C03_or hS hp hq] at h
  revert h
  cases hx : p.answer i with
  | ok c' v' j' => intro h; cases h; exact hcp i _ _ _ hx
  | soft => exact fun h => hcq i _ _ _ h
  | hard e => intro h; cases h
  | abort a => intro h; cases h

/-- The opening bracket consumes. -/
theorem consuming_between (hS : S.Lawful) {o : Parser S σ β} {c : Parser S υ γ} {p : Parser S τ α}
    (ho : Moves o) (hc : Moves c) (hp : Moves p) (hco : Consuming o) : Consuming (between o c p) := by
  refine consuming_of_steps hS (moves_between hS ho hc hp) fun i b v j h => ?_
  rw [C12_between] at h
  revert h
  simp only [Ref.bind]
  cases hx : o.shape i with
  | ok b' w l =>
    intro h
    have hs : Steps S 0 (Ref.bind p.shape fun x => Ref.map c.shape fun _ => x) :=
      steps_bind (steps_zero hS hp) (fun _ => steps_map _ (steps_zero hS hc))
    obtain ⟨h1, h2⟩ := steps_one hS hco i b' w l hx
    revert h
    change (Answer.after b' (Ref.bind p.shape (fun x => Ref.map c.shape fun _ => x) l)) = _ → _
    cases hy : Ref.bind p.shape (fun x => Ref.map c.shape fun _ => x) l with
    | ok d u z =>
      intro h
      simp only [Answer.after, Answer.ok.injEq] at h
      obtain ⟨-, rfl, rfl⟩ := h
      obtain ⟨h3, h4⟩ := hs l d u z hy
      exact ⟨by omega, by rw [h4, h2]⟩
    | soft => cases b' <;> intro h <;> simp [Answer.after] at h
    | hard e => intro h; simp [Answer.after] at h
    | abort x => intro h; simp [Answer.after] at h
  | _ => intro h; cases h

private theorem run_size {m : Sem S.Input Unit β} (hs : Steps S 0 m) {i : S.Input} {vs : List β} {c : Bool}
    {z : S.Input} (hr : Ref.Run m i vs c z) : S.size z ≤ S.size i ∧ S.isPartial z = S.isPartial i := by
  induction hr with
  | nil i => exact ⟨Nat.le_refl _, rfl⟩
  | cons h1 h2 ih =>
    obtain ⟨h3, h4⟩ := hs _ _ _ _ h1
    exact ⟨by omega, by rw [ih.2, h4]⟩

/-- The first operand consumes. -/
theorem consuming_chainl1 (hS : S.Lawful) {Clean : σ → Prop} {C : τ → Prop} {p : Parser S σ β}
    {op : Parser S τ (β → β → β)} (hmp : Moves p) (hmo : Moves op) (hp : Keeps false Clean p)
    (ho : Keeps false C op) (hc : Consuming p) (hn : StartsAnew p) : Consuming (chainl1 p op) := by
  refine consuming_of_steps hS (moves_chainl1 hS hmp hmo) fun i b v j h => ?_
  have h1 := C11_chainl1 hS hmp hmo hp ho hc hn i
  rw [h] at h1
  revert h1
  simp only [Ref.IsChainl1]
  cases hx : p.shape i with
  | ok c w l =>
    rintro ⟨a, ⟨vs, d, z, h2, h3⟩, h4⟩
    obtain ⟨h5, h6⟩ := steps_one hS hc i c w l hx
    obtain ⟨h7, h8⟩ := run_size (steps_bind (steps_zero hS hmo)
      (fun _ => steps_map _ (steps_zero hS hmp))) h2
    revert h3
    cases Ref.bind op.shape (fun f => Ref.map p.shape fun x => (f, x)) z with
    | ok _ _ _ => exact fun h => h.elim
    | soft =>
      rintro rfl
      simp only [Answer.map, Answer.after, Answer.ok.injEq] at h4
      obtain ⟨-, -, rfl⟩ := h4
      exact ⟨by omega, by rw [h8, h6]⟩
    | hard e => rintro rfl; cases h4
    | abort x => rintro rfl; cases h4
  | _ => intro h; cases h

/-- The innermost call neither moves nor succeeds. -/
theorem recur_zero (hS : S.Lawful) (F : Parser S τ α → Parser S τ α) (init : τ) :
    Moves (recur F init 0) ∧ Coherent (recur F init 0) ∧ Consuming (recur F init 0) :=
  ⟨.ofMode hS fun _ i _ => .refl i, .ofMode hS fun _ i _ => .refl i, fun i c v j h => by cases h⟩

/-! ## Concrete cases -/

private abbrev B := sliceS Nat 1

private theorem hB : B.Lawful := slice_lawful Nat 1

private theorem ends {p : Parser B σ α} (h : NeverAborts p) (i : B.Input) (a : Abort) : p.shape i ≠ .abort a := by
  have := h true i p.init
  revert this
  simp only [Parser.shape, Parser.answer]
  generalize p.run true i p.init = o
  obtain ⟨r, j, s⟩ := o
  cases r <;> intro h h' <;> cases h'
  exact h _ rfl

private theorem tok (b : Bool) (k : Nat) {H : Parser B Unit α → Prop} (t : Nat) :
    Guarded b k H (fun _ => token B t) := C52_fixed _ (ends (never_token (S := B) t))

private theorem keeps {q : Parser B Unit α} : ∃ Clean, Keeps false Clean q := ⟨_, keeps_unit q⟩

private inductive Tree where
  | leaf
  | node (ts : List Tree)

/-- `value = 1 | 8 value 2 value 2 ... 9`: nested lists. -/
private def nested (q : Parser B Unit Tree) : Parser B Unit Tree :=
  parserMacroUnit (or (map (token B 1) fun _ => .leaf)
    (map (between (token B 8) (token B 9) (sepBy q (token B 2))) .node))

private abbrev Known (q : Parser B Unit α) : Prop := Moves q ∧ Consuming q

private theorem nested_moves {q : Parser B Unit Tree} (h : Moves q) : Moves (nested q) :=
  moves_parserMacroUnit hB (moves_or hB (moves_map hB (moves_token hB _) _)
    (moves_map hB (moves_between hB (moves_token hB _) (moves_token hB _)
      (moves_sepBy hB h (moves_token hB _))) _))

private theorem nested_known (q : Parser B Unit Tree) (h : Known q) : Known (nested q) :=
  ⟨nested_moves h.1, consuming_or hB (moves_map hB (moves_token hB _) _)
    (moves_map hB (moves_between hB (moves_token hB _) (moves_token hB _)
      (moves_sepBy hB h.1 (moves_token hB _))) _) (consuming_map (consuming_token (S := B) _) _)
    (consuming_map (consuming_between hB (moves_token hB _) (moves_token hB _)
      (moves_sepBy hB h.1 (moves_token hB _)) (consuming_token (S := B) _)) _)⟩

private theorem nested_guarded (b : Bool) : Guarded b 1 Known nested :=
  (C52_parser (C52_or hB (C52_map (tok b 1 1) _)
    (C52_map (C52_between (r := 0) (r' := 0) hB (tok b 1 8)
      (C52_sepBy hB C52_call (tok b 0 2) (fun q h => h.1) (fun _ _ => moves_token hB _)
        (fun _ _ => keeps) (fun _ _ => keeps) (fun q h => h.2)) (tok b 0 9)
      (fun _ _ => moves_token hB _) (fun q h => moves_sepBy hB h.1 (moves_token hB _))
      (.inr ⟨by omega, fun _ _ => consuming_token (S := B) _⟩) (.inl (by omega))) _)
    (fun _ _ => moves_map hB (moves_token hB _) _)
    (fun q h => moves_map hB (moves_between hB (moves_token hB _) (moves_token hB _)
      (moves_sepBy hB h.1 (moves_token hB _))) _))).1

/-- `value = 1 | 8 value 2 value`, with a choice and a tuple. -/
example (b : Bool) : Guarded b 1 Known (fun q : Parser B Unit Tree => choice (.cons (map (token B 1) fun _ => Tree.leaf)
    (.last (map (tuple (token B 8) (.cons q (.cons (token B 2) (.cons q .nil)))) fun x => Tree.node [x.2.1, x.2.2.2.1])))) :=
  C52_choice hB (.cons (f := fun _ => map (token B 1) fun _ => Tree.leaf) (C52_map (tok b 1 1) _) (fun _ _ => moves_map hB (moves_token hB _) _)
    (.last (C52_map (C52_tuple hB (tok b 1 8) (fun _ _ => moves_token hB _) (.inr ⟨Nat.le_refl 1, fun _ _ => consuming_token (S := B) _⟩)
      (.cons (f := fun q => q) C52_call (fun q h => h.1) (.inl (Nat.le_refl 0)) (.cons (f := fun _ => token B 2) (tok b 0 2) (fun _ _ => moves_token hB _)
        (.inl (Nat.le_refl 0)) (.cons (f := fun q => q) C52_call (fun q h => h.1) (.inl (Nat.le_refl 0)) .nil)))) _)
      fun q h => moves_map hB (moves_tuple hB (moves_token hB _) _ (by
        rintro r (rfl | rfl | rfl | hr)
        · exact h.1
        · exact moves_token hB _
        · exact h.1
        · cases hr)) _))

/-- Nested lists of any depth: unfolding the grammar as often as there are tokens, and once more, is
enough. -/
example (i : B.Input) : (∀ a, (recur nested () (B.size i + 1)).shape i ≠ .abort a) ∧
    ∀ m, B.size i + 1 ≤ m → (recur nested () m).shape i = (recur nested () (B.size i + 1)).shape i :=
  C52_depth (b := false) (nested_guarded false) ⟨(recur_zero hB _ _).1, (recur_zero hB _ _).2.2⟩ nested_known
    i rfl _ (by omega)

/-- `[1,[],[1]]` -/
example : (recur nested () 9).shape ⟨0, [8, 1, 2, 8, 9, 2, 8, 1, 9, 9]⟩ =
    .ok true (.node [.leaf, .node [], .node [.leaf]]) ⟨10, []⟩ := rfl

/-- Not deep enough. -/
example : (recur nested () 2).shape ⟨0, [8, 1, 2, 8, 8, 9, 9, 9]⟩ = .abort .diverge := rfl

/-- `expr = term { 2 term }`, `term = 1 | 8 expr 9`: sums with brackets. -/
private def sums (q : Parser B Unit Nat) : Parser B Unit Nat :=
  parserMacroUnit (chainl1 (or (map (token B 1) fun _ => 1) (between (token B 8) (token B 9) q))
    (map (token B 2) fun _ => (· + ·)))

private theorem term_moves {q : Parser B Unit Nat} (h : Moves q) :
    Moves (or (map (token B 1) fun _ => 1) (between (token B 8) (token B 9) q)) :=
  moves_or hB (moves_map hB (moves_token hB _) _) (moves_between hB (moves_token hB _) (moves_token hB _) h)

private theorem term_consuming {q : Parser B Unit Nat} (h : Moves q) :
    Consuming (or (map (token B 1) fun _ => 1) (between (token B 8) (token B 9) q)) :=
  consuming_or hB (moves_map hB (moves_token hB _) _)
    (moves_between hB (moves_token hB _) (moves_token hB _) h) (consuming_map (consuming_token (S := B) _) _)
    (consuming_between hB (moves_token hB _) (moves_token hB _) h (consuming_token (S := B) _))

private theorem sums_guarded (b : Bool) : Guarded b 1 Moves sums :=
  (C52_parser (C52_chainl1 hB
    (C52_or hB (C52_map (tok b 1 1) _)
      (C52_between (r := 0) (r' := 0) hB (tok b 1 8) C52_call (tok b 0 9) (fun _ _ => moves_token hB _)
        (fun q h => h) (.inr ⟨by omega, fun _ _ => consuming_token (S := B) _⟩) (.inl (by omega)))
      (fun _ _ => moves_map hB (moves_token hB _) _)
      (fun q h => moves_between hB (moves_token hB _) (moves_token hB _) h))
    (C52_map (tok b 1 2) _) (fun q h => term_moves h) (fun _ _ => moves_map hB (moves_token hB _) _)
    (fun _ _ => ⟨_, keeps_or _ _⟩) (fun _ _ => keeps) (fun q h => term_consuming h)
    (fun _ _ i => rfl))).1

example (i : B.Input) : (∀ a, (recur sums () (B.size i + 1)).shape i ≠ .abort a) ∧
    ∀ m, B.size i + 1 ≤ m → (recur sums () m).shape i = (recur sums () (B.size i + 1)).shape i :=
  C52_depth (b := false) (sums_guarded false) (recur_zero hB _ _).1
    (fun q h => moves_parserMacroUnit hB (moves_chainl1 hB (term_moves h) (moves_map hB (moves_token hB _) _)))
    i rfl _ (by omega)

/-- `1 + (1 + (1)) + 1` -/
example : (recur sums () 12).shape ⟨0, [1, 2, 8, 1, 2, 8, 1, 9, 9, 2, 1]⟩ = .ok true 4 ⟨11, []⟩ := rfl

/-- `block = 8 { block 2 } [block] 9 | 1 block block`: blocks with separators, and a bounded repetition of calls. -/
example (b : Bool) : Guarded b 1 Known (fun q : Parser B Unit Tree => or
    (map (between (token B 8) (token B 9) (sepEndBy q (token B 2))) Tree.node)
    (map («with» (token B 1) (countMinMax 2 2 q)) Tree.node)) :=
  C52_or hB
    (C52_map (C52_between (r := 0) (r' := 0) hB (tok b 1 8)
      (C52_sep_end_by hB C52_call (tok b 0 2) (fun q h => h.1) (fun _ _ => moves_token hB _)
        (fun _ _ => keeps) (fun _ _ => keeps) (fun q h => h.2)) (tok b 0 9)
      (fun _ _ => moves_token hB _) (fun q h => moves_sepEndBy hB h.1 (moves_token hB _))
      (.inr ⟨by omega, fun _ _ => consuming_token (S := B) _⟩) (.inl (by omega))) _)
    (C52_map (C52_with (r := 0) hB (tok b 1 1)
      (C52_count_min_max hB C52_call (fun q h => h.1) (fun q _ => (keeps_unit (h := false) q).reusable) 2 2 (Nat.le_refl 2))
      (fun _ _ => moves_token hB _) (.inr ⟨by omega, fun _ _ => consuming_token (S := B) _⟩)) _)
    (fun q h => moves_map hB (moves_between hB (moves_token hB _) (moves_token hB _)
      (moves_sepEndBy hB h.1 (moves_token hB _))) _)
    (fun q h => moves_map hB (moves_with hB (moves_token hB _) (moves_countMinMax hB _ _ h.1)) _)

end Verif
