import Verif.Proof.Peg
import Verif.Props.Grammar

/-!
# Parsing expression grammars (C57)

With `attempt` around whatever can fail after a token, the parsers mean what parsing expressions mean.
-/

namespace Verif

variable {S : Strm} {N σ τ υ ρ α β γ δ : Type} {rules : N → Peg N S.Tok} {a b c : Peg N S.Tok}

/-- **C57.**  A parsing expression has at most one result. -/
theorem C57_deterministic {T : Type} {rules : N → Peg N T} {e : Peg N T} {xs : List T} {r r' : Option (List T)}
    (h : e.Matches rules xs r) (h' : e.Matches rules xs r') : r = r' := by
  induction h generalizing r' with
  | empty => exact (Peg.matches_empty.1 h').symm
  | one h =>
    rcases Peg.matches_one.1 h' with ⟨t, ts, h1, h2, rfl⟩ | ⟨t, ts, h1, h2, rfl⟩ | ⟨h1, _⟩ <;> cases h1
    · rfl
    · rw [h] at h2; cases h2
  | other h =>
    rcases Peg.matches_one.1 h' with ⟨t, ts, h1, h2, rfl⟩ | ⟨t, ts, h1, h2, rfl⟩ | ⟨h1, _⟩ <;> cases h1
    · rw [h] at h2; cases h2
    · rfl
  | ended =>
    rcases Peg.matches_one.1 h' with ⟨t, ts, h1, h2, rfl⟩ | ⟨t, ts, h1, h2, rfl⟩ | ⟨h1, rfl⟩
    · cases h1
    · cases h1
    · rfl
  | seq _ _ ih1 ih2 =>
    rcases Peg.matches_seq.1 h' with ⟨ys, h1, h2⟩ | ⟨h1, rfl⟩
    · cases ih1 h1; exact ih2 h2
    · cases ih1 h1
  | seqFail _ ih =>
    rcases Peg.matches_seq.1 h' with ⟨ys, h1, h2⟩ | ⟨h1, rfl⟩
    · cases ih h1
    · rfl
  | left _ ih =>
    rcases Peg.matches_alt.1 h' with ⟨ys, h1, rfl⟩ | ⟨h1, h2⟩
    · exact ih h1
    · cases ih h1
  | right _ _ ih1 ih2 =>
    rcases Peg.matches_alt.1 h' with ⟨ys, h1, rfl⟩ | ⟨h1, h2⟩
    · cases ih1 h1
    · exact ih2 h2
  | more _ _ ih1 ih2 =>
    rcases Peg.matches_star.1 h' with ⟨ys, h1, h2⟩ | ⟨h1, rfl⟩
    · cases ih1 h1; exact ih2 h2
    · cases ih1 h1
  | stop _ ih =>
    rcases Peg.matches_star.1 h' with ⟨ys, h1, h2⟩ | ⟨h1, rfl⟩
    · cases ih h1
    · rfl
  | look _ ih =>
    rcases Peg.matches_look.1 h' with ⟨ys, h1, rfl⟩ | ⟨h1, rfl⟩
    · rfl
    · cases ih h1
  | lookFail _ ih =>
    rcases Peg.matches_look.1 h' with ⟨ys, h1, rfl⟩ | ⟨h1, rfl⟩
    · cases ih h1
    · rfl
  | not _ ih =>
    rcases Peg.matches_not.1 h' with ⟨ys, h1, rfl⟩ | ⟨h1, rfl⟩
    · cases ih h1
    · rfl
  | notFail _ ih =>
    rcases Peg.matches_not.1 h' with ⟨ys, h1, rfl⟩ | ⟨h1, rfl⟩
    · rfl
    · cases ih h1
  | ref _ ih => exact ih (Peg.matches_ref.1 h')

/-! ## One rule for each combinator -/

private theorem backtracks_congr {m n : Sem S.Input Unit α} (h : ∀ i, m i = n i) (hn : Backtracks rules a n) :
    Backtracks rules a m := (funext h : m = n) ▸ hn

private theorem backtracks_value (v : α) : Backtracks (S := S) rules .empty (Ref.value v) :=
  fun i xs _ hl => ⟨[], xs, .nil i, hl, .empty⟩

/-- **C57.**  `value`. -/
theorem C57_value (v : α) : Backtracks rules .empty (value S v).shape := backtracks_value v

/-- **C57.**  Parsers of one token (C53). -/
theorem C57_one {p : Parser S σ α} {f : S.Tok → Option α} (h : ∀ i, S.IsOne f i (p.shape i)) :
    Backtracks rules (.one fun t => (f t).isSome) p.shape ∧ Softly p := by
  have key : ∀ i, S.isPartial i = false →
      (∃ t j, S.uncons i = (.ok t, j) ∧ p.shape i = match f t with | some v => .ok true v j | none => .soft) ∨
      (S.AtEnd i ∧ p.shape i = .soft) := by
    intro i hp
    rcases h i with ⟨t, j, h1, h2⟩ | ⟨h1, h2⟩
    · exact .inl ⟨t, j, h1, h2⟩
    · rw [hp] at h2
      exact .inr ⟨h1, h2⟩
  constructor
  · intro i xs hp hl
    obtain ⟨k, h3, e, he⟩ := hl
    rcases key i hp with ⟨t, j, h1, h2⟩ | ⟨⟨e', he'⟩, h2⟩
    · cases xs with
      | nil => cases Strm.reads_nil.1 h3; rw [h1] at he; cases he
      | cons x xs =>
        obtain ⟨l, h4, h5⟩ := Strm.reads_cons.1 h3
        rw [h1] at h4
        cases h4
        rw [h2]
        cases hf : f t with
        | none => exact .other (by rw [hf]; rfl)
        | some v => exact ⟨[t], xs, .cons h1 (.nil j), ⟨k, h5, e, he⟩, .one (by rw [hf]; rfl)⟩
    · rw [h2]
      cases xs with
      | nil => exact .ended
      | cons x xs =>
        obtain ⟨l, h4⟩ := reads_head h3
        rw [h4] at he'
        cases he'
  · intro i hp e he
    rcases key i hp with ⟨t, j, h1, h2⟩ | ⟨_, h2⟩ <;> rw [h2] at he
    · cases hf : f t <;> rw [hf] at he <;> cases he
    · cases he

/-- **C57.**  `map`. -/
theorem C57_map {p : Parser S σ α} (h : Backtracks rules a p.shape) (f : α → β) : Backtracks rules a (map p f).shape :=
  backtracks_congr (fun i => mapShape (τ := σ) (p.run true i p.init) f) (backtracks_map h f)

/-- **C57.**  `with`, `skip`. -/
theorem C57_with (hS : S.Lawful) {p : Parser S σ α} {q : Parser S τ β} (hp : Backtracks rules a p.shape)
    (hq : Backtracks rules b q.shape) :
    Backtracks rules (a.seq b) («with» p q).shape ∧ Backtracks rules (a.seq b) (skip p q).shape :=
  ⟨backtracks_congr (C12_with p q) (backtracks_bind hS hp fun _ => hq),
    backtracks_congr (C12_skip p q) (backtracks_bind hS hp fun _ => backtracks_map hq _)⟩

/-- **C57.**  `between`. -/
theorem C57_between (hS : S.Lawful) {o : Parser S σ α} {cl : Parser S υ γ} {p : Parser S τ β} (ho : Backtracks rules a o.shape)
    (hp : Backtracks rules b p.shape) (hc : Backtracks rules c cl.shape) :
    Backtracks rules (a.seq (b.seq c)) (between o cl p).shape :=
  backtracks_congr (C12_between o cl p)
    (backtracks_bind hS ho fun _ => backtracks_bind hS hp fun _ => backtracks_map hc _)

private theorem seq_backtracks (hS : S.Lawful) {ps : Seq S τ β} (h : SeqBacktracks rules a ps) :
    Backtracks rules a (Ref.seq ps) := by
  induction h with
  | nil => exact backtracks_value ()
  | cons hp _ ih =>
    rw [Ref.seq]
    exact backtracks_bind hS hp fun _ => backtracks_map ih _

/-- **C57.**  Tuples. -/
theorem C57_tuple (hS : S.Lawful) {p : Parser S σ α} {ps : Seq S τ β} (hp : Backtracks rules a p.shape)
    (hs : SeqBacktracks rules b ps) : Backtracks rules (a.seq b) (tuple p ps).shape :=
  backtracks_congr (C12_tuple p ps) (seq_backtracks hS (.cons hp hs))

/-- **C57.**  `then`, where what comes after does not depend on the value as far as the expression is concerned. -/
theorem C57_then (hS : S.Lawful) {p : Parser S σ α} {f : α → Parser S τ β} {n : τ} (hn : ∀ v, (f v).init = n)
    (hc : ∀ v, Coherent (f v)) (hp : Backtracks rules a p.shape) (hf : ∀ v, Backtracks rules b (f v).shape) :
    Backtracks rules (a.seq b) (thenP p f n).shape :=
  backtracks_congr (C13_then hS p f n hn hc) (backtracks_bind hS hp hf)

private theorem attempt_shape (hS : S.Lawful) {p : Parser S σ α} (hm : Moves p) (hc : Coherent p) (i : S.Input)
    (hp : S.isPartial i = false) : (attempt p).shape i = Ref.attempt p.shape i := by
  simp only [Parser.shape, C04_attempt hS hm hc i hp, Ref.attempt]
  cases p.answer i <;> rfl

/-- **C57.**  `attempt` is for the same expression, and fails softly. -/
theorem C57_attempt (hS : S.Lawful) {p : Parser S σ α} (hm : Moves p) (hc : Coherent p) (hp : Backtracks rules a p.shape) :
    Backtracks rules a (attempt p).shape ∧ Softly (attempt p) := by
  constructor
  · intro i xs hi hl
    rw [attempt_shape hS hm hc i hi]
    exact backtracks_attempt hp i xs hi hl
  · intro i hi e he
    rw [attempt_shape hS hm hc i hi, Ref.attempt] at he
    cases hx : p.shape i <;> rw [hx] at he <;> cases he

private theorem or_shape (hS : S.Lawful) {p : Parser S σ α} {q : Parser S τ α} (hp : Moves p) (hq : Moves q) (i : S.Input) :
    (or p q).shape i = orSem p.shape q.shape i := by
  simp only [orSem, Parser.shape, C03_or hS hp hq i]
  cases p.answer i <;> rfl

/-- **C57.**  `or`: ordered choice. -/
theorem C57_or (hS : S.Lawful) {p : Parser S σ α} {q : Parser S τ α} (hmp : Moves p) (hmq : Moves q)
    (hp : Backtracks rules a p.shape) (hs : Softly p) (hq : Backtracks rules b q.shape) :
    Backtracks rules (a.alt b) (or p q).shape :=
  backtracks_congr (or_shape hS hmp hmq) (backtracks_or hp hq hs)

private theorem choice_backtracks {ps : Alts S α τ} (h : AltsBacktrack rules a ps) :
    Backtracks rules a (fun i => (Ref.choice ps.answers i).shape) := by
  induction h with
  | @last σ a p hp =>
    refine backtracks_congr (fun i => ?_) hp
    simp only [Alts.answers, Ref.choice, Parser.shape]
    cases p.answer i <;> rfl
  | @cons σ τ a b p ps hp hs _ ih =>
    refine backtracks_congr (fun i => ?_) (backtracks_or hp ih hs)
    simp only [orSem, Alts.answers, Ref.choice, Parser.shape]
    cases p.answer i <;> rfl

/-- **C57.**  `choice`: the first alternative that matches. -/
theorem C57_choice (hS : S.Lawful) {ps : Alts S α τ} (hm : ∀ q, ps.Mem q → Moves q.2) (h : AltsBacktrack rules a ps) :
    Backtracks rules a (choice ps).shape :=
  backtracks_congr (fun i => congrArg Answer.shape (C03_choice hS hm true (choice ps).init (.inl rfl) i).1)
    (choice_backtracks h)

/-- **C57.**  `optional`. -/
theorem C57_optional (hS : S.Lawful) {p : Parser S σ α} (hm : Moves p) (hp : Backtracks rules a p.shape) (hs : Softly p) :
    Backtracks rules (a.alt .empty) (optional p).shape := by
  have e : ∀ i, (optional p).shape i = orSem (Ref.map p.shape some) (Ref.value none) i := by
    intro i
    simp only [orSem, Parser.shape, C06_optional hS hm i, Ref.optional, Ref.map, Ref.value]
    cases p.answer i <;> rfl
  refine backtracks_congr e (backtracks_or (backtracks_map hp _) (backtracks_value _) fun i hi x hx => ?_)
  simp only [Ref.map] at hx
  cases hy : p.shape i <;> rw [hy] at hx <;> cases hx
  exact hs i hi _ hy

/-- Over streams that are never partial, a parser for something that is never empty consumes. -/
theorem backtracks_consuming (hS : S.Lawful) (hC : ∀ i, S.isPartial i = false) {p : Parser S σ α}
    (hp : Backtracks rules a p.shape) (ha : ¬ a.Null rules) : Consuming p := by
  intro i c v j h
  obtain ⟨xs, hl⟩ := left_exists hS i
  have h' := hp i xs (hC i) hl
  rw [show p.shape i = .ok c v j by simp only [Parser.shape, h, Answer.shape]] at h'
  obtain ⟨u, ys, h1, h2, h3⟩ := h'
  cases u with
  | nil =>
    cases Strm.reads_nil.1 h1
    cases left_unique h2 hl
    exact absurd ⟨_, h3⟩ ha
  | cons t ts => exact ⟨t, ts, h1⟩

/-- **C57.**  `many`, `skip_many`: greedy repetition. -/
theorem C57_many (hS : S.Lawful) {p : Parser S σ α} (hm : Moves p) (hr : Reusable p) (hc : Consuming p)
    (hp : Backtracks rules a p.shape) (hs : Softly p) :
    Backtracks rules a.star (many p).shape ∧ Backtracks rules a.star (skipMany p).shape := by
  have h := backtracks_many hS hp hs fun i => isMany_shape (C07_many hS hm hr hc i)
  have h : Backtracks rules a.star (many p).shape := h
  refine ⟨h, backtracks_congr (fun i => ?_) (backtracks_map h fun _ => ())⟩
  obtain ⟨b, h1, h2⟩ := C07_skip_many hS hm hr hc i
  have h3 := C07_many hS hm hr hc i
  simp only [Parser.shape, Ref.map, h2, C07_unique h1 h3]
  cases (many p).answer i <;> rfl

private theorem run_cons {m : Sem S.Input Unit α} {i j : S.Input} {c : Bool} {v : α} (h : m i = .ok c v j)
    {x y : Answer S.Input Unit (List α)} (hx : Ref.IsMany m i x) (hy : Ref.IsMany m j y) :
    x = (y.map (v :: ·)).after c := by
  obtain ⟨vs, d, k, h1, h2⟩ := hy
  refine C07_unique hx ⟨v :: vs, c || d, k, .cons h h1, ?_⟩
  revert h2
  cases m k with
  | ok c v j => exact id
  | soft => rintro rfl; rfl
  | hard e => rintro rfl; rfl
  | abort e => rintro rfl; rfl

/-- **C57.**  `many1`. -/
theorem C57_many1 (hS : S.Lawful) {p : Parser S σ α} (hm : Moves p) (hr : Reusable p) (hc : Consuming p)
    (hp : Backtracks rules a p.shape) (hs : Softly p) : Backtracks rules (a.seq a.star) (many1 p).shape := by
  refine backtracks_congr (fun i => ?_)
    (backtracks_bind hS hp fun v => backtracks_map (C57_many hS hm hr hc hp hs).1 (v :: ·))
  have h := C08_many1 hS hm hr hc i
  simp only [Ref.IsMany1] at h
  simp only [Parser.shape, Ref.bind] at h ⊢
  cases hx : p.answer i with
  | ok c v j =>
    rw [hx] at h
    exact run_cons (m := p.shape) (by simp only [Parser.shape, hx, Answer.shape]) (isMany_shape h)
      (isMany_shape (C07_many hS hm hr hc j))
  | soft => rw [hx] at h; rw [h]; rfl
  | hard x => rw [hx] at h; rw [h]; rfl
  | abort x => rw [hx] at h; rw [h]; rfl

private theorem consuming_with {p : Parser S σ α} {s : Parser S τ β} (hms : Moves s) (hc : Consuming p) :
    Consuming («with» s p) := by
  intro i c v j h
  have h' : («with» s p).shape i = .ok c v j := by simp only [Parser.shape, h, Answer.shape]
  rw [C12_with, Ref.bind] at h'
  cases hx : s.shape i with
  | ok d w k =>
    rw [hx] at h'
    dsimp only at h'
    cases hy : p.answer k with
    | ok d' v' l =>
      obtain ⟨t, ts, h1⟩ := hc k d' v' l hy
      rw [show p.shape k = .ok d' v' l by simp only [Parser.shape, hy, Answer.shape]] at h'
      cases h'
      obtain ⟨us, h2⟩ := hms.run true i s.init
      have : (s.run true i s.init).inp = k := by
        revert hx
        simp only [Parser.shape, Parser.answer, Out.answer]
        generalize s.run true i s.init = o
        obtain ⟨r, l, st⟩ := o
        cases r <;> intro hx <;> cases hx <;> rfl
      rw [this] at h2
      cases us with
      | nil => exact ⟨t, ts, reads_append h2 h1⟩
      | cons u us => exact ⟨u, us ++ t :: ts, reads_append h2 h1⟩
    | _ => simp only [Parser.shape, hy, Answer.shape] at h'; cases d <;> cases h'
  | _ => rw [hx] at h'; cases h'

private theorem sepBy1_shape (hS : S.Lawful) {Cp : σ → Prop} {Cs : τ → Prop} {p : Parser S σ α} {s : Parser S τ β}
    (hmp : Moves p) (hms : Moves s) (hkp : Keeps false Cp p) (hks : Keeps false Cs s) (hc : Consuming p) :
    ∃ m : Sem S.Input Unit (List α), (∀ j, Ref.IsMany (Ref.bind s.shape fun _ => p.shape) j (m j)) ∧
      ∀ i, (sepBy1 p s).shape i = Ref.bind p.shape (fun v => Ref.map m (v :: ·)) i := by
  have hmany : ∀ j, Ref.IsMany (Ref.bind s.shape fun _ => p.shape) j ((many («with» s p)).shape j) := by
    intro j
    have h := isMany_shape (C07_many hS (moves_with hS hms hmp) (keeps_with hks hkp).reusable
      (consuming_with hms hc) j)
    have e : (fun i => (Parser.answer («with» s p) i).shape) = Ref.bind s.shape fun _ => p.shape :=
      funext (C12_with s p)
    rw [e] at h
    exact h
  refine ⟨_, hmany, fun i => ?_⟩
  have h := C10_sep_by1 hS hmp hms hkp hks hc i
  simp only [Ref.IsSepBy1] at h
  simp only [Ref.bind]
  cases hx : p.shape i with
  | ok c v j =>
    rw [hx] at h
    obtain ⟨x, h1, h2⟩ := h
    rw [h2, C07_unique h1 (hmany j)]
    rfl
  | soft => rw [hx] at h; exact h
  | hard x => rw [hx] at h; exact h
  | abort x => rw [hx] at h; exact h

/-- The repetition in `sep_by1` gives up where a separator is not followed by an element. -/
private theorem backtracks_rest (hS : S.Lawful) {p : Parser S σ α} {s : Parser S τ β} (hp : Backtracks rules a p.shape)
    (hs : Backtracks rules b s.shape) (hss : Softly s) (hcs : ∀ i c v j, s.shape i = .ok c v j → c = true)
    {m : Sem S.Input Unit (List α)} (hm : ∀ j, Ref.IsMany (Ref.bind s.shape fun _ => p.shape) j (m j)) :
    Backtracks rules ((b.seq a).star.seq b.not) m ∧ ∀ i, m i ≠ .soft := by
  have hb := backtracks_bind hS hs fun _ => hp
  constructor
  · intro i xs hi hl
    obtain ⟨vs, c, k, h1, h2⟩ := hm i
    obtain ⟨u, ys, h3, h4, h5⟩ := backtracks_run hS hb h1 hi hl
    have hk := (hS.reads_isPartial h3).trans hi
    have hsk := hs k ys hk h4
    have hbk := hb k ys hk h4
    simp only [Ref.bind] at h2 hbk
    cases hx : s.shape k with
    | hard e => exact absurd hx (hss k hk e)
    | abort x => rw [hx] at h2; dsimp only at h2; rw [h2]; trivial
    | soft =>
      rw [hx] at h2 hbk hsk
      dsimp only at h2
      rw [h2]
      exact ⟨u, ys, h3, h4, .seq (h5 _ (.stop hbk)) (.not hsk)⟩
    | ok d w j =>
      cases hcs k d w j hx
      rw [hx] at h2 hbk hsk
      dsimp only at h2 hbk
      obtain ⟨u', zs, h6, h7, h8⟩ := hsk
      cases hy : p.shape j with
      | ok d' v l => rw [hy] at h2; exact h2.elim
      | abort x => rw [hy] at h2; simp only [Answer.after] at h2; rw [h2]; trivial
      | soft =>
        rw [hy] at h2 hbk
        simp only [Answer.after] at h2 hbk
        rw [h2]
        exact .seq (h5 _ (.stop hbk)) (.notFail h8)
      | hard e =>
        rw [hy] at h2 hbk
        simp only [Answer.after] at h2 hbk
        rw [h2]
        exact .seq (h5 _ (.stop hbk)) (.notFail h8)
  · intro i hx
    obtain ⟨vs, c, k, h1, h2⟩ := hm i
    rw [hx] at h2
    cases hy : (Ref.bind s.shape fun _ => p.shape) k <;> rw [hy] at h2 <;> cases h2

/-- **C57.**  `sep_by1` does not backtrack over a separator: it is `p (s p)* !s`, if the separator commits. -/
theorem C57_sep_by1 (hS : S.Lawful) {Cp : σ → Prop} {Cs : τ → Prop} {p : Parser S σ α} {s : Parser S τ β}
    (hmp : Moves p) (hms : Moves s) (hkp : Keeps false Cp p) (hks : Keeps false Cs s) (hc : Consuming p)
    (hp : Backtracks rules a p.shape) (hs : Backtracks rules b s.shape) (hss : Softly s)
    (hcs : ∀ i c v j, s.shape i = .ok c v j → c = true) :
    Backtracks rules (a.seq ((b.seq a).star.seq b.not)) (sepBy1 p s).shape := by
  obtain ⟨m, h1, h2⟩ := sepBy1_shape hS hmp hms hkp hks hc
  exact backtracks_congr h2 (backtracks_bind hS hp fun v => backtracks_map (backtracks_rest hS hp hs hss hcs h1).1 _)

/-- **C57.**  `sep_by` is `(p (s p)* !s) / !p`. -/
theorem C57_sep_by (hS : S.Lawful) {Cp : σ → Prop} {Cs : τ → Prop} {p : Parser S σ α} {s : Parser S τ β}
    (hmp : Moves p) (hms : Moves s) (hkp : Keeps false Cp p) (hks : Keeps false Cs s) (hc : Consuming p)
    (hp : Backtracks rules a p.shape) (hsp : Softly p) (hs : Backtracks rules b s.shape) (hss : Softly s)
    (hcs : ∀ i c v j, s.shape i = .ok c v j → c = true) :
    Backtracks rules ((a.seq ((b.seq a).star.seq b.not)).alt a.not) (sepBy p s).shape := by
  have h1 := C57_sep_by1 hS hmp hms hkp hks hc hp hs hss hcs
  obtain ⟨m, h2, h3⟩ := sepBy1_shape hS hmp hms hkp hks hc
  have h4 := (backtracks_rest hS hp hs hss hcs h2).2
  have e : ∀ i, (sepBy p s).shape i = orSem (sepBy1 p s).shape (Ref.value []) i := by
    intro i
    obtain ⟨x, h2, h3⟩ := C10_sep_by hS hmp hms hkp hks hc i
    have h4 := C10_sep_by1 hS hmp hms hkp hks hc i
    have : x = (sepBy1 p s).shape i := by
      revert h2 h4
      simp only [Ref.IsSepBy1]
      cases p.shape i with
      | ok c v j =>
        rintro ⟨y, h5, rfl⟩ ⟨z, h6, h7⟩
        rw [h7, C07_unique h5 h6]
      | soft => rintro rfl h; exact h.symm
      | hard x => rintro rfl h; exact h.symm
      | abort x => rintro rfl h; exact h.symm
    rw [h3, this, orSem]
    cases (sepBy1 p s).shape i <;> rfl
  refine backtracks_congr e fun i xs hi hl => ?_
  have hpi := hp i xs hi hl
  have hsi := h1 i xs hi hl
  rw [orSem]
  have h5 := h3 i
  simp only [Ref.bind] at h5
  cases hx : p.shape i with
  | soft =>
    rw [hx] at h5 hpi
    rw [h5]
    exact ⟨[], xs, .nil i, hl, .right (.seqFail hpi) (.not hpi)⟩
  | hard x => exact absurd hx (hsp i hi x)
  | abort x =>
    rw [hx] at h5
    rw [h5]
    trivial
  | ok c v j =>
    rw [hx] at h5 hpi
    obtain ⟨u, ys, h6, h7, h8⟩ := hpi
    have hne : (sepBy1 p s).shape i ≠ .soft := by
      intro h
      rw [h5] at h
      simp only [Ref.map] at h
      have := h4 j
      cases hy : m j <;> rw [hy] at h <;> simp_all [Answer.map, Answer.after]
    revert hsi hne
    cases (sepBy1 p s).shape i with
    | soft => exact fun _ h => absurd rfl h
    | abort x => exact fun _ _ => trivial
    | hard x => exact fun h _ => .right h (.notFail h8)
    | ok c v j => rintro ⟨u, ys, h1, h2, h3⟩ _; exact ⟨u, ys, h1, h2, .left h3⟩

/-- **C57.**  `look_ahead`: the "and" predicate. -/
theorem C57_look_ahead (hS : S.Lawful) {p : Parser S σ α} (hm : Moves p) (hc : Coherent p) (hp : Backtracks rules a p.shape) :
    Backtracks rules a.look (lookAhead p).shape := by
  refine backtracks_congr (fun i => ?_) (backtracks_lookAhead hp)
  simp only [Parser.shape, C05_lookAhead hS hm hc i, Ref.lookAhead]
  cases p.answer i <;> rfl

/-- **C57.**  `not_followed_by`: the "not" predicate. -/
theorem C57_not_followed_by (hS : S.Lawful) {p : Parser S σ α} (hm : Moves p) (hp : Backtracks rules a p.shape) :
    Backtracks rules a.not (notFollowedBy p).shape ∧ Softly (notFollowedBy p) := by
  have e : ∀ i, (notFollowedBy p).shape i = Ref.notFollowedBy p.shape i := by
    intro i
    simp only [Parser.shape, C05_notFollowedBy hS hm i, Ref.notFollowedBy]
    cases p.answer i <;> rfl
  refine ⟨backtracks_congr e (backtracks_notFollowedBy hp), fun i _ x hx => ?_⟩
  rw [e, Ref.notFollowedBy] at hx
  cases hy : p.shape i <;> rw [hy] at hx <;> cases hx

private theorem eof_shape (hS : S.Lawful) (hE : S.EndsOnly) (j : S.Input) :
    (S.AtEnd j → (eof S).shape j = .ok false () j) ∧ (¬ S.AtEnd j → (eof S).shape j = .soft) := by
  obtain ⟨e1, e2, e3⟩ := C44_eof hS hE true j ()
  constructor
  · intro he
    simp only [Parser.shape, Parser.answer, Out.answer]
    rw [show (eof S).init = () from rfl, e1, e2 he]
    rfl
  · intro he
    obtain ⟨e, e4⟩ := e3 he
    simp only [Parser.shape, Parser.answer, Out.answer]
    rw [show (eof S).init = () from rfl, e4]
    rfl

/-- **C57.**  `eof` is "not anything". -/
theorem C57_eof (hS : S.Lawful) (hE : S.EndsOnly) :
    Backtracks rules (.not (.one fun _ => true)) (eof S).shape ∧ Softly (eof S) := by
  constructor
  · intro i xs hp hl
    obtain ⟨k, h1, h2⟩ := hl
    cases xs with
    | nil =>
      cases Strm.reads_nil.1 h1
      rw [(eof_shape hS hE i).1 h2]
      exact ⟨[], [], .nil i, ⟨i, .nil i, h2⟩, .not .ended⟩
    | cons t ts =>
      obtain ⟨l, hl⟩ := reads_head h1
      rw [(eof_shape hS hE i).2 fun ⟨e, he⟩ => by rw [hl] at he; cases he]
      exact .notFail (.one rfl)
  · intro i hp e he
    by_cases h : S.AtEnd i
    · rw [(eof_shape hS hE i).1 h] at he; cases he
    · rw [(eof_shape hS hE i).2 h] at he; cases he

/-- **C57.**  Labels and wrappers. -/
theorem C57_labels {p : Parser S σ α} (hp : Backtracks rules a p.shape) (x : Info S.Tok S.Rng) :
    Backtracks rules a (expected p x).shape ∧ Backtracks rules a (message p x).shape ∧ Backtracks rules a (silent p).shape ∧
    Backtracks rules a (boxed p).shape ∧ Backtracks rules a (opaqueP p).shape ∧ Backtracks rules a (parserMacro p).shape ∧
    Backtracks rules a (parserMacroUnit p).shape := by
  have e : ∀ i, (message p x).shape i = p.shape i := by
    intro i
    simp only [Parser.shape, Parser.answer, message, Parser.ofMode]
    generalize p.run true i p.init = o
    obtain ⟨r, j, s⟩ := o
    cases r <;> rfl
  have e' : ∀ i, (silent p).shape i = p.shape i := by
    intro i
    simp only [Parser.shape, Parser.answer, silent, Parser.ofMode]
    generalize p.run true i p.init = o
    obtain ⟨r, j, s⟩ := o
    cases r <;> rfl
  exact ⟨hp, backtracks_congr e hp, backtracks_congr e' hp, hp, hp, hp, hp⟩

private theorem backtracks_ref {m : Sem S.Input Unit α} {n : N} (h : Backtracks rules (rules n) m) :
    Backtracks rules (.ref n) m := by
  intro i xs hp hl
  have h' := h i xs hp hl
  revert h'
  cases m i with
  | abort x => exact fun _ => trivial
  | soft => exact .ref
  | hard e => exact .ref
  | ok c v j => rintro ⟨u, ys, h1, h2, h3⟩; exact ⟨u, ys, h1, h2, .ref h3⟩

/-- **C57.**  A recursive expression: the parser of a nonterminal is made from itself. -/
theorem C57_recur {n : N} {H : Parser S σ α → Prop} {f : Parser S σ α → Parser S σ α} {init : σ} (h0 : H (recur f init 0))
    (hs : ∀ q, H q → H (f q))
    (hf : ∀ q, H q → Backtracks rules (.ref n) q.shape → Backtracks rules (rules n) (f q).shape) (d : Nat) :
    Backtracks rules (.ref n) (recur f init d).shape := by
  have hH : ∀ d, H (recur f init d) := fun d => by
    induction d with
    | zero => exact h0
    | succ d ih => exact hs _ ih
  induction d with
  | zero => exact fun _ _ _ _ => trivial
  | succ d ih => exact backtracks_ref (hf _ (hH d) ih)

/-! ## The parser of a grammar -/

section Whole

variable {rank : N → Nat} {R : Nat}

private theorem coherent_unit (hS : S.Lawful) {p : Parser S σ α} (hm : Moves p) : Coherent (parserMacroUnit p) :=
  .ofMode hS fun m i _ => hm.run m i p.init

private theorem peg_basic (hS : S.Lawful) {call : N → Parser S Unit Unit} (hm : ∀ n, Moves (call n))
    (hc : ∀ n, Coherent (call n)) (e : Peg N S.Tok) : Moves (e.parser S call) ∧ Coherent (e.parser S call) := by
  induction e with
  | empty => exact ⟨moves_value hS (), Coherent.ofLazy hS fun i => .refl i⟩
  | one f => exact ⟨moves_ignore hS (moves_satisfy hS f), coherent_ignore hS (moves_satisfy hS f) (.ofLazy hS (satisfyImpl_reach hS _))⟩
  | seq a b iha ihb => exact ⟨moves_parserMacroUnit hS (moves_with hS iha.1 ihb.1), coherent_unit hS (moves_with hS iha.1 ihb.1)⟩
  | alt a b iha ihb =>
    have h := moves_or hS (moves_attempt hS iha.1) ihb.1
    exact ⟨moves_parserMacroUnit hS h, coherent_unit hS h⟩
  | star a ih =>
    have h := moves_skipMany hS (moves_attempt hS ih.1)
    exact ⟨moves_parserMacroUnit hS h, coherent_unit hS h⟩
  | look a ih =>
    have h := moves_lookAhead hS ih.1
    exact ⟨moves_parserMacroUnit hS h, coherent_unit hS h⟩
  | not a ih =>
    have h := moves_notFollowedBy hS ih.1
    exact ⟨moves_parserMacroUnit hS h, coherent_unit hS h⟩
  | ref n => exact ⟨hm n, hc n⟩

private theorem pegs_basic (hS : S.Lawful) (d : Nat) : ∀ n, Moves (Peg.parsers S rules d n) ∧ Coherent (Peg.parsers S rules d n) := by
  induction d with
  | zero => exact fun n => ⟨.ofMode hS fun m i s => .refl i, .ofMode hS fun m i s => .refl i⟩
  | succ d ih =>
    intro n
    have h := (peg_basic hS (fun n => (ih n).1) (fun n => (ih n).2) (rules n)).1
    exact ⟨moves_parserMacroUnit hS h, coherent_unit hS h⟩

/-- **C57.**  The parser of an expression means what the expression means. -/
theorem C57_expression (hS : S.Lawful) (hC : ∀ i, S.isPartial i = false) {call : N → Parser S Unit Unit}
    (hm : ∀ n, Moves (call n)) (hco : ∀ n, Coherent (call n)) (hc : ∀ n, Backtracks rules (.ref n) (call n).shape)
    (e : Peg N S.Tok) (h : e.Steady rules) : Backtracks rules e (e.parser S call).shape := by
  have hb := peg_basic hS hm hco
  induction e with
  | empty => exact C57_value ()
  | one f =>
    have h1 : Backtracks rules (.one fun t => ((if f t then some t else none : Option S.Tok)).isSome) (satisfy S f).shape :=
      (C57_one (C53_satisfy hS f)).1
    rw [show (fun t => ((if f t then some t else none : Option S.Tok)).isSome) = f from
      funext fun t => by cases f t <;> rfl] at h1
    exact backtracks_congr (fun i => mapShape (τ := Unit) ((satisfy S f).run true i ()) _) (backtracks_map h1 fun _ => ())
  | seq a b iha ihb => exact (C57_with hS (iha h.1) (ihb h.2)).1
  | alt a b iha ihb =>
    have ha := C57_attempt hS (hb a).1 (hb a).2 (iha h.1)
    exact C57_or hS (moves_attempt hS (hb a).1) (hb b).1 ha.1 ha.2 (ihb h.2)
  | star a ih =>
    have ha := C57_attempt hS (hb a).1 (hb a).2 (ih h.1)
    exact (C57_many hS (moves_attempt hS (hb a).1) (keeps_unit (h := false) _).reusable (backtracks_consuming hS hC ha.1 h.2)
      ha.1 ha.2).2
  | look a ih => exact C57_look_ahead hS (hb a).1 (hb a).2 (ih h)
  | not a ih => exact (C57_not_followed_by hS (hb a).1 (ih h)).1
  | ref n => exact hc n

/-- **C57.**  The parsers of the nonterminals, however deep their calls nest. -/
theorem C57_nonterminal (hS : S.Lawful) (hC : ∀ i, S.isPartial i = false) (h : ∀ n, (rules n).Steady rules) (d : Nat) (n : N) :
    Backtracks rules (.ref n) (Peg.parsers S rules d n).shape := by
  induction d generalizing n with
  | zero => exact fun _ _ _ _ => trivial
  | succ d ih =>
    exact backtracks_ref (C57_expression hS hC (fun n => (pegs_basic hS d n).1) (fun n => (pegs_basic hS d n).2) ih (rules n) (h n))

private theorem leftBelow_all (hR : ∀ n, rank n < R) (e : Peg N S.Tok) : e.LeftBelow rules rank R := by
  induction e with
  | empty => trivial
  | one f => trivial
  | seq a b iha ihb => exact ⟨iha, fun _ => ihb⟩
  | alt a b iha ihb => exact ⟨iha, ihb⟩
  | star a ih => exact ih
  | look a ih => exact ih
  | not a ih => exact ih
  | ref n => exact hR n

private theorem later (hS : S.Lawful) {i j : S.Input} {w : List S.Tok} (hr : S.Reads i w j) :
    (w = [] ∧ j = i) ∨ S.size j < S.size i := by
  cases w with
  | nil => exact .inl ⟨rfl, Strm.reads_nil.1 hr⟩
  | cons t ts =>
    have := hS.reads_size hr
    simp only [List.length_cons] at this
    exact .inr (by omega)

private theorem attempt_abort (hS : S.Lawful) {p : Parser S σ α} (hm : Moves p) (hc : Coherent p) {i : S.Input}
    (hp : S.isPartial i = false) {x : Abort} (h : (attempt p).shape i = .abort x) : p.shape i = .abort x := by
  rw [attempt_shape hS hm hc i hp, Ref.attempt] at h
  cases hy : p.shape i <;> rw [hy] at h <;> cases h
  rfl

/-- Calls of nonterminals of rank below `k` come back on inputs of size `s`, and everything does on smaller ones. -/
private theorem no_abort_step (hS : S.Lawful) (hC : ∀ i, S.isPartial i = false) (h : Peg.WellFormed rules rank R) {s d k : Nat}
    (ihs : ∀ m, m < s → ∀ (d k : Nat) (e : Peg N S.Tok), e.Steady rules → e.LeftBelow rules rank k → m * R + k ≤ d →
      ∀ i, S.size i ≤ m → ∀ x, (e.parser S (Peg.parsers S rules d)).shape i ≠ .abort x)
    (hcall : ∀ n, rank n < k → ∀ i, S.size i ≤ s → ∀ x, (Peg.parsers S rules d n).shape i ≠ .abort x)
    (e : Peg N S.Tok) (he : e.Steady rules) (hk : e.LeftBelow rules rank k) (hd : s * R ≤ d)
    (i : S.Input) (hi : S.size i ≤ s) (x : Abort) : (e.parser S (Peg.parsers S rules d)).shape i ≠ .abort x := by
  have hsmall : ∀ (e : Peg N S.Tok), e.Steady rules → ∀ j, S.size j < S.size i →
      ∀ x, (e.parser S (Peg.parsers S rules d)).shape j ≠ .abort x := by
    intro e he j hj
    refine ihs (S.size j) (by omega) d R e he (leftBelow_all h.rank e) ?_ j (Nat.le_refl _)
    have : (S.size j + 1) * R ≤ s * R := Nat.mul_le_mul_right R (by omega)
    rw [Nat.add_mul] at this
    omega
  have hb := peg_basic hS (fun n => (pegs_basic (rules := rules) hS d n).1) (fun n => (pegs_basic hS d n).2)
  have hbt := fun e he => C57_expression hS hC (fun n => (pegs_basic hS d n).1) (fun n => (pegs_basic hS d n).2)
    (C57_nonterminal hS hC h.steady d) e he
  obtain ⟨xs, hl⟩ := left_exists hS i
  induction e generalizing x with
  | empty => intro hx; cases hx
  | one f =>
    have e : (ignore (satisfy S f)).shape i = ((satisfy S f).shape i).map fun _ => () :=
      mapShape (τ := Unit) ((satisfy S f).run true i ()) _
    show (ignore (satisfy S f)).shape i ≠ _
    rw [e]
    rcases C53_satisfy hS f i with ⟨t, j, h1, h2⟩ | ⟨h1, h2⟩ <;> rw [h2] <;> intro hx
    · dsimp only at hx
      split at hx <;> cases hx
    · split at hx <;> cases hx
  | seq a b iha ihb =>
    show («with» (a.parser S _) (b.parser S _)).shape i ≠ _
    rw [C12_with]
    simp only [Ref.bind]
    have hp := hbt a he.1 i xs (hC i) hl
    cases hx : (a.parser S (Peg.parsers S rules d)).shape i with
    | abort y => exact absurd hx (iha he.1 hk.1 y)
    | soft => intro h; cases h
    | hard e => intro h; cases h
    | ok c v j =>
      rw [hx] at hp
      obtain ⟨w, ys, h1, h2, h3⟩ := hp
      have hb : ∀ y, (b.parser S (Peg.parsers S rules d)).shape j ≠ .abort y := by
        rcases later hS h1 with ⟨rfl, rfl⟩ | hlt
        · cases left_unique h2 hl
          exact fun y => ihb he.2 (hk.2 ⟨_, h3⟩) y
        · exact hsmall b he.2 j hlt
      dsimp only
      cases hy : (b.parser S (Peg.parsers S rules d)).shape j with
      | abort y => exact absurd hy (hb y)
      | soft => cases c <;> intro h <;> cases h
      | hard e => intro h; cases h
      | ok c v j => intro h; cases h
  | alt a b iha ihb =>
    show (or (attempt (a.parser S _)) (b.parser S _)).shape i ≠ _
    rw [or_shape hS (moves_attempt hS (hb a).1) (hb b).1, orSem]
    cases hx : (attempt (a.parser S (Peg.parsers S rules d))).shape i with
    | abort y => exact absurd (attempt_abort hS (hb a).1 (hb a).2 (hC i) hx) (iha he.1 hk.1 y)
    | soft => exact ihb he.2 hk.2 x
    | hard e => intro h; cases h
    | ok c v j => intro h; cases h
  | star a ih =>
    show (skipMany (attempt (a.parser S _))).shape i ≠ _
    have ha := C57_attempt hS (hb a).1 (hb a).2 (hbt a he.1)
    obtain ⟨y, h1, h2⟩ := C07_skip_many hS (p := attempt (a.parser S (Peg.parsers S rules d)))
      (moves_attempt hS (hb a).1) (keeps_unit (h := false) _).reusable (backtracks_consuming hS hC ha.1 he.2) i
    have h1 : Ref.IsMany (attempt (a.parser S (Peg.parsers S rules d))).shape i y.shape := isMany_shape h1
    obtain ⟨vs, c, l, h3, h4⟩ := h1
    obtain ⟨w, ys, h5, _⟩ := backtracks_run hS ha.1 h3 (hC i) hl
    have hl : ∀ y, (a.parser S (Peg.parsers S rules d)).shape l ≠ .abort y := by
      rcases later hS h5 with ⟨rfl, rfl⟩ | hlt
      · exact fun y => ih he.1 hk y
      · exact hsmall a he.1 l hlt
    intro hx
    have hx' : y.shape = .abort x := by
      simp only [Parser.shape, h2] at hx
      cases y <;> simp_all [Answer.map, Answer.shape]
    rw [hx'] at h4
    cases hz : (attempt (a.parser S (Peg.parsers S rules d))).shape l with
    | abort z => exact hl z (attempt_abort hS (hb a).1 (hb a).2 (hC l) hz)
    | soft => rw [hz] at h4; cases h4
    | hard e => rw [hz] at h4; cases h4
    | ok c v j => rw [hz] at h4; exact h4
  | look a ih =>
    show (lookAhead (a.parser S _)).shape i ≠ _
    intro hx
    simp only [Parser.shape, C05_lookAhead hS (hb a).1 (hb a).2 i, Ref.lookAhead] at hx
    cases hy : (a.parser S (Peg.parsers S rules d)).answer i with
    | abort y => exact ih he hk y (by simp only [Parser.shape, hy, Answer.shape])
    | _ => rw [hy] at hx; cases hx
  | not a ih =>
    show (notFollowedBy (a.parser S _)).shape i ≠ _
    intro hx
    simp only [Parser.shape, C05_notFollowedBy hS (hb a).1 i, Ref.notFollowedBy] at hx
    cases hy : (a.parser S (Peg.parsers S rules d)).answer i with
    | abort y => exact ih he hk y (by simp only [Parser.shape, hy, Answer.shape])
    | _ => rw [hy] at hx; cases hx
  | ref n => exact hcall n hk i hi x

private theorem no_abort (hS : S.Lawful) (hC : ∀ i, S.isPartial i = false) (h : Peg.WellFormed rules rank R) (s : Nat) :
    ∀ (d k : Nat) (e : Peg N S.Tok), e.Steady rules → e.LeftBelow rules rank k → s * R + k ≤ d → ∀ i, S.size i ≤ s →
    ∀ x, (e.parser S (Peg.parsers S rules d)).shape i ≠ .abort x := by
  induction s using Nat.strongRecOn with
  | ind s ihs =>
  intro d
  induction d with
  | zero =>
    intro k e he hk hd i hi
    exact no_abort_step hS hC h ihs (fun n hn => by omega) e he hk (by omega) i hi
  | succ d ihd =>
    intro k e he hk hd i hi
    refine no_abort_step hS hC h ihs (fun n hn i hi x => ?_) e he hk (by omega) i hi
    exact ihd (rank n) (rules n) (h.steady n) (h.left n) (by omega) i hi x

/-- **C57.**  Every call comes back, if calls can nest deep enough: `R` levels for each token, and `R` more. -/
theorem C57_terminates (hS : S.Lawful) (hC : ∀ i, S.isPartial i = false) (h : Peg.WellFormed rules rank R) (d : Nat) (n : N)
    (i : S.Input) (hd : S.size i * R + R ≤ d) (x : Abort) : (Peg.parsers S rules d n).shape i ≠ .abort x :=
  no_abort hS hC h (S.size i) d R (.ref n) trivial (h.rank n) hd i (Nat.le_refl _) x

/-- **C57.**  The parser of a nonterminal succeeds exactly where it matches, and leaves what it leaves; it fails exactly where
it fails. -/
theorem C57_exact (hS : S.Lawful) (hC : ∀ i, S.isPartial i = false) (h : Peg.WellFormed rules rank R) (d : Nat) (n : N)
    (i : S.Input) (xs : List S.Tok) (hl : S.Left i xs) (hd : S.size i * R + R ≤ d) :
    (∀ ys, (∃ v j, (Peg.parsers S rules d n).parse i = .ok v j ∧ S.Left j ys) ↔ (Peg.ref n).Matches rules xs (some ys)) ∧
    ((∃ e, (Peg.parsers S rules d n).parse i = .err e) ↔ (Peg.ref n).Matches rules xs none) := by
  obtain ⟨c1, c2⟩ := C41_parse _ (pegs_basic (rules := rules) hS d n).2 i
  have hb := C57_nonterminal hS hC h.steady d n i xs (hC i) hl
  have ha := C57_terminates hS hC h d n i hd
  simp only [Parser.shape] at hb ha
  cases hx : (Peg.parsers S rules d n).answer i with
  | abort x => exact absurd (by rw [hx]; rfl) (ha x)
  | ok c v j =>
    rw [hx] at hb
    obtain ⟨u, zs, h1, h2, h3⟩ := hb
    constructor
    · intro ys
      constructor
      · rintro ⟨v', j', hv, hl'⟩
        obtain ⟨c', hc⟩ := (c1 v' j').1 hv
        rw [hx] at hc
        cases hc
        cases left_unique h2 hl'
        exact h3
      · intro hm
        cases C57_deterministic h3 hm
        exact ⟨v, j, (c1 v j).2 ⟨c, hx⟩, h2⟩
    · rw [c2]
      constructor
      · rintro (he | ⟨e, he⟩) <;> rw [hx] at he <;> cases he
      · intro hm
        cases C57_deterministic h3 hm
  | soft =>
    rw [hx] at hb
    constructor
    · intro ys
      constructor
      · rintro ⟨v', j', hv, hl'⟩
        obtain ⟨c', hc⟩ := (c1 v' j').1 hv
        rw [hx] at hc
        cases hc
      · intro hm
        cases C57_deterministic hb hm
    · rw [c2]
      exact ⟨fun _ => hb, fun _ => .inl hx⟩
  | hard e =>
    rw [hx] at hb
    constructor
    · intro ys
      constructor
      · rintro ⟨v', j', hv, hl'⟩
        obtain ⟨c', hc⟩ := (c1 v' j').1 hv
        rw [hx] at hc
        cases hc
      · intro hm
        cases C57_deterministic hb hm
    · rw [c2]
      exact ⟨fun _ => hb, fun _ => .inr ⟨e, hx⟩⟩

/-- **C57.**  So a well-formed grammar has a result on every text. -/
theorem C57_total {T : Type} {rules : N → Peg N T} {rank : N → Nat} (h : Peg.WellFormed rules rank R) (n : N) (xs : List T) :
    ∃ r, (Peg.ref n).Matches rules xs r := by
  let S := sliceS T 1
  have hS : S.Lawful := slice_lawful T 1
  have hl : S.Left ⟨0, xs⟩ xs := by
    have key : ∀ (m : Nat) (ys : List T), ∃ k, S.Reads ⟨m, ys⟩ ys k ∧ S.AtEnd k := by
      intro m ys
      induction ys generalizing m with
      | nil => exact ⟨_, .nil _, _, rfl⟩
      | cons y ys ih =>
        obtain ⟨k, h1, h2⟩ := ih (m + 1)
        exact ⟨k, .cons rfl h1, h2⟩
    exact key 0 xs
  have h1 := C57_nonterminal (S := S) hS (fun _ => rfl) h.steady (S.size ⟨0, xs⟩ * R + R) n ⟨0, xs⟩ xs rfl hl
  have h2 := C57_terminates (S := S) hS (fun _ => rfl) h (S.size ⟨0, xs⟩ * R + R) n ⟨0, xs⟩ (Nat.le_refl _)
  cases hx : (Peg.parsers S rules (S.size ⟨0, xs⟩ * R + R) n).shape ⟨0, xs⟩ with
  | abort x => exact absurd hx (h2 x)
  | soft => rw [hx] at h1; exact ⟨_, h1⟩
  | hard e => rw [hx] at h1; exact ⟨_, h1⟩
  | ok c v j =>
    rw [hx] at h1
    obtain ⟨u, ys, _, _, h3⟩ := h1
    exact ⟨_, h3⟩

end Whole

/-! ## Examples -/

section Examples

private abbrev B := sliceS Nat 1

/-- Ford's example of a language that is not context-free, `aⁿ bⁿ cⁿ`: `D ← &(A !b) a* B !.`, `A ← a A? b`, `B ← b B? c`.
The tokens are `0`, `1`, `2`; the nonterminals `D`, `A`, `B` are `0`, `1`, `2`. -/
private abbrev equal : Fin 3 → Peg (Fin 3) Nat
  | 0 => .seq (.look (.seq (.ref 1) (.not (.one (· == 1))))) (.seq (.star (.one (· == 0)))
      (.seq (.ref 2) (.not (.one fun _ => true))))
  | 1 => .seq (.one (· == 0)) (.seq (.alt (.ref 1) .empty) (.one (· == 1)))
  | 2 => .seq (.one (· == 1)) (.seq (.alt (.ref 2) .empty) (.one (· == 2)))

private theorem equal_wellFormed : Peg.WellFormed equal (fun n => if n = 0 then 1 else 0) 2 := by
  refine ⟨fun n => ?_, fun n => ?_, fun n => by split <;> decide⟩
  · match n with
    | 0 => simp [Peg.Steady, Peg.null_one]
    | 1 => simp [Peg.Steady]
    | 2 => simp [Peg.Steady]
  · match n with
    | 0 => simp [Peg.LeftBelow]
    | 1 => simp [Peg.LeftBelow, Peg.null_one]
    | 2 => simp [Peg.LeftBelow, Peg.null_one]

example (i : B.Input) (xs : List Nat) (hl : B.Left i xs) :
    (∃ e, (Peg.parsers B equal (B.size i * 2 + 2) 0).parse i = .err e) ↔ (Peg.ref 0).Matches equal xs none :=
  (C57_exact (slice_lawful Nat 1) (fun _ => rfl) equal_wellFormed _ 0 i xs hl (Nat.le_refl _)).2

example : (Peg.parsers B equal 14 0).parse ⟨0, [0, 0, 1, 1, 2, 2]⟩ = .ok () ⟨6, []⟩ := by rfl
example : ∃ e, (Peg.parsers B equal 14 0).parse ⟨0, [0, 0, 1, 1, 2]⟩ = .err e := ⟨_, rfl⟩
example : ∃ e, (Peg.parsers B equal 14 0).parse ⟨0, [0, 1, 1, 2, 2]⟩ = .err e := ⟨_, rfl⟩

/-- `sep_by` with values. -/
example (rules : Empty → Peg Empty Nat) : Backtracks (S := B) rules
    (let a := Peg.one fun t => (if t = 2 then some t else none).isSome
     let b := Peg.one fun t => (if t = 3 then some t else none).isSome
     (a.seq ((b.seq a).star.seq b.not)).alt a.not) (sepBy (token B 2) (token B 3)).shape := by
  have hS := slice_lawful Nat 1
  have h2 := C57_one (rules := rules) (C53_token hS 2)
  have h3 := C57_one (rules := rules) (C53_token hS 3)
  refine C57_sep_by hS (moves_token hS 2) (moves_token hS 3) (keeps_unit (h := false) _) (keeps_unit (h := false) _)
    (consuming_token (S := B) 2) h2.1 h2.2 h3.1 h3.2 fun i c v j h => ?_
  rcases C53_token hS 3 i with ⟨t, j, h1, h4⟩ | ⟨h1, h4⟩ <;> rw [h4] at h
  · by_cases ht : t = 3
    · simp only [if_pos ht] at h; cases h; rfl
    · simp only [if_neg ht] at h; cases h
  · cases h

/-- `attempt` is needed: without it the second alternative is not tried after a token of the first. -/
theorem C57_without_attempt :
    let a : Peg Empty Nat := .seq (.one (· == 1)) (.one (· == 2))
    let b : Peg Empty Nat := .seq (.one (· == 1)) (.one (· == 3))
    (a.alt b).Matches Empty.elim [1, 3] (some []) ∧
    (∃ v j, (or (attempt («with» (token B 1) (token B 2))) («with» (token B 1) (token B 3))).parse ⟨0, [1, 3]⟩ = .ok v j) ∧
    ∃ e, (or («with» (token B 1) (token B 2)) («with» (token B 1) (token B 3))).parse ⟨0, [1, 3]⟩ = .err e :=
  ⟨.right (.seq (.one rfl) (.other rfl)) (.seq (.one rfl) (.one rfl)), ⟨_, _, rfl⟩, _, rfl⟩

/-- Ordered choice is not the choice of a context-free grammar: the first alternative that matches is taken, though only the
second one would let the rest match. -/
theorem C57_prefix_hides :
    let a : Peg Empty Nat := .seq (.alt (.one (· == 1)) (.seq (.one (· == 1)) (.one (· == 2)))) (.one (· == 3))
    a.Matches Empty.elim [1, 2, 3] none ∧
    ∃ e, (Peg.parser B Empty.elim a).parse ⟨0, [1, 2, 3]⟩ = .err e :=
  ⟨.seq (.left (.one rfl)) (.other rfl), _, rfl⟩

end Examples

end Verif
