import Verif.Proof.Alike
import Verif.Spec.Classes
import Verif.Props.Chain
import Verif.Props.Control
import Verif.Props.Monad
import Verif.Props.Wrappers
import Verif.Props.Tokens
import Verif.Props.TakeWhile
import Verif.Props.Recognize
import Verif.Props.Classes
import Verif.Props.Recursion
import Verif.Props.Until
import Verif.Props.RangeTokens
import Verif.Props.TakeUntilRange

/-!
# The same grammar over two streams (C54)
-/

namespace Verif

variable {S S' : Strm} {σ σ' τ τ' υ υ' α α' β β' γ γ' T U : Type}
variable {R : S.Input → S'.Input → Prop} {V : α → α' → Prop} {W : β → β' → Prop} {X : γ → γ' → Prop}

/-! ## Combinators, for any relation between the inputs -/

private theorem congr_shape {p : Parser S σ α} {q : Parser S' τ α'} {m : Sem S.Input Unit α} {n : Sem S'.Input Unit α'}
    (hp : ∀ i, p.shape i = m i) (hq : ∀ i, q.shape i = n i) (h : SemAlike R V m n) : Alike R V p q :=
  fun i j hr => by rw [hp, hq]; exact h i j hr

/-- **C54.**  Weaker relations between the values. -/
theorem C54_weaken {V' : α → α' → Prop} {p : Parser S σ α} {q : Parser S' σ' α'} (h : Alike R V p q)
    (hv : ∀ v v', V v v' → V' v v') : Alike R V' p q := fun i j hr => alike_imp (h i j hr) hv

/-- **C54.**  `value`. -/
theorem C54_value {v : α} {v' : α'} (h : V v v') : Alike R V (value S v) (value S' v') :=
  fun _ _ hr => ⟨rfl, h, hr⟩

/-- **C54.**  `unexpected`, `unexpected_any`. -/
theorem C54_unexpected (x : Info S.Tok S.Rng) (x' : Info S'.Tok S'.Rng) :
    Alike R V (unexpected S α x) (unexpected S' α' x') := fun _ _ _ => trivial

/-- **C54.**  `map`. -/
theorem C54_map {p : Parser S σ α} {q : Parser S' σ' α'} (h : Alike R V p q) {f : α → β} {g : α' → β'}
    (hf : ∀ v v', V v v' → W (f v) (g v')) : Alike R W (map p f) (map q g) :=
  congr_shape (fun i => mapShape (τ := σ) (p.run true i p.init) f) (fun i => mapShape (τ := σ') (q.run true i q.init) g)
    (semAlike_map h hf)

/-- **C54.**  `with`. -/
theorem C54_with {p : Parser S σ α} {p' : Parser S' σ' α'} {q : Parser S τ β} {q' : Parser S' τ' β'} (hp : Alike R V p p')
    (hq : Alike R W q q') : Alike R W («with» p q) («with» p' q') :=
  congr_shape (C12_with p q) (C12_with p' q') (semAlike_bind hp fun _ _ _ => hq)

/-- **C54.**  `skip`. -/
theorem C54_skip {p : Parser S σ α} {p' : Parser S' σ' α'} {q : Parser S τ β} {q' : Parser S' τ' β'} (hp : Alike R V p p')
    (hq : Alike R W q q') : Alike R V (skip p q) (skip p' q') :=
  congr_shape (C12_skip p q) (C12_skip p' q') (semAlike_bind hp fun _ _ hv => semAlike_map hq fun _ _ _ => hv)

/-- **C54.**  `between`. -/
theorem C54_between {o : Parser S σ α} {o' : Parser S' σ' α'} {c : Parser S υ γ} {c' : Parser S' υ' γ'} {p : Parser S τ β}
    {p' : Parser S' τ' β'} (ho : Alike R V o o') (hc : Alike R X c c') (hp : Alike R W p p') :
    Alike R W (between o c p) (between o' c' p') :=
  congr_shape (C12_between o c p) (C12_between o' c' p')
    (semAlike_bind ho fun _ _ _ => semAlike_bind hp fun _ _ hv => semAlike_map hc fun _ _ _ => hv)

private theorem seq_alike {ps : Seq S τ β} {qs : Seq S' τ' β'} (h : SeqAlike R ps qs W) :
    SemAlike R W (Ref.seq ps) (Ref.seq qs) := by
  induction h with
  | nil => exact fun i j hr => ⟨rfl, trivial, hr⟩
  | cons hp _ ih =>
    rw [Ref.seq, Ref.seq]
    exact semAlike_bind hp fun v w hv => semAlike_map ih fun _ _ hx => ⟨hv, hx⟩

/-- **C54.**  Tuples. -/
theorem C54_tuple {p : Parser S σ α} {p' : Parser S' σ' α'} {ps : Seq S τ β} {ps' : Seq S' τ' β'} (hp : Alike R V p p')
    (hs : SeqAlike R ps ps' W) : Alike R (fun x y => V x.1 y.1 ∧ W x.2 y.2) (tuple p ps) (tuple p' ps') :=
  congr_shape (C12_tuple p ps) (C12_tuple p' ps') (seq_alike (.cons hp hs))

/-- **C54.**  `then`. -/
theorem C54_then (hS : S.Lawful) (hS' : S'.Lawful) {p : Parser S σ α} {p' : Parser S' σ' α'} (hp : Alike R V p p')
    {f : α → Parser S τ β} {f' : α' → Parser S' τ' β'} {n : τ} {n' : τ'} (hn : ∀ a, (f a).init = n)
    (hn' : ∀ a, (f' a).init = n') (hc : ∀ a, Coherent (f a)) (hc' : ∀ a, Coherent (f' a))
    (hf : ∀ v v', V v v' → Alike R W (f v) (f' v')) : Alike R W (thenP p f n) (thenP p' f' n') :=
  congr_shape (C13_then hS p f n hn hc) (C13_then hS' p' f' n' hn' hc') (semAlike_bind hp hf)

private theorem or_shape (hS : S.Lawful) {p : Parser S σ α} {q : Parser S τ α} (hp : Moves p) (hq : Moves q) (i : S.Input) :
    (or p q).shape i = match p.shape i with
      | .soft => q.shape i
      | r => r := by
  simp only [Parser.shape, C03_or hS hp hq i]
  cases p.answer i <;> rfl

/-- **C54.**  `or`, `choice`. -/
theorem C54_or (hS : S.Lawful) (hS' : S'.Lawful) {p : Parser S σ α} {p' : Parser S' σ' α'} {q : Parser S τ α}
    {q' : Parser S' τ' α'} (hp : Alike R V p p') (hq : Alike R V q q') (hmp : Moves p) (hmp' : Moves p') (hmq : Moves q)
    (hmq' : Moves q') : Alike R V (or p q) (or p' q') := by
  intro i j hr
  rw [or_shape hS hmp hmq, or_shape hS' hmp' hmq']
  have h := hp i j hr
  cases h1 : p.shape i <;> cases h2 : p'.shape j <;> rw [h1, h2] at h <;> try exact h.elim
  · exact h
  · exact hq i j hr
  · exact h
  · exact h

/-- **C54.**  `optional`. -/
theorem C54_optional (hS : S.Lawful) (hS' : S'.Lawful) {p : Parser S σ α} {p' : Parser S' σ' α'} (hp : Alike R V p p')
    (hm : Moves p) (hm' : Moves p') : Alike R (Both V) (optional p) (optional p') := by
  intro i j hr
  have e : (optional p).shape i = Ref.optional p.shape i := by
    simp only [Parser.shape, C06_optional hS hm i, Ref.optional]
    cases p.answer i <;> rfl
  have e' : (optional p').shape j = Ref.optional p'.shape j := by
    simp only [Parser.shape, C06_optional hS' hm' j, Ref.optional]
    cases p'.answer j <;> rfl
  rw [e, e', Ref.optional, Ref.optional]
  have h := hp i j hr
  cases h1 : p.shape i <;> cases h2 : p'.shape j <;> rw [h1, h2] at h <;> try exact h.elim
  · exact h
  · exact ⟨rfl, trivial, hr⟩
  · exact h
  · exact h

/-- **C54.**  `attempt`, on complete inputs. -/
theorem C54_attempt (hS : S.Lawful) (hS' : S'.Lawful) {p : Parser S σ α} {p' : Parser S' σ' α'} (hp : Alike R V p p')
    (hm : Moves p) (hm' : Moves p') (hc : Coherent p) (hc' : Coherent p')
    (hR : ∀ i j, R i j → S.isPartial i = false ∧ S'.isPartial j = false) : Alike R V (attempt p) (attempt p') := by
  intro i j hr
  have e : (attempt p).shape i = Ref.attempt p.shape i := by
    simp only [Parser.shape, C04_attempt hS hm hc i (hR i j hr).1, Ref.attempt]
    cases p.answer i <;> rfl
  have e' : (attempt p').shape j = Ref.attempt p'.shape j := by
    simp only [Parser.shape, C04_attempt hS' hm' hc' j (hR i j hr).2, Ref.attempt]
    cases p'.answer j <;> rfl
  rw [e, e', Ref.attempt, Ref.attempt]
  have h := hp i j hr
  cases h1 : p.shape i <;> cases h2 : p'.shape j <;> rw [h1, h2] at h <;> first | exact h.elim | exact h

/-- **C54.**  `look_ahead`. -/
theorem C54_look_ahead (hS : S.Lawful) (hS' : S'.Lawful) {p : Parser S σ α} {p' : Parser S' σ' α'} (hp : Alike R V p p')
    (hm : Moves p) (hm' : Moves p') (hc : Coherent p) (hc' : Coherent p') : Alike R V (lookAhead p) (lookAhead p') := by
  intro i j hr
  have e : (lookAhead p).shape i = Ref.lookAhead p.shape i := by
    simp only [Parser.shape, C05_lookAhead hS hm hc i, Ref.lookAhead]
    cases p.answer i <;> rfl
  have e' : (lookAhead p').shape j = Ref.lookAhead p'.shape j := by
    simp only [Parser.shape, C05_lookAhead hS' hm' hc' j, Ref.lookAhead]
    cases p'.answer j <;> rfl
  rw [e, e', Ref.lookAhead, Ref.lookAhead]
  have h := hp i j hr
  cases h1 : p.shape i <;> cases h2 : p'.shape j <;> rw [h1, h2] at h <;> try exact h.elim
  · exact ⟨rfl, h.2.1, hr⟩
  · exact h
  · exact h
  · exact h

/-- **C54.**  `not_followed_by`. -/
theorem C54_not_followed_by (hS : S.Lawful) (hS' : S'.Lawful) {p : Parser S σ α} {p' : Parser S' σ' α'} (hp : Alike R V p p')
    (hm : Moves p) (hm' : Moves p') : Alike R (fun _ _ => True) (notFollowedBy p) (notFollowedBy p') := by
  intro i j hr
  have e : (notFollowedBy p).shape i = Ref.notFollowedBy p.shape i := by
    simp only [Parser.shape, C05_notFollowedBy hS hm i, Ref.notFollowedBy]
    cases p.answer i <;> rfl
  have e' : (notFollowedBy p').shape j = Ref.notFollowedBy p'.shape j := by
    simp only [Parser.shape, C05_notFollowedBy hS' hm' j, Ref.notFollowedBy]
    cases p'.answer j <;> rfl
  rw [e, e', Ref.notFollowedBy, Ref.notFollowedBy]
  have h := hp i j hr
  cases h1 : p.shape i <;> cases h2 : p'.shape j <;> rw [h1, h2] at h <;> try exact h.elim
  · trivial
  · exact ⟨rfl, trivial, hr⟩
  · exact ⟨rfl, trivial, hr⟩
  · exact h

/-- **C54.**  `many`. -/
theorem C54_many (hS : S.Lawful) (hS' : S'.Lawful) {p : Parser S σ α} {p' : Parser S' σ' α'} (hp : Alike R V p p')
    (hm : Moves p) (hm' : Moves p') (hr : Reusable p) (hr' : Reusable p') (hc : Consuming p) (hc' : Consuming p') :
    Alike R (Each V) (many p) (many p') := fun i j h =>
  alike_isMany hp h (isMany_shape (C07_many hS hm hr hc i)) (isMany_shape (C07_many hS' hm' hr' hc' j))

private theorem isMany1_shape' {m : Sem S.Input S.Err β} {i : S.Input} {a : Answer S.Input S.Err (List β)}
    (h : Ref.IsMany1 m i a) : Ref.IsMany1 (fun i => (m i).shape) i a.shape := by
  revert h
  simp only [Ref.IsMany1]
  cases hx : m i with
  | ok c v j => exact fun h => isMany_shape h
  | soft => rintro rfl; rfl
  | hard e => rintro rfl; rfl
  | abort x => rintro rfl; rfl

private theorem isRepeatUntil_shape {m : Sem S.Input S.Err α} {e : Sem S.Input S.Err β} {i : S.Input}
    {a : Answer S.Input S.Err (List α)} (h : Ref.IsRepeatUntil m e i a) :
    Ref.IsRepeatUntil (fun i => (m i).shape) (fun i => (e i).shape) i a.shape := by
  obtain ⟨vs, c, k, h1, h2⟩ := h
  refine ⟨vs, c, k, ?_, ?_⟩
  · clear h2
    induction h1 with
    | nil i => exact .nil i
    | cons h3 h4 _ ih => exact .cons (by rw [h3]; rfl) (by rw [h4]; rfl) ih
  · revert h2
    cases he : e k with
    | soft =>
      cases hm : m k with
      | ok _ _ _ => exact fun h => h.elim
      | _ => rintro rfl; dsimp only; rw [he]; dsimp only [Answer.shape]; rw [hm]
    | _ => rintro rfl; dsimp only; rw [he]; rfl

/-- **C54.**  `many1`. -/
theorem C54_many1 (hS : S.Lawful) (hS' : S'.Lawful) {p : Parser S σ α} {p' : Parser S' σ' α'} (hp : Alike R V p p')
    (hm : Moves p) (hm' : Moves p') (hr : Reusable p) (hr' : Reusable p') (hc : Consuming p) (hc' : Consuming p') :
    Alike R (Each V) (many1 p) (many1 p') := fun i j h =>
  alike_isMany1 hp h (isMany1_shape' (C08_many1 hS hm hr hc i)) (isMany1_shape' (C08_many1 hS' hm' hr' hc' j))

/-- **C54.**  `count`, `count_min_max`. -/
theorem C54_count_min_max (hS : S.Lawful) (hS' : S'.Lawful) {p : Parser S σ α} {p' : Parser S' σ' α'} (hp : Alike R V p p')
    (hm : Moves p) (hm' : Moves p') (hr : Reusable p) (hr' : Reusable p') (lo hi : Nat) (hlh : lo ≤ hi) :
    Alike R (Each V) (countMinMax lo hi p) (countMinMax lo hi p') := fun i j h =>
  alike_isCount hp h (C09_count_min_max hS hm hr lo hi hlh i) (C09_count_min_max hS' hm' hr' lo hi hlh j)

/-- **C54.**  `repeat_until`. -/
theorem C54_repeat_until (hS : S.Lawful) (hS' : S'.Lawful) {p : Parser S σ α} {p' : Parser S' σ' α'} {e : Parser S τ β}
    {e' : Parser S' τ' β'} (hp : Alike R V p p') (he : Alike R W e e') (hm : Moves p) (hm' : Moves p') (hme : Moves e)
    (hme' : Moves e') (hr : Reusable p) (hr' : Reusable p') (hre : Reusable e) (hre' : Reusable e') (hc : Consuming p)
    (hc' : Consuming p') : Alike R (Each V) (repeatUntil p e) (repeatUntil p' e') := fun i j h =>
  alike_isRepeatUntil hp he h (isRepeatUntil_shape (C33_repeat_until hS hm hme hr hre hc i))
    (isRepeatUntil_shape (C33_repeat_until hS' hm' hme' hr' hre' hc' j))

section Separated

variable {Cp : σ → Prop} {Cp' : σ' → Prop} {Cs : τ → Prop} {Cs' : τ' → Prop}

/-- **C54.**  `sep_by1`. -/
theorem C54_sep_by1 (hS : S.Lawful) (hS' : S'.Lawful) {p : Parser S σ α} {p' : Parser S' σ' α'} {s : Parser S τ β}
    {s' : Parser S' τ' β'} (hp : Alike R V p p') (hs : Alike R W s s') (hm : Moves p) (hm' : Moves p') (hms : Moves s)
    (hms' : Moves s') (hk : Keeps false Cp p) (hk' : Keeps false Cp' p') (hks : Keeps false Cs s) (hks' : Keeps false Cs' s')
    (hc : Consuming p) (hc' : Consuming p') : Alike R (Each V) (sepBy1 p s) (sepBy1 p' s') := fun i j h =>
  alike_isSepBy1 hp hs h (C10_sep_by1 hS hm hms hk hks hc i) (C10_sep_by1 hS' hm' hms' hk' hks' hc' j)

/-- **C54.**  `sep_by`. -/
theorem C54_sep_by (hS : S.Lawful) (hS' : S'.Lawful) {p : Parser S σ α} {p' : Parser S' σ' α'} {s : Parser S τ β}
    {s' : Parser S' τ' β'} (hp : Alike R V p p') (hs : Alike R W s s') (hm : Moves p) (hm' : Moves p') (hms : Moves s)
    (hms' : Moves s') (hk : Keeps false Cp p) (hk' : Keeps false Cp' p') (hks : Keeps false Cs s) (hks' : Keeps false Cs' s')
    (hc : Consuming p) (hc' : Consuming p') : Alike R (Each V) (sepBy p s) (sepBy p' s') := fun i j h =>
  alike_orEmpty h (fun _ _ ha hb => alike_isSepBy1 hp hs h ha hb) (C10_sep_by hS hm hms hk hks hc i)
    (C10_sep_by hS' hm' hms' hk' hks' hc' j)

/-- **C54.**  `sep_end_by1`. -/
theorem C54_sep_end_by1 (hS : S.Lawful) (hS' : S'.Lawful) {p : Parser S σ α} {p' : Parser S' σ' α'} {s : Parser S τ β}
    {s' : Parser S' τ' β'} (hp : Alike R V p p') (hs : Alike R W s s') (hm : Moves p) (hm' : Moves p') (hms : Moves s)
    (hms' : Moves s') (hk : Keeps false Cp p) (hk' : Keeps false Cp' p') (hks : Keeps false Cs s) (hks' : Keeps false Cs' s')
    (hc : Consuming p) (hc' : Consuming p') : Alike R (Each V) (sepEndBy1 p s) (sepEndBy1 p' s') := fun i j h =>
  alike_isSepEndBy1 hp hs h (C10_sep_end_by1 hS hm hms hk hks hc i) (C10_sep_end_by1 hS' hm' hms' hk' hks' hc' j)

/-- **C54.**  `sep_end_by`. -/
theorem C54_sep_end_by (hS : S.Lawful) (hS' : S'.Lawful) {p : Parser S σ α} {p' : Parser S' σ' α'} {s : Parser S τ β}
    {s' : Parser S' τ' β'} (hp : Alike R V p p') (hs : Alike R W s s') (hm : Moves p) (hm' : Moves p') (hms : Moves s)
    (hms' : Moves s') (hk : Keeps false Cp p) (hk' : Keeps false Cp' p') (hks : Keeps false Cs s) (hks' : Keeps false Cs' s')
    (hc : Consuming p) (hc' : Consuming p') : Alike R (Each V) (sepEndBy p s) (sepEndBy p' s') := fun i j h =>
  alike_orEmpty h (fun _ _ ha hb => alike_isSepEndBy1 hp hs h ha hb) (C10_sep_end_by hS hm hms hk hks hc i)
    (C10_sep_end_by hS' hm' hms' hk' hks' hc' j)

/-- **C54.**  `chainl1`. -/
theorem C54_chainl1 (hS : S.Lawful) (hS' : S'.Lawful) {p : Parser S σ α} {p' : Parser S' σ' α'} {s : Parser S τ (α → α → α)}
    {s' : Parser S' τ' (α' → α' → α')} (hp : Alike R V p p')
    (hs : Alike R (fun f g => ∀ x x', V x x' → ∀ y y', V y y' → V (f x y) (g x' y')) s s') (hm : Moves p) (hm' : Moves p')
    (hms : Moves s) (hms' : Moves s') (hk : Keeps false Cp p) (hk' : Keeps false Cp' p') (hks : Keeps false Cs s)
    (hks' : Keeps false Cs' s') (hc : Consuming p) (hc' : Consuming p') (hn : StartsAnew p) (hn' : StartsAnew p') :
    Alike R V (chainl1 p s) (chainl1 p' s') := fun i j h =>
  alike_isChainl1 hp hs h (C11_chainl1 hS hm hms hk hks hc hn i) (C11_chainl1 hS' hm' hms' hk' hks' hc' hn' j)

end Separated

/-- **C54.**  `expected`, `message`, `silent` and the wrappers. -/
theorem C54_labels {p : Parser S σ α} {p' : Parser S' σ' α'} (hp : Alike R V p p') (x : Info S.Tok S.Rng)
    (x' : Info S'.Tok S'.Rng) :
    Alike R V (expected p x) (expected p' x') ∧ Alike R V (message p x) (message p' x') ∧ Alike R V (silent p) (silent p') ∧
    Alike R V (boxed p) (boxed p') ∧ Alike R V (opaqueP p) (opaqueP p') ∧ Alike R V (parserMacro p) (parserMacro p') ∧
    Alike R V (parserMacroUnit p) (parserMacroUnit p') := by
  have e : ∀ {S : Strm} {σ α : Type} (p : Parser S σ α) (x : Info S.Tok S.Rng) i, (message p x).shape i = p.shape i := by
    intro S σ α p x i
    simp only [Parser.shape, Parser.answer, message, Parser.ofMode]
    generalize p.run true i p.init = o
    obtain ⟨r, j, s⟩ := o
    cases r <;> rfl
  have e' : ∀ {S : Strm} {σ α : Type} (p : Parser S σ α) i, (silent p).shape i = p.shape i := by
    intro S σ α p i
    simp only [Parser.shape, Parser.answer, silent, Parser.ofMode]
    generalize p.run true i p.init = o
    obtain ⟨r, j, s⟩ := o
    cases r <;> rfl
  exact ⟨hp, congr_shape (e p x) (e p' x') hp, congr_shape (e' p) (e' p') hp, hp, hp, hp, hp⟩

/-- **C54.**  Recursive grammars, unfolded to any depth. -/
theorem C54_recur {H : Parser S σ α → Prop} {H' : Parser S' σ' α' → Prop} {F : Parser S σ α → Parser S σ α}
    {F' : Parser S' σ' α' → Parser S' σ' α'} {n : σ} {n' : σ'} (h0 : H (recur F n 0)) (h0' : H' (recur F' n' 0))
    (hs : ∀ q, H q → H (F q)) (hs' : ∀ q, H' q → H' (F' q))
    (hF : ∀ q q', H q → H' q' → Alike R V q q' → Alike R V (F q) (F' q')) (k : Nat) :
    Alike R V (recur F n k) (recur F' n' k) := by
  have hH : ∀ k, H (recur F n k) ∧ H' (recur F' n' k) := by
    intro k
    induction k with
    | zero => exact ⟨h0, h0'⟩
    | succ k ih => exact ⟨hs _ ih.1, hs' _ ih.2⟩
  induction k with
  | zero => exact fun _ _ _ => rfl
  | succ k ih => exact hF _ _ (hH k).1 (hH k).2 ih

/-- **C54.**  What `parse` returns. -/
theorem C54_parse {p : Parser S σ α} {p' : Parser S' σ' α'} (hp : Alike R V p p') (hc : Coherent p) (hc' : Coherent p')
    (i : S.Input) (i' : S'.Input) (hr : R i i') :
    (∀ v j, p.parse i = .ok v j → ∃ v' j', p'.parse i' = .ok v' j' ∧ V v v' ∧ R j j') ∧
    (∀ v' j', p'.parse i' = .ok v' j' → ∃ v j, p.parse i = .ok v j ∧ V v v' ∧ R j j') ∧
    ((∃ e, p.parse i = .err e) ↔ ∃ e, p'.parse i' = .err e) := by
  obtain ⟨h1, h2⟩ := C41_parse p hc i
  obtain ⟨h3, h4⟩ := C41_parse p' hc' i'
  have h := hp i i' hr
  simp only [Parser.shape] at h
  simp only [h1, h2, h3, h4]
  cases hx : p.answer i <;> cases hy : p'.answer i' <;> rw [hx, hy] at h <;> try exact h.elim
  · obtain ⟨rfl, h5, h6⟩ := h
    refine ⟨?_, ?_, ?_⟩
    · rintro _ _ ⟨_, he⟩; cases he; exact ⟨_, _, ⟨_, rfl⟩, h5, h6⟩
    · rintro _ _ ⟨_, he⟩; cases he; exact ⟨_, _, ⟨_, rfl⟩, h5, h6⟩
    · simp
  all_goals simp

/-! ## Parsers that read tokens -/

section Tokens

variable {rd : S.Tok → T} {rd' : S'.Tok → U} {enc : T → List U} {b : Bool}

private theorem reads_split {us ts : List S.Tok} {i k : S.Input} (h : S.Reads i (us ++ ts) k) :
    ∃ j, S.Reads i us j ∧ S.Reads j ts k := by
  induction us generalizing i with
  | nil => exact ⟨i, .nil i, h⟩
  | cons u us ih =>
    obtain ⟨j, h1, h2⟩ := Strm.reads_cons.1 h
    obtain ⟨l, h3, h4⟩ := ih h2
    exact ⟨l, .cons h1 h3, h4⟩

private theorem end_reads {i j : S.Input} {ts : List S.Tok} (he : S.AtEnd i) (h : S.Reads i ts j) : ts = [] ∧ j = i := by
  cases h with
  | nil => exact ⟨rfl, rfl⟩
  | cons hu _ =>
    obtain ⟨e, he⟩ := he
    rw [hu] at he
    cases he

private theorem end_uncons {i j : S.Input} {t : S.Tok} (he : S.AtEnd i) (h : S.uncons i = (.ok t, j)) : False := by
  obtain ⟨e, he⟩ := he
  rw [h] at he
  cases he

/-- Nothing is left in both, or a token in the one and what stands for it in the other. -/
private theorem written_cases (hS : S.Lawful) (hS' : S'.Lawful) {i : S.Input} {i' : S'.Input}
    (h : Written rd rd' enc b i i') :
    (S.AtEnd i ∧ S'.AtEnd i') ∨ ∃ t j us j', S.uncons i = (.ok t, j) ∧ S'.Reads i' us j' ∧ us.map rd' = enc (rd t) ∧
      Written rd rd' enc b j j' := by
  obtain ⟨hp, hp', _, ⟨us, k, h1, h2, rfl⟩, ⟨us', k', h1', h2', h3⟩⟩ := h
  cases h1 with
  | nil =>
    simp only [List.map_nil, List.flatMap_nil, List.map_eq_nil_iff] at h3
    subst h3
    cases h1'
    exact .inl ⟨h2, h2'⟩
  | @cons _ j _ t ts hu hr =>
    simp only [List.map_cons, List.flatMap_cons, List.map_eq_append_iff] at h3
    obtain ⟨l1, l2, rfl, h4, h5⟩ := h3
    obtain ⟨j', h6, h7⟩ := reads_split h1'
    refine .inr ⟨t, j, l1, j', hu, h6, h4, ?_, ?_, _, ⟨_, k, hr, h2, rfl⟩, ⟨l2, k', h7, h2', h5⟩⟩
    · rw [hS.isPartial hu, hp]
    · rw [hS'.reads_isPartial h6, hp']

/-- **C54.**  Parsers of one token. -/
theorem C54_one (hS : S.Lawful) (hS' : S'.Lawful) {f : T → Option α} {g : U → Option α'} (hfg : Tallies enc V f g)
    {p : Parser S σ α} {q : Parser S' τ α'} (hp : ∀ i, S.IsOne (fun t => f (rd t)) i (p.shape i))
    (hq : ∀ i, S'.IsOne (fun t => g (rd' t)) i (q.shape i)) : Alike (Written rd rd' enc b) V p q := by
  intro i i' h
  have hb := h.1
  have hb' := h.2.1
  rcases written_cases hS hS' h with ⟨he, he'⟩ | ⟨t, j, us, j', hu, hr, hm, hw⟩
  · rcases hp i with ⟨t, j, h1, _⟩ | ⟨_, h1⟩
    · exact (end_uncons he h1).elim
    · rcases hq i' with ⟨t, j, h2, _⟩ | ⟨_, h2⟩
      · exact (end_uncons he' h2).elim
      · rw [h1, h2, hb, hb']
        cases b <;> trivial
  · obtain ⟨u, vs, h1, h2, h3⟩ := hfg (rd t)
    rw [h1] at hm
    cases hr with
    | nil => cases hm
    | @cons _ l _ x xs hx hr =>
      simp only [List.map_cons, List.cons.injEq] at hm
      obtain ⟨hm1, hm2⟩ := hm
      rcases hp i with ⟨t', k, h4, h5⟩ | ⟨he, _⟩
      · rw [hu] at h4
        cases h4
        rcases hq i' with ⟨x', k', h6, h7⟩ | ⟨he, _⟩
        · rw [hx] at h6
          cases h6
          rw [h5, h7]
          dsimp only
          rw [hm1]
          revert h2 h3
          cases hf : f (rd t) with
          | none => cases hg : g u with
            | none => intros; trivial
            | some w => exact fun h => h.elim
          | some v => cases hg : g u with
            | none => exact fun h => h.elim
            | some w =>
              intro h2 h3
              have h3 := h3 rfl
              subst h3
              simp only [List.map_eq_nil_iff] at hm2
              subst hm2
              cases hr
              exact ⟨rfl, h2, hw⟩
        · exact (end_uncons he hx).elim
      · exact (end_uncons he hu).elim

/-- **C54.**  `eof`. -/
theorem C54_eof (hS : S.Lawful) (hS' : S'.Lawful) (hE : S.EndsOnly) (hE' : S'.EndsOnly) (hne : ∀ t, enc t ≠ []) :
    Alike (Written rd rd' enc b) (fun _ _ => True) (eof S) (eof S') := by
  intro i i' h
  obtain ⟨h1, h2, h3⟩ := C44_eof hS hE true i ()
  obtain ⟨h1', h2', h3'⟩ := C44_eof hS' hE' true i' ()
  simp only [Parser.shape, Parser.answer, Out.answer]
  rw [show (eof S).init = () from rfl, h1, h1']
  rcases written_cases hS hS' h with ⟨he, he'⟩ | ⟨t, j, us, j', hu, hr, hm, hw⟩
  · rw [h2 he, h2' he']
    exact ⟨rfl, trivial, h⟩
  · obtain ⟨e, h4⟩ := h3 fun he => end_uncons he hu
    cases us with
    | nil => exact absurd hm.symm (hne _)
    | cons u us =>
      cases hr with
      | cons hx _ =>
        obtain ⟨e', h5⟩ := h3' fun he => end_uncons he hx
        rw [h4, h5]
        trivial

private theorem isTokens_cons {κ : Type} {S : Strm} {cmp : κ → S.Tok → Bool} {c : κ} {cs : List κ} {v : α} {i : S.Input}
    {a : Answer S.Input Unit α} (hS : S.Lawful) (h : S.IsTokens cmp (c :: cs) v i a) :
    (S.AtEnd i ∧ a = if S.isPartial i then .hard () else .soft) ∨
    (∃ t j, S.uncons i = (.ok t, j) ∧ cmp c t = false ∧ a = .soft) ∨
    (∃ t j a', S.uncons i = (.ok t, j) ∧ cmp c t = true ∧ S.IsTokens cmp cs v j a' ∧ a = a'.after true) := by
  rcases h with ⟨k, ⟨ts, h1, h2⟩, rfl⟩ | ⟨pre, d, post, k, h1, ⟨ts, h2, h3⟩, h4⟩
  · cases ts with
    | nil => exact h2.elim
    | cons t ts =>
      obtain ⟨j, h3, h4⟩ := Strm.reads_cons.1 h1
      exact .inr (.inr ⟨t, j, _, h3, h2.1, .inl ⟨k, ⟨ts, h4, h2.2⟩, rfl⟩, rfl⟩)
  · cases pre with
    | nil =>
      cases h1
      cases ts with
      | cons t ts => exact h3.elim
      | nil =>
        cases h2
        rcases h4 with ⟨t, k, h4, h5, rfl⟩ | ⟨h4, rfl⟩
        · exact .inr (.inl ⟨t, k, h4, h5, rfl⟩)
        · refine .inl ⟨h4, ?_⟩
          cases S.isPartial i <;> rfl
    | cons x pre =>
      simp only [List.cons_append, List.cons.injEq] at h1
      obtain ⟨rfl, rfl⟩ := h1
      cases ts with
      | nil => exact h3.elim
      | cons t ts =>
        obtain ⟨j, h5, h6⟩ := Strm.reads_cons.1 h2
        have hp := hS.isPartial h5
        rcases h4 with ⟨t', l, h4, h7, rfl⟩ | ⟨h4, rfl⟩
        · refine .inr (.inr ⟨t, j, if pre = [] then .soft else .hard (), h5, h3.1,
            .inr ⟨pre, d, post, k, rfl, ⟨ts, h6, h3.2⟩, .inl ⟨t', l, h4, h7, rfl⟩⟩, ?_⟩)
          cases pre <;> rfl
        · refine .inr (.inr ⟨t, j, if pre = [] ∧ S.isPartial j = false then .soft else .hard (), h5, h3.1,
            .inr ⟨pre, d, post, k, rfl, ⟨ts, h6, h3.2⟩, .inr ⟨h4, rfl⟩⟩, ?_⟩)
          cases pre <;> cases S.isPartial j <;> rfl

private theorem isTokens_nil {κ : Type} {S : Strm} {cmp : κ → S.Tok → Bool} {v : α} {i : S.Input}
    {a : Answer S.Input Unit α} (h : S.IsTokens cmp [] v i a) : a = .ok false v i := by
  rcases h with ⟨k, ⟨ts, h1, h2⟩, rfl⟩ | ⟨pre, d, post, k, h1, _⟩
  · cases ts with
    | nil => cases h1; rfl
    | cons => exact h2.elim
  · cases pre <;> cases h1

/-- **C54.**  `string`, `bytes`, `tokens`: if each token of the one sequence is recognised as the corresponding token of
the other is. -/
theorem C54_tokens (hS : S.Lawful) (hS' : S'.Lawful) {κ κ' : Type} {cmp : κ → T → Bool} {cmp' : κ' → U → Bool}
    {cs : List κ} {cs' : List κ'}
    (hcs : Each (fun c c' => Tallies enc (fun _ _ => True) (fun t => if cmp c t then some t else none)
      (fun u => if cmp' c' u then some u else none)) cs cs')
    {v : α} {v' : α'} (hv : V v v') {p : Parser S σ α} {q : Parser S' τ α'}
    (hp : ∀ i, S.IsTokens (fun c t => cmp c (rd t)) cs v i (p.shape i))
    (hq : ∀ i, S'.IsTokens (fun c t => cmp' c (rd' t)) cs' v' i (q.shape i)) : Alike (Written rd rd' enc b) V p q := by
  intro i i' h
  replace hp := hp i
  replace hq := hq i'
  revert hp hq
  generalize p.shape i = a
  generalize q.shape i' = a'
  clear p q
  intro hp hq
  induction hcs generalizing i i' a a' with
  | nil =>
    rw [isTokens_nil hp, isTokens_nil hq]
    exact ⟨rfl, hv, h⟩
  | @cons c c' cs cs' hc _ ih =>
    have hb := h.1
    have hb' := h.2.1
    rcases written_cases hS hS' h with ⟨he, he'⟩ | ⟨t, j, us, j', hu, hr, hm, hw⟩
    · rcases isTokens_cons hS hp with ⟨_, h1⟩ | ⟨_, _, h1, _⟩ | ⟨_, _, _, h1, _⟩
      · rcases isTokens_cons hS' hq with ⟨_, h2⟩ | ⟨_, _, h2, _⟩ | ⟨_, _, _, h2, _⟩
        · rw [h1, h2, hb, hb']
          cases b <;> trivial
        · exact (end_uncons he' h2).elim
        · exact (end_uncons he' h2).elim
      · exact (end_uncons he h1).elim
      · exact (end_uncons he h1).elim
    · obtain ⟨u, vs, h1, h2, h3⟩ := hc (rd t)
      rw [h1] at hm
      cases hr with
      | nil => cases hm
      | @cons _ l _ x xs hx hr =>
        simp only [List.map_cons, List.cons.injEq] at hm
        obtain ⟨hm1, hm2⟩ := hm
        have hcc : cmp c (rd t) = cmp' c' (rd' x) := by
          rw [hm1]
          dsimp only at h2
          revert h2
          cases cmp c (rd t) <;> cases cmp' c' u <;> intro h2 <;> first | rfl | exact False.elim h2
        rcases isTokens_cons hS hp with ⟨h4, _⟩ | ⟨t', k, h4, h5, h6⟩ | ⟨t', k, a1, h4, h5, h6, h7⟩
        · exact (end_uncons h4 hu).elim
        · rw [hu] at h4
          cases h4
          rw [hcc] at h5
          rcases isTokens_cons hS' hq with ⟨h8, _⟩ | ⟨x', k', h8, h9, h10⟩ | ⟨x', k', _, h8, h9, _⟩
          · exact (end_uncons h8 hx).elim
          · rw [h6, h10]; trivial
          · rw [hx] at h8
            cases h8
            rw [h9] at h5
            cases h5
        · rw [hu] at h4
          cases h4
          dsimp only at h3
          rw [if_pos h5] at h3
          have h3 := h3 rfl
          subst h3
          simp only [List.map_eq_nil_iff] at hm2
          subst hm2
          cases hr
          rw [hcc] at h5
          rcases isTokens_cons hS' hq with ⟨h8, _⟩ | ⟨x', k', h8, h9, h10⟩ | ⟨x', k', a2, h8, h9, h10, h11⟩
          · exact (end_uncons h8 hx).elim
          · rw [hx] at h8
            cases h8
            rw [h9] at h5
            cases h5
          · rw [hx] at h8
            cases h8
            rw [h7, h11]
            exact alike_after (ih _ _ hw _ _ h6 h10)

/-! ### Runs of tokens -/

private theorem longest_tail {f : S.Tok → Bool} {i j k : S.Input} {us ts : List S.Tok} (h : S.Reads i us j)
    (hus : ∀ u ∈ us, f u = true) (hl : S.LongestPrefix f i ts k) : ∃ vs, ts = us ++ vs ∧ S.LongestPrefix f j vs k := by
  induction h generalizing ts with
  | nil i => exact ⟨ts, rfl, hl⟩
  | @cons i j l t us hu _ ih =>
    obtain ⟨h1, h2, h3⟩ := hl
    cases h1 with
    | nil =>
      rcases h3 with he | ⟨t', k', h4, h5⟩
      · exact (end_uncons he hu).elim
      · rw [hu] at h4
        cases h4
        rw [hus t (by simp)] at h5
        cases h5
    | cons hu' hr =>
      rw [hu] at hu'
      cases hu'
      obtain ⟨vs, rfl, h6⟩ := ih (fun u h => hus u (by simp [h])) ⟨hr, fun t h => h2 t (by simp [h]), h3⟩
      exact ⟨vs, rfl, h6⟩

private theorem longest_alike (hS : S.Lawful) (hS' : S'.Lawful) {f : T → Bool} {g : U → Bool} (hfg : Covers enc f g)
    {i j : S.Input} {i' j' : S'.Input} {ts : List S.Tok} {ts' : List S'.Tok} (h : Written rd rd' enc b i i')
    (hl : S.LongestPrefix (fun t => f (rd t)) i ts j) (hl' : S'.LongestPrefix (fun t => g (rd' t)) i' ts' j') :
    Written rd rd' enc b j j' ∧ ts'.map rd' = (ts.map rd).flatMap enc ∧ (S.AtEnd j ↔ S'.AtEnd j') := by
  obtain ⟨h1, h2, h3⟩ := hl
  induction h1 generalizing i' ts' with
  | nil i =>
    have : ts' = [] ∧ (S.AtEnd i ↔ S'.AtEnd i') := by
      rcases written_cases hS hS' h with ⟨he, he'⟩ | ⟨t, j, us, k', hu, hr, hm, hw⟩
      · exact ⟨(end_reads he' hl'.1).1, fun _ => he', fun _ => he⟩
      · obtain ⟨u, vs, h4, h5⟩ := hfg (rd t)
        rw [h4] at hm
        rcases h3 with he | ⟨t', k, h6, h7⟩
        · exact (end_uncons he hu).elim
        · rw [hu] at h6
          cases h6
          dsimp only at h7
          rw [h7] at h5
          cases hr with
          | nil => cases hm
          | @cons _ l _ x xs hx hr =>
            simp only [List.map_cons, List.cons.injEq] at hm
            refine ⟨?_, fun he => (end_uncons he hu).elim, fun he => (end_uncons he hx).elim⟩
            cases ts' with
            | nil => rfl
            | cons y ys =>
              obtain ⟨m, h8, _⟩ := Strm.reads_cons.1 hl'.1
              rw [hx] at h8
              cases h8
              have h9 := hl'.2.1 x (by simp)
              dsimp only at h9
              rw [hm.1] at h9
              simp [h9] at h5
    obtain ⟨rfl, he⟩ := this
    cases hl'.1
    exact ⟨h, rfl, he⟩
  | @cons i l j t ts hu hr ih =>
    rcases written_cases hS hS' h with ⟨he, _⟩ | ⟨t', k, us, k', hu', hr', hm, hw⟩
    · exact (end_uncons he hu).elim
    · rw [hu] at hu'
      cases hu'
      obtain ⟨u, vs, h4, h5⟩ := hfg (rd t)
      rw [if_pos (h2 t (by simp))] at h5
      have h6 : ∀ x ∈ us, g (rd' x) = true := by
        intro x hx
        apply h5
        rw [← h4, ← hm]
        exact List.mem_map_of_mem hx
      obtain ⟨ws, rfl, h7⟩ := longest_tail hr' h6 hl'
      obtain ⟨h8, h9, h10⟩ := ih hw h7 (fun t h => h2 t (by simp [h])) h3
      exact ⟨h8, by simp [hm, h9], h10⟩

private theorem covers_empty {f : T → Bool} {g : U → Bool} (hfg : Covers enc f g) (ts : List T) :
    (ts.flatMap enc).isEmpty = ts.isEmpty := by
  cases ts with
  | nil => rfl
  | cons t ts =>
    obtain ⟨u, us, h, _⟩ := hfg t
    simp [h]

variable {Q : RangeOps S} {Q' : RangeOps S'} {toks : S.Rng → List S.Tok} {toks' : S'.Rng → List S'.Tok}
  {w : S.Tok → Nat} {w' : S'.Tok → Nat}

/-- **C54.**  `take_while`. -/
theorem C54_take_while (hS : S.Lawful) (hS' : S'.Lawful) (hQ : Q.Lawful toks w) (hQ' : Q'.Lawful toks' w') (he : S.EndsOnly)
    (he' : S'.EndsOnly) {f : T → Bool} {g : U → Bool} (hfg : Covers enc f g) :
    Alike (Written rd rd' enc b) (WrittenRange toks toks' rd rd' enc) (takeWhile Q fun t => f (rd t))
      (takeWhile Q' fun t => g (rd' t)) := by
  intro i i' h
  have hb := h.1
  have hb' := h.2.1
  obtain ⟨r, j, h1, h2⟩ := C16_take_while hS hQ he (fun t => f (rd t)) i
  obtain ⟨r', j', h1', h2'⟩ := C16_take_while hS' hQ' he' (fun t => g (rd' t)) i'
  obtain ⟨h3, h4, h5⟩ := longest_alike hS hS' hfg h h1 h1'
  have h6 : (toks' r').isEmpty = (toks r).isEmpty := by
    have := covers_empty hfg ((toks r).map rd)
    rw [← h4] at this
    simpa using this
  rw [hb] at h2
  rw [hb', ← h5, h6] at h2'
  rcases h2 with ⟨ha, hb, e⟩ | ⟨ha, e⟩ <;> rcases h2' with ⟨ha', hb', e'⟩ | ⟨ha', e'⟩ <;> rw [e, e']
  · trivial
  · exact absurd ⟨ha, hb⟩ ha'
  · exact absurd ⟨ha', hb'⟩ ha
  · exact ⟨rfl, h4, h3⟩

/-- **C54.**  `take_while1`. -/
theorem C54_take_while1 (hS : S.Lawful) (hS' : S'.Lawful) (hQ : Q.Lawful toks w) (hQ' : Q'.Lawful toks' w') (he : S.EndsOnly)
    (he' : S'.EndsOnly) {f : T → Bool} {g : U → Bool} (hfg : Covers enc f g) :
    Alike (Written rd rd' enc b) (WrittenRange toks toks' rd rd' enc) (takeWhile1 Q fun t => f (rd t))
      (takeWhile1 Q' fun t => g (rd' t)) := by
  intro i i' h
  have hb := h.1
  have hb' := h.2.1
  obtain ⟨ts, j, h1, h2⟩ := C16_take_while1 hS hQ he (fun t => f (rd t)) i
  obtain ⟨ts', j', h1', h2'⟩ := C16_take_while1 hS' hQ' he' (fun t => g (rd' t)) i'
  obtain ⟨h3, h4, h5⟩ := longest_alike hS hS' hfg h h1 h1'
  have h6 : ts' = [] ↔ ts = [] := by
    have := covers_empty hfg (ts.map rd)
    rw [← h4] at this
    have : ts'.isEmpty = ts.isEmpty := by simpa using this
    rw [← List.isEmpty_iff, ← List.isEmpty_iff, this]
  rw [hb] at h2
  rw [hb', ← h5] at h2'
  rcases h2 with ⟨ha, hb, e⟩ | ⟨ha, h7⟩ <;> rcases h2' with ⟨ha', hb', e'⟩ | ⟨ha', h7'⟩
  · rw [e, e']; trivial
  · exact absurd ⟨ha, hb⟩ ha'
  · exact absurd ⟨ha', hb'⟩ ha
  · rcases h7 with ⟨h7, e⟩ | ⟨h7, r, hr, e⟩ <;> rcases h7' with ⟨h7', e'⟩ | ⟨h7', r', hr', e'⟩
    · rw [e, e']; trivial
    · exact absurd h7 (fun h => h7' (h6.2 h))
    · exact absurd (h6.1 h7') h7
    · rw [e, e']
      exact ⟨rfl, by rw [WrittenRange, hr, hr', h4], h3⟩

/-- **C54.**  `spaces`, `skip_many(satisfy(..))`. -/
theorem C54_skip_run (hS : S.Lawful) (hS' : S'.Lawful) {f : T → Bool} {g : U → Bool} (hfg : Covers enc f g)
    {p : Parser S σ Unit} {q : Parser S' τ Unit} (hp : ∀ i, S.IsSkip (fun t => f (rd t)) i (p.shape i))
    (hq : ∀ i, S'.IsSkip (fun t => g (rd' t)) i (q.shape i)) :
    Alike (Written rd rd' enc b) (fun _ _ => True) p q := by
  intro i i' h
  have hb := h.1
  have hb' := h.2.1
  obtain ⟨ts, j, h1, h2, h3⟩ := hp i
  obtain ⟨ts', j', h1', h2', h3'⟩ := hq i'
  have hl : S.LongestPrefix (fun t => f (rd t)) i ts j :=
    ⟨h1, h2, h3.elim (fun ⟨t, k, h4, h5, _⟩ => .inr ⟨t, k, h4, h5⟩) (fun h4 => .inl h4.1)⟩
  have hl' : S'.LongestPrefix (fun t => g (rd' t)) i' ts' j' :=
    ⟨h1', h2', h3'.elim (fun ⟨t, k, h4, h5, _⟩ => .inr ⟨t, k, h4, h5⟩) (fun h4 => .inl h4.1)⟩
  obtain ⟨h4, h5, h6⟩ := longest_alike hS hS' hfg h hl hl'
  have h7 : ts'.isEmpty = ts.isEmpty := by
    have := covers_empty hfg (ts.map rd)
    rw [← h5] at this
    simpa using this
  rw [hb] at h3
  rw [hb', h7] at h3'
  rcases h3 with ⟨t, k, h8, _, e⟩ | ⟨h8, e⟩ <;> rcases h3' with ⟨t', k', h8', _, e'⟩ | ⟨h8', e'⟩
  · rw [e, e']; exact ⟨rfl, trivial, h4⟩
  · exact (end_uncons (h6.2 h8') h8).elim
  · exact (end_uncons (h6.1 h8) h8').elim
  · rw [e, e']
    cases b
    · exact ⟨rfl, trivial, h4⟩
    · trivial

/-- What was read from related inputs to related inputs is related. -/
private theorem read_alike {i j : S.Input} {i' j' : S'.Input} {ts : List S.Tok} {ts' : List S'.Tok}
    (h : Written rd rd' enc b i i') (h' : Written rd rd' enc b j j') (hr : S.Reads i ts j) (hr' : S'.Reads i' ts' j') :
    ts'.map rd' = (ts.map rd).flatMap enc := by
  have uniq : ∀ {S : Strm} {i k l : S.Input} {us vs : List S.Tok}, S.Reads i us k → S.AtEnd k → S.Reads i vs l →
      S.AtEnd l → us = vs := by
    intro S i k l us vs h1 h2 h3 h4
    induction h1 generalizing vs with
    | nil i => exact (end_reads h2 h3).1.symm
    | cons hu _ ih =>
      cases h3 with
      | nil => exact (end_uncons h4 hu).elim
      | cons hu' h3 =>
        rw [hu] at hu'
        cases hu'
        rw [ih h2 h3]
  obtain ⟨_, _, _, ⟨us, k, h1, h2, rfl⟩, ⟨us', k', h3, h4, h5⟩⟩ := h
  obtain ⟨_, _, _, ⟨vs, l, h6, h7, rfl⟩, ⟨vs', l', h8, h9, h10⟩⟩ := h'
  have e := uniq h1 h2 (hr.trans h6) h7
  have e' := uniq h3 h4 (hr'.trans h8) h9
  subst e e'
  simp only [List.map_append, List.flatMap_append] at h5
  rw [h10] at h5
  exact List.append_cancel_right h5

/-- **C54.**  `recognize_with_value`: the slices consumed hold the same. -/
theorem C54_recognize_with_value (hS : S.Lawful) (hS' : S'.Lawful) (hQ : Q.Lawful toks w) (hQ' : Q'.Lawful toks' w')
    (hne : ∀ t, enc t ≠ []) {p : Parser S σ α} {p' : Parser S' σ' α'} (hp : Alike (Written rd rd' enc b) V p p')
    (hm : Moves p) (hm' : Moves p') :
    Alike (Written rd rd' enc b) (fun x y => WrittenRange toks toks' rd rd' enc x.1 y.1 ∧ V x.2 y.2)
      (recognizeWithValue Q p) (recognizeWithValue Q' p') := by
  intro i i' h
  have h1 := C18_recognize_with_value hS hQ hm i
  have h2 := C18_recognize_with_value hS' hQ' hm' i'
  have h3 := hp i i' h
  simp only [Strm.IsRecognized, Parser.shape] at h1 h2 h3 ⊢
  cases hx : p.answer i <;> cases hy : p'.answer i' <;> rw [hx, hy] at h3 <;> rw [hx] at h1 <;> rw [hy] at h2 <;>
    try exact h3.elim
  · obtain ⟨r, h4, h5⟩ := h1
    obtain ⟨r', h4', h5'⟩ := h2
    obtain ⟨rfl, h6, h7⟩ := h3
    have h8 := read_alike h h7 h4 h4'
    rw [h5, h5']
    refine ⟨?_, ⟨h8, h6⟩, h7⟩
    have : (toks' r').isEmpty = (toks r).isEmpty := by
      cases hr : toks r with
      | nil => rw [hr] at h8; simp at h8; simp [h8]
      | cons t ts =>
        rw [hr] at h8
        cases hr' : toks' r' with
        | nil =>
          rw [hr'] at h8
          simp [hne] at h8
        | cons => rfl
    rw [this]
  · rw [h1, h2]; trivial
  · rw [h1, h2]; trivial
  · rw [h1, h2]; exact h3

/-- **C54.**  `recognize`. -/
theorem C54_recognize_range (hS : S.Lawful) (hS' : S'.Lawful) (hQ : Q.Lawful toks w) (hQ' : Q'.Lawful toks' w')
    (hne : ∀ t, enc t ≠ []) {p : Parser S σ α} {p' : Parser S' σ' α'} (hp : Alike (Written rd rd' enc b) V p p')
    (hm : Moves p) (hm' : Moves p') :
    Alike (Written rd rd' enc b) (WrittenRange toks toks' rd rd' enc) (recognizeRange Q p) (recognizeRange Q' p') := by
  have h := C54_recognize_with_value hS hS' hQ hQ' hne hp hm hm'
  exact C54_map h fun _ _ hv => hv.1

/-! ### Needles -/

private theorem prefix_of {i k j : S.Input} {us ts : List S.Tok} (h : S.Reads i us k) (he : S.AtEnd k)
    (h' : S.Reads i ts j) : ∃ rest, us = ts ++ rest ∧ S.Reads j rest k := by
  rcases reads_comparable h h' with ⟨cs, rfl, hc⟩ | ⟨cs, rfl, hc⟩
  · obtain ⟨rfl, rfl⟩ := end_reads he hc
    exact ⟨[], by simp, .nil _⟩
  · exact ⟨cs, rfl, hc⟩

private theorem written_empty (hne : ∀ t, enc t ≠ []) {ts : List S.Tok} {ts' : List S'.Tok}
    (h : ts'.map rd' = (ts.map rd).flatMap enc) : ts'.isEmpty = ts.isEmpty := by
  cases ts with
  | nil => simp at h; simp [h]
  | cons t ts =>
    cases ts' with
    | nil => simp [hne] at h
    | cons => rfl

private theorem map_inj {A B : Type} {f : A → B} (hf : ∀ x y, f x = f y → x = y) {xs ys : List A} (h : xs.map f = ys.map f) :
    xs = ys := by
  induction xs generalizing ys with
  | nil => cases ys with
    | nil => rfl
    | cons => cases h
  | cons x xs ih =>
    cases ys with
    | nil => cases h
    | cons y ys =>
      simp only [List.map_cons, List.cons.injEq] at h
      rw [hf _ _ h.1, ih h.2]

/-- What comes next on the one side comes next on the other. -/
private theorem occurs_there (hS : S.Lawful) (hS' : S'.Lawful) (hj' : ∀ x y, rd' x = rd' y → x = y)
    {i j : S.Input} {i' : S'.Input} {as n : List S.Tok} {n' : List S'.Tok} (h : Written rd rd' enc b i i')
    (hn : n'.map rd' = (n.map rd).flatMap enc) (h1 : S.Reads i as j) (h2 : S.Occurs n j) :
    ∃ as' j', S'.Reads i' as' j' ∧ S'.Occurs n' j' ∧ as'.map rd' = (as.map rd).flatMap enc ∧ Written rd rd' enc b j j' := by
  obtain ⟨hp, hp', _, ⟨us, k, h3, h4, rfl⟩, ⟨us', k', h5, h6, h7⟩⟩ := h
  obtain ⟨l, h2⟩ := h2
  obtain ⟨rest, rfl, h8⟩ := prefix_of h3 h4 h1
  obtain ⟨post, rfl, h9⟩ := prefix_of h8 h4 h2
  simp only [List.map_append, List.flatMap_append, List.map_eq_append_iff] at h7
  obtain ⟨as', x, rfl, h10, m', post', rfl, h11, h12⟩ := h7
  rw [← hn] at h11
  cases map_inj hj' h11
  obtain ⟨j', h13, h14⟩ := reads_split h5
  obtain ⟨l', h15, h16⟩ := reads_split h14
  refine ⟨as', j', h13, ⟨l', h15⟩, h10, ?_, ?_, _, ⟨_, k, h8, h4, rfl⟩, ⟨_, k', h14, h6, ?_⟩⟩
  · rw [hS.reads_isPartial h1, hp]
  · rw [hS'.reads_isPartial h13, hp']
  · simp [hn, h12]

/-- And the other way round. -/
private theorem occurs_here (hS : S.Lawful) (hS' : S'.Lawful) (hj : ∀ x y, rd x = rd y → x = y)
    {i : S.Input} {i' j' : S'.Input} {n : List S.Tok} {as' n' : List S'.Tok} (h : Written rd rd' enc b i i')
    (hn : n'.map rd' = (n.map rd).flatMap enc) (hs : Synchronous enc (n.map rd)) (h1 : S'.Reads i' as' j')
    (h2 : S'.Occurs n' j') :
    ∃ as j, S.Reads i as j ∧ S.Occurs n j ∧ as'.map rd' = (as.map rd).flatMap enc ∧ Written rd rd' enc b j j' := by
  obtain ⟨hp, hp', _, ⟨us, k, h3, h4, rfl⟩, ⟨us', k', h5, h6, h7⟩⟩ := h
  obtain ⟨l, h2⟩ := h2
  obtain ⟨rest, rfl, h8⟩ := prefix_of h5 h6 h1
  obtain ⟨post, rfl, h9⟩ := prefix_of h8 h6 h2
  have h7' := h7
  simp only [List.map_append, hn] at h7
  obtain ⟨xs, ys, h10, h11⟩ := hs _ _ _ h7.symm
  simp only [List.map_eq_append_iff] at h10
  obtain ⟨as, x, rfl, rfl, m, ts, rfl, h12, rfl⟩ := h10
  cases map_inj hj h12
  obtain ⟨j, h13, h14⟩ := reads_split h3
  obtain ⟨l', h15, h16⟩ := reads_split h14
  refine ⟨as, j, h13, ⟨l', h15⟩, h11, ?_, ?_, _, ⟨_, k, h14, h4, rfl⟩, ⟨_, k', h8, h6, ?_⟩⟩
  · rw [hS.reads_isPartial h13, hp]
  · rw [hS'.reads_isPartial h1, hp']
  · rw [List.map_append, h11] at h7'
    simp only [List.map_append, List.flatMap_append] at h7' ⊢
    exact List.append_cancel_left h7'

/-- **C54.**  `take_until_range`. -/
theorem C54_take_until_range [DecidableEq S.Rng] [DecidableEq S'.Rng] (hS : S.Lawful) (hS' : S'.Lawful)
    (hQ : Q.Lawful toks w) (hQ' : Q'.Lawful toks' w') (hne : ∀ t, enc t ≠ []) (hj : ∀ x y, rd x = rd y → x = y)
    (hj' : ∀ x y, rd' x = rd' y → x = y) {r : S.Rng} {r' : S'.Rng} (hr : WrittenRange toks toks' rd rd' enc r r')
    (hs : Synchronous enc ((toks r).map rd)) :
    Alike (Written rd rd' enc b) (WrittenRange toks toks' rd rd' enc) (takeUntilRange Q r) (takeUntilRange Q' r') := by
  intro i i' h
  have hb := h.1
  have hb' := h.2.1
  rcases C17_take_until_range hS hQ r i with ⟨q, k, h1, h2, h3, e⟩ | ⟨h1, e⟩ <;>
    rcases C17_take_until_range hS' hQ' r' i' with ⟨q', k', h1', h2', h3', e'⟩ | ⟨h1', e'⟩ <;> rw [e, e']
  · obtain ⟨as', j', h4, h5, h6, h7⟩ := occurs_there hS hS' hj' h hr h1 h2
    obtain ⟨as, j, h8, h9, h10, h11⟩ := occurs_here hS hS' hj h hr hs h1' h2'
    have h12 := h3 _ _ h8 h9
    have h13 := h3' _ _ h4 h5
    have h14 : as = toks q := by
      rcases reads_comparable h1 h8 with ⟨cs, rfl, _⟩ | ⟨cs, h14, _⟩
      · have e1 := congrArg List.length h10
        have e2 := congrArg List.length h6
        simp only [List.map_append, List.flatMap_append, List.length_append, List.length_map] at e1 e2
        cases cs with
        | nil => simp
        | cons c cs =>
          have : (enc (rd c)).length ≠ 0 := fun h => hne _ (List.length_eq_zero_iff.1 h)
          simp only [List.map_cons, List.flatMap_cons, List.length_append] at e1
          omega
      · rw [h14] at h12
        simp only [List.length_append] at h12
        have : cs = [] := List.length_eq_zero_iff.1 (by omega)
        rw [h14, this, List.append_nil]
    subst h14
    have h15 := (reads_length_unique h1 h8 rfl).2
    subst h15
    exact ⟨by rw [written_empty hne h10], h10, h11⟩
  · obtain ⟨as', j', h4, h5, _⟩ := occurs_there hS hS' hj' h hr h1 h2
    exact absurd h5 (h1' _ _ h4)
  · obtain ⟨as, j, h4, h5, _⟩ := occurs_here hS hS' hj h hr hs h1' h2'
    exact absurd h5 (h1 _ _ h4)
  · rw [hb, hb']
    cases b <;> trivial

/-- Prefix-free encodings can be read off from the left. -/
theorem prefixFree_start (h : PrefixFree enc) {ns ts : List T} {post : List U}
    (he : ts.flatMap enc = ns.flatMap enc ++ post) : ∃ bs, ts = ns ++ bs ∧ post = bs.flatMap enc := by
  induction ns generalizing ts with
  | nil => exact ⟨ts, rfl, by simpa using he.symm⟩
  | cons n ns ih =>
    cases ts with
    | nil =>
      simp only [List.flatMap_nil, List.flatMap_cons, List.append_assoc] at he
      have := List.append_eq_nil_iff.1 he.symm
      exact absurd this.1 (h.1 n)
    | cons t ts =>
      simp only [List.flatMap_cons, List.append_assoc] at he
      cases h.2 _ _ _ _ he
      obtain ⟨bs, rfl, rfl⟩ := ih (List.append_cancel_left he)
      exact ⟨bs, rfl, rfl⟩

/-- **C54.**  `range`, on complete inputs. -/
theorem C54_range [DecidableEq S.Rng] [DecidableEq S'.Rng] (hS : S.Lawful) (hS' : S'.Lawful)
    (hQ : Q.Lawful toks w) (hQ' : Q'.Lawful toks' w') (henc : PrefixFree enc) (hj : ∀ x y, rd x = rd y → x = y)
    (hj' : ∀ x y, rd' x = rd' y → x = y) {r : S.Rng} {r' : S'.Rng} (hr : WrittenRange toks toks' rd rd' enc r r') :
    Alike (Written rd rd' enc false) (WrittenRange toks toks' rd rd' enc) (range Q r) (range Q' r') := by
  intro i i' h
  have hb := h.1
  have hb' := h.2.1
  have key : ∀ {k'}, S'.Reads i' (toks' r') k' → ∃ k, S.Reads i (toks r) k ∧ Written rd rd' enc false k k' := by
    intro k' hk'
    obtain ⟨_, _, _, ⟨us, l, h3, h4, rfl⟩, ⟨us', l', h5, h6, h7⟩⟩ := h
    obtain ⟨rest, rfl, h8⟩ := prefix_of h5 h6 hk'
    rw [List.map_append, hr] at h7
    obtain ⟨bs, h9, h10⟩ := prefixFree_start henc h7.symm
    rw [List.map_eq_append_iff] at h9
    obtain ⟨ms, vs, rfl, h9, rfl⟩ := h9
    cases map_inj hj h9
    obtain ⟨k, h11, h12⟩ := reads_split h3
    exact ⟨k, h11, by rw [hS.reads_isPartial h11, hb], by rw [hS'.reads_isPartial hk', hb'], _, ⟨_, l, h12, h4, rfl⟩,
      ⟨_, l', h8, h6, h10⟩⟩
  rcases C40_range hQ r i with ⟨k, h1, e⟩ | ⟨h1, _, e⟩ | ⟨h1, _⟩
  · rcases C40_range hQ' r' i' with ⟨k', h1', e'⟩ | ⟨h1', _, e'⟩ | ⟨h1', _⟩
    · obtain ⟨k2, h3, h4⟩ := key h1'
      cases (reads_length_unique h1 h3 rfl).2
      rw [e, e']
      exact ⟨rfl, hr, h4⟩
    · obtain ⟨as', j', h4, h5, h6, _⟩ := occurs_there hS hS' hj' h hr (.nil i) ⟨k, h1⟩
      simp only [List.map_nil, List.flatMap_nil, List.map_eq_nil_iff] at h6
      subst h6
      cases h4
      exact absurd h5 h1'
    · rw [hb'] at h1'; cases h1'
  · rcases C40_range hQ' r' i' with ⟨k', h1', e'⟩ | ⟨h1', _, e'⟩ | ⟨h1', _⟩
    · obtain ⟨k, h3, _⟩ := key h1'
      exact absurd ⟨k, h3⟩ h1
    · rw [e, e']; trivial
    · rw [hb'] at h1'; cases h1'
  · rw [hb] at h1; cases h1

end Tokens

/-! ## The same tokens -/

/-- The same tokens on both sides. -/
abbrev Same (rd : S.Tok → T) (rd' : S'.Tok → T) (b : Bool) := Written (S := S) (S' := S') rd rd' (fun t => [t]) b

variable {rd : S.Tok → T} {rd' : S'.Tok → T} {b : Bool}

/-- **C54.**  `satisfy_map`, and so all parsers of one token. -/
theorem C54_satisfy_map (hS : S.Lawful) (hS' : S'.Lawful) (f : T → Option α) :
    Alike (Same rd rd' b) Eq (satisfyMap S fun t => f (rd t)) (satisfyMap S' fun t => f (rd' t)) :=
  C54_one hS hS' (f := f) (g := f) (fun t => ⟨t, [], rfl, by cases f t <;> trivial, fun _ => rfl⟩)
    (C53_satisfy_map hS _) (C53_satisfy_map hS' _)

/-- **C54.**  `satisfy`; the tokens returned are the same. -/
theorem C54_satisfy (hS : S.Lawful) (hS' : S'.Lawful) (f : T → Bool) :
    Alike (Same rd rd' b) (fun t t' => rd t = rd' t') (satisfy S fun t => f (rd t)) (satisfy S' fun t => f (rd' t)) := by
  have h := C54_satisfy_map (rd := rd) (rd' := rd') (b := b) hS hS' fun t => if f t then some t else none
  intro i i' hw
  have h1 := h i i' hw
  have e : ∀ {S : Strm} (rd : S.Tok → T) i, (satisfyMap S fun t => if f (rd t) then some (rd t) else none).shape i =
      ((satisfy S fun t => f (rd t)).shape i).map rd := by
    intro S rd i
    simp only [satisfyMap, satisfy, Parser.shape, Parser.answer, Parser.ofLazy, satisfyImpl, Strm.unconsP, Out.answer]
    cases S.uncons i with
    | mk x j =>
      cases x with
      | ok t => by_cases h : f (rd t) = true <;> simp [h, Answer.of, Answer.shape, Answer.map]
      | error e => dsimp only; simp only [Strm.wrapStreamError]; cases S.isPartial j <;> rfl
  rw [e rd i, e rd' i'] at h1
  revert h1
  cases (satisfy S fun t => f (rd t)).shape i <;> cases (satisfy S' fun t => f (rd' t)).shape i' <;> intro h1 <;>
    first | exact h1.elim | exact h1

/-- **C54.**  `tokens`, `string`, `bytes`. -/
theorem C54_string (hS : S.Lawful) (hS' : S'.Lawful) {κ : Type} (cmp : κ → T → Bool) (cs : List κ)
    (x : Info S.Tok S.Rng) (x' : Info S'.Tok S'.Rng) {v : α} {v' : α'} (hv : V v v') :
    Alike (Same rd rd' b) V (stringCmp S cs (fun c t => cmp c (rd t)) x v) (stringCmp S' cs (fun c t => cmp c (rd' t)) x' v') := by
  refine C54_tokens (cmp := cmp) (cmp' := cmp) hS hS' (cs := cs) (cs' := cs) ?_ hv (C40_string hS _ x cs v) (C40_string hS' _ x' cs v')
  induction cs with
  | nil => exact .nil
  | cons c cs ih => exact .cons (fun t => ⟨t, [], rfl, by dsimp only; cases cmp c t <;> trivial, fun _ => rfl⟩) ih

theorem covers_same (f : T → Bool) : Covers (fun t => [t]) f f := fun t => ⟨t, [], rfl, by cases h : f t <;> simp [h]⟩

private theorem until_alike (hS : S.Lawful) (hS' : S'.Lawful) {e : Sem S.Input Unit β} {e' : Sem S'.Input Unit β'}
    (he : SemAlike (Same rd rd' b) W e e') {i : S.Input} {i' : S'.Input} (h : Same rd rd' b i i')
    {a : Answer S.Input Unit (List S.Tok)} {a' : Answer S'.Input Unit (List S'.Tok)} (ha : S.IsTakeUntil e i a)
    (ha' : S'.IsTakeUntil e' i' a') : a.Alike (Same rd rd' b) (fun ts ts' => ts.map rd = ts'.map rd') a' := by
  obtain ⟨ts, k, h1, h2⟩ := ha
  obtain ⟨ts', k', h1', h2'⟩ := ha'
  have hk : e k = .soft → S.AtEnd k := by
    intro hx
    rw [hx] at h2
    obtain ⟨err, l, h3, _⟩ := h2
    exact ⟨err, by rw [h3]⟩
  have hk' : e' k' = .soft → S'.AtEnd k' := by
    intro hx
    rw [hx] at h2'
    obtain ⟨err, l, h3, _⟩ := h2'
    exact ⟨err, by rw [h3]⟩
  have stop : ts.map rd = ts'.map rd' ∧ Same rd rd' b k k' := by
    clear h2 h2'
    induction h1 generalizing i' ts' with
    | nil i =>
      cases h1' with
      | nil => exact ⟨rfl, h⟩
      | cons h3 h4 h5 =>
        have h6 := he _ _ h
        rw [h3] at h6
        cases hx : e i <;> rw [hx] at h6 <;> try exact h6.elim
        rcases written_cases hS hS' h with ⟨_, hz⟩ | ⟨t, j, us, j', hu, _⟩
        · exact (end_uncons hz h4).elim
        · exact (end_uncons (hk hx) hu).elim
    | @cons i j l t ts h3 h4 h5 ih =>
      rcases written_cases hS hS' h with ⟨hz, _⟩ | ⟨t', j', us, l', hu, hr, hm, hw⟩
      · exact (end_uncons hz h4).elim
      · rw [h4] at hu
        cases hu
        cases us with
        | nil => cases hm
        | cons u us =>
          simp only [List.map_cons, List.cons.injEq, List.map_eq_nil_iff] at hm
          obtain ⟨hm1, rfl⟩ := hm
          obtain ⟨l'', hx, hnil⟩ := Strm.reads_cons.1 hr
          cases hnil
          cases h1' with
          | nil =>
            have h6 := he _ _ h
            rw [h3] at h6
            cases hy : e' k' <;> rw [hy] at h6 <;> try exact h6.elim
            exact (end_uncons (hk' hy) hx).elim
          | cons h7 h8 h9 =>
            rw [hx] at h8
            cases h8
            obtain ⟨h10, h11⟩ := ih hw _ h9 hk
            exact ⟨by simp [h10, hm1], h11⟩
  obtain ⟨h3, h4⟩ := stop
  have h5 := he _ _ h4
  have hemp : ts.isEmpty = ts'.isEmpty := by
    have := congrArg List.isEmpty h3
    simpa using this
  revert h2 h2'
  cases hx : e k <;> cases hy : e' k' <;> rw [hx, hy] at h5 <;> try exact h5.elim
  · rintro rfl rfl
    obtain ⟨rfl, _, _⟩ := h5
    exact ⟨by rw [hemp], h3, h4⟩
  · rintro ⟨err, l, h6, rfl⟩ ⟨err', l', h6', rfl⟩
    rw [hS.uncons_error h6, hS'.uncons_error h6', h4.1, h4.2.1]
    cases b <;> trivial
  · rintro rfl rfl; trivial
  · rintro rfl rfl; exact h5

/-- **C54.**  `take_until`. -/
theorem C54_take_until (hS : S.Lawful) (hS' : S'.Lawful) {e : Parser S τ β} {e' : Parser S' τ' β'}
    (he : Alike (Same rd rd' b) W e e') (hm : Moves e) (hm' : Moves e') (hr : Reusable e) (hr' : Reusable e') :
    Alike (Same rd rd' b) (fun ts ts' => ts.map rd = ts'.map rd') (takeUntil e) (takeUntil e') := fun i i' h =>
  until_alike hS hS' he h (C33_take_until hS hm hr i) (C33_take_until hS' hm' hr' i')

/-- Single tokens are found where they are. -/
theorem prefixFree_same : PrefixFree (fun t : T => [t]) :=
  ⟨fun _ => by simp, fun _ _ _ _ h => by simpa using (List.cons.inj h).1⟩

/-- The same of sequences. -/
theorem synchronous_same (needle : List T) : Synchronous (fun t => [t]) needle := fun ts pre post h => by
  have e : ∀ ts : List T, ts.flatMap (fun t => [t]) = ts := fun ts => by induction ts <;> simp_all
  rw [e, e] at h
  exact ⟨pre, post, h, (e pre).symm⟩

/-- **C54.**  `take`, where tokens have the same size on both sides. -/
theorem C54_take {Q : RangeOps S} {Q' : RangeOps S'} {toks : S.Rng → List S.Tok} {toks' : S'.Rng → List S'.Tok}
    {w : S.Tok → Nat} {w' : S'.Tok → Nat} (hS : S.Lawful) (hS' : S'.Lawful) (hQ : Q.Lawful toks w) (hQ' : Q'.Lawful toks' w')
    (hw : ∀ t t', rd t = rd' t' → w t = w' t') (n : Nat) :
    Alike (Same rd rd' b) (WrittenRange toks toks' rd rd' fun t => [t]) (take Q n) (take Q' n) := by
  have e : ∀ ts : List T, ts.flatMap (fun t => [t]) = ts := fun ts => by induction ts <;> simp_all
  have hwt : ∀ {ts : List S.Tok} {ts' : List S'.Tok}, ts'.map rd' = ts.map rd → weight w ts = weight w' ts' := by
    intro ts
    induction ts with
    | nil => intro ts' h; simp at h; simp [h, weight]
    | cons t ts ih =>
      intro ts' h
      cases ts' with
      | nil => cases h
      | cons t' ts' =>
        simp only [List.map_cons, List.cons.injEq] at h
        have := ih h.2
        simp only [weight, List.map_cons, List.sum_cons] at this ⊢
        rw [this, hw _ _ h.1.symm]
  -- prefixes correspond
  have there : ∀ {i : S.Input} {i' : S'.Input} {j as}, Same rd rd' b i i' → S.Reads i as j →
      ∃ as' j', S'.Reads i' as' j' ∧ as'.map rd' = as.map rd ∧ Same rd rd' b j j' := by
    intro i i' j as h h1
    obtain ⟨hp, hp', _, ⟨us, k, h3, h4, rfl⟩, ⟨us', k', h5, h6, h7⟩⟩ := h
    obtain ⟨rest, rfl, h8⟩ := prefix_of h3 h4 h1
    rw [e, List.map_append, List.map_eq_append_iff] at h7
    obtain ⟨as', rest', rfl, h9, h10⟩ := h7
    obtain ⟨j', h11, h12⟩ := reads_split h5
    exact ⟨as', j', h11, h9, by rw [hS.reads_isPartial h1, hp], by rw [hS'.reads_isPartial h11, hp'], _,
      ⟨_, k, h8, h4, rfl⟩, ⟨_, k', h12, h6, by rw [e, h10]⟩⟩
  have here : ∀ {i : S.Input} {i' : S'.Input} {j' as'}, Same rd rd' b i i' → S'.Reads i' as' j' →
      ∃ as j, S.Reads i as j ∧ as'.map rd' = as.map rd := by
    intro i i' j' as' h h1
    obtain ⟨hp, hp', _, ⟨us, k, h3, h4, rfl⟩, ⟨us', k', h5, h6, h7⟩⟩ := h
    obtain ⟨rest, rfl, h8⟩ := prefix_of h5 h6 h1
    rw [e, List.map_append, eq_comm, List.map_eq_append_iff] at h7
    obtain ⟨as, rest', rfl, h9, h10⟩ := h7
    obtain ⟨j, h11, h12⟩ := reads_split h3
    exact ⟨as, j, h11, h9.symm⟩
  intro i i' h
  have hb := h.1
  have hb' := h.2.1
  rcases C40_take hQ n i with ⟨r, k, h1, h2, e1⟩ | ⟨h1, e1⟩ <;>
    rcases C40_take hQ' n i' with ⟨r', k', h1', h2', e1'⟩ | ⟨h1', e1'⟩ <;> rw [e1, e1']
  · obtain ⟨as', j', h3, h4, h5⟩ := there h h1
    obtain ⟨h6, h7⟩ := reads_weight_unique hQ'.pos h3 h1' (by rw [← hwt h4, h2, h2'])
    subst h6 h7
    exact ⟨rfl, by rw [WrittenRange, e, h4], h5⟩
  · obtain ⟨as', j', h3, h4, h5⟩ := there h h1
    exact absurd (by rw [← hwt h4, h2]) (h1' _ _ h3)
  · obtain ⟨as, j, h3, h4⟩ := here h h1'
    exact absurd (by rw [hwt h4, h2']) (h1 _ _ h3)
  · rw [hb, hb']
    cases b <;> trivial

/-! ## What the streams hold -/

/-- **C54.**  Slices and strings hold their elements, iterators what is left of them. -/
theorem C54_slice {sz : Nat} (rd : T → U) (i : Slice T) (ts : List U) :
    (sliceS T sz).Holds rd i ts ↔ ts = i.data.map rd := by
  constructor
  · rintro ⟨us, k, h1, h2, rfl⟩
    rw [slice_reads, slice_atEnd.1 h2, List.append_nil] at h1
    rw [h1.1]
  · rintro rfl
    exact ⟨i.data, ⟨i.ptr + sz * i.data.length, []⟩, slice_reads.2 ⟨by simp, rfl⟩, slice_atEnd.2 rfl, rfl⟩

/-- **C54.**  The same of strings. -/
theorem C54_str (rd : Char → U) (i : Str) (ts : List U) : strS.Holds rd i ts ↔ ts = i.data.map rd := by
  constructor
  · rintro ⟨us, k, h1, h2, rfl⟩
    rw [str_reads, str_atEnd.1 h2, List.append_nil] at h1
    rw [h1.1]
  · rintro rfl
    exact ⟨i.data, ⟨i.ptr + Str.byteLen i.data, []⟩, str_reads.2 ⟨by simp, rfl⟩, str_atEnd.2 rfl, rfl⟩

/-- **C54.**  The same of iterators. -/
theorem C54_iter (rd : T → U) (i : List T) (ts : List U) : (iterS T).Holds rd i ts ↔ ts = i.map rd := by
  constructor
  · rintro ⟨us, k, h1, ⟨e, h2⟩, rfl⟩
    rw [iter_reads] at h1
    cases k with
    | nil => rw [h1, List.append_nil]
    | cons a k => cases h2
  · rintro rfl
    exact ⟨i, [], iter_reads.2 (by simp), ⟨_, rfl⟩, rfl⟩

/-- **C54.**  The wrappers hold what the stream inside them holds. -/
theorem C54_wrapped (rd : S.Tok → T) (ts : List T) :
    (∀ i, (partialS S).Holds rd i ts ↔ S.Holds rd i ts) ∧
    (∀ i, (completeS S).Holds rd i ts ↔ S.Holds rd i ts) ∧
    (∀ i, (maybeS S).Holds rd i ts ↔ S.Holds rd i.1 ts) ∧
    (∀ (U : Type) i, (stateS S U).Holds rd i ts ↔ S.Holds rd i.1 ts) := by
  refine ⟨fun i => ?_, fun i => ?_, fun i => ?_, fun U i => ?_⟩
  · exact ⟨fun ⟨us, k, h1, h2, h3⟩ => ⟨us, k, partial_reads.1 h1, h2, h3⟩,
      fun ⟨us, k, h1, h2, h3⟩ => ⟨us, k, partial_reads.2 h1, h2, h3⟩⟩
  · exact ⟨fun ⟨us, k, h1, h2, h3⟩ => ⟨us, k, complete_reads.1 h1, h2, h3⟩,
      fun ⟨us, k, h1, h2, h3⟩ => ⟨us, k, complete_reads.2 h1, h2, h3⟩⟩
  · constructor
    · rintro ⟨us, k, h1, ⟨e, h2⟩, h3⟩
      exact ⟨us, k.1, (maybe_reads.1 h1).1, ⟨e, h2⟩, h3⟩
    · rintro ⟨us, k, h1, ⟨e, h2⟩, h3⟩
      exact ⟨us, (k, i.2), maybe_reads.2 ⟨h1, rfl⟩, ⟨e, h2⟩, h3⟩
  · constructor
    · rintro ⟨us, k, h1, ⟨e, h2⟩, h3⟩
      exact ⟨us, k.1, (state_reads.1 h1).1, ⟨e, h2⟩, h3⟩
    · rintro ⟨us, k, h1, ⟨e, h2⟩, h3⟩
      exact ⟨us, (k, i.2), state_reads.2 ⟨h1, rfl⟩, ⟨e, h2⟩, h3⟩

/-- **C54.**  `easy::Stream` and other changes of the errors: the tokens stay. -/
theorem C54_converted {P : Type} {decPos : DecidableEq P} {toPos : S.Pos → P} {E : ErrOps S.Tok S.Rng P}
    {convS : S.SErr → E.SErr} {conv : S.Err → E.Err} (rd : S.Tok → T) (i : S.Input) (ts : List T) :
    (convertS S decPos toPos E convS conv).Holds rd i ts ↔ S.Holds rd i ts :=
  ⟨fun ⟨us, k, h1, h2, h3⟩ => ⟨us, k, convert_reads.1 h1, convert_atEnd.1 h2, h3⟩,
    fun ⟨us, k, h1, h2, h3⟩ => ⟨us, k, convert_reads.2 h1, convert_atEnd.2 h2, h3⟩⟩

/-- **C54.**  `position::Stream`: the tokens stay, whatever the positions are. -/
theorem C54_positioned {X : Positioner S.Tok S.Rng} {E : ErrOps S.Tok S.Rng X.Pos} {convS : S.SErr → E.SErr}
    {conv : S.Err → E.Err} (rd : S.Tok → T) (i : S.Input × X.X) (ts : List T) :
    (positionS S X E convS conv).Holds rd i ts ↔ S.Holds rd i.1 ts := by
  constructor
  · rintro ⟨us, k, h1, h2, h3⟩
    exact ⟨us, k.1, (position_reads.1 h1).1, position_atEnd.1 h2, h3⟩
  · rintro ⟨us, k, h1, h2, h3⟩
    exact ⟨us, (k, us.foldl X.update i.2), position_reads.2 ⟨h1, rfl⟩, position_atEnd.2 h2, h3⟩

/-! ### A grammar -/

/-- `sep_by1(digit, token(','))`, over any stream of characters. -/
private def csv (S : Strm) (rd : S.Tok → Char) :=
  sepBy1 (satisfyMap S fun t => if (rd t).isDigit then some ((rd t).toNat - 48) else none)
    (satisfyMap S fun t => if rd t = ',' then some () else none)

private theorem each_eq {as bs : List α} (h : Each Eq as bs) : as = bs := by
  induction h with
  | nil => rfl
  | cons h _ ih => rw [h, ih]

/-- It parses equally over all streams of characters there are. -/
private theorem csv_alike (hS : S.Lawful) (hS' : S'.Lawful) (rd : S.Tok → Char) (rd' : S'.Tok → Char) (b : Bool) :
    Alike (Same rd rd' b) Eq (csv S rd) (csv S' rd') :=
  C54_weaken (C54_sep_by1 hS hS'
    (C54_satisfy_map hS hS' fun t : Char => if t.isDigit then some (t.toNat - 48) else none)
    (C54_satisfy_map hS hS' fun t : Char => if t = ',' then some () else none)
    (moves_satisfyMap hS _) (moves_satisfyMap hS' _) (moves_satisfyMap hS _) (moves_satisfyMap hS' _)
    (keeps_unit _) (keeps_unit _) (keeps_unit _) (keeps_unit _)
    (consuming_satisfyMap _) (consuming_satisfyMap _)) fun _ _ h => each_eq h

private theorem csv_moves (hS : S.Lawful) (rd : S.Tok → Char) : Moves (csv S rd) :=
  moves_sepBy1 hS (moves_satisfyMap hS _) (moves_satisfyMap hS _)

-- A string and the same characters from an iterator; the hypotheses of `C54_parse` are met.
example : Same (S := strS) (S' := iterS Char) id id false ⟨7, ['1', ',', '2', ';']⟩ ['1', ',', '2', ';'] :=
  ⟨rfl, rfl, ['1', ',', '2', ';'], (C54_str _ _ _).2 rfl, (C54_iter _ _ _).2 rfl⟩

example : (csv strS id).parse ⟨0, ['1', ',', '2', ';']⟩ = .ok [1, 2] ⟨3, [';']⟩ := rfl
example : (csv (iterS Char) id).parse ['1', ',', '2', ';'] = .ok [1, 2] [';'] := rfl

example (p : Nat) (cs : List Char) : ∀ v j, (csv strS id).parse ⟨p, cs⟩ = .ok v j →
    ∃ v' j', (csv (iterS Char) id).parse cs = .ok v' j' ∧ v = v' ∧ Same (S := strS) (S' := iterS Char) id id false j j' :=
  (C54_parse (csv_alike str_lawful (iter_lawful Char) id id false)
    (.ofMode str_lawful (csv_moves str_lawful id).run) (.ofMode (iter_lawful Char) (csv_moves (iter_lawful Char) id).run)
    ⟨p, cs⟩ cs
    ⟨rfl, rfl, cs, (C54_str _ _ _).2 (by simp), (C54_iter _ _ _).2 (by simp)⟩).1

end Verif
