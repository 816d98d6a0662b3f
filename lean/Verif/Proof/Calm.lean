import Verif.Proof.Safe
import Verif.Proof.Repeatable
import Verif.Props.Accepts
import Verif.Props.Termination

/-!
# Programs that end without a panic
-/

namespace Verif

variable {S : Strm} {σ τ υ α β γ : Type}

/-- A call that starts anew ends, without a panic. -/
def Calm (p : Parser S σ α) : Prop := ∀ i a, p.shape i ≠ .abort a

theorem calm_never {p : Parser S σ α} (h : NeverAborts p) : Calm p := by
  intro i a hi
  have := h true i p.init a
  simp only [Parser.shape, Parser.answer, Out.answer] at hi
  revert this hi
  generalize p.run true i p.init = o
  obtain ⟨r, j, s⟩ := o
  intro h1 h2
  cases r <;> dsimp only [Answer.of, Answer.shape] at h1 <;> cases h1
  exact h2 rfl

theorem calm_one {p : Parser S σ α} {g : S.Tok → Option α} (h : ∀ i, S.IsOne g i (p.shape i)) : Calm p := by
  intro i a hi
  rcases h i with ⟨t, j, _, h1⟩ | ⟨_, h1⟩
  · rw [hi] at h1
    cases hg : g t <;> rw [hg] at h1 <;> cases h1
  · rw [hi] at h1
    split at h1 <;> cases h1

theorem calm_map {p : Parser S σ α} (h : Calm p) (g : α → β) : Calm (map p g) := by
  intro i a hi
  have e : (map p g).shape i = (p.shape i).map g := mapShape (τ := σ) (p.run true i p.init) g
  rw [e] at hi
  cases hp : p.shape i <;> rw [hp] at hi <;> cases hi
  exact h i _ hp

private theorem bind_abort {m : Sem S.Input Unit α} {f : α → Sem S.Input Unit β} {i : S.Input} {a : Abort}
    (h : Ref.bind m f i = .abort a) (hf : ∀ v j a, f v j ≠ .abort a) : m i = .abort a := by
  simp only [Ref.bind] at h
  cases hm : m i with
  | ok c v k =>
    rw [hm] at h
    dsimp only at h
    cases hk : f v k with
    | abort b => exact (hf _ _ _ hk).elim
    | _ => rw [hk] at h; (try cases c) <;> simp [Answer.after] at h
  | abort b => rw [hm] at h; cases h; rfl
  | _ => rw [hm] at h; cases h

private theorem seq_calm {ps : Seq S τ β} (h : ∀ q, ps.Mem q → Calm q.2.2) (i : S.Input) (a : Abort) : Ref.seq ps i ≠ .abort a := by
  induction ps generalizing i a with
  | nil => intro h; cases h
  | cons p ps ih =>
    intro hi
    rw [Ref.seq] at hi
    have ih := ih fun q hq => h q (.inr hq)
    refine h ⟨_, _, p⟩ (.inl rfl) i a (bind_abort hi fun v j b hb => ?_)
    simp only [Ref.map] at hb
    cases hx : Ref.seq ps j <;> rw [hx] at hb <;> cases hb
    exact ih _ _ hx

/-- A tuple panics exactly where its first member does, if the others do not. -/
theorem tuple_abort {p : Parser S σ α} {ps : Seq S τ β} (h : ∀ q, ps.Mem q → Calm q.2.2) (i : S.Input) (a : Abort) :
    (tuple p ps).shape i = .abort a ↔ p.shape i = .abort a := by
  rw [C12_tuple p ps i, Ref.seq]
  constructor
  · intro hi
    refine bind_abort hi fun v j b hb => ?_
    simp only [Ref.map] at hb
    cases hx : Ref.seq ps j <;> rw [hx] at hb <;> cases hb
    exact seq_calm h _ _ hx
  · intro hi
    simp only [Ref.bind, hi]

theorem calm_tuple {p : Parser S σ α} {ps : Seq S τ β} (hp : Calm p) (h : ∀ q, ps.Mem q → Calm q.2.2) : Calm (tuple p ps) :=
  fun i a hi => hp i a ((tuple_abort h i a).1 hi)

theorem calm_with {p : Parser S σ α} {q : Parser S τ β} (hp : Calm p) (hq : Calm q) : Calm («with» p q) := by
  intro i a hi
  rw [C12_with p q i] at hi
  exact hp i a (bind_abort hi fun _ j b => hq j b)

theorem calm_or (hS : S.Lawful) {p : Parser S σ α} {q : Parser S τ α} (hmp : Moves p) (hmq : Moves q) (hp : Calm p) (hq : Calm q) :
    Calm (or p q) := by
  intro i a hi
  rw [shape_or hS hmp hmq i] at hi
  simp only [orSem] at hi
  cases hx : p.shape i with
  | soft => rw [hx] at hi; exact hq i a hi
  | abort b => exact hp i b hx
  | _ => rw [hx] at hi; cases hi

theorem calm_optional (hS : S.Lawful) {p : Parser S σ α} (hmp : Moves p) (hp : Calm p) : Calm (optional p) := by
  intro i a hi
  rw [shape_optional hS hmp i] at hi
  simp only [orSem, Ref.map, Ref.value] at hi
  cases hx : p.shape i with
  | abort b => exact hp i b hx
  | _ => rw [hx] at hi; cases hi

theorem never_expected {p : Parser S σ α} (h : NeverAborts p) (x : Info S.Tok S.Rng) : NeverAborts (expected p x) := by
  intro m i s a
  have := h m i s a
  revert this
  simp only [expected, Parser.ofMode]
  generalize p.run m i s = o
  obtain ⟨r, j, u⟩ := o
  cases r <;> simp

theorem progress_expected {p : Parser S σ α} (h : Progress p) (x : Info S.Tok S.Rng) : Progress (expected p x) := by
  intro i s
  have := h i s
  revert this
  simp only [expected, Parser.ofMode]
  generalize p.run true i s = o
  obtain ⟨r, j, u⟩ := o
  cases r <;> simp

theorem calm_skip {p : Parser S σ α} {q : Parser S τ β} (hp : Calm p) (hq : Calm q) : Calm (skip p q) := by
  intro i a hi
  rw [C12_skip p q i] at hi
  refine hp i a (bind_abort hi fun x j b hb => ?_)
  simp only [Ref.map] at hb
  cases hx : q.shape j <;> rw [hx] at hb <;> cases hb
  exact hq _ _ hx

theorem calm_between {o : Parser S σ α} {c : Parser S υ γ} {p : Parser S τ β} (ho : Calm o) (hc : Calm c) (hp : Calm p) :
    Calm (between o c p) := by
  intro i a hi
  rw [C12_between o c p i] at hi
  refine ho i a (bind_abort hi fun x j b hb => ?_)
  refine hp j b (bind_abort hb fun x j b hb => ?_)
  simp only [Ref.map] at hb
  cases hx : c.shape j <;> rw [hx] at hb <;> cases hb
  exact hc _ _ hx

theorem calm_expected {p : Parser S σ α} (hp : Calm p) (x : Info S.Tok S.Rng) : Calm (expected p x) := hp

theorem calm_answer {p : Parser S σ α} : Calm p ↔ ∀ i a, p.answer i ≠ .abort a := by
  constructor
  · intro h i a hi
    refine h i a ?_
    simp only [Parser.shape, hi]
    rfl
  · intro h i a hi
    refine h i a ?_
    simp only [Parser.shape] at hi
    cases hx : p.answer i <;> rw [hx] at hi <;> cases hi
    rfl

theorem calm_message {p : Parser S σ α} (hp : Calm p) (x : Info S.Tok S.Rng) : Calm (message p x) := by
  rw [calm_answer] at hp ⊢
  intro i a hi
  refine hp i a ?_
  simp only [Parser.answer, message, Parser.ofMode, Out.answer] at hi ⊢
  revert hi
  generalize p.run true i p.init = o
  obtain ⟨r, j, s⟩ := o
  cases r <;> intro hi <;> cases hi
  rfl

private theorem isMany_calm {I E : Type} {m : Sem I E α} (h : ∀ i a, m i ≠ .abort a) {i : I} {b : Answer I E (List α)}
    (hb : Ref.IsMany m i b) (a : Abort) : b ≠ .abort a := by
  obtain ⟨vs, c, k, _, h2⟩ := hb
  cases hk : m k with
  | abort x => exact (h _ _ hk).elim
  | _ =>
    rw [hk] at h2
    rintro rfl
    first | cases h2 | exact h2

theorem calm_many (hS : S.Lawful) {p : Parser S σ α} (hr : Repeatable p) (hc : Consuming p) (hp : Calm p) : Calm (many p) := by
  rw [calm_answer] at hp ⊢
  exact fun i a => isMany_calm hp (C07_many hS hr.moves hr.reusable hc i) a

private theorem isMany1_calm {I E : Type} {m : Sem I E α} (h : ∀ i a, m i ≠ .abort a) {i : I} {b : Answer I E (List α)}
    (hb : Ref.IsMany1 m i b) (a : Abort) : b ≠ .abort a := by
  unfold Ref.IsMany1 at hb
  cases hk : m i with
  | abort x => exact (h _ _ hk).elim
  | ok c v j => rw [hk] at hb; exact isMany_calm h hb a
  | _ => rw [hk] at hb; rintro rfl; cases hb

theorem calm_many1 (hS : S.Lawful) {p : Parser S σ α} (hr : Repeatable p) (hc : Consuming p) (hp : Calm p) : Calm (many1 p) := by
  rw [calm_answer] at hp ⊢
  exact fun i a => isMany1_calm hp (C08_many1 hS hr.moves hr.reusable hc i) a

theorem calm_skipMany (hS : S.Lawful) {p : Parser S σ α} (hr : Repeatable p) (hc : Consuming p) (hp : Calm p) : Calm (skipMany p) := by
  rw [calm_answer] at hp ⊢
  intro i a hi
  obtain ⟨b, h1, h2⟩ := C07_skip_many hS hr.moves hr.reusable hc i
  rw [hi] at h2
  have := isMany_calm hp h1 a
  cases b <;> cases h2
  exact this rfl

theorem calm_skipMany1 (hS : S.Lawful) {p : Parser S σ α} (hr : Repeatable p) (hc : Consuming p) (hp : Calm p) : Calm (skipMany1 p) := by
  rw [calm_answer] at hp ⊢
  intro i a hi
  obtain ⟨b, h1, h2⟩ := C08_skip_many1 hS hr.moves hr.reusable hc i
  rw [hi] at h2
  have := isMany1_calm hp h1 a
  cases b <;> cases h2
  exact this rfl

/-- `parse` ends without a panic. -/
theorem Calm.parse {p : Parser S σ α} (hp : Calm p) (hc : Coherent p) (i : S.Input) (a : Abort) : p.parse i ≠ .abort a := by
  intro hi
  refine calm_answer.1 hp i a ?_
  have h := hc.stream i
  rw [← h]
  unfold Parser.parse at hi
  revert hi
  generalize p.stream i = x
  obtain ⟨r, j⟩ := x
  cases r <;> intro hi <;> cases hi
  rfl

end Verif
