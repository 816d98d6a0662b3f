import Verif.Proof.Grammar
import Verif.Props.Chain
import Verif.Props.Classes
import Verif.Props.Wrappers
import Verif.Props.Monad
import Verif.Props.TakeWhile

/-!
# Predictive parsing (C56)

A parser without `attempt` accepts exactly what its grammar derives, if the grammar is LL(1).
-/

namespace Verif

variable {S : Strm} {N σ τ υ ρ α β γ δ : Type} {rules : N → Gram N S.Tok} {a b c : Gram N S.Tok} {F G : S.Tok → Prop}

/-! ## One rule for each combinator -/

private theorem predicts_congr {m n : Sem S.Input Unit α} (h : ∀ i, m i = n i) (hn : Predicts rules a n) : Predicts rules a m :=
  (funext h : m = n) ▸ hn

private theorem accepts_congr {m n : Sem S.Input Unit α} (h : ∀ i, m i = n i) (hn : Accepts rules a F n) :
    Accepts rules a F m := (funext h : m = n) ▸ hn

private theorem predicts_map {m : Sem S.Input Unit α} (h : Predicts rules a m) (f : α → β) :
    Predicts rules a (Ref.map m f) := by
  intro i
  have := h i
  simp only [Ref.map]
  revert this
  cases m i <;> exact id

private theorem accepts_map {m : Sem S.Input Unit α} (h : Accepts rules a F m) (f : α → β) :
    Accepts rules a F (Ref.map m f) := by
  intro i w k h1 h2 h3 h4
  simp only [Ref.map]
  rcases h i w k h1 h2 h3 h4 with ⟨c, v, hx⟩ | ⟨x, hx⟩ <;> rw [hx]
  · exact .inl ⟨c, f v, rfl⟩
  · exact .inr ⟨x, rfl⟩

private theorem predicts_value (v : α) : Predicts (S := S) rules .empty (Ref.value v) :=
  fun i => ⟨[], .nil i, .empty, rfl, fun _ _ _ _ h => by cases h⟩

private theorem accepts_value (v : α) : Accepts (S := S) rules .empty F (Ref.value v) := by
  intro i w k h1 h2 h3 h4
  cases h3
  cases Strm.reads_nil.1 h2
  exact .inl ⟨false, v, rfl⟩

private theorem follows_congr {p : Parser S σ α} {q : Parser S τ α} (h : ∀ i, p.shape i = q.shape i)
    (hq : Follows rules a F q) : Follows rules a F p := ⟨predicts_congr h hq.1, accepts_congr h hq.2⟩

/-- **C56.**  Fewer tokens come next. -/
theorem C56_weaken {p : Parser S σ α} (h : Follows rules a F p) (hG : ∀ t, G t → F t) : Follows rules a G p :=
  ⟨h.1, fun i w k h1 h2 h3 h4 => h.2 i w k h1 h2 h3 fun t l hu => hG t (h4 t l hu)⟩

/-- **C56.**  Grammars that derive the same and begin with the same. -/
theorem C56_same {p : Parser S σ α} (h : Follows rules a F p) (hd : ∀ w, a.Derives rules w ↔ b.Derives rules w)
    (hf : ∀ t, a.First rules t ↔ b.First rules t) : Follows rules b F p := by
  refine ⟨fun i => ?_, fun i w k h1 h2 h3 h4 => h.2 i w k h1 h2 ((hd w).2 h3) h4⟩
  have := h.1 i
  revert this
  cases p.shape i with
  | ok c v j =>
    rintro ⟨w, h1, h2, h3, h4⟩
    exact ⟨w, h1, (hd w).1 h2, h3, fun hw t l hu ht => h4 hw t l hu ((hf t).2 ht)⟩
  | soft =>
    rintro ⟨h1, h2⟩
    exact ⟨fun t l hu ht => h1 t l hu ((hf t).2 ht), fun hn => h2 ((hd []).2 hn)⟩
  | hard e =>
    rintro (⟨t, j, h1, h2⟩ | h)
    · exact .inl ⟨t, j, h1, (hf t).1 h2⟩
    · exact .inr h
  | abort x => exact id

/-- **C56.**  `value`, `produce`. -/
theorem C56_value (v : α) : Follows rules .empty F (value S v) := ⟨predicts_value v, accepts_value v⟩

/-- **C56.**  A parser of one token (`satisfy`, `token`, `any`, `one_of`, `digit`, ... by C53). -/
theorem C56_one {p : Parser S σ α} {f : S.Tok → Option α} (h : ∀ i, S.IsOne f i (p.shape i)) :
    Follows rules (.one fun t => (f t).isSome) F p := by
  constructor
  · intro i
    rcases h i with ⟨t, j, h1, h2⟩ | ⟨⟨e, h1⟩, h2⟩ <;> rw [h2]
    · cases hf : f t with
      | some v => exact ⟨[t], .cons h1 (.nil j), .one (by simp [hf]), rfl, fun h => by cases h⟩
      | none =>
        refine ⟨fun t' j' hu ht => ?_, fun h => by cases h⟩
        rw [h1] at hu
        cases hu
        cases ht with
        | one ht => simp [hf] at ht
    · have hun : ∀ t j, S.uncons i ≠ (.ok t, j) := fun t j hu => by rw [hu] at h1; cases h1
      by_cases hp : S.isPartial i = true
      · rw [if_pos hp]
        exact .inr ⟨hp, e, h1⟩
      · rw [if_neg hp]
        exact ⟨fun t j hu => absurd hu (hun t j), fun h => by cases h⟩
  · intro i w k hp hr hd _
    cases hd with
    | @one _ t ht =>
      obtain ⟨j, h1, h2⟩ := Strm.reads_cons.1 hr
      cases Strm.reads_nil.1 h2
      rcases h i with ⟨t', j', h1', h2'⟩ | ⟨⟨e, h1'⟩, _⟩
      · rw [h1] at h1'
        cases h1'
        rw [h2']
        cases hf : f t with
        | some v => exact .inl ⟨true, v, rfl⟩
        | none => simp [hf] at ht
      · rw [h1] at h1'; cases h1'

/-- **C56.**  `map`. -/
theorem C56_map {p : Parser S σ α} (h : Follows rules a F p) (f : α → β) : Follows rules a F (map p f) :=
  have e : ∀ i, (map p f).shape i = Ref.map p.shape f i := fun i => mapShape (τ := σ) (p.run true i p.init) f
  ⟨predicts_congr e (predicts_map h.1 f), accepts_congr e (accepts_map h.2 f)⟩

/-- **C56.**  `with`. -/
theorem C56_with (hS : S.Lawful) {p : Parser S σ α} {q : Parser S τ β} (hp : Follows rules a (b.Then rules F) p)
    (hq : Follows rules b F q) : Follows rules (a.seq b) F («with» p q) :=
  ⟨predicts_congr (C12_with p q) (predicts_bind hp.1 fun _ => hq.1),
    accepts_congr (C12_with p q) (accepts_bind hS hp.2 fun _ => hq.2)⟩

/-- **C56.**  `skip`. -/
theorem C56_skip (hS : S.Lawful) {p : Parser S σ α} {q : Parser S τ β} (hp : Follows rules a (b.Then rules F) p)
    (hq : Follows rules b F q) : Follows rules (a.seq b) F (skip p q) :=
  ⟨predicts_congr (C12_skip p q) (predicts_bind hp.1 fun _ => predicts_map hq.1 _),
    accepts_congr (C12_skip p q) (accepts_bind hS hp.2 fun _ => accepts_map hq.2 _)⟩

/-- **C56.**  `between`. -/
theorem C56_between (hS : S.Lawful) {o : Parser S σ α} {cl : Parser S υ γ} {p : Parser S τ β}
    (ho : Follows rules a ((b.seq c).Then rules F) o) (hp : Follows rules b (c.Then rules F) p)
    (hc : Follows rules c F cl) : Follows rules (a.seq (b.seq c)) F (between o cl p) :=
  ⟨predicts_congr (C12_between o cl p)
      (predicts_bind ho.1 fun _ => predicts_bind hp.1 fun _ => predicts_map hc.1 _),
    accepts_congr (C12_between o cl p)
      (accepts_bind hS ho.2 fun _ => accepts_bind hS hp.2 fun _ => accepts_map hc.2 _)⟩

private theorem seq_follows (hS : S.Lawful) {ps : Seq S τ β} (h : SeqFollows rules F a ps) :
    Predicts rules a (Ref.seq ps) ∧ Accepts rules a F (Ref.seq ps) := by
  induction h with
  | nil => exact ⟨predicts_value (), accepts_value ()⟩
  | cons hp _ ih =>
    rw [Ref.seq]
    exact ⟨predicts_bind hp.1 fun _ => predicts_map ih.1 _, accepts_bind hS hp.2 fun _ => accepts_map ih.2 _⟩

/-- **C56.**  Tuples. -/
theorem C56_tuple (hS : S.Lawful) {p : Parser S σ α} {ps : Seq S τ β} (hp : Follows rules a (b.Then rules F) p)
    (hs : SeqFollows rules F b ps) : Follows rules (a.seq b) F (tuple p ps) :=
  have h := seq_follows hS (.cons hp hs)
  ⟨predicts_congr (C12_tuple p ps) h.1, accepts_congr (C12_tuple p ps) h.2⟩

/-- **C56.**  `then`, where what comes after does not depend on the value as far as the grammar is concerned. -/
theorem C56_then (hS : S.Lawful) {p : Parser S σ α} {f : α → Parser S τ β} {n : τ} (hn : ∀ v, (f v).init = n)
    (hc : ∀ v, Coherent (f v)) (hp : Follows rules a (b.Then rules F) p) (hf : ∀ v, Follows rules b F (f v)) :
    Follows rules (a.seq b) F (thenP p f n) :=
  ⟨predicts_congr (C13_then hS p f n hn hc) (predicts_bind hp.1 fun v => (hf v).1),
    accepts_congr (C13_then hS p f n hn hc) (accepts_bind hS hp.2 fun v => (hf v).2)⟩

private theorem or_shape (hS : S.Lawful) {p : Parser S σ α} {q : Parser S τ α} (hp : Moves p) (hq : Moves q) (i : S.Input) :
    (or p q).shape i = orSem p.shape q.shape i := by
  simp only [orSem, Parser.shape, C03_or hS hp hq i]
  cases p.answer i <;> rfl

/-- **C56.**  `or`: the alternatives can be told apart by one token. -/
theorem C56_or (hS : S.Lawful) {p : Parser S σ α} {q : Parser S τ α} (hmp : Moves p) (hmq : Moves q)
    (hp : Follows rules a F p) (hq : Follows rules b F q) (ha : ¬ a.Null rules)
    (h1 : Gram.Apart (a.First rules) (b.First rules)) (h2 : b.Null rules → Gram.Apart (a.First rules) F) :
    Follows rules (a.alt b) F (or p q) :=
  ⟨predicts_congr (or_shape hS hmp hmq) (predicts_or hp.1 hq.1 ha),
    accepts_congr (or_shape hS hmp hmq) (accepts_or hp.1 hp.2 hq.2 ha h1 h2)⟩

private theorem choice_follows {ps : Alts S α τ} (h : AltsFollow rules F a ps) :
    Predicts rules a (fun i => (Ref.choice ps.answers i).shape) ∧ Accepts rules a F (fun i => (Ref.choice ps.answers i).shape) := by
  induction h with
  | @last σ a p hp =>
    have e : ∀ i, (Ref.choice (Alts.answers (.last p)) i).shape = p.shape i := by
      intro i
      simp only [Alts.answers, Ref.choice, Parser.shape]
      cases p.answer i <;> rfl
    exact ⟨predicts_congr e hp.1, accepts_congr e hp.2⟩
  | @cons σ τ a b p ps hp _ ha h1 h2 ih =>
    have e : ∀ i, (Ref.choice (Alts.answers (.cons p ps)) i).shape =
        orSem p.shape (fun i => (Ref.choice ps.answers i).shape) i := by
      intro i
      simp only [orSem, Alts.answers, Ref.choice, Parser.shape]
      cases p.answer i <;> rfl
    exact ⟨predicts_congr e (predicts_or hp.1 ih.1 ha), accepts_congr e (accepts_or hp.1 hp.2 ih.2 ha h1 h2)⟩

/-- **C56.**  `choice`. -/
theorem C56_choice (hS : S.Lawful) {ps : Alts S α τ} (hm : ∀ q, ps.Mem q → Moves q.2) (h : AltsFollow rules F a ps) :
    Follows rules a F (choice ps) :=
  have e : ∀ i, (choice ps).shape i = (Ref.choice ps.answers i).shape := fun i =>
    congrArg Answer.shape (C03_choice hS hm true (choice ps).init (.inl rfl) i).1
  ⟨predicts_congr e (choice_follows h).1, accepts_congr e (choice_follows h).2⟩

/-- **C56.**  `optional`. -/
theorem C56_optional (hS : S.Lawful) {p : Parser S σ α} (hm : Moves p) (hp : Follows rules a F p) (ha : ¬ a.Null rules)
    (hF : Gram.Apart (a.First rules) F) : Follows rules a.opt F (optional p) := by
  have e : ∀ i, (optional p).shape i = orSem (Ref.map p.shape some) (Ref.value none) i := by
    intro i
    simp only [orSem, Parser.shape, C06_optional hS hm i, Ref.optional, Ref.map, Ref.value]
    cases p.answer i <;> rfl
  exact ⟨predicts_congr e (predicts_or (predicts_map hp.1 _) (predicts_value _) ha),
    accepts_congr e (accepts_or (predicts_map hp.1 _) (accepts_map hp.2 _) (accepts_value _) ha
      (fun t _ h => by cases h) fun _ => hF)⟩

/-- A parser for something that is not empty consumes. -/
theorem follows_consuming {p : Parser S σ α} (hp : Predicts rules a p.shape) (ha : ¬ a.Null rules) : Consuming p := by
  intro i c v j h
  have h' := hp i
  rw [show p.shape i = .ok c v j by simp only [Parser.shape, h, Answer.shape]] at h'
  obtain ⟨w, h1, h2, _⟩ := h'
  cases w with
  | nil => exact absurd h2 ha
  | cons t ts => exact ⟨t, ts, h1⟩

/-- **C56.**  `many`: what is repeated can be told from what comes next. -/
theorem C56_many (hS : S.Lawful) {p : Parser S σ α} (hm : Moves p) (hr : Reusable p)
    (hp : Follows rules a (fun t => a.First rules t ∨ F t) p) (ha : ¬ a.Null rules) (hF : Gram.Apart (a.First rules) F) :
    Follows rules a.star F (many p) :=
  have h := fun i => isMany_shape (C07_many hS hm hr (follows_consuming hp.1 ha) i)
  ⟨predicts_many hp.1 h, accepts_many hS hp.1 hp.2 ha hF h⟩

/-- **C56.**  `skip_many`. -/
theorem C56_skip_many (hS : S.Lawful) {p : Parser S σ α} (hm : Moves p) (hr : Reusable p)
    (hp : Follows rules a (fun t => a.First rules t ∨ F t) p) (ha : ¬ a.Null rules) (hF : Gram.Apart (a.First rules) F) :
    Follows rules a.star F (skipMany p) := by
  have h := C56_many hS hm hr hp ha hF
  have e : ∀ i, (skipMany p).shape i = Ref.map (many p).shape (fun _ => ()) i := by
    intro i
    obtain ⟨b, h1, h2⟩ := C07_skip_many hS hm hr (follows_consuming hp.1 ha) i
    have h3 := C07_many hS hm hr (follows_consuming hp.1 ha) i
    simp only [Parser.shape, Ref.map, h2, C07_unique h1 h3]
    cases (many p).answer i <;> rfl
  exact ⟨predicts_congr e (predicts_map h.1 _), accepts_congr e (accepts_map h.2 _)⟩

/-- One round more. -/
theorem isMany_cons {m : Sem S.Input Unit α} {i j : S.Input} {c : Bool} {v : α} (h : m i = .ok c v j)
    {x y : Answer S.Input Unit (List α)} (hx : Ref.IsMany m i x) (hy : Ref.IsMany m j y) :
    x = (y.map (v :: ·)).after c := by
  obtain ⟨vs, d, k, h1, h2⟩ := hy
  refine C07_unique hx ⟨v :: vs, c || d, k, .cons h h1, ?_⟩
  revert h2
  cases m k with
  | ok c v j => exact id
  | soft => rintro rfl; rfl
  | hard e => rintro rfl; rfl
  | abort e => rintro rfl; rfl

/-- **C56.**  `many1`. -/
theorem C56_many1 (hS : S.Lawful) {p : Parser S σ α} (hm : Moves p) (hr : Reusable p)
    (hp : Follows rules a (fun t => a.First rules t ∨ F t) p) (ha : ¬ a.Null rules) (hF : Gram.Apart (a.First rules) F) :
    Follows rules a.plus F (many1 p) := by
  have hc := follows_consuming hp.1 ha
  have hs := C56_many hS hm hr hp ha hF
  have e : ∀ i, (many1 p).shape i = Ref.bind p.shape (fun v => Ref.map (many p).shape (v :: ·)) i := by
    intro i
    have h := C08_many1 hS hm hr hc i
    simp only [Ref.IsMany1] at h
    simp only [Parser.shape, Ref.bind] at h ⊢
    cases hx : p.answer i with
    | ok c v j =>
      rw [hx] at h
      exact isMany_cons (m := p.shape) (by simp only [Parser.shape, hx, Answer.shape]) (isMany_shape h)
        (isMany_shape (C07_many hS hm hr hc j))
    | soft => rw [hx] at h; rw [h]; rfl
    | hard x => rw [hx] at h; rw [h]; rfl
    | abort x => rw [hx] at h; rw [h]; rfl
  have hp' : Accepts rules a ((Gram.star a).Then rules F) p.shape :=
    (C56_weaken hp (fun t h => by
      rcases h with h | h
      · exact .inl (Gram.first_star.1 h)
      · exact .inr h.2)).2
  exact ⟨predicts_congr e (predicts_bind hp.1 fun _ => predicts_map hs.1 _),
    accepts_congr e (accepts_bind hS hp' fun _ => accepts_map hs.2 _)⟩

/-- **C56.**  `sep_by1`: a separator, or an element, can be told from what comes next. -/
theorem C56_sep_by1 (hS : S.Lawful) {Cp : σ → Prop} {Cs : τ → Prop} {p : Parser S σ α} {s : Parser S τ β} (hmp : Moves p)
    (hms : Moves s) (hkp : Keeps false Cp p) (hks : Keeps false Cs s)
    (hp : Follows rules a (fun t => (b.seq a).First rules t ∨ F t) p)
    (hs : Follows rules b (fun t => a.First rules t) s) (ha : ¬ a.Null rules)
    (hF : Gram.Apart ((b.seq a).First rules) F) : Follows rules (a.sepBy1 b) F (sepBy1 p s) := by
  have hc := follows_consuming hp.1 ha
  have hn : ¬ (b.seq a).Null rules := fun h => ha (Gram.null_seq.1 h).2
  have hw : Follows rules (b.seq a) (fun t => (b.seq a).First rules t ∨ F t) («with» s p) :=
    C56_with hS (C56_weaken hs fun t h => h.elim id fun h => absurd h.1 ha) hp
  have hkw := (keeps_with hks hkp).reusable
  have hmw := moves_with hS hms hmp
  have hstar := C56_many hS hmw hkw hw hn hF
  have hmany : ∀ j, Ref.IsMany (Ref.bind s.shape fun _ => p.shape) j ((many («with» s p)).shape j) := by
    intro j
    have h := isMany_shape (C07_many hS hmw hkw (follows_consuming hw.1 hn) j)
    have e : (fun i => (Parser.answer («with» s p) i).shape) = Ref.bind s.shape fun _ => p.shape :=
      funext (C12_with s p)
    rw [e] at h
    exact h
  have e : ∀ i, (sepBy1 p s).shape i = Ref.bind p.shape (fun v => Ref.map (many («with» s p)).shape (v :: ·)) i := by
    intro i
    have h := C10_sep_by1 hS hmp hms hkp hks hc i
    simp only [Ref.IsSepBy1] at h
    simp only [Ref.bind]
    cases hx : p.shape i with
    | ok c v j =>
      rw [hx] at h
      obtain ⟨x, h1, h2⟩ := h
      rw [h2, C07_unique h1 (hmany j)]
      rfl
    | soft => rw [hx] at h; exact h
    | hard x => rw [hx] at h; exact h
    | abort x => rw [hx] at h; exact h
  have hp' : Accepts rules a ((Gram.star (b.seq a)).Then rules F) p.shape :=
    (C56_weaken hp (fun t h => by
      rcases h with h | h
      · exact .inl (Gram.first_star.1 h)
      · exact .inr h.2)).2
  exact ⟨predicts_congr e (predicts_bind hp.1 fun _ => predicts_map hstar.1 _),
    accepts_congr e (accepts_bind hS hp' fun _ => accepts_map hstar.2 _)⟩

/-- **C56.**  `sep_by`. -/
theorem C56_sep_by (hS : S.Lawful) {Cp : σ → Prop} {Cs : τ → Prop} {p : Parser S σ α} {s : Parser S τ β} (hmp : Moves p)
    (hms : Moves s) (hkp : Keeps false Cp p) (hks : Keeps false Cs s)
    (hp : Follows rules a (fun t => (b.seq a).First rules t ∨ F t) p)
    (hs : Follows rules b (fun t => a.First rules t) s) (ha : ¬ a.Null rules)
    (hF : Gram.Apart ((b.seq a).First rules) F) (hF' : Gram.Apart (a.First rules) F) :
    Follows rules (a.sepBy1 b).opt F (sepBy p s) := by
  have h1 := C56_sep_by1 hS hmp hms hkp hks hp hs ha hF
  have hn : ¬ (a.sepBy1 b).Null rules := fun h => ha (Gram.null_seq.1 h).1
  have hap : Gram.Apart ((a.sepBy1 b).First rules) F := fun t h => by
    rcases Gram.first_seq.1 h with h | h
    · exact hF' t h
    · exact absurd h.1 ha
  have e : ∀ i, (sepBy p s).shape i = orSem (sepBy1 p s).shape (Ref.value []) i := by
    intro i
    obtain ⟨x, h2, h3⟩ := C10_sep_by hS hmp hms hkp hks (follows_consuming hp.1 ha) i
    have h4 := C10_sep_by1 hS hmp hms hkp hks (follows_consuming hp.1 ha) i
    have : x = (sepBy1 p s).shape i := by
      revert h2 h4
      simp only [Ref.IsSepBy1]
      cases p.shape i with
      | ok c v j =>
        rintro ⟨y, h5, rfl⟩ ⟨z, h6, h7⟩
        rw [h7, C07_unique h5 h6]
      | soft => rintro rfl h; exact h.symm
      | hard x => rintro rfl h; exact h.symm
      | abort x => rintro rfl h; exact h.symm
    rw [h3, this, orSem]
    cases (sepBy1 p s).shape i <;> rfl
  exact ⟨predicts_congr e (predicts_or h1.1 (predicts_value _) hn),
    accepts_congr e (accepts_or h1.1 h1.2 (accepts_value _) hn (fun t _ h => by cases h) fun _ => hap)⟩

/-- **C56.**  `chainl1`. -/
theorem C56_chainl1 (hS : S.Lawful) {Cp : σ → Prop} {Cs : τ → Prop} {p : Parser S σ α} {s : Parser S τ (α → α → α)}
    (hmp : Moves p) (hms : Moves s) (hkp : Keeps false Cp p) (hks : Keeps false Cs s) (hst : StartsAnew p)
    (hp : Follows rules a (fun t => (b.seq a).First rules t ∨ F t) p)
    (hs : Follows rules b (fun t => a.First rules t) s) (ha : ¬ a.Null rules)
    (hF : Gram.Apart ((b.seq a).First rules) F) : Follows rules (a.sepBy1 b) F (chainl1 p s) := by
  have hc := follows_consuming hp.1 ha
  have hn : ¬ (b.seq a).Null rules := fun h => ha (Gram.null_seq.1 h).2
  have hmw := moves_pair hS hms hmp
  have hkw := (keeps_pair hks hkp).reusable
  have hsh : ∀ i, (map (pair s p) fun x => (x.1, x.2.1)).shape i =
      Ref.bind s.shape (fun f => Ref.map p.shape fun x => (f, x)) i := by
    intro i
    have e1 : (map (pair s p) fun x => (x.1, x.2.1)).shape i = ((pair s p).shape i).map fun x => (x.1, x.2.1) :=
      mapShape (τ := Option τ) ((pair s p).run true i (pair s p).init) _
    rw [e1, pair, C12_tuple s (.cons p .nil) i]
    simp only [Ref.seq, Ref.bind, Ref.map, Ref.value]
    cases s.shape i with
    | ok c v j => dsimp only; cases p.shape j <;> cases c <;> simp [Answer.map, Answer.after]
    | _ => rfl
  have hw : Follows rules (b.seq a) (fun t => (b.seq a).First rules t ∨ F t) (map (pair s p) fun x => (x.1, x.2.1)) :=
    ⟨predicts_congr hsh (predicts_bind hs.1 fun _ => predicts_map hp.1 _),
      accepts_congr hsh (accepts_bind hS
        (C56_weaken hs fun t h => h.elim id fun h => absurd h.1 ha).2 fun _ => accepts_map hp.2 _)⟩
  have hkm := (keeps_map (keeps_pair hks hkp) (fun x => (x.1, x.2.1))).reusable
  have hstar := C56_many hS (moves_map hS hmw _) hkm hw hn hF
  have hmany : ∀ j, Ref.IsMany (Ref.bind s.shape (fun f => Ref.map p.shape fun x => (f, x))) j
      ((many (map (pair s p) fun x => (x.1, x.2.1))).shape j) := by
    intro j
    have h := isMany_shape (C07_many hS (moves_map hS hmw _) hkm (follows_consuming hw.1 hn) j)
    have e : (fun i => (Parser.answer (map (pair s p) fun x => (x.1, x.2.1)) i).shape) =
        Ref.bind s.shape (fun f => Ref.map p.shape fun x => (f, x)) := funext hsh
    rw [e] at h
    exact h
  have e : ∀ i, (chainl1 p s).shape i = Ref.bind p.shape (fun v => Ref.map
      (many (map (pair s p) fun x => (x.1, x.2.1))).shape (List.foldl (fun l fx => fx.1 l fx.2) v)) i := by
    intro i
    have h := C11_chainl1 hS hmp hms hkp hks hc hst i
    simp only [Ref.IsChainl1] at h
    simp only [Ref.bind]
    cases hx : p.shape i with
    | ok c v j =>
      rw [hx] at h
      obtain ⟨x, h1, h2⟩ := h
      rw [h2, C07_unique h1 (hmany j)]
      rfl
    | soft => rw [hx] at h; exact h
    | hard x => rw [hx] at h; exact h
    | abort x => rw [hx] at h; exact h
  have hp' : Accepts rules a ((Gram.star (b.seq a)).Then rules F) p.shape :=
    (C56_weaken hp (fun t h => by
      rcases h with h | h
      · exact .inl (Gram.first_star.1 h)
      · exact .inr h.2)).2
  exact ⟨predicts_congr e (predicts_bind hp.1 fun _ => predicts_map hstar.1 _),
    accepts_congr e (accepts_bind hS hp' fun _ => accepts_map hstar.2 _)⟩

/-- **C56.**  Labels and wrappers. -/
theorem C56_labels {p : Parser S σ α} (hp : Follows rules a F p) (x : Info S.Tok S.Rng) :
    Follows rules a F (expected p x) ∧ Follows rules a F (message p x) ∧ Follows rules a F (silent p) ∧
    Follows rules a F (boxed p) ∧ Follows rules a F (opaqueP p) ∧ Follows rules a F (parserMacro p) ∧
    Follows rules a F (parserMacroUnit p) := by
  have e : ∀ i, (message p x).shape i = p.shape i := by
    intro i
    simp only [Parser.shape, Parser.answer, message, Parser.ofMode]
    generalize p.run true i p.init = o
    obtain ⟨r, j, s⟩ := o
    cases r <;> rfl
  have e' : ∀ i, (silent p).shape i = p.shape i := by
    intro i
    simp only [Parser.shape, Parser.answer, silent, Parser.ofMode]
    generalize p.run true i p.init = o
    obtain ⟨r, j, s⟩ := o
    cases r <;> rfl
  exact ⟨⟨hp.1, hp.2⟩, follows_congr e hp, follows_congr e' hp, ⟨hp.1, hp.2⟩, ⟨hp.1, hp.2⟩, ⟨hp.1, hp.2⟩, ⟨hp.1, hp.2⟩⟩

/-- **C56.**  A recursive grammar: the parser of a nonterminal is made from itself. -/
theorem C56_recur {n : N} {H : Parser S σ α → Prop} {f : Parser S σ α → Parser S σ α} {init : σ} (h0 : H (recur f init 0))
    (hs : ∀ q, H q → H (f q)) (hf : ∀ q, H q → Follows rules (.ref n) F q → Follows rules (rules n) F (f q)) (d : Nat) :
    Follows rules (.ref n) F (recur f init d) := by
  have hH : ∀ d, H (recur f init d) := fun d => by
    induction d with
    | zero => exact h0
    | succ d ih => exact hs _ ih
  induction d with
  | zero => exact ⟨fun _ => trivial, fun _ _ _ _ _ _ _ => .inr ⟨_, rfl⟩⟩
  | succ d ih =>
    exact C56_same (hf _ (hH d) ih) (fun w => Gram.derives_ref.symm) fun t => Gram.first_ref.symm

/-! ## The parser of a grammar -/

section Whole

variable {follow : N → S.Tok → Prop} {rank : N → Nat} {R : Nat}

theorem gram_moves (hS : S.Lawful) {call : N → Parser S Unit Unit} (hc : ∀ n, Moves (call n)) (g : Gram N S.Tok) :
    Moves (g.parser S call) := by
  induction g with
  | empty => exact moves_value hS ()
  | one f => exact moves_ignore hS (moves_satisfy hS f)
  | seq a b iha ihb => exact moves_parserMacroUnit hS (moves_with hS iha ihb)
  | alt a b iha ihb => exact moves_parserMacroUnit hS (moves_or hS iha ihb)
  | star a ih => exact moves_parserMacroUnit hS (moves_skipMany hS ih)
  | ref n => exact hc n

theorem grammar_moves (hS : S.Lawful) (d : Nat) (n : N) : Moves (Grammar.parser S rules d n) := by
  induction d generalizing n with
  | zero => exact .ofMode hS fun m i s => .refl i
  | succ d ih => exact moves_parserMacroUnit hS (gram_moves hS ih _)

/-- **C56.**  The parser of a right-hand side for which one token of look-ahead suffices. -/
theorem C56_side (hS : S.Lawful) {call : N → Parser S Unit Unit} (hm : ∀ n, Moves (call n))
    (hc : ∀ n, Follows rules (.ref n) (follow n) (call n)) (g : Gram N S.Tok) (F : S.Tok → Prop)
    (h : g.LL1 rules follow F) : Follows rules g F (g.parser S call) := by
  induction g generalizing F with
  | empty => exact C56_value ()
  | one f =>
    have h1 : Follows rules (.one fun t => ((if f t then some () else none : Option Unit)).isSome) F (ignore (satisfy S f)) := by
      refine C56_one fun i => ?_
      have h1 := C53_satisfy hS f i
      have e : (ignore (satisfy S f)).shape i = ((satisfy S f).shape i).map fun _ => () :=
        mapShape (τ := Unit) ((satisfy S f).run true i ()) _
      rw [e]
      rcases h1 with ⟨t, j, h1, h2⟩ | ⟨h1, h2⟩
      · refine .inl ⟨t, j, h1, ?_⟩
        rw [h2]
        dsimp only
        by_cases hf : f t = true
        · rw [if_pos hf, if_pos hf]; rfl
        · rw [if_neg hf, if_neg hf]; rfl
      · refine .inr ⟨h1, ?_⟩
        rw [h2]
        cases S.isPartial i <;> rfl
    rw [show (fun t => ((if f t then some () else none : Option Unit)).isSome) = f from
      funext fun t => by cases f t <;> rfl] at h1
    exact h1
  | seq a b iha ihb => exact (C56_labels (C56_with hS (iha _ h.1) (ihb _ h.2)) (.static "")).2.2.2.2.2.2
  | alt a b iha ihb =>
    exact (C56_labels (C56_or hS (gram_moves hS hm a) (gram_moves hS hm b) (iha _ h.1) (ihb _ h.2.1) h.2.2.1 h.2.2.2.1
      h.2.2.2.2) (.static "")).2.2.2.2.2.2
  | star a ih =>
    exact (C56_labels (C56_skip_many hS (gram_moves hS hm a) (keeps_unit (h := false) _).reusable (ih _ h.1) h.2.1 h.2.2)
      (.static "")).2.2.2.2.2.2
  | ref n => exact C56_weaken (hc n) h

/-- **C56.**  The parsers of the nonterminals, however deep their calls nest. -/
theorem C56_nonterminal (hS : S.Lawful) (h : ∀ n, (rules n).LL1 rules follow (follow n)) (d : Nat) (n : N) :
    Follows rules (.ref n) (follow n) (Grammar.parser S rules d n) := by
  induction d generalizing n with
  | zero => exact ⟨fun _ => trivial, fun _ _ _ _ _ _ _ => .inr ⟨_, rfl⟩⟩
  | succ d ih =>
    have h1 := C56_side hS (grammar_moves hS d) ih (rules n) (follow n) (h n)
    exact C56_same (C56_labels h1 (.static "")).2.2.2.2.2.2 (fun w => Gram.derives_ref.symm) fun t => Gram.first_ref.symm

private theorem leftBelow_all (hR : ∀ n, rank n < R) (g : Gram N S.Tok) : g.LeftBelow rules rank R := by
  induction g with
  | empty => trivial
  | one f => trivial
  | seq a b iha ihb => exact ⟨iha, fun _ => ihb⟩
  | alt a b iha ihb => exact ⟨iha, ihb⟩
  | star a ih => exact ih
  | ref n => exact hR n

private theorem later (hS : S.Lawful) {i j : S.Input} {w : List S.Tok} (hr : S.Reads i w j) :
    (w = [] ∧ j = i) ∨ S.size j < S.size i := by
  cases w with
  | nil => exact .inl ⟨rfl, Strm.reads_nil.1 hr⟩
  | cons t ts =>
    have := hS.reads_size hr
    simp only [List.length_cons] at this
    exact .inr (by omega)

/-- Calls of nonterminals of rank below `k` come back on inputs of size `s`, and everything does on smaller ones. -/
private theorem no_abort_step (hS : S.Lawful) (h : Grammar.LL1 rules follow rank R) {s d k : Nat}
    (ihs : ∀ m, m < s → ∀ (d k : Nat) (g : Gram N S.Tok) (F : S.Tok → Prop), g.LL1 rules follow F →
      g.LeftBelow rules rank k → m * R + k ≤ d → ∀ i, S.size i ≤ m →
      ∀ x, (g.parser S (Grammar.parser S rules d)).shape i ≠ .abort x)
    (hcall : ∀ n, rank n < k → ∀ i, S.size i ≤ s → ∀ x, (Grammar.parser S rules d n).shape i ≠ .abort x)
    (g : Gram N S.Tok) (F : S.Tok → Prop) (hg : g.LL1 rules follow F) (hk : g.LeftBelow rules rank k) (hd : s * R ≤ d)
    (i : S.Input) (hi : S.size i ≤ s) (x : Abort) : (g.parser S (Grammar.parser S rules d)).shape i ≠ .abort x := by
  have hsmall : ∀ (g : Gram N S.Tok) (F : S.Tok → Prop), g.LL1 rules follow F → ∀ j, S.size j < S.size i →
      ∀ x, (g.parser S (Grammar.parser S rules d)).shape j ≠ .abort x := by
    intro g F hg j hj
    refine ihs (S.size j) (by omega) d R g F hg (leftBelow_all h.rank g) ?_ j (Nat.le_refl _)
    have : (S.size j + 1) * R ≤ s * R := Nat.mul_le_mul_right R (by omega)
    rw [Nat.add_mul] at this
    omega
  have hfol := fun g F hg => C56_side hS (grammar_moves hS d) (C56_nonterminal hS h.ll1 d) g F hg
  induction g generalizing F x with
  | empty => intro hx; cases hx
  | one f =>
    have e : (ignore (satisfy S f)).shape i = ((satisfy S f).shape i).map fun _ => () :=
      mapShape (τ := Unit) ((satisfy S f).run true i ()) _
    show (ignore (satisfy S f)).shape i ≠ _
    rw [e]
    rcases C53_satisfy hS f i with ⟨t, j, h1, h2⟩ | ⟨h1, h2⟩ <;> rw [h2] <;> intro hx
    · dsimp only at hx
      split at hx <;> cases hx
    · split at hx <;> cases hx
  | seq a b iha ihb =>
    show («with» (a.parser S _) (b.parser S _)).shape i ≠ _
    rw [C12_with]
    simp only [Ref.bind]
    have hp := (hfol a _ hg.1).1 i
    cases hx : (a.parser S (Grammar.parser S rules d)).shape i with
    | abort y => exact absurd hx (iha _ hg.1 hk.1 y)
    | soft => intro h; cases h
    | hard e => intro h; cases h
    | ok c v j =>
      rw [hx] at hp
      obtain ⟨w, h1, h2, _⟩ := hp
      have hb : ∀ y, (b.parser S (Grammar.parser S rules d)).shape j ≠ .abort y := by
        rcases later hS h1 with ⟨rfl, rfl⟩ | hlt
        · exact fun y => ihb F hg.2 (hk.2 h2) y
        · exact hsmall b F hg.2 j hlt
      dsimp only
      cases hy : (b.parser S (Grammar.parser S rules d)).shape j with
      | abort y => exact absurd hy (hb y)
      | soft => cases c <;> intro h <;> cases h
      | hard e => intro h; cases h
      | ok c v j => intro h; cases h
  | alt a b iha ihb =>
    show (or (a.parser S _) (b.parser S _)).shape i ≠ _
    rw [or_shape hS (gram_moves hS (grammar_moves hS d) a) (gram_moves hS (grammar_moves hS d) b), orSem]
    cases hx : (a.parser S (Grammar.parser S rules d)).shape i with
    | abort y => exact absurd hx (iha F hg.1 hk.1 y)
    | soft => exact ihb F hg.2.1 hk.2 x
    | hard e => intro h; cases h
    | ok c v j => intro h; cases h
  | star a ih =>
    show (skipMany (a.parser S _)).shape i ≠ _
    have hp := (hfol a _ hg.1).1
    obtain ⟨y, h1, h2⟩ := C07_skip_many hS (p := a.parser S (Grammar.parser S rules d))
      (gram_moves hS (grammar_moves hS d) a) (keeps_unit (h := false) _).reusable (follows_consuming hp hg.2.1) i
    have h1 : Ref.IsMany (a.parser S (Grammar.parser S rules d)).shape i y.shape := isMany_shape h1
    obtain ⟨vs, c, l, h3, h4⟩ := h1
    obtain ⟨w, h5, _⟩ := predicts_run hp h3
    have hl : ∀ y, (a.parser S (Grammar.parser S rules d)).shape l ≠ .abort y := by
      rcases later hS h5 with ⟨rfl, rfl⟩ | hlt
      · exact fun y => ih _ hg.1 hk y
      · exact hsmall a _ hg.1 l hlt
    intro hx
    have hx' : y.shape = .abort x := by
      simp only [Parser.shape, h2] at hx
      cases y <;> simp_all [Answer.map, Answer.shape]
    rw [hx'] at h4
    cases hz : (a.parser S (Grammar.parser S rules d)).shape l with
    | abort z => exact hl z hz
    | soft => rw [hz] at h4; cases h4
    | hard e => rw [hz] at h4; cases h4
    | ok c v j => rw [hz] at h4; exact h4
  | ref n => exact hcall n hk i hi x

private theorem no_abort (hS : S.Lawful) (h : Grammar.LL1 rules follow rank R) (s : Nat) : ∀ (d k : Nat) (g : Gram N S.Tok)
    (F : S.Tok → Prop), g.LL1 rules follow F → g.LeftBelow rules rank k → s * R + k ≤ d → ∀ i, S.size i ≤ s →
    ∀ x, (g.parser S (Grammar.parser S rules d)).shape i ≠ .abort x := by
  induction s using Nat.strongRecOn with
  | ind s ihs =>
  intro d
  induction d with
  | zero =>
    intro k g F hg hk hd i hi
    exact no_abort_step hS h ihs (fun n hn => by omega) g F hg hk (by omega) i hi
  | succ d ihd =>
    intro k g F hg hk hd i hi
    refine no_abort_step hS h ihs (fun n hn i hi x => ?_) g F hg hk (by omega) i hi
    exact ihd (rank n) (rules n) (follow n) (h.ll1 n) (h.left n) (by omega) i hi x

/-- **C56.**  Every call comes back, if calls can nest deep enough: `R` levels for each token, and `R` more. -/
theorem C56_terminates (hS : S.Lawful) (h : Grammar.LL1 rules follow rank R) (d : Nat) (n : N) (i : S.Input)
    (hd : S.size i * R + R ≤ d) (x : Abort) : (Grammar.parser S rules d n).shape i ≠ .abort x :=
  no_abort hS h (S.size i) d R (.ref n) (follow n) (fun _ h => h) (h.rank n) hd i (Nat.le_refl _) x

/-- **C56.**  What the nonterminal derives is accepted, and nothing but it is consumed, when the end of the input or a token
that can follow comes next. -/
theorem C56_prefix (hS : S.Lawful) (h : Grammar.LL1 rules follow rank R) (d : Nat) (n : N) (i k : S.Input) (w : List S.Tok)
    (hp : S.isPartial i = false) (hd : S.size i * R + R ≤ d) (hr : S.Reads i w k) (hg : (Gram.ref n).Derives rules w)
    (hk : ∀ t l, S.uncons k = (.ok t, l) → follow n t) :
    ∃ c v, (Grammar.parser S rules d n).shape i = .ok c v k := by
  rcases (C56_nonterminal hS h.ll1 d n).2 i w k hp hr hg hk with h1 | ⟨x, h1⟩
  · exact h1
  · exact absurd h1 (C56_terminates hS h d n i hd x)

/-- **C56.**  Followed by `eof`, the parser accepts a complete input exactly if the nonterminal derives its tokens. -/
theorem C56_language (hS : S.Lawful) (hE : S.EndsOnly) (h : Grammar.LL1 rules follow rank R) (d : Nat) (n : N)
    (i k : S.Input) (w : List S.Tok) (hp : S.isPartial i = false) (hd : S.size i * R + R ≤ d) (hr : S.Reads i w k)
    (hk : S.AtEnd k) :
    ((∃ v j, (skip (Grammar.parser S rules d n) (eof S)).parse i = .ok v j) ↔ (Gram.ref n).Derives rules w) ∧
    ((∃ e, (skip (Grammar.parser S rules d n) (eof S)).parse i = .err e) ↔ ¬ (Gram.ref n).Derives rules w) := by
  have hm := moves_skip hS (grammar_moves (rules := rules) hS d n) (moves_eof hS)
  have hco : Coherent (skip (Grammar.parser S rules d n) (eof S)) := .ofMode hS hm.run
  obtain ⟨c1, c2⟩ := C41_parse _ hco i
  have heof : ∀ j, (S.AtEnd j → (eof S).shape j = .ok false () j) ∧ (¬ S.AtEnd j → (eof S).shape j = .soft) := by
    intro j
    obtain ⟨e1, e2, e3⟩ := C44_eof hS hE true j ()
    constructor
    · intro he
      simp only [Parser.shape, Parser.answer, Out.answer]
      rw [show (eof S).init = () from rfl, e1, e2 he]
      rfl
    · intro he
      obtain ⟨e, e4⟩ := e3 he
      simp only [Parser.shape, Parser.answer, Out.answer]
      rw [show (eof S).init = () from rfl, e4]
      rfl
  have hend : ∀ t l, S.uncons k = (.ok t, l) → follow n t := by
    intro t l hu
    obtain ⟨e, he⟩ := hk
    rw [hu] at he
    cases he
  have hshape := C12_skip (Grammar.parser S rules d n) (eof S) i
  -- the answer, in both cases
  have key : ((Gram.ref n).Derives rules w → ∃ c v, (skip (Grammar.parser S rules d n) (eof S)).shape i = .ok c v k) ∧
      (¬ (Gram.ref n).Derives rules w → (skip (Grammar.parser S rules d n) (eof S)).shape i = .soft ∨
        (skip (Grammar.parser S rules d n) (eof S)).shape i = .hard ()) := by
    constructor
    · intro hg
      obtain ⟨c, v, h1⟩ := C56_prefix hS h d n i k w hp hd hr hg hend
      refine ⟨c || false, v, ?_⟩
      rw [hshape, Ref.bind, h1]
      simp only [Ref.map, (heof k).1 hk, Answer.map, Answer.after]
    · intro hg
      have h1 := (C56_nonterminal hS h.ll1 d n).1 i
      have h2 := C56_terminates hS h d n i hd
      rw [hshape, Ref.bind]
      cases hx : (Grammar.parser S rules d n).shape i with
      | abort x => exact absurd hx (h2 x)
      | soft => exact .inl rfl
      | hard e => exact .inr rfl
      | ok c v j =>
        rw [hx] at h1
        obtain ⟨u, h3, h4, _⟩ := h1
        have hj : ¬ S.AtEnd j := by
          rintro ⟨e, he⟩
          have : u = w := by
            rcases reads_comparable h3 hr with ⟨cs, rfl, h5⟩ | ⟨cs, rfl, h5⟩
            · cases cs with
              | nil => simp
              | cons t ts =>
                obtain ⟨l, hl⟩ := reads_head h5
                rw [hl] at he
                cases he
            · cases cs with
              | nil => simp
              | cons t ts =>
                obtain ⟨l, hl⟩ := reads_head h5
                obtain ⟨e', he'⟩ := hk
                rw [hl] at he'
                cases he'
          exact hg (this ▸ h4)
        simp only [Ref.map, (heof j).2 hj, Answer.map, Answer.after]
        cases c <;> simp
  have hok : (∃ v j, (skip (Grammar.parser S rules d n) (eof S)).parse i = .ok v j) ↔ (Gram.ref n).Derives rules w := by
    constructor
    · rintro ⟨v, j, hv⟩
      obtain ⟨c, hc⟩ := (c1 v j).1 hv
      by_cases hg : (Gram.ref n).Derives rules w
      · exact hg
      · have := key.2 hg
        simp only [Parser.shape, hc, Answer.shape] at this
        rcases this with h | h <;> cases h
    · intro hg
      obtain ⟨c, v, h1⟩ := key.1 hg
      simp only [Parser.shape] at h1
      cases hx : (skip (Grammar.parser S rules d n) (eof S)).answer i with
      | ok c' v' j' => exact ⟨v', j', (c1 v' j').2 ⟨c', hx⟩⟩
      | _ => rw [hx] at h1; cases h1
  refine ⟨hok, ?_⟩
  rw [c2]
  constructor
  · intro he hg
    obtain ⟨c, v, h1⟩ := key.1 hg
    simp only [Parser.shape] at h1
    rcases he with he | ⟨e, he⟩ <;> rw [he] at h1 <;> cases h1
  · intro hg
    have := key.2 hg
    simp only [Parser.shape] at this
    cases hx : (skip (Grammar.parser S rules d n) (eof S)).answer i with
    | soft => exact .inl rfl
    | hard e => exact .inr ⟨e, rfl⟩
    | ok c v j => rw [hx] at this; rcases this with h | h <;> cases h
    | abort x => rw [hx] at this; rcases this with h | h <;> cases h

end Whole

/-! ## Examples -/

section Examples

private abbrev B := sliceS Nat 1

/-- Sums of digits and sums in parentheses: `expr ::= term ('+' term)*`, `term ::= digit | '(' expr ')'`; the tokens are
`0` (opening), `1` (closing), `2` (digit) and `3` (plus). -/
private abbrev sums : Bool → Gram Bool Nat
  | true => .seq (.ref false) (.star (.seq (.one (· == 3)) (.ref false)))
  | false => .alt (.one (· == 2)) (.seq (.one (· == 0)) (.seq (.ref true) (.one (· == 1))))

private def sumsFollow : Bool → Nat → Prop
  | true, t => t = 1
  | false, t => t = 3 ∨ t = 1

private theorem sums_ll1 : Grammar.LL1 sums sumsFollow (fun n => if n then 1 else 0) 2 := by
  refine ⟨fun n => ?_, fun n => ?_, fun n => by cases n <;> decide⟩
  · cases n <;>
      simp [Gram.LL1, sumsFollow, Gram.Then, Gram.Apart, Gram.first_one, Gram.first_seq, Gram.first_star, Gram.null_one,
        Gram.null_seq, Gram.null_star]
  · cases n <;> simp [Gram.LeftBelow, Gram.null_one]

example (i k : B.Input) (w : List Nat) (hr : B.Reads i w k) (hk : B.AtEnd k) :
    (∃ v j, (skip (Grammar.parser B sums (B.size i * 2 + 2) true) (eof B)).parse i = .ok v j) ↔
      (Gram.ref true).Derives sums w :=
  (C56_language (slice_lawful Nat 1) (slice_endsOnly Nat 1) sums_ll1 _ true i k w rfl (Nat.le_refl _) hr hk).1

example : (skip (Grammar.parser B sums 16 true) (eof B)).parse ⟨0, [2, 3, 0, 2, 3, 2, 1]⟩ = .ok () ⟨7, []⟩ := by rfl
example : ∃ e, (skip (Grammar.parser B sums 16 true) (eof B)).parse ⟨0, [2, 3, 0, 2, 3, 1]⟩ = .err e := ⟨_, rfl⟩

/-- Lists in brackets, `'[' (digit (',' digit)*)? ']'`, with the values of their elements; whatever comes after it. -/
example (rules : Empty → Gram Empty Nat) : Follows (S := B) rules
    (.seq (.one fun t => (if t = 0 then some t else none).isSome)
      (.seq (Gram.sepBy1 (.one fun t => (if t = 2 then some t else none).isSome)
          (.one fun t => (if t = 3 then some t else none).isSome)).opt
        (.one fun t => (if t = 1 then some t else none).isSome)))
    (fun _ => True) (between (token B 0) (token B 1) (sepBy (token B 2) (token B 3))) := by
  have hS := slice_lawful Nat 1
  refine C56_between hS (C56_one (C53_token hS 0)) ?_ (C56_one (C53_token hS 1))
  refine C56_sep_by hS (moves_token hS 2) (moves_token hS 3) (keeps_unit (h := false) _) (keeps_unit (h := false) _)
    (C56_one (C53_token hS 2)) (C56_one (C53_token hS 3)) ?_ ?_ ?_
  · simp [Gram.null_one]
  · intro t h h'
    simp [Gram.Then, Gram.first_seq, Gram.first_one, Gram.null_one] at h h'
    simp [h] at h'
  · intro t h h'
    simp [Gram.Then, Gram.first_one, Gram.null_one] at h h'
    simp [h] at h'

/-- Two alternatives that begin alike. -/
private abbrev alike : Unit → Gram Unit Nat := fun _ =>
  .alt (.seq (.one (· == 1)) (.one (· == 2))) (.seq (.one (· == 1)) (.one (· == 3)))

/-- One token of look-ahead has to suffice: where two alternatives begin with the same token, the second one is derived but
not accepted. -/
theorem C56_common_prefix : (Gram.ref ()).Derives alike [1, 3] ∧
    ∃ e, (skip (Grammar.parser B alike 9 ()) (eof B)).parse ⟨0, [1, 3]⟩ = .err e :=
  ⟨.ref (.right (.seq (u := [1]) (v := [3]) (.one rfl) (.one rfl))), _, rfl⟩

/-- An empty alternative before another one. -/
private abbrev early : Unit → Gram Unit Nat := fun _ => .alt .empty (.one (· == 1))

/-- Only the last alternative may be empty. -/
theorem C56_empty_first : (Gram.ref ()).Derives early [1] ∧
    ∃ e, (skip (Grammar.parser B early 9 ()) (eof B)).parse ⟨0, [1]⟩ = .err e :=
  ⟨.ref (.right (.one rfl)), _, rfl⟩

end Examples

end Verif
