import Verif.Proof.TwinSeq
import Verif.Proof.Moves

/-!
# Repetitions of parsers that do the same except for the errors
-/

namespace Verif

variable {S : Strm} {E : ErrOps S.Tok S.Rng S.Pos} {convS : S.SErr → E.SErr} {conv : S.Err → E.Err}
variable {σ τ υ α β γ : Type} {p : Parser S σ α} {q : Parser (S.withErrors E convS conv) σ α}
variable {p' : Parser S τ β} {q' : Parser (S.withErrors E convS conv) τ β}

/-- The same state of an `Iter`, except for the error. -/
inductive IterStTwin {F G : Type} : IterSt F → IterSt G → Prop where
  | ok : IterStTwin .ok .ok
  | peekErr (e : F) (e' : G) : IterStTwin (.peekErr e) (.peekErr e')
  | commitErr (e : F) (e' : G) : IterStTwin (.commitErr e) (.commitErr e')
  | abort (a : Abort) : IterStTwin (.abort a) (.abort a)

/-- The same `Iter`, except for the error. -/
structure IterTwin (x : IterS S σ) (y : IterS (S.withErrors E convS conv) σ) : Prop where
  inp : x.inp = y.inp
  committed : x.committed = y.committed
  state : IterStTwin x.state y.state
  st : x.st = y.st
  first : x.first = y.first

theorem IterTwin.next (h : TwinP p q) {x : IterS S σ} {y : IterS (S.withErrors E convS conv) σ} (hx : IterTwin x y) :
    (iterNext p x).1 = (iterNext q y).1 ∧ IterTwin (iterNext p x).2 (iterNext q y).2 := by
  obtain ⟨i, c, s, t, f⟩ := x
  obtain ⟨i', c', s', t', f'⟩ := y
  obtain ⟨h1, h2, h3, h4, h5⟩ := hx
  dsimp only at h1 h2 h3 h4 h5
  subst h1 h2 h4 h5
  unfold iterNext
  dsimp only
  twin h.run f i t : p.run f i t, q.run f i t
  case peekErr =>
    generalize S.reset (S.checkpoint i) _ = x
    obtain ⟨_ | _, k⟩ := x <;> exact ⟨rfl, rfl, rfl, by constructor, rfl, rfl⟩
  case commitOk => exact ⟨rfl, rfl, rfl, h3, rfl, rfl⟩
  case peekOk => exact ⟨rfl, rfl, rfl, h3, rfl, rfl⟩
  all_goals exact ⟨rfl, rfl, rfl, by constructor, rfl, rfl⟩

theorem IterTwin.extend (h : TwinP p q) (f : α → Option β) : ∀ (n : Nat) (lim : Option Nat) (els : List β) {x : IterS S σ}
    {y : IterS (S.withErrors E convS conv) σ}, IterTwin x y →
    (iterExtend p f n lim els x).1 = (iterExtend q f n lim els y).1 ∧ IterTwin (iterExtend p f n lim els x).2 (iterExtend q f n lim els y).2
  | 0, lim, els, x, y, hx => by
    cases lim with
    | none => exact ⟨rfl, hx.inp, hx.committed, .abort _, hx.st, hx.first⟩
    | some k =>
      cases k with
      | zero => exact ⟨rfl, hx⟩
      | succ k => exact ⟨rfl, hx.inp, hx.committed, .abort _, hx.st, hx.first⟩
  | n + 1, lim, els, x, y, hx => by
    by_cases hl : lim = some 0
    · subst hl
      exact ⟨rfl, hx⟩
    · have hn := hx.next h
      rw [iterExtend_succ p f n hl, iterExtend_succ q f n hl]
      generalize iterNext p x = a at hn ⊢
      generalize iterNext q y = b at hn ⊢
      obtain ⟨a, x'⟩ := a
      obtain ⟨b, y'⟩ := b
      obtain ⟨h1, h2⟩ := hn
      dsimp only at h1 h2
      subst h1
      cases a with
      | none => exact ⟨rfl, h2⟩
      | some v =>
        dsimp only
        cases f v with
        | none => exact ⟨rfl, h2⟩
        | some w => exact IterTwin.extend h f n _ _ h2

theorem IterTwin.result {x : IterS S σ} {y : IterS (S.withErrors E convS conv) σ} (h : IterTwin x y) (v : List α) :
    (x.intoResultFast v).1.Twin (y.intoResultFast v).1 ∧ (x.intoResultFast v).2 = (y.intoResultFast v).2 := by
  obtain ⟨i, c, s, t, f⟩ := x
  obtain ⟨i', c', s', t', f'⟩ := y
  obtain ⟨h1, h2, h3, h4, h5⟩ := h
  dsimp only at h1 h2 h3 h4 h5
  subst h1 h2 h4 h5
  unfold IterS.intoResultFast
  cases h3 <;> cases c <;> exact ⟨by constructor, rfl⟩

theorem IterTwin.fail {x : IterS S σ} {y : IterS (S.withErrors E convS conv) σ} (h : IterTwin x y) (e : S.SErr) (e' : E.SErr) :
    (x.fail (α := α) e).Twin (y.fail (α := α) e') := by
  obtain ⟨i, c, s, t, f⟩ := x
  obtain ⟨i', c', s', t', f'⟩ := y
  obtain ⟨h1, h2, h3, h4, h5⟩ := h
  dsimp only at h1 h2 h3 h4 h5
  subst h1 h2 h4 h5
  unfold IterS.fail
  cases h3 <;> cases c <;> constructor

theorem IterTwin.new (m : Bool) (i : S.Input) (s : σ) :
    IterTwin (convS := convS) (conv := conv) (E := E) (IterS.new m i s) (IterS.new (S := S.withErrors E convS conv) m i s) :=
  ⟨rfl, rfl, .ok, rfl, rfl⟩

namespace TwinP

theorem many (h : TwinP p q) : TwinP (many p) (many q) :=
  .ofMode (by rw [h.init]) h.count fun m i s => by
    dsimp only
    have hx := IterTwin.extend h some (S.size i + 2) none s.1 (IterTwin.new m i s.2)
    rw [hx.1]
    have hr := hx.2.result (iterExtend q some (S.size i + 2) none s.1 (IterS.new m i s.2)).1
    exact ⟨hr.1, hx.2.inp, by rw [hr.2, hx.2.st]⟩

theorem many1Rest (h : TwinP p q) (m : Bool) (i : S.Input) (s : Many1St σ α) : OutTwin (many1Rest p m i s) (many1Rest q m i s) := by
  unfold Verif.many1Rest
  dsimp only
  have hx := IterTwin.extend h some (S.size i + 2) none s.elements
    (show IterTwin (⟨i, s.committed, .ok, s.child, m⟩ : IterS S σ) (⟨i, s.committed, .ok, s.child, m⟩ : IterS (S.withErrors E convS conv) σ) from
      ⟨rfl, rfl, .ok, rfl, rfl⟩)
  rw [hx.1]
  have hr := hx.2.result (iterExtend q some (S.size i + 2) none s.elements ⟨i, s.committed, .ok, s.child, m⟩).1
  exact ⟨hr.1, hx.2.inp, by dsimp only; rw [hr.2, hx.2.st, Twin.isOk hr.1]⟩

theorem many1 (h : TwinP p q) : TwinP (many1 p) (many1 q) :=
  .ofMode (by rw [h.init]) h.count fun m i s => by
    dsimp only
    split
    · twin h.run m i s.child : p.run m i s.child, q.run m i s.child
      case commitOk => exact many1Rest h _ _ _
      case peekOk => exact many1Rest h _ _ _
      all_goals twins
    · exact many1Rest h _ _ _

theorem countMinMax (lo hi : Nat) (h : TwinP p q) : TwinP (countMinMax lo hi p) (countMinMax lo hi q) :=
  .ofMode (by rw [h.init]) rfl fun m i s => by
    dsimp only
    have hx := IterTwin.extend h some (hi - s.count + 1) (some (hi - s.count)) s.elements (IterTwin.new m i s.child)
    rw [hx.1]
    generalize iterExtend q some (hi - s.count + 1) (some (hi - s.count)) s.elements (IterS.new m i s.child) = y at hx ⊢
    split
    · twins
    · split
      · exact ⟨hx.2.fail _ _, hx.2.inp, by dsimp only; rw [hx.2.st]⟩
      · have hr := hx.2.result y.1
        exact ⟨hr.1, hx.2.inp, by dsimp only; rw [hr.2, hx.2.st, Twin.isOk hr.1]⟩

theorem counted (n : Nat) (h : TwinP p q) : TwinP (Verif.count n p) (Verif.count n q) := (h.countMinMax 0 n).parserMacroUnit

theorem value (v : α) : TwinP (E := E) (convS := convS) (conv := conv) (value S v) (value _ v) := .ofLazy rfl rfl fun _ => by twinsl

theorem skipCount (n : Nat) (h : TwinP p q) : TwinP (skipCount n p) (skipCount n q) :=
  (((h.map _).counted n).«with» (value ())).parserMacro

theorem skipCountMinMax (lo hi : Nat) (h : TwinP p q) : TwinP (skipCountMinMax lo hi p) (skipCountMinMax lo hi q) :=
  (((h.map _).countMinMax lo hi).«with» (value ())).parserMacro

theorem skipMany (h : TwinP p q) : TwinP (skipMany p) (skipMany q) := h.ignore.many.ignore.parserMacro

theorem skipMany1 (h : TwinP p q) : TwinP (skipMany1 p) (skipMany1 q) := h.ignore.many1.ignore.parserMacro

theorem combine (c : Commit Unit) {r : ParseResult α S.Err} {r' : ParseResult α E.Err} (h : r.Twin r') :
    (ParseResult.combineCommit c fun _ => r).Twin (ParseResult.combineCommit c fun _ => r') := by
  cases c <;> cases h <;> constructor

theorem sepBy1 (h : TwinP p q) (h' : TwinP p' q') : TwinP (sepBy1 p p') (sepBy1 q q') := by
  have hw := h'.boxed.«with» h.boxed
  refine .ofMode (by rw [hw.init]) h.count fun m i s => ?_
  dsimp only
  cases hs : s.1 with
  | some c =>
    dsimp only
    have hx := IterTwin.extend hw some (S.size i + 2) none s.2.1 (IterTwin.new m i s.2.2)
    rw [hx.1]
    generalize iterExtend (Verif.«with» (Verif.boxed q') (Verif.boxed q)) some (S.size i + 2) none s.2.1 (IterS.new m i s.2.2) = y at hx ⊢
    have hr := hx.2.result y.1
    exact ⟨combine _ hr.1, hx.2.inp, by dsimp only; rw [hr.2, hx.2.st, Twin.isOk hr.1]⟩
  | none =>
    dsimp only
    twin h.run m i s.2.2.tail.1.2 : p.run m i s.2.2.tail.1.2, q.run m i s.2.2.tail.1.2
    case commitOk v =>
      rename_i j t
      have hx := IterTwin.extend hw some (S.size j + 2) none (s.2.1 ++ [v]) (IterTwin.new m j (s.2.2.setB t))
      rw [hx.1]
      generalize iterExtend (Verif.«with» (Verif.boxed q') (Verif.boxed q)) some (S.size j + 2) none (s.2.1 ++ [v]) (IterS.new m j (s.2.2.setB t)) = y at hx ⊢
      have hr := hx.2.result y.1
      exact ⟨combine (.commit ()) hr.1, hx.2.inp, by dsimp only; rw [hr.2, hx.2.st, Twin.isOk hr.1]⟩
    case peekOk v =>
      rename_i j t
      have hx := IterTwin.extend hw some (S.size j + 2) none (s.2.1 ++ [v]) (IterTwin.new m j (s.2.2.setB t))
      rw [hx.1]
      generalize iterExtend (Verif.«with» (Verif.boxed q') (Verif.boxed q)) some (S.size j + 2) none (s.2.1 ++ [v]) (IterS.new m j (s.2.2.setB t)) = y at hx ⊢
      have hr := hx.2.result y.1
      exact ⟨combine (.peek ()) hr.1, hx.2.inp, by dsimp only; rw [hr.2, hx.2.st, Twin.isOk hr.1]⟩
    all_goals twins

theorem emptyList : TwinP (E := E) (convS := convS) (conv := conv) (emptyList S α) (emptyList _ α) := .ofLazy rfl rfl fun _ => by twinsl

theorem sepBy (h : TwinP p q) (h' : TwinP p' q') : TwinP (sepBy p p') (sepBy q q') :=
  have ho := (h.boxed.sepBy1 h'.boxed).or emptyList
  .ofMode ho.init h.count ho.run

theorem sepEndBy1 (h : TwinP p q) (h' : TwinP p' q') : TwinP (sepEndBy1 p p') (sepEndBy1 q q') := by
  have hw := h'.boxed.«with» h.boxed.optional
  refine .ofMode (by rw [hw.init]) rfl fun m i s => ?_
  dsimp only
  cases hs : s.1 with
  | some c =>
    dsimp only
    have hx := IterTwin.extend hw id (S.size i + 2) none s.2.1 (IterTwin.new m i s.2.2)
    rw [hx.1]
    generalize iterExtend (Verif.«with» (Verif.boxed q') (Verif.optional (Verif.boxed q))) id (S.size i + 2) none s.2.1 (IterS.new m i s.2.2) = y at hx ⊢
    have hr := hx.2.result y.1
    exact ⟨combine _ hr.1, hx.2.inp, by dsimp only; rw [hr.2, hx.2.st, Twin.isOk hr.1, hx.2.committed]⟩
  | none =>
    dsimp only
    twin h.run m i s.2.2.tail.1.2 : p.run m i s.2.2.tail.1.2, q.run m i s.2.2.tail.1.2
    case commitOk v =>
      rename_i j t
      have hx := IterTwin.extend hw id (S.size j + 2) none (s.2.1 ++ [v]) (IterTwin.new m j (s.2.2.setB t))
      rw [hx.1]
      generalize iterExtend (Verif.«with» (Verif.boxed q') (Verif.optional (Verif.boxed q))) id (S.size j + 2) none (s.2.1 ++ [v])
        (IterS.new m j (s.2.2.setB t)) = y at hx ⊢
      have hr := hx.2.result y.1
      exact ⟨combine (.commit ()) hr.1, hx.2.inp, by dsimp only; rw [hr.2, hx.2.st, Twin.isOk hr.1, hx.2.committed]⟩
    case peekOk v =>
      rename_i j t
      have hx := IterTwin.extend hw id (S.size j + 2) none (s.2.1 ++ [v]) (IterTwin.new m j (s.2.2.setB t))
      rw [hx.1]
      generalize iterExtend (Verif.«with» (Verif.boxed q') (Verif.optional (Verif.boxed q))) id (S.size j + 2) none (s.2.1 ++ [v])
        (IterS.new m j (s.2.2.setB t)) = y at hx ⊢
      have hr := hx.2.result y.1
      exact ⟨combine (.peek ()) hr.1, hx.2.inp, by dsimp only; rw [hr.2, hx.2.st, Twin.isOk hr.1, hx.2.committed]⟩
    all_goals twins

theorem sepEndBy (h : TwinP p q) (h' : TwinP p' q') : TwinP (sepEndBy p p') (sepEndBy q q') :=
  have ho := (h.boxed.sepEndBy1 h'.boxed).or emptyList
  .ofMode ho.init rfl ho.run

theorem chainl1Loop {t : Parser S τ ((α → α → α) × α × Unit)} {t' : Parser (S.withErrors E convS conv) τ ((α → α → α) × α × Unit)}
    (h : TwinP t t') : ∀ (n : Nat) (m : Bool) (l : α) (c : Commit Unit) (i : S.Input) (s : τ),
    OutTwin (chainl1Loop t n m l c i s) (chainl1Loop t' n m l c i s)
  | 0, _, _, _, _, _ => by twins
  | n + 1, m, l, c, i, s => by
    unfold Verif.chainl1Loop
    dsimp only
    twin h.run m i s : t.run m i s, t'.run m i s
    case commitOk => exact chainl1Loop h n _ _ _ _ _
    case peekOk => exact chainl1Loop h n _ _ _ _ _
    case peekErr => exact twin_reset fun _ => ⟨by cases c <;> constructor, rfl, rfl⟩
    all_goals twins

theorem chainl1 {o : Parser S τ (α → α → α)} {o' : Parser (S.withErrors E convS conv) τ (α → α → α)} (h : TwinP p q) (h' : TwinP o o') :
    TwinP (chainl1 p o) (chainl1 q o') := by
  have ht := h'.boxed.pair h.boxed
  refine .ofMode (by rw [ht.init]) rfl fun m i s => ?_
  dsimp only
  cases hs : s.1 with
  | some c => exact chainl1Loop ht _ _ _ _ _ _
  | none =>
    dsimp only
    twin h.run false i s.2.tail.1.2 : p.run false i s.2.tail.1.2, q.run false i s.2.tail.1.2
    case commitOk => exact chainl1Loop ht _ _ _ _ _ _
    case peekOk => exact chainl1Loop ht _ _ _ _ _ _
    all_goals twins

theorem chainr1Both {o : Parser S τ (α → α → α)} {o' : Parser (S.withErrors E convS conv) τ (α → α → α)} (h : TwinP p q) (h' : TwinP o o') : ∀ n : Nat,
    (∀ i : S.Input, LazyTwin (S := S) (E := E) (chainr1Lazy p o n i) (chainr1Lazy q o' n i)) ∧
    (∀ (l : α) (c : Commit Unit) (i : S.Input), LazyTwin (S := S) (E := E) (chainr1Loop p o n l c i) (chainr1Loop q o' n l c i))
  | 0 => ⟨fun i => by unfold chainr1Lazy; twinsl, fun l c i => by unfold chainr1Loop; twinsl⟩
  | n + 1 => by
    have ih := chainr1Both h h' n
    refine ⟨fun i => ?_, fun l c i => ?_⟩
    · unfold chainr1Lazy
      dsimp only
      twinl h.lazy i : p.lazy i, q.lazy i
      case commitOk => exact ih.2 _ _ _
      case peekOk => exact ih.2 _ _ _
      all_goals twinsl
    · unfold chainr1Loop
      dsimp only
      twinl h'.lazy i : o.lazy i, o'.lazy i
      case commitOk =>
        rename_i k f
        dsimp only [ParseResult.toStd]
        twinl ih.1 k : chainr1Lazy p o n k, chainr1Lazy q o' n k
        case commitOk => exact ih.2 _ _ _
        case peekOk => exact ih.2 _ _ _
        case peekErr =>
          try dsimp only [ParseResult.toStd]
          generalize S.reset (S.checkpoint k) _ = x
          obtain ⟨_ | _, k⟩ := x <;> cases c <;> twinsl
        all_goals twinsl
      case peekOk =>
        rename_i k f
        dsimp only [ParseResult.toStd]
        twinl ih.1 k : chainr1Lazy p o n k, chainr1Lazy q o' n k
        case commitOk => exact ih.2 _ _ _
        case peekOk => exact ih.2 _ _ _
        case peekErr =>
          try dsimp only [ParseResult.toStd]
          generalize S.reset (S.checkpoint k) _ = x
          obtain ⟨_ | _, k⟩ := x <;> cases c <;> twinsl
        all_goals twinsl
      case peekErr =>
        dsimp only [ParseResult.toStd]
        generalize S.reset (S.checkpoint i) _ = x
        obtain ⟨_ | _, k⟩ := x <;> cases c <;> twinsl
      all_goals twinsl

theorem chainr1 {o : Parser S τ (α → α → α)} {o' : Parser (S.withErrors E convS conv) τ (α → α → α)} (h : TwinP p q) (h' : TwinP o o') :
    TwinP (chainr1 p o) (chainr1 q o') := .ofLazy rfl rfl fun i => (chainr1Both h h' _).1 i

theorem takeUntilLoop (h : TwinP p q) (m : Bool) : ∀ (n : Nat) (c : Commit Unit) (i : S.Input) (els : List S.Tok) (s : σ),
    OutTwin (takeUntilLoop p m n c i els s) (takeUntilLoop q m n c i els s)
  | 0, _, _, _, _ => by twins
  | n + 1, c, i, els, s => by
    unfold Verif.takeUntilLoop
    dsimp only
    twin h.run m i s : p.run m i s, q.run m i s
    case commitOk => exact twin_reset fun _ => by cases c <;> twins
    case peekOk => exact twin_reset fun _ => by cases c <;> twins
    case peekErr =>
      refine twin_reset fun k => ?_
      twinl (twin_uncons (E := E) (convS := convS) (conv := conv) k) : S.unconsP k, (S.withErrors E convS conv).unconsP k
      case commitOk => exact takeUntilLoop h m n _ _ _ _
      case peekOk => exact takeUntilLoop h m n _ _ _ _
      all_goals twins
    case commitErr => exact twin_reset fun _ => by twins
    case abort => twins

theorem takeUntil (h : TwinP p q) : TwinP (takeUntil p) (takeUntil q) :=
  .ofMode (by rw [h.init]) rfl fun _ _ _ => takeUntilLoop h _ _ _ _ _ _

theorem skipUntil (h : TwinP p q) : TwinP (skipUntil p) (skipUntil q) := (h.takeUntil.«with» (value ())).parserMacro

theorem repeatUntilLoop (h : TwinP p q) (h' : TwinP p' q') : ∀ (n : Nat) (m : Bool) (c : Commit Unit) (i : S.Input) (s : RepeatSt σ τ α),
    OutTwin (repeatUntilLoop p p' n m c i s) (repeatUntilLoop q q' n m c i s)
  | 0, _, _, _, _ => by twins
  | n + 1, m, c, i, s => by
    unfold Verif.repeatUntilLoop
    dsimp only
    split
    · twin h.run m i s.parseSt : p.run m i s.parseSt, q.run m i s.parseSt
      case commitOk => exact repeatUntilLoop h h' n _ _ _ _
      case peekOk => exact repeatUntilLoop h h' n _ _ _ _
      all_goals twins
    · twin h'.run m i s.endSt : p'.run m i s.endSt, q'.run m i s.endSt
      case commitOk => exact twin_reset fun _ => by cases c <;> twins
      case peekOk => exact twin_reset fun _ => by cases c <;> twins
      case peekErr => exact twin_reset fun k => repeatUntilLoop h h' n _ _ _ _
      case commitErr => exact twin_reset fun _ => by twins
      case abort => twins

theorem repeatUntil (h : TwinP p q) (h' : TwinP p' q') : TwinP (repeatUntil p p') (repeatUntil q q') :=
  .ofMode (by rw [h.init, h'.init]) rfl fun _ _ _ => repeatUntilLoop h h' _ _ _ _ _

theorem repeatSkipUntil (h : TwinP p q) (h' : TwinP p' q') : TwinP (repeatSkipUntil p p') (repeatSkipUntil q q') :=
  ((h.repeatUntil h').«with» (value ())).parserMacro

theorem escapedLoop [DecidableEq S.Tok] (esc : S.Tok) (h : TwinP p q) (h' : TwinP p' q') : ∀ (n : Nat) (c : Commit Unit) (i : S.Input),
    LazyTwin (S := S) (E := E) (escapedLoop p esc p' n c i) (escapedLoop (S := S.withErrors E convS conv) q esc q' n c i)
  | 0, _, _ => by twinsl
  | n + 1, c, i => by
    unfold Verif.escapedLoop
    dsimp only
    have ih := escapedLoop esc h h' n
    twinl h.lazy i : p.lazy i, q.lazy i
    case commitOk => exact ih _ _
    case peekOk => exact ih _ _
    case peekErr =>
      rename_i j _ _
      twinl (twin_uncons (E := E) (convS := convS) (conv := conv) j) : S.unconsP j, (S.withErrors E convS conv).unconsP j
      case commitOk =>
        rename_i k _
        rw [← h'.init]
        split
        · twin h'.committed true k p'.init : p'.committed true k p'.init, q'.committed true k p'.init
          case commitOk => exact ih _ _
          case peekOk => exact ih _ _
          all_goals twinsl
        · generalize S.reset (S.checkpoint j) _ = x
          obtain ⟨_ | _, k⟩ := x <;> cases c <;> twinsl
      case peekOk =>
        rename_i k _
        rw [← h'.init]
        split
        · twin h'.committed true k p'.init : p'.committed true k p'.init, q'.committed true k p'.init
          case commitOk => exact ih _ _
          case peekOk => exact ih _ _
          all_goals twinsl
        · generalize S.reset (S.checkpoint j) _ = x
          obtain ⟨_ | _, k⟩ := x <;> cases c <;> twinsl
      case peekErr =>
        generalize S.reset (S.checkpoint j) _ = x
        obtain ⟨_ | _, k⟩ := x <;> cases c <;> twinsl
      all_goals twinsl
    all_goals twinsl

theorem escaped [DecidableEq S.Tok] (esc : S.Tok) (h : TwinP p q) (h' : TwinP p' q') :
    TwinP (escaped p esc p') (escaped (S := S.withErrors E convS conv) q esc q') := .ofLazy rfl rfl fun _ => escapedLoop esc h h' _ _ _

theorem iterateLoop {J : Type} {f : J → S.Input → Parser S σ α} {g : J → S.Input → Parser (S.withErrors E convS conv) σ α}
    (h : ∀ x i, TwinP (f x i) (g x i)) : ∀ (js : List J) (m c : Bool) (buf : List α) (i : S.Input) (s : σ),
    OutTwin (iterateLoop f js m c buf i s) (iterateLoop (S := S.withErrors E convS conv) g js m c buf i s)
  | [], _, c, _, _, _ => by cases c <;> twins
  | x :: js, m, c, buf, i, s => by
    unfold Verif.iterateLoop
    dsimp only
    twin (h x i).run m i s : (f x i).run m i s, (g x i).run m i s
    case commitOk => exact iterateLoop h js _ _ _ _ _
    case peekOk => exact iterateLoop h js _ _ _ _ _
    case peekErr =>
      generalize S.reset (S.checkpoint i) _ = x
      obtain ⟨_ | _, k⟩ := x <;> cases c <;> twins
    all_goals twins

theorem iterate {J : Type} (js : List J) {f : J → S.Input → Parser S σ α} {g : J → S.Input → Parser (S.withErrors E convS conv) σ α} (s : σ)
    (h : ∀ x i, TwinP (f x i) (g x i)) : TwinP (iterate js f s) (iterate js g s) :=
  .ofMode rfl rfl fun m i s => by
    generalize (if m = true then none else s.iter) = x
    obtain _ | ⟨xs, _ | x⟩ := x <;> exact iterateLoop h _ _ _ _ _ _

end TwinP

end Verif
