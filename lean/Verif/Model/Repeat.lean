import Verif.Model.Choice
import Verif.Model.Token

/-!
# Repetition (`src/parser/repeat.rs`)

`F: Extend<T> + Default` collections are `List`s extended at the end.  Loops run on fuel derived from
the number of remaining tokens (or the requested count); running out of fuel is `abort diverge`: it
means that more successful iterations were made than there are tokens (one more is allowed for a
resumed first element), i.e. one of them consumed nothing.  Closures are pure, so such an iteration
repeats for ever.
-/

namespace Verif

variable {S : Strm} {σ τ α β : Type}

/-- repeat.rs:246-250 `enum State<E>` (plus the model-only abort). -/
inductive IterSt (E : Type) where
  | ok
  | peekErr (e : E)
  | commitErr (e : E)
  | abort (a : Abort)

/-- repeat.rs:233-244 `struct Iter` without the parser. -/
structure IterS (S : Strm) (σ : Type) where
  inp : S.Input
  committed : Bool
  state : IterSt S.Err
  st : σ
  first : Bool

/-- repeat.rs:258-267 `Iter::new`. -/
def IterS.new (m : Bool) (i : S.Input) (s : σ) : IterS S σ := ⟨i, false, .ok, s, m⟩

/-- repeat.rs:347-374 `Iter::next`. -/
def iterNext (p : Parser S σ α) (it : IterS S σ) : Option α × IterS S σ :=
  let before := S.checkpoint it.inp
  let o := p.run it.first it.inp it.st
  match o.res with
  | .peekOk v => (some v, { it with inp := o.inp, st := o.st, first := true })
  | .commitOk v => (some v, { it with inp := o.inp, st := o.st, first := true, committed := true })
  | .peekErr e =>
    match S.reset before o.inp with
    | (some e', j) => (none, { it with inp := j, st := o.st, state := .commitErr e' })
    | (none, j) => (none, { it with inp := j, st := o.st, state := .peekErr e.error })
  | .commitErr e => (none, { it with inp := o.inp, st := o.st, state := .commitErr e })
  | .abort a => (none, { it with inp := o.inp, st := o.st, state := .abort a })

/-- `elements.extend(iter)` where `iter` is `Iter` (repeat.rs:404, 494, 736), limited to `lim` items
(`take`, repeat.rs:145) and mapped/stopped by `f` (`scan`, repeat.rs:920). -/
def iterExtend (p : Parser S σ α) (f : α → Option β) :
    Nat → Option Nat → List β → IterS S σ → List β × IterS S σ
  | _, some 0, els, it => (els, it)
  | 0, _, els, it => (els, { it with state := .abort .diverge })
  | n + 1, lim, els, it =>
    match iterNext p it with
    | (none, it') => (els, it')
    | (some x, it') =>
      match f x with
      | some y => iterExtend p f n (lim.map (· - 1)) (els ++ [y]) it'
      | none => (els, it')

/-- repeat.rs:274-285 `into_result_`. -/
def IterS.intoResult (it : IterS S σ) (v : α) : ParseResult α S.Err :=
  match it.state with
  | .ok | .peekErr _ => if it.committed then .commitOk v else .peekOk v
  | .commitErr e => .commitErr e
  | .abort a => .abort a

/-- repeat.rs:287-302 `into_result_fast`: the result and what remains in `value` (taken on success). -/
def IterS.intoResultFast (it : IterS S σ) (v : List α) : ParseResult (List α) S.Err × List α :=
  match it.state with
  | .ok | .peekErr _ => (if it.committed then .commitOk v else .peekOk v, [])
  | .commitErr e => (.commitErr e, v)
  | .abort a => (.abort a, v)

/-- repeat.rs:304-335 `Iter::fail`. -/
def IterS.fail (it : IterS S σ) (err : S.SErr) : ParseResult α S.Err :=
  match it.state with
  | .ok =>
    let e := S.E.fromError (S.position it.inp) err
    if it.committed then .commitErr e else .peekErr (Tracked.of e)
  | .peekErr e =>
    let e := S.E.merge e (S.E.fromError (S.position it.inp) err)
    if it.committed then .commitErr e else .peekErr (Tracked.of e)
  | .commitErr e => .commitErr (S.E.add e err)
  | .abort a => .abort a

/-- repeat.rs:378-448 `many`. -/
def many (p : Parser S σ α) : Parser S (List α × σ) (List α) :=
  .ofMode ([], p.init)
    (fun m i s =>
      let r := iterExtend p some (S.size i + 2) none s.1 (IterS.new m i s.2)
      let x := r.2.intoResultFast r.1
      ⟨x.1, r.2.inp, (x.2, r.2.st)⟩)
    (addError := p.addError) (addCommitted := p.addError) (count := p.count)

/-- repeat.rs:459 the partial state of `many1`. -/
structure Many1St (σ α : Type) where
  parsedOne : Bool
  committed : Bool
  elements : List α
  child : σ

/-- repeat.rs:486-499 the second part of `many1`. -/
def many1Rest (p : Parser S σ α) (m : Bool) (i : S.Input) (s : Many1St σ α) :
    Out S (Many1St σ α) (List α) :=
  let r := iterExtend p some (S.size i + 2) none s.elements ⟨i, s.committed, .ok, s.child, m⟩
  let x := r.2.intoResultFast r.1
  ⟨x.1, r.2.inp,
    ⟨if x.1.isOk then false else s.parsedOne, s.committed, x.2, r.2.st⟩⟩

/-- repeat.rs:451-536 `many1` (release build: the `debug_assert!` at 476 is in `many1Debug`). -/
def many1 (p : Parser S σ α) : Parser S (Many1St σ α) (List α) :=
  .ofMode ⟨false, false, [], p.init⟩
    (fun m i s =>
      if m || !s.parsedOne then
        let o := p.run m i s.child
        match o.res with
        | .commitOk v => many1Rest p true o.inp ⟨true, true, s.elements ++ [v], o.st⟩
        | .peekOk v => many1Rest p true o.inp ⟨true, false, s.elements ++ [v], o.st⟩
        | .commitErr e => ⟨.commitErr e, o.inp, { s with child := o.st }⟩
        | .peekErr e => ⟨.peekErr e, o.inp, { s with child := o.st }⟩
        | .abort a => ⟨.abort a, o.inp, { s with child := o.st }⟩
      else many1Rest p m i s)
    (addError := p.addError) (addCommitted := p.addError) (count := p.count)

/-- repeat.rs:475-476 `many1` in a build with debug assertions. -/
def many1Debug (p : Parser S σ α) : Parser S (Many1St σ α) (List α) := checked (many1 p) (·.parsedOne)

/-- repeat.rs:126 the partial state of `count_min_max`. -/
structure CountSt (σ α : Type) where
  count : Nat
  elements : List α
  child : σ

/-- repeat.rs:76-200 `count_min_max(min, max, parser)`; the constructor asserts `min <= max`.
`self.max - *count` (143) panics on underflow. -/
def countMinMax (lo hi : Nat) (p : Parser S σ α) : Parser S (CountSt σ α) (List α) :=
  .ofMode ⟨0, [], p.init⟩
    (fun m i s =>
      if hi < s.count then ⟨.abort .panic, i, s⟩
      else
        let rem := hi - s.count
        let r := iterExtend p some (rem + 1) (some rem) s.elements (IterS.new m i s.child)
        let count := s.count + (r.1.length - s.elements.length)
        if count < lo then
          ⟨r.2.fail (S.E.message (.format s!"expected {lo - count} more elements")), r.2.inp,
            ⟨count, r.1, r.2.st⟩⟩
        else
          let x := r.2.intoResultFast r.1
          ⟨x.1, r.2.inp, ⟨if x.1.isOk then 0 else count, x.2, r.2.st⟩⟩)
    (addError := p.addError)

/-- repeat.rs:22-48 `count`: `count_min_max(0, n)` through `parser!` without a partial state. -/
def count (n : Nat) (p : Parser S σ α) : Parser S Unit (List α) := parserMacroUnit (countMinMax 0 n p)

/-- repeat.rs:50-73 `skip_count`. -/
def skipCount (n : Nat) (p : Parser S σ α) :
    Parser S (SeqSt Unit ((Option Unit × Unit) × Unit) Unit) Unit :=
  parserMacro («with» (count n (map p fun _ => ())) (value S ()))

/-- repeat.rs:202-231 `skip_count_min_max`. -/
def skipCountMinMax (lo hi : Nat) (p : Parser S σ α) :
    Parser S (SeqSt (CountSt σ Unit) ((Option Unit × Unit) × Unit) Unit) Unit :=
  parserMacro («with» (countMinMax lo hi (map p fun _ => ())) (value S ()))

/-- repeat.rs:558-583 `skip_many`. -/
def skipMany (p : Parser S σ α) : Parser S (List Unit × σ) Unit :=
  parserMacro (ignore (many (ignore p)))

/-- repeat.rs:585-610 `skip_many1`. -/
def skipMany1 (p : Parser S σ α) : Parser S (Many1St σ Unit) Unit :=
  parserMacro (ignore (many1 (ignore p)))

/-- The partial state of `with(separator, parser)`. -/
abbrev SepSt (σ τ α : Type) := SeqSt τ ((Option α × σ) × Unit) Unit

/-- `child_state.B.state` (repeat.rs:726, 908). -/
def SepSt.setB {σ τ α : Type} (s : SepSt σ τ α) (b : σ) : SepSt σ τ α :=
  { s with tail := ((s.tail.1.1, b), ()) }

/-- repeat.rs:688-792 `sep_by1`; `parsed_one` is never set to `Some`. -/
def sepBy1 (p : Parser S σ α) (sep : Parser S τ β) :
    Parser S (Option (Commit Unit) × List α × SepSt σ τ α) (List α) :=
  let rest := «with» (boxed sep) (boxed p)
  let go := fun (m : Bool) (c : Commit Unit) (one : Option (Commit Unit)) (els : List α)
      (i : S.Input) (child : SepSt σ τ α) =>
    let r := iterExtend rest some (S.size i + 2) none els (IterS.new m i child)
    let x := r.2.intoResultFast r.1
    (⟨ParseResult.combineCommit c fun _ => x.1, r.2.inp,
      (if x.1.isOk then none else one, x.2, r.2.st)⟩ :
      Out S (Option (Commit Unit) × List α × SepSt σ τ α) (List α))
  .ofMode (none, [], rest.init)
    (fun m i s =>
      match s.1 with
      | some c => go m c s.1 s.2.1 i s.2.2
      | none =>
        let o := p.run m i s.2.2.tail.1.2
        let child := SepSt.setB s.2.2 o.st
        match o.res with
        | .commitOk v => go m (.commit ()) none (s.2.1 ++ [v]) o.inp child
        | .peekOk v => go m (.peek ()) none (s.2.1 ++ [v]) o.inp child
        | .commitErr e => ⟨.commitErr e, o.inp, (none, s.2.1, child)⟩
        | .peekErr e => ⟨.peekErr e, o.inp, (none, s.2.1, child)⟩
        | .abort a => ⟨.abort a, o.inp, (none, s.2.1, child)⟩)
    (addError := p.addError) (addCommitted := sep.addError) (count := p.count)

/-- repeat.rs:643, 826 the fallback `parser(|_| Ok((F::default(), Commit::Peek(()))))`. -/
def emptyList (S : Strm) (α : Type) : Parser S Unit (List α) :=
  fnParser S fun i => (.ok [] (.peek ()), i)

/-- repeat.rs:613-685 `sep_by`. -/
def sepBy (p : Parser S σ α) (sep : Parser S τ β) :
    Parser S (Option ((Option (Commit Unit) × List α × SepSt σ τ α) ⊕ Unit)) (List α) :=
  let q := or (sepBy1 (boxed p) (boxed sep)) (emptyList S α)
  .ofMode q.init q.run (addError := p.addError) (addCommitted := sep.addError) (count := p.count)

/-- repeat.rs:869-978 `sep_end_by1`. -/
def sepEndBy1 (p : Parser S σ α) (sep : Parser S τ β) :
    Parser S (Option (Commit Unit) × List α × SepSt σ τ (Option α)) (List α) :=
  let rest := «with» (boxed sep) (optional (boxed p))
  let go := fun (m : Bool) (c : Commit Unit) (els : List α)
      (i : S.Input) (child : SepSt σ τ (Option α)) =>
    let r := iterExtend rest id (S.size i + 2) none els (IterS.new m i child)
    let one := if r.2.committed then some (.commit ()) else some c
    let x := r.2.intoResultFast r.1
    (⟨ParseResult.combineCommit c fun _ => x.1, r.2.inp,
      (if x.1.isOk then none else one, x.2, r.2.st)⟩ :
      Out S (Option (Commit Unit) × List α × SepSt σ τ (Option α)) (List α))
  .ofMode (none, [], rest.init)
    (fun m i s =>
      match s.1 with
      | some c => go m c s.2.1 i s.2.2
      | none =>
        let o := p.run m i s.2.2.tail.1.2
        let child := SepSt.setB s.2.2 o.st
        match o.res with
        | .commitOk v => go m (.commit ()) (s.2.1 ++ [v]) o.inp child
        | .peekOk v => go m (.peek ()) (s.2.1 ++ [v]) o.inp child
        | .commitErr e => ⟨.commitErr e, o.inp, (none, s.2.1, child)⟩
        | .peekErr e => ⟨.peekErr e, o.inp, (none, s.2.1, child)⟩
        | .abort a => ⟨.abort a, o.inp, (none, s.2.1, child)⟩)
    (addError := p.addError)

/-- repeat.rs:795-866 `sep_end_by`. -/
def sepEndBy (p : Parser S σ α) (sep : Parser S τ β) :
    Parser S (Option ((Option (Commit Unit) × List α × SepSt σ τ (Option α)) ⊕ Unit)) (List α) :=
  let q := or (sepEndBy1 (boxed p) (boxed sep)) (emptyList S α)
  .ofMode q.init q.run (addError := p.addError)

/-- The partial state of `(op, p)` in `chainl1`. -/
abbrev ChainSt (σ τ α : Type) := SeqSt τ ((Option α × σ) × Unit) (α → α → α)

/-- repeat.rs:1017-1038 the loop of `chainl1`. -/
def chainl1Loop (t : Parser S τ ((α → α → α) × α × Unit)) :
    Nat → (m : Bool) → (l : α) → Commit Unit → S.Input → τ →
    Out S (Option (α × Commit Unit) × τ) α
  | 0, _, _, _, i, s => ⟨.abort .diverge, i, (none, s)⟩
  | n + 1, m, l, c, i, s =>
    let before := S.checkpoint i
    let o := t.run m i s
    match o.res.toStd with
    | .ok (op, r, _) rest => chainl1Loop t n true (op l r) (c.merge rest) o.inp o.st
    | .err (.commit e) => ⟨.commitErr e.error, o.inp, (some (l, c), o.st)⟩
    | .err (.peek _) =>
      S.tryReset before o.inp (none, o.st) fun j => ⟨.ofStd (.ok l c), j, (none, o.st)⟩
    | .abort a => ⟨.abort a, o.inp, (none, o.st)⟩

/-- repeat.rs:981-1068 `chainl1`; the first operand is always parsed with `parse_partial`. -/
def chainl1 (p : Parser S σ α) (op : Parser S τ (α → α → α)) :
    Parser S (Option (α × Commit Unit) × ChainSt σ τ α) α :=
  let t := pair (boxed op) (boxed p)
  .ofMode (none, t.init)
    (fun m i s =>
      match s.1 with
      | some (l, c) => chainl1Loop t (S.size i + 2) m l c i s.2
      | none =>
        let o := p.run false i s.2.tail.1.2
        let child := { s.2 with tail := ((s.2.tail.1.1, o.st), ()) }
        match o.res with
        | .commitOk v => chainl1Loop t (S.size o.inp + 2) true v (.commit ()) o.inp child
        | .peekOk v => chainl1Loop t (S.size o.inp + 2) true v (.peek ()) o.inp child
        | .commitErr e => ⟨.commitErr e, o.inp, (none, child)⟩
        | .peekErr e => ⟨.peekErr e, o.inp, (none, child)⟩
        | .abort a => ⟨.abort a, o.inp, (none, child)⟩)
    (addError := p.addError)

mutual
/-- repeat.rs:1082-1112 `Chainr1::parse_lazy`. -/
def chainr1Lazy (p : Parser S σ α) (op : Parser S τ (α → α → α)) :
    Nat → S.Input → ParseResult α S.Err × S.Input
  | 0, i => (.abort .diverge, i)
  | n + 1, i =>
    match p.lazy i with
    | (.commitOk l, j) => chainr1Loop p op n l (.commit ()) j
    | (.peekOk l, j) => chainr1Loop p op n l (.peek ()) j
    | (.commitErr e, j) => (.commitErr e, j)
    | (.peekErr e, j) => (.peekErr e, j)
    | (.abort a, j) => (.abort a, j)
/-- repeat.rs:1085-1110 its loop. -/
def chainr1Loop (p : Parser S σ α) (op : Parser S τ (α → α → α)) :
    Nat → α → Commit Unit → S.Input → ParseResult α S.Err × S.Input
  | 0, _, _, i => (.abort .diverge, i)
  | n + 1, l, c, i =>
    let before := S.checkpoint i
    let x := op.lazy i
    match x.1.toStd with
    | .err (.commit e) => (.commitErr e.error, x.2)
    | .err (.peek _) =>
      match S.reset before x.2 with
      | (some e, k) => (.commitErr e, k)
      | (none, k) => (.ofStd (.ok l c), k)
    | .abort a => (.abort a, x.2)
    | .ok f rest =>
      let c := c.merge rest
      let before := S.checkpoint x.2
      let y := chainr1Lazy p op n x.2
      match y.1.toStd with
      | .ok r rest => chainr1Loop p op n (f l r) (c.merge rest) y.2
      | .err (.commit e) => (.commitErr e.error, y.2)
      | .err (.peek _) =>
        match S.reset before y.2 with
        | (some e, k) => (.commitErr e, k)
        | (none, k) => (.ofStd (.ok l c), k)
      | .abort a => (.abort a, y.2)
end

/-- repeat.rs:1071-1140 `chainr1`. -/
def chainr1 (p : Parser S σ α) (op : Parser S τ (α → α → α)) : Parser S Unit α :=
  .ofLazy () (fun i => chainr1Lazy p op (2 * S.size i + 3) i) (addError := p.addError)

/-- repeat.rs:1170-1190 the loop of `take_until`; `els` is `output`. -/
def takeUntilLoop (e : Parser S σ α) (m : Bool) :
    Nat → Commit Unit → S.Input → List S.Tok → σ → Out S (List S.Tok × σ) (List S.Tok)
  | 0, _, i, els, s => ⟨.abort .diverge, i, (els, s)⟩
  | n + 1, c, i, els, s =>
    let before := S.checkpoint i
    let o := e.run m i s
    match o.res.toStd with
    | .ok _ rest =>
      S.tryReset before o.inp (els, o.st) fun j =>
        match c.merge rest with
        | .commit _ => ⟨.commitOk els, j, ([], o.st)⟩
        | .peek _ => ⟨.peekOk els, j, ([], o.st)⟩
    | .err (.peek _) =>
      S.tryReset before o.inp (els, o.st) fun j =>
        match S.unconsP j with
        | (.commitOk t, k) | (.peekOk t, k) =>
          takeUntilLoop e m n (.commit ()) k (els ++ [t]) o.st
        | (.commitErr x, k) => ⟨.commitErr x, k, (els, o.st)⟩
        | (.peekErr x, k) => ⟨.peekErr x, k, (els, o.st)⟩
        | (.abort a, k) => ⟨.abort a, k, (els, o.st)⟩
    | .err (.commit x) =>
      S.tryReset before o.inp (els, o.st) fun j => ⟨.commitErr x.error, j, (els, o.st)⟩
    | .abort a => ⟨.abort a, o.inp, (els, o.st)⟩

/-- repeat.rs:1143-1227 `take_until`. -/
def takeUntil (e : Parser S σ α) : Parser S (List S.Tok × σ) (List S.Tok) :=
  .ofMode ([], e.init)
    (fun m i s => takeUntilLoop e m (S.size i + 1) (.peek ()) i s.1 s.2)

/-- repeat.rs:1229-1262 `skip_until`. -/
def skipUntil (e : Parser S σ α) :
    Parser S (SeqSt (List S.Tok × σ) ((Option Unit × Unit) × Unit) Unit) Unit :=
  parserMacro («with» (takeUntil e) (value S ()))

/-- repeat.rs:1278 the partial state of `repeat_until`. -/
structure RepeatSt (σ τ α : Type) where
  output : List α
  isParse : Bool
  parseSt : σ
  endSt : τ

/-- repeat.rs:1294-1321 the loop of `repeat_until`. -/
def repeatUntilLoop (p : Parser S σ α) (e : Parser S τ β) :
    Nat → (m : Bool) → Commit Unit → S.Input → RepeatSt σ τ α → Out S (RepeatSt σ τ α) (List α)
  | 0, _, _, i, s => ⟨.abort .diverge, i, s⟩
  | n + 1, m, c, i, s =>
    if s.isParse then
      let o := p.run m i s.parseSt
      let s := { s with parseSt := o.st }
      match o.res with
      | .commitOk v =>
        repeatUntilLoop p e n m (c.merge (.commit ())) o.inp
          { s with output := s.output ++ [v], isParse := false }
      | .peekOk v =>
        repeatUntilLoop p e n m (c.merge (.peek ())) o.inp
          { s with output := s.output ++ [v], isParse := false }
      | .commitErr x => ⟨.commitErr x, o.inp, s⟩
      | .peekErr x => ⟨.peekErr x, o.inp, s⟩
      | .abort a => ⟨.abort a, o.inp, s⟩
    else
      let before := S.checkpoint i
      let o := e.run m i s.endSt
      let s := { s with endSt := o.st }
      match o.res.toStd with
      | .ok _ rest =>
        S.tryReset before o.inp s fun j =>
          match c.merge rest with
          | .commit _ => ⟨.commitOk s.output, j, { s with output := [] }⟩
          | .peek _ => ⟨.peekOk s.output, j, { s with output := [] }⟩
      | .err (.peek _) =>
        S.tryReset before o.inp s fun j =>
          repeatUntilLoop p e n true c j { s with isParse := true }
      | .err (.commit x) =>
        S.tryReset before o.inp s fun j => ⟨.commitErr x.error, j, s⟩
      | .abort a => ⟨.abort a, o.inp, s⟩

/-- repeat.rs:1265-1337 `repeat_until`. -/
def repeatUntil (p : Parser S σ α) (e : Parser S τ β) : Parser S (RepeatSt σ τ α) (List α) :=
  .ofMode ⟨[], false, p.init, e.init⟩
    (fun m i s => repeatUntilLoop p e (2 * S.size i + 3) m (.peek ()) i s)

/-- repeat.rs:1339-1374 `repeat_skip_until`. -/
def repeatSkipUntil (p : Parser S σ α) (e : Parser S τ β) :
    Parser S (SeqSt (RepeatSt σ τ α) ((Option Unit × Unit) × Unit) Unit) Unit :=
  parserMacro («with» (repeatUntil p e) (value S ()))

/-- repeat.rs:1396-1436 the loop of `escaped`. -/
def escapedLoop [DecidableEq S.Tok] (p : Parser S σ α) (escape : S.Tok) (q : Parser S τ β) :
    Nat → Commit Unit → S.Input → ParseResult Unit S.Err × S.Input
  | 0, _, i => (.abort .diverge, i)
  | n + 1, c, i =>
    match p.lazy i with
    | (.peekOk _, j) => escapedLoop p escape q n c j
    | (.commitOk _, j) => escapedLoop p escape q n (.commit ()) j
    | (.commitErr e, j) => (.commitErr e, j)
    | (.abort a, j) => (.abort a, j)
    | (.peekErr _, j) =>
      let checkpoint := S.checkpoint j
      let stop := fun (k : S.Input) =>
        match S.reset checkpoint k with
        | (some e, l) => (ParseResult.commitErr e, l)
        | (none, l) => (if c.isPeek then .peekOk () else .commitOk (), l)
      match S.unconsP j with
      | (.commitOk t, k) | (.peekOk t, k) =>
        if t = escape then
          let o := q.committed true k q.init
          match o.res with
          | .peekOk _ => escapedLoop p escape q n c o.inp
          | .commitOk _ => escapedLoop p escape q n (.commit ()) o.inp
          | .commitErr e => (.commitErr e, o.inp)
          | .peekErr e => (.commitErr e.error, o.inp)
          | .abort a => (.abort a, o.inp)
        else stop k
      | (.commitErr e, k) => (.commitErr e, k)
      | (.peekErr _, k) => stop k
      | (.abort a, k) => (.abort a, k)

/-- repeat.rs:1376-1488 `escaped`; its partial state is a phantom. -/
def escaped [DecidableEq S.Tok] (p : Parser S σ α) (escape : S.Tok) (q : Parser S τ β) :
    Parser S Unit Unit :=
  .ofLazy () (fun i => escapedLoop p escape q (S.size i + 1) (.peek ()) i)
    (addError := fun e => addExpected S (.token escape) (p.addError e))

/-- repeat.rs:1504-1509 the partial state of `iterate`. -/
structure IterateSt (J σ α : Type) where
  iter : Option (List J × Option J)
  committed : Bool
  buf : List α
  next : σ

/-- repeat.rs:1531-1577: `consume` each item of the iterator in turn.  The closure's access to the
input is read-only here. -/
def iterateLoop {J : Type} (f : J → S.Input → Parser S σ α) :
    List J → (m committed : Bool) → List α → S.Input → σ → Out S (IterateSt J σ α) (List α)
  | [], _, committed, buf, i, s =>
    ⟨if committed then .commitOk buf else .peekOk buf, i, ⟨none, false, [], s⟩⟩
  | x :: xs, m, committed, buf, i, s =>
    let before := S.checkpoint i
    let o := (f x i).run m i s
    match o.res with
    | .peekOk v => iterateLoop f xs true committed (buf ++ [v]) o.inp o.st
    | .commitOk v => iterateLoop f xs true true (buf ++ [v]) o.inp o.st
    | .peekErr e =>
      match S.reset before o.inp with
      | (some e', j) => ⟨.commitErr e', j, ⟨some (xs, some x), committed, buf, o.st⟩⟩
      | (none, j) =>
        ⟨if committed then .commitErr e.error else .peekErr e, j,
          ⟨some (xs, some x), committed, buf, o.st⟩⟩
    | .commitErr e => ⟨.commitErr e, o.inp, ⟨some (xs, some x), committed, buf, o.st⟩⟩
    | .abort a => ⟨.abort a, o.inp, ⟨some (xs, some x), committed, buf, o.st⟩⟩

/-- repeat.rs:1490-1620 `iterate`; a stored item (`next_item`) is retried first. -/
def iterate {J : Type} (items : List J) (f : J → S.Input → Parser S σ α) (init : σ) :
    Parser S (IterateSt J σ α) (List α) :=
  .ofMode ⟨none, false, [], init⟩
    (fun m i s =>
      match (if m then none else s.iter) with
      | some (xs, some x) => iterateLoop f (x :: xs) m s.committed s.buf i s.next
      | some (xs, none) => iterateLoop f xs m s.committed s.buf i s.next
      | none => iterateLoop f items m s.committed s.buf i s.next)

end Verif
