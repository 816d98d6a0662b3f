import Verif.Model.Combinator

/-!
# Sequencing (`src/parser/sequence.rs`)

A Rust tuple `(H, A, B, ..)` is a head parser and a list `Seq` of the other members; its output
`(h, a, b, ..)` is the right-nested pair `(h, a, b, .., ())`.
-/

namespace Verif

/-- `u8::saturating_add` / `saturating_sub` on error offsets. -/
def satAdd (a b : Nat) : Nat := min (a + b) 255

/-- What `add_errors` needs to know about a member parser. -/
structure ErrPart (S : Strm) where
  addError : Tracked S.Err → Tracked S.Err
  addCommitted : Tracked S.Err → Tracked S.Err
  count : Nat

/-- The error-reporting methods of a parser. -/
def Parser.part {S : Strm} {σ α : Type} (p : Parser S σ α) : ErrPart S :=
  ⟨p.addError, p.addCommitted, p.count⟩

/-- sequence.rs:55-84 `add_sequence_error`, iterated over the members as in 124-134.
`i` is the index of the next member. -/
def addSequenceErrors {S : Strm} (firstEmpty innerOffset : Nat) :
    Nat → Tracked S.Err → List (ErrPart S) → Tracked S.Err
  | _, err, [] => err
  | i, err, p :: ps =>
    let err := if i + 1 = firstEmpty then p.addCommitted err else err
    if firstEmpty ≤ i then
      let err := if err.offset ≤ 1 then { err with offset := innerOffset } else err
      let err := p.addError err
      if err.offset ≤ 1 then err
      else addSequenceErrors firstEmpty innerOffset (i + 1)
        { err with offset := err.offset - p.count } ps
    else
      addSequenceErrors firstEmpty innerOffset (i + 1)
        { err with offset := err.offset - p.count } ps

/-- sequence.rs:104-139 `add_errors`: result and input. When something was committed it reads one
token (and leaves it read). -/
def seqAddErrors {S : Strm} {α : Type} (parts : List (ErrPart S)) (err : Tracked S.Err)
    (firstEmpty offset : Nat) (i : S.Input) : ParseResult α S.Err × S.Input :=
  let innerOffset := err.offset
  let err := { err with offset := offset }
  if firstEmpty ≠ 0 then
    match S.uncons i with
    | (.ok t, j) =>
      let err := { err with error := S.E.add err.error (S.E.unexpected (.token t)) }
      (.commitErr (addSequenceErrors firstEmpty innerOffset 0 err parts).error, j)
    | (.error _, j) => (.commitErr (addSequenceErrors firstEmpty innerOffset 0 err parts).error, j)
  else (.peekErr err, i)

/-- The members of a tuple after the first. Indices: the type of their `SequenceState`s
(sequence.rs:24-27: `(value, state)`) and of their outputs. -/
inductive Seq (S : Strm) : Type → Type → Type 1 where
  | nil : Seq S Unit Unit
  | cons {σ τ α β : Type} (p : Parser S σ α) (ps : Seq S τ β) : Seq S ((Option α × σ) × τ) (α × β)

/-- How the member steps of a tuple end. -/
inductive SeqEnd (E : Type) where
  /-- all members have a value -/
  | done
  /-- a member failed with `PeekErr` and the input was reset: `add_errors!` -/
  | fail (e : Tracked E)
  | commitErr (e : E)
  | peekErr (e : Tracked E)
  | abort (a : Abort)

/-- Locals and arguments after the member steps. -/
structure SeqOut (S : Strm) (τ : Type) where
  fin : SeqEnd S.Err
  firstEmpty : Nat
  offset : Nat
  inp : S.Input
  st : τ

namespace Seq

variable {S : Strm}

/-- Default states. -/
def init {τ β : Type} : Seq S τ β → τ
  | nil => ()
  | cons p ps => ((none, p.init), ps.init)

/-- The members' error methods. -/
def parts {τ β : Type} : Seq S τ β → List (ErrPart S)
  | nil => []
  | cons p ps => p.part :: ps.parts

/-- sequence.rs:201-233 the steps for the members after the first.  `m`, `fe`, `cur`, `off` are the
locals `mode.is_first()`, `first_empty_parser`, `current_parser` and the field `state.offset`. -/
def steps {τ β : Type} : Seq S τ β → (m : Bool) → (fe cur off : Nat) → S.Input → τ → SeqOut S τ
  | nil, _, fe, _, off, i, st => ⟨.done, fe, off, i, st⟩
  | cons p ps, m, fe, cur, off, i, ((v, s), t) =>
    if m || v.isNone then
      let cur := cur + 1
      let before := S.checkpoint i
      let o := p.run m i s
      match o.res with
      | .commitOk x =>
        let r := steps ps true (cur + 1) cur (satAdd off p.count) o.inp t
        ⟨r.fin, r.firstEmpty, r.offset, r.inp, ((some x, o.st), r.st)⟩
      | .peekOk x =>
        let r := steps ps true fe cur (satAdd off p.count) o.inp t
        ⟨r.fin, r.firstEmpty, r.offset, r.inp, ((some x, o.st), r.st)⟩
      | .peekErr e =>
        match S.reset before o.inp with
        | (some e', j) =>
          if fe ≠ 0 then ⟨.commitErr e', fe, off, j, ((v, o.st), t)⟩
          else ⟨.peekErr (Tracked.of e'), fe, off, j, ((v, o.st), t)⟩
        | (none, j) => ⟨.fail e, fe, off, j, ((v, o.st), t)⟩
      | .commitErr e => ⟨.commitErr e, fe, off, o.inp, ((v, o.st), t)⟩
      | .abort a => ⟨.abort a, fe, off, o.inp, ((v, o.st), t)⟩
    else
      let r := steps ps m fe cur off i t
      ⟨r.fin, r.firstEmpty, r.offset, r.inp, ((v, s), r.st)⟩

/-- sequence.rs:42-47, 236 take the values out of the states; `none` is `unreachable_unchecked`. -/
def take {τ β : Type} : Seq S τ β → τ → Option β × τ
  | nil, st => (some (), st)
  | cons _ ps, ((v, s), t) =>
    let r := take ps t
    (match v, r.1 with
      | some x, some y => some (x, y)
      | _, _ => none,
     ((none, s), r.2))

/-- sequence.rs:269-284 `add_error` for the members after the first; `LAST` is the last member. -/
def addErrors {τ β : Type} : Seq S τ β → Tracked S.Err → Tracked S.Err
  | nil, e => e
  | cons p ps, e =>
    let prev := e.offset
    let e := p.addError e
    if e.offset ≤ 1 then { e with offset := e.offset - 1 }
    else
      match ps with
      | nil => e
      | cons .. =>
        addErrors ps (if e.offset = prev then { e with offset := e.offset - p.count } else e)

/-- sequence.rs:287-291: the last member's `add_committed_expected_error`. -/
def lastCommitted {τ β : Type} : Seq S τ β → (Tracked S.Err → Tracked S.Err) →
    Tracked S.Err → Tracked S.Err
  | nil, f => f
  | cons p ps, _ => lastCommitted ps p.addCommitted

/-- sequence.rs:245-248: the sum of the members' counts (as a number; for the `u8` see Model/Count.lean). -/
def counts {τ β : Type} : Seq S τ β → Nat
  | nil => 0
  | cons p ps => p.count + ps.counts

end Seq

/-- sequence.rs:88-98 the partial state of a tuple. -/
structure SeqSt (σ τ α : Type) where
  value : Option α
  head : σ
  tail : τ
  offset : Nat

variable {S : Strm} {σ τ υ α β γ : Type}

/-- sequence.rs:235-241 the end of `parse_mode_impl`. -/
def seqFinish (ps : Seq S τ β) (fe : Nat) (i : S.Input) (st : SeqSt σ τ α) :
    Out S (SeqSt σ τ α) (α × β) :=
  let r := ps.take st.tail
  let st' := { st with value := none, tail := r.2 }
  match st.value, r.1 with
  | some x, some y => ⟨if fe ≠ 0 then .commitOk (x, y) else .peekOk (x, y), i, st'⟩
  | _, _ => ⟨.abort .panic, i, st'⟩

/-- sequence.rs:201-241 everything after the head: member steps, then finish or report. -/
def seqRest (p : Parser S σ α) (ps : Seq S τ β) (m : Bool) (fe : Nat) (i : S.Input)
    (st : SeqSt σ τ α) : Out S (SeqSt σ τ α) (α × β) :=
  let r := ps.steps m fe 0 st.offset i st.tail
  let st := { st with tail := r.st, offset := r.offset }
  match r.fin with
  | .done => seqFinish ps r.firstEmpty r.inp st
  | .fail e =>
    let x := seqAddErrors (p.part :: ps.parts) e r.firstEmpty r.offset r.inp
    ⟨x.1, x.2, st⟩
  | .commitErr e => ⟨.commitErr e, r.inp, st⟩
  | .peekErr e => ⟨.peekErr e, r.inp, st⟩
  | .abort a => ⟨.abort a, r.inp, st⟩

/-- sequence.rs:157-242 `parse_mode_impl` of a tuple. -/
def seqRun (p : Parser S σ α) (ps : Seq S τ β) (m : Bool) (i : S.Input) (st : SeqSt σ τ α) :
    Out S (SeqSt σ τ α) (α × β) :=
  if m || st.value.isNone then
    let o := p.run m i st.head
    let st := { st with head := o.st }
    match o.res with
    | .commitOk x =>
      seqRest p ps true 1 o.inp { st with value := some x, offset := satAdd p.count 1 }
    | .peekOk x =>
      seqRest p ps true 0 o.inp { st with value := some x, offset := satAdd p.count 1 }
    | .peekErr e => ⟨.peekErr e, o.inp, st⟩
    | .commitErr e => ⟨.commitErr e, o.inp, st⟩
    | .abort a => ⟨.abort a, o.inp, st⟩
  else seqRest p ps m 0 i st

/-- sequence.rs:86-315 a tuple of parsers. -/
def tuple (p : Parser S σ α) (ps : Seq S τ β) : Parser S (SeqSt σ τ α) (α × β) :=
  .ofMode ⟨none, p.init, ps.init, 0⟩ (seqRun p ps)
    (addError := fun e =>
      let prev := e.offset
      let e := p.addError e
      if e.offset ≤ 1 then { e with offset := e.offset - 1 }
      else ps.addErrors (if e.offset = prev then { e with offset := e.offset - p.count } else e))
    (addCommitted := ps.lastCommitted p.addCommitted)
    (count := p.count + ps.counts)

/-- The pair `(p, q)`. -/
abbrev pair (p : Parser S σ α) (q : Parser S τ β) :
    Parser S (SeqSt σ ((Option β × τ) × Unit) α) (α × β × Unit) := tuple p (.cons q .nil)

/-- sequence.rs:509-554 `with`: a pair whose first member is `ignore`d; `parse_lazy` (520-525) goes
through the pair's. -/
def «with» (p : Parser S σ α) (q : Parser S τ β) :
    Parser S (SeqSt σ ((Option β × τ) × Unit) Unit) β :=
  let t := pair (ignore p) q
  { Parser.ofMode (S := S) t.init (fun m i s => (t.run m i s).mapRes (·.map fun x => x.2.1))
      t.addError t.addCommitted t.count with
    lazy := fun i => let r := t.lazy i; (r.1.map fun x => x.2.1, r.2) }

/-- sequence.rs:557-591 `skip`. -/
def skip (p : Parser S σ α) (q : Parser S τ β) :
    Parser S (SeqSt σ ((Option Unit × τ) × Unit) α) α :=
  let t := pair p (ignore q)
  .ofMode t.init (fun m i s => (t.run m i s).mapRes (·.map fun x => x.1))
    t.addError t.addCommitted t.count

/-- sequence.rs:596-624 `between(open, close, parser)`. -/
def between (o : Parser S σ α) (c : Parser S υ γ) (p : Parser S τ β) :
    Parser S (SeqSt σ ((Option β × τ) × (Option γ × υ) × Unit) α) β :=
  parserMacro (map (tuple o (.cons p (.cons c .nil))) fun x => x.2.1)

/-- The shared end of `then`, `then_partial` and `then_ref` (sequence.rs:671-695, 759-781, 864-888):
how the continuation's result is merged with the first parser's commitment, and whether the cache is
dropped (`none`) or kept. -/
def thenMerge (committed : Bool) : ParseResult α S.Err → ParseResult α S.Err
  | .peekOk x => if committed then .commitOk x else .peekOk x
  | .commitOk x => .commitOk x
  | .peekErr e => if committed then .commitErr e.error else .peekErr e
  | .commitErr e => .commitErr e
  | .abort a => .abort a

/-- sequence.rs:627-714 `then`.  `nInit` is `N::PartialState::default()`.  The cached continuation
is represented by the value it was built from (`f` is pure).  The `debug_assert!` at 652 (compiled out
in release builds) is modelled in `thenDebug`. -/
def thenP (p : Parser S σ α) (f : α → Parser S τ β) (nInit : τ) :
    Parser S (σ × Option (Bool × α) × τ) β :=
  let cont := fun (m : Bool) (i : S.Input) (ps : σ) (c : Bool × α) (ns : τ) =>
    let o := (f c.2).committed m i ns
    let cache := match o.res with
      | .commitErr _ => some c
      | .abort _ => some c
      | _ => none
    (⟨thenMerge c.1 o.res, o.inp, (ps, cache, o.st)⟩ : Out S (σ × Option (Bool × α) × τ) β)
  .ofMode (p.init, none, nInit)
    (fun m i s =>
      match (if m then none else s.2.1) with
      | some c => cont m i s.1 c s.2.2
      | none =>
        let o := p.run m i s.1
        match o.res with
        | .peekOk v => cont true o.inp o.st (false, v) s.2.2
        | .commitOk v => cont true o.inp o.st (true, v) s.2.2
        | .peekErr e => ⟨.peekErr e, o.inp, (o.st, s.2.1, s.2.2)⟩
        | .commitErr e => ⟨.commitErr e, o.inp, (o.st, s.2.1, s.2.2)⟩
        | .abort a => ⟨.abort a, o.inp, (o.st, s.2.1, s.2.2)⟩)
    (addError := p.addError)

/-- A build with debug assertions (sequence.rs:652, 742, 843, repeat.rs:476): a call that starts anew panics when the state is
one that an abandoned call has left. -/
def checked (p : Parser S σ α) (stale : σ → Bool) : Parser S σ α :=
  .ofMode p.init (fun m i s => if m && stale s then ⟨.abort .panic, i, s⟩ else p.run m i s) p.addError p.addCommitted p.count

/-- sequence.rs:651-652 `then` in a build with debug assertions: panics when it is asked to start anew
while a continuation is cached. -/
def thenDebug (p : Parser S σ α) (f : α → Parser S τ β) (nInit : τ) : Parser S (σ × Option (Bool × α) × τ) β :=
  checked (thenP p f nInit) (·.2.1.isSome)

/-- sequence.rs:717-800 `then_partial`: the cache holds the value; `f` may change it. -/
def thenPartial (p : Parser S σ α) (f : α → Parser S τ β × α) (nInit : τ) :
    Parser S (σ × Option (Bool × α) × τ) β :=
  let cont := fun (m : Bool) (i : S.Input) (ps : σ) (c : Bool × α) (ns : τ) =>
    let n := f c.2
    let o := n.1.committed m i ns
    let cache := match o.res with
      | .commitErr _ => some (c.1, n.2)
      | .abort _ => some (c.1, n.2)
      | _ => none
    (⟨thenMerge c.1 o.res, o.inp, (ps, cache, o.st)⟩ : Out S (σ × Option (Bool × α) × τ) β)
  .ofMode (p.init, none, nInit)
    (fun m i s =>
      match (if m then none else s.2.1) with
      | some c => cont m i s.1 c s.2.2
      | none =>
        let o := p.run m i s.1
        match o.res with
        | .peekOk v => cont true o.inp o.st (false, v) s.2.2
        | .commitOk v => cont true o.inp o.st (true, v) s.2.2
        | .peekErr e => ⟨.peekErr e, o.inp, (o.st, s.2.1, s.2.2)⟩
        | .commitErr e => ⟨.commitErr e, o.inp, (o.st, s.2.1, s.2.2)⟩
        | .abort a => ⟨.abort a, o.inp, (o.st, s.2.1, s.2.2)⟩)
    (addError := p.addError)

/-- sequence.rs:814-907 `then_ref`: the output keeps the first value; the cached continuation is
represented by that value. -/
def thenRef (p : Parser S σ α) (f : α → Parser S τ β) (nInit : τ) :
    Parser S (σ × Option (Bool × α) × τ) (α × β) :=
  let cont := fun (m : Bool) (i : S.Input) (ps : σ) (c : Bool × α) (ns : τ) =>
    let o := (f c.2).committed m i ns
    let cache := match o.res with
      | .commitErr _ => some c
      | .abort _ => some c
      | _ => none
    (⟨(thenMerge c.1 o.res).map fun x => (c.2, x), o.inp, (ps, cache, o.st)⟩ :
      Out S (σ × Option (Bool × α) × τ) (α × β))
  .ofMode (p.init, none, nInit)
    (fun m i s =>
      match (if m then none else s.2.1) with
      | some c => cont m i s.1 c s.2.2
      | none =>
        let o := p.run m i s.1
        match o.res with
        | .peekOk v => cont true o.inp o.st (false, v) s.2.2
        | .commitOk v => cont true o.inp o.st (true, v) s.2.2
        | .peekErr e => ⟨.peekErr e, o.inp, (o.st, s.2.1, s.2.2)⟩
        | .commitErr e => ⟨.commitErr e, o.inp, (o.st, s.2.1, s.2.2)⟩
        | .abort a => ⟨.abort a, o.inp, (o.st, s.2.1, s.2.2)⟩)
    (addError := p.addError)

/-- sequence.rs:741-742 `then_partial` in a build with debug assertions. -/
def thenPartialDebug (p : Parser S σ α) (f : α → Parser S τ β × α) (nInit : τ) : Parser S (σ × Option (Bool × α) × τ) β :=
  checked (thenPartial p f nInit) (·.2.1.isSome)

/-- sequence.rs:842-843 `then_ref` in a build with debug assertions. -/
def thenRefDebug (p : Parser S σ α) (f : α → Parser S τ β) (nInit : τ) : Parser S (σ × Option (Bool × α) × τ) (α × β) :=
  checked (thenRef p f nInit) (·.2.1.isSome)

end Verif
