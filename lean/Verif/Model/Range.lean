import Verif.Model.Repeat
import Verif.Model.ErrorP

/-!
# Range parsers (`src/parser/range.rs`)
-/

namespace Verif

variable {S : Strm} {σ α : Type}

/-- A predicate without state, in the shape the range operations expect. -/
def pureP {T : Type} (f : T → Bool) : Unit → T → Bool × Unit := fun _ t => (f t, ())

/-- range.rs:31-66, 251-257 `range`. -/
def range (R : RangeOps S) [DecidableEq S.Rng] (r : S.Rng) : Parser S Unit S.Rng :=
  .ofLazy ()
    (fun i =>
      let position := S.position i
      match R.unconsRange (R.len r) i with
      | (.ok other, j) =>
        if other = r then (.commitOk other, j)
        else (.peekErr (Tracked.of (S.E.empty position)), j)
      | (.error e, j) => (S.wrapStreamError j e, j))
    (addError := addExpected S (.range r))

/-- range.rs:259-301 `take`. -/
def take (R : RangeOps S) (n : Nat) : Parser S Unit S.Rng := .ofLazy () (R.unconsRangeP n)

/-- The last step of `recognize` (range.rs:140-145, 189-194): rewind and take the distance. -/
def retake (R : RangeOps S) (before : S.Ckpt) (s : Nat × σ) (i : S.Input) (f : S.Rng → α) :
    Out S (Nat × σ) α :=
  let distance := R.distance i before
  S.tryReset before i s fun j =>
    let r := R.unconsRangeP distance j
    let x := r.1.map f
    ⟨x, r.2, (if x.isOk then 0 else s.1, s.2)⟩

/-- range.rs:100-147 `parse_partial_range`; `first`/`resume` are `uncons_while(1)` calls. -/
def partialRange (R : RangeOps S) (first resume : S.Input → ParseResult S.Rng S.Err × S.Input)
    (m : Bool) (i : S.Input) (dist : Nat) : Out S Nat S.Rng :=
  let before := S.checkpoint i
  if !S.isPartial i then
    let r := first i
    ⟨r.1, r.2, dist⟩
  else if m || dist = 0 then
    let r := first i
    match r.1 with
    | .commitErr _ =>
      let d := R.distance r.2 before
      S.tryReset before r.2 d fun j => ⟨r.1, j, d⟩
    | _ => ⟨r.1, r.2, dist⟩
  else
    match R.unconsRange dist i with
    | (.error _, j) => ⟨.abort .panic, j, dist⟩
    | (.ok _, j) =>
      let r := resume j
      match r.1 with
      | .peekErr e => ⟨.peekErr e, r.2, dist⟩
      | .commitErr e =>
        let d := R.distance r.2 before
        S.tryReset before r.2 d fun k => ⟨.commitErr e, k, d⟩
      | .abort a => ⟨.abort a, r.2, dist⟩
      | _ => (retake R before (dist, ()) r.2 id).mapSt (·.1)

/-- range.rs:303-359 `take_while`. -/
def takeWhile (R : RangeOps S) (f : S.Tok → Bool) : Parser S Nat S.Rng :=
  let uw := fun i => let r := R.unconsWhileP (pureP f) () i; (r.1.1, r.2)
  .ofMode 0 (partialRange R uw uw)

/-- range.rs:361-417 `take_while1`. -/
def takeWhile1 (R : RangeOps S) (f : S.Tok → Bool) : Parser S Nat S.Rng :=
  .ofMode 0 (partialRange R
    (fun i => let r := R.unconsWhile1P (pureP f) () i; (r.1.1, r.2))
    (fun i => let r := R.unconsWhileP (pureP f) () i; (r.1.1, r.2)))

/-- range.rs:150-231 `recognize_with_value`. -/
def recognizeWithValue (R : RangeOps S) (p : Parser S σ α) : Parser S (Nat × σ) (S.Rng × α) :=
  let body := fun (m : Bool) (before : S.Ckpt) (i : S.Input) (s : Nat × σ) =>
    let o := p.run m i s.2
    match o.res with
    | .commitOk x => retake R before (s.1, o.st) o.inp fun r => (r, x)
    | .peekOk x => retake R before (s.1, o.st) o.inp fun r => (r, x)
    | .peekErr e => ⟨.peekErr e, o.inp, (s.1, o.st)⟩
    | .commitErr e =>
      let d := R.distance o.inp before
      S.tryReset before o.inp (d, o.st) fun j => ⟨.commitErr e, j, (d, o.st)⟩
    | .abort a => ⟨.abort a, o.inp, (s.1, o.st)⟩
  .ofMode (0, p.init)
    (fun m i s =>
      let before := S.checkpoint i
      if m then body m before i s
      else
        match R.unconsRange s.1 i with
        | (.error _, j) => ⟨.abort .panic, j, s⟩
        | (.ok _, j) => body m before j s)
    (addError := p.addError)

/-- range.rs:68-97 `range::recognize`. -/
def recognizeRange (R : RangeOps S) (p : Parser S σ α) : Parser S (Nat × σ) S.Rng :=
  parserMacro (map (recognizeWithValue R p) fun x => x.1)

/-- range.rs:445-503 the loop of `take_until_range`. -/
def takeUntilRangeLoop (R : RangeOps S) [DecidableEq S.Rng] (r : S.Rng) (before : S.Ckpt) :
    Nat → Option (S.SErr × Nat) → S.Input → Nat → Out S Nat S.Rng
  | 0, _, i, st => ⟨.abort .diverge, i, st⟩
  | n + 1, firstErr, i, st =>
    let here := S.checkpoint i
    match R.unconsRange (R.len r) i with
    | (.ok xs, j) =>
      if xs = r then
        let distance := R.distance j before - R.len r
        S.tryReset before j st fun k =>
          match R.unconsRange distance k with
          | (.ok committed, l) =>
            if distance = 0 then ⟨.peekOk committed, l, st⟩ else ⟨.commitOk committed, l, 0⟩
          | (.error _, l) => ⟨.abort .panic, l, st⟩ -- `unreachable!()`
      else
        S.tryReset here j st fun k =>
          match S.uncons k with
          | (.ok _, l) => takeUntilRangeLoop R r before n firstErr l st
          | (.error _, l) => ⟨.abort .panic, l, st⟩ -- `unreachable!()`
    | (.error e, j) =>
      let firstErr := match firstErr with
        | some x => x
        | none => (e, R.distance j before)
      S.tryReset here j st fun k =>
        match S.uncons k with
        | (.ok _, l) => takeUntilRangeLoop R r before n (some firstErr) l st
        | (.error _, l) =>
          S.tryReset before l st fun o => ⟨S.wrapStreamError o firstErr.1, o, firstErr.2⟩

/-- range.rs:419-532 `take_until_range`; only `parse_partial` is implemented, so the stored distance is
used in first mode too. -/
def takeUntilRange (R : RangeOps S) [DecidableEq S.Rng] (r : S.Rng) : Parser S Nat S.Rng :=
  .ofMode 0
    (fun _ i st =>
      let before := S.checkpoint i
      match R.unconsRangeP st i with
      | (.commitOk _, j) | (.peekOk _, j) =>
        takeUntilRangeLoop R r before (S.size j + 1) none j st
      | (.commitErr e, j) => ⟨.commitErr e, j, st⟩
      | (.peekErr e, j) => ⟨.peekErr e, j, st⟩
      | (.abort a, j) => ⟨.abort a, j, st⟩)

/-- range.rs:535-540 `enum TakeRange`. -/
inductive TakeRange where
  | found (i : Nat)
  | notFound (next : Nat)

/-- range.rs:551-632 `take_fn`. -/
def takeFn (R : RangeOps S) (search : S.Rng → TakeRange) : Parser S Nat S.Rng :=
  .ofMode 0
    (fun m i st =>
      let checkpoint := S.checkpoint i
      let offset := if m then 0 else st
      -- `let _ = input.uncons_range(*offset)`: the result is ignored
      let j := if m then i else (R.unconsRange offset i).2
      match search (R.range j) with
      | .found k =>
        S.tryReset checkpoint j offset fun l =>
          let r := R.unconsRangeP (offset + k) l
          ⟨r.1, r.2, if r.1.isOk then 0 else offset⟩
      | .notFound next =>
        let rng := R.range j
        let k := (R.unconsRange (R.len rng) j).2
        let position := S.position k
        S.tryReset checkpoint k next fun l =>
          let e := S.E.fromError position S.E.endOfInput
          if !S.isPartial l && R.len rng = 0 then ⟨.peekErr (Tracked.of e), l, next⟩
          else ⟨.commitErr e, l, next⟩)

/-- range.rs:634-667 `length_prefix`: through `parser!` without a partial state.
`toUsize` is `usize::try_from` with the error already converted. -/
def lengthPrefix (R : RangeOps S) (len : Parser S σ α) (toUsize : α → Except S.SErr Nat) :
    Parser S Unit S.Rng :=
  parserMacroUnit (thenPartial (andThen len toUsize) (fun n => (take R n, n)) ())

end Verif
