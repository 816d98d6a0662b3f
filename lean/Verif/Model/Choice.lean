import Verif.Model.Sequence

/-!
# Choice (`src/parser/choice.rs`)
-/

namespace Verif

/-- The alternatives of a tuple choice; the index is the type of the arms' states
(choice.rs:220-225: the arms of the partial state enum other than `Peek`). -/
inductive Alts (S : Strm) (α : Type) : Type → Type 1 where
  | last {σ : Type} (p : Parser S σ α) : Alts S α σ
  | cons {σ τ : Type} (p : Parser S σ α) (ps : Alts S α τ) : Alts S α (σ ⊕ τ)

/-- A failed alternative: its `add_error` and the error it returned. -/
structure Tried (S : Strm) where
  addError : Tracked S.Err → Tracked S.Err
  err : Tracked S.Err

/-- choice.rs:130-137 `merge!`: right-nested merge of the errors. -/
def mergeAll {S : Strm} : Tried S → List (Tried S) → S.Err
  | t, [] => t.err.error
  | t, u :: us => S.E.merge t.err.error (mergeAll u us)

/-- choice.rs:157-163: add the errors of the alternatives that failed with an offset other than 1. -/
def addTried {S : Strm} (error : Tracked S.Err) (ts : List (Tried S)) : Tracked S.Err :=
  ts.foldl
    (fun error t =>
      if t.err.offset ≠ 1 then
        { t.addError { error with offset := t.err.offset } with offset := 0 }
      else error)
    error

/-- choice.rs:149-164: the result when all alternatives failed. `none` cannot happen (the tuple is
non-empty). -/
def choiceFail {S : Strm} {α : Type} : List (Tried S) → ParseResult α S.Err
  | [] => .abort .panic
  | t :: ts => .peekErr (addTried (Tracked.of (mergeAll t ts)) (t :: ts))

/-- Result of trying alternatives: `st` is the new value of the partial state if it was assigned. -/
structure ChoiceOut (S : Strm) (σ α : Type) where
  res : ParseResult α S.Err
  inp : S.Input
  st : Option σ

namespace Alts

variable {S : Strm} {α : Type}

/-- choice.rs:139-205 `do_choice!`: try the alternatives in order, each from a default state and in
first mode.  `tried` are the earlier failures in order. -/
def doChoice {σ : Type} : Alts S α σ → (beforePos : S.Pos) → (before : S.Ckpt) →
    List (Tried S) → S.Input → ChoiceOut S σ α
  | last p, bp, before, tried, i =>
    let o := p.run true i p.init
    match o.res with
    | .commitOk x => ⟨.commitOk x, o.inp, none⟩
    | .peekOk x => ⟨.peekOk x, o.inp, none⟩
    | .commitErr e =>
      ⟨.commitErr e, o.inp, if S.position o.inp ≠ bp then some o.st else none⟩
    | .peekErr e =>
      match S.reset before o.inp with
      | (some e', j) => ⟨.commitErr e', j, none⟩
      | (none, j) => ⟨choiceFail (tried ++ [⟨p.addError, e⟩]), j, none⟩
    | .abort a => ⟨.abort a, o.inp, none⟩
  | cons p ps, bp, before, tried, i =>
    let o := p.run true i p.init
    match o.res with
    | .commitOk x => ⟨.commitOk x, o.inp, none⟩
    | .peekOk x => ⟨.peekOk x, o.inp, none⟩
    | .commitErr e =>
      ⟨.commitErr e, o.inp, if S.position o.inp ≠ bp then some (.inl o.st) else none⟩
    | .peekErr e =>
      match S.reset before o.inp with
      | (some e', j) => ⟨.commitErr e', j, none⟩
      | (none, j) =>
        let r := doChoice ps bp before (tried ++ [⟨p.addError, e⟩]) j
        ⟨r.res, r.inp, r.st.map .inr⟩
    | .abort a => ⟨.abort a, o.inp, none⟩

/-- choice.rs:264-280: resume the arm stored in the state. -/
def resume {σ : Type} : Alts S α σ → Bool → S.Input → σ → Out S σ α
  | last p, m, i, s => p.run m i s
  | cons p _, m, i, .inl s => (p.run m i s).mapSt .inl
  | cons _ ps, m, i, .inr s => (resume ps m i s).mapSt .inr

/-- choice.rs:293-296: every alternative adds its errors with the offset reset to 1. -/
def addErrors {σ : Type} : Alts S α σ → Tracked S.Err → Tracked S.Err
  | last p, e => p.addError { e with offset := 1 }
  | cons p ps, e => addErrors ps (p.addError { e with offset := 1 })

/-- The default state of arm `k` (the last arm takes the rest). -/
def initArm {σ : Type} : Alts S α σ → Nat → σ
  | last p, _ => p.init
  | cons p _, 0 => .inl p.init
  | cons _ ps, k + 1 => .inr (initArm ps k)

/-- Is the stored state one of arm `k`? -/
def isArm {σ : Type} : Alts S α σ → Nat → σ → Bool
  | last _, _, _ => true
  | cons _ _, 0, s => s.isLeft
  | cons _ ps, k + 1, s =>
    match s with
    | .inl _ => false
    | .inr t => isArm ps k t

/-- The arm's `add_error`. -/
def armAddError {σ : Type} : Alts S α σ → Nat → Tracked S.Err → Tracked S.Err
  | last p, _ => p.addError
  | cons p _, 0 => p.addError
  | cons _ ps, k + 1 => armAddError ps k

end Alts

variable {S : Strm} {σ τ α : Type}

/-- choice.rs:245-282 `parse_mode_choice` of a tuple; `none` is `Peek`. -/
def choiceRun (ps : Alts S α σ) (m : Bool) (i : S.Input) (st : Option σ) : Out S (Option σ) α :=
  match (if m then none else st) with
  | some s =>
    let o := ps.resume m i s
    ⟨o.res, o.inp, if o.res.isOk then none else some o.st⟩
  | none =>
    let r := ps.doChoice (S.position i) (S.checkpoint i) [] i
    ⟨r.res, r.inp, match r.st with | some s => some s | none => st⟩

/-- choice.rs:288-297, 378-382 `add_error` of `Choice`. -/
def choiceAddError (add : Tracked S.Err → Tracked S.Err) (e : Tracked S.Err) : Tracked S.Err :=
  let before := e.offset
  let e := if e.offset ≠ 0 then add e else e
  { e with offset := before - 1 }

/-- choice.rs:207-303, 354-383 `choice((a, b, ..))` and `choice!`. -/
def choice (ps : Alts S α σ) : Parser S (Option σ) α :=
  .ofMode none (choiceRun ps) (addError := choiceAddError ps.addErrors)

/-- choice.rs:562-632 `or`. -/
def or (p : Parser S σ α) (q : Parser S τ α) : Parser S (Option (σ ⊕ τ)) α :=
  let c := choice (Alts.cons p (.last q))
  .ofMode none c.run (addError := fun e => if e.offset ≠ 0 then c.addError e else e)

/-- choice.rs:427-430 (= 459-462): alternatives whose own error was an ordinary one. -/
def addOnes (ps : List (Parser S σ α)) (e : Tracked S.Err) : Tracked S.Err :=
  ps.foldl (fun e p => p.addError { e with offset := 1 }) e

/-- `self_[k].add_error(..)`; the index is always in bounds (a panic otherwise: modelled as no
change). -/
def addErrorAt (ps : List (Parser S σ α)) (k : Nat) (e : Tracked S.Err) : Tracked S.Err :=
  match ps[k]? with
  | some p => p.addError e
  | none => e

/-- choice.rs:410-470 the loop over a slice of alternatives.  `all` is the slice, the list argument
its part from index `k`; `lastNon1` is `last_parser_having_non_1_offset`. -/
def sliceLoop (all : List (Parser S σ α)) (m : Bool) (before : S.Ckpt) :
    List (Parser S σ α) → (k lastNon1 : Nat) → Option (Tracked S.Err) → S.Input → Nat × σ →
    Out S (Nat × σ) α
  | [], _, lastNon1, prev, i, st =>
    match prev with
    | none =>
      ⟨.peekErr (Tracked.of (S.E.fromError (S.position i)
        (S.E.message (.static "parser choice is empty")))), i, st⟩
    | some prev =>
      if prev.offset ≠ 1 then
        let e := addOnes ((all.drop lastNon1).take (all.length - 1 - lastNon1)) prev
        let e := addErrorAt all (all.length - 1) { e with offset := prev.offset }
        ⟨.peekErr { e with offset := 0 }, i, st⟩
      else ⟨.peekErr prev, i, st⟩
  | p :: ps, k, lastNon1, prev, i, st =>
    match S.reset before i with
    | (some e, j) => ⟨.commitErr e, j, st⟩
    | (none, j) =>
      let o := p.run m j st.2
      match o.res with
      | .commitErr e => ⟨.commitErr e, o.inp, (k + 1, o.st)⟩
      | .commitOk x => ⟨.commitOk x, o.inp, (0, o.st)⟩
      | .peekOk x => ⟨.peekOk x, o.inp, (0, o.st)⟩
      | .abort a => ⟨.abort a, o.inp, (st.1, o.st)⟩
      | .peekErr err =>
        match prev with
        | none => sliceLoop all m before ps (k + 1) lastNon1 (some err) o.inp (st.1, o.st)
        | some prev =>
          if prev.offset ≠ 1 then
            let e := addOnes ((all.drop lastNon1).take (k - 1 - lastNon1)) prev
            let e := addErrorAt all (k - 1) { e with offset := prev.offset }
            sliceLoop all m before ps (k + 1) k
              (some ⟨S.E.merge e.error err.error, err.offset⟩) o.inp (st.1, o.st)
          else
            sliceLoop all m before ps (k + 1) lastNon1
              (some ⟨S.E.merge prev.error err.error, err.offset⟩) o.inp (st.1, o.st)

/-- choice.rs:385-470 `slice_parse_mode`. -/
def sliceRun (all : List (Parser S σ α)) (m : Bool) (i : S.Input) (st : Nat × σ) :
    Out S (Nat × σ) α :=
  if !m && st.1 ≠ 0 then
    match all[st.1 - 1]? with
    | none => ⟨.abort .panic, i, st⟩
    | some p =>
      let o := p.run false i st.2
      ⟨o.res, o.inp, (if o.res.isOk then 0 else st.1, o.st)⟩
  else sliceLoop all m (S.checkpoint i) all 0 0 none i st

/-- choice.rs:305-351, 472-520 `choice` over a slice or array of parsers of one type;
`init` is `P::PartialState::default()`. -/
def sliceChoice (all : List (Parser S σ α)) (init : σ) : Parser S (Nat × σ) α :=
  .ofMode (0, init) (sliceRun all) (addError := choiceAddError (addOnes all))

/-- choice.rs:635-690 `optional`. -/
def optional (p : Parser S σ α) : Parser S σ (Option α) :=
  .ofMode p.init
    (fun m i s =>
      let before := S.checkpoint i
      let o := p.run m i s
      match o.res with
      | .peekOk x => ⟨.peekOk (some x), o.inp, o.st⟩
      | .commitOk x => ⟨.commitOk (some x), o.inp, o.st⟩
      | .commitErr e => ⟨.commitErr e, o.inp, o.st⟩
      | .peekErr _ => S.tryReset before o.inp o.st fun j => ⟨.peekOk none, j, o.st⟩
      | .abort a => ⟨.abort a, o.inp, o.st⟩)
    (addError := p.addError) (count := p.count)

/-- choice.rs:714-837 `dispatch!`: the parser is the arm selected when it was built; a stored state
of another arm is replaced by a default one. -/
def dispatch (arms : Alts S α σ) (k : Nat) : Parser S (Option σ) α :=
  .ofMode none
    (fun m i st =>
      let s := match st with
        | some s => if arms.isArm k s then s else arms.initArm k
        | none => arms.initArm k
      (arms.resume m i s).mapSt some)
    (addError := arms.armAddError k)

end Verif
