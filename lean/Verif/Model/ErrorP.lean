import Verif.Model.Token

/-!
# Error decorators (`src/parser/error.rs`)
-/

namespace Verif

variable {S : Strm} {σ α : Type}

/-- parser/error.rs:15-93 `unexpected`, `unexpected_any`. -/
def unexpected (S : Strm) (α : Type) (x : Info S.Tok S.Rng) : Parser S Unit α :=
  .ofLazy () (fun i => (.peekErr (Tracked.of (S.E.empty (S.position i))), i))
    (addError := fun e => { e with error := S.E.add e.error (S.E.unexpected x) })

/-- error.rs:510-515 `ParseError::add_message`. -/
def addMessage (S : Strm) (x : Info S.Tok S.Rng) (e : S.Err) : S.Err := S.E.add e (S.E.message x)

/-- parser/error.rs:96-150 `message`. -/
def message (p : Parser S σ α) (x : Info S.Tok S.Rng) : Parser S σ α :=
  .ofMode p.init
    (fun m i s =>
      let o := p.run m i s
      match o.res with
      | .commitErr e => ⟨.commitErr (addMessage S x e), o.inp, o.st⟩
      | _ => o)
    (addError := fun e =>
      let e := p.addError e
      { e with error := addMessage S x e.error })
    p.addCommitted p.count

/-- parser/error.rs:153-196 `expected`. -/
def expected (p : Parser S σ α) (x : Info S.Tok S.Rng) : Parser S σ α :=
  .ofMode p.init p.run
    (addError := fun e => S.E.setExpected e (S.E.expected x) p.addError)
    p.addCommitted p.count

/-- parser/error.rs:199-245 `silent`. -/
def silent (p : Parser S σ α) : Parser S σ α :=
  .ofMode p.init
    (fun m i s => (p.run m i s).mapRes (·.mapErr S.E.clearExpected))
    (count := p.count)

end Verif
