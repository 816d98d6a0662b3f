import Verif.Spec.Resume
import Verif.Model.Repeat

/-!
# Iterating over the values of an input that arrives in pieces

What a user of `partial_iter` writes: a state that is kept, and for each piece of the input an iterator over the tokens that
were not consumed and the piece, from which everything it yields is taken (`Parser::partial_iter`,
src/parser/mod.rs:820-831; `Iter`, src/parser/repeat.rs:233-374).
-/

namespace Verif

/-- How the iteration ends: with all values and the tokens that are left over and were never handed out; with a request for
still more; or with a failure. -/
inductive Iterated (T : Type) where
  | ended (rest : List T)
  | more
  | failed

/-- Everything the iterators yield, and how it ends.  `s` is the state, `u` are the tokens not yet consumed; after the last
piece more may follow if `open_`. -/
def feedIter {S : Strm} {σ α : Type} (p : Parser S σ α) (mk : Nat → List S.Tok → Bool → S.Input) (open_ : Bool) :
    (n : Nat) → σ → (u : List S.Tok) → List (List S.Tok) → List α × Iterated S.Tok
  | _, _, _, [] => ([], .more)
  | n, s, u, c :: cs =>
    let more := open_ || !cs.isEmpty
    let i := mk n (u ++ c) more
    let r := iterExtend p some (S.size i + 2) none [] (IterS.new false i s)
    match r.2.state with
    | .commitErr e =>
      if more && S.E.isEoi e then
        let x := feedIter p mk open_ (n + 1) r.2.st (S.left r.2.inp) cs
        (r.1 ++ x.1, x.2)
      else (r.1, .failed)
    | .peekErr _ => (r.1, .ended (S.left r.2.inp ++ cs.flatten))
    | .ok | .abort _ => (r.1, .failed)

end Verif
