import Verif.Model.Buffered
import Verif.Model.Choice
import Verif.Model.Combinator
import Verif.Model.Range
import Verif.Model.Str
import Verif.Model.Wrap
import Verif.Spec.Answer
import Verif.Spec.Resume

/-!
# Observations about single parsers and streams

Where the code does something that the general theorems exclude by a hypothesis: concrete cases.
-/

namespace Verif

/-! ## `take_until_range` -/

private abbrev B := maybeS strS
private abbrev R : RangeOps B := maybeR strR
private def mkB (n : Nat) (ts : List Char) (more : Bool) : B.Input := (⟨100 * n, ts⟩, more)

/-- **C14 fails** for `take_until_range` on `&str`: the needle "ab" is as long as a piece of "xé" that ends inside the letter `é`,
and the error about that hides the end of the input.  So the parser fails where it should ask for more: "xéab" in one piece gives
"xé", in two pieces it is refused. -/
theorem C14_take_until_range_fails :
    let p := takeUntilRange R ['a', 'b']
    p.answer (⟨0, ['x', 'é', 'a', 'b']⟩, false) = .ok true ['x', 'é'] (⟨3, ['a', 'b']⟩, false) ∧
    feed p mkB false 0 p.init [] [['x', 'é'], ['a', 'b']] = .failed ∧
    feed p mkB false 0 p.init [] [['x', 'e'], ['a', 'b']] = .ok ['x', 'e'] ['a', 'b'] := by
  refine ⟨?_, ?_, ?_⟩ <;> rfl

/-- `take_until_range` uses the distance stored by a call that failed, even if it is asked to start anew: it does not find what
comes first. -/
theorem C14_stale_take_until_range :
    let p := takeUntilRange R ['a', 'b']
    (p.run true (⟨0, ['x', 'y', 'z']⟩, true) p.init).st = 2 ∧
    (p.run true (⟨0, ['a', 'b', 'a', 'b']⟩, true) 2).res = .commitOk ['a', 'b'] ∧
    (p.run true (⟨0, ['a', 'b', 'a', 'b']⟩, true) p.init).res = .peekOk [] := by
  refine ⟨?_, ?_, ?_⟩ <;> rfl

/-- **C14 fails** for `range` and `take` in a choice on a partial `&str`.  A size that ends inside a character is not the end of the
input, but on partial input every error of the stream is a committed failure.  So "xé!" in one piece is the second alternative, in
two pieces it is refused. -/
theorem C14_range_fails :
    let p := or (range R ['a', 'b']) (range R ['x', 'é'])
    p.shape (⟨0, ['x', 'é', '!']⟩, false) = .ok true ['x', 'é'] (⟨3, ['!']⟩, false) ∧
    feed p mkB false 0 p.init [] [['x', 'é'], ['!']] = .failed ∧
    feed p mkB false 0 p.init [] [['x', 'é', '!']] = .ok ['x', 'é'] ['!'] := by
  refine ⟨?_, ?_, ?_⟩ <;> rfl

theorem C14_take_fails :
    let p := or (take R 2) (take R 3)
    p.shape (⟨0, ['x', 'é', '!']⟩, false) = .ok true ['x', 'é'] (⟨3, ['!']⟩, false) ∧
    feed p mkB false 0 p.init [] [['x', 'é'], ['!']] = .failed := by
  refine ⟨?_, ?_⟩ <;> rfl

/-! ## Errors of readers -/

private abbrev D := bufferedS readS

/-- An I/O error is reported once: `optional` takes it for a soft failure, and the parse goes on with the byte after it. -/
theorem C24_io_error_lost (b : UInt8) :
    (pair (optional (any D)) (any D)).parse (BufState.new [.error "disk on fire", .ok b] 8 : BufState readS) =
      .ok (none, b, ()) (⟨1, [], 1, [(b, 0)], 8⟩ : BufState readS) := rfl

/-! ## The state of `state::Stream` -/

private abbrev Q := stateS (sliceS Nat 1) Nat

/-- A parser that counts its calls in the state of the stream. -/
private def tick : Parser Q Unit Unit := fnParser Q fun i => (.ok () (.peek ()), (i.1, i.2 + 1))

/-- The user state is not taken back where the input is: the alternative that `attempt` has undone was counted. -/
theorem C28_state_not_reset :
    (or (attempt («with» tick («with» (token Q 1) (token Q 2)))) («with» (token Q 1) (token Q 3))).parse ((⟨0, [1, 3]⟩ : Slice Nat), (0 : Nat)) =
      .ok 3 ((⟨2, []⟩ : Slice Nat), (1 : Nat)) := rfl

/-! ## The input after an error -/

private abbrev A := sliceS Nat 1

/-- The input where a sequence stops: a member that fails has read nothing, but describing its error takes the next token.  The
members themselves leave the input where they failed. -/
theorem C12_error_input :
    ((pair (token A 1) (token A 2)).run true (⟨0, [1, 9, 7]⟩ : Slice Nat) (pair (token A 1) (token A 2)).init).inp =
      (⟨2, [7]⟩ : Slice Nat) ∧
    ((thenP (token A 1) (fun _ => token A 2) ()).run true (⟨0, [1, 9, 7]⟩ : Slice Nat) ((), none, ())).inp = (⟨1, [9, 7]⟩ : Slice Nat) :=
  ⟨rfl, rfl⟩

end Verif
