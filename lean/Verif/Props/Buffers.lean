import Verif.Model.Buffers
import Verif.Proof.LanguageServer

/-!
# C76: the decoder of `benches/buffers.rs`

The stream is that of `examples/async.rs` (`Spec/LanguageServer.lean`): `easy::Stream` over the bytes of the decoder's buffer.
-/

namespace Verif

open LanguageServer (Stream ranges input)

namespace Buffers

/-- The parser on this stream. -/
abbrev beforeOne := parser (S := Stream) ranges id

/-- A decoder nothing was read into. -/
abbrev fresh := Decoder.mk (P := Stream.Pos) (0 : Nat) beforeOne.init .empty false

private def V : Ranges Stream := ⟨ranges, id, fun _ => 1, id, id, id⟩

private theorem units : V.Units :=
  ⟨convertR_units (maybeR_units (sliceR_units UInt8 1)) (fun e h => by
    cases e with
    | eoi => rfl
    | unexpected => cases h), fun _ => rfl, fun r => (List.map_id r).symm⟩

private def countD : Den UInt8 Nat := (((Den.upTo (Den.cut id [49]) id).consumed id).map Prod.fst).map List.length

private theorem frag : Frag V beforeOne countD true true :=
  Frag.anyPartialState (Frag.map List.length (Frag.recognize (Frag.takeUntilBytes (V := V) [49] units)))

private theorem cut_first {w : List UInt8} (rest : List UInt8) (hw : (49 : UInt8) ∉ w) :
    Den.cut id [49] (w ++ 49 :: rest) = some (w, 49 :: rest) := by
  induction w with
  | nil => simp [Den.cut]
  | cons t w ih =>
    simp only [List.mem_cons, not_or] at hw
    rw [List.cons_append, Den.cut, if_neg (by simpa using hw.1), ih hw.2]
    rfl

private theorem countD_ok {w : List UInt8} (rest : List UInt8) (hw : (49 : UInt8) ∉ w) (b : Bool) :
    countD b (w ++ 49 :: rest) = .ok (!w.isEmpty) w.length (49 :: rest) := by
  simp [countD, Den.map, Den.consumed, Den.upTo, cut_first rest hw, Outcome.map]

end Buffers

open Buffers

/-- **C76.**  Given all bytes at once, or with more to follow, the parser gives the number of bytes before the first `1`, which is
left. -/
theorem C76_parser (w rest : List UInt8) (hw : (49 : UInt8) ∉ w) (more : Bool) (pos : Nat) :
    ∃ j, beforeOne.answer (input (w ++ 49 :: rest) more pos) = .ok (!w.isEmpty) w.length j ∧ Stream.left j = 49 :: rest := by
  have h := answer_of_den (frag_resumable LanguageServer.feedable frag) (input (w ++ 49 :: rest) more pos)
  rw [(LanguageServer.source.left _ more pos).trans (List.map_id _), countD_ok rest hw] at h
  obtain ⟨j, h1, _, h2⟩ := h
  exact ⟨j, h1, h2⟩

private theorem Buffers.messages (w rest : List UInt8) (hw : (49 : UInt8) ∉ w) (m : Nat) :
    Messages beforeOne id input (w ++ 49 :: rest) (w.length :: List.replicate m 0) (49 :: rest) := by
  have zeros : Messages beforeOne id input (49 :: rest) (List.replicate m 0) (49 :: rest) := by
    induction m with
    | zero => exact .nil _
    | succ m ih =>
      obtain ⟨j, h1, h2⟩ := C76_parser [] rest (by simp) false 0
      exact .cons h1 (h2.trans (List.map_id _).symm) ih
  obtain ⟨j, h1, h2⟩ := C76_parser w rest hw false 0
  exact .cons h1 (h2.trans (List.map_id _).symm) zeros

/-- **C76.**  With `decode!`: in whatever pieces the bytes are read, and however often reading fails, the result is the number of
bytes before the first `1`. -/
theorem C76_decode (r : Reader) (w rest : List UInt8) (hw : (49 : UInt8) ∉ w) (hr : r.stream = w ++ 49 :: rest) (fuel n : Nat)
    (hf : r.stream.length + 1 < fuel) (hn : r.faults ≤ n) :
    ∃ d' r', decodeRetry ranges beforeOne input fuel n fresh r = (.ok w.length, d', r') ∧ d'.ahead r' = 49 :: rest := by
  obtain ⟨j, h1, h2⟩ := C76_parser w rest hw false 0
  rw [← hr] at h1
  obtain ⟨d', r', h3, h4⟩ := C43_message LanguageServer.feedable LanguageServer.source frag fuel n fresh r (Nat.le_refl 0) rfl hf hn h1
  exact ⟨d', r', h3, by rw [List.map_id] at h4; rw [h4, h2]⟩

/-- **C76.**  The benchmark keeps one decoder for all its rounds: all rounds but the first find the `1` at once and give 0. -/
theorem C76_rounds (r : Reader) (w rest : List UInt8) (hw : (49 : UInt8) ∉ w) (hr : r.stream = w ++ 49 :: rest) (m fuel n : Nat)
    (hf : r.stream.length + 1 < fuel) (hn : r.faults ≤ n) :
    ∃ d' r', decodeMany ranges beforeOne input fuel n (m + 1) fresh r = (.ok w.length :: List.replicate m (.ok 0), d', r') ∧
      d'.ahead r' = 49 :: rest := by
  have hm : Messages beforeOne id input (fresh.ahead r) (w.length :: List.replicate m 0) (49 :: rest) := by
    rw [show fresh.ahead r = w ++ 49 :: rest from hr]
    exact messages w rest hw m
  obtain ⟨d', r', h1, h2⟩ := C46_messages LanguageServer.feedable LanguageServer.source frag fuel n fresh r (Nat.le_refl 0) rfl hf hn hm
  simp only [List.length_cons, List.length_replicate, List.map_cons, List.map_replicate] at h1
  exact ⟨d', r', h1, by simpa using h2⟩

/-- **C76.**  If there is nothing to read at all there is no result. -/
theorem C76_empty (r : Reader) (hr : r.stream = []) (fuel n : Nat) (v : Nat) :
    (decodeRetry ranges beforeOne input fuel n fresh r).1 ≠ .ok v := by
  refine C43_reject LanguageServer.feedable LanguageServer.source frag fuel n fresh r (Nat.le_refl 0) rfl (pos := 0) ?_ v
  have h := answer_of_den (frag_resumable LanguageServer.feedable frag) (input [] false 0)
  rw [(LanguageServer.source.left _ false 0).trans (List.map_id _)] at h
  rw [show fresh.ahead r = [] from hr]
  exact h

/-- **C76, what the benchmark measures.**  Its rounds each open the data anew; the second returns 0 and reads nothing. -/
theorem C76_second_round_fails :
    let data : Reader := [.ok [32, 32], .ok [32, 49]]
    let x := decodeLoop ranges beforeOne input 9 fresh data
    let y := decodeLoop ranges beforeOne input 9 x.2.1 data
    x.1 = .ok 3 ∧ y.1 = .ok 0 ∧ y.2.2 = data :=
  ⟨rfl, rfl, rfl⟩

-- the hypotheses are met
example : ∃ d' r', decodeRetry ranges beforeOne input 9 1 fresh [.ok [32], .error "interrupted", .ok [32, 49, 50]] = (.ok 2, d', r') ∧
    d'.ahead r' = [49, 50] := C76_decode _ [32, 32] [50] (by decide) rfl 9 1 (by decide) (by decide)

end Verif
