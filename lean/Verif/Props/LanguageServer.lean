import Verif.Proof.LanguageServer
import Verif.Props.PartialCodec

/-!
# C62: the decoder of `examples/async.rs`
-/

namespace Verif

open LanguageServer

/-- **C62.**  `decode_parser` accepts an input exactly if it begins with a block, and gives its content; the bytes after the
block are left, whether or not still more may follow. -/
theorem C62_block (a m rest : List UInt8) (more : Bool) (pos : Nat) :
    (∃ c j, parser.answer (input a more pos) = .ok c m j ∧ Stream.left j = rest) ↔
    ∃ t, IsBlock m t ∧ a = t ++ rest := by
  obtain ⟨V, -, -, l, hp⟩ := frag
  have hr := frag_resumable feedable hp
  have hl : Stream.left (input a more pos) = a := (source.left a more pos).trans (List.map_id a)
  have hpt : Stream.isPartial (input a more pos) = more := rfl
  rw [← messageD_ok more]
  constructor
  · rintro ⟨c, j, h, rfl⟩
    have := den_ok_of_answer hr h
    rw [hl, hpt] at this
    exact ⟨c, this⟩
  · rintro ⟨c, h⟩
    have := answer_of_den hr (input a more pos)
    rw [hl, hpt, h] at this
    obtain ⟨j, h1, -, h2⟩ := this
    exact ⟨c, j, h1, h2⟩

private theorem messages {ms : List (List UInt8)} {a : List UInt8} (h : AreBlocks ms a) (rest : List UInt8) :
    Messages parser id input (a ++ rest) ms rest := by
  induction h with
  | nil => exact .nil _
  | cons h1 _ ih =>
    rename_i ts _
    obtain ⟨c, j, h2, h3⟩ := (C62_block _ _ (ts ++ rest) false 0).2 ⟨_, h1, List.append_assoc _ _ _⟩
    exact .cons h2 (h3.trans (List.map_id _).symm) ih

private theorem openMessages {ms : List (List UInt8)} {a : List UInt8} (h : AreBlocks ms a) (rest : List UInt8) :
    OpenMessages parser input id (a ++ rest) ms rest := by
  induction h with
  | nil => exact .nil _
  | cons h1 _ ih =>
    rename_i ts _
    obtain ⟨c, j, h2, h3⟩ := (C62_block _ _ (ts ++ rest) true 0).2 ⟨_, h1, List.append_assoc _ _ _⟩
    exact .cons h2 (h3.trans (List.map_id _).symm) ih

/-- **C62.**  With `decode!`: of a stream that starts with blocks the contents are given, one after the other, however the
bytes are read and however often reading fails. -/
theorem C62_decode (r : Reader) {ms : List (List UInt8)} {a rest : List UInt8} (h : AreBlocks ms a)
    (hr : r.stream = a ++ rest) (fuel n : Nat) (hf : r.stream.length + 1 < fuel) (hn : r.faults ≤ n) :
    ∃ d' r', decodeMany ranges parser input fuel n ms.length fresh r = (ms.map .ok, d', r') ∧ d'.ahead r' = rest := by
  obtain ⟨V, hV, -, l, hp⟩ := frag
  have hm : Messages parser id input (fresh.ahead r) ms rest := by
    have : fresh.ahead r = a ++ rest := hr
    rw [this]
    exact messages h rest
  obtain ⟨d', r', h1, h2⟩ := C46_messages feedable source hp fuel n fresh r (Nat.le_refl 0) rfl hf hn hm
  exact ⟨d', r', h1, by simpa using h2⟩

/-- **C62.**  As a codec with `decode_tokio`: a stream of blocks gives their contents, and then ends. -/
theorem C62_tokio (r : Reader) {ms : List (List UInt8)} (h : AreBlocks ms r.stream) (fuel n : Nat)
    (hf : r.stream.length + 1 < fuel) (hn : r.faults ≤ n) :
    (frames ranges parser input fuel n (ms.length + 1) fresh r).1 = ms.map .item ++ [.done] := by
  obtain ⟨V, hV, hL, l, hp⟩ := frag
  have hm : Messages parser id input (fresh.ahead r) ms [] := by
    have : fresh.ahead r = r.stream ++ [] := (List.append_nil _).symm
    rw [this]
    exact messages h []
  have := C51_easy (V := V) feedable hL (hV ▸ source) hp messageD_nil fuel n fresh r (Nat.le_refl 0) rfl hf hn hm
  rwa [hV] at this

/-- **C62.**  As the codec of the example itself: a stream of blocks gives their contents, and then ends. -/
theorem C62_codec (r : Reader) {ms : List (List UInt8)} (h : AreBlocks ms r.stream) (fuel n : Nat)
    (hf : r.stream.length + 1 < fuel) (hn : r.faults ≤ n) :
    (PartialCodec.frames ranges parser input fuel n (ms.length + 1) fresh r).1 = ms.map .item ++ [.done] := by
  obtain ⟨V, hV, hL, l, hp⟩ := frag
  have hm : OpenMessages parser input id (fresh.ahead r) ms [] := by
    have : fresh.ahead r = r.stream ++ [] := (List.append_nil _).symm
    rw [this]
    exact openMessages h []
  rcases C51_open_all feedable source hp fuel n fresh r (Nat.le_refl 0) rfl hf hn hm rfl with h | ⟨h, -⟩
  · exact h
  · exact absurd rfl h

/-- **C62.**  If the stream ends in the middle of a block, the blocks before it are given, and then either an error or the
end; no content is ever made up. -/
theorem C62_cut (r : Reader) {ms : List (List UInt8)} {a b x m : List UInt8} (h : AreBlocks ms a) (hb : IsBlock m (b ++ x))
    (hx : x ≠ []) (hr : r.stream = a ++ b) (fuel n : Nat) (hf : r.stream.length + 1 < fuel) (hn : r.faults ≤ n) :
    (PartialCodec.frames ranges parser input fuel n (ms.length + 1) fresh r).1 = ms.map .item ++ [.done] ∨
    (PartialCodec.frames ranges parser input fuel n (ms.length + 1) fresh r).1 = ms.map .item ++ [.remaining] := by
  obtain ⟨V, hV, hL, l, hp⟩ := frag
  have hm : OpenMessages parser input id (fresh.ahead r) ms b := by
    have : fresh.ahead r = a ++ b := hr
    rw [this]
    exact openMessages h b
  exact (C51_open_all feedable source hp fuel n fresh r (Nat.le_refl 0) rfl hf hn hm
    (by rw [List.map_id]; exact messageD_pend hb hx)).imp id And.right

/-! ## Examples -/

/-- "Content-Length: 6\r\n\r\n123456\r\nContent-Length: 4\r\n\r\ntrue", the input of the example. -/
private def sample : List UInt8 :=
  label ++ [54, 13, 10, 13, 10, 49, 50, 51, 52, 53, 54] ++ ([13, 10] ++ label ++ [52, 13, 10, 13, 10, 116, 114, 117, 101])

private theorem sample_blocks : AreBlocks [[49, 50, 51, 52, 53, 54], [116, 114, 117, 101]] sample := by
  have h2 : IsBlock [116, 114, 117, 101] ([13, 10] ++ label ++ [52, 13, 10, 13, 10, 116, 114, 117, 101]) :=
    ⟨1, [52], by decide, by decide, by decide, by decide, rfl⟩
  have h1 : IsBlock [49, 50, 51, 52, 53, 54] (label ++ [54, 13, 10, 13, 10, 49, 50, 51, 52, 53, 54]) :=
    ⟨0, [54], by decide, by decide, by decide, by decide, rfl⟩
  have := AreBlocks.cons h1 (AreBlocks.cons h2 .nil)
  rw [List.append_nil] at this
  exact this

example (r : Reader) (h : r.stream = sample) :
    (PartialCodec.frames ranges parser input 100 r.faults 3 fresh r).1 =
      [.item [49, 50, 51, 52, 53, 54], .item [116, 114, 117, 101], .done] :=
  C62_codec r (ms := [[49, 50, 51, 52, 53, 54], [116, 114, 117, 101]]) (h ▸ sample_blocks) 100 r.faults (by rw [h]; decide) (Nat.le_refl _)

-- cut within the content
example : ((PartialCodec.frames ranges parser input 100 0 1 fresh [.ok (label ++ [54, 13, 10, 13, 10, 49, 50])]).1 matches
    [.remaining]) = true := by decide +kernel

/-! ## Deviation -/

/-- Deviation: a stream that is cut off right after the lines before the content ends without an error, although a block was
begun: the bytes of the header are gone from the buffer, and what the state still expects is not asked for. -/
theorem C62_cut_fails :
    ((PartialCodec.frames ranges parser input 100 0 1 fresh [.ok (label ++ [54, 13, 10, 13, 10])]).1 matches [.done]) = true := by
  decide +kernel

end Verif
