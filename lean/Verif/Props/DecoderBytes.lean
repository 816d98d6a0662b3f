import Verif.Spec.Decoding
import Verif.Proof.BuiltMoves
import Verif.Proof.WrapLaws
import Verif.Proof.SliceLaws

/-!
# C25, C26: no byte is lost or duplicated by `Decoder` and `BufReader`
-/

namespace Verif

variable {S : Strm} {σ α : Type}

private theorem read_all (n : Nat) (r : Reader) :
    (∀ e r', r.read n = (.error e, r') → r'.all = r.all) ∧
    (∀ bs r', r.read n = (.ok bs, r') → r.all = bs ++ r'.all ∧ bs.length ≤ n ∧
      (0 < n → (bs = [] ↔ r.ended = true))) := by
  cases r with
  | nil =>
    refine ⟨fun e r' h => by simp [Reader.read] at h, fun bs r' h => ?_⟩
    simp only [Reader.read, Prod.mk.injEq, Except.ok.injEq] at h
    obtain ⟨rfl, rfl⟩ := h
    exact ⟨rfl, Nat.zero_le _, fun _ => ⟨fun _ => rfl, fun _ => rfl⟩⟩
  | cons c r =>
    cases c with
    | error e =>
      refine ⟨fun e' r' h => ?_, fun bs r' h => by simp [Reader.read] at h⟩
      simp only [Reader.read, Prod.mk.injEq, Except.error.injEq] at h
      rw [← h.2]; rfl
    | ok c =>
      simp only [Reader.read]
      by_cases h1 : c.length ≤ n
      · rw [if_pos h1]
        refine ⟨fun e' r' h => by simp at h, fun bs r' h => ?_⟩
        simp only [Prod.mk.injEq, Except.ok.injEq] at h
        obtain ⟨rfl, rfl⟩ := h
        exact ⟨rfl, h1, fun _ => by simp [Reader.ended]⟩
      · rw [if_neg h1]
        refine ⟨fun e' r' h => by simp at h, fun bs r' h => ?_⟩
        simp only [Prod.mk.injEq, Except.ok.injEq] at h
        obtain ⟨rfl, rfl⟩ := h
        refine ⟨?_, List.length_take_le _ _, fun hn => ?_⟩
        · simp only [Reader.all]
          rw [← List.append_assoc, List.take_append_drop]
        · cases c with
          | nil => simp at h1
          | cons x xs =>
            cases n with
            | zero => omega
            | succ n => simp [Reader.ended]

/-- What filling the buffer does: the bytes read are appended to it and taken from the reader, an
error changes neither, and a read of nothing means that the reader gave nothing. -/
theorem C25_extend (b : BytesMut) (r : Reader) (hb : b.Ok) :
    ∃ new, (extendBufSync b r).2.1.data = b.data ++ new ∧
      r.all = new ++ (extendBufSync b r).2.2.all ∧ (extendBufSync b r).2.1.Ok ∧
      (∀ n, (extendBufSync b r).1 = .ok n → n = new.length ∧ (n = 0 ↔ r.ended = true)) ∧
      (∀ e, (extendBufSync b r).1 = .error e → new = []) := by
  unfold extendBufSync
  simp only
  generalize hb' : (if b.cap = b.data.length then b.reserve (8 * 1024) else b) = b'
  have h1 : b'.data = b.data ∧ b.data.length < b'.cap := by
    subst hb'
    unfold BytesMut.Ok at hb
    split
    · exact ⟨rfl, by simp only [BytesMut.reserve]; omega⟩
    · exact ⟨rfl, by omega⟩
  generalize hn : min (b'.cap - b'.data.length) (8 * 1024) = n
  have h2 : 0 < n ∧ n ≤ b'.cap - b.data.length := by
    rw [← hn, h1.1]; omega
  obtain ⟨ha, hb⟩ := read_all n r
  generalize hx : r.read n = x
  obtain ⟨x, r'⟩ := x
  cases x with
  | error e =>
    refine ⟨[], by simp [h1.1], (ha _ _ hx).symm, ?_, fun n h => by simp at h, fun _ _ => rfl⟩
    unfold BytesMut.Ok
    simp only [h1.1]; omega
  | ok bs =>
    obtain ⟨h3, h4, h5⟩ := hb _ _ hx
    refine ⟨bs, by simp [h1.1], h3, ?_, fun n h => ?_, fun e h => by simp at h⟩
    · unfold BytesMut.Ok
      simp only [h1.1, List.length_append]
      omega
    · simp only [Except.ok.injEq] at h
      refine ⟨h.symm, ?_⟩
      rw [← h, List.length_eq_zero_iff]
      exact h5 h2.1

/-- One call of `decode` on the contents of the buffer: what it reports as removed is what the parser
took, and what is left of the buffer is what the parser left. -/
theorem C25_decode {R : RangeOps S} {bytes : S.Input → List UInt8}
    {mk : List UInt8 → Bool → S.Pos → S.Input} (hB : ByteInput S R bytes mk) (hS : S.Lawful)
    {p : Parser S σ α} (hp : Moves p) (i : S.Input) (s : σ) :
    ∃ taken, bytes i = taken ++ bytes (decode R p i s).2.1 ∧
      ∀ v n, (decode R p i s).1 = .ok v n → n = taken.length := by
  have hreach : S.Reach i (p.parseWithState i s).2.1 := by
    have h1 : S.Reach i (p.streamPartial i s).inp :=
      describing_reach hS (run := p.run false) p.addError (i := i) (s := s) (hp.run false i s)
    unfold Parser.parseWithState
    simp only
    cases (p.streamPartial i s).res <;> exact h1
  obtain ⟨ts, hr⟩ := hreach
  obtain ⟨taken, h1, h2⟩ := hB.reads hr
  unfold decode
  simp only
  revert h1 h2
  generalize p.parseWithState i s = r
  obtain ⟨r, j, s'⟩ := r
  intro h1 h2
  refine ⟨taken, ?_, ?_⟩
  · cases r with
    | ok v => exact h1
    | error e =>
      cases e with
      | inl a => exact h1
      | inr e =>
        simp only
        split
        · split <;> exact h1
        · exact h1
  · intro v n
    cases r with
    | ok v => intro h; cases h; exact h2
    | error e =>
      cases e with
      | inl a => intro h; cases h
      | inr e =>
        simp only
        split
        · split
          · intro h; cases h; exact h2
          · intro h; cases h
        · intro h; cases h

/-- One `decode!` call.  The bytes that were consumed, then those buffered, then those not yet read are
the bytes that were buffered and unread before, in order — whether a message was decoded, a read or the
parser failed, or the call was cut short. -/
theorem C25_call {R : RangeOps S} {bytes : S.Input → List UInt8}
    {mk : List UInt8 → Bool → S.Pos → S.Input} (hB : ByteInput S R bytes mk) (hS : S.Lawful)
    {p : Parser S σ α} (hp : Moves p) (fuel : Nat) (d : Decoder S.Pos σ) (r : Reader)
    (hd : d.buffer.Ok) :
    let x := decodeLoop R p mk fuel d r
    x.2.1.buffer.Ok ∧
    ∃ consumed, d.buffer.data ++ r.all = consumed ++ x.2.1.buffer.data ++ x.2.2.all := by
  induction fuel generalizing d r with
  | zero => exact ⟨hd, [], rfl⟩
  | succ fuel ih =>
    obtain ⟨taken, h1, h2⟩ := C25_decode hB hS hp (mk d.buffer.data (!d.endOfInput) d.position) d.state
    rw [hB.whole] at h1
    simp only [decodeLoop]
    revert h1 h2
    generalize decode R p (mk d.buffer.data (!d.endOfInput) d.position) d.state = y
    obtain ⟨res, j, s'⟩ := y
    intro h1 h2
    cases res with
    | abort a => exact ⟨hd, [], rfl⟩
    | err e => exact ⟨hd, [], rfl⟩
    | ok opt removed =>
      have hn := h2 _ _ rfl
      simp only at h1
      have hadv : d.buffer.advance removed = some ⟨bytes j, d.buffer.cap - removed⟩ := by
        unfold BytesMut.advance
        rw [if_pos (by rw [h1, hn, List.length_append]; omega), h1, hn, List.drop_left]
      have hok : (⟨bytes j, d.buffer.cap - removed⟩ : BytesMut).Ok := by
        unfold BytesMut.Ok at hd ⊢
        rw [h1, List.length_append] at hd
        simp only; omega
      simp only [hadv]
      cases opt with
      | some v => exact ⟨hok, taken, by rw [h1]⟩
      | none =>
        simp only [Decoder.beforeParse]
        obtain ⟨new, e1, e2, e3, _, _⟩ := C25_extend _ r hok
        revert e1 e2 e3
        generalize extendBufSync ⟨bytes j, d.buffer.cap - removed⟩ r = z
        obtain ⟨z, b', r'⟩ := z
        intro e1 e2 e3
        cases z with
        | error e =>
          refine ⟨e3, taken, ?_⟩
          simp only at e1 e2 ⊢
          rw [h1, e1, e2]; simp only [List.append_assoc]
        | ok n =>
          obtain ⟨i1, consumed, i2⟩ := ih
            { d with state := s', position := S.position j, buffer := b',
                     endOfInput := if n = 0 then true else d.endOfInput } r' e3
          refine ⟨i1, taken ++ consumed, ?_⟩
          simp only at e1 e2 i2 ⊢
          rw [h1, e2, List.append_assoc, ← List.append_assoc (bytes j), ← e1, i2]
          simp only [List.append_assoc]

/-- **C25** Over any number of `decode!` calls, with any parsers, retried after any failure, on any
reader: consumed, buffered and unread bytes are the source bytes, in order. -/
theorem C25_session {R : RangeOps S} {bytes : S.Input → List UInt8}
    {mk : List UInt8 → Bool → S.Pos → S.Input} (hB : ByteInput S R bytes mk) (hS : S.Lawful)
    (fuel : Nat) (ps : List (Parser S σ α)) (hp : ∀ p ∈ ps, Moves p) (d : Decoder S.Pos σ)
    (r : Reader) (hd : d.buffer.Ok) :
    let x := session R mk fuel ps d r
    x.2.1.buffer.Ok ∧
    ∃ consumed, d.buffer.data ++ r.all = consumed ++ x.2.1.buffer.data ++ x.2.2.all := by
  induction ps generalizing d r with
  | nil => exact ⟨hd, [], rfl⟩
  | cons p ps ih =>
    obtain ⟨h1, c1, h2⟩ := C25_call hB hS (hp p (by simp)) fuel d r hd
    obtain ⟨h3, c2, h4⟩ := ih (fun q hq => hp q (by simp [hq])) _ _ h1
    refine ⟨h3, c1 ++ c2, ?_⟩
    simp only [session]
    rw [h2, List.append_assoc c1, h4]
    simp only [List.append_assoc]

/-- `decode!` never advances its buffer too far: it panics only if the parser does. -/
theorem C25_no_panic {R : RangeOps S} {bytes : S.Input → List UInt8}
    {mk : List UInt8 → Bool → S.Pos → S.Input} (hB : ByteInput S R bytes mk) (hS : S.Lawful)
    {p : Parser S σ α} (hp : Moves p) (hno : ∀ m i s, (p.run m i s).res ≠ .abort .panic)
    (fuel : Nat) (d : Decoder S.Pos σ) (r : Reader) (hd : d.buffer.Ok) :
    (decodeLoop R p mk fuel d r).1 ≠ .abort .panic := by
  have hparse : ∀ i s, (p.parseWithState i s).1 ≠ .error (.inl .panic) := by
    intro i s
    unfold Parser.parseWithState Parser.streamPartial Strm.describing
    simp only
    have h := hno false i s
    revert h
    generalize p.run false i s = o
    obtain ⟨res, inp, st⟩ := o
    intro h
    cases res with
    | peekErr e =>
      simp only [Strm.describe, Strm.tryReset]
      generalize S.reset (S.checkpoint i) inp = x
      obtain ⟨x, j⟩ := x
      cases x with
      | some e => simp
      | none =>
        simp only
        generalize S.uncons j = y
        obtain ⟨y, k⟩ := y
        cases y with
        | error e => simp
        | ok t =>
          simp only
          generalize S.reset (S.checkpoint i) k = x
          obtain ⟨x, j⟩ := x
          cases x <;> simp
    | abort a => simp only [ne_eq, Except.error.injEq, Sum.inl.injEq]; intro ha; exact h (by rw [ha])
    | _ => simp
  induction fuel generalizing d r with
  | zero => simp [decodeLoop]
  | succ fuel ih =>
    obtain ⟨taken, h1, h2⟩ := C25_decode hB hS hp (mk d.buffer.data (!d.endOfInput) d.position) d.state
    rw [hB.whole] at h1
    have h0 : (decode R p (mk d.buffer.data (!d.endOfInput) d.position) d.state).1 ≠ .abort .panic := by
      have h := hparse (mk d.buffer.data (!d.endOfInput) d.position) d.state
      unfold decode
      simp only
      revert h
      generalize p.parseWithState (mk d.buffer.data (!d.endOfInput) d.position) d.state = r
      obtain ⟨r, j, s'⟩ := r
      intro h
      cases r with
      | ok v => simp
      | error e =>
        cases e with
        | inl a => simp only [ne_eq, Decoded.abort.injEq]; intro ha; exact h (by rw [ha])
        | inr e =>
          simp only
          split
          · split <;> simp
          · simp
    simp only [decodeLoop]
    revert h1 h2 h0
    generalize decode R p (mk d.buffer.data (!d.endOfInput) d.position) d.state = y
    obtain ⟨res, j, s'⟩ := y
    intro h1 h2 h0
    cases res with
    | abort a => simp only [ne_eq, DecodeRes.abort.injEq]; intro ha; exact h0 (by rw [ha])
    | err e => simp
    | ok opt removed =>
      have hn := h2 _ _ rfl
      simp only at h1
      have hadv : d.buffer.advance removed = some ⟨bytes j, d.buffer.cap - removed⟩ := by
        unfold BytesMut.advance
        rw [if_pos (by rw [h1, hn, List.length_append]; omega), h1, hn, List.drop_left]
      have hok : (⟨bytes j, d.buffer.cap - removed⟩ : BytesMut).Ok := by
        unfold BytesMut.Ok at hd ⊢
        rw [h1, List.length_append] at hd
        simp only; omega
      simp only [hadv]
      cases opt with
      | some v => simp
      | none =>
        simp only [Decoder.beforeParse]
        obtain ⟨new, _, _, e3, _, _⟩ := C25_extend _ r hok
        revert e3
        generalize extendBufSync ⟨bytes j, d.buffer.cap - removed⟩ r = z
        obtain ⟨z, b', r'⟩ := z
        intro e3
        cases z with
        | error e => simp
        | ok n => exact ih _ _ e3

/-! ## Streams that decoders parse -/

/-- The usual input of `decode!`: the buffer as a possibly partial byte slice. -/
theorem byteInput_maybe : ByteInput (maybeS (sliceS UInt8 1)) (maybeR (sliceR UInt8 1))
    (fun i => i.1.data) (fun b more pos => (⟨pos, b⟩, more)) where
  whole := fun _ _ _ => rfl
  reads := fun {i ts j} h => by
    obtain ⟨h1, _⟩ := maybe_reads.1 h
    obtain ⟨h1, _⟩ := slice_reads.1 h1
    refine ⟨ts, h1, ?_⟩
    simp only [maybeR, sliceR, maybeS, id, h1, List.length_append]
    omega

/-- … with any positioner on top. -/
theorem byteInput_position (X : Positioner UInt8 (List UInt8)) (E : ErrOps UInt8 (List UInt8) X.Pos)
    (convS : (sliceS UInt8 1).SErr → E.SErr) (conv : (sliceS UInt8 1).Err → E.Err)
    (start : X.Pos → X.X) :
    ByteInput (positionS (maybeS (sliceS UInt8 1)) X E convS conv)
      (positionR X E convS conv (maybeR (sliceR UInt8 1)))
      (fun i => i.1.1.data) (fun b more pos => ((⟨0, b⟩, more), start pos)) where
  whole := fun _ _ _ => rfl
  reads := fun {i ts j} h => by
    obtain ⟨h1, _⟩ := position_reads.1 h
    exact byteInput_maybe.reads h1

/-! ## C26 -/

private theorem step_all (op : BufReadOp) (b : BufReader) (hb : b.buf.Ok) :
    (∀ got b', op.step b = some (got, b') → b'.buf.Ok ∧
      b.buf.data ++ b.inner.all = got ++ b'.buf.data ++ b'.inner.all) ∧
    (op.step b = none → ∃ n, op = .consume n ∧ b.buf.data.length < n) := by
  have hfill : b.fillBuf.2.buf.Ok ∧
      b.buf.data ++ b.inner.all = b.fillBuf.2.buf.data ++ b.fillBuf.2.inner.all ∧
      ∀ x, b.fillBuf.1 = .ok x → x = b.fillBuf.2.buf.data := by
    unfold BufReader.fillBuf
    split
    · obtain ⟨new, e1, e2, e3, _, _⟩ := C25_extend b.buf b.inner hb
      revert e1 e2 e3
      generalize extendBufSync b.buf b.inner = z
      obtain ⟨z, b', r'⟩ := z
      intro e1 e2 e3
      cases z with
      | error e => exact ⟨e3, by simp only at e1 e2 ⊢; rw [e1, e2, List.append_assoc], by simp⟩
      | ok n =>
        refine ⟨e3, by simp only at e1 e2 ⊢; rw [e1, e2, List.append_assoc], ?_⟩
        intro x hx; cases hx; rfl
    · refine ⟨hb, rfl, ?_⟩
      intro x hx; cases hx; rfl
  have hcons : ∀ (b : BufReader) (n : Nat), b.buf.Ok →
      (∀ b', b.consume n = some b' → b'.buf.Ok ∧
        b.buf.data ++ b.inner.all = b.buf.data.take n ++ b'.buf.data ++ b'.inner.all) ∧
      (b.consume n = none → b.buf.data.length < n) := by
    intro b n hb
    unfold BufReader.consume BytesMut.advance
    by_cases hn : n ≤ b.buf.data.length
    · rw [if_pos hn]
      refine ⟨fun b' h => ?_, fun h => by simp at h⟩
      simp only [Option.map_some, Option.some.injEq] at h
      subst h
      refine ⟨?_, ?_⟩
      · unfold BytesMut.Ok at hb ⊢
        simp only [List.length_drop]; omega
      · simp only [List.take_append_drop]
    · rw [if_neg hn]
      exact ⟨fun b' h => by simp at h, fun _ => by omega⟩
  cases op with
  | fillBuf =>
    refine ⟨fun got b' h => ?_, fun h => by simp [BufReadOp.step] at h⟩
    simp only [BufReadOp.step, Option.some.injEq, Prod.mk.injEq] at h
    obtain ⟨rfl, rfl⟩ := h
    exact ⟨hfill.1, hfill.2.1⟩
  | extend =>
    refine ⟨fun got b' h => ?_, fun h => by simp [BufReadOp.step] at h⟩
    simp only [BufReadOp.step, Option.some.injEq, Prod.mk.injEq] at h
    obtain ⟨rfl, rfl⟩ := h
    obtain ⟨new, e1, e2, e3, _, _⟩ := C25_extend b.buf b.inner hb
    refine ⟨e3, ?_⟩
    simp only [BufReader.extend, List.nil_append]
    rw [e1, e2, List.append_assoc]
  | consume n =>
    obtain ⟨h1, h2⟩ := hcons b n hb
    simp only [BufReadOp.step]
    generalize b.consume n = x at h1 h2
    cases x with
    | none => exact ⟨fun got b' h => by simp at h, fun _ => ⟨n, rfl, h2 rfl⟩⟩
    | some b1 =>
      refine ⟨fun got b' h => ?_, fun h => by simp at h⟩
      simp only [Option.map_some, Option.some.injEq, Prod.mk.injEq] at h
      obtain ⟨rfl, rfl⟩ := h
      exact h1 _ rfl
  | read n =>
    simp only [BufReadOp.step, BufReader.read]
    revert hfill
    generalize b.fillBuf = x
    obtain ⟨x, b1⟩ := x
    intro hfill
    cases x with
    | error e =>
      refine ⟨fun got b' h => ?_, fun h => by simp at h⟩
      simp only [Option.map_some, Option.some.injEq, Prod.mk.injEq] at h
      obtain ⟨rfl, rfl⟩ := h
      exact ⟨hfill.1, hfill.2.1⟩
    | ok rem =>
      have hrem : rem = b1.buf.data := hfill.2.2 rem rfl
      obtain ⟨h1, h2⟩ := hcons b1 (rem.take n).length hfill.1
      simp only
      generalize b1.consume (rem.take n).length = y at h1 h2
      cases y with
      | none =>
        exfalso
        have := h2 rfl
        rw [hrem] at this
        have h3 := List.length_take_le' n b1.buf.data
        omega
      | some b2 =>
        refine ⟨fun got b' h => ?_, fun h => by simp at h⟩
        simp only [Option.map_some, Option.some.injEq, Prod.mk.injEq] at h
        obtain ⟨rfl, rfl⟩ := h
        obtain ⟨h3, h4⟩ := h1 _ rfl
        refine ⟨h3, hfill.2.1.trans (h4.trans ?_)⟩
        rw [hrem, List.length_take, ← List.take_eq_take_min]

/-- **C26** Over every history of `read`, `fill_buf`, `consume` and buffer extensions on every reader:
what was taken out, what is buffered and what is unread are the bytes of the inner reader, each once, in
order. -/
theorem C26_conserved (ops : List BufReadOp) (b : BufReader) (hb : b.buf.Ok) (got : List UInt8)
    (b' : BufReader) (h : BufReadOp.play ops b = some (got, b')) :
    b.buf.data ++ b.inner.all = got ++ b'.buf.data ++ b'.inner.all := by
  induction ops generalizing b got with
  | nil => cases h; rfl
  | cons op ops ih =>
    obtain ⟨h1, _⟩ := step_all op b hb
    simp only [BufReadOp.play] at h
    cases hs : op.step b with
    | none => rw [hs] at h; cases h
    | some x =>
      obtain ⟨g, b1⟩ := x
      rw [hs] at h
      obtain ⟨h2, h3⟩ := h1 _ _ hs
      simp only [Option.map_eq_some_iff] at h
      obtain ⟨⟨g', b2⟩, h4, h5⟩ := h
      cases h5
      rw [h3, List.append_assoc, ih _ h2 _ h4]
      simp only [List.append_assoc]

/-- A history panics only at a `consume` of more than is buffered. -/
theorem C26_no_panic (ops : List BufReadOp) (b : BufReader) (hb : b.buf.Ok)
    (h : BufReadOp.play ops b = none) :
    ∃ before n after got b', ops = before ++ .consume n :: after ∧
      BufReadOp.play before b = some (got, b') ∧ b'.buf.data.length < n := by
  induction ops generalizing b with
  | nil => cases h
  | cons op ops ih =>
    obtain ⟨h1, h2⟩ := step_all op b hb
    simp only [BufReadOp.play] at h
    cases hs : op.step b with
    | none =>
      obtain ⟨n, rfl, h3⟩ := h2 hs
      exact ⟨[], n, ops, [], b, rfl, rfl, h3⟩
    | some x =>
      obtain ⟨g, b1⟩ := x
      rw [hs] at h
      simp only [Option.map_eq_none_iff] at h
      obtain ⟨before, n, after, got, b', h3, h4, h5⟩ := ih b1 (h1 _ _ hs).1 h
      refine ⟨op :: before, n, after, g ++ got, b', by rw [h3]; rfl, ?_, h5⟩
      simp only [BufReadOp.play, hs, h4, Option.map_some]

/-- A `read` into a non-empty buffer gives nothing only if nothing is buffered and the inner reader
gave nothing. -/
theorem C26_read_empty (b : BufReader) (hb : b.buf.Ok) (n : Nat) (hn : 0 < n) (b' : BufReader)
    (h : b.read n = some (.ok [], b')) : b.buf.data = [] ∧ b.inner.ended = true := by
  unfold BufReader.read BufReader.fillBuf at h
  by_cases hd : b.buf.data = []
  · refine ⟨hd, ?_⟩
    rw [if_pos hd] at h
    obtain ⟨new, e1, e2, e3, e4, _⟩ := C25_extend b.buf b.inner hb
    revert h e1 e2 e3 e4
    generalize extendBufSync b.buf b.inner = z
    obtain ⟨z, b1, r'⟩ := z
    intro h e1 e2 e3 e4
    cases z with
    | error e => simp at h
    | ok k =>
      obtain ⟨e5, e6⟩ := e4 _ rfl
      rw [← e6, e5]
      simp only [Option.map_eq_some_iff, Prod.mk.injEq, Except.ok.injEq] at h
      obtain ⟨_, _, h, _⟩ := h
      simp only at e1
      rw [e1, hd] at h
      cases new with
      | nil => rfl
      | cons x xs => cases n with
        | zero => omega
        | succ n => simp at h
  · rw [if_neg hd] at h
    simp only [Option.map_eq_some_iff, Prod.mk.injEq, Except.ok.injEq] at h
    obtain ⟨_, _, h, _⟩ := h
    cases hb' : b.buf.data with
    | nil => exact absurd hb' hd
    | cons x xs => cases n with
      | zero => omega
      | succ n => rw [hb'] at h; simp at h

/-- Reads of two bytes, a look at the buffer, an IO error in the middle. -/
example :
    BufReadOp.play [.read 2, .fillBuf, .consume 1, .read 5, .read 5, .extend]
      (BufReader.withCapacity 0 [.ok [1, 2, 3, 4], .error "io", .ok [5, 6]]) =
    some ([1, 2, 3, 4], ⟨[], ⟨[5, 6], 8188⟩⟩) := rfl

/-- Two messages of two bytes each, from reads of one and three bytes with an IO error in between: the
call that met the error is retried. -/
example :
    let p := pair (any (maybeS (sliceS UInt8 1))) (any (maybeS (sliceS UInt8 1)))
    let x := session (maybeR (sliceR UInt8 1)) (fun b more pos => (⟨pos, b⟩, more)) 9 [p, p, p]
      ⟨0, p.init, .empty, false⟩ [.ok [1], .error "io", .ok [2, 3, 4], .ok [5]]
    x.2.1.buffer.data = [] ∧ x.2.2.all = [5] ∧
    x.1.map (fun r => match r with | .ok v => some (v.1, v.2.1) | _ => none) =
      [none, some (1, 2), some (3, 4)] := by
  refine ⟨rfl, rfl, rfl⟩

example : Moves (pair (any (maybeS (sliceS UInt8 1))) (any (maybeS (sliceS UInt8 1)))) :=
  Built.moves (R := maybeR (sliceR UInt8 1)) (maybe_lawful (slice_lawful _ _))
    (maybeR_lawful (sliceR_lawful _ _)) (.pair .any .any)

end Verif
