import Verif.Spec.Framed
import Verif.Props.Decode
import Verif.Props.Label

/-!
# C51: the frames of a codec
-/

namespace Verif

variable {S : Strm} {R : RangeOps S} {tok : UInt8 → S.Tok} {mk : List UInt8 → Bool → S.Pos → S.Input} {σ α : Type}
  {p : Parser S σ α}

/-- `decode_tokio` differs from `decode` only when there is nothing at all and nothing will come. -/
private theorem tokio_eq (hS : S.Lawful) (hB : ByteSource S R tok mk) (hp : Moves p) (i : S.Input) (s : σ) :
    decodeTokio R p i s = decode R p i s ∨
    ∃ e j s', decode R p i s = (.err e, j, s') ∧ decodeTokio R p i s = (.ok none 0, j, s') ∧ S.E.isEoi e = true ∧
      S.isPartial j = false ∧ S.left i = [] := by
  obtain ⟨ts, h1, -⟩ := decode_reads hS hB hp i s
  have h2 := hB.distance h1
  have h3 := hS.left_reads h1
  unfold decodeTokio decode at *
  dsimp only at *
  generalize p.parseWithState i s = r at *
  obtain ⟨r, j, s'⟩ := r
  cases r with
  | ok v => exact .inl rfl
  | error e =>
    cases e with
    | inl a => exact .inl rfl
    | inr e =>
      dsimp only at *
      by_cases he : S.E.isEoi e = true
      case neg => rw [if_neg he, if_neg he]; exact .inl rfl
      case pos =>
        rw [if_pos he] at h1 h2 h3 ⊢
        rw [if_pos he]
        by_cases hpj : S.isPartial j = true
        case pos => rw [if_pos hpj, if_pos hpj]; exact .inl rfl
        case neg =>
          rw [if_neg hpj] at h1 h2 h3 ⊢
          rw [if_neg hpj]
          dsimp only at h1 h2 h3
          rw [hS.inputAtEof_eq j]
          dsimp only
          by_cases hz : ((S.inputAtEof j).1 && decide (R.distance j (S.checkpoint i) = 0)) = true
          · rw [if_pos hz]
            rw [Bool.and_eq_true, decide_eq_true_eq] at hz
            refine .inr ⟨e, j, s', rfl, rfl, he, by simpa using hpj, ?_⟩
            have hts : ts = [] := List.length_eq_zero_iff.1 (h2.symm.trans hz.2)
            rw [h3, hts, List.nil_append]
            have hz := hz.1
            unfold Strm.inputAtEof at hz
            cases hu : S.uncons j with
            | mk x k =>
              cases x with
              | error x => exact Strm.left_error hu
              | ok t => simp [hu] at hz
          · rw [if_neg hz]; exact .inl rfl

/-- **C51.**  A codec on `decode_tokio` gives the frames that `decode!` gives on the same bytes, however they are read,
and leaves the same bytes.  Only when `decode!` reports an unexpected end, and the buffer is empty and the end was
reached, does it end the stream instead. -/
theorem C51_frame (hS : S.Lawful) (hB : ByteSource S R tok mk) (hp : Moves p) (fuel : Nat) (d : Decoder S.Pos σ)
    (r : Reader) :
    (nextFrame R p mk fuel d r).2 = (decodeLoop R p mk fuel d r).2 ∧
    match (decodeLoop R p mk fuel d r).1 with
    | .ok v => (nextFrame R p mk fuel d r).1 = .item v
    | .io e q => (nextFrame R p mk fuel d r).1 = .io e q
    | .abort a => (nextFrame R p mk fuel d r).1 = .abort a
    | .parse e => (nextFrame R p mk fuel d r).1 = .parse e ∨
        (nextFrame R p mk fuel d r).1 = .done ∧ S.E.isEoi e = true ∧
        (nextFrame R p mk fuel d r).2.1.endOfInput = true ∧ (nextFrame R p mk fuel d r).2.1.buffer.data = [] := by
  induction fuel generalizing d r with
  | zero => exact ⟨rfl, rfl⟩
  | succ fuel ih =>
    have h1 := tokio_eq (p := p) hS hB hp (mk d.buffer.data (!d.endOfInput) d.position) d.state
    obtain ⟨ts, h2, h3⟩ := decode_reads hS hB hp (mk d.buffer.data (!d.endOfInput) d.position) d.state
    have h4 := hS.reads_isPartial h2
    rw [hB.isPartial] at h4
    have h5 := hB.left d.buffer.data (!d.endOfInput) d.position
    simp only [decodeLoop, nextFrame]
    rcases h1 with h1 | ⟨e, j, s', k1, k2, k3, k4, k5⟩
    · rw [h1]
      generalize decode R p (mk d.buffer.data (!d.endOfInput) d.position) d.state = y at *
      obtain ⟨res, j, s'⟩ := y
      cases res with
      | abort a => exact ⟨rfl, rfl⟩
      | err e => exact ⟨rfl, .inl rfl⟩
      | ok opt removed =>
        dsimp only at *
        cases ha : d.buffer.advance removed with
        | none => exact ⟨rfl, rfl⟩
        | some b =>
          dsimp only
          cases opt with
          | some v => exact ⟨rfl, rfl⟩
          | none =>
            have he : d.endOfInput = false := by
              rw [(h3 _ _ rfl).2 rfl] at h4
              simpa using h4
            dsimp only
            rw [he, if_neg (by simp)]
            generalize Decoder.beforeParse _ r = z
            obtain ⟨z, d', r'⟩ := z
            cases z with
            | error e => exact ⟨rfl, rfl⟩
            | ok u => exact ih d' r'
    · rw [k1, k2]
      rw [k1] at h4
      dsimp only at h4 ⊢
      have hb : d.buffer.data = [] := by
        rw [h5] at k5
        exact List.map_eq_nil_iff.1 k5
      have he : d.endOfInput = true := by
        rw [k4] at h4
        simpa using h4
      have ha : d.buffer.advance 0 = some d.buffer := by
        simp [BytesMut.advance]
      rw [ha]
      dsimp only
      rw [if_pos he]
      exact ⟨rfl, .inr ⟨rfl, k3, he, hb⟩⟩

private theorem frame_item (hS : S.Lawful) (hB : ByteSource S R tok mk) (hp : Moves p) {fuel : Nat}
    {d d' : Decoder S.Pos σ} {r r' : Reader} {v : α} (h : decodeLoop R p mk fuel d r = (.ok v, d', r')) :
    nextFrame R p mk fuel d r = (.item v, d', r') := by
  have := C51_frame hS hB hp fuel d r
  rw [h] at this
  exact Prod.ext this.2 this.1

private theorem frame_io (hS : S.Lawful) (hB : ByteSource S R tok mk) (hp : Moves p) {fuel : Nat}
    {d d' : Decoder S.Pos σ} {r r' : Reader} {e : String} {q : S.Pos}
    (h : decodeLoop R p mk fuel d r = (.io e q, d', r')) : nextFrame R p mk fuel d r = (.io e q, d', r') := by
  have := C51_frame hS hB hp fuel d r
  rw [h] at this
  exact Prod.ext this.2 this.1

private theorem retry_item (hS : S.Lawful) (hB : ByteSource S R tok mk) (hp : Moves p) {fuel n : Nat}
    {d d' : Decoder S.Pos σ} {r r' : Reader} {v : α} (h : decodeRetry R p mk fuel n d r = (.ok v, d', r')) :
    nextRetry R p mk fuel n d r = (.item v, d', r') := by
  induction n generalizing d r with
  | zero => exact frame_item hS hB hp h
  | succ n ih =>
    simp only [decodeRetry] at h
    simp only [nextRetry]
    cases hx : decodeLoop R p mk fuel d r with
    | mk x y =>
      obtain ⟨d1, r1⟩ := y
      rw [hx] at h
      cases x with
      | io e q => rw [frame_io hS hB hp hx]; exact ih h
      | ok v' =>
        rw [frame_item hS hB hp hx]
        cases h
        rfl
      | parse e => cases h
      | abort a => cases h

private theorem frames_of_many (hS : S.Lawful) (hB : ByteSource S R tok mk) (hM : Moves p) {fuel n : Nat} {vs : List α}
    {d d' : Decoder S.Pos σ} {r r' : Reader} (h1 : decodeMany R p mk fuel n vs.length d r = (vs.map .ok, d', r')) :
    frames R p mk fuel n vs.length d r = (vs.map .item, d', r') := by
  induction vs generalizing d r with
  | nil => cases h1; rfl
  | cons v vs ih =>
    simp only [List.length_cons, decodeMany, List.map_cons, Prod.mk.injEq, List.cons.injEq] at h1
    obtain ⟨⟨k1, k2⟩, k3⟩ := h1
    have k4 : decodeRetry R p mk fuel n d r = (.ok v, (decodeRetry R p mk fuel n d r).2) := Prod.ext k1 rfl
    simp only [List.length_cons, frames, List.map_cons]
    rw [retry_item hS hB hM k4, ih (Prod.ext k2 k3)]

/-- **C51.**  If the bytes to come start with the messages `vs`, the codec gives these as its next frames, however the
bytes are read and however often reading fails. -/
theorem C51_messages [DecidableEq S.Tok] [DecidableEq S.Rng] {V : Ranges S} {D : Den S.Tok α} {l : Bool}
    (hF : S.Feedable) (hV : V.Lawful) (hB : ByteSource S R tok mk) (hp : Frag V p D true l) (fuel n : Nat)
    (d : Decoder S.Pos σ) (r : Reader) (hb : d.buffer.Ok) (hs : d.state = p.init) (hf : r.stream.length + 1 < fuel)
    (hn : r.faults ≤ n) {vs : List α} {rest : List UInt8} (h : Messages p tok mk (d.ahead r) vs rest) :
    ∃ d' r', frames R p mk fuel n vs.length d r = (vs.map .item, d', r') ∧ (d'.ahead r').map tok = rest.map tok := by
  have hM := (frag_built hp).moves hF.lawful hV.ops
  obtain ⟨d', r', h1, h2⟩ := C46_messages hF hB hp fuel n d r hb hs hf hn h
  exact ⟨d', r', frames_of_many hF.lawful hB hM h1, h2⟩

/-- In the states `Q` the parser has nothing to give without any input, and its failure says so. -/
private def Needs (p : Parser S σ α) (mk : List UInt8 → Bool → S.Pos → S.Input) (Q : Bool → σ → Prop) : Prop :=
  ∀ more pos s, Q more s → ∃ e, (p.parseWithState (mk [] more pos) s).1 = .error (.inr e) ∧ S.E.isEoi e = true ∧
    (more = true → ∀ b, Q b (p.parseWithState (mk [] more pos) s).2.2)

private theorem end_of (hF : S.Feedable) (hB : ByteSource S R tok mk) (hp : Moves p) {Q : Bool → σ → Prop}
    (hN : Needs p mk Q) (fuel n : Nat) (d : Decoder S.Pos σ) (r : Reader) (hb : d.buffer.Ok) (hq : Q (!d.endOfInput) d.state)
    (h : d.ahead r = []) (hf : 1 < fuel) (hn : d.endOfInput = false → r.faults ≤ n) :
    (nextRetry R p mk fuel n d r).1 = .done := by
  have hS := hF.lawful
  have turn : ∀ (q : S.Pos) (s : σ) (more : Bool), Q more s → ∃ j s',
      decodeTokio R p (mk [] more q) s = (.ok none 0, j, s') ∧ (more = true → ∀ b, Q b s') := by
    intro q s more hq
    obtain ⟨e, h1, h2, hq'⟩ := hN more q s hq
    obtain ⟨ts, h3, -⟩ := decode_reads hS hB hp (mk [] more q) s
    have h4 := hS.left_reads h3
    rw [hB.left, List.map_nil] at h4
    obtain ⟨hts, hl⟩ := List.append_eq_nil_iff.1 h4.symm
    subst hts
    have h5 := hB.distance h3
    have h6 := hS.reads_isPartial h3
    rw [hB.isPartial] at h6
    have h7 : (decode R p (mk [] more q) s).2.1 = (p.parseWithState (mk [] more q) s).2.1 := by
      unfold decode
      dsimp only
      generalize p.parseWithState (mk [] more q) s = x at *
      obtain ⟨x, j, s'⟩ := x
      dsimp only at h1
      subst h1
      dsimp only
      rw [if_pos h2]
      split <;> rfl
    rw [h7] at h5 h6 hl
    unfold decodeTokio
    dsimp only
    generalize p.parseWithState (mk [] more q) s = x at *
    obtain ⟨x, j, s'⟩ := x
    dsimp only at h1 h5 h6 hl hq'
    subst h1
    dsimp only
    rw [if_pos h2, h5]
    cases more with
    | true => rw [if_pos h6]; exact ⟨_, _, rfl, hq'⟩
    | false =>
      rw [h6, if_neg (by simp), hS.inputAtEof_eq j]
      dsimp only
      obtain ⟨e', he⟩ := hS.uncons_of_left_nil hl
      have hat : (S.inputAtEof j).1 = true := by
        rw [inputAtEof_iff hS hF.ends]
        exact ⟨e', by rw [he]⟩
      rw [hat, h5]
      exact ⟨_, _, rfl, hq'⟩
  have ended : ∀ fuel (d : Decoder S.Pos σ) (r : Reader), Q (!d.endOfInput) d.state → d.endOfInput = true →
      d.buffer.data = [] → (nextFrame R p mk (fuel + 1) d r).1 = .done := by
    intro fuel d r hq he hd
    obtain ⟨j, s', ht, _⟩ := turn d.position d.state _ hq
    have ha : d.buffer.advance 0 = some d.buffer := by simp [BytesMut.advance]
    simp only [nextFrame]
    rw [hd, ht]
    dsimp only
    rw [ha]
    dsimp only
    rw [if_pos he]
  obtain ⟨fuel, rfl⟩ : ∃ k, fuel = k + 2 := ⟨fuel - 2, by omega⟩
  have step : ∀ (d : Decoder S.Pos σ) (r : Reader), d.buffer.Ok → Q (!d.endOfInput) d.state → d.ahead r = [] →
      (nextFrame R p mk (fuel + 2) d r).1 = .done ∨
      ∃ e q d' r', nextFrame R p mk (fuel + 2) d r = (.io e q, d', r') ∧ d'.buffer.Ok ∧ Q (!d'.endOfInput) d'.state ∧
        d'.ahead r' = [] ∧ r.faults = r'.faults + 1 ∧ d.endOfInput = false := by
    intro d r hb hq h
    obtain ⟨hd, hr⟩ := List.append_eq_nil_iff.1 h
    by_cases he : d.endOfInput = true
    · exact .inl (ended _ d r hq he hd)
    · have hef : d.endOfInput = false := by simpa using he
      rw [if_neg he] at hr
      obtain ⟨j, s', ht, hq'⟩ := turn d.position d.state _ hq
      have hq' := hq' (by rw [hef]; rfl)
      have ha : d.buffer.advance 0 = some d.buffer := by simp [BytesMut.advance]
      rw [nextFrame, hd, ht]
      dsimp only
      rw [ha]
      dsimp only
      rw [if_neg he]
      simp only [Decoder.beforeParse]
      obtain ⟨t1, t2⟩ := extend_stream d.buffer hb r
      generalize extendBufSync d.buffer r = z at t1 t2
      obtain ⟨z, b', r'⟩ := z
      cases z with
      | error e =>
        obtain ⟨f1, f2, f3, f4⟩ := t1 _ _ _ rfl
        refine .inr ⟨_, _, _, _, rfl, f1, hq' _, ?_, f4, hef⟩
        simp only [Decoder.ahead, hef, Bool.false_eq_true, if_false, f2, f3, hd, hr, List.append_nil]
      | ok n =>
        obtain ⟨f1, new, f2, f3, f4, f5⟩ := t2 _ _ _ rfl
        have hnew : new = [] := Classical.byContradiction fun hn => by
          have := (f5 hn).1
          rw [hr] at this
          exact hn (List.append_eq_nil_iff.1 this.symm).1
        subst hnew
        left
        refine ended _ _ _ (hq' _) ?_ ?_
        · rw [f3]; rfl
        · rw [f2, hd]; rfl
  clear hf
  induction n generalizing d r with
  | zero =>
    rcases step d r hb hq h with h1 | ⟨e, q, d', r', h1, h2, h6, h3, h4, h5⟩
    · exact h1
    · have := hn h5
      omega
  | succ n ih =>
    rw [nextRetry]
    rcases step d r hb hq h with h1 | ⟨e, q, d', r', h1, h2, h6, h3, h4, h5⟩
    · split
      · rename_i heq; rw [heq] at h1; cases h1
      · exact h1
    · rw [h1]
      exact ih d' r' h2 h6 h3 fun _ => by have := hn h5; omega

private theorem frames_add (fuel n m k : Nat) (d : Decoder S.Pos σ) (r : Reader) :
    frames R p mk fuel n (m + k) d r =
      ((frames R p mk fuel n m d r).1 ++
        (frames R p mk fuel n k (frames R p mk fuel n m d r).2.1 (frames R p mk fuel n m d r).2.2).1,
       (frames R p mk fuel n k (frames R p mk fuel n m d r).2.1 (frames R p mk fuel n m d r).2.2).2) := by
  induction m generalizing d r with
  | zero => simp [frames]
  | succ m ih =>
    rw [Nat.add_right_comm]
    simp only [frames]
    rw [ih]
    rfl

/-- **C51.**  A stream that is a sequence of messages gives exactly these, and then ends, however the bytes are read and
however often reading fails, if without any bytes the parser asks for some (`hD`). -/
theorem C51_all [DecidableEq S.Tok] [DecidableEq S.Rng] {V : Ranges S} {D : Den S.Tok α} {l : Bool}
    (hF : S.Feedable) (hV : V.Lawful) (hB : ByteSource S R tok mk) (hp : Frag V p D true l)
    (hD : ∀ more, D more [] = Den.short more) (hadd : ∀ e, S.E.isEoi (S.E.add e S.E.endOfInput) = true)
    (hae : ∀ t, S.E.isEoi t.error = true → S.E.isEoi (p.addError t).error = true)
    (fuel n : Nat) (d : Decoder S.Pos σ) (r : Reader) (hb : d.buffer.Ok) (hs : d.state = p.init)
    (hf : r.stream.length + 1 < fuel) (hn : r.faults ≤ n) {vs : List α} (h : Messages p tok mk (d.ahead r) vs []) :
    (frames R p mk fuel n (vs.length + 1) d r).1 = vs.map .item ++ [.done] := by
  have hM := (frag_built hp).moves hF.lawful hV.ops
  obtain ⟨Ready, Rep, hr, hm', hm⟩ := frag_resumable hF hp
  have hN : Needs p mk fun more s => Rep more s [] [] := by
    intro more pos s hq
    have hl := hB.left [] more pos
    have hpt := hB.isPartial [] more pos
    have hst := (hr more).resume (mk [] more pos) hpt hq List.nil_prefix
    rw [hpt, hl, List.nil_append, List.map_nil, hD] at hst
    cases more with
    | true =>
      obtain ⟨e, x, h1, h2, h3, h4⟩ := hst
      have h5 := hF.lawful.left_reads h3
      rw [hl, List.map_nil] at h5
      obtain ⟨rfl, h6⟩ := List.append_eq_nil_iff.1 h5.symm
      rw [h6] at h4
      rw [parseWithState_err h1]
      exact ⟨e, rfl, h2, fun _ b => by cases b; exact hm _ _ _ h4; exact h4⟩
    | false =>
      obtain ⟨-, ⟨e, h1⟩, h2, -⟩ := hst
      obtain ⟨x, hu⟩ := hF.lawful.uncons_of_left_nil hl
      have : (p.parseWithState (mk [] false pos) s).1 =
          .error (.inr (p.addError { e with error := S.E.add e.error S.E.endOfInput }).error) := by
        unfold Parser.parseWithState Parser.streamPartial Strm.describing Strm.describe
        simp only [h1, hF.lawful.tryReset_eq h2, hu]
      exact ⟨_, this, hae _ (hadd _), fun h => by cases h⟩
  obtain ⟨d', r', h1, h2, h3, h4, h5⟩ := many_mid hF hB hr hm' hm fuel n h d r hb (hs ▸ (hr _).ready_init) rfl
    (Nat.lt_of_le_of_lt (Decoder.reads_le d r) hf) (Nat.le_trans (Decoder.faults_le d r) hn)
  rw [frames_add, frames_of_many hF.lawful hB hM h1]
  have := end_of hF hB hM hN fuel n d' r' h3 ((hr _).ready_rep h5) (List.map_eq_nil_iff.1 h2) (by omega) fun h => by
    simpa [Decoder.faults, h] using h4
  simp only [frames, this]

/-- **C51.**  With easy errors, whatever labels and messages the parser carries. -/
theorem C51_easy {A : Strm} [DecidableEq A.Tok] [DecidableEq A.Rng] {cmp : A.Pos → A.Pos → Ordering}
    {convS : A.SErr → Easy.Error A.Tok A.Rng} {conv : A.Err → Easy.Errors A.Tok A.Rng A.Pos}
    {V : Ranges (easyS A cmp convS conv)} {tok : UInt8 → A.Tok} {mk : List UInt8 → Bool → A.Pos → A.Input} {σ α : Type}
    {p : Parser (easyS A cmp convS conv) σ α} {D : Den A.Tok α} {l : Bool}
    (hF : (easyS A cmp convS conv).Feedable) (hV : V.Lawful) (hB : ByteSource (easyS A cmp convS conv) V.ops tok mk)
    (hp : Frag V p D true l) (hD : ∀ more, D more [] = Den.short more)
    (fuel n : Nat) (d : Decoder A.Pos σ) (r : Reader) (hb : d.buffer.Ok) (hs : d.state = p.init)
    (hf : r.stream.length + 1 < fuel) (hn : r.faults ≤ n) {vs : List α} (h : Messages p tok mk (d.ahead r) vs []) :
    (frames V.ops p mk fuel n (vs.length + 1) d r).1 = vs.map .item ++ [.done] := by
  refine C51_all (S := easyS A cmp convS conv) hF hV hB hp hD (fun e => ?_) (fun t ht => ?_) fuel n d r hb hs hf hn h
  · change Easy.Errors.isEoi (Easy.Errors.addError e .endOfInput) = true
    simp only [Easy.Errors.isEoi, List.any_eq_true]
    rcases Easy.addError_cases e .endOfInput with ⟨⟨x, hx, hs⟩, h⟩ | ⟨_, h⟩
    · exact ⟨x, by rw [h]; exact hx, (Easy.eqv_iff _ _).2 hs⟩
    · exact ⟨.endOfInput, by rw [h]; simp, (Easy.eqv_iff _ _).2 (.unexpected rfl)⟩
  · obtain ⟨_, own, h2⟩ := C30_only_adds (frag_built hp) t
    change Easy.Errors.isEoi _ = true at ht
    change Easy.Errors.isEoi _ = true
    simp only [Easy.Errors.isEoi, List.any_eq_true] at ht ⊢
    obtain ⟨x, hx, hx'⟩ := ht
    exact ⟨x, by rw [h2]; exact List.mem_append_left _ hx, hx'⟩

/-! ## Examples -/

private abbrev B := maybeS (sliceS UInt8 1)
private abbrev RB : RangeOps B := maybeR (sliceR UInt8 1)
private def VB : Ranges B := ⟨RB, id, fun _ => 1, id, fun _ => [], fun _ => 0⟩
private theorem lawful_VB : VB.Lawful := ⟨(maybeR_units (sliceR_units UInt8 1)).lawful, fun _ => rfl⟩
private abbrev mkB (b : List UInt8) (more : Bool) (pos : Nat) : B.Input := (⟨pos, b⟩, more)
private theorem feedable_B : B.Feedable := maybe_feedable (slice_feedable UInt8 (by decide))
private def isDigit (b : UInt8) : Bool := 48 ≤ b && b ≤ 57
/-- A number ended by `;`. -/
private def number := skip (takeWhile1 RB isDigit) (token B 59)

private theorem number_frag : ∃ D, Frag VB number D true true ∧ ∀ more, D more [] = Den.short more :=
  ⟨_, Frag.skip (Frag.takeWhile1 _ lawful_VB) (Frag.token (S := B) 59) (r' := true)
        fun _ => ⟨rfl, (Den.consuming_span1 _ _).firm _⟩, fun more => by cases more <;> rfl⟩

private def fresh {σ α : Type} (p : Parser B σ α) : Decoder B.Pos σ := ⟨(0 : Nat), p.init, .empty, false⟩

private theorem number_says (t : Tracked B.Err) (h : B.E.isEoi t.error = true) : B.E.isEoi (number.addError t).error = true := by
  obtain ⟨e, n⟩ := t
  change B.E.isEoi (if n ≤ 1 then _ else Seq.addErrors _ (if n = n then _ else _) : Tracked B.Err).error = true
  rw [if_pos rfl]
  split
  · exact h
  · simp only [Seq.addErrors]
    split
    · exact feedable_B.add _ _ h
    · exact feedable_B.add _ _ h

-- "12;7;": two messages and the end, in any reads
example (r : Reader) (h : r.stream = [49, 50, 59, 55, 59]) :
    (frames RB number mkB 9 r.faults 3 (fresh number) r).1 = [.item [49, 50], .item [55], .done] := by
  have hm : Messages number id mkB ((fresh number).ahead r) [[49, 50], [55]] [] := by
    have : (fresh number).ahead r = [49, 50, 59, 55, 59] := h
    rw [this]
    refine .cons (pos := (0 : Nat)) (bs' := [55, 59]) (c := true) (j := (⟨3, [55, 59]⟩, false)) rfl ?_ ?_
    · exact ((maybe_left _).trans (slice_left _ _)).trans (by simp)
    · refine .cons (pos := (0 : Nat)) (bs' := []) (c := true) (j := (⟨2, []⟩, false)) rfl ?_ (.nil _)
      exact ((maybe_left _).trans (slice_left _ _)).trans (by simp)
  obtain ⟨D, hp, hD⟩ := number_frag
  exact C51_all feedable_B lawful_VB byteSource_maybe hp hD (fun e => by cases e <;> rfl)
    number_says 9 r.faults (fresh number) r (Nat.le_refl 0) rfl (by rw [h]; decide) (Nat.le_refl _) hm
example : (frames RB number mkB 9 1 3 (fresh number) [.ok [49], .error "e", .ok [50, 59, 55], .ok [59]]).1 =
    [.item [49, 50], .item [55], .done] := by rfl

-- an incomplete message is an error: "1"
example : ∃ e, (nextFrame RB number mkB 9 (fresh number) [.ok [49]]).1 = .parse e := ⟨_, rfl⟩
example : ∃ e, (nextFrame RB number mkB 9 (fresh number) [.ok [59]]).1 = .parse e := ⟨_, rfl⟩

-- with labels and easy errors
private abbrev EO := Easy.Errors.ops UInt8 (List UInt8) Nat compare
private abbrev toE : B.SErr → Easy.Error UInt8 (List UInt8) := UnexpectedParse.intoOtherS EO
private abbrev toEs : B.Err → Easy.Errors UInt8 (List UInt8) Nat := UnexpectedParse.intoOther EO (0 : Nat)
private abbrev Y := easyS B compare toE toEs
private abbrev RY : RangeOps Y := convertR B.decPos id EO toE toEs RB
private def VY : Ranges Y := ⟨RY, id, fun _ => 1, id, fun _ => [], fun _ => 0⟩
private theorem lawful_VY : VY.Lawful := ⟨convertR_lawful (maybeR_units (sliceR_units UInt8 1)).lawful, fun _ => rfl⟩
private theorem toE_eoi (e : B.SErr) (h : B.E.isEoiS e = true) : Y.E.isEoiS (toE e) = true := by
  cases e with
  | eoi => rfl
  | unexpected => cases h
private theorem feedable_Y : Y.Feedable :=
  convert_feedable feedable_B (easyErrors_keeps _ _ _ _) (fun _ _ h => h) toE_eoi
private theorem source_Y : ByteSource Y RY id mkB where
  left := fun b more pos => (convert_left _).trans (byteSource_maybe.left b more pos)
  isPartial := fun _ _ _ => rfl
  distance := fun h => byteSource_maybe.distance (convert_reads.1 h)
private def labelled := expected (skip (takeWhile1 RY isDigit) (token Y 59)) (.static "number")
private theorem labelled_frag : ∃ D, Frag VY labelled D true true ∧ ∀ more, D more [] = Den.short more :=
  ⟨_, Frag.expected _ (Frag.skip (Frag.takeWhile1 _ lawful_VY) (Frag.token (S := Y) 59) (r' := true)
        fun _ => ⟨rfl, (Den.consuming_span1 _ _).firm _⟩), fun more => by cases more <;> rfl⟩

example (r : Reader) (h : r.stream = [49, 50, 59]) :
    (frames RY labelled mkB 9 r.faults 2 ⟨(0 : Nat), labelled.init, .empty, false⟩ r).1 = [.item [49, 50], .done] := by
  obtain ⟨D, hp, hD⟩ := labelled_frag
  have hm : Messages labelled id mkB ((⟨(0 : Nat), labelled.init, .empty, false⟩ : Decoder Y.Pos _).ahead r) [[49, 50]] [] := by
    have : (⟨(0 : Nat), labelled.init, .empty, false⟩ : Decoder Y.Pos _).ahead r = [49, 50, 59] := h
    rw [this]
    refine .cons (pos := (0 : Nat)) (bs' := []) (c := true) (j := (⟨3, []⟩, false)) rfl ?_ (.nil _)
    exact ((convert_left _).trans ((maybe_left _).trans (slice_left _ _))).trans (by simp)
  exact C51_easy feedable_Y lawful_VY source_Y hp hD 9 r.faults ⟨(0 : Nat), labelled.init, .empty, false⟩ r (Nat.le_refl 0)
    rfl (by rw [h]; decide) (Nat.le_refl _) hm

/-! ## Deviations -/

/-- Deviation: a message cut off by the end of the input is taken for the end if everything read of it was consumed.
Of `a b`, "a" is reported as the end, although `decode!` reports an error. -/
theorem C51_truncated_fails :
    let p := tuple (token B 97) (.cons (token B 98) .nil)
    (nextFrame RB p mkB 9 (fresh p) [.ok [97]]).1 = .done ∧
    ∃ e, (decodeLoop RB p mkB 9 (fresh p) [.ok [97]]).1 = .parse e :=
  ⟨rfl, _, rfl⟩

/-- Deviation: with the errors of a plain slice a label hides that the input has ended, and the end after the last
message is reported as an error. -/
theorem C51_labelled_fails :
    (nextFrame RB number mkB 9 (fresh number) []).1 = .done ∧
    ∃ e, (nextFrame RB (expected number (.static "number")) mkB 9 (fresh (expected number (.static "number"))) []).1 =
      .parse e := ⟨rfl, _, rfl⟩

end Verif
