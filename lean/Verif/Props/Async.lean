import Verif.Spec.Async
import Verif.Props.Decode

/-!
# C49: asynchronous decoding

The asynchronous `decode_*!` give what `decode!` gives, whenever the reader is ready and wherever a future is dropped.
`AReader.stream`, `Decoder.aheadA`, `decodeAwait`, `decodeTask` and `decodeTasks` are defined in `Verif.Spec.Async`.
-/

namespace Verif

variable {S : Strm} {σ α : Type} {R : RangeOps S} {tok : UInt8 → S.Tok} {mk : List UInt8 → Bool → S.Pos → S.Input}

/-! ## Reading -/

private theorem pollRead_spec (n : Nat) (hn : 0 < n) (r : AReader) :
    match r.pollRead n with
    | (.pending, r') => r'.all = r.all ∧ r'.stream = r.stream ∧ r.stops = r'.stops + 1
    | (.ready (.error _), r') => r'.all = r.all ∧ r'.stream = r.stream ∧ r.stops = r'.stops + 1
    | (.ready (.ok bs), r') => r.all = bs ++ r'.all ∧ bs.length ≤ n ∧ (bs = [] → r.stream = []) ∧
      (bs ≠ [] → r.stream = bs ++ r'.stream ∧ r'.stops = r.stops) := by
  cases r with
  | nil => exact ⟨rfl, Nat.zero_le _, fun _ => rfl, fun h => absurd rfl h⟩
  | cons c r =>
    cases c with
    | pending => exact ⟨rfl, rfl, rfl⟩
    | ready c =>
      cases c with
      | error e => exact ⟨rfl, rfl, rfl⟩
      | ok c =>
        simp only [AReader.pollRead]
        by_cases h1 : c.length ≤ n
        · rw [if_pos h1]
          refine ⟨rfl, h1, ?_⟩
          cases c with
          | nil => exact ⟨fun _ => rfl, fun h => absurd rfl h⟩
          | cons b c => exact ⟨fun h => (by cases h), fun _ => ⟨rfl, rfl⟩⟩
        · rw [if_neg h1]
          cases c with
          | nil => simp at h1
          | cons b c =>
            obtain ⟨n, rfl⟩ : ∃ m, n = m + 1 := ⟨n - 1, by omega⟩
            refine ⟨?_, List.length_take_le _ _, fun h => by simp at h, fun _ => ?_⟩
            · simp only [AReader.all]
              rw [← List.append_assoc, List.take_append_drop]
            simp only [List.drop_succ_cons, List.take_succ_cons]
            have h2 : c.drop n ≠ [] := by
              intro h
              have := congrArg List.length h
              simp only [List.length_drop, List.length_nil, List.length_cons] at this h1
              omega
            cases h3 : c.drop n with
            | nil => exact absurd h3 h2
            | cons x xs =>
              simp only [AReader.stream, AReader.stops, List.cons_append, and_true]
              rw [show x :: (xs ++ AReader.stream r) = (x :: xs) ++ AReader.stream r from rfl, ← h3, ← List.append_assoc,
                List.take_append_drop]

/-- What one poll of the future that extends the buffer does: a poll that is not ready and one that fails change neither
the buffered nor the unread bytes; otherwise the bytes read go from the reader to the buffer, and none are read only if
the reader is at its end. -/
theorem C49_extend (b : BytesMut) (hb : b.Ok) (r : AReader) :
    match pollExtendBuf b r with
    | (.pending, b', r') => b'.Ok ∧ b'.data = b.data ∧ r'.all = r.all ∧ r'.stream = r.stream ∧ r.stops = r'.stops + 1
    | (.ready (.error _), b', r') =>
      b'.Ok ∧ b'.data = b.data ∧ r'.all = r.all ∧ r'.stream = r.stream ∧ r.stops = r'.stops + 1
    | (.ready (.ok n), b', r') => b'.Ok ∧ ∃ new, b'.data = b.data ++ new ∧ n = new.length ∧ r.all = new ++ r'.all ∧
      (new = [] → r.stream = []) ∧ (new ≠ [] → r.stream = new ++ r'.stream ∧ r'.stops = r.stops) := by
  unfold pollExtendBuf
  simp only
  have h1 : b.chunkMut.data = b.data ∧ b.data.length < b.chunkMut.cap := by
    unfold BytesMut.chunkMut
    unfold BytesMut.Ok at hb
    split
    · exact ⟨rfl, by simp only [BytesMut.reserve]; omega⟩
    · exact ⟨rfl, by omega⟩
  generalize b.chunkMut = b' at h1
  have h2 := pollRead_spec (b'.cap - b'.data.length) (by rw [h1.1]; omega) r
  revert h2
  generalize r.pollRead (b'.cap - b'.data.length) = x
  obtain ⟨x, r'⟩ := x
  have hok : b'.Ok := by unfold BytesMut.Ok; rw [h1.1]; omega
  cases x with
  | pending => exact fun h => ⟨hok, h1.1, h⟩
  | ready x =>
    cases x with
    | error e => exact fun h => ⟨hok, h1.1, h⟩
    | ok bs =>
      rintro ⟨g1, g2, g3⟩
      refine ⟨?_, bs, by simp only [h1.1], rfl, g1, g3⟩
      unfold BytesMut.Ok
      rw [h1.1] at g2
      simp only [h1.1, List.length_append]
      omega

/-! ## Every byte once -/

private theorem turn_bytes {bytes : S.Input → List UInt8} (hB : ByteInput S R bytes mk) (hS : S.Lawful)
    {p : Parser S σ α} (hp : Moves p) (d : Decoder S.Pos σ) (hd : d.buffer.Ok) :
    (decodeTurn R p mk d).2.buffer.Ok ∧ ∃ consumed, d.buffer.data = consumed ++ (decodeTurn R p mk d).2.buffer.data := by
  obtain ⟨taken, h1, h2⟩ := C25_decode hB hS hp (mk d.buffer.data (!d.endOfInput) d.position) d.state
  rw [hB.whole] at h1
  simp only [decodeTurn]
  revert h1 h2
  generalize decode R p (mk d.buffer.data (!d.endOfInput) d.position) d.state = y
  obtain ⟨res, j, s'⟩ := y
  intro h1 h2
  cases res with
  | abort a => exact ⟨hd, [], rfl⟩
  | err e => exact ⟨hd, [], rfl⟩
  | ok opt removed =>
    have hn := h2 _ _ rfl
    simp only at h1
    have hadv : d.buffer.advance removed = some ⟨bytes j, d.buffer.cap - removed⟩ := by
      unfold BytesMut.advance
      rw [if_pos (by rw [h1, hn, List.length_append]; omega), h1, hn, List.drop_left]
    simp only [hadv]
    refine ⟨?_, taken, h1⟩
    unfold BytesMut.Ok at hd ⊢
    rw [h1, List.length_append] at hd
    simp only; omega

private theorem poll_bytes {bytes : S.Input → List UInt8} (hB : ByteInput S R bytes mk) (hS : S.Lawful)
    {p : Parser S σ α} (hp : Moves p) (fuel : Nat) (a : Bool) (d : Decoder S.Pos σ) (r : AReader) (hd : d.buffer.Ok) :
    let x := pollDecode R p mk fuel a d r
    x.2.1.buffer.Ok ∧ ∃ consumed, d.buffer.data ++ r.all = consumed ++ x.2.1.buffer.data ++ x.2.2.all := by
  induction fuel generalizing a d r with
  | zero => exact ⟨hd, [], rfl⟩
  | succ fuel ih =>
    cases a with
    | false =>
      obtain ⟨h1, c, h2⟩ := turn_bytes hB hS hp d hd
      simp only [pollDecode]
      revert h1 h2
      generalize decodeTurn R p mk d = y
      obtain ⟨y, d'⟩ := y
      intro h1 h2
      cases y with
      | some x => exact ⟨h1, c, by rw [h2]⟩
      | none =>
        obtain ⟨i1, c', i2⟩ := ih true d' r h1
        refine ⟨i1, c ++ c', ?_⟩
        rw [h2, List.append_assoc, i2]; simp only [List.append_assoc]
    | true =>
      have h1 := C49_extend d.buffer hd r
      simp only [pollDecode, Decoder.pollBeforeParse]
      revert h1
      generalize pollExtendBuf d.buffer r = y
      obtain ⟨y, b', r'⟩ := y
      cases y with
      | pending => rintro ⟨g1, g2, g3, _⟩; exact ⟨g1, [], by simp only [g2, g3, List.nil_append]⟩
      | ready y =>
        cases y with
        | error e => rintro ⟨g1, g2, g3, _⟩; exact ⟨g1, [], by simp only [g2, g3, List.nil_append]⟩
        | ok n =>
          rintro ⟨g1, new, g2, g3, g4, _⟩
          obtain ⟨i1, c', i2⟩ := ih false { d with buffer := b', endOfInput := if n = 0 then true else d.endOfInput } r' g1
          refine ⟨i1, c', ?_⟩
          rw [← i2, g4, g2]; simp only [List.append_assoc]

/-- **C49.**  Whenever the reader is not ready or fails, and wherever futures are dropped and made anew: consumed, buffered
and unread bytes are the source bytes, in order.  For every parser. -/
theorem C49_bytes {bytes : S.Input → List UInt8} (hB : ByteInput S R bytes mk) (hS : S.Lawful)
    {p : Parser S σ α} (hp : Moves p) (fuel : Nat) (acts : List Bool) (a : Bool) (d : Decoder S.Pos σ) (r : AReader)
    (hd : d.buffer.Ok) :
    let x := decodeTask R p mk fuel acts a d r
    x.2.1.buffer.Ok ∧ ∃ consumed, d.buffer.data ++ r.all = consumed ++ x.2.1.buffer.data ++ x.2.2.all := by
  induction acts generalizing a d r with
  | nil => exact poll_bytes hB hS hp fuel a d r hd
  | cons drop acts ih =>
    obtain ⟨h1, c, h2⟩ := poll_bytes hB hS hp fuel a d r hd
    simp only [decodeTask]
    revert h1 h2
    generalize pollDecode R p mk fuel a d r = y
    obtain ⟨y, d', r'⟩ := y
    intro h1 h2
    have go : ∀ a, let x := decodeTask R p mk fuel acts a d' r'
        x.2.1.buffer.Ok ∧ ∃ consumed, d.buffer.data ++ r.all = consumed ++ x.2.1.buffer.data ++ x.2.2.all := by
      intro a
      obtain ⟨i1, c', i2⟩ := ih a d' r' h1
      refine ⟨i1, c ++ c', ?_⟩
      dsimp only at h2
      rw [h2, List.append_assoc c, i2]; simp only [List.append_assoc]
    cases y with
    | pending => exact go _
    | ready y =>
      cases y with
      | io e pos => exact go _
      | ok v => exact ⟨h1, c, h2⟩
      | parse e => exact ⟨h1, c, h2⟩
      | abort a => exact ⟨h1, c, h2⟩

/-! ## Waiting changes nothing -/

private theorem eager_pollRead (n : Nat) (r : AReader) :
    match r.pollRead n with
    | (.pending, r') => r'.eager = r.eager ∧ r.pendings = r'.pendings + 1
    | (.ready x, r') => r.eager.pollRead n = (.ready x, r'.eager) ∧ r'.pendings = r.pendings := by
  cases r with
  | nil => exact ⟨rfl, rfl⟩
  | cons c r =>
    cases c with
    | pending => exact ⟨rfl, rfl⟩
    | ready c =>
      cases c with
      | error e => exact ⟨rfl, rfl⟩
      | ok c =>
        simp only [AReader.pollRead, AReader.eager]
        by_cases h : c.length ≤ n
        · rw [if_pos h, if_pos h]; exact ⟨rfl, rfl⟩
        · rw [if_neg h, if_neg h]; exact ⟨rfl, rfl⟩

private theorem eager_extend (b : BytesMut) (r : AReader) :
    match pollExtendBuf b r with
    | (.pending, b', r') => pollExtendBuf b' r'.eager = pollExtendBuf b r.eager ∧ r.pendings = r'.pendings + 1
    | (.ready x, b', r') => pollExtendBuf b r.eager = (.ready x, b', r'.eager) ∧ r'.pendings = r.pendings := by
  have hcc : b.chunkMut.chunkMut = b.chunkMut := by
    unfold BytesMut.chunkMut
    by_cases h : b.cap = b.data.length
    · rw [if_pos h, if_neg]
      simp only [BytesMut.reserve]; omega
    · rw [if_neg h, if_neg h]
  have h := eager_pollRead (b.chunkMut.cap - b.chunkMut.data.length) r
  simp only [pollExtendBuf]
  revert h
  generalize r.pollRead (b.chunkMut.cap - b.chunkMut.data.length) = x
  obtain ⟨x, r'⟩ := x
  cases x with
  | pending =>
    rintro ⟨h1, h2⟩
    dsimp only
    rw [hcc, h1]
    exact ⟨rfl, h2⟩
  | ready x =>
    cases x with
    | error e => rintro ⟨h1, h2⟩; dsimp only; rw [h1]; exact ⟨rfl, h2⟩
    | ok bs => rintro ⟨h1, h2⟩; dsimp only; rw [h1]; exact ⟨rfl, h2⟩

variable {p : Parser S σ α}

/-- More steps give the same, once they suffice. -/
private theorem poll_fuel (fuel : Nat) (a : Bool) (d : Decoder S.Pos σ) (r : AReader)
    (h : (pollDecode R p mk fuel a d r).1 ≠ .ready (.abort .diverge)) (m : Nat) (hm : fuel ≤ m) :
    pollDecode R p mk m a d r = pollDecode R p mk fuel a d r := by
  induction fuel generalizing a d r m with
  | zero => exact absurd rfl h
  | succ fuel ih =>
    obtain ⟨m, rfl⟩ : ∃ k, m = k + 1 := ⟨m - 1, by omega⟩
    cases a with
    | false =>
      simp only [pollDecode] at h ⊢
      generalize decodeTurn R p mk d = y at h
      obtain ⟨y, d'⟩ := y
      cases y with
      | some x => rfl
      | none => exact ih true d' r h m (by omega)
    | true =>
      simp only [pollDecode] at h ⊢
      generalize d.pollBeforeParse r = y at h
      obtain ⟨y, d', r'⟩ := y
      cases y with
      | pending => rfl
      | ready y =>
        cases y with
        | error e => rfl
        | ok n => exact ih false d' r' h m (by omega)

private theorem poll_eager (fuel : Nat) (a : Bool) (d : Decoder S.Pos σ) (r : AReader)
    (h : (pollDecode R p mk fuel a d r.eager).1 ≠ .ready (.abort .diverge)) :
    match pollDecode R p mk fuel a d r with
    | (.pending, d', r') => r'.pendings < r.pendings ∧
      ∃ m, m ≤ fuel ∧ pollDecode R p mk m true d' r'.eager = pollDecode R p mk fuel a d r.eager
    | (.ready x, d', r') => pollDecode R p mk fuel a d r.eager = (.ready x, d', r'.eager) := by
  induction fuel generalizing a d r with
  | zero => exact absurd rfl h
  | succ fuel ih =>
    cases a with
    | false =>
      simp only [pollDecode] at h ⊢
      generalize decodeTurn R p mk d = y at h
      obtain ⟨y, d'⟩ := y
      cases y with
      | some x => rfl
      | none =>
        have := ih true d' r h
        dsimp only
        revert this
        generalize pollDecode R p mk fuel true d' r = z
        obtain ⟨z, d'', r''⟩ := z
        cases z with
        | pending => rintro ⟨h1, m, h2, h3⟩; exact ⟨h1, m, by omega, h3⟩
        | ready z => exact id
    | true =>
      have hx := eager_extend d.buffer r
      simp only [pollDecode, Decoder.pollBeforeParse] at h ⊢
      revert hx
      generalize hz : pollExtendBuf d.buffer r = z
      obtain ⟨z, b', r'⟩ := z
      cases z with
      | pending =>
        rintro ⟨h1, h2⟩
        refine ⟨by omega, fuel + 1, Nat.le_refl _, ?_⟩
        simp only [pollDecode, Decoder.pollBeforeParse, h1]
      | ready z =>
        rintro ⟨h1, h2⟩
        rw [h1] at h ⊢
        cases z with
        | error e => rfl
        | ok n =>
          dsimp only at h ⊢
          have := ih false _ r' h
          revert this
          generalize pollDecode R p mk fuel false _ r' = z
          obtain ⟨z, d'', r''⟩ := z
          cases z with
          | pending => rintro ⟨h3, m, h4, h5⟩; exact ⟨by omega, m, by omega, h5⟩
          | ready z => exact id

/-- **C49.**  A future that is polled until it is ready ends, and gives what it would give if the reader were always ready,
with the decoder in the same state.  For every parser. -/
theorem C49_waiting (fuel n : Nat) (a : Bool) (d : Decoder S.Pos σ) (r : AReader) (hn : r.pendings ≤ n)
    (h : (pollDecode R p mk fuel a d r.eager).1 ≠ .ready (.abort .diverge)) :
    ∃ x r', decodeAwait R p mk fuel n a d r = (.ready x, (pollDecode R p mk fuel a d r.eager).2.1, r') ∧
      pollDecode R p mk fuel a d r.eager = (.ready x, (pollDecode R p mk fuel a d r.eager).2.1, r'.eager) := by
  induction n generalizing a d r with
  | zero =>
    have h1 := poll_eager fuel a d r h
    simp only [decodeAwait]
    revert h1
    generalize pollDecode R p mk fuel a d r = z
    obtain ⟨z, d', r'⟩ := z
    cases z with
    | pending => rintro ⟨h1, _⟩; omega
    | ready z => intro h1; dsimp only at h1; rw [h1]; exact ⟨_, _, rfl, rfl⟩
  | succ n ih =>
    have h1 := poll_eager fuel a d r h
    simp only [decodeAwait]
    revert h1
    generalize pollDecode R p mk fuel a d r = z
    obtain ⟨z, d', r'⟩ := z
    cases z with
    | ready z => intro h1; dsimp only at h1; rw [h1]; exact ⟨_, _, rfl, rfl⟩
    | pending =>
      rintro ⟨h1, m, h2, h3⟩
      have h4 : pollDecode R p mk fuel true d' r'.eager = pollDecode R p mk fuel a d r.eager := by
        rw [← h3]; exact poll_fuel m true d' r'.eager (by rw [h3]; exact h) fuel h2
      rw [← h4] at h ⊢
      exact ih true d' r' (by omega) h

/-! ## The same messages -/

/-- What is known between two steps: `w` has been absorbed by the parser's state, and `w`, the buffer and what the reader
will give, `t`, parse to `o`. -/
private structure Mid {D : Den S.Tok α} (Rep : Bool → σ → List S.Tok → List S.Tok → Prop) (tok : UInt8 → S.Tok)
    (o : Outcome S.Tok α) (d : Decoder S.Pos σ) (t : List UInt8) (w u : List S.Tok) : Prop where
  ok : d.buffer.Ok
  rep : Rep (!d.endOfInput) d.state w u
  seen : u <+: d.buffer.data.map tok
  whole : D false (w ++ (d.buffer.data ++ if d.endOfInput then [] else t).map tok) = o

private theorem turn_mid (hS : S.Lawful) (hB : ByteSource S R tok mk) {D : Den S.Tok α}
    {k l : Bool} {Ready : Bool → σ → Prop} {Rep : Bool → σ → List S.Tok → List S.Tok → Prop}
    (h : ∀ live, Resumes live p D k l (Ready live) (Rep live))
    {c : Bool} {v : α} {rest : List S.Tok} (d : Decoder S.Pos σ) (t : List UInt8) (w u : List S.Tok)
    (hd : Mid (D := D) Rep tok (.ok c v rest) d t w u) :
    (∃ d', decodeTurn R p mk d = (some (.ok v), d') ∧ d'.endOfInput = d.endOfInput ∧ d'.buffer.Ok ∧
      (d'.buffer.data ++ if d'.endOfInput then [] else t).map tok = rest ∧
      (k = true → Ready (!d'.endOfInput) d'.state)) ∨
    (∃ d' w' u', decodeTurn R p mk d = (none, d') ∧ d.endOfInput = false ∧ d'.endOfInput = false ∧
      Mid (D := D) Rep tok (.ok c v rest) d' t w' u') := by
  have hl := hB.left d.buffer.data (!d.endOfInput) d.position
  have hp := hB.isPartial d.buffer.data (!d.endOfInput) d.position
  simp only [decodeTurn, decode]
  generalize mk d.buffer.data (!d.endOfInput) d.position = i at hl hp ⊢
  have hst := (h (!d.endOfInput)).resume i hp hd.rep (by rw [hl]; exact hd.seen)
  have hadv : ∀ {x j}, S.Reads i x j → ∃ b, d.buffer.advance (R.distance j (S.checkpoint i)) = some b ∧ b.Ok ∧
      b.data.map tok = S.left j ∧ d.buffer.data.map tok = x ++ S.left j := by
    intro x j hr
    have h1 := hS.left_reads hr
    rw [hl] at h1
    have h2 := hB.distance hr
    have h3 := congrArg List.length h1
    rw [List.length_map, List.length_append] at h3
    refine ⟨⟨d.buffer.data.drop x.length, d.buffer.cap - x.length⟩, ?_, ?_, ?_, h1⟩
    · unfold BytesMut.advance
      rw [h2, if_pos (by omega)]
    · have := hd.ok
      unfold BytesMut.Ok at this ⊢
      simp only [List.length_drop]; omega
    · dsimp only
      rw [List.map_drop, h1, List.drop_left]
  rw [hp, hl] at hst
  have hw := hd.whole
  have hfin : D (!d.endOfInput) (w ++ d.buffer.data.map tok) = .pend ∨
      ∃ z, D (!d.endOfInput) (w ++ d.buffer.data.map tok) = .ok c v z ∧
        rest = z ++ (if d.endOfInput then [] else t).map tok := by
    cases he : d.endOfInput with
    | true =>
      rw [he] at hw
      simp only [if_true, List.append_nil] at hw
      exact .inr ⟨rest, hw, by simp⟩
    | false =>
      rw [he] at hw
      by_cases hpe : D (!false) (w ++ d.buffer.data.map tok) = .pend
      · exact .inl hpe
      · have hs := (h true).good.stable (w ++ d.buffer.data.map tok) (t.map tok) false hpe
        simp only [Bool.false_eq_true, if_false, List.map_append] at hw
        rw [List.append_assoc, hw] at hs
        right
        simp only [Bool.not_false] at hs ⊢
        cases hD : D true (w ++ d.buffer.data.map tok) with
        | ok c' v' z =>
          rw [hD] at hs
          simp only [Outcome.extend, Outcome.ok.injEq] at hs
          obtain ⟨rfl, rfl, rfl⟩ := hs
          exact ⟨z, rfl, rfl⟩
        | pend => rw [hD] at hs; cases hs
        | soft => rw [hD] at hs; cases hs
        | hard => rw [hD] at hs; cases hs
  rcases hfin with hD | ⟨z, hD, hz⟩
  · have he : d.endOfInput = false := by
      cases he : d.endOfInput with
      | false => rfl
      | true => rw [he] at hD; exact absurd hD ((h false).good.complete _)
    rw [hD] at hst
    obtain ⟨e, x, h1, h2, h3, h4⟩ := hst
    obtain ⟨b, g1, g2, g3, g4⟩ := hadv h3
    rw [parseWithState_err h1]
    have hpj : S.isPartial (p.run false i d.state).inp = true := by
      rw [hS.reach_isPartial ⟨_, h3⟩, hp, he]; rfl
    simp only [h2, hpj, if_true, g1]
    right
    refine ⟨_, w ++ x, S.left (p.run false i d.state).inp, rfl, he, he, g2, ?_, ?_, ?_⟩
    · exact h4
    · simp only [g3]; exact List.prefix_rfl
    · rw [← hw]
      simp only [List.map_append, g3, g4, List.append_assoc]
  · rw [hD] at hst
    obtain ⟨⟨c'', h1, _⟩, ⟨x, h2⟩, h3, h4⟩ := hst
    obtain ⟨b, g1, g2, g3, _⟩ := hadv h2
    left
    rw [parseWithState_ok h1]
    simp only [g1]
    refine ⟨_, rfl, rfl, g2, ?_, h4⟩
    rw [hz]
    simp only [List.map_append, g3, h3]

/-- Bounds the number of reads. -/
private def reads (d : Decoder S.Pos σ) (r : AReader) : Nat := if d.endOfInput then 0 else r.stream.length + 1

/-- The number of times reading may yet stop. -/
private def stops (d : Decoder S.Pos σ) (r : AReader) : Nat := if d.endOfInput then 0 else r.stops

private theorem poll_mid (hS : S.Lawful) (hB : ByteSource S R tok mk) {D : Den S.Tok α}
    {k l : Bool} {Ready : Bool → σ → Prop} {Rep : Bool → σ → List S.Tok → List S.Tok → Prop}
    (h : ∀ live, Resumes live p D k l (Ready live) (Rep live)) (hm : ∀ s w u, Rep true s w u → Rep false s w u)
    {c : Bool} {v : α} {rest : List S.Tok} (fuel : Nat) (a : Bool) (d : Decoder S.Pos σ) (r : AReader) (w u : List S.Tok)
    (hd : Mid (D := D) Rep tok (.ok c v rest) d r.stream w u) (ha : a = true → d.endOfInput = false)
    (hf : 2 * reads d r + (if a then 0 else 1) < fuel) :
    (∃ d' r', pollDecode R p mk fuel a d r = (.ready (.ok v), d', r') ∧ (d'.aheadA r').map tok = rest ∧ d'.buffer.Ok ∧
      stops d' r' ≤ stops d r ∧ reads d' r' ≤ reads d r ∧ (k = true → Ready (!d'.endOfInput) d'.state)) ∨
    (∃ x d' r' w' u', pollDecode R p mk fuel a d r = (x, d', r') ∧ (x = .pending ∨ ∃ e pos, x = .ready (.io e pos)) ∧
      d'.endOfInput = false ∧ Mid (D := D) Rep tok (.ok c v rest) d' r'.stream w' u' ∧ stops d' r' < stops d r ∧
      reads d' r' ≤ reads d r) := by
  induction fuel generalizing a d r w u with
  | zero => omega
  | succ fuel ih =>
    cases a with
    | false =>
      simp only [pollDecode]
      rcases turn_mid hS hB h d r.stream w u hd with ⟨d', h1, h2, h3, h4, h5⟩ | ⟨d', w', u', h1, h2, h3, h4⟩
      · rw [h1]
        left
        refine ⟨d', r, rfl, h4, h3, ?_, ?_, h5⟩
        · unfold stops; rw [h2]; exact Nat.le_refl _
        · unfold reads; rw [h2]; exact Nat.le_refl _
      · rw [h1]
        have e1 : stops d' r = stops d r := by unfold stops; rw [h2, h3]
        have e2 : reads d' r = reads d r := by unfold reads; rw [h2, h3]
        have := ih true d' r w' u' h4 (fun _ => h3) (by
          simp only [if_true, Bool.false_eq_true, if_false] at hf ⊢
          omega)
        rw [e1, e2] at this
        exact this
    | true =>
      have he := ha rfl
      simp only [pollDecode, Decoder.pollBeforeParse]
      have hx := C49_extend d.buffer hd.ok r
      have hw := hd.whole
      simp only [he, Bool.false_eq_true, if_false] at hw
      have hrep := hd.rep
      rw [he] at hrep
      have e1 : stops d r = r.stops := by simp only [stops, he, Bool.false_eq_true, if_false]
      have e2 : reads d r = r.stream.length + 1 := by simp only [reads, he, Bool.false_eq_true, if_false]
      have stop : ∀ (b' : BytesMut) (r' : AReader), b'.Ok → b'.data = d.buffer.data → r'.stream = r.stream →
          r.stops = r'.stops + 1 →
          Mid (D := D) Rep tok (.ok c v rest) { d with buffer := b' } r'.stream w u ∧
          stops { d with buffer := b' } r' < stops d r ∧ reads { d with buffer := b' } r' ≤ reads d r := by
        intro b' r' g1 g2 g3 g4
        refine ⟨⟨g1, hd.rep, by simp only [g2]; exact hd.seen, ?_⟩, ?_, ?_⟩
        · simp only [g2, g3]; exact hd.whole
        · rw [e1]; simp only [stops, he, Bool.false_eq_true, if_false]; omega
        · rw [e2]; simp only [reads, he, Bool.false_eq_true, if_false, g3]; exact Nat.le_refl _
      revert hx
      generalize pollExtendBuf d.buffer r = z
      obtain ⟨z, b', r'⟩ := z
      cases z with
      | pending =>
        rintro ⟨g1, g2, _, g3, g4⟩
        exact .inr ⟨_, _, _, w, u, rfl, .inl rfl, he, stop b' r' g1 g2 g3 g4⟩
      | ready z =>
        cases z with
        | error e =>
          rintro ⟨g1, g2, _, g3, g4⟩
          exact .inr ⟨_, _, _, w, u, rfl, .inr ⟨_, _, rfl⟩, he, stop b' r' g1 g2 g3 g4⟩
        | ok n =>
          rintro ⟨f1, new, f2, f3, _, f4, f5⟩
          simp only [if_true, Nat.add_zero] at hf
          by_cases hn : new = []
          · have hr := f4 hn
            subst hn
            have hn0 : n = 0 := f3
            subst hn0
            rw [List.append_nil] at f2
            simp only [if_true]
            have := ih false { d with buffer := b', endOfInput := true } r' w u
              ⟨f1, hm _ _ _ hrep, by simp only [f2]; exact hd.seen, ?_⟩ (fun h => by cases h) ?_
            · have e3 : stops ({ d with buffer := b', endOfInput := true } : Decoder S.Pos σ) r' = 0 := by
                simp only [stops, if_true]
              have e4 : reads ({ d with buffer := b', endOfInput := true } : Decoder S.Pos σ) r' = 0 := by
                simp only [reads, if_true]
              rw [e3, e4] at this
              rcases this with ⟨d', r'', k1, k2, k3, k4, k5, k6⟩ | ⟨x, d', r'', w', u', k1, k2, k3, k4, k5, k6⟩
              · exact .inl ⟨d', r'', k1, k2, k3, Nat.le_trans k4 (Nat.zero_le _), Nat.le_trans k5 (Nat.zero_le _), k6⟩
              · omega
            · simp only [if_true, f2, List.append_nil]
              rw [hr, List.append_nil] at hw
              exact hw
            · simp only [reads, if_true, Bool.false_eq_true, if_false]
              rw [e2] at hf; omega
          · obtain ⟨hr, hfl⟩ := f5 hn
            have hn0 : n ≠ 0 := by
              rw [f3]; intro h; exact hn (List.length_eq_zero_iff.1 h)
            have hlen := List.length_pos_iff.2 hn
            simp only [if_neg hn0]
            have e3 : stops ({ d with buffer := b' } : Decoder S.Pos σ) r' = r'.stops := by
              simp only [stops, he, Bool.false_eq_true, if_false]
            have e4 : reads ({ d with buffer := b' } : Decoder S.Pos σ) r' = r'.stream.length + 1 := by
              simp only [reads, he, Bool.false_eq_true, if_false]
            have hlr : r.stream.length = new.length + r'.stream.length := by rw [hr, List.length_append]
            have := ih false { d with buffer := b' } r' w u
              ⟨f1, hd.rep, by simp only [f2, List.map_append]; exact hd.seen.trans (List.prefix_append _ _), ?_⟩
              (fun h => by cases h) ?_
            · rw [e3, e4] at this
              rw [e1, e2]
              rcases this with ⟨d', r'', k1, k2, k3, k4, k5, k6⟩ | ⟨x, d', r'', w', u', k1, k2, k3, k4, k5, k6⟩
              · exact .inl ⟨d', r'', k1, k2, k3, by omega, by omega, k6⟩
              · exact .inr ⟨x, d', r'', w', u', k1, k2, k3, k4, by omega, by omega⟩
            · simp only [he, Bool.false_eq_true, if_false, f2]
              rw [List.append_assoc, ← hr]; exact hw
            · rw [e4]
              simp only [Bool.false_eq_true, if_false]
              rw [e2] at hf
              omega

private theorem reads_le (d : Decoder S.Pos σ) (r : AReader) : reads d r ≤ r.stream.length + 1 := by
  unfold reads; split <;> omega

private theorem stops_le (d : Decoder S.Pos σ) (r : AReader) : stops d r ≤ r.stops := by
  unfold stops; split <;> omega

private theorem task_mid (hS : S.Lawful) (hB : ByteSource S R tok mk) {D : Den S.Tok α}
    {k l : Bool} {Ready : Bool → σ → Prop} {Rep : Bool → σ → List S.Tok → List S.Tok → Prop}
    (h : ∀ live, Resumes live p D k l (Ready live) (Rep live)) (hm : ∀ s w u, Rep true s w u → Rep false s w u)
    {c : Bool} {v : α} {rest : List S.Tok} (fuel : Nat) (acts : List Bool) (a : Bool) (d : Decoder S.Pos σ) (r : AReader)
    (w u : List S.Tok) (hd : Mid (D := D) Rep tok (.ok c v rest) d r.stream w u) (ha : a = true → d.endOfInput = false)
    (hf : 2 * reads d r + 1 < fuel) (hn : stops d r ≤ acts.length) :
    ∃ d' r', decodeTask R p mk fuel acts a d r = (.ready (.ok v), d', r') ∧ (d'.aheadA r').map tok = rest ∧
      d'.buffer.Ok ∧ stops d' r' ≤ stops d r ∧ reads d' r' ≤ reads d r ∧ (k = true → Ready (!d'.endOfInput) d'.state) := by
  induction acts generalizing a d r w u with
  | nil =>
    rcases poll_mid hS hB h hm fuel a d r w u hd ha (by split <;> omega) with h1 | ⟨x, d', r', w', u', _, _, _, _, k3, _⟩
    · exact h1
    · rw [List.length_nil] at hn; omega
  | cons drop acts ih =>
    rw [List.length_cons] at hn
    simp only [decodeTask]
    rcases poll_mid hS hB h hm fuel a d r w u hd ha (by split <;> omega) with
      ⟨d', r', h1, h2⟩ | ⟨x, d', r', w', u', k1, k2, k3, k4, k5, k6⟩
    · rw [h1]; exact ⟨d', r', rfl, h2⟩
    · rw [k1]
      have go : ∀ a, ∃ d'' r'', decodeTask R p mk fuel acts a d' r' = (.ready (.ok v), d'', r'') ∧
          (d''.aheadA r'').map tok = rest ∧ d''.buffer.Ok ∧ stops d'' r'' ≤ stops d r ∧ reads d'' r'' ≤ reads d r ∧
          (k = true → Ready (!d''.endOfInput) d''.state) := by
        intro a
        obtain ⟨d'', r'', j1, j2, j3, j4, j5, j6⟩ := ih a d' r' w' u' k4 (fun _ => k3) (by omega) (by omega)
        exact ⟨d'', r'', j1, j2, j3, by omega, by omega, j6⟩
      rcases k2 with rfl | ⟨e, pos, rfl⟩
      · exact go _
      · exact go _

variable [DecidableEq S.Tok] [DecidableEq S.Rng] {V : Ranges S} {D : Den S.Tok α} {k l : Bool}

/-- **C49.**  If the parser accepts all the bytes that are still to come, as one complete input, then the asynchronous
`decode_*!`, whenever the reader is ready and wherever its future is dropped and made anew, gives the same message and has
the same bytes left. -/
theorem C49_message (hF : S.Feedable) (hB : ByteSource S R tok mk) (hp : Frag V p D k l) (fuel : Nat) (acts : List Bool)
    (d : Decoder S.Pos σ) (r : AReader) (hb : d.buffer.Ok) (hs : d.state = p.init)
    (hf : 2 * r.stream.length + 3 < fuel) (hn : r.stops ≤ acts.length) {pos : S.Pos} {c : Bool} {v : α} {j : S.Input}
    (h : p.answer (mk (d.aheadA r) false pos) = .ok c v j) :
    ∃ d' r', decodeTask R p mk fuel acts false d r = (.ready (.ok v), d', r') ∧ (d'.aheadA r').map tok = S.left j := by
  have hr := frag_resumable hF hp
  have hD := den_ok_of_answer hr h
  rw [hB.left, hB.isPartial] at hD
  obtain ⟨Ready, Rep, hr, _, hm⟩ := hr
  have h1 := reads_le d r
  obtain ⟨d', r', h1, h2, _⟩ := task_mid hF.lawful hB hr hm fuel acts false d r [] []
    ⟨hb, hs ▸ (hr _).ready_rep (hr _).ready_init, List.nil_prefix, hD⟩ (fun h => by cases h)
    (by omega) (Nat.le_trans (stops_le d r) hn)
  exact ⟨d', r', h1, h2⟩

/-- **C49.**  … which is what `decode!` gives if a `Read` delivers the same bytes. -/
theorem C49_same (hF : S.Feedable) (hB : ByteSource S R tok mk) (hp : Frag V p D k l) (fuel n : Nat) (acts : List Bool)
    (d e : Decoder S.Pos σ) (r : AReader) (q : Reader) (hb : d.buffer.Ok) (hb' : e.buffer.Ok) (hs : d.state = p.init)
    (hs' : e.state = p.init) (ha : d.aheadA r = e.ahead q) (hf : 2 * r.stream.length + 3 < fuel)
    (hf' : q.stream.length + 1 < fuel) (hn : r.stops ≤ acts.length) (hn' : q.faults ≤ n) {pos : S.Pos} {c : Bool} {v : α}
    {j : S.Input} (h : p.answer (mk (d.aheadA r) false pos) = .ok c v j) :
    (decodeTask R p mk fuel acts false d r).1 = .ready (decodeRetry R p mk fuel n e q).1 := by
  obtain ⟨_, _, h1, _⟩ := C49_message hF hB hp fuel acts d r hb hs hf hn h
  obtain ⟨_, _, h2, _⟩ := C43_message hF hB hp fuel n e q hb' hs' hf' hn' (ha ▸ h)
  rw [h1, h2]

omit [DecidableEq S.Tok] [DecidableEq S.Rng] in
private theorem tasks_mid (hF : S.Feedable) (hB : ByteSource S R tok mk) {Ready : Bool → σ → Prop}
    {Rep : Bool → σ → List S.Tok → List S.Tok → Prop} (hr : ∀ live, Resumes live p D true l (Ready live) (Rep live))
    (hm' : ∀ s, Ready true s → Ready false s)
    (hm : ∀ s w u, Rep true s w u → Rep false s w u) (fuel : Nat) {bs rest : List UInt8} {vs : List α}
    (h : Messages p tok mk bs vs rest) (acts : List (List Bool)) (hl : acts.length = vs.length) (d : Decoder S.Pos σ)
    (r : AReader) (hb : d.buffer.Ok) (hs : Ready (!d.endOfInput) d.state) (ha : (d.aheadA r).map tok = bs.map tok)
    (hf : 2 * reads d r + 1 < fuel) (hn : ∀ a ∈ acts, stops d r ≤ a.length) :
    ∃ d' r', decodeTasks R p mk fuel acts d r = (vs.map fun v => .ready (.ok v), d', r') ∧
      (d'.aheadA r').map tok = rest.map tok := by
  induction h generalizing d r acts with
  | nil bs =>
    rw [List.length_nil, List.length_eq_zero_iff] at hl
    subst hl
    exact ⟨d, r, rfl, ha⟩
  | @cons bs bs' rest pos c v j vs h1 h2 _ ih =>
    cases acts with
    | nil => cases hl
    | cons a acts =>
      have hD := den_ok_of_answer ⟨Ready, Rep, hr, hm', hm⟩ h1
      rw [hB.left, hB.isPartial, ← ha] at hD
      obtain ⟨d', r', j1, j2, j3, j4, j5, j6⟩ := task_mid hF.lawful hB hr hm fuel a false d r [] []
        ⟨hb, (hr _).ready_rep hs, List.nil_prefix, hD⟩ (fun h => by cases h) hf (hn a (by simp))
      obtain ⟨d'', r'', i1, i2⟩ := ih acts (by simpa using hl) d' r' j3 (j6 rfl) (j2.trans h2) (by omega)
        (fun a ha => Nat.le_trans j4 (hn a (by simp [ha])))
      refine ⟨d'', r'', ?_, i2⟩
      simp only [decodeTasks, j1, i1, List.map_cons]

/-- **C49.**  Messages decoded one after the other, each by a task that may drop its future any number of times, are the
messages that separate parses of the bytes would give (for parsers that can be started anew after a success). -/
theorem C49_messages (hF : S.Feedable) (hB : ByteSource S R tok mk) (hp : Frag V p D true l) (fuel : Nat)
    (acts : List (List Bool)) (d : Decoder S.Pos σ) (r : AReader) (hb : d.buffer.Ok) (hs : d.state = p.init)
    (hf : 2 * r.stream.length + 3 < fuel) (hn : ∀ a ∈ acts, r.stops ≤ a.length) {vs : List α} {rest : List UInt8}
    (hl : acts.length = vs.length) (h : Messages p tok mk (d.aheadA r) vs rest) :
    ∃ d' r', decodeTasks R p mk fuel acts d r = (vs.map fun v => .ready (.ok v), d', r') ∧
      (d'.aheadA r').map tok = rest.map tok := by
  obtain ⟨Ready, Rep, hr, hm', hm⟩ := frag_resumable hF hp
  have h1 := reads_le d r
  exact tasks_mid hF hB hr hm' hm fuel h acts hl d r hb (hs ▸ (hr _).ready_init) rfl
    (by omega) (fun a ha => Nat.le_trans (stops_le d r) (hn a ha))

/-! ## Rejection -/

omit [DecidableEq S.Tok] [DecidableEq S.Rng] in
private theorem turn_soft (hS : S.Lawful) (hB : ByteSource S R tok mk) {Ready : Bool → σ → Prop}
    {Rep : Bool → σ → List S.Tok → List S.Tok → Prop} (h : ∀ live, Resumes live p D k true (Ready live) (Rep live))
    (d : Decoder S.Pos σ) (t : List UInt8) (u : List S.Tok) (hd : Mid (D := D) Rep tok .soft d t [] u) :
    (∃ d' u', decodeTurn R p mk d = (none, d') ∧ d'.endOfInput = false ∧ Mid (D := D) Rep tok .soft d' t [] u') ∨
    ∃ x d', decodeTurn R p mk d = (some x, d') ∧ ∀ v e pos, x ≠ .ok v ∧ x ≠ .io e pos := by
  have hl := hB.left d.buffer.data (!d.endOfInput) d.position
  have hp := hB.isPartial d.buffer.data (!d.endOfInput) d.position
  simp only [decodeTurn, decode]
  generalize mk d.buffer.data (!d.endOfInput) d.position = i at hl hp ⊢
  have hst := (h (!d.endOfInput)).resume i hp hd.rep (by rw [hl]; exact hd.seen)
  rw [hp, hl, List.nil_append] at hst
  have hw := hd.whole
  rw [List.nil_append] at hw
  have hfin : ∀ o, D (!d.endOfInput) (d.buffer.data.map tok) = o → o = .soft ∨ o = .pend := by
    intro o ho
    cases he : d.endOfInput with
    | true =>
      rw [he] at ho hw
      simp only [Bool.not_true, if_true, List.append_nil] at ho hw
      rw [hw] at ho; exact .inl ho.symm
    | false =>
      rw [he] at ho hw
      simp only [Bool.not_false] at ho
      by_cases hpe : o = .pend
      · exact .inr hpe
      · have hs := (h true).good.stable (d.buffer.data.map tok) (t.map tok) false (by rw [ho]; exact hpe)
        simp only [Bool.false_eq_true, if_false, List.map_append] at hw
        rw [hw, ho] at hs
        cases o with
        | soft => exact .inl rfl
        | pend => exact .inr rfl
        | ok => cases hs
        | hard => cases hs
  have hok0 : ∀ b : BytesMut, b.advance 0 = some b := fun b => by
    simp [BytesMut.advance]
  cases hD : D (!d.endOfInput) (d.buffer.data.map tok) with
  | ok c' v' z => rcases hfin _ hD with h | h <;> cases h
  | hard => rcases hfin _ hD with h | h <;> cases h
  | pend =>
    have he : d.endOfInput = false := by
      cases he : d.endOfInput with
      | false => rfl
      | true => rw [he] at hD; exact absurd hD ((h false).good.complete _)
    rw [hD] at hst
    obtain ⟨e, y, h1, h2, h3, h4⟩ := hst
    have hly := hS.left_reads h3
    rw [hl] at hly
    have hy : y = [] := by
      refine Classical.byContradiction fun hy => ?_
      have h4' := h4
      rw [he] at h4'
      have hf := (h true).firm h4' hy false (t.map tok)
      simp only [he, Bool.false_eq_true, if_false, List.map_append] at hw
      rw [List.nil_append, ← List.append_assoc, ← hly, hw] at hf
      exact hf.1 rfl
    subst hy
    rw [parseWithState_err h1]
    have hpj : S.isPartial (p.run false i d.state).inp = true := by
      rw [hS.reach_isPartial ⟨_, h3⟩, hp, he]; rfl
    have hdist := hB.distance h3
    rw [List.length_nil] at hdist
    simp only [h2, hpj, if_true, hdist, hok0]
    rw [List.nil_append] at hly
    exact .inl ⟨_, _, rfl, he, hd.ok, h4, by dsimp only; rw [hly]; exact List.prefix_rfl, hd.whole⟩
  | soft =>
    rw [hD] at hst
    obtain ⟨_, ⟨e, h1⟩, h2, h3⟩ := hst
    obtain ⟨e', h'⟩ := parseWithState_soft hS h1 h2
    rw [h']
    by_cases hE : S.E.isEoi e' = true
    · by_cases he : d.endOfInput = true
      · simp [hp, he, hE]
      · have he : d.endOfInput = false := by simpa using he
        have hdist : R.distance i (S.checkpoint i) = 0 := hB.distance (.nil i)
        have hpi : S.isPartial i = true := by rw [hp, he]; rfl
        simp only [hE, hpi, if_true, hdist, hok0]
        exact .inl ⟨_, [], rfl, he, hd.ok, (h _).ready_rep (h3 rfl), List.nil_prefix, hd.whole⟩
    · simp [hE]

omit [DecidableEq S.Tok] [DecidableEq S.Rng] in
private theorem poll_soft (hS : S.Lawful) (hB : ByteSource S R tok mk) {Ready : Bool → σ → Prop}
    {Rep : Bool → σ → List S.Tok → List S.Tok → Prop} (h : ∀ live, Resumes live p D k true (Ready live) (Rep live))
    (hm : ∀ s w u, Rep true s w u → Rep false s w u) (fuel : Nat) (a : Bool)
    (d : Decoder S.Pos σ) (r : AReader) (u : List S.Tok) (hd : Mid (D := D) Rep tok .soft d r.stream [] u)
    (ha : a = true → d.endOfInput = false) :
    (∃ x d' r' u', pollDecode R p mk fuel a d r = (x, d', r') ∧ (x = .pending ∨ ∃ e pos, x = .ready (.io e pos)) ∧
      d'.endOfInput = false ∧ Mid (D := D) Rep tok .soft d' r'.stream [] u') ∨
    ∃ x d' r', pollDecode R p mk fuel a d r = (.ready x, d', r') ∧ ∀ v e pos, x ≠ .ok v ∧ x ≠ .io e pos := by
  induction fuel generalizing a d r u with
  | zero => exact .inr ⟨_, _, _, rfl, fun v e pos => ⟨by simp, by simp⟩⟩
  | succ fuel ih =>
    cases a with
    | false =>
      simp only [pollDecode]
      rcases turn_soft hS hB h d r.stream u hd with ⟨d', u', h1, h2, h3⟩ | ⟨x, d', h1, h2⟩
      · rw [h1]
        exact ih true d' r u' h3 (fun _ => h2)
      · rw [h1]
        exact .inr ⟨x, d', r, rfl, h2⟩
    | true =>
      have he := ha rfl
      simp only [pollDecode, Decoder.pollBeforeParse]
      have hx := C49_extend d.buffer hd.ok r
      have hw := hd.whole
      simp only [he, Bool.false_eq_true, if_false] at hw
      have hrep := hd.rep
      rw [he] at hrep
      have stop : ∀ (b' : BytesMut) (r' : AReader), b'.Ok → b'.data = d.buffer.data → r'.stream = r.stream →
          Mid (D := D) Rep tok .soft { d with buffer := b' } r'.stream [] u := by
        intro b' r' g1 g2 g3
        exact ⟨g1, hd.rep, by simp only [g2]; exact hd.seen, by simp only [g2, g3]; exact hd.whole⟩
      revert hx
      generalize pollExtendBuf d.buffer r = z
      obtain ⟨z, b', r'⟩ := z
      cases z with
      | pending =>
        rintro ⟨g1, g2, _, g3, g4⟩
        exact .inl ⟨_, _, _, u, rfl, .inl rfl, he, stop b' r' g1 g2 g3⟩
      | ready z =>
        cases z with
        | error e =>
          rintro ⟨g1, g2, _, g3, g4⟩
          exact .inl ⟨_, _, _, u, rfl, .inr ⟨_, _, rfl⟩, he, stop b' r' g1 g2 g3⟩
        | ok n =>
          rintro ⟨f1, new, f2, f3, _, f4, f5⟩
          by_cases hn : new = []
          · have hr := f4 hn
            subst hn
            have hn0 : n = 0 := f3
            subst hn0
            rw [List.append_nil] at f2
            simp only [if_true]
            refine ih false { d with buffer := b', endOfInput := true } r' u
              ⟨f1, hm _ _ _ hrep, by simp only [f2]; exact hd.seen, ?_⟩ (fun h => by cases h)
            simp only [if_true, f2, List.append_nil]
            rw [hr, List.append_nil] at hw
            exact hw
          · obtain ⟨hr, hfl⟩ := f5 hn
            have hn0 : n ≠ 0 := by
              rw [f3]; intro h; exact hn (List.length_eq_zero_iff.1 h)
            simp only [if_neg hn0]
            refine ih false { d with buffer := b' } r' u
              ⟨f1, hd.rep, by simp only [f2, List.map_append]; exact hd.seen.trans (List.prefix_append _ _), ?_⟩
              (fun h => by cases h)
            simp only [he, Bool.false_eq_true, if_false, f2]
            rw [List.append_assoc, ← hr]; exact hw

/-- **C49.**  If the parser rejects, without committing, all the bytes that are still to come, then the asynchronous
`decode_*!` gives no message, whenever the reader is ready and wherever futures are dropped (for parsers that can be
started anew after such a failure). -/
theorem C49_reject (hF : S.Feedable) (hB : ByteSource S R tok mk) (hp : Frag V p D k true) (fuel : Nat) (acts : List Bool)
    (d : Decoder S.Pos σ) (r : AReader) (hb : d.buffer.Ok) (hs : d.state = p.init) {pos : S.Pos}
    (h : p.answer (mk (d.aheadA r) false pos) = .soft) (v : α) :
    (decodeTask R p mk fuel acts false d r).1 ≠ .ready (.ok v) := by
  have hr := frag_resumable hF hp
  have hD : D false ((d.aheadA r).map tok) = .soft := by
    have h1 := answer_of_den hr (mk (d.aheadA r) false pos)
    rw [hB.left, hB.isPartial] at h1
    revert h1
    cases D false ((d.aheadA r).map tok) with
    | soft => intro _; rfl
    | ok c v l => rintro ⟨j, h1, _⟩; rw [h] at h1; cases h1
    | pend => rintro ⟨j, h1, _⟩; rw [h] at h1; cases h1
    | hard => rintro ⟨j, h1⟩; rw [h] at h1; cases h1
  obtain ⟨Ready, Rep, hr, hm', hm⟩ := hr
  have hd : Mid (D := D) Rep tok .soft d r.stream [] [] :=
    ⟨hb, hs ▸ (hr _).ready_rep (hr _).ready_init, List.nil_prefix, hD⟩
  have key : ∀ acts (a : Bool) (d : Decoder S.Pos σ) (r : AReader) (u : List S.Tok),
      Mid (D := D) Rep tok .soft d r.stream [] u → (a = true → d.endOfInput = false) →
      (decodeTask R p mk fuel acts a d r).1 ≠ .ready (.ok v) := by
    intro acts
    induction acts with
    | nil =>
      intro a d r u hd ha
      simp only [decodeTask]
      rcases poll_soft hF.lawful hB hr hm fuel a d r u hd ha with ⟨x, d', r', u', h1, h2, _⟩ | ⟨x, d', r', h1, h2⟩
      · rw [h1]
        rcases h2 with rfl | ⟨e, pos, rfl⟩ <;> simp
      · rw [h1]
        simp only [ne_eq, Poll.ready.injEq]
        exact (h2 v "" d.position).1
    | cons drop acts ih =>
      intro a d r u hd ha
      simp only [decodeTask]
      rcases poll_soft hF.lawful hB hr hm fuel a d r u hd ha with ⟨x, d', r', u', h1, h2, h3, h4⟩ | ⟨x, d', r', h1, h2⟩
      · rw [h1]
        rcases h2 with rfl | ⟨e, pos, rfl⟩
        · exact ih _ d' r' u' h4 (fun _ => h3)
        · exact ih _ d' r' u' h4 (fun _ => h3)
      · rw [h1]
        cases x with
        | io e pos => exact absurd rfl (h2 v e pos).2
        | ok v' => exact absurd rfl (h2 v' "" d.position).1
        | parse e => simp
        | abort a => simp
  exact key acts false d r _ hd (fun h => by cases h)

/-! ## Examples -/

private abbrev B := maybeS (sliceS UInt8 1)
private abbrev RB : RangeOps B := maybeR (sliceR UInt8 1)
private def VB : Ranges B := ⟨RB, id, fun _ => 1, id, fun _ => [], fun _ => 0⟩
private abbrev mkB (b : List UInt8) (more : Bool) (pos : Nat) : B.Input := (⟨pos, b⟩, more)
private def isDigit (b : UInt8) : Bool := 48 ≤ b && b ≤ 57

private theorem feedable_B : B.Feedable := maybe_feedable (slice_feedable UInt8 (by decide))
private theorem lawful_VB : VB.Lawful := ⟨(maybeR_units (sliceR_units UInt8 1)).lawful, fun _ => rfl⟩

/-- A number ended by `;`. -/
private def number := skip (takeWhile1 RB isDigit) (token B 59)

private theorem number_frag : ∃ D, Frag VB number D true true :=
  ⟨_, Frag.skip (Frag.takeWhile1 _ lawful_VB) (Frag.token (S := B) 59) (r' := true)
        fun _ => ⟨rfl, (Den.consuming_span1 _ _).firm _⟩⟩

private def fresh {σ α : Type} (p : Parser B σ α) : Decoder B.Pos σ := ⟨(0 : Nat), p.init, .empty, false⟩

-- "12;7;9": two messages, however they arrive, and what is left
example (r : AReader) (h : r.stream = [49, 50, 59, 55, 59, 57]) (acts acts' : List Bool) (h1 : r.stops ≤ acts.length)
    (h2 : r.stops ≤ acts'.length) :
    ∃ d' r', decodeTasks RB number mkB 16 [acts, acts'] (fresh number) r =
      ([.ready (.ok [49, 50]), .ready (.ok [55])], d', r') ∧ d'.aheadA r' = [57] := by
  obtain ⟨D, hp⟩ := number_frag
  have hm : Messages number id mkB ((fresh number).aheadA r) [[49, 50], [55]] [57] := by
    have : (fresh number).aheadA r = [49, 50, 59, 55, 59, 57] := h
    rw [this]
    refine .cons (pos := (0 : Nat)) (bs' := [55, 59, 57]) (c := true) (j := (⟨3, [55, 59, 57]⟩, false)) rfl ?_ ?_
    · exact ((maybe_left _).trans (slice_left _ _)).trans (by simp)
    · refine .cons (pos := (0 : Nat)) (bs' := [57]) (c := true) (j := (⟨2, [57]⟩, false)) rfl ?_ (.nil _)
      exact ((maybe_left _).trans (slice_left _ _)).trans (by simp)
  obtain ⟨d', r', h1, h2⟩ := C49_messages feedable_B byteSource_maybe hp 16 [acts, acts'] (fresh number) r (Nat.le_refl 0)
    rfl (by rw [h]; decide) (by simp [h1, h2]) rfl hm
  exact ⟨d', r', h1, by simpa using h2⟩

-- a reader that is not ready three times and fails once; the future is dropped the second time
private def slow : AReader :=
  [.pending, .ready (.ok [49]), .pending, .ready (.error "e"), .ready (.ok [50, 59, 55]), .pending, .ready (.ok [59, 57])]

example : slow.stream = [49, 50, 59, 55, 59, 57] ∧ slow.stops = 4 ∧ slow.pendings = 3 := ⟨rfl, rfl, rfl⟩
example : (decodeTasks RB number mkB 16 [[false, true, false, false], [true, false, false, false]] (fresh number) slow).1 =
    [.ready (.ok [49, 50]), .ready (.ok [55])] := rfl
-- without retrying, a future that is polled until it is ready: the failed read
example : (decodeAwait RB number mkB 16 3 false (fresh number) slow).1 = .ready (.io "e" (0 : Nat)) := rfl
example : (pollDecode RB number mkB 16 false (fresh number) slow.eager).1 = .ready (.io "e" (0 : Nat)) := rfl
-- "x" is rejected, however it arrives
example (r : AReader) (h : r.stream = [120]) (acts : List Bool) (v : List UInt8) :
    (decodeTask RB number mkB 16 acts false (fresh number) r).1 ≠ .ready (.ok v) := by
  obtain ⟨D, hp⟩ := number_frag
  have : (fresh number).aheadA r = [120] := h
  exact C49_reject feedable_B byteSource_maybe hp 16 acts (fresh number) r (Nat.le_refl 0) rfl (pos := (0 : Nat))
    (by rw [this]; rfl) v
-- what `C49_bytes` speaks of, in the middle of the first message
example :
    let x := decodeTask RB number mkB 16 [true] false (fresh number) slow
    (∃ e, x = (.pending, e, slow.drop 3)) ∧ x.2.1.position = (0 : Nat) ∧ x.2.1.buffer.data = [49] := ⟨⟨_, rfl⟩, rfl, rfl⟩

/-- Deviation from C48: a decoder's first turn parses an empty buffer, after which a choice over an array keeps to its
first alternative.  `decode!([a, b])` on "b", in a single read, fails; so do the asynchronous ones. -/
theorem C48_decoder_fails :
    let p := sliceChoice [token B 97, token B 98] ()
    p.answer (mkB [98] false 0) = .ok true 98 (⟨1, []⟩, false) ∧
    (∃ e, (decodeLoop RB p mkB 9 (fresh p) [.ok [98]]).1 = .parse e) ∧
    (∃ e, (pollDecode RB p mkB 9 false (fresh p) [.ready (.ok [98])]).1 = .ready (.parse e)) :=
  ⟨rfl, ⟨_, rfl⟩, ⟨_, rfl⟩⟩

/-! ## `BufReader` (C26) -/

private theorem step_all (op : ABufReadOp) (b : ABufReader) (hb : b.buf.Ok) :
    (∀ got b', op.step b = some (got, b') → b'.buf.Ok ∧
      b.buf.data ++ b.inner.all = got ++ b'.buf.data ++ b'.inner.all) ∧
    (op.step b = none → ∃ n, op = .consume n ∧ b.buf.data.length < n) := by
  have hext : b.pollExtend.2.buf.Ok ∧ b.buf.data ++ b.inner.all = b.pollExtend.2.buf.data ++ b.pollExtend.2.inner.all := by
    have h := C49_extend b.buf hb b.inner
    unfold ABufReader.pollExtend
    revert h
    generalize pollExtendBuf b.buf b.inner = z
    obtain ⟨z, b', r'⟩ := z
    cases z with
    | pending => rintro ⟨h1, h2, h3, _⟩; exact ⟨h1, by dsimp only; rw [h2, h3]⟩
    | ready z =>
      cases z with
      | error e => rintro ⟨h1, h2, h3, _⟩; exact ⟨h1, by dsimp only; rw [h2, h3]⟩
      | ok n => rintro ⟨h1, new, h2, _, h3, _⟩; exact ⟨h1, by dsimp only; rw [h2, h3, List.append_assoc]⟩
  have hfill : b.pollFillBuf.2.buf.Ok ∧
      b.buf.data ++ b.inner.all = b.pollFillBuf.2.buf.data ++ b.pollFillBuf.2.inner.all ∧
      ∀ x, b.pollFillBuf.1 = .ready (.ok x) → x = b.pollFillBuf.2.buf.data := by
    revert hext
    unfold ABufReader.pollFillBuf ABufReader.pollExtend
    by_cases hd : b.buf.data = []
    · rw [if_pos hd]
      generalize pollExtendBuf b.buf b.inner = z
      obtain ⟨z, b', r'⟩ := z
      rintro ⟨h1, h2⟩
      cases z with
      | pending => exact ⟨h1, h2, fun x h => by cases h⟩
      | ready z =>
        cases z with
        | error e => exact ⟨h1, h2, fun x h => by cases h⟩
        | ok n => exact ⟨h1, h2, fun x h => by cases h; rfl⟩
    · rw [if_neg hd]
      intro _
      exact ⟨hb, rfl, fun x h => by cases h; rfl⟩
  have hcons : ∀ (b : ABufReader) (n : Nat), b.buf.Ok →
      (∀ b', b.consume n = some b' → b'.buf.Ok ∧
        b.buf.data ++ b.inner.all = b.buf.data.take n ++ b'.buf.data ++ b'.inner.all) ∧
      (b.consume n = none → b.buf.data.length < n) := by
    intro b n hb
    unfold ABufReader.consume BytesMut.advance
    by_cases hn : n ≤ b.buf.data.length
    · rw [if_pos hn]
      refine ⟨fun b' h => ?_, fun h => by simp at h⟩
      simp only [Option.map_some, Option.some.injEq] at h
      subst h
      refine ⟨?_, ?_⟩
      · unfold BytesMut.Ok at hb ⊢
        simp only [List.length_drop]; omega
      · simp only [List.take_append_drop]
    · rw [if_neg hn]
      exact ⟨fun b' h => by simp at h, fun _ => by omega⟩
  cases op with
  | fillBuf =>
    refine ⟨fun got b' h => ?_, fun h => by simp [ABufReadOp.step] at h⟩
    simp only [ABufReadOp.step, Option.some.injEq, Prod.mk.injEq] at h
    obtain ⟨rfl, rfl⟩ := h
    exact ⟨hfill.1, hfill.2.1⟩
  | extend =>
    refine ⟨fun got b' h => ?_, fun h => by simp [ABufReadOp.step] at h⟩
    simp only [ABufReadOp.step, Option.some.injEq, Prod.mk.injEq] at h
    obtain ⟨rfl, rfl⟩ := h
    exact hext
  | consume n =>
    obtain ⟨h1, h2⟩ := hcons b n hb
    simp only [ABufReadOp.step]
    generalize b.consume n = x at h1 h2
    cases x with
    | none => exact ⟨fun got b' h => by simp at h, fun _ => ⟨n, rfl, h2 rfl⟩⟩
    | some b1 =>
      refine ⟨fun got b' h => ?_, fun h => by simp at h⟩
      simp only [Option.map_some, Option.some.injEq, Prod.mk.injEq] at h
      obtain ⟨rfl, rfl⟩ := h
      exact h1 _ rfl
  | read n =>
    simp only [ABufReadOp.step, ABufReader.pollRead]
    revert hfill
    generalize b.pollFillBuf = x
    obtain ⟨x, b1⟩ := x
    intro hfill
    cases x with
    | pending =>
      refine ⟨fun got b' h => ?_, fun h => by simp at h⟩
      simp only [Option.map_some, Option.some.injEq, Prod.mk.injEq] at h
      obtain ⟨rfl, rfl⟩ := h
      exact ⟨hfill.1, hfill.2.1⟩
    | ready x =>
      cases x with
      | error e =>
        refine ⟨fun got b' h => ?_, fun h => by simp at h⟩
        simp only [Option.map_some, Option.some.injEq, Prod.mk.injEq] at h
        obtain ⟨rfl, rfl⟩ := h
        exact ⟨hfill.1, hfill.2.1⟩
      | ok rem =>
        have hrem : rem = b1.buf.data := hfill.2.2 rem rfl
        obtain ⟨h1, h2⟩ := hcons b1 (rem.take n).length hfill.1
        simp only
        generalize b1.consume (rem.take n).length = y at h1 h2
        cases y with
        | none =>
          exfalso
          have := h2 rfl
          rw [hrem] at this
          have h3 := List.length_take_le' n b1.buf.data
          omega
        | some b2 =>
          refine ⟨fun got b' h => ?_, fun h => by simp at h⟩
          simp only [Option.map_some, Option.some.injEq, Prod.mk.injEq] at h
          obtain ⟨rfl, rfl⟩ := h
          obtain ⟨h3, h4⟩ := h1 _ rfl
          refine ⟨h3, hfill.2.1.trans (h4.trans ?_)⟩
          rw [hrem, List.length_take, ← List.take_eq_take_min]

/-- **C26**, asynchronously.  Over every history of `poll_read`, `poll_fill_buf`, `consume` and buffer extensions on every
reader, whenever it is ready: what was taken out, what is buffered and what is unread are the bytes of the inner reader,
each once, in order. -/
theorem C26_async_conserved (ops : List ABufReadOp) (b : ABufReader) (hb : b.buf.Ok) (got : List UInt8)
    (b' : ABufReader) (h : ABufReadOp.play ops b = some (got, b')) :
    b.buf.data ++ b.inner.all = got ++ b'.buf.data ++ b'.inner.all := by
  induction ops generalizing b got with
  | nil => cases h; rfl
  | cons op ops ih =>
    obtain ⟨h1, _⟩ := step_all op b hb
    simp only [ABufReadOp.play] at h
    cases hs : op.step b with
    | none => rw [hs] at h; cases h
    | some x =>
      obtain ⟨g, b1⟩ := x
      rw [hs] at h
      obtain ⟨h2, h3⟩ := h1 _ _ hs
      simp only [Option.map_eq_some_iff] at h
      obtain ⟨⟨g', b2⟩, h4, h5⟩ := h
      cases h5
      rw [h3, List.append_assoc, ih _ h2 _ h4]
      simp only [List.append_assoc]

/-- A history panics only at a `consume` of more than is buffered. -/
theorem C26_async_no_panic (ops : List ABufReadOp) (b : ABufReader) (hb : b.buf.Ok)
    (h : ABufReadOp.play ops b = none) :
    ∃ before n after got b', ops = before ++ .consume n :: after ∧
      ABufReadOp.play before b = some (got, b') ∧ b'.buf.data.length < n := by
  induction ops generalizing b with
  | nil => cases h
  | cons op ops ih =>
    obtain ⟨h1, h2⟩ := step_all op b hb
    simp only [ABufReadOp.play] at h
    cases hs : op.step b with
    | none =>
      obtain ⟨n, rfl, h3⟩ := h2 hs
      exact ⟨[], n, ops, [], b, rfl, rfl, h3⟩
    | some x =>
      obtain ⟨g, b1⟩ := x
      rw [hs] at h
      simp only [Option.map_eq_none_iff] at h
      obtain ⟨before, n, after, got, b', h3, h4, h5⟩ := ih b1 (h1 _ _ hs).1 h
      refine ⟨op :: before, n, after, g ++ got, b', by rw [h3]; rfl, ?_, h5⟩
      simp only [ABufReadOp.play, hs, h4, Option.map_some]

-- not ready, then four bytes read by two and three, then a failing read
example :
    ABufReadOp.play [.read 2, .read 2, .fillBuf, .consume 1, .read 5, .read 5, .extend]
      (ABufReader.withCapacity 0 [.pending, .ready (.ok [1, 2, 3, 4]), .ready (.error "io"), .ready (.ok [5, 6])]) =
    some ([1, 2, 3, 4], ⟨[], ⟨[5, 6], 60⟩⟩) := rfl

end Verif
