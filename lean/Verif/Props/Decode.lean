import Verif.Spec.Decoding
import Verif.Props.Chunks
import Verif.Props.DecoderBytes

/-!
# C43, C46: what `decode!` gives does not depend on how the bytes are read

`Reader.stream`, `Decoder.ahead`, `decodeRetry` and `decodeMany` are defined in `Verif.Spec.Decoding`.
-/

namespace Verif

variable {S : Strm} {σ α : Type} {R : RangeOps S} {tok : UInt8 → S.Tok} {mk : List UInt8 → Bool → S.Pos → S.Input}

private theorem read_stream (n : Nat) (hn : 0 < n) (r : Reader) :
    (∀ e r', r.read n = (.error e, r') → r'.stream = r.stream ∧ r.faults = r'.faults + 1) ∧
    (∀ bs r', r.read n = (.ok bs, r') → (bs = [] → r.stream = []) ∧
      (bs ≠ [] → r.stream = bs ++ r'.stream ∧ r'.faults = r.faults)) := by
  cases r with
  | nil =>
    refine ⟨fun e r' h => by simp [Reader.read] at h, fun bs r' h => ?_⟩
    simp only [Reader.read, Prod.mk.injEq, Except.ok.injEq] at h
    obtain ⟨rfl, rfl⟩ := h
    exact ⟨fun _ => rfl, fun h => absurd rfl h⟩
  | cons c r =>
    cases c with
    | error e =>
      refine ⟨fun e' r' h => ?_, fun bs r' h => by simp [Reader.read] at h⟩
      simp only [Reader.read, Prod.mk.injEq, Except.error.injEq] at h
      rw [← h.2]; exact ⟨rfl, rfl⟩
    | ok c =>
      simp only [Reader.read]
      by_cases h1 : c.length ≤ n
      · rw [if_pos h1]
        refine ⟨fun e' r' h => by simp at h, fun bs r' h => ?_⟩
        simp only [Prod.mk.injEq, Except.ok.injEq] at h
        obtain ⟨rfl, rfl⟩ := h
        cases c with
        | nil => exact ⟨fun _ => rfl, fun h => absurd rfl h⟩
        | cons b c => exact ⟨fun h => (by cases h), fun _ => ⟨rfl, rfl⟩⟩
      · rw [if_neg h1]
        refine ⟨fun e' r' h => by simp at h, fun bs r' h => ?_⟩
        simp only [Prod.mk.injEq, Except.ok.injEq] at h
        obtain ⟨rfl, rfl⟩ := h
        cases c with
        | nil => simp at h1
        | cons b c =>
          obtain ⟨n, rfl⟩ : ∃ m, n = m + 1 := ⟨n - 1, by omega⟩
          refine ⟨fun h => by simp at h, fun _ => ?_⟩
          simp only [List.drop_succ_cons, List.take_succ_cons]
          have h2 : c.drop n ≠ [] := by
            intro h
            have := congrArg List.length h
            simp only [List.length_drop, List.length_nil, List.length_cons] at this h1
            omega
          cases h3 : c.drop n with
          | nil => exact absurd h3 h2
          | cons x xs =>
            simp only [Reader.stream, Reader.faults, List.cons_append, and_true]
            rw [show x :: (xs ++ Reader.stream r) = (x :: xs) ++ Reader.stream r from rfl, ← h3, ← List.append_assoc, List.take_append_drop]

theorem extend_stream (b : BytesMut) (hb : b.Ok) (r : Reader) :
    (∀ e b' r', extendBufSync b r = (.error e, b', r') →
      b'.Ok ∧ b'.data = b.data ∧ r'.stream = r.stream ∧ r.faults = r'.faults + 1) ∧
    (∀ n b' r', extendBufSync b r = (.ok n, b', r') → b'.Ok ∧ ∃ new, b'.data = b.data ++ new ∧ n = new.length ∧
      (new = [] → r.stream = []) ∧ (new ≠ [] → r.stream = new ++ r'.stream ∧ r'.faults = r.faults)) := by
  obtain ⟨new, e1, e2, e3, e4, e5⟩ := C25_extend b r hb
  revert e1 e2 e3 e4 e5
  unfold extendBufSync
  simp only
  generalize hb' : (if b.cap = b.data.length then b.reserve (8 * 1024) else b) = b'
  have h1 : b'.data = b.data ∧ b.data.length < b'.cap := by
    subst hb'
    unfold BytesMut.Ok at hb
    split
    · exact ⟨rfl, by simp only [BytesMut.reserve]; omega⟩
    · exact ⟨rfl, by omega⟩
  generalize hn : min (b'.cap - b'.data.length) (8 * 1024) = n
  have h2 : 0 < n := by
    rw [← hn, h1.1]; omega
  obtain ⟨ha, hb⟩ := read_stream n h2 r
  generalize hx : r.read n = x
  obtain ⟨x, r'⟩ := x
  cases x with
  | error e =>
    intro e1 e2 e3 e4 e5
    refine ⟨fun e' b'' r'' h => ?_, fun n b' r' h => by cases h⟩
    cases h
    exact ⟨e3, h1.1, (ha _ _ hx).1, (ha _ _ hx).2⟩
  | ok bs =>
    intro e1 e2 e3 e4 e5
    refine ⟨fun e' b' r' h => (by cases h), fun n b' r' h => ?_⟩
    cases h
    exact ⟨e3, bs, by simp [h1.1], rfl, (hb _ _ hx).1, (hb _ _ hx).2⟩

/-- What is known between two iterations of `decode!`: `w` has been absorbed by the parser's state, and `w`, the
buffer and what the reader will give parse to `v`, leaving `rest`. -/
private structure Mid {D : Den S.Tok α} (Rep : Bool → σ → List S.Tok → List S.Tok → Prop) (tok : UInt8 → S.Tok)
    (o : Outcome S.Tok α) (d : Decoder S.Pos σ) (r : Reader) (w u : List S.Tok) : Prop where
  ok : d.buffer.Ok
  rep : Rep (!d.endOfInput) d.state w u
  seen : u <+: d.buffer.data.map tok
  whole : D false (w ++ (d.ahead r).map tok) = o

/-- Bounds the number of iterations. -/
def Decoder.reads {P σ : Type} (d : Decoder P σ) (r : Reader) : Nat := if d.endOfInput then 0 else r.stream.length + 1

/-- The number of reads that may yet fail. -/
def Decoder.faults {P σ : Type} (d : Decoder P σ) (r : Reader) : Nat := if d.endOfInput then 0 else r.faults

private theorem loop_mid (hS : S.Lawful) (hB : ByteSource S R tok mk) {p : Parser S σ α} {D : Den S.Tok α}
    {k l : Bool} {Ready : Bool → σ → Prop} {Rep : Bool → σ → List S.Tok → List S.Tok → Prop}
    (h : ∀ live, Resumes live p D k l (Ready live) (Rep live)) (hm : ∀ s w u, Rep true s w u → Rep false s w u)
    {c : Bool} {v : α} {rest : List S.Tok} (fuel : Nat) (d : Decoder S.Pos σ) (r : Reader) (w u : List S.Tok)
    (hd : Mid (D := D) Rep tok (.ok c v rest) d r w u) (hf : d.reads r < fuel) :
    (∃ d' r', decodeLoop R p mk fuel d r = (.ok v, d', r') ∧ (d'.ahead r').map tok = rest ∧ d'.buffer.Ok ∧
      d'.faults r' ≤ d.faults r ∧ d'.reads r' ≤ d.reads r ∧ (k = true → Ready (!d'.endOfInput) d'.state)) ∨
    (∃ e pos d' r' w' u', decodeLoop R p mk fuel d r = (.io e pos, d', r') ∧
      Mid (D := D) Rep tok (.ok c v rest) d' r' w' u' ∧ d'.faults r' < d.faults r ∧ d'.reads r' ≤ d.reads r) := by
  induction fuel generalizing d r w u with
  | zero => omega
  | succ fuel ih =>
    have hl := hB.left d.buffer.data (!d.endOfInput) d.position
    have hp := hB.isPartial d.buffer.data (!d.endOfInput) d.position
    simp only [decodeLoop, decode]
    generalize mk d.buffer.data (!d.endOfInput) d.position = i at hl hp ⊢
    have hst := (h (!d.endOfInput)).resume i hp hd.rep (by rw [hl]; exact hd.seen)
    have hadv : ∀ {x j}, S.Reads i x j → ∃ b, d.buffer.advance (R.distance j (S.checkpoint i)) = some b ∧ b.Ok ∧
        b.data.map tok = S.left j ∧ d.buffer.data.map tok = x ++ S.left j := by
      intro x j hr
      have h1 := hS.left_reads hr
      rw [hl] at h1
      have h2 := hB.distance hr
      have h3 := congrArg List.length h1
      rw [List.length_map, List.length_append] at h3
      refine ⟨⟨d.buffer.data.drop x.length, d.buffer.cap - x.length⟩, ?_, ?_, ?_, h1⟩
      · unfold BytesMut.advance
        rw [h2, if_pos (by omega)]
      · have := hd.ok
        unfold BytesMut.Ok at this ⊢
        simp only [List.length_drop]; omega
      · dsimp only
        rw [List.map_drop, h1, List.drop_left]
    rw [hp, hl] at hst
    cases hD : D (!d.endOfInput) (w ++ d.buffer.data.map tok) with
    | ok c' v' z =>
      rw [hD] at hst
      obtain ⟨⟨c'', h1, _⟩, ⟨x, h2⟩, h3, h4⟩ := hst
      have hv : v' = v ∧ rest = z ++ (if d.endOfInput then [] else r.stream.map tok) := by
        have hw := hd.whole
        unfold Decoder.ahead at hw
        cases he : d.endOfInput with
        | true =>
          rw [he] at hD hw
          simp only [Bool.not_true, if_true, List.append_nil] at hD hw
          rw [hD] at hw
          cases hw
          exact ⟨rfl, by simp⟩
        | false =>
          rw [he] at hD hw
          have := (h true).good.stable (w ++ d.buffer.data.map tok) (r.stream.map tok) false
          simp only [Bool.not_false] at hD
          rw [hD] at this
          simp only [Bool.false_eq_true, if_false, List.map_append] at hw ⊢
          rw [← List.append_assoc, this (by simp)] at hw
          cases hw
          exact ⟨rfl, rfl⟩
      obtain ⟨rfl, rfl⟩ := hv
      obtain ⟨b, g1, g2, g3, _⟩ := hadv h2
      left
      rw [parseWithState_ok h1]
      simp only [g1]
      refine ⟨_, _, rfl, ?_, g2, Nat.le_refl _, Nat.le_refl _, h4⟩
      simp only [Decoder.ahead, List.map_append, g3, h3]
      cases d.endOfInput <;> rfl
    | pend =>
      have he : d.endOfInput = false := by
        cases he : d.endOfInput with
        | false => rfl
        | true => rw [he] at hD; exact absurd hD ((h false).good.complete _)
      rw [hD] at hst
      obtain ⟨e, x, h1, h2, h3, h4⟩ := hst
      obtain ⟨b, g1, g2, g3, g4⟩ := hadv h3
      rw [parseWithState_err h1]
      have hpj : S.isPartial (p.run false i d.state).inp = true := by
        rw [hS.reach_isPartial ⟨_, h3⟩, hp, he]; rfl
      simp only [h2, hpj, if_true, g1, Decoder.beforeParse]
      obtain ⟨t1, t2⟩ := extend_stream b g2 r
      have hw := hd.whole
      simp only [Decoder.ahead, he, Bool.false_eq_true, if_false, List.map_append] at hw
      rw [he] at h4
      simp only [Bool.not_false] at h4
      generalize hz : extendBufSync b r = z at t1 t2
      obtain ⟨z, b', r'⟩ := z
      cases z with
      | error e' =>
        obtain ⟨f1, f2, f3, f4⟩ := t1 _ _ _ rfl
        right
        refine ⟨_, _, _, _, w ++ x, S.left (p.run false i d.state).inp, rfl, ⟨f1, ?_, ?_, ?_⟩, ?_, ?_⟩
        · simp only [he]; exact h4
        · simp only [f2, g3]; exact List.prefix_rfl
        · simp only [Decoder.ahead, he, Bool.false_eq_true, if_false, List.map_append, f2, f3, g3]
          rw [← hw, g4]; simp only [List.append_assoc]
        · simp only [Decoder.faults, he, Bool.false_eq_true, if_false]; omega
        · simp only [Decoder.reads, he, Bool.false_eq_true, if_false, f3]; exact Nat.le_refl _
      | ok n =>
        obtain ⟨f1, new, f2, f3, f4, f5⟩ := t2 _ _ _ rfl
        by_cases hn : new = []
        · have hr := f4 hn
          subst hn
          have hn0 : n = 0 := f3
          subst hn0
          rw [hr, List.map_nil, List.append_nil] at hw
          rw [List.append_nil] at f2
          simp only [if_true]
          have := ih ⟨S.position (p.run false i d.state).inp, (p.run false i d.state).st, b', true⟩ r' (w ++ x)
            (S.left (p.run false i d.state).inp) ⟨f1, hm _ _ _ h4, by simp only [f2, g3]; exact List.prefix_rfl, ?_⟩ ?_
          · rcases this with ⟨d', r'', k1, k2, k3, k4, k5, k6⟩ | ⟨e, pos, d', r'', w', u', k1, k2, k3, k4⟩
            · exact .inl ⟨d', r'', k1, k2, k3, Nat.le_trans k4 (Nat.zero_le _), Nat.le_trans k5 (Nat.zero_le _), k6⟩
            · exact absurd k3 (Nat.not_lt_zero _)
          · simp only [Decoder.ahead, if_true, List.append_nil, f2, g3]
            rw [← hw, g4]; simp only [List.append_assoc]
          · simp only [Decoder.reads, he, Bool.false_eq_true, if_false, if_true] at hf ⊢
            omega
        · obtain ⟨hr, hfl⟩ := f5 hn
          have hn0 : n ≠ 0 := by
            rw [f3]; intro h; exact hn (List.length_eq_zero_iff.1 h)
          simp only [if_neg hn0, he]
          have := ih ⟨S.position (p.run false i d.state).inp, (p.run false i d.state).st, b', false⟩ r' (w ++ x)
            (S.left (p.run false i d.state).inp) ⟨f1, h4, by simp only [f2, List.map_append, g3]; exact List.prefix_append _ _, ?_⟩ ?_
          · have e1 : d.faults r = r.faults := by simp only [Decoder.faults, he, Bool.false_eq_true, if_false]
            have e2 : d.reads r = r.stream.length + 1 := by simp only [Decoder.reads, he, Bool.false_eq_true, if_false]
            simp only [Decoder.faults, Decoder.reads, Bool.false_eq_true, if_false] at this
            rw [e1, e2]
            rw [hr, List.length_append, ← hfl]
            rcases this with ⟨d', r'', k1, k2, k3, k4, k5, k6⟩ | ⟨e, pos, d', r'', w', u', k1, k2, k3, k4⟩
            · exact .inl ⟨d', r'', k1, k2, k3, k4, Nat.le_trans k5 (by omega), k6⟩
            · exact .inr ⟨e, pos, d', r'', w', u', k1, k2, k3, Nat.le_trans k4 (by omega)⟩
          · simp only [Decoder.ahead, Bool.false_eq_true, if_false, f2, List.map_append, g3]
            rw [← hw, g4, hr]; simp only [List.append_assoc, List.map_append]
          · have := List.length_pos_iff.2 hn
            simp only [Decoder.reads, he, Bool.false_eq_true, if_false, hr, List.length_append] at hf ⊢
            omega
    | soft =>
      exfalso
      have hw := hd.whole
      unfold Decoder.ahead at hw
      cases he : d.endOfInput with
      | true =>
        rw [he] at hD hw
        simp only [Bool.not_true, if_true, List.append_nil] at hD hw
        rw [hD] at hw
        cases hw
      | false =>
        rw [he] at hD hw
        have := (h true).good.stable (w ++ d.buffer.data.map tok) (r.stream.map tok) false
        simp only [Bool.not_false] at hD
        rw [hD] at this
        simp only [Bool.false_eq_true, if_false, List.map_append] at hw
        rw [← List.append_assoc, this (by simp)] at hw
        cases hw
    | hard =>
      exfalso
      have hw := hd.whole
      unfold Decoder.ahead at hw
      cases he : d.endOfInput with
      | true =>
        rw [he] at hD hw
        simp only [Bool.not_true, if_true, List.append_nil] at hD hw
        rw [hD] at hw
        cases hw
      | false =>
        rw [he] at hD hw
        have := (h true).good.stable (w ++ d.buffer.data.map tok) (r.stream.map tok) false
        simp only [Bool.not_false] at hD
        rw [hD] at this
        simp only [Bool.false_eq_true, if_false, List.map_append] at hw
        rw [← List.append_assoc, this (by simp)] at hw
        cases hw

private theorem retry_mid (hS : S.Lawful) (hB : ByteSource S R tok mk) {p : Parser S σ α} {D : Den S.Tok α}
    {k l : Bool} {Ready : Bool → σ → Prop} {Rep : Bool → σ → List S.Tok → List S.Tok → Prop}
    (h : ∀ live, Resumes live p D k l (Ready live) (Rep live)) (hm : ∀ s w u, Rep true s w u → Rep false s w u)
    {c : Bool} {v : α} {rest : List S.Tok} (fuel n : Nat) (d : Decoder S.Pos σ) (r : Reader) (w u : List S.Tok)
    (hd : Mid (D := D) Rep tok (.ok c v rest) d r w u) (hf : d.reads r < fuel) (hn : d.faults r ≤ n) :
    ∃ d' r', decodeRetry R p mk fuel n d r = (.ok v, d', r') ∧ (d'.ahead r').map tok = rest ∧ d'.buffer.Ok ∧
      d'.faults r' ≤ d.faults r ∧ d'.reads r' ≤ d.reads r ∧ (k = true → Ready (!d'.endOfInput) d'.state) := by
  induction n generalizing d r w u with
  | zero =>
    rcases loop_mid hS hB h hm fuel d r w u hd hf with h1 | ⟨e, pos, d', r', w', u', k1, k2, k3, k4⟩
    · exact h1
    · omega
  | succ n ih =>
    simp only [decodeRetry]
    rcases loop_mid hS hB h hm fuel d r w u hd hf with ⟨d', r', h1, h2⟩ | ⟨e, pos, d', r', w', u', k1, k2, k3, k4⟩
    · rw [h1]; exact ⟨d', r', rfl, h2⟩
    · rw [k1]
      dsimp only
      obtain ⟨d'', r'', j1, j2, j3, j4, j5, j6⟩ := ih d' r' w' u' k2 (by omega) (by omega)
      exact ⟨d'', r'', j1, j2, j3, by omega, by omega, j6⟩

theorem Decoder.reads_le (d : Decoder S.Pos σ) (r : Reader) : d.reads r ≤ r.stream.length + 1 := by
  unfold Decoder.reads; split <;> omega

theorem Decoder.faults_le (d : Decoder S.Pos σ) (r : Reader) : d.faults r ≤ r.faults := by
  unfold Decoder.faults; split <;> omega

variable [DecidableEq S.Tok] [DecidableEq S.Rng] {V : Ranges S} {p : Parser S σ α} {D : Den S.Tok α} {k l : Bool}

/-- **C43.**  If the parser accepts all the bytes that are still to come, as one complete input, then `decode!`, however
these bytes are read and however often reading fails, gives the same message and has the same bytes left. -/
theorem C43_message (hF : S.Feedable) (hB : ByteSource S R tok mk) (hp : Frag V p D k l) (fuel n : Nat)
    (d : Decoder S.Pos σ) (r : Reader) (hb : d.buffer.Ok) (hs : d.state = p.init) (hf : r.stream.length + 1 < fuel)
    (hn : r.faults ≤ n) {pos : S.Pos} {c : Bool} {v : α} {j : S.Input}
    (h : p.answer (mk (d.ahead r) false pos) = .ok c v j) :
    ∃ d' r', decodeRetry R p mk fuel n d r = (.ok v, d', r') ∧ (d'.ahead r').map tok = S.left j := by
  have hr := frag_resumable hF hp
  have hD := den_ok_of_answer hr h
  rw [hB.left, hB.isPartial] at hD
  obtain ⟨Ready, Rep, hr, _, hm⟩ := hr
  obtain ⟨d', r', h1, h2, _⟩ := retry_mid hF.lawful hB hr hm fuel n d r [] []
    ⟨hb, hs ▸ (hr _).ready_rep (hr _).ready_init, List.nil_prefix, hD⟩
    (Nat.lt_of_le_of_lt (Decoder.reads_le d r) hf) (Nat.le_trans (Decoder.faults_le d r) hn)
  exact ⟨d', r', h1, h2⟩

/-- **C43.**  Two decoders with the same bytes ahead, wherever these are, give the same message. -/
theorem C43_same (hF : S.Feedable) (hB : ByteSource S R tok mk) (hp : Frag V p D k l) (fuel n : Nat)
    (d e : Decoder S.Pos σ) (r q : Reader) (hb : d.buffer.Ok) (hb' : e.buffer.Ok) (hs : d.state = p.init)
    (hs' : e.state = p.init) (ha : d.ahead r = e.ahead q) (hf : r.stream.length + 1 < fuel)
    (hf' : q.stream.length + 1 < fuel) (hn : r.faults ≤ n) (hn' : q.faults ≤ n) {pos : S.Pos} {c : Bool} {v : α}
    {j : S.Input} (h : p.answer (mk (d.ahead r) false pos) = .ok c v j) :
    (decodeRetry R p mk fuel n d r).1 = (decodeRetry R p mk fuel n e q).1 := by
  obtain ⟨_, _, h1, _⟩ := C43_message hF hB hp fuel n d r hb hs hf hn h
  obtain ⟨_, _, h2, _⟩ := C43_message hF hB hp fuel n e q hb' hs' hf' hn' (ha ▸ h)
  rw [h1, h2]

omit [DecidableEq S.Tok] [DecidableEq S.Rng] in
theorem many_mid (hF : S.Feedable) (hB : ByteSource S R tok mk) {Ready : Bool → σ → Prop}
    {Rep : Bool → σ → List S.Tok → List S.Tok → Prop} (hr : ∀ live, Resumes live p D true l (Ready live) (Rep live))
    (hm' : ∀ s, Ready true s → Ready false s)
    (hm : ∀ s w u, Rep true s w u → Rep false s w u) (fuel n : Nat) {bs rest : List UInt8} {vs : List α}
    (h : Messages p tok mk bs vs rest) (d : Decoder S.Pos σ) (r : Reader) (hb : d.buffer.Ok)
    (hs : Ready (!d.endOfInput) d.state) (ha : (d.ahead r).map tok = bs.map tok) (hf : d.reads r < fuel)
    (hn : d.faults r ≤ n) :
    ∃ d' r', decodeMany R p mk fuel n vs.length d r = (vs.map .ok, d', r') ∧
      (d'.ahead r').map tok = rest.map tok ∧ d'.buffer.Ok ∧ d'.faults r' ≤ n ∧ Ready (!d'.endOfInput) d'.state := by
  induction h generalizing d r with
  | nil bs => exact ⟨d, r, rfl, ha, hb, hn, hs⟩
  | @cons bs bs' rest pos c v j vs h1 h2 _ ih =>
    have hD := den_ok_of_answer ⟨Ready, Rep, hr, hm', hm⟩ h1
    rw [hB.left, hB.isPartial, ← ha] at hD
    obtain ⟨d', r', j1, j2, j3, j4, j5, j6⟩ := retry_mid hF.lawful hB hr hm fuel n d r [] []
      ⟨hb, (hr _).ready_rep hs, List.nil_prefix, hD⟩ hf hn
    obtain ⟨d'', r'', i1, i2⟩ := ih d' r' j3 (j6 rfl) (j2.trans h2) (by omega) (by omega)
    refine ⟨d'', r'', ?_, i2⟩
    simp only [decodeMany, List.length_cons, j1, i1, List.map_cons]

/-- **C46.**  A decoder used for one message after the other gives the messages that separate parses of the bytes
would: nothing of a message is left in the state it keeps (for parsers that can be started anew after a success). -/
theorem C46_messages (hF : S.Feedable) (hB : ByteSource S R tok mk) (hp : Frag V p D true l) (fuel n : Nat)
    (d : Decoder S.Pos σ) (r : Reader) (hb : d.buffer.Ok) (hs : d.state = p.init) (hf : r.stream.length + 1 < fuel)
    (hn : r.faults ≤ n) {vs : List α} {rest : List UInt8} (h : Messages p tok mk (d.ahead r) vs rest) :
    ∃ d' r', decodeMany R p mk fuel n vs.length d r = (vs.map .ok, d', r') ∧
      (d'.ahead r').map tok = rest.map tok := by
  obtain ⟨Ready, Rep, hr, hm', hm⟩ := frag_resumable hF hp
  obtain ⟨d', r', h1, h2, _⟩ := many_mid hF hB hr hm' hm fuel n h d r hb (hs ▸ (hr _).ready_init) rfl
    (Nat.lt_of_le_of_lt (Decoder.reads_le d r) hf) (Nat.le_trans (Decoder.faults_le d r) hn)
  exact ⟨d', r', h1, h2⟩

/-! ## Rejection -/

omit [DecidableEq S.Tok] [DecidableEq S.Rng] in
private theorem loop_soft (hS : S.Lawful) (hB : ByteSource S R tok mk) {Ready : Bool → σ → Prop}
    {Rep : Bool → σ → List S.Tok → List S.Tok → Prop} (h : ∀ live, Resumes live p D k true (Ready live) (Rep live))
    (hm : ∀ s w u, Rep true s w u → Rep false s w u) (fuel : Nat)
    (d : Decoder S.Pos σ) (r : Reader) (u : List S.Tok) (hd : Mid (D := D) Rep tok .soft d r [] u) :
    (∃ d' r' u', ∃ e pos, decodeLoop R p mk fuel d r = (.io e pos, d', r') ∧ Mid (D := D) Rep tok .soft d' r' [] u') ∨
    (∀ v, (decodeLoop R p mk fuel d r).1 ≠ .ok v) ∧ ∀ e pos, (decodeLoop R p mk fuel d r).1 ≠ .io e pos := by
  induction fuel generalizing d r u with
  | zero => right; simp [decodeLoop]
  | succ fuel ih =>
    have hl := hB.left d.buffer.data (!d.endOfInput) d.position
    have hp := hB.isPartial d.buffer.data (!d.endOfInput) d.position
    simp only [decodeLoop, decode]
    generalize mk d.buffer.data (!d.endOfInput) d.position = i at hl hp ⊢
    have hst := (h (!d.endOfInput)).resume i hp hd.rep (by rw [hl]; exact hd.seen)
    rw [hp, hl, List.nil_append] at hst
    have hw := hd.whole
    rw [List.nil_append] at hw
    have hfin : ∀ o, D (!d.endOfInput) (d.buffer.data.map tok) = o → o = .soft ∨ o = .pend := by
      intro o ho
      unfold Decoder.ahead at hw
      cases he : d.endOfInput with
      | true =>
        rw [he] at ho hw
        simp only [Bool.not_true, if_true, List.append_nil] at ho hw
        rw [hw] at ho; exact .inl ho.symm
      | false =>
        rw [he] at ho hw
        simp only [Bool.not_false] at ho
        by_cases hpe : o = .pend
        · exact .inr hpe
        · have hs := (h true).good.stable (d.buffer.data.map tok) (r.stream.map tok) false (by rw [ho]; exact hpe)
          simp only [Bool.false_eq_true, if_false, List.map_append] at hw
          rw [hw, ho] at hs
          cases o with
          | soft => exact .inl rfl
          | pend => exact .inr rfl
          | ok => cases hs
          | hard => cases hs
    have hok0 : ∀ b : BytesMut, b.advance 0 = some b := fun b => by
      simp [BytesMut.advance]
    -- one more read
    have more : d.endOfInput = false → ∀ (s' : σ) (j : S.Input) (b : BytesMut) (u' : List S.Tok), b = d.buffer → Rep true s' [] u' →
        u' <+: d.buffer.data.map tok →
        let x := (match Decoder.beforeParse { d with state := s', position := S.position j, buffer := b } r with
          | (.ok _, d, r) => decodeLoop R p mk fuel d r
          | (.error e, d, r) => (.io e d.position, d, r))
        (∃ d' r' u', ∃ e pos, x = (.io e pos, d', r') ∧ Mid (D := D) Rep tok .soft d' r' [] u') ∨
        (∀ v, x.1 ≠ .ok v) ∧ ∀ e pos, x.1 ≠ .io e pos := by
      rintro he s' j b u' rfl h4 hu'
      simp only [Decoder.beforeParse]
      obtain ⟨t1, t2⟩ := extend_stream d.buffer hd.ok r
      simp only [Decoder.ahead, he, Bool.false_eq_true, if_false, List.map_append] at hw
      generalize hz : extendBufSync d.buffer r = z at t1 t2
      obtain ⟨z, b', r'⟩ := z
      cases z with
      | error e' =>
        obtain ⟨f1, f2, f3, f4⟩ := t1 _ _ _ rfl
        left
        refine ⟨_, _, u', _, _, rfl, f1, ?_, ?_, ?_⟩
        · simp only [he]; exact h4
        · simp only [f2]; exact hu'
        · simp only [Decoder.ahead, he, Bool.false_eq_true, if_false, List.map_append, f2, f3, List.nil_append]
          exact hw
      | ok n =>
        obtain ⟨f1, new, f2, f3, f4, f5⟩ := t2 _ _ _ rfl
        by_cases hn : new = []
        · have hr := f4 hn
          subst hn
          have hn0 : n = 0 := f3
          subst hn0
          rw [hr, List.map_nil, List.append_nil] at hw
          rw [List.append_nil] at f2
          simp only [if_true]
          exact ih ⟨S.position j, s', b', true⟩ r' u' ⟨f1, hm _ _ _ h4, by simp only [f2]; exact hu',
            by simp only [Decoder.ahead, if_true, List.append_nil, f2, List.nil_append]; exact hw⟩
        · obtain ⟨hr, hfl⟩ := f5 hn
          have hn0 : n ≠ 0 := by
            rw [f3]; intro h; exact hn (List.length_eq_zero_iff.1 h)
          simp only [if_neg hn0, he]
          exact ih ⟨S.position j, s', b', false⟩ r' u' ⟨f1, h4, by
              simp only [f2, List.map_append]; exact hu'.trans (List.prefix_append _ _),
            by
              simp only [Decoder.ahead, Bool.false_eq_true, if_false, f2, List.map_append, List.nil_append]
              rw [← hw, hr]; simp only [List.append_assoc, List.map_append]⟩
    cases hD : D (!d.endOfInput) (d.buffer.data.map tok) with
    | ok c' v' z => rcases hfin _ hD with h | h <;> cases h
    | hard => rcases hfin _ hD with h | h <;> cases h
    | pend =>
      have he : d.endOfInput = false := by
        cases he : d.endOfInput with
        | false => rfl
        | true => rw [he] at hD; exact absurd hD ((h false).good.complete _)
      rw [hD] at hst
      obtain ⟨e, y, h1, h2, h3, h4⟩ := hst
      have hly := hS.left_reads h3
      rw [hl] at hly
      rw [he] at h4
      have hy : y = [] := by
        refine Classical.byContradiction fun hy => ?_
        have hf := (h true).firm h4 hy false (r.stream.map tok)
        simp only [Decoder.ahead, he, Bool.false_eq_true, if_false, List.map_append] at hw
        rw [List.nil_append, ← List.append_assoc, ← hly, hw] at hf
        exact hf.1 rfl
      subst hy
      rw [parseWithState_err h1]
      have hpj : S.isPartial (p.run false i d.state).inp = true := by
        rw [hS.reach_isPartial ⟨_, h3⟩, hp, he]; rfl
      have hdist := hB.distance h3
      rw [List.length_nil] at hdist
      simp only [h2, hpj, if_true, hdist, hok0]
      exact more he _ (p.run false i d.state).inp _ _ rfl h4 (by rw [List.nil_append] at hly; rw [hly]; exact List.prefix_rfl)
    | soft =>
      rw [hD] at hst
      obtain ⟨_, ⟨e, h1⟩, h2, h3⟩ := hst
      obtain ⟨e', h'⟩ := parseWithState_soft hS h1 h2
      rw [h']
      by_cases hE : S.E.isEoi e' = true
      · by_cases he : d.endOfInput = true
        · simp [hp, he, hE]
        · have he : d.endOfInput = false := by simpa using he
          have h3 := h3 rfl
          rw [he] at h3
          have hdist : R.distance i (S.checkpoint i) = 0 := hB.distance (.nil i)
          have hpi : S.isPartial i = true := by rw [hp, he]; rfl
          simp only [hE, hpi, if_true, hdist, hok0]
          exact more he _ i _ _ rfl ((h true).ready_rep h3) List.nil_prefix
      · simp [hE]

/-- **C43.**  If the parser rejects, without committing, all the bytes that are still to come, then `decode!` gives no
message, however these bytes are read (for parsers that can be started anew after such a failure). -/
theorem C43_reject (hF : S.Feedable) (hB : ByteSource S R tok mk) (hp : Frag V p D k true) (fuel n : Nat)
    (d : Decoder S.Pos σ) (r : Reader) (hb : d.buffer.Ok) (hs : d.state = p.init) {pos : S.Pos}
    (h : p.answer (mk (d.ahead r) false pos) = .soft) (v : α) : (decodeRetry R p mk fuel n d r).1 ≠ .ok v := by
  have hr := frag_resumable hF hp
  have hD : D false ((d.ahead r).map tok) = .soft := by
    have h1 := answer_of_den hr (mk (d.ahead r) false pos)
    rw [hB.left, hB.isPartial] at h1
    revert h1
    cases D false ((d.ahead r).map tok) with
    | soft => intro _; rfl
    | ok c v l => rintro ⟨j, h1, _⟩; rw [h] at h1; cases h1
    | pend => rintro ⟨j, h1, _⟩; rw [h] at h1; cases h1
    | hard => rintro ⟨j, h1⟩; rw [h] at h1; cases h1
  obtain ⟨Ready, Rep, hr, hm', hm⟩ := hr
  have hd : Mid (D := D) Rep tok .soft d r [] [] :=
    ⟨hb, hs ▸ (hr _).ready_rep (hr _).ready_init, List.nil_prefix, hD⟩
  have key : ∀ n (d : Decoder S.Pos σ) (r : Reader) (u : List S.Tok), Mid (D := D) Rep tok .soft d r [] u →
      (decodeRetry R p mk fuel n d r).1 ≠ .ok v := by
    intro n
    induction n with
    | zero =>
      intro d r u hd
      simp only [decodeRetry]
      rcases loop_soft hF.lawful hB hr hm fuel d r u hd with ⟨d', r', u', e, pos, h1, _⟩ | ⟨h1, _⟩
      · rw [h1]; simp
      · exact h1 v
    | succ n ih =>
      intro d r u hd
      simp only [decodeRetry]
      rcases loop_soft hF.lawful hB hr hm fuel d r u hd with ⟨d', r', u', e, pos, h1, h2⟩ | ⟨h1, h2⟩
      · rw [h1]; exact ih d' r' u' h2
      · revert h1 h2
        generalize decodeLoop R p mk fuel d r = x
        obtain ⟨x, d', r'⟩ := x
        intro h1 h2
        cases x with
        | io e pos => exact absurd rfl (h2 e pos)
        | ok v' => exact h1 v
        | parse e => exact h1 v
        | abort a => exact h1 v
  exact key n d r _ hd

/-! ## Positions -/

omit [DecidableEq S.Tok] [DecidableEq S.Rng] in
theorem decode_reads (hS : S.Lawful) (hB : ByteSource S R tok mk) (hp : Moves p) (i : S.Input) (s : σ) :
    ∃ ts, S.Reads i ts (decode R p i s).2.1 ∧ ∀ v n, (decode R p i s).1 = .ok v n → n = ts.length ∧ (v = none → S.isPartial (decode R p i s).2.1 = true) := by
  have hreach : S.Reach i (p.parseWithState i s).2.1 := by
    have h1 : S.Reach i (p.streamPartial i s).inp :=
      describing_reach hS (run := p.run false) p.addError (i := i) (s := s) (hp.run false i s)
    unfold Parser.parseWithState
    simp only
    cases (p.streamPartial i s).res <;> exact h1
  obtain ⟨ts, hr⟩ := hreach
  have h2 := hB.distance hr
  refine ⟨ts, ?_⟩
  unfold decode
  simp only
  revert hr h2
  generalize p.parseWithState i s = r
  obtain ⟨r, j, s'⟩ := r
  intro h1 h2
  cases r with
  | ok v => exact ⟨h1, by intro v n h; cases h; exact ⟨h2, fun h => by cases h⟩⟩
  | error e =>
    cases e with
    | inl a => exact ⟨h1, by intro v n h; cases h⟩
    | inr e =>
      simp only
      split
      · split
        · rename_i hpart
          exact ⟨h1, by intro v n h; cases h; exact ⟨h2, fun _ => hpart⟩⟩
        · exact ⟨h1, by intro v n h; cases h⟩
      · exact ⟨h1, by intro v n h; cases h⟩

/-- What `decodeLoop` returns while the decoder is usable. -/
private def going : DecodeRes S S.Pos α → Bool
  | .ok _ | .io _ _ => true
  | _ => false

omit [DecidableEq S.Tok] [DecidableEq S.Rng] in
private theorem loop_pos (hS : S.Lawful) (hB : ByteSource S R tok mk) (hp : Moves p) {adv : S.Pos → List S.Tok → S.Pos}
    (happ : ∀ q x y, adv (adv q x) y = adv q (x ++ y))
    (hpos : ∀ {b more q x j}, S.Reads (mk b more q) x j → S.position j = adv q x)
    (fuel : Nat) (d : Decoder S.Pos σ) (r : Reader) (hb : d.buffer.Ok)
    (hg : going (decodeLoop R p mk fuel d r).1 = true) :
    let y := decodeLoop R p mk fuel d r
    y.2.1.buffer.Ok ∧
    ∃ x, (d.ahead r).map tok = x ++ (y.2.1.ahead y.2.2).map tok ∧ y.2.1.position = adv d.position x := by
  induction fuel generalizing d r with
  | zero => simp [decodeLoop, going] at hg
  | succ fuel ih =>
    have hl := hB.left d.buffer.data (!d.endOfInput) d.position
    obtain ⟨ts, h1, h2⟩ := decode_reads hS hB hp (mk d.buffer.data (!d.endOfInput) d.position) d.state
    have h3 := hpos h1
    have h4 := hS.left_reads h1
    rw [hl] at h4
    simp only [decodeLoop] at hg ⊢
    have hpr := hS.reads_isPartial h1
    rw [hB.isPartial] at hpr
    clear hl
    generalize decode R p (mk d.buffer.data (!d.endOfInput) d.position) d.state = y at *
    obtain ⟨res, j, s'⟩ := y
    cases res with
    | abort a => simp [going] at hg
    | err e => simp [going] at hg
    | ok opt removed =>
      obtain ⟨hn, hpart⟩ := h2 _ _ rfl
      simp only at h1 h3 h4 hg hpr hpart ⊢
      have hlen := congrArg List.length h4
      rw [List.length_map, List.length_append] at hlen
      have hadv : d.buffer.advance removed = some ⟨d.buffer.data.drop removed, d.buffer.cap - removed⟩ := by
        unfold BytesMut.advance
        rw [if_pos (by omega)]
      have hdata : (d.buffer.data.drop removed).map tok = S.left j := by
        rw [List.map_drop, h4, hn, List.drop_left]
      have hok : (⟨d.buffer.data.drop removed, d.buffer.cap - removed⟩ : BytesMut).Ok := by
        unfold BytesMut.Ok at hb ⊢
        simp only [List.length_drop]; omega
      simp only [hadv] at hg ⊢
      cases opt with
      | some v =>
        refine ⟨hok, ts, ?_, h3⟩
        simp only [Decoder.ahead, List.map_append, hdata, h4]
        simp only [List.append_assoc]
      | none =>
        have he : d.endOfInput = false := by
          rw [hpart rfl] at hpr
          simpa using hpr
        simp only [Decoder.beforeParse] at hg ⊢
        obtain ⟨t1, t2⟩ := extend_stream _ hok r
        revert hg t1 t2
        generalize extendBufSync ⟨d.buffer.data.drop removed, d.buffer.cap - removed⟩ r = z
        obtain ⟨z, b', r'⟩ := z
        intro hg t1 t2
        cases z with
        | error e =>
          obtain ⟨f1, f2, f3, f4⟩ := t1 _ _ _ rfl
          refine ⟨f1, ts, ?_, h3⟩
          simp only [Decoder.ahead, List.map_append, f2, hdata, h4, f3]
          simp only [List.append_assoc]
        | ok n =>
          obtain ⟨f1, new, f2, f3, f4, f5⟩ := t2 _ _ _ rfl
          simp only at hg ⊢
          obtain ⟨i1, x, i2, i3⟩ := ih _ r' f1 hg
          refine ⟨i1, ts ++ x, ?_, ?_⟩
          · rw [List.append_assoc, ← i2]
            simp only [Decoder.ahead, List.map_append, f2, hdata, h4, List.append_assoc]
            congr 2
            by_cases hnew : new = []
            · have := f4 hnew
              subst hnew
              have hn0 : n = 0 := f3
              subst hn0
              simp [this, he]
            · obtain ⟨hr, _⟩ := f5 hnew
              have hn0 : n ≠ 0 := by
                rw [f3]; intro h; exact hnew (List.length_eq_zero_iff.1 h)
              simp [if_neg hn0, he, hr]
          · rw [i3]; simp only; rw [h3, happ]

/-- **C43.**  After a message the decoder is at the position a parse of the whole would end at.  (`adv q x` is
the position after the tokens `x` from `q`.) -/
theorem C43_position (hF : S.Feedable) (hB : ByteSource S R tok mk) (hV : V.Lawful) (hp : Frag V p D k l) {adv : S.Pos → List S.Tok → S.Pos}
    (happ : ∀ q x y, adv (adv q x) y = adv q (x ++ y))
    (hpos : ∀ {b more q x j}, S.Reads (mk b more q) x j → S.position j = adv q x) (fuel n : Nat)
    (d : Decoder S.Pos σ) (r : Reader) (hb : d.buffer.Ok) (hs : d.state = p.init) (hf : r.stream.length + 1 < fuel)
    (hn : r.faults ≤ n) {c : Bool} {v : α} {j : S.Input}
    (h : p.answer (mk (d.ahead r) false d.position) = .ok c v j) :
    (decodeRetry R p mk fuel n d r).2.1.position = S.position j := by
  have hM := (frag_built hp).moves hF.lawful hV.ops
  obtain ⟨d', r', h1, h2⟩ := C43_message hF hB hp fuel n d r hb hs hf hn h
  have key : ∀ n (d : Decoder S.Pos σ) (r : Reader), d.buffer.Ok → going (decodeRetry R p mk fuel n d r).1 = true →
      let y := decodeRetry R p mk fuel n d r
      y.2.1.buffer.Ok ∧
      ∃ x, (d.ahead r).map tok = x ++ (y.2.1.ahead y.2.2).map tok ∧ y.2.1.position = adv d.position x := by
    intro n
    induction n with
    | zero =>
      intro d r hb hg
      exact loop_pos hF.lawful hB hM happ hpos fuel d r hb hg
    | succ n ih =>
      intro d r hb hg
      have hl := loop_pos hF.lawful hB hM happ hpos fuel d r hb
      simp only [decodeRetry] at hg ⊢
      generalize decodeLoop R p mk fuel d r = y at *
      obtain ⟨y, e, q⟩ := y
      cases y with
      | io er pos =>
        obtain ⟨g1, x, g2, g3⟩ := hl rfl
        obtain ⟨i1, x', i2, i3⟩ := ih e q g1 hg
        refine ⟨i1, x ++ x', ?_, ?_⟩
        · simp only at g2 i2 ⊢
          rw [g2, i2, List.append_assoc]
        · simp only at g3 i3 ⊢
          rw [i3, g3, happ]
      | ok v => exact hl hg
      | parse e => exact hl hg
      | abort a => exact hl hg
  obtain ⟨_, x, k1, k2⟩ := key n d r hb (by rw [h1]; rfl)
  rw [h1] at k1 k2 ⊢
  simp only at k1 k2 ⊢
  have hr := answer_of_den (frag_resumable hF hp) (mk (d.ahead r) false d.position)
  have hD := den_ok_of_answer (frag_resumable hF hp) h
  rw [hD] at hr
  obtain ⟨j', r1, ⟨y, r2⟩, r3⟩ := hr
  rw [h] at r1
  cases r1
  have hl := hF.lawful.left_reads r2
  rw [hB.left, k1, h2] at hl
  rw [k2, hpos r2, List.append_cancel_right hl]

/-! ## The usual inputs of `decode!` -/

/-- The buffer as a possibly partial byte slice. -/
theorem byteSource_maybe : ByteSource (maybeS (sliceS UInt8 1)) (maybeR (sliceR UInt8 1)) id
    (fun b more pos => (⟨pos, b⟩, more)) where
  left := fun _ _ _ => ((maybe_left _).trans (slice_left _ _)).trans (by simp)
  isPartial := fun _ _ _ => rfl
  distance := fun h => by
    obtain ⟨ts, h1, h2⟩ := byteInput_maybe.reads h
    obtain ⟨h3, _⟩ := slice_reads.1 (maybe_reads.1 h).1
    have := List.append_cancel_right (h1.symm.trans h3)
    rw [h2, this]

/-- … with any positioner on top. -/
theorem byteSource_position (X : Positioner UInt8 (List UInt8)) (E : ErrOps UInt8 (List UInt8) X.Pos)
    (convS : (sliceS UInt8 1).SErr → E.SErr) (conv : (sliceS UInt8 1).Err → E.Err) (start : X.Pos → X.X) :
    ByteSource (positionS (maybeS (sliceS UInt8 1)) X E convS conv)
      (positionR X E convS conv (maybeR (sliceR UInt8 1))) id
      (fun b more pos => ((⟨0, b⟩, more), start pos)) where
  left := fun _ _ _ => (position_left _).trans (((maybe_left _).trans (slice_left _ _)).trans (by simp))
  isPartial := fun _ _ _ => rfl
  distance := fun h => byteSource_maybe.distance (position_reads.1 h).1

/-- **C43** for line and column: after a message the decoder is at the position that the bytes of the message move
to, newline by newline, however they were read. -/
theorem C43_source_position {σ α : Type} {isNl : UInt8 → Bool} {E : ErrOps UInt8 (List UInt8) SourcePosition}
    {convS : (sliceS UInt8 1).SErr → E.SErr} {conv : (sliceS UInt8 1).Err → E.Err} (hE : E.Keeps)
    (hc : ∀ e, (sliceS UInt8 1).E.isEoiS e = true → E.isEoiS (convS e) = true) :
    let X := sourcePositioner UInt8 (List UInt8) isNl id
    let S := positionS (maybeS (sliceS UInt8 1)) X E convS conv
    let mk : List UInt8 → Bool → S.Pos → S.Input := fun b more pos => ((⟨0, b⟩, more), pos)
    ∀ {V : Ranges S} {p : Parser S σ α} {D : Den UInt8 α} {k l : Bool} (_ : V.Lawful) (_ : Frag V p D k l)
      (fuel n : Nat) (d : Decoder S.Pos σ) (r : Reader) (_ : d.buffer.Ok) (_ : d.state = p.init)
      (_ : r.stream.length + 1 < fuel) (_ : r.faults ≤ n) {c : Bool} {v : α} {x rest : List UInt8} {j : S.Input}
      (_ : d.ahead r = x ++ rest) (_ : p.answer (mk (d.ahead r) false d.position) = .ok c v j) (_ : S.left j = rest),
      (decodeRetry (positionR X E convS conv (maybeR (sliceR UInt8 1))) p mk fuel n d r).2.1.position =
        x.foldl (SourcePosition.update isNl) d.position := by
  intro X S mk V p D k l hV hp fuel n d r hb hs hf hn c v x rest j hx h hj
  have hF : S.Feedable := position_feedable (maybe_feedable (slice_feedable UInt8 (by decide))) hE
    (fun _ _ => rfl) (sourcePositioner_advances _ _ _ _) hc
  have hB : ByteSource S (positionR X E convS conv (maybeR (sliceR UInt8 1))) id mk :=
    byteSource_position X E convS conv id
  have hpos : ∀ {b more q x j}, S.Reads (mk b more q) x j → S.position j = x.foldl (SourcePosition.update isNl) q :=
    fun hr => (position_reads.1 hr).2
  have h1 := C43_position hF hB hV hp (adv := fun q x => x.foldl (SourcePosition.update isNl) q)
    (fun q x y => List.foldl_append.symm) hpos fuel n d r hb hs hf hn h
  rw [h1]
  have hr := answer_of_den (frag_resumable hF hp) (mk (d.ahead r) false d.position)
  rw [den_ok_of_answer (frag_resumable hF hp) h] at hr
  obtain ⟨j', r1, ⟨y, r2⟩, r3⟩ := hr
  rw [h] at r1
  cases r1
  have hl := hF.lawful.left_reads r2
  rw [hB.left, hx, hj, List.map_id] at hl
  rw [hpos r2, List.append_cancel_right hl]

/-! ## Examples -/

private abbrev B := maybeS (sliceS UInt8 1)
private abbrev RB : RangeOps B := maybeR (sliceR UInt8 1)
private def VB : Ranges B := ⟨RB, id, fun _ => 1, id, fun _ => [], fun _ => 0⟩
private abbrev mkB (b : List UInt8) (more : Bool) (pos : Nat) : B.Input := (⟨pos, b⟩, more)
private def isDigit (b : UInt8) : Bool := 48 ≤ b && b ≤ 57

private theorem feedable_B : B.Feedable := maybe_feedable (slice_feedable UInt8 (by decide))
private theorem lawful_VB : VB.Lawful := ⟨(maybeR_units (sliceR_units UInt8 1)).lawful, fun _ => rfl⟩

/-- A number ended by `;`. -/
private def number := skip (takeWhile1 RB isDigit) (token B 59)

private theorem number_frag : ∃ D, Frag VB number D true true :=
  ⟨_, Frag.skip (Frag.takeWhile1 _ lawful_VB) (Frag.token (S := B) 59) (r' := true)
        fun _ => ⟨rfl, (Den.consuming_span1 _ _).firm _⟩⟩

private def fresh {σ α : Type} (p : Parser B σ α) : Decoder B.Pos σ := ⟨(0 : Nat), p.init, .empty, false⟩

-- "12;7;9": two messages, in any reads, and what is left
example (r : Reader) (h : r.stream = [49, 50, 59, 55, 59, 57]) :
    ∃ d' r', decodeMany RB number mkB 9 r.faults 2 (fresh number) r = ([.ok [49, 50], .ok [55]], d', r') ∧
      d'.ahead r' = [57] := by
  obtain ⟨D, hp⟩ := number_frag
  have hm : Messages number id mkB ((fresh number).ahead r) [[49, 50], [55]] [57] := by
    have : (fresh number).ahead r = [49, 50, 59, 55, 59, 57] := h
    rw [this]
    refine .cons (pos := (0 : Nat)) (bs' := [55, 59, 57]) (c := true) (j := (⟨3, [55, 59, 57]⟩, false)) rfl ?_ ?_
    · exact ((maybe_left _).trans (slice_left _ _)).trans (by simp)
    · refine .cons (pos := (0 : Nat)) (bs' := [57]) (c := true) (j := (⟨2, [57]⟩, false)) rfl ?_ (.nil _)
      exact ((maybe_left _).trans (slice_left _ _)).trans (by simp)
  obtain ⟨d', r', h1, h2⟩ := C46_messages feedable_B byteSource_maybe hp 9 r.faults (fresh number) r (Nat.le_refl 0) rfl
    (by rw [h]; decide) (Nat.le_refl _) hm
  exact ⟨d', r', h1, by simpa using h2⟩
example : (decodeMany RB number mkB 9 1 2 (fresh number) [.ok [49], .error "e", .ok [50, 59, 55], .ok [59, 57]]).1 =
    [.ok [49, 50], .ok [55]] := by rfl

-- a rejected message: "x", in any reads
example (r : Reader) (h : r.stream = [120]) (n : Nat) (v : List UInt8) :
    (decodeRetry RB number mkB 9 n (fresh number) r).1 ≠ .ok v := by
  obtain ⟨D, hp⟩ := number_frag
  have : (fresh number).ahead r = [120] := h
  exact C43_reject feedable_B byteSource_maybe hp 9 n (fresh number) r (Nat.le_refl 0) rfl (pos := (0 : Nat))
    (by rw [this]; rfl) v

-- lines and columns: "1\n2;" in three reads ends at line 2, column 3
private abbrev X := sourcePositioner UInt8 (List UInt8) (· == 10) id
private abbrev EP := UnexpectedParse.ops UInt8 (List UInt8) SourcePosition ⟨1, 1⟩
private abbrev P := positionS B X EP id id
private abbrev RP : RangeOps P := positionR X EP id id RB
private def VP : Ranges P := ⟨RP, id, fun _ => 1, id, fun _ => [], fun _ => 0⟩
private theorem lawful_VP : VP.Lawful :=
  ⟨(positionR_units (maybeR_units (sliceR_units UInt8 1)) (sourcePositioner_lawful _ _ _ _) (fun _ h => h)).lawful,
    fun _ => rfl⟩
private def line := skip (takeWhile1 RP (fun b => isDigit b || b == 10)) (token P 59)
private abbrev mkP (b : List UInt8) (more : Bool) (pos : P.Pos) : P.Input := ((⟨0, b⟩, more), pos)

private theorem line_frag : ∃ D, Frag VP line D true true :=
  ⟨_, Frag.skip (Frag.takeWhile1 _ lawful_VP) (Frag.token (S := P) 59) (r' := true)
        fun _ => ⟨rfl, (Den.consuming_span1 _ _).firm _⟩⟩

example (r : Reader) (h : r.stream = [49, 10, 50, 59, 120]) :
    (decodeRetry RP line mkP 9 r.faults ⟨⟨1, 1⟩, line.init, .empty, false⟩ r).2.1.position = ⟨2, 3⟩ := by
  obtain ⟨D, hp⟩ := line_frag
  have ha : (⟨⟨1, 1⟩, line.init, .empty, false⟩ : Decoder P.Pos _).ahead r = [49, 10, 50, 59, 120] := h
  exact C43_source_position (unexpectedParse_keeps _ _ _ _) (fun _ h => h) lawful_VP hp 9 r.faults
    ⟨⟨1, 1⟩, line.init, .empty, false⟩ r (Nat.le_refl 0) rfl
    (by rw [h]; decide) (Nat.le_refl _) (x := [49, 10, 50, 59]) (rest := [120]) (c := true) (v := [49, 10, 50])
    (j := ((⟨4, [120]⟩, false), ⟨2, 3⟩)) ha (by rw [ha]; rfl)
    ((position_left _).trans ((maybe_left _).trans (slice_left _ _)))

/-! ## Deviations -/

private def sign := optional (token B 45)
private def digit := satisfy B isDigit
/-- Digits with signs, ended by `;`. -/
private def signed := tuple (many (tuple sign (.cons digit .nil))) (.cons (token B 59) .nil)

/-- Deviation from C46: the state a repetition leaves in a sequence that failed without consuming anything spoils the
next message, even if both arrive in one read.  "1;-2;" is two messages, the second of which `decode!` rejects:
`optional('-')` is not asked again. -/
theorem C46_stale_sequence :
    (∃ rest, Messages signed id mkB [49, 59, 45, 50, 59] [([(none, 49, ())], 59, ()), ([(some 45, 50, ())], 59, ())] rest) ∧
    (∃ e, (decodeMany RB signed mkB 9 0 2 (fresh signed) [.ok [49, 59, 45, 50, 59]]).1 =
      [.ok ([(none, 49, ())], 59, ()), .parse e]) := by
  refine ⟨⟨[], ?_⟩, _, rfl⟩
  refine .cons (pos := (0 : Nat)) (bs' := [45, 50, 59]) (c := true) (j := (⟨2, [45, 50, 59]⟩, false)) rfl ?_ ?_
  · exact ((maybe_left _).trans (slice_left _ _)).trans (by simp)
  · refine .cons (pos := (0 : Nat)) (bs' := []) (c := true) (j := (⟨3, []⟩, false)) rfl ?_ (.nil _)
    exact ((maybe_left _).trans (slice_left _ _)).trans (by simp)

/-- Deviation: after a parse error the decoder's position is that of the failure but its buffer is not advanced, so
that positions after a retry are wrong.  On "1x" the position is 2 (the sequence reads the offending token to
describe it) and both bytes are still in the buffer. -/
theorem C43_error_position :
    let x := decodeLoop RB number mkB 9 (fresh number) [.ok [49, 120]]
    (∃ e, x.1 = .parse e) ∧ x.2.1.buffer.data = [49, 120] ∧ x.2.1.position = (2 : Nat) :=
  ⟨⟨_, rfl⟩, rfl, rfl⟩

end Verif
