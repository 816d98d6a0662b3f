import Verif.Props.Framed

/-!
# C51: the frames of a codec that knows of no end

The codec of examples/async.rs: `decode` on a `PartialStream`, and the `decode_eof` of `tokio_util`.
-/

namespace Verif

variable {S : Strm} {R : RangeOps S} {tok : UInt8 → S.Tok} {mk : List UInt8 → Bool → S.Pos → S.Input} {σ α : Type}
  {p : Parser S σ α} {D : Den S.Tok α}

/-- What is known between two calls of the codec: `w` has been absorbed by the parser's state, and `w`, the buffer and
what the reader will give have the outcome `o`. -/
private structure Mid (D : Den S.Tok α) (Rep : σ → List S.Tok → List S.Tok → Prop) (tok : UInt8 → S.Tok)
    (o : Outcome S.Tok α) (d : Decoder S.Pos σ) (r : Reader) (w u : List S.Tok) : Prop where
  ok : d.buffer.Ok
  rep : Rep d.state w u
  seen : u <+: d.buffer.data.map tok
  whole : D true (w ++ (d.ahead r).map tok) = o

private theorem next_mid (hS : S.Lawful) (hB : ByteSource S R tok mk) {k l : Bool} {Ready : σ → Prop}
    {Rep : σ → List S.Tok → List S.Tok → Prop} (h : Resumes true p D k l Ready Rep) {o : Outcome S.Tok α}
    (ho : o ≠ .soft) (ho' : o ≠ .hard) (fuel : Nat) (d : Decoder S.Pos σ) (r : Reader) (w u : List S.Tok)
    (hd : Mid D Rep tok o d r w u) (hf : d.reads r < fuel) :
    (∃ c v rest d' r', o = .ok c v rest ∧ PartialCodec.next R p mk fuel d r = (.item v, d', r') ∧
      (d'.ahead r').map tok = rest ∧ d'.buffer.Ok ∧ d'.faults r' ≤ d.faults r ∧ d'.reads r' ≤ d.reads r ∧
      (k = true → Ready d'.state)) ∨
    (o = .pend ∧ ((PartialCodec.next R p mk fuel d r).1 = .done ∨
      (PartialCodec.next R p mk fuel d r).1 = .remaining ∧ d.ahead r ≠ [])) ∨
    (∃ e pos d' r' w' u', PartialCodec.next R p mk fuel d r = (.io e pos, d', r') ∧
      Mid D Rep tok o d' r' w' u' ∧ d'.faults r' < d.faults r ∧ d'.reads r' ≤ d.reads r ∧
      (d.ahead r = [] → d'.ahead r' = [])) := by
  induction fuel generalizing d r w u with
  | zero => omega
  | succ fuel ih =>
    have hl := hB.left d.buffer.data true d.position
    have hp := hB.isPartial d.buffer.data true d.position
    simp only [PartialCodec.next, decode]
    generalize mk d.buffer.data true d.position = i at hl hp ⊢
    have hst := h.resume i hp hd.rep (by rw [hl]; exact hd.seen)
    have hadv : ∀ {x j}, S.Reads i x j → ∃ b, d.buffer.advance (R.distance j (S.checkpoint i)) = some b ∧ b.Ok ∧
        b.data.map tok = S.left j ∧ d.buffer.data.map tok = x ++ S.left j ∧ (d.buffer.data = [] → b.data = []) := by
      intro x j hr
      have h1 := hS.left_reads hr
      rw [hl] at h1
      have h2 := hB.distance hr
      have h3 := congrArg List.length h1
      rw [List.length_map, List.length_append] at h3
      refine ⟨⟨d.buffer.data.drop x.length, d.buffer.cap - x.length⟩, ?_, ?_, ?_, h1, fun h => by rw [h]; exact List.drop_nil⟩
      · unfold BytesMut.advance
        rw [h2, if_pos (by omega)]
      · have := hd.ok
        unfold BytesMut.Ok at this ⊢
        simp only [List.length_drop]; omega
      · dsimp only
        rw [List.map_drop, h1, List.drop_left]
    rw [hp, hl] at hst
    have hw := hd.whole
    unfold Decoder.ahead at hw
    rw [List.map_append, ← List.append_assoc] at hw
    have hstab := h.good.stable (w ++ d.buffer.data.map tok) ((if d.endOfInput then [] else r.stream).map tok) true
    cases hD : D true (w ++ d.buffer.data.map tok) with
    | ok c v z =>
      rw [hD] at hst hstab
      rw [hstab (by simp)] at hw
      obtain ⟨⟨c'', h1, _⟩, ⟨x, h2⟩, h3, h4⟩ := hst
      obtain ⟨b, g1, g2, g3, _⟩ := hadv h2
      left
      rw [parseWithState_ok h1]
      simp only [g1]
      refine ⟨_, _, _, _, _, hw.symm, rfl, ?_, g2, Nat.le_refl _, Nat.le_refl _, h4⟩
      simp only [Decoder.ahead, List.map_append, g3, h3]
    | soft => rw [hD] at hstab; rw [hstab (by simp)] at hw; exact absurd hw.symm ho
    | hard => rw [hD] at hstab; rw [hstab (by simp)] at hw; exact absurd hw.symm ho'
    | pend =>
      rw [hD] at hst
      obtain ⟨e, x, h1, h2, h3, h4⟩ := hst
      obtain ⟨b, g1, g2, g3, g4, g5⟩ := hadv h3
      rw [parseWithState_err h1]
      have hpj : S.isPartial (p.run false i d.state).inp = true := by
        rw [hS.reach_isPartial ⟨_, h3⟩, hp]
      simp only [h2, hpj, if_true, g1]
      cases he : d.endOfInput with
      | true =>
        right; left
        rw [he] at hw
        simp only [if_true, List.map_nil, List.append_nil] at hw ⊢
        refine ⟨by rw [← hw, hD], ?_⟩
        cases hbd : b.data with
        | nil => left; rfl
        | cons y ys =>
          right
          refine ⟨rfl, fun h => ?_⟩
          rw [g5 (List.append_eq_nil_iff.1 h).1] at hbd
          cases hbd
      | false =>
        simp only [Bool.false_eq_true, if_false, Decoder.beforeParse]
        rw [he] at hw
        simp only [Bool.false_eq_true, if_false] at hw
        obtain ⟨t1, t2⟩ := extend_stream b g2 r
        generalize hz : extendBufSync b r = z at t1 t2
        obtain ⟨z, b', r'⟩ := z
        have had : d.ahead r = d.buffer.data ++ r.stream := by unfold Decoder.ahead; rw [he]; simp
        have hempty : d.ahead r = [] → b.data = [] ∧ r.stream = [] := fun h => by
          rw [had] at h
          have := List.append_eq_nil_iff.1 h
          exact ⟨g5 this.1, this.2⟩
        cases z with
        | error e' =>
          obtain ⟨f1, f2, f3, f4⟩ := t1 _ _ _ rfl
          right; right
          refine ⟨_, _, _, _, w ++ x, S.left (p.run false i d.state).inp, rfl, ⟨f1, h4, ?_, ?_⟩, ?_, ?_, ?_⟩
          · simp only [f2, g3]; exact List.prefix_rfl
          · simp only [Decoder.ahead, Bool.false_eq_true, if_false, List.map_append, f2, f3, g3]
            rw [← hw, g4]; simp only [List.append_assoc]
          · simp only [Decoder.faults, he, Bool.false_eq_true, if_false]; omega
          · simp only [Decoder.reads, he, Bool.false_eq_true, if_false, f3]; exact Nat.le_refl _
          · intro h
            obtain ⟨a1, a2⟩ := hempty h
            simp only [Decoder.ahead, Bool.false_eq_true, if_false, f2, f3, a1, a2, List.append_nil]
        | ok n =>
          obtain ⟨f1, new, f2, f3, f4, f5⟩ := t2 _ _ _ rfl
          by_cases hn : new = []
          · have hr := f4 hn
            subst hn
            have hn0 : n = 0 := f3
            subst hn0
            rw [hr, List.map_nil, List.append_nil] at hw
            rw [List.append_nil] at f2
            simp only [if_true]
            have := ih ⟨S.position (p.run false i d.state).inp, (p.run false i d.state).st, b', true⟩ r' (w ++ x)
              (S.left (p.run false i d.state).inp) ⟨f1, h4, by simp only [f2, g3]; exact List.prefix_rfl, ?_⟩ ?_
            · rcases this with ⟨c, v, z, d', r'', k0, k1, k2, k3, k4, k5, k6⟩ | ⟨k1, k2⟩ | ⟨e, pos, d', r'', w', u', k1, k2, k3, k4⟩
              · rw [← hw, hD] at k0; cases k0
              · right; left
                refine ⟨k1, k2.imp id fun k => ⟨k.1, fun h => k.2 ?_⟩⟩
                simp only [Decoder.ahead, if_true, f2, (hempty h).1, List.append_nil]
              · exact absurd k3 (Nat.not_lt_zero _)
            · simp only [Decoder.ahead, if_true, List.append_nil, f2, g3]
              rw [← hw, g4]; simp only [List.append_assoc]
            · simp only [Decoder.reads, he, Bool.false_eq_true, if_false, if_true] at hf ⊢
              omega
          · obtain ⟨hr, hfl⟩ := f5 hn
            have hn0 : n ≠ 0 := by
              rw [f3]; intro h; exact hn (List.length_eq_zero_iff.1 h)
            have hne : d.ahead r ≠ [] := fun h => by
              have := (hempty h).2
              rw [hr] at this
              exact hn (List.append_eq_nil_iff.1 this).1
            simp only [if_neg hn0]
            have := ih ⟨S.position (p.run false i d.state).inp, (p.run false i d.state).st, b', false⟩ r' (w ++ x)
              (S.left (p.run false i d.state).inp) ⟨f1, h4, by simp only [f2, List.map_append, g3]; exact List.prefix_append _ _, ?_⟩ ?_
            · have e1 : d.faults r = r.faults := by simp only [Decoder.faults, he, Bool.false_eq_true, if_false]
              have e2 : d.reads r = r.stream.length + 1 := by simp only [Decoder.reads, he, Bool.false_eq_true, if_false]
              simp only [Decoder.faults, Decoder.reads, Bool.false_eq_true, if_false] at this
              rw [e1, e2]
              rw [hr, List.length_append, ← hfl]
              rcases this with ⟨c, v, z, d', r'', k0, k1, k2, k3, k4, k5, k6⟩ | ⟨k1, k2⟩ | ⟨e, pos, d', r'', w', u', k1, k2, k3, k4, k5⟩
              · have : o = .ok c v z := k0
                exact .inl ⟨c, v, z, d', r'', this, k1, k2, k3, k4, Nat.le_trans k5 (by omega), k6⟩
              · exact .inr (.inl ⟨k1, k2.imp id fun k => ⟨k.1, hne⟩⟩)
              · exact .inr (.inr ⟨e, pos, d', r'', w', u', k1, k2, k3, Nat.le_trans k4 (by omega), fun h => absurd h hne⟩)
            · simp only [Decoder.ahead, Bool.false_eq_true, if_false, f2, List.map_append, g3]
              rw [← hw, g4, hr]; simp only [List.append_assoc, List.map_append]
            · have := List.length_pos_iff.2 hn
              simp only [Decoder.reads, he, Bool.false_eq_true, if_false, hr, List.length_append] at hf ⊢
              omega

private theorem retry_mid (hS : S.Lawful) (hB : ByteSource S R tok mk) {k l : Bool} {Ready : σ → Prop}
    {Rep : σ → List S.Tok → List S.Tok → Prop} (h : Resumes true p D k l Ready Rep) {o : Outcome S.Tok α}
    (ho : o ≠ .soft) (ho' : o ≠ .hard) (fuel n : Nat) (d : Decoder S.Pos σ) (r : Reader) (w u : List S.Tok)
    (hd : Mid D Rep tok o d r w u) (hf : d.reads r < fuel) (hn : d.faults r ≤ n) :
    (∃ c v rest d' r', o = .ok c v rest ∧ PartialCodec.retry R p mk fuel n d r = (.item v, d', r') ∧
      (d'.ahead r').map tok = rest ∧ d'.buffer.Ok ∧ d'.faults r' ≤ d.faults r ∧ d'.reads r' ≤ d.reads r ∧
      (k = true → Ready d'.state)) ∨
    (o = .pend ∧ ((PartialCodec.retry R p mk fuel n d r).1 = .done ∨
      (PartialCodec.retry R p mk fuel n d r).1 = .remaining ∧ d.ahead r ≠ [])) := by
  induction n generalizing d r w u with
  | zero =>
    rcases next_mid hS hB h ho ho' fuel d r w u hd hf with h1 | h1 | ⟨e, pos, d', r', w', u', k1, k2, k3, k4⟩
    · exact .inl h1
    · exact .inr h1
    · omega
  | succ n ih =>
    simp only [PartialCodec.retry]
    rcases next_mid hS hB h ho ho' fuel d r w u hd hf with ⟨c, v, z, d', r', h0, h1, h2⟩ | ⟨h1, h2⟩ |
      ⟨e, pos, d', r', w', u', k1, k2, k3, k4, k5⟩
    · rw [h1]; exact .inl ⟨c, v, z, d', r', h0, rfl, h2⟩
    · refine .inr ⟨h1, ?_⟩
      generalize PartialCodec.next R p mk fuel d r = x at h2
      obtain ⟨x, d', r'⟩ := x
      dsimp only at h2
      rcases h2 with rfl | ⟨rfl, h2⟩
      · exact .inl rfl
      · exact .inr ⟨rfl, h2⟩
    · rw [k1]
      dsimp only
      rcases ih d' r' w' u' k2 (by omega) (by omega) with ⟨c, v, z, d'', r'', j0, j1, j2, j3, j4, j5, j6⟩ | ⟨j1, j2⟩
      · exact .inl ⟨c, v, z, d'', r'', j0, j1, j2, j3, by omega, by omega, j6⟩
      · exact .inr ⟨j1, j2.imp id fun j => ⟨j.1, fun h => j.2 (k5 h)⟩⟩

private theorem frames_mid (hF : S.Feedable) (hB : ByteSource S R tok mk) {l : Bool} {Ready : Bool → σ → Prop}
    {Rep : Bool → σ → List S.Tok → List S.Tok → Prop} (hr : ∀ live, Resumes live p D true l (Ready live) (Rep live))
    (hm' : ∀ s, Ready true s → Ready false s)
    (hm : ∀ s w u, Rep true s w u → Rep false s w u) (fuel n : Nat) {bs rest : List UInt8} {vs : List α}
    (h : OpenMessages p mk tok bs vs rest) (d : Decoder S.Pos σ) (r : Reader) (hb : d.buffer.Ok)
    (hs : Ready true d.state) (ha : (d.ahead r).map tok = bs.map tok) (hf : d.reads r < fuel) (hn : d.faults r ≤ n) :
    ∃ d' r', PartialCodec.frames R p mk fuel n vs.length d r = (vs.map .item, d', r') ∧
      (d'.ahead r').map tok = rest.map tok ∧ d'.buffer.Ok ∧ d'.faults r' ≤ n ∧ d'.reads r' < fuel ∧ Ready true d'.state := by
  induction h generalizing d r with
  | nil bs => exact ⟨d, r, rfl, ha, hb, hn, hf, hs⟩
  | @cons bs bs' rest pos c v j vs h1 h2 _ ih =>
    have hD := den_ok_of_answer ⟨Ready, Rep, hr, hm', hm⟩ h1
    rw [hB.left, hB.isPartial, ← ha] at hD
    rcases retry_mid hF.lawful hB (hr true) (by simp) (by simp) fuel n d r [] []
      ⟨hb, (hr _).ready_rep hs, List.nil_prefix, hD⟩ hf hn with ⟨c, v, z, d', r', j0, j1, j2, j3, j4, j5, j6⟩ | ⟨j1, j2⟩
    · cases j0
      obtain ⟨d'', r'', i1, i2⟩ := ih d' r' j3 (j6 rfl) (j2.trans h2) (by omega) (by omega)
      refine ⟨d'', r'', ?_, i2⟩
      simp only [PartialCodec.frames, List.length_cons, j1, i1, List.map_cons]
    · cases j1

private theorem frames_add (fuel n m k : Nat) (d : Decoder S.Pos σ) (r : Reader) :
    PartialCodec.frames R p mk fuel n (m + k) d r =
      let x := PartialCodec.frames R p mk fuel n m d r
      let y := PartialCodec.frames R p mk fuel n k x.2.1 x.2.2
      (x.1 ++ y.1, y.2) := by
  induction m generalizing d r with
  | zero => simp [PartialCodec.frames]
  | succ m ih =>
    rw [Nat.add_right_comm]
    simp only [PartialCodec.frames]
    rw [ih]
    rfl

variable [DecidableEq S.Tok] [DecidableEq S.Rng] {V : Ranges S} {l : Bool}

/-- **C51.**  If the bytes to come start with the messages `vs`, each recognised without knowing whether bytes follow it,
the codec gives these as its next frames, however the bytes are read and however often reading fails. -/
theorem C51_open_messages (hF : S.Feedable) (hB : ByteSource S R tok mk) (hp : Frag V p D true l) (fuel n : Nat)
    (d : Decoder S.Pos σ) (r : Reader) (hb : d.buffer.Ok) (hs : d.state = p.init) (hf : r.stream.length + 1 < fuel)
    (hn : r.faults ≤ n) {vs : List α} {rest : List UInt8} (h : OpenMessages p mk tok (d.ahead r) vs rest) :
    ∃ d' r', PartialCodec.frames R p mk fuel n vs.length d r = (vs.map .item, d', r') ∧
      (d'.ahead r').map tok = rest.map tok := by
  obtain ⟨Ready, Rep, hr, hm', hm⟩ := frag_resumable hF hp
  obtain ⟨d', r', h1, h2, _⟩ := frames_mid hF hB hr hm' hm fuel n h d r hb (hs ▸ (hr _).ready_init) rfl
    (Nat.lt_of_le_of_lt (Decoder.reads_le d r) hf) (Nat.le_trans (Decoder.faults_le d r) hn)
  exact ⟨d', r', h1, h2⟩

/-- **C51.**  If after the messages `vs` the stream ends, possibly within a message (`hD`: the parser asks for more), then
after these the codec gives the end or reports that bytes remain; and nothing but the end if there are no bytes left. -/
theorem C51_open_all (hF : S.Feedable) (hB : ByteSource S R tok mk) (hp : Frag V p D true l) (fuel n : Nat)
    (d : Decoder S.Pos σ) (r : Reader) (hb : d.buffer.Ok) (hs : d.state = p.init) (hf : r.stream.length + 1 < fuel)
    (hn : r.faults ≤ n) {vs : List α} {rest : List UInt8} (h : OpenMessages p mk tok (d.ahead r) vs rest)
    (hD : D true (rest.map tok) = .pend) :
    (PartialCodec.frames R p mk fuel n (vs.length + 1) d r).1 = vs.map .item ++ [.done] ∨
    rest ≠ [] ∧ (PartialCodec.frames R p mk fuel n (vs.length + 1) d r).1 = vs.map .item ++ [.remaining] := by
  obtain ⟨Ready, Rep, hr, hm', hm⟩ := frag_resumable hF hp
  obtain ⟨d', r', h1, h2, h3, h4, h5, h6⟩ := frames_mid hF hB hr hm' hm fuel n h d r hb (hs ▸ (hr _).ready_init) rfl
    (Nat.lt_of_le_of_lt (Decoder.reads_le d r) hf) (Nat.le_trans (Decoder.faults_le d r) hn)
  rw [← h2] at hD
  rw [frames_add, h1]
  simp only [PartialCodec.frames]
  rcases retry_mid hF.lawful hB (hr true) (by simp) (by simp) fuel n d' r' [] []
    ⟨h3, (hr _).ready_rep h6, List.nil_prefix, hD⟩ h5 h4 with ⟨c, v, z, d', r', j0, _⟩ | ⟨_, j⟩
  · cases j0
  · rcases j with j | ⟨j, j'⟩
    · left; rw [j]
    · right
      refine ⟨fun h => j' ?_, by rw [j]⟩
      rw [h] at h2
      exact List.map_eq_nil_iff.1 h2

end Verif
