import Verif.Props.UntilChunks

/-!
# C14: `repeat_until` with a stateless end parser, in pieces
-/

namespace Verif

namespace Hunt

variable {T α : Type}

/-- With more tokens behind. -/
def extend (x : List T) : Hunt T α → Hunt T α
  | found vs r => found vs (r ++ x)
  | more => more
  | lost => lost

/-- The same where an element has been begun. -/
def inside (F : Bool → List T → Sight) (D : Den T α) (live : Bool) (a : List T) : Hunt T α :=
  match D live a with
  | .ok _ v r => (seek F D live r).pre [v]
  | .pend => more
  | _ => lost

variable {F : Bool → List T → Sight} {D : Den T α}

theorem seekN_enough (hc : D.Consuming) (live : Bool) : ∀ (n m : Nat) (a : List T), a.length < n → a.length < m →
    seekN F D n live a = seekN F D m live a := by
  intro n
  induction n with
  | zero => intro m a h; omega
  | succ n ih =>
    intro m a h1 h2
    cases m with
    | zero => omega
    | succ m =>
      simp only [seekN]
      cases F live a with
      | absent =>
        cases hd : D live a with
        | ok c v r =>
          have := hc _ _ _ _ _ hd
          simp only []
          rw [ih m r (by omega) (by omega)]
        | _ => rfl
      | _ => rfl

theorem seek_eq (hc : D.Consuming) (live : Bool) (a : List T) :
    seek F D live a = match F live a with
      | .found => found [] a
      | .unknown => more
      | .broken => lost
      | .absent => inside F D live a := by
  unfold seek inside
  simp only [seekN]
  cases F live a with
  | absent =>
    cases hd : D live a with
    | ok c v r =>
      have := hc _ _ _ _ _ hd
      simp only [seek]
      rw [seekN_enough hc live a.length (r.length + 1) r (by omega) (by omega)]
    | _ => rfl
  | _ => rfl

theorem pre_pre (us vs : List α) (h : Hunt T α) : (h.pre vs).pre us = h.pre (us ++ vs) := by
  cases h <;> simp [pre]

theorem pre_nil (h : Hunt T α) : h.pre [] = h := by cases h <;> simp [pre]

theorem pre_extend (us : List α) (x : List T) (h : Hunt T α) : (h.pre us).extend x = (h.extend x).pre us := by cases h <;> rfl

/-- More input changes only what was undecided. -/
theorem seek_stable (hF : ∀ a x live, F true a ≠ .unknown → F live (a ++ x) = F true a) (hg : D.Good) (hc : D.Consuming)
    (live : Bool) (x : List T) : ∀ (n : Nat) (a : List T), a.length < n → seek F D true a ≠ more →
      seek F D live (a ++ x) = (seek F D true a).extend x := by
  intro n
  induction n with
  | zero => intro a h; omega
  | succ n ih =>
    intro a hn hm
    rw [seek_eq hc] at hm
    rw [seek_eq hc live, seek_eq hc true]
    cases hf : F true a with
    | found => rw [hF a x live (by rw [hf]; simp), hf]; rfl
    | broken => rw [hF a x live (by rw [hf]; simp), hf]; rfl
    | unknown => rw [hf] at hm; exact absurd rfl hm
    | absent =>
      rw [hf] at hm
      rw [hF a x live (by rw [hf]; simp), hf]
      simp only [inside] at hm ⊢
      cases hd : D true a with
      | ok c v r =>
        have := hc _ _ _ _ _ hd
        rw [hd] at hm
        simp only at hm
        rw [hg.stable a x live (by rw [hd]; simp), hd]
        simp only [Outcome.extend]
        rw [ih r (by omega) (by intro h; rw [h] at hm; exact hm rfl), pre_extend]
      | pend => rw [hd] at hm; exact absurd rfl hm
      | soft => rw [hg.stable a x live (by rw [hd]; simp), hd]; rfl
      | hard => rw [hg.stable a x live (by rw [hd]; simp), hd]; rfl

end Hunt

variable {S : Strm} {σ α β : Type}

/-- What is known of the state when more input was asked for: `w` has been read since the elements were `out`, `u` was seen. -/
private def Held (F : Bool → List S.Tok → Sight) (D : Den S.Tok α) (Ready : σ → Prop) (Rep : σ → List S.Tok → List S.Tok → Prop)
    (out : List α) (st : RepeatSt σ Unit α) (w u : List S.Tok) : Prop :=
  (st.isParse = false ∧ Ready st.parseSt ∧
    ∀ live z, u <+: z → (Hunt.seek F D live (w ++ z)).pre out = (Hunt.seek F D live z).pre st.output) ∨
  (st.isParse = true ∧ ∃ w₁ w₂, w = w₁ ++ w₂ ∧ Rep st.parseSt w₂ u ∧
    ∀ live z, u <+: z → (Hunt.seek F D live (w ++ z)).pre out = (Hunt.inside F D live (w₂ ++ z)).pre st.output)

/-- What one call does. -/
private def Does (h : Hunt S.Tok α) (held : RepeatSt σ Unit α → List S.Tok → List S.Tok → Prop) (i : S.Input)
    (o : Out S (RepeatSt σ Unit α) (List α)) : Prop :=
  match h with
  | .found vs r => (∃ c, o.res = okRes c vs) ∧ S.left o.inp = r
  | .more => S.isPartial i = true → ∃ e x, o.res = .commitErr e ∧ S.E.isEoi e = true ∧ S.Reads i x o.inp ∧ held o.st x (S.left o.inp)
  | .lost => True

private theorem loop_does (hF : S.Feedable) {p : Parser S σ α} {e : Parser S Unit β} {F : Bool → List S.Tok → Sight}
    (he : Sees e F) {D : Den S.Tok α} {r : Bool} {Ready : σ → Prop} {Rep : σ → List S.Tok → List S.Tok → Prop} {live : Bool}
    (hp : Resumes live p D true r Ready Rep) (hc : D.Consuming) (n : Nat) :
    ∀ (m : Bool) (c : Commit Unit) (i : S.Input) (out : List α) (s : σ), S.isPartial i = live → Ready s → 2 * S.size i + 2 ≤ n →
      let o := repeatUntilLoop p e n m c i ⟨out, false, s, ()⟩
      Does ((Hunt.seek F D live (S.left i)).pre out) (Held F D Ready Rep out) i o ∧
      (Hunt.seek F D live (S.left i) = .lost → ∀ c v, o.res ≠ okRes c v) ∧
      (Hunt.seek F D live (S.left i) = .more → ∀ c v, o.res ≠ okRes c v) := by
  have hS := hF.lawful
  induction n using Nat.strongRecOn with
  | ind n ih =>
  intro m c i out s hL hs hn
  obtain ⟨n, rfl⟩ : ∃ k, n = k + 2 := ⟨n - 2, by omega⟩
  have h1 := he.sees i
  have h2 := he.moves.run true i ()
  unfold repeatUntilLoop
  simp only [Bool.false_eq_true, if_false, he.mode m i]
  rw [Hunt.seek_eq hc]
  unfold Parser.answer Out.answer at h1
  revert h1 h2
  rw [hL]
  change (match F live (S.left i) with
    | .found => ∃ c v j, Answer.of (e.run true i ()).res (e.run true i ()).inp = .ok c v j
    | .absent => Answer.of (e.run true i ()).res (e.run true i ()).inp = .soft
    | .unknown => ∃ x, Answer.of (e.run true i ()).res (e.run true i ()).inp = .hard x ∧ S.E.isEoi x = true
    | .broken => ∃ x, Answer.of (e.run true i ()).res (e.run true i ()).inp = .hard x) → _
  generalize e.run true i () = o
  obtain ⟨q, j, u⟩ := o
  intro h1 h2
  cases hf : F live (S.left i) with
  | found =>
    rw [hf] at h1
    obtain ⟨c', v, j', h1⟩ := h1
    refine ⟨?_, nofun, nofun⟩
    simp only [Hunt.pre, List.append_nil, Does]
    cases q with
    | commitOk y =>
      simp only [ParseResult.toStd]
      rw [hS.tryReset_eq h2]
      cases c <;> exact ⟨⟨true, rfl⟩, rfl⟩
    | peekOk y =>
      simp only [ParseResult.toStd]
      rw [hS.tryReset_eq h2]
      cases c
      · exact ⟨⟨true, rfl⟩, rfl⟩
      · exact ⟨⟨false, rfl⟩, rfl⟩
    | _ => cases h1
  | unknown =>
    rw [hf] at h1
    obtain ⟨x, h1, hx⟩ := h1
    cases q with
    | commitErr y =>
      cases h1
      simp only [ParseResult.toStd]
      rw [hS.tryReset_eq h2]
      refine ⟨fun _ => ⟨_, [], rfl, hx, .nil i, .inl ⟨rfl, hs, fun _ _ _ => rfl⟩⟩, nofun, fun _ c v h => ?_⟩
      cases c <;> cases h
    | _ => cases h1
  | broken =>
    rw [hf] at h1
    obtain ⟨x, h1⟩ := h1
    cases q with
    | commitErr y =>
      simp only [ParseResult.toStd]
      rw [hS.tryReset_eq h2]
      refine ⟨trivial, fun _ c v h => ?_, nofun⟩
      cases c <;> cases h
    | _ => cases h1
  | absent =>
    rw [hf] at h1
    cases q with
    | peekErr y =>
      simp only [ParseResult.toStd]
      rw [hS.tryReset_eq h2]
      unfold repeatUntilLoop
      simp only [if_true]
      have h3 := hp.first i hL hs
      have h4 := hp.first_hard true i hL hs
      rw [hL] at h3 h4
      simp only [Hunt.inside]
      revert h3 h4
      generalize p.run true i s = o
      obtain ⟨q, k, s'⟩ := o
      intro h3 h4
      cases hd : D live (S.left i) with
      | ok c' v l =>
        rw [hd] at h3
        obtain ⟨⟨c'', h5, h6⟩, h7, h8, h9⟩ := h3
        have hlen := hc _ _ _ _ _ hd
        simp only at h5 h7 h8 h9
        obtain ⟨ts, hts⟩ := h7
        have hsz := hS.reads_size hts
        have hl := hS.left_reads hts
        have hpos : 0 < ts.length := by
          rw [← h8, hl, List.length_append] at hlen; omega
        have hLk : S.isPartial k = live := by rw [← hL]; exact hS.reads_isPartial hts
        have key : ∀ c, _ := fun c => ih n (by omega) true c k (out ++ [v]) s' hLk (h9 rfl) (by omega)
        subst h8
        have fin : ∀ c, let o := repeatUntilLoop p e n true c k ⟨out ++ [v], false, s', ()⟩
            Does (((Hunt.seek F D live (S.left k)).pre [v]).pre out) (Held F D Ready Rep out) i o ∧
            ((Hunt.seek F D live (S.left k)).pre [v] = .lost → ∀ c v, o.res ≠ okRes c v) ∧
            ((Hunt.seek F D live (S.left k)).pre [v] = .more → ∀ c v, o.res ≠ okRes c v) := by
          intro c
          obtain ⟨k1, k2, k3⟩ := key c
          refine ⟨?_, fun h => k2 ?_, fun h => k3 ?_⟩
          · rw [Hunt.pre_pre]
            revert k1
            cases hk : Hunt.seek F D live (S.left k) with
            | found vs r => exact id
            | lost => exact id
            | more =>
              intro k1 hpart
              obtain ⟨er, x, e1, e2, e3, e4⟩ := k1 (by rw [hLk, ← hL]; exact hpart)
              have hlive : live = true := by rw [← hL]; exact hpart
              subst hlive
              have heq : ∀ b z, S.left (repeatUntilLoop p e n true c k ⟨out ++ [v], false, s', ()⟩).inp <+: z →
                  (Hunt.seek F D b (ts ++ x ++ z)).pre out = (Hunt.seek F D b (x ++ z)).pre (out ++ [v]) := by
                rintro b z ⟨y, rfl⟩
                have hxl := hS.left_reads e3
                have hsplit : ts ++ x ++ (S.left (repeatUntilLoop p e n true c k ⟨out ++ [v], false, s', ()⟩).inp ++ y) =
                    S.left i ++ y := by
                  rw [hl, hxl]; simp
                rw [hsplit, Hunt.seek_eq hc b, he.stable (S.left i) y b (by rw [hf]; simp), hf]
                simp only [Hunt.inside]
                rw [hp.good.stable (S.left i) y b (by rw [hd]; simp), hd]
                simp only [Outcome.extend]
                rw [Hunt.pre_pre, hxl, List.append_assoc]
              refine ⟨er, ts ++ x, e1, e2, hts.trans e3, ?_⟩
              rcases e4 with ⟨f1, f2, f3⟩ | ⟨f1, w₁, w₂, rfl, f2, f3⟩
              · exact .inl ⟨f1, f2, fun b z hz => by rw [heq b z hz, f3 b z hz]⟩
              · exact .inr ⟨f1, ts ++ w₁, w₂, by simp, f2, fun b z hz => by rw [heq b z hz, f3 b z hz]⟩
          · revert h; cases Hunt.seek F D live (S.left k) <;> simp [Hunt.pre]
          · revert h; cases Hunt.seek F D live (S.left k) <;> simp [Hunt.pre]
        cases c'' with
        | true => simp only [okRes, if_true] at h5; subst h5; exact fin _
        | false => simp only [okRes, Bool.false_eq_true, if_false] at h5; subst h5; exact fin _
      | pend =>
        rw [hd] at h3
        obtain ⟨er, x, h5, h6, h7, h8⟩ := h3
        simp only at h5 h7 h8
        subst h5
        refine ⟨fun hpart => ⟨er, x, rfl, h6, h7, .inr ⟨rfl, [], x, rfl, h8, ?_⟩⟩, nofun, fun _ c v h => ?_⟩
        · rintro b z ⟨y, rfl⟩
          have hlive : live = true := by rw [← hL]; exact hpart
          subst hlive
          have hsplit : x ++ (S.left k ++ y) = S.left i ++ y := by rw [hS.left_reads h7]; simp
          rw [hsplit, Hunt.seek_eq hc b, he.stable (S.left i) y b (by rw [hf]; simp), hf]
        · cases c <;> cases h
      | soft =>
        rw [hd] at h3
        obtain ⟨_, ⟨er, h5⟩, _⟩ := h3
        simp only at h5
        subst h5
        refine ⟨trivial, fun _ c v h => ?_, nofun⟩
        cases c <;> cases h
      | hard =>
        obtain ⟨er, h5⟩ := h4 hd
        simp only at h5
        subst h5
        refine ⟨trivial, fun _ c v h => ?_, nofun⟩
        cases c <;> cases h
    | _ => cases h1

private theorem resume_does (hF : S.Feedable) {p : Parser S σ α} {e : Parser S Unit β} {F : Bool → List S.Tok → Sight}
    (he : Sees e F) {D : Den S.Tok α} {r : Bool} {Ready : σ → Prop} {Rep : σ → List S.Tok → List S.Tok → Prop} {live : Bool}
    (hp : Resumes live p D true r Ready Rep) (hc : D.Consuming) {st : RepeatSt σ Unit α} {w u : List S.Tok} (i : S.Input)
    (hL : S.isPartial i = live) (hs : Held F D Ready Rep [] st w u) (hu : u <+: S.left i) :
    Does (Hunt.seek F D live (w ++ S.left i)) (fun st x => Held F D Ready Rep [] st (w ++ x)) i ((repeatUntil p e).run false i st) := by
  have hS := hF.lawful
  obtain ⟨out, isP, s, ⟨⟩⟩ := st
  have hrun : (repeatUntil p e).run false i ⟨out, isP, s, ()⟩ =
    repeatUntilLoop p e (2 * S.size i + 3) false (.peek ()) i ⟨out, isP, s, ()⟩ := rfl
  rw [hrun]
  rcases hs with ⟨rfl, h1, h2⟩ | ⟨rfl, w₁, w₂, rfl, h1, h2⟩
  · have h3 := h2 live (S.left i) hu
    rw [Hunt.pre_nil] at h3
    rw [h3]
    have h4 := (loop_does hF he hp hc (2 * S.size i + 3) false (.peek ()) i out s hL h1 (by omega)).1
    revert h4
    simp only
    cases Hunt.seek F D live (S.left i) with
    | found vs r => exact id
    | lost => exact id
    | more =>
      intro h4 hpart
      obtain ⟨er, x, e1, e2, e3, e4⟩ := h4 hpart
      have hx := hS.left_reads e3
      have heq : ∀ b z, S.left (repeatUntilLoop p e (2 * S.size i + 3) false (.peek ()) i ⟨out, false, s, ()⟩).inp <+: z →
          (Hunt.seek F D b (w ++ x ++ z)).pre [] = (Hunt.seek F D b (x ++ z)).pre out := by
        intro b z hz
        rw [List.append_assoc]
        refine h2 b (x ++ z) (hu.trans ?_)
        rw [hx]
        exact (List.prefix_append_right_inj x).2 hz
      refine ⟨er, x, e1, e2, e3, ?_⟩
      rcases e4 with ⟨f1, f2, f3⟩ | ⟨f1, w₁, w₂, rfl, f2, f3⟩
      · exact .inl ⟨f1, f2, fun b z hz => by rw [heq b z hz, f3 b z hz]⟩
      · exact .inr ⟨f1, w ++ w₁, w₂, by simp, f2, fun b z hz => by rw [heq b z hz, f3 b z hz]⟩
  · have h3 := h2 live (S.left i) hu
    rw [Hunt.pre_nil] at h3
    rw [h3]
    simp only
    unfold repeatUntilLoop
    simp only [if_true]
    have h4 := hp.resume i hL h1 hu
    rw [hL] at h4
    simp only [Hunt.inside]
    revert h4
    generalize p.run false i s = o
    obtain ⟨q, k, s'⟩ := o
    intro h4
    cases hd : D live (w₂ ++ S.left i) with
    | ok c' v l =>
      rw [hd] at h4
      obtain ⟨⟨c'', h5, _⟩, h7, h8, h9⟩ := h4
      simp only at h5 h7 h8 h9
      obtain ⟨ts, hts⟩ := h7
      have hsz := hS.reads_size hts
      have hl := hS.left_reads hts
      have hLk : S.isPartial k = live := by rw [← hL]; exact hS.reads_isPartial hts
      subst h8
      have fin : ∀ c, Does (((Hunt.seek F D live (S.left k)).pre [v]).pre out) (fun st x => Held F D Ready Rep [] st (w₁ ++ w₂ ++ x)) i
          (repeatUntilLoop p e (2 * S.size i + 2) false c k ⟨out ++ [v], false, s', ()⟩) := by
        intro c
        have k1 := (loop_does hF he hp hc (2 * S.size i + 2) false c k (out ++ [v]) s' hLk (h9 rfl) (by omega)).1
        rw [Hunt.pre_pre]
        revert k1
        cases hk : Hunt.seek F D live (S.left k) with
        | found vs r => exact id
        | lost => exact id
        | more =>
          intro k1 hpart
          obtain ⟨er, x, e1, e2, e3, e4⟩ := k1 (by rw [hLk, ← hL]; exact hpart)
          have hlive : live = true := by rw [← hL]; exact hpart
          subst hlive
          have hxl := hS.left_reads e3
          have heq : ∀ b z, S.left (repeatUntilLoop p e (2 * S.size i + 2) false c k ⟨out ++ [v], false, s', ()⟩).inp <+: z →
              (Hunt.seek F D b (w₁ ++ w₂ ++ (ts ++ x) ++ z)).pre [] = (Hunt.seek F D b (x ++ z)).pre (out ++ [v]) := by
            rintro b z ⟨y, rfl⟩
            have hsplit : ts ++ x ++ (S.left (repeatUntilLoop p e (2 * S.size i + 2) false c k ⟨out ++ [v], false, s', ()⟩).inp ++ y) =
                S.left i ++ y := by
              rw [hl, hxl]; simp
            rw [List.append_assoc, hsplit, h2 b (S.left i ++ y) (hu.trans (List.prefix_append _ _))]
            simp only [Hunt.inside]
            rw [← List.append_assoc, hp.good.stable _ y b (by rw [hd]; simp), hd]
            simp only [Outcome.extend]
            rw [Hunt.pre_pre, hxl, List.append_assoc]
          refine ⟨er, ts ++ x, e1, e2, hts.trans e3, ?_⟩
          rcases e4 with ⟨f1, f2, f3⟩ | ⟨f1, v₁, v₂, rfl, f2, f3⟩
          · exact .inl ⟨f1, f2, fun b z hz => by rw [heq b z hz, f3 b z hz]⟩
          · exact .inr ⟨f1, w₁ ++ w₂ ++ (ts ++ v₁), v₂, by simp, f2, fun b z hz => by rw [heq b z hz, f3 b z hz]⟩
      cases c'' with
      | true => simp only [okRes, if_true] at h5; subst h5; exact fin _
      | false => simp only [okRes, Bool.false_eq_true, if_false] at h5; subst h5; exact fin _
    | pend =>
      rw [hd] at h4
      obtain ⟨er, x, h5, h6, h7, h8⟩ := h4
      simp only at h5 h7 h8
      subst h5
      refine fun hpart => ⟨er, x, rfl, h6, h7, .inr ⟨rfl, w₁, w₂ ++ x, by simp, h8, ?_⟩⟩
      intro b z hz
      have := h2 b (x ++ z) (hu.trans (by rw [hS.left_reads h7]; exact (List.prefix_append_right_inj x).2 hz))
      simpa [List.append_assoc] using this
    | soft => trivial
    | hard => trivial

private theorem held_mono {F : Bool → List S.Tok → Sight} {D : Den S.Tok α} {Ready : Bool → σ → Prop}
    {Rep : Bool → σ → List S.Tok → List S.Tok → Prop} (h1 : ∀ s, Ready true s → Ready false s)
    (h2 : ∀ s w u, Rep true s w u → Rep false s w u) {out : List α} {st : RepeatSt σ Unit α} {w u : List S.Tok}
    (h : Held F D (Ready true) (Rep true) out st w u) : Held F D (Ready false) (Rep false) out st w u := by
  rcases h with ⟨a, b, c⟩ | ⟨a, w₁, w₂, b, c, d⟩
  · exact .inl ⟨a, h1 _ b, c⟩
  · exact .inr ⟨a, w₁, w₂, b, h2 _ _ _ c, d⟩

private theorem feed_hunt (hF : S.Feedable) {mk : Nat → List S.Tok → Bool → S.Input} (hM : S.Source mk)
    {p : Parser S σ α} {e : Parser S Unit β} {F : Bool → List S.Tok → Sight} (he : Sees e F) {D : Den S.Tok α} {r : Bool}
    {Ready : Bool → σ → Prop} {Rep : Bool → σ → List S.Tok → List S.Tok → Prop}
    (hp : ∀ live, Resumes live p D true r (Ready live) (Rep live)) (h1 : ∀ s, Ready true s → Ready false s)
    (h2 : ∀ s w u, Rep true s w u → Rep false s w u) (hc : D.Consuming) (open_ : Bool) {v : List α} {rest : List S.Tok}
    (chunks : List (List S.Tok)) : ∀ (n : Nat) (st : RepeatSt σ Unit α) (w u : List S.Tok),
      (∀ live, Held F D (Ready live) (Rep live) [] st w u) → chunks ≠ [] →
      Hunt.seek F D open_ (w ++ (u ++ chunks.flatten)) = .found v rest →
      feed (repeatUntil p e) mk open_ n st u chunks = .ok v rest := by
  have hS := hF.lawful
  induction chunks with
  | nil => intro _ _ _ _ _ h; exact absurd rfl h
  | cons x cs ih =>
    intro n st w u hs _ hw
    have hl := hM.left n (u ++ x) (open_ || !cs.isEmpty)
    have hpt := hM.isPartial n (u ++ x) (open_ || !cs.isEmpty)
    unfold feed
    dsimp only
    generalize hi : mk n (u ++ x) (open_ || !cs.isEmpty) = i at *
    have hst := resume_does hF he (hp (open_ || !cs.isEmpty)) hc i hpt (hs _) (by rw [hl]; exact List.prefix_append _ _)
    rw [hl] at hst
    by_cases hmore : (open_ || !cs.isEmpty) = true
    · rw [hmore] at hst hpt
      cases hd : Hunt.seek F D true (w ++ (u ++ x)) with
      | more =>
        rw [hd] at hst
        obtain ⟨er, y, q1, q2, q3, q4⟩ := hst hpt
        rw [parseWithState_err q1]
        simp only [hmore, q2, Bool.and_self, if_true]
        have hly := hS.left_reads q3
        rw [hl] at hly
        have hcs : cs ≠ [] := by
          rintro rfl
          simp only [List.isEmpty_nil, Bool.not_true, Bool.or_false] at hmore
          simp only [List.flatten_cons, List.flatten_nil, List.append_nil] at hw
          rw [hmore, hd] at hw
          cases hw
        refine ih (n + 1) _ (w ++ y) _ (fun live => ?_) hcs ?_
        · cases live
          · exact held_mono h1 h2 q4
          · exact q4
        · rw [← hw]
          congr 1
          simp only [List.flatten_cons, List.append_assoc]
          rw [← List.append_assoc u x, hly, List.append_assoc]
      | found vs z =>
        have hstab := Hunt.seek_stable he.stable (hp true).good hc open_ cs.flatten _ (w ++ (u ++ x)) (Nat.lt_succ_self _)
          (by rw [hd]; simp)
        simp only [List.flatten_cons] at hw
        simp only [List.append_assoc] at hstab
        rw [hw, hd] at hstab
        cases hstab
        rw [hd] at hst
        obtain ⟨⟨c', q1⟩, q3⟩ := hst
        rw [parseWithState_ok q1]
        simp only [q3]
      | lost =>
        have hstab := Hunt.seek_stable he.stable (hp true).good hc open_ cs.flatten _ (w ++ (u ++ x)) (Nat.lt_succ_self _)
          (by rw [hd]; simp)
        simp only [List.flatten_cons] at hw
        simp only [List.append_assoc] at hstab
        rw [hw, hd] at hstab
        cases hstab
    · simp only [Bool.not_eq_true, Bool.or_eq_false_iff, Bool.not_eq_false', List.isEmpty_iff] at hmore
      obtain ⟨rfl, rfl⟩ := hmore
      simp only [List.flatten_cons, List.flatten_nil, List.append_nil] at hw
      simp only [List.isEmpty_nil, Bool.not_true, Bool.or_false, hw] at hst
      obtain ⟨⟨c', q1⟩, q3⟩ := hst
      rw [parseWithState_ok q1]
      simp only [q3, List.flatten_nil, List.append_nil]

variable [DecidableEq S.Tok] [DecidableEq S.Rng]

/-- **C33, C14.**  `repeat_until(p, end)` on a whole input: the elements before the first place where the marker is. -/
theorem C14_repeat_until_seek (hF : S.Feedable) {V : Ranges S} {p : Parser S σ α} {D : Den S.Tok α} {r : Bool}
    (hp : Frag V p D true r) (hc : D.Consuming) {e : Parser S Unit β} {F : Bool → List S.Tok → Sight} (he : Sees e F)
    {i j : S.Input} {c : Bool} {vs : List α} (h : (repeatUntil p e).answer i = .ok c vs j) :
    Hunt.seek F D (S.isPartial i) (S.left i) = .found vs (S.left j) := by
  obtain ⟨Ready, Rep, hr, _⟩ := frag_resumable hF hp
  obtain ⟨k1, k2, k3⟩ := loop_does hF he (hr (S.isPartial i)) hc (2 * S.size i + 3) true (.peek ()) i [] p.init rfl
    (hr _).ready_init (by omega)
  have hrun : (repeatUntil p e).answer i =
    (repeatUntilLoop p e (2 * S.size i + 3) true (.peek ()) i ⟨[], false, p.init, ()⟩).answer := rfl
  rw [hrun] at h
  revert h k1 k2 k3
  simp only [Hunt.pre_nil]
  generalize repeatUntilLoop p e (2 * S.size i + 3) true (.peek ()) i ⟨[], false, p.init, ()⟩ = o
  obtain ⟨q, k, s⟩ := o
  intro h k1 k2 k3
  have hq : ∃ c, q = okRes c vs ∧ k = j := by
    cases q with
    | commitOk y => cases h; exact ⟨true, rfl, rfl⟩
    | peekOk y => cases h; exact ⟨false, rfl, rfl⟩
    | _ => cases h
  obtain ⟨c', rfl, rfl⟩ := hq
  cases hd : Hunt.seek F D (S.isPartial i) (S.left i) with
  | found us l =>
    rw [hd] at k1
    obtain ⟨⟨c'', k4⟩, k5⟩ := k1
    simp only at k4 k5
    subst k5
    cases c' <;> cases c'' <;> cases k4 <;> rfl
  | more => exact absurd rfl (k3 hd c' vs)
  | lost => exact absurd rfl (k2 hd c' vs)

/-- **C14.**  `repeat_until(p, end)` with any resumable `p` that consumes, and an `end` that has no state of its own: if the whole
input is accepted, so it is in any pieces, with the same elements and the same remainder.  (With a stateful `end` this fails:
`C14_repeat_until_fails`.) -/
theorem C14_repeat_until_stateless (hF : S.Feedable) {mk : Nat → List S.Tok → Bool → S.Input} (hM : S.Source mk)
    {V : Ranges S} {p : Parser S σ α} {D : Den S.Tok α} {r : Bool} (hp : Frag V p D true r) (hc : D.Consuming)
    {e : Parser S Unit β} {F : Bool → List S.Tok → Sight} (he : Sees e F) (chunks : List (List S.Tok))
    (hne : chunks ≠ []) (i : S.Input) (hi : S.left i = chunks.flatten) {c : Bool} {vs : List α} {j : S.Input}
    (h : (repeatUntil p e).answer i = .ok c vs j) :
    feed (repeatUntil p e) mk (S.isPartial i) 0 (repeatUntil p e).init [] chunks = .ok vs (S.left j) := by
  have hs := C14_repeat_until_seek hF hp hc he h
  obtain ⟨Ready, Rep, hr, h1, h2⟩ := frag_resumable hF hp
  rw [hi] at hs
  refine feed_hunt hF hM he hr h1 h2 hc _ chunks 0 _ [] [] (fun live => .inl ⟨rfl, (hr live).ready_init, fun _ _ _ => rfl⟩) hne hs

/-! ## The hypotheses can be met -/

private abbrev B := maybeS (sliceS Char 1)
private abbrev R : RangeOps B := maybeR (sliceR Char 1)
private def mkB (n : Nat) (ts : List Char) (more : Bool) : B.Input := (⟨100 * n, ts⟩, more)
private def VB : Ranges B := ⟨R, id, fun _ => 1, id, fun _ => [], fun _ => 0⟩
private theorem feedable_B : B.Feedable := maybe_feedable (slice_feedable Char (by decide))
private theorem source_B : B.Source mkB :=
  ⟨fun _ _ _ => (maybe_left _).trans (slice_left _ _), fun _ _ _ => rfl⟩
private theorem lawful_VB : VB.Lawful := ⟨(maybeR_units (sliceR_units Char 1)).lawful, fun _ => rfl⟩

/-- Numbers, each with a `;` behind it, up to a `.`. -/
private def numbers := repeatUntil (skip (takeWhile1 R Char.isDigit) (token B ';')) (token B '.')

example (chunks : List (List Char)) (hne : chunks ≠ []) (h : chunks.flatten = "12;345;.x".toList) :
    feed numbers mkB false 0 numbers.init [] chunks = .ok ["12".toList, "345".toList] ['.', 'x'] :=
  C14_repeat_until_stateless (V := VB) feedable_B source_B
    (Frag.skip (Frag.takeWhile1 _ lawful_VB) (Frag.token (S := B) ';') (r' := false) (by simp))
    ((Den.consuming_span1 _ _).bind fun _ => (Den.Good.tok _).map _)
    (C14_sees feedable_B lawful_VB (Frag.token (S := B) '.') fun _ _ => rfl) chunks hne (⟨0, "12;345;.x".toList⟩, false)
    (((maybe_left _).trans (slice_left _ _)).trans h.symm) (c := true) (j := (⟨7, ['.', 'x']⟩, false)) (by rfl)

example : feed numbers mkB false 0 numbers.init [] [['1'], ['2', ';', '3'], [], ['4', '5'], [';'], ['.', 'x']] =
    .ok ["12".toList, "345".toList] ['.', 'x'] := by rfl

end Verif
