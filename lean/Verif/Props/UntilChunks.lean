import Verif.Proof.Feed
import Verif.Proof.SliceLaws
import Verif.Proof.FeedInst
import Verif.Props.Tokens
import Verif.Props.Chunks
import Verif.Props.Control
import Verif.Proof.Fragment
import Verif.Spec.Seek

/-!
# C14: `take_until` and `skip_until` with a stateless end parser, in pieces
-/

namespace Verif

variable {S : Strm} {α β : Type}

private theorem seek_found {T : Type} {F : List T → Sight} {a : List T} (h : F a = .found) : seek F a = some ([], a) := by
  cases a <;> simp only [seek, h]

private theorem seek_cons {T : Type} {F : List T → Sight} {t : T} {r : List T} (h : F (t :: r) = .absent) :
    seek F (t :: r) = (seek F r).map fun x => (t :: x.1, x.2) := by
  simp only [seek, h]

private theorem seek_none {T : Type} {F : List T → Sight} {a : List T} (h : F a = .unknown ∨ F a = .broken ∨ (F a = .absent ∧ a = [])) :
    seek F a = none := by
  rcases h with h | h | ⟨h, rfl⟩
  · cases a <;> simp only [seek, h]
  · cases a <;> simp only [seek, h]
  · simp only [seek, h]

/-- One call of the loop. -/
private theorem loop_sees (hF : S.Feedable) {e : Parser S Unit β} {F : Bool → List S.Tok → Sight} (he : Sees e F)
    (m : Bool) (n : Nat) (c : Commit Unit) (i : S.Input) (els : List S.Tok) (hn : S.size i + 1 ≤ n) :
    ∃ ts k, S.Reads i ts k ∧
      (∀ live x, (live = S.isPartial i ∧ x = []) ∨ S.isPartial i = true →
        seek (F live) (S.left i ++ x) = (seek (F live) (S.left k ++ x)).map fun y => (ts ++ y.1, y.2)) ∧
      (match F (S.isPartial i) (S.left k) with
      | .found => ∃ c' s', takeUntilLoop e m n c i els () = ⟨okRes c' (els ++ ts), k, s'⟩
      | .absent => S.left k = [] ∧
          if S.isPartial i then ∃ x, takeUntilLoop e m n c i els () = ⟨.commitErr x, k, (els ++ ts, ())⟩ ∧ S.E.isEoi x = true
          else ∃ x, (takeUntilLoop e m n c i els ()).res = .peekErr x
      | .unknown => ∃ x, takeUntilLoop e m n c i els () = ⟨.commitErr x, k, (els ++ ts, ())⟩ ∧ S.E.isEoi x = true
      | .broken => ∃ x, takeUntilLoop e m n c i els () = ⟨.commitErr x, k, (els ++ ts, ())⟩) := by
  have hS := hF.lawful
  induction n generalizing c i els with
  | zero => omega
  | succ n ih =>
    have h1 := he.sees i
    have h2 := he.moves.run true i ()
    have hst := he.stable (S.left i)
    unfold takeUntilLoop
    simp only [he.mode m i]
    unfold Parser.answer Out.answer at h1
    revert h1 h2
    change (match F (S.isPartial i) (S.left i) with
      | .found => ∃ c v j, Answer.of (e.run true i ()).res (e.run true i ()).inp = .ok c v j
      | .absent => Answer.of (e.run true i ()).res (e.run true i ()).inp = .soft
      | .unknown => ∃ x, Answer.of (e.run true i ()).res (e.run true i ()).inp = .hard x ∧ S.E.isEoi x = true
      | .broken => ∃ x, Answer.of (e.run true i ()).res (e.run true i ()).inp = .hard x) → _
    generalize e.run true i () = o
    obtain ⟨r, j, u⟩ := o
    intro h1 h2
    have base : ∀ live x, (live = S.isPartial i ∧ x = []) ∨ S.isPartial i = true →
        seek (F live) (S.left i ++ x) = (seek (F live) (S.left i ++ x)).map fun y => ([] ++ y.1, y.2) := by
      intro live x _; simp
    cases hf : F (S.isPartial i) (S.left i) with
    | found =>
      rw [hf] at h1
      obtain ⟨c', v, j', h1⟩ := h1
      refine ⟨[], i, .nil i, base, ?_⟩
      simp only [hf, List.append_nil]
      cases r with
      | commitOk y =>
        simp only [ParseResult.toStd]
        rw [hS.tryReset_eq h2]
        cases c <;> exact ⟨true, _, rfl⟩
      | peekOk y =>
        simp only [ParseResult.toStd]
        rw [hS.tryReset_eq h2]
        cases c
        · exact ⟨true, _, rfl⟩
        · exact ⟨false, _, rfl⟩
      | _ => cases h1
    | unknown =>
      rw [hf] at h1
      obtain ⟨x, h1, hx⟩ := h1
      refine ⟨[], i, .nil i, base, ?_⟩
      simp only [hf, List.append_nil]
      cases r with
      | commitErr y =>
        cases h1
        simp only [ParseResult.toStd]
        rw [hS.tryReset_eq h2]
        exact ⟨_, rfl, hx⟩
      | _ => cases h1
    | broken =>
      rw [hf] at h1
      obtain ⟨x, h1⟩ := h1
      refine ⟨[], i, .nil i, base, ?_⟩
      simp only [hf, List.append_nil]
      cases r with
      | commitErr y =>
        cases h1
        simp only [ParseResult.toStd]
        rw [hS.tryReset_eq h2]
        exact ⟨_, rfl⟩
      | _ => cases h1
    | absent =>
      rw [hf] at h1
      cases r with
      | peekErr y =>
        simp only [ParseResult.toStd]
        rw [hS.tryReset_eq h2]
        have hu : S.unconsP i = match S.uncons i with
            | (.ok t, j) => (.commitOk t, j)
            | (.error e, j) => (S.wrapStreamError j e, j) := rfl
        rw [hu]
        cases hx : S.uncons i with
        | mk r k =>
          cases r with
          | ok t =>
            have hsz := hS.size hx
            have hp := hS.isPartial hx
            have hl := hS.left_cons hx
            obtain ⟨ts, k', q1, q2, q3⟩ := ih (.commit ()) k (els ++ [t]) (by omega)
            refine ⟨t :: ts, k', .cons hx q1, ?_, ?_⟩
            · intro live x hlx
              have ha : F live (S.left i ++ x) = .absent := by
                rcases hlx with ⟨rfl, rfl⟩ | hi
                · rw [List.append_nil]; exact hf
                · rw [hi] at hf
                  rw [hst x live (by rw [hf]; intro h; cases h), hf]
              rw [hl, List.cons_append] at ha ⊢
              rw [seek_cons ha, q2 live x (by rw [hp]; exact hlx)]
              cases seek (F live) (S.left k' ++ x) <;> rfl
            · rw [hp] at q3
              simp only [List.append_assoc, List.singleton_append] at q3
              exact q3
          | error err =>
            have hl := Strm.left_error hx
            have hends := hF.ends _ _ _ hx
            obtain rfl := hS.uncons_error hx
            refine ⟨[], k, .nil k, base, ?_⟩
            simp only [hf, List.append_nil]
            refine ⟨hl, ?_⟩
            simp only [Strm.wrapStreamError]
            cases hp : S.isPartial k with
            | true =>
              simp only [if_true]
              exact ⟨_, rfl, hF.from_error _ _ hends⟩
            | false =>
              simp only [Bool.false_eq_true, if_false]
              exact ⟨_, rfl⟩
      | _ => cases h1

private theorem feed_seek (hF : S.Feedable) {mk : Nat → List S.Tok → Bool → S.Input} (hM : S.Source mk)
    {e : Parser S Unit β} {F : Bool → List S.Tok → Sight} (he : Sees e F) (open_ : Bool) (chunks : List (List S.Tok)) :
    ∀ (n : Nat) (els u w r : List S.Tok), chunks ≠ [] →
      seek (F open_) (u ++ chunks.flatten) = some (w, r) →
      feed (takeUntil e) mk open_ n (els, ()) u chunks = .ok (els ++ w) r := by
  induction chunks with
  | nil => intro _ _ _ _ _ h; exact absurd rfl h
  | cons c cs ih =>
    intro n els u w r _ hs
    unfold feed
    simp only
    generalize hmore : (open_ || !cs.isEmpty) = more
    have hlast : more = false → cs = [] ∧ open_ = false := by
      rintro rfl
      cases open_ <;> cases cs <;> simp_all
    have hL := hM.left n (u ++ c) more
    have hP := hM.isPartial n (u ++ c) more
    obtain ⟨ts, k, q1, q2, q3⟩ := loop_sees hF he false (S.size (mk n (u ++ c) more) + 1) (.peek ()) (mk n (u ++ c) more)
      els (Nat.le_refl _)
    have hrun : (takeUntil e).run false (mk n (u ++ c) more) (els, ()) =
      takeUntilLoop e false (S.size (mk n (u ++ c) more) + 1) (.peek ()) (mk n (u ++ c) more) els () := rfl
    rw [← hrun] at q3
    rw [hL, hP] at q2
    rw [hP] at q3
    have hs' := hs
    rw [List.flatten_cons, ← List.append_assoc, q2 open_ cs.flatten (by
      cases more with
      | true => exact .inr rfl
      | false => obtain ⟨rfl, rfl⟩ := hlast rfl; exact .inl ⟨rfl, rfl⟩)] at hs'
    obtain ⟨⟨w', r'⟩, hs1, hs2⟩ := Option.map_eq_some_iff.1 hs'
    cases hs2
    have hthru : F more (S.left k) ≠ .unknown → F open_ (S.left k ++ cs.flatten) = F more (S.left k) := by
      intro h
      cases more with
      | true => exact he.stable _ _ _ h
      | false => obtain ⟨rfl, rfl⟩ := hlast rfl; rw [List.flatten_nil, List.append_nil]
    have hnone : ∀ {P : Prop}, seek (F open_) (S.left k ++ cs.flatten) = none → P := by
      intro P h; rw [h] at hs1; cases hs1
    have go : ∀ x, (takeUntil e).run false (mk n (u ++ c) more) (els, ()) = ⟨.commitErr x, k, (els ++ ts, ())⟩ →
        (takeUntil e).parseWithState (mk n (u ++ c) more) (els, ()) = (.error (.inr x), k, (els ++ ts, ())) := by
      intro x hx
      rw [parseWithState_err (congrArg Out.res hx), hx]
    have hm : cs ≠ [] → more = true := by
      intro hc
      cases cs with
      | nil => exact absurd rfl hc
      | cons => rw [← hmore]; simp
    cases hf : F more (S.left k) with
    | found =>
      rw [hf] at q3
      obtain ⟨c', s', q3⟩ := q3
      rw [parseWithState_ok (congrArg Out.res q3), q3]
      have := hthru (by rw [hf]; intro h; cases h)
      rw [hf] at this
      rw [seek_found this] at hs1
      cases hs1
      simp
    | broken =>
      have := hthru (by rw [hf]; intro h; cases h)
      rw [hf] at this
      exact hnone (seek_none (.inr (.inl this)))
    | unknown =>
      rw [hf] at q3
      obtain ⟨x, q3, hx⟩ := q3
      have hc : cs ≠ [] := by
        rintro rfl
        rw [List.flatten_nil, List.append_nil] at hnone
        have : open_ = more := by rw [← hmore]; simp
        rw [this] at hnone
        exact hnone (seek_none (.inl hf))
      rw [go x q3]
      simp only [hm hc, hx, Bool.and_true, if_true]
      rw [ih (n + 1) (els ++ ts) (S.left k) w' r' hc hs1, List.append_assoc]
    | absent =>
      rw [hf] at q3
      obtain ⟨hk, q3⟩ := q3
      have hc : cs ≠ [] := by
        rintro rfl
        rw [List.flatten_nil, List.append_nil] at hnone
        have : open_ = more := by rw [← hmore]; simp
        rw [this] at hnone
        exact hnone (seek_none (.inr (.inr ⟨hf, hk⟩)))
      rw [if_pos (hm hc)] at q3
      obtain ⟨x, q3, hx⟩ := q3
      rw [go x q3]
      simp only [hm hc, hx, Bool.and_true, if_true]
      rw [ih (n + 1) (els ++ ts) (S.left k) w' r' hc hs1, List.append_assoc]

/-- **C33, C14.**  Where `end` has no state of its own and finds the marker where `F` says so, `take_until(end)` yields
the tokens before the first such place. -/
theorem C14_take_until_seek (hF : S.Feedable) {e : Parser S Unit β} {F : Bool → List S.Tok → Sight} (he : Sees e F)
    {i j : S.Input} {c : Bool} {v : List S.Tok} (h : (takeUntil e).answer i = .ok c v j) :
    seek (F (S.isPartial i)) (S.left i) = some (v, S.left j) := by
  obtain ⟨ts, k, q1, q2, q3⟩ := loop_sees hF he true (S.size i + 1) (.peek ()) i [] (Nat.le_refl _)
  have hrun : (takeUntil e).answer i = (takeUntilLoop e true (S.size i + 1) (.peek ()) i [] ()).answer := rfl
  rw [hrun] at h
  have q2 := q2 (S.isPartial i) [] (.inl ⟨rfl, rfl⟩)
  rw [List.append_nil, List.append_nil] at q2
  rw [q2]
  cases hf : F (S.isPartial i) (S.left k) with
  | found =>
    rw [hf] at q3
    obtain ⟨c', s', q3⟩ := q3
    rw [q3] at h
    rw [seek_found hf]
    cases c' <;> (cases h; simp)
  | broken =>
    rw [hf] at q3
    obtain ⟨x, q3⟩ := q3
    rw [q3] at h; cases h
  | unknown =>
    rw [hf] at q3
    obtain ⟨x, q3, _⟩ := q3
    rw [q3] at h; cases h
  | absent =>
    rw [hf] at q3
    obtain ⟨hk, q3⟩ := q3
    cases hp : S.isPartial i with
    | true =>
      simp only [hp, if_true] at q3
      obtain ⟨x, q3, _⟩ := q3
      rw [q3] at h; cases h
    | false =>
      simp only [hp, Bool.false_eq_true, if_false] at q3
      obtain ⟨x, q3⟩ := q3
      unfold Out.answer at h
      rw [q3] at h; cases h

/-- **C14.**  `take_until(end)` with an `end` that has no state of its own: if the whole input is accepted, so it is in
any pieces, with the same tokens and the same remainder.  (With a stateful `end` this fails: `C14_take_until_fails`.) -/
theorem C14_take_until_stateless (hF : S.Feedable) {mk : Nat → List S.Tok → Bool → S.Input} (hM : S.Source mk)
    {e : Parser S Unit β} {F : Bool → List S.Tok → Sight} (he : Sees e F) (chunks : List (List S.Tok))
    (hne : chunks ≠ []) (i : S.Input) (hi : S.left i = chunks.flatten) {c : Bool} {v : List S.Tok} {j : S.Input}
    (h : (takeUntil e).answer i = .ok c v j) :
    feed (takeUntil e) mk (S.isPartial i) 0 (takeUntil e).init [] chunks = .ok v (S.left j) := by
  have := C14_take_until_seek hF he h
  rw [hi] at this
  exact feed_seek hF hM he _ chunks 0 [] [] v (S.left j) hne this

/-! ## End parsers of this kind -/

/-- **C14.**  A parser of the fragment of `C14_chunks` that has no state and does the same in both modes (`token`,
`satisfy`, `one_of`, …) may be the end of a `take_until`. -/
theorem C14_sees [DecidableEq S.Tok] [DecidableEq S.Rng] (hF : S.Feedable) {V : Ranges S} (hV : V.Lawful) {e : Parser S Unit β} {D : Den S.Tok β} {k r : Bool}
    (he : Frag V e D k r) (hm : ∀ m i, e.run m i () = e.run true i ()) : Sees e (sightOf D) where
  moves := (frag_built he).moves hF.lawful hV.ops
  mode := hm
  sees := fun i => by
    have h := C14_denotes hF he i
    unfold sightOf
    cases hd : D (S.isPartial i) (S.left i) with
    | ok c v l => rw [hd] at h; obtain ⟨j, h, _⟩ := h; exact ⟨c, v, j, h⟩
    | pend => rw [hd] at h; exact h
    | soft => rw [hd] at h; exact h
    | hard => rw [hd] at h; exact h
  stable := fun a x live h => by
    obtain ⟨Ready, Rep, hr, _⟩ := frag_resumable hF he
    have hg := (hr true).good
    unfold sightOf at h ⊢
    have hne : D true a ≠ .pend := by
      intro hd; rw [hd] at h; exact h rfl
    rw [hg.stable a x live hne]
    cases D true a <;> rfl

private theorem sequence_stable {T τ : Type} (cmp : τ → T → Bool) (live : Bool) (x : List T) :
    ∀ (cs : List τ) (a : List T), sequenceSight cmp true cs a ≠ .unknown →
      sequenceSight cmp live cs (a ++ x) = sequenceSight cmp true cs a
  | [], a, _ => by cases a <;> cases x <;> rfl
  | c :: cs, [], h => absurd rfl h
  | c :: cs, t :: a, h => by
    simp only [List.cons_append, sequenceSight] at h ⊢
    by_cases hc : cmp c t = true
    · simp only [hc, if_true] at h ⊢; exact sequence_stable cmp live x cs a h
    · simp only [hc]; rfl

private theorem loop_sequence (hF : S.Feedable) {τ : Type} (hpos : ∀ e q, S.E.isEoi e = true → S.E.isEoi (S.E.setPosition e q) = true)
    (cmp : τ → S.Tok → Bool) (start : S.Pos) (bad : S.Tok → S.Err) (hbad : ∀ t, S.E.isEoi (bad t) = false)
    (cs : List τ) (c : Bool) (i : S.Input) :
    match sequenceSight cmp (S.isPartial i) cs (S.left i) with
    | .found => ∃ b, (tokensLoop S cmp start bad cs c i).1 = okRes b ()
    | .absent => (∃ x, (tokensLoop S cmp start bad cs c i).1 = .peekErr x) ∨
        ∃ x, (tokensLoop S cmp start bad cs c i).1 = .commitErr x ∧ (S.isPartial i = true → S.E.isEoi x = false)
    | .unknown => S.isPartial i = true ∧ ∃ x, (tokensLoop S cmp start bad cs c i).1 = .commitErr x ∧ S.E.isEoi x = true
    | .broken => False := by
  have hS := hF.lawful
  induction cs generalizing c i with
  | nil =>
    rw [show sequenceSight cmp (S.isPartial i) ([] : List τ) (S.left i) = .found by cases S.left i <;> rfl]
    exact ⟨c, by simp only [tokensLoop, okRes]⟩
  | cons d cs ih =>
    cases hu : S.uncons i with
    | mk x j =>
      cases x with
      | ok t =>
        rw [hS.left_cons hu]
        simp only [sequenceSight, tokensLoop, Strm.unconsP, hu]
        by_cases hc : cmp d t = true
        · simp only [hc, if_true]
          have := ih true j
          rw [hS.isPartial hu] at this
          exact this
        · simp only [hc]
          cases c
          · exact .inl ⟨_, rfl⟩
          · exact .inr ⟨_, rfl, fun _ => hbad t⟩
      | error e =>
        rw [Strm.left_error hu]
        have hends := hF.ends _ _ _ hu
        obtain rfl := hS.uncons_error hu
        simp only [sequenceSight, tokensLoop, Strm.unconsP, hu, Strm.wrapStreamError]
        cases hp : S.isPartial j with
        | true =>
          simp only [if_true]
          exact ⟨trivial, _, rfl, hpos _ _ (hF.from_error _ _ hends)⟩
        | false =>
          simp only [Bool.false_eq_true, if_false]
          cases c
          · exact .inl ⟨_, rfl⟩
          · exact .inr ⟨_, rfl, by intro h; cases h⟩

/-- **C14.**  `attempt(string(…))`, `attempt(bytes(…))` may be the end of a `take_until`, though `string` itself cannot be
resumed (`C14_tokens_fail`): `take_until` goes back to where the marker began. -/
theorem C14_sees_string (hF : S.Feedable) {τ : Type} (hpos : ∀ e q, S.E.isEoi e = true → S.E.isEoi (S.E.setPosition e q) = true)
    (hbad : ∀ q t, S.E.isEoi (S.E.fromError q (S.E.unexpected (.token t))) = false)
    (cs : List τ) (cmp : τ → S.Tok → Bool) (x : Info S.Tok S.Rng) (v : β) :
    Sees (attempt (stringCmp S cs cmp x v)) fun live a => sequenceSight cmp live cs a where
  moves := moves_attempt hF.lawful (moves_stringCmp hF.lawful cs cmp x v)
  mode := fun m i => rfl
  sees := fun i => by
    have hS := hF.lawful
    have hmv := moves_stringCmp (α := β) hS cs cmp x v
    have h1 := C04_attempt_any hS hmv (.ofMode hS hmv.run) true i ()
    have h2 := loop_sequence hF hpos cmp (S.position i) (fun other => S.E.fromError (S.position i)
      (S.E.unexpected (.token other))) (hbad _) cs false i
    have h3 : (stringCmp S cs cmp x v).run true i () =
        ⟨(tokensLoop S cmp (S.position i) (fun other => S.E.fromError (S.position i)
          (S.E.unexpected (.token other))) cs false i).1.map (fun _ => v), (tokensLoop S cmp (S.position i)
          (fun other => S.E.fromError (S.position i) (S.E.unexpected (.token other))) cs false i).2, ()⟩ := by
      simp only [stringCmp, expected, map, tokensCmp, Parser.ofMode, Parser.ofLazy, Out.mapRes]
      generalize tokensLoop S cmp _ _ cs false i = r
      obtain ⟨r, j⟩ := r
      cases r <;> rfl
    have h4 : (attempt (stringCmp S cs cmp x v)).answer i = ((attempt (stringCmp S cs cmp x v)).run true i ()).answer := rfl
    rw [h4, h1, h3]
    revert h2
    generalize tokensLoop S cmp _ _ cs false i = r
    obtain ⟨r, j⟩ := r
    cases sequenceSight cmp (S.isPartial i) cs (S.left i) with
    | found => rintro ⟨b, h⟩; simp only at h; subst h; cases b <;> exact ⟨_, _, _, rfl⟩
    | absent =>
      rintro (⟨y, h⟩ | ⟨y, h, he⟩)
      · simp only at h; subst h; rfl
      · simp only at h; subst h
        have : (S.isPartial i && S.E.isEoi y) = false := by
          cases hp : S.isPartial i
          · rfl
          · rw [he hp]; rfl
        simp only [Out.answer, Answer.of, ParseResult.map, this, Bool.false_eq_true, if_false]
    | unknown =>
      rintro ⟨hp, y, h, he⟩
      simp only at h; subst h
      simp only [Out.answer, Answer.of, ParseResult.map, hp, he, Bool.and_true, if_true]
      exact ⟨y, rfl, he⟩
    | broken => exact False.elim
  stable := fun a y live h => sequence_stable cmp live y cs a h

/-! ## Examples -/

private abbrev B := maybeS (sliceS Char 1)
private def mkB (n : Nat) (ts : List Char) (more : Bool) : B.Input := (⟨100 * n, ts⟩, more)
private theorem feedable_B : B.Feedable := maybe_feedable (slice_feedable Char (by decide))
private theorem source_B : B.Source mkB :=
  ⟨fun _ _ _ => (maybe_left _).trans (slice_left _ _), fun _ _ _ => rfl⟩

private def VB : Ranges B := ⟨maybeR (sliceR Char 1), id, fun _ => 1, id, fun _ => [], fun _ => 0⟩
private theorem lawful_VB : VB.Lawful := ⟨(maybeR_units (sliceR_units Char 1)).lawful, fun _ => rfl⟩

/-- A line. -/
private abbrev line := takeUntil (token B '.')

example (chunks : List (List Char)) (hne : chunks ≠ []) (h : chunks.flatten = "ab.c".toList) :
    feed line mkB false 0 line.init [] chunks = .ok "ab".toList ".c".toList :=
  C14_take_until_stateless (i := (⟨0, "ab.c".toList⟩, false)) feedable_B source_B
    (C14_sees feedable_B lawful_VB (Frag.token (V := VB) '.') fun _ _ => rfl) chunks hne
    (((maybe_left _).trans (slice_left _ _)).trans h.symm) (c := true) (j := (⟨2, ".c".toList⟩, false)) (by rfl)

/-- The text of a comment. -/
private abbrev comment := takeUntil (attempt (stringCmp B "-->".toList (fun a b => a == b) (.static "-->") "-->"))

private theorem comment_sees : Sees (attempt (stringCmp B "-->".toList (fun a b => a == b) (.static "-->") "-->"))
    fun live a => sequenceSight (fun a b => a == b) live "-->".toList a :=
  C14_sees_string feedable_B (fun _ _ h => h) (fun _ _ => rfl) _ _ _ _

example (chunks : List (List Char)) (hne : chunks ≠ []) (h : chunks.flatten = "a-b--->c".toList) :
    feed comment mkB false 0 comment.init [] chunks = .ok "a-b-".toList "-->c".toList :=
  C14_take_until_stateless (i := (⟨0, "a-b--->c".toList⟩, false)) feedable_B source_B comment_sees chunks hne
    (((maybe_left _).trans (slice_left _ _)).trans h.symm) (c := true) (j := (⟨4, "-->c".toList⟩, false)) (by rfl)

example : feed comment mkB false 0 comment.init [] [['a', '-'], ['b', '-', '-'], [], ['-'], ['>', 'c']] =
    .ok "a-b-".toList "-->c".toList := rfl

end Verif
