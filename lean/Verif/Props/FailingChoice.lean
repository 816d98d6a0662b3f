import Verif.Spec.TokenChoice
import Verif.Spec.Behaved
import Verif.Proof.WrapLaws
import Verif.Proof.SliceLaws
import Verif.Proof.ErrorLemmas

/-!
# C23: a failing choice of tokens reports every alternative
-/

namespace Verif

open Easy

/-! ## Failing -/

/-- All the alternatives fail with the same error `⟨position, es⟩`. -/
private theorem fails {S : Strm} [DecidableEq S.Tok] {σ : Type} {p : Parser S σ S.Tok} {cs : List S.Tok} (hZ : S.Lawful) (i : S.Input)
    (E : S.Err) (hE : S.E.merge E E = E)
    (hi : ∀ f : S.Tok → Option S.Tok, (∀ c, f c ≠ none → c ∈ cs) →
      ∃ j, (S.Reach i j) ∧ satisfyImpl S f i = (.peekErr (Tracked.of E), j))
    (h : TokenChoice  p cs) : ∃ j s, S.Reach i j ∧ p.run true i p.init = ⟨.peekErr (Tracked.of E), j, s⟩ := by
  have hm : ∀ (ts : List (Tried S)) (t : Tried S), (∀ u ∈ t :: ts, u.err = Tracked.of E) →
      mergeAll t ts = E := by
    intro ts
    induction ts with
    | nil => intro t h; rw [mergeAll, h t (by simp)]; rfl
    | cons u us ih =>
      intro t h
      rw [mergeAll, ih u (fun v hv => h v (.tail _ hv)), h t (by simp)]
      exact hE
  have hf : ∀ (ts : List (Tried S)), ts ≠ [] → (∀ u ∈ ts, u.err = Tracked.of E) →
      (choiceFail ts : ParseResult S.Tok (S.Err)) = .peekErr (Tracked.of E) := by
    intro ts hne h
    cases ts with
    | nil => exact absurd rfl hne
    | cons t ts =>
      have : ∀ (us : List (Tried S)) (e : Tracked (S.Err)), (∀ u ∈ us, u.err = Tracked.of E) →
          addTried e us = e := by
        intro us
        simp only [addTried]
        induction us with
        | nil => intro e _; rfl
        | cons u us ih =>
          intro e h
          rw [List.foldl_cons, h u (by simp), if_neg (by simp [Tracked.of])]
          exact ih e fun v hv => h v (.tail _ hv)
      simp only [choiceFail]
      rw [this _ _ h, hm ts t h]
  refine TokenChoice.rec 
    (motive_1 := fun {σ} p cs' _ => (∀ c ∈ cs', c ∈ cs) →
      ∃ j s, S.Reach i j ∧ p.run true i p.init = ⟨.peekErr (Tracked.of E), j, s⟩)
    (motive_2 := fun {σ} ps cs' _ => (∀ c ∈ cs', c ∈ cs) →
      ∀ bp tried, (∀ u ∈ tried, u.err = Tracked.of E) →
      ∃ j, S.Reach i j ∧ ps.doChoice bp (S.checkpoint i) tried i = ⟨.peekErr (Tracked.of E), j, none⟩)
    ?_ ?_ ?_ ?_ ?_ ?_ ?_ h (fun _ h => h)
  · intro c hc
    obtain ⟨j, h1, h2⟩ := hi (fun x => if x = c then some x else none) (fun x hx => hc x (by
      by_cases h : x = c
      · simp [h]
      · simp [h] at hx))
    exact ⟨j, (), h1, by simp only [token, Parser.ofLazy]; rw [h2]⟩
  · intro ds hc
    obtain ⟨j, h1, h2⟩ := hi (fun c => if (ds.any fun t => t = c) then some c else none) (fun x hx => hc x (by
      by_cases h : x ∈ ds
      · exact h
      · simp [h] at hx))
    exact ⟨j, (), h1, by simp only [oneOf, satisfy, Parser.ofLazy]; rw [h2]⟩
  · intro σ ps ds _ ih hc
    obtain ⟨j, h1, h2⟩ := ih hc (S.position i) [] (by simp)
    exact ⟨j, none, h1, by simp only [choice, Parser.ofMode, choiceRun, if_true, h2]⟩
  · intro σ τ p q ds es _ _ ih ih' hc
    obtain ⟨j, s, h1, h2⟩ := ih fun c h => hc c (List.mem_append_left _ h)
    obtain ⟨k, s', h3, h4⟩ := ih' fun c h => hc c (List.mem_append_right _ h)
    refine ⟨i, none, .refl i, ?_⟩
    simp only [or, choice, Parser.ofMode, choiceRun, if_true, Alts.doChoice, h2, h4, hZ.reset_reach h1,
      hZ.reset_reach h3]
    rw [hf _ (by simp) (by simp)]
    rfl
  · intro c ds hc
    have hp : ∀ d ∈ c :: ds, ∃ j, S.Reach i j ∧ (token S d).run true i () = ⟨.peekErr (Tracked.of E), j, ()⟩ := by
      intro d hd
      obtain ⟨j, h1, h2⟩ := hi (fun x => if x = d then some x else none) (fun x hx => hc x (by
        by_cases h : x = d
        · subst h; exact hd
        · simp [h] at hx))
      exact ⟨j, h1, by simp only [token, Parser.ofLazy]; rw [h2]⟩
    have loop : ∀ (all : List (Parser S Unit S.Tok)) (es : List S.Tok), (∀ d ∈ es, d ∈ c :: ds) →
        ∀ (k : Nat) (prev : Option (Tracked (S.Err))) (j : S.Input), (prev = none → es ≠ []) →
        (∀ e, prev = some e → e = Tracked.of E) → S.Reach i j →
        ∃ l, S.Reach i l ∧ sliceLoop all true (S.checkpoint i) (es.map (token S)) k 0 prev j (0, ()) =
          ⟨.peekErr (Tracked.of E), l, (0, ())⟩ := by
      intro all es
      induction es with
      | nil =>
        intro _ k prev j hne hprev hj
        cases prev with
        | none => exact absurd rfl (hne rfl)
        | some e =>
          obtain rfl := hprev e rfl
          exact ⟨j, hj, by simp only [List.map_nil, sliceLoop]; rw [if_neg (by simp [Tracked.of])]⟩
      | cons d es ih =>
        intro hd k prev j _ hprev hj
        obtain ⟨l, h1, h2⟩ := hp d (hd d (by simp))
        simp only [List.map_cons, sliceLoop, hZ.reset_reach hj, h2]
        cases prev with
        | none =>
          exact ih (fun d h => hd d (.tail _ h)) (k + 1) (some (Tracked.of E)) l (by simp) (fun e h => by cases h; rfl) h1
        | some e =>
          obtain rfl := hprev e rfl
          simp only
          rw [if_neg (by simp [Tracked.of])]
          refine ih (fun d h => hd d (.tail _ h)) (k + 1) _ l (by simp) (fun e h => ?_) h1
          cases h
          change (⟨S.E.merge E E, 1⟩ : Tracked S.Err) = _
          rw [hE]
          rfl
    obtain ⟨l, h1, h2⟩ := loop ((c :: ds).map (token S)) (c :: ds) (fun _ h => h) 0 none i (by simp) (by simp) (.refl i)
    exact ⟨l, (0, ()), h1, by simp only [sliceChoice, Parser.ofMode, sliceRun]; simpa using h2⟩
  · intro σ p ds _ ih hc bp tried ht
    obtain ⟨j, s, h1, h2⟩ := ih hc
    refine ⟨i, .refl i, ?_⟩
    simp only [Alts.doChoice, h2, hZ.reset_reach h1]
    rw [hf _ (by simp) (by
      intro u hu
      rcases List.mem_append.1 hu with hu | hu
      · exact ht u hu
      · simp at hu; rw [hu])]
  · intro σ τ p ps ds es _ _ ih ih' hc bp tried ht
    obtain ⟨j, s, h1, h2⟩ := ih fun c h => hc c (List.mem_append_left _ h)
    obtain ⟨k, h3, h4⟩ := ih' (fun c h => hc c (List.mem_append_right _ h)) bp
      (tried ++ [⟨p.addError, Tracked.of E⟩]) (by
      intro u hu
      rcases List.mem_append.1 hu with hu | hu
      · exact ht u hu
      · simp at hu; rw [hu])
    refine ⟨k, h3, ?_⟩
    simp only [Alts.doChoice, h2, hZ.reset_reach h1, h4]
    rfl

variable {A : Strm} [DecidableEq A.Tok] [DecidableEq A.Rng] {cmp : A.Pos → A.Pos → Ordering}
  {convS : A.SErr → Error A.Tok A.Rng} {conv : A.Err → Errors A.Tok A.Rng A.Pos}

local notation "Z" => easyS A cmp convS conv

/-- The expectation of a token. -/
private abbrev exp (c : A.Tok) : Error A.Tok A.Rng := .expected (.token c)

private abbrev addTok (e : Errors A.Tok A.Rng A.Pos) (c : A.Tok) : Errors A.Tok A.Rng A.Pos := e.addError (exp c)

/-! ## Describing -/

private theorem addTok_fold (cs : List A.Tok) (e : Errors A.Tok A.Rng A.Pos) (k : Nat) :
    (cs.foldl (fun e t => addExpected Z (.token t) e) (⟨e, k⟩ : Tracked (Strm.Err Z))).error = cs.foldl addTok e := by
  induction cs generalizing e k with
  | nil => rfl
  | cons c cs ih => exact ih _ _

private theorem adds {σ : Type} {p : Parser Z σ A.Tok} {cs : List A.Tok}
    (h : TokenChoice (S := Z) p cs) : ∀ (e : Errors A.Tok A.Rng A.Pos) (k : Nat), k ≠ 0 →
    (p.addError ⟨e, k⟩).error = cs.foldl addTok e := by
  refine TokenChoice.rec (S := Z)
    (motive_1 := fun {σ} p cs _ => ∀ (e : Errors A.Tok A.Rng A.Pos) (k : Nat), k ≠ 0 →
      (p.addError ⟨e, k⟩).error = cs.foldl addTok e)
    (motive_2 := fun {σ} ps cs _ => ∀ (e : Errors A.Tok A.Rng A.Pos) (k : Nat),
      (ps.addErrors ⟨e, k⟩).error = cs.foldl addTok e) ?_ ?_ ?_ ?_ ?_ ?_ ?_ h
  · intro c e k _; rfl
  · intro cs e k _; exact addTok_fold (convS := convS) (conv := conv) cs e k
  · intro σ ps cs _ ih e k hk
    change (choiceAddError (S := Z) (Alts.addErrors _) ⟨e, k⟩).error = _
    simp only [choiceAddError, ne_eq, hk, not_false_eq_true, if_true]
    exact ih e k
  · intro σ τ p q cs ds _ _ ih ih' e k hk
    change (if (⟨e, k⟩ : Tracked (Strm.Err Z)).offset ≠ 0 then choiceAddError (S := Z) (Alts.addErrors _) ⟨e, k⟩ else _).error = _
    simp only [choiceAddError, ne_eq, hk, not_false_eq_true, if_true, Alts.addErrors]
    have h1 := ih e 1 (by decide)
    have h2 := ih' (p.addError ⟨e, 1⟩).error 1 (by decide)
    rw [List.foldl_append, ← h1]
    exact h2
  · intro c cs e k hk
    change (choiceAddError (S := Z) (addOnes _) ⟨e, k⟩).error = _
    simp only [choiceAddError, ne_eq, hk, not_false_eq_true, if_true, addOnes, List.foldl_map]
    have : ∀ (cs : List A.Tok) (e : Errors A.Tok A.Rng A.Pos) (k : Nat),
        (cs.foldl (fun e t => (token Z t).addError { e with offset := 1 }) (⟨e, k⟩ : Tracked (Strm.Err Z))).error =
          cs.foldl addTok e := by
      intro cs
      induction cs with
      | nil => intro e k; rfl
      | cons c cs ih => intro e k; exact ih _ _
    exact this (c :: cs) e k
  · intro σ p cs _ ih e k
    exact ih e 1 (by decide)
  · intro σ τ p ps cs ds _ _ ih ih' e k
    have h1 := ih e 1 (by decide)
    have h2 := ih' (p.addError ⟨e, 1⟩).error (p.addError ⟨e, 1⟩).offset
    rw [List.foldl_append, ← h1]
    exact h2


private theorem mem_distinct {T : Type} [DecidableEq T] (cs : List T) (t : T) : t ∈ distinct cs ↔ t ∈ cs := by
  induction cs with
  | nil => simp [distinct]
  | cons c cs ih =>
    by_cases h : t = c
    · simp [distinct, h]
    · simp [distinct, h, ih]

/-- `distinct` keeps what is there and nothing twice. -/
theorem distinct_spec {T : Type} [DecidableEq T] (cs : List T) :
    (∀ t, t ∈ distinct cs ↔ t ∈ cs) ∧ (distinct cs).Nodup ∧ (distinct cs).Sublist cs := by
  refine ⟨mem_distinct cs, ?_, ?_⟩
  · induction cs with
    | nil => simp [distinct]
    | cons c cs ih => simp only [distinct, List.nodup_cons]; exact ⟨by simp, ih.filter _⟩
  · induction cs with
    | nil => simp [distinct]
    | cons c cs ih => exact (List.filter_sublist.trans ih).cons_cons c

private theorem fold_distinct (p : A.Pos) (u : Error A.Tok A.Rng) (hu : ∀ c, ¬ Same u (exp c))
    (cs ds : List A.Tok) :
    cs.foldl addTok ⟨p, u :: ds.map exp⟩ =
      ⟨p, u :: (ds ++ (distinct cs).filter (fun c => !ds.contains c)).map exp⟩ := by
  induction cs generalizing ds with
  | nil => simp [distinct]
  | cons c cs ih =>
    rw [List.foldl_cons]
    by_cases hc : c ∈ ds
    · have : addTok ⟨p, u :: ds.map exp⟩ c = ⟨p, u :: ds.map exp⟩ :=
        addError_of_same (List.mem_cons_of_mem _ (List.mem_map_of_mem hc)) (.expected rfl)
      rw [this, ih ds]
      congr 4
      simp only [distinct, List.contains_iff_mem.2 hc, Bool.not_true, List.filter_cons, Bool.false_eq_true, if_false,
        List.filter_filter]
      refine List.filter_congr fun x _ => ?_
      by_cases hx : x = c
      · subst hx; simp [hc]
      · simp [hx]
    · have : addTok ⟨p, u :: ds.map exp⟩ c = ⟨p, u :: (ds ++ [c]).map exp⟩ := by
        have h := addError_of_new (s := (⟨p, u :: ds.map exp⟩ : Errors A.Tok A.Rng A.Pos)) (e := exp c) (by
          intro x hx
          rcases List.mem_cons.1 hx with rfl | hx
          · exact hu c
          · obtain ⟨d, hd, rfl⟩ := List.mem_map.1 hx
            rintro ⟨h⟩
            rename_i h
            cases h
            exact hc hd)
        simpa using h
      rw [this, ih (ds ++ [c])]
      congr 3
      have hcc : (ds.contains c) = false := by simpa using hc
      simp only [distinct, List.filter_cons, hcc, Bool.not_false, if_true, List.append_assoc, List.singleton_append,
        List.filter_filter]
      congr 2
      refine List.filter_congr fun x _ => ?_
      by_cases hx : x = c
      · subst hx; simp
      · simp [hx]

private theorem stream_eq {S : Strm} [DecidableEq S.Tok] {σ : Type} {p : Parser S σ S.Tok} {cs : List S.Tok}
    (h : TokenChoice p cs) (i : S.Input) :
    p.stream i = ((Strm.describing p.addError (p.run true) i p.init).res,
      (Strm.describing p.addError (p.run true) i p.init).inp) := by
  cases h <;> rfl

private theorem parse_eq {S : Strm} [DecidableEq S.Tok] {σ : Type} {p : Parser S σ S.Tok} {cs : List S.Tok}
    (hS : S.Lawful) (h : TokenChoice p cs) {i j : S.Input} {s : σ} {e : Tracked S.Err}
    (hr : p.run true i p.init = ⟨.peekErr e, j, s⟩) (hj : S.Reach i j) (x : S.SErr)
    (hx : (∃ t k, S.uncons i = (.ok t, k) ∧ x = S.E.unexpected (.token t)) ∨
      (S.AtEnd i ∧ x = S.E.endOfInput)) :
    p.parse i = .err (p.addError { e with error := S.E.add e.error x }).error := by
  simp only [Parser.parse, stream_eq h, Strm.describing, hr, Strm.describe]
  rw [hS.tryReset_eq hj]
  rcases hx with ⟨t, k, hu, rfl⟩ | ⟨⟨e', hu⟩, rfl⟩
  · simp only [hu]
    rw [hS.tryReset_eq ⟨[t], .cons hu (.nil _)⟩]
  · cases hx : S.uncons i with
    | mk y k =>
      rw [hx] at hu
      cases hu
      rfl

/-- **C23.**  A choice of tokens, in whatever way it is written, that does not accept the next token `t`
fails at the position where it started, says that `t` was unexpected, and expects exactly the tokens of
the alternatives, in their order, each once. -/
theorem C23_token (hA : A.Lawful) [Std.ReflCmp cmp] {σ : Type} {p : Parser Z σ A.Tok} {cs : List A.Tok}
    (h : TokenChoice (S := Z) p cs) {i j : A.Input} {t : A.Tok}
    (hu : A.uncons i = (.ok t, j)) (ht : t ∉ cs) :
    p.parse i = .err ⟨A.position i,
      .unexpected (.token t) :: (distinct cs).map fun c => .expected (.token c)⟩ := by
  have hZ : Strm.Lawful Z := convert_lawful hA
  have hu' : Strm.uncons Z i = (.ok t, j) := convert_uncons_ok.2 hu
  have hm : (⟨A.position i, []⟩ : Errors A.Tok A.Rng A.Pos).merge cmp ⟨A.position i, []⟩ = ⟨A.position i, []⟩ := by
    simp [Errors.merge, Std.ReflCmp.compare_self]
  obtain ⟨k, s, h1, h2⟩ := fails (S := Z) (cs := cs) hZ i ⟨A.position i, []⟩ hm (fun f hf => ⟨j, ⟨[t], .cons hu' (.nil _)⟩, by
    have : f t = none := by
      cases hft : f t with
      | none => rfl
      | some v => exact absurd (hf t (by simp [hft])) ht
    simp only [satisfyImpl, Strm.unconsP, hu, mapExceptErr, this]
    rfl⟩) h
  rw [parse_eq (S := Z) hZ h h2 h1 (.unexpected (.token t)) (.inl ⟨t, j, hu', rfl⟩)]
  have := adds h (⟨A.position i, [.unexpected (.token t)]⟩) 1 (by decide)
  change Parser.Parsed.err (p.addError ⟨⟨A.position i, [.unexpected (.token t)]⟩, 1⟩).error = _
  rw [this]
  have h3 := fold_distinct (A.position i) (.unexpected (.token t)) (fun c hc => by cases hc) cs []
  simp only [List.map_nil, List.nil_append, List.contains_nil, Bool.not_false, List.filter_eq_self.2 (fun _ _ => rfl)] at h3
  exact congrArg _ h3

/-- **C23.**  At the end of a complete input it says that the end of input was unexpected. -/
theorem C23_end (hA : A.Lawful) [Std.ReflCmp cmp] {σ : Type} {p : Parser Z σ A.Tok} {cs : List A.Tok}
    (h : TokenChoice (S := Z) p cs) {i : A.Input} (hp : A.isPartial i = false)
    (hc : ∀ e, A.E.isEoiS e = true → convS e = .endOfInput)
    {e : A.SErr} {j : A.Input} (hu : A.uncons i = (.error e, j)) (he : A.E.isEoiS e = true) :
    p.parse i = .err ⟨A.position i,
      .unexpected (.static "end of input") :: (distinct cs).map fun c => .expected (.token c)⟩ := by
  have hZ : Strm.Lawful Z := convert_lawful hA
  obtain rfl := hA.uncons_error hu
  have hs : ∀ x : Error A.Tok A.Rng, x = .endOfInput → (⟨A.position j, [x]⟩ : Errors A.Tok A.Rng A.Pos).addError x = ⟨A.position j, [x]⟩ :=
    fun x hx => addError_of_same (List.mem_singleton.2 rfl) (by subst hx; exact .unexpected rfl)
  have hm : (⟨A.position j, [.endOfInput]⟩ : Errors A.Tok A.Rng A.Pos).merge cmp ⟨A.position j, [.endOfInput]⟩ =
      ⟨A.position j, [.endOfInput]⟩ := by
    simp only [Errors.merge, Std.ReflCmp.compare_self, List.foldl_cons, List.foldl_nil]
    exact hs _ rfl
  obtain ⟨k, s, h1, h2⟩ := fails (S := Z) (cs := cs) hZ j ⟨A.position j, [.endOfInput]⟩ hm
    (fun f hf => ⟨j, ⟨[], .nil (S := Z) j⟩, by
      simp only [satisfyImpl, Strm.unconsP, hu, mapExceptErr, Strm.wrapStreamError, hp, Bool.false_eq_true, if_false,
        hc e he]
      rfl⟩) h
  rw [parse_eq (S := Z) hZ h h2 h1 Error.endOfInput (.inr ⟨⟨convS e, by simp [hu, mapExceptErr]⟩, rfl⟩)]
  have := adds h (⟨A.position j, [.endOfInput]⟩) 1 (by decide)
  change Parser.Parsed.err (p.addError ⟨(⟨A.position j, [.endOfInput]⟩ : Errors A.Tok A.Rng A.Pos).addError .endOfInput, 1⟩).error = _
  rw [hs _ rfl, this]
  have h3 := fold_distinct (A.position j) (.unexpected (.static "end of input")) (fun c hc => by cases hc) cs []
  simp only [List.map_nil, List.nil_append, List.contains_nil, Bool.not_false, List.filter_eq_self.2 (fun _ _ => rfl)] at h3
  exact congrArg _ h3

/-! ## Examples -/

private abbrev Y := easySliceS Nat 1

private theorem ex : TokenChoice (S := Y)
    (choice (.cons (token Y 1) (.cons (or (token Y 2) (token Y 1)) (.last (oneOf Y [3, 2]))))) [1, 2, 1, 3, 2] :=
  .choice (.cons (.token (S := Y) (1 : Nat)) (.cons (.or (.token (S := Y) (2 : Nat)) (.token (S := Y) (1 : Nat)))
    (.last (.oneOf (S := Y) [(3 : Nat), 2]))))

example : (choice (.cons (token Y 1) (.cons (or (token Y 2) (token Y 1)) (.last (oneOf Y [3, 2]))))).parse ⟨0, [9]⟩ =
    .err ⟨0, [.unexpected (.token 9), .expected (.token 1), .expected (.token 2), .expected (.token 3)]⟩ :=
  C23_token (A := sliceS Nat 1) (slice_lawful _ _) ex (j := ⟨1, []⟩) rfl (by decide)
example : (choice (.cons (token Y 1) (.cons (or (token Y 2) (token Y 1)) (.last (oneOf Y [3, 2]))))).parse ⟨4, []⟩ =
    .err ⟨4, [.unexpected (.static "end of input"), .expected (.token 1), .expected (.token 2), .expected (.token 3)]⟩ :=
  C23_end (A := sliceS Nat 1) (slice_lawful _ _) ex rfl (fun e h => by cases e <;> first | rfl | cases h) rfl rfl
example : (sliceChoice ([1, 2, 1].map (token Y)) ()).parse ⟨0, [9]⟩ =
    .err ⟨0, [.unexpected (.token 9), .expected (.token 1), .expected (.token 2)]⟩ := rfl

end Verif
