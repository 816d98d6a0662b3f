import Verif.Spec.Fragment
import Verif.Proof.ResumeBytes
import Verif.Proof.ResumeRecognize
import Verif.Proof.ResumeFlat
import Verif.Proof.ResumeLazy
import Verif.Proof.ResumeSep
import Verif.Proof.ResumeChain
import Verif.Proof.ResumeIterate
import Verif.Proof.BuiltMoves
import Verif.Spec.Built

/-!
# The fragment can be resumed
-/

namespace Verif

variable {S : Strm} {σ τ α β γ : Type}

/-! ## Values that are thrown away -/

namespace Den
variable {T : Type}

theorem map_map (D : Den T α) (f : α → β) (g : β → γ) : (D.map f).map g = D.map fun v => g (f v) := by
  funext b a
  simp only [Den.map]
  cases D b a <;> rfl

theorem manyN_map (D : Den T α) (f : α → β) (n : Nat) : (D.map f).manyN n = (D.manyN n).map (List.map f) := by
  induction n with
  | zero => rfl
  | succ n ih =>
    funext b a
    simp only [Den.manyN, ih, Den.map]
    cases D b a with
    | ok c v r =>
      simp only [Outcome.map]
      cases manyN D n b r <;> cases c <;> rfl
    | _ => rfl

theorem many_map (D : Den T α) (f : α → β) : (D.map f).many = D.many.map (List.map f) := by
  funext b a
  simp only [Den.many, manyN_map]; rfl

theorem many1_map (D : Den T α) (f : α → β) : (D.map f).many1 = D.many1.map (List.map f) := by
  funext b a
  simp only [Den.many1, many_map, Den.bind, Den.map]
  cases D b a with
  | ok c v r =>
    simp only [Outcome.map]
    cases many D b r <;> cases c <;> rfl
  | _ => rfl

theorem count_map (D : Den T α) (f : α → β) (lo hi : Nat) : (D.map f).count lo hi = (D.count lo hi).map (List.map f) := by
  induction hi generalizing lo with
  | zero => funext b a; cases lo <;> rfl
  | succ n ih =>
    funext b a
    have h1 : ∀ (α : Type) (D : Den T α), D.count lo (n + 1) b a = match D b a with
      | .ok c v r => ((count D (lo - 1) n b r).map (v :: ·)).after c
      | .pend => .pend
      | .soft => if lo = 0 then .ok false [] a else .soft
      | .hard => .hard := by intro α D; cases lo <;> rfl
    simp only [h1, ih, Den.map]
    cases D b a with
    | ok c v r =>
      simp only [Outcome.map]
      cases count D (lo - 1) n b r <;> cases c <;> rfl
    | soft => simp only [Outcome.map]; split <;> rfl
    | _ => rfl

theorem Consuming.map {D : Den T α} (h : D.Consuming) (f : α → β) : (D.map f).Consuming := by
  intro b a c v r e
  obtain ⟨y, e, _⟩ := Outcome.map_ok.1 e
  exact h b a c y r e

theorem Consuming.firm {D : Den T α} (h : D.Consuming) (E : Den T β) : D.Firm E := by
  intro b a v hd
  exact absurd (h _ _ _ _ _ hd) (Nat.lt_irrefl _)

theorem Consuming.bind {D : Den T α} (h : D.Consuming) {F : α → Den T β} (hF : ∀ v, (F v).Good) : (D.bind F).Consuming := by
  intro b a c v r hb
  simp only [Den.bind] at hb
  revert hb
  cases h1 : D b a with
  | ok c v l =>
    have h2 := h _ _ _ _ _ h1
    dsimp only
    cases h3 : F v b l with
    | ok c' v' l' =>
      intro hb
      cases hb
      obtain ⟨x, h4, _⟩ := (hF v).read h3
      rw [h4, List.length_append] at h2
      omega
    | _ => cases c <;> intro hb <;> cases hb
  | _ => intro hb; cases hb

theorem consuming_span1 (f : T → Bool) (mk : List T → α) : (Den.span1 f mk).Consuming := by
  intro b a c v r h
  unfold Den.span1 at h
  split at h
  · cases h
  split at h
  · cases h
  · cases h
    rename_i h
    have h1 := congrArg List.length (List.takeWhile_append_dropWhile (p := f) (l := a))
    rw [List.length_append] at h1
    cases h2 : a.takeWhile f with
    | nil => rw [h2] at h; exact absurd rfl h
    | cons t ts => rw [h2, List.length_cons] at h1; omega

theorem consuming_exactly {n : Nat} (hn : n ≠ 0) (f : List T → α) : (Den.exactly n f).Consuming := by
  intro b a c v r h
  unfold Den.exactly at h
  split at h
  · cases h; rw [List.length_drop]; omega
  · cases b <;> cases h

theorem consuming_text [DecidableEq T] {ts : List T} (hn : ts ≠ []) (v : α) : (Den.text ts v).Consuming := by
  intro b a c v r h
  have := List.length_pos_iff.2 hn
  unfold Den.text at h
  split at h
  · split at h
    · cases h; rw [List.length_drop]; omega
    · cases h
  · cases b <;> cases h

theorem consuming_tok (f : T → Option α) : (Den.tok f).Consuming := by
  intro b a c v r e
  cases a with
  | nil => cases b <;> simp [Den.tok, Den.short] at e
  | cons t ts =>
    simp only [Den.tok] at e
    cases hf : f t with
    | none => rw [hf] at e; cases e
    | some y => rw [hf] at e; cases e; simp

end Den

section
variable (hF : S.Feedable)
include hF

theorem resumable_skipMany {p : Parser S σ α} {D : Den S.Tok α} {r : Bool} (h : Resumable p D true r) (hc : D.Consuming) :
    Resumable (skipMany p) (D.many.map fun _ => ()) r true := by
  have := resumable_parserMacro hF (resumable_ignore hF (resumable_many hF (resumable_ignore hF h) (hc.map _)))
  rwa [Den.many_map, Den.map_map] at this

theorem resumable_skipMany1 {p : Parser S σ α} {D : Den S.Tok α} {r : Bool} (h : Resumable p D true r) (hc : D.Consuming) :
    Resumable (skipMany1 p) (D.many1.map fun _ => ()) r r := by
  have := resumable_parserMacro hF (resumable_ignore hF (resumable_many1 hF (resumable_ignore hF h) (hc.map _)))
  rwa [Den.many1_map, Den.map_map] at this

theorem resumable_sepEndBy {p : Parser S σ α} {sep : Parser S τ β} {D : Den S.Tok α} {E : Den S.Tok β} {rs : Bool}
    (h : Resumable p D true true) (hs : Resumable sep E true rs) (hc : E.Consuming) :
    Resumable (sepEndBy p sep) (D.sepEndBy E) true true := by
  have h1 := resumable_sepEndBy1 hF (resumable_boxed hF h) (resumable_boxed hF hs) hc
  have h2 : Resumable (emptyList S α) (Den.pure []) true true :=
    (atomic_value (S := S) [] (committed_ofLazy hF.lawful _ _ _ _ _) fun _ _ _ => rfl).resumable
  exact resumable_choice (alts_resumable_cons hF h1 (alts_resumable_last hF h2)) rfl (committed_ofMode hF.lawful _ _ _ _ _) rfl

theorem resumable_skipCountMinMax {p : Parser S σ α} {D : Den S.Tok α} {r r' : Bool} {lo hi : Nat} (h : Resumable p D true r)
    (hlo : lo ≤ hi) (hr : r' = true → r = true ∧ D.Consuming) :
    Resumable (skipCountMinMax lo hi p) ((D.count lo hi).map fun _ => ()) r r' := by
  have hv : Resumable (value S ()) (Den.pure ()) true true :=
    resumes_value () (committed_ofLazy hF.lawful _ _ _ _ _) fun _ _ _ => rfl
  have := resumable_parserMacro hF (resumable_with (r' := r') hF
    (resumable_countMinMax hF (r' := r') (resumable_map hF h fun _ => ()) hlo (fun e => ⟨(hr e).1, (hr e).2.map _⟩))
    (hv.weaken (k' := r) (r' := true) (fun _ => rfl) (fun _ => rfl))
    (fun e => ⟨e, fun b a v _ hs => by cases hs⟩))
  rw [Den.count_map] at this
  have he : ((Den.count D lo hi).map (List.map fun _ => ())).bind (fun _ => (Den.pure () : Den S.Tok Unit)) =
      (D.count lo hi).map fun _ => () := by
    funext b a
    simp only [Den.bind, Den.map]
    cases D.count lo hi b a with
    | ok c v r => cases c <;> rfl
    | _ => rfl
  rwa [he] at this

theorem both_with {p : Parser S σ α} {q : Parser S τ β} {D : Den S.Tok α} {E : Den S.Tok β}
    {k r r₂ r' : Bool} (h : Resumable p D k r) (h2 : Resumable q E k r₂)
    (hr : r' = true → r = true ∧ Den.Firm D E) :
    Resumable («with» p q) (D.bind fun _ => E) k r' ∧ LazyAs («with» p q) (D.bind fun _ => E) := by
  refine ⟨resumable_with hF h h2 hr, ?_⟩
  have ht := resumable_pair (r' := false) hF (resumable_ignore hF h) h2 fun e => by cases e
  have hl := (lazyAs_default hF.lawful ht fun _ => rfl).map (q := «with» p q) (fun x => x.2.1) fun _ => rfl
  rwa [Den.with_eq] at hl

end

variable [DecidableEq S.Tok] [DecidableEq S.Rng]

theorem frag_built {V : Ranges S} {p : Parser S σ α} {D : Den S.Tok α} {k r : Bool} (h : Frag V p D k r) :
    Built V.ops p := by
  apply @Frag.rec S _ _ V
    (fun p _ _ _ _ => Built V.ops p)
    (fun ps _ _ _ => ∀ q, ps.Mem q → Built V.ops q.2.2)
    (fun ps _ _ => ∀ q, ps.Mem q → Built V.ops q.2)
    (fun f _ _ _ _ _ => ∀ v, Built V.ops (f v))
    (fun ps _ _ _ _ _ => ∀ q, ps.Mem q → Built V.ops q.2)
  case t => exact h
  case weaken => intro _ _ _ _ _ _ _ _ _ hk hr ih; exact ih
  case any => exact .any
  case satisfy => intro f; exact .satisfy f
  case satisfyMap => intro _ f; exact .satisfyMap f
  case token => intro c; exact .token c
  case oneOf => intro ts; exact .oneOf ts
  case noneOf => intro ts; exact .noneOf ts
  case value => intro _ v; exact .value v
  case produce => intro _ f; exact .produce f
  case unexpected => intro α x; exact .unexpected α x
  case map => intro _ _ _ _ _ _ _ f _ ih; exact .map f ih
  case ignore => intro _ _ _ _ _ _ _ ih; exact .ignore ih
  case flatMap => intro _ _ _ _ _ _ _ _ f _ hr ih; exact .flatMap f ih
  case andThen => intro _ _ _ _ _ _ _ f _ hc ih; exact .andThen f ih
  case recognize => intro _ _ _ _ _ _ _ ih; exact .recognize ih
  case eitherLeft => intro _ _ _ _ _ _ τ _ ih; exact .eitherLeft τ ih
  case eitherRight => intro _ _ _ _ _ _ τ _ ih; exact .eitherRight τ ih
  case anyPartialState => intro _ _ _ _ _ _ _ ih; exact .anyPartialState ih
  case lazyP => intro _ _ _ _ _ _ _ ih; exact .lazyP ih
  case opaqueP => intro _ _ _ _ _ _ _ ih; exact .opaqueP ih
  case boxed => intro _ _ _ _ _ _ _ ih; exact .boxed ih
  case parserMacro => intro _ _ _ _ _ _ _ ih; exact .parserMacro ih
  case message => intro _ _ _ _ _ _ x _ ih; exact .message x ih
  case expected => intro _ _ _ _ _ _ x _ ih; exact .expected x ih
  case silent => intro _ _ _ _ _ _ _ ih; exact .silent ih
  case tuple => intro _ _ _ _ _ _ _ _ _ _ _ _ _ hr ih ih2; exact .tuple _ ih ih2
  case «with» => intro _ _ _ _ _ _ _ _ _ _ _ _ _ _ hr ih ih2; exact .with ih ih2
  case skip => intro _ _ _ _ _ _ _ _ _ _ _ _ _ _ hr ih ih2; exact .skip ih ih2
  case between =>
    intro _ _ _ _ _ _ _ _ _ _ _ _ _ _ _ _ _ _ _ _ hr ih ih2 ih3; exact .between ih ih3 ih2
  case thenP => intro _ _ _ _ _ _ _ _ _ _ _ _ _ _ _ _ hr ih ih2; exact .thenP _ ih ih2
  case thenRef => intro _ _ _ _ _ _ _ _ _ _ _ _ _ _ _ _ hr ih ih2; exact .thenRef _ ih ih2
  case thenPartial => intro _ _ _ _ _ _ _ _ _ _ _ _ _ _ _ _ hr ih ih2; exact .thenPartial _ ih ih2
  case choice => intro _ _ ps _ _ ih; exact .choice ih
  case or => intro _ _ _ _ _ _ _ _ _ _ _ _ _ ih ih2; exact .or ih ih2
  case optional => intro _ _ _ _ _ _ _ ih; exact .optional ih
  case dispatch => intro _ _ _ _ _ _ _ j _ ih; exact .dispatch j ih
  case many => intro _ _ _ _ _ _ hc ih; exact .many ih
  case many1 => intro _ _ _ _ _ _ hc ih; exact .many1 ih
  case sepEndBy1 => intro _ _ _ _ _ _ _ _ _ _ _ _ ih ih2; exact .sepEndBy1 ih ih2
  case sepEndBy => intro _ _ _ _ _ _ _ _ _ _ _ _ ih ih2; exact .sepEndBy ih ih2
  case chainl1 => intro _ _ _ _ _ _ _ _ _ _ _ _ ih ih2; exact .chainl1 ih ih2
  case skipMany => intro _ _ _ _ _ _ hc ih; exact .skipMany ih
  case skipMany1 => intro _ _ _ _ _ _ hc ih; exact .skipMany1 ih
  case countMinMax => intro _ _ _ _ _ _ _ _ _ hlo hr ih; exact .countMinMax _ _ ih
  case skipCountMinMax => intro _ _ _ _ _ _ _ _ _ hlo hr ih; exact .skipCountMinMax _ _ ih
  case iterate => intro _ _ _ items _ _ _ _ _ _ hr ih; exact .iterate items _ fun x _ => ih x
  case range => intro r hU hr; exact .range r
  case take => intro n hU; exact .take n
  case takeWhile => intro f hR; exact .takeWhile f
  case takeWhile1 => intro f hR; exact .takeWhile1 f
  case recognizeWithValue => intro _ _ _ _ _ _ hR _ ih; exact .recognizeWithValue ih
  case recognizeRange => intro _ _ _ _ _ _ hR _ ih; exact .recognizeRange ih
  case takeUntilRange => intro r hU; exact .takeUntilRange r
  case satisfyNamed => intro f n; exact .satisfyNamed f n
  case spaces => intro f n; exact .spaces f n
  case newline => intro lf; exact .newline lf
  case intParser => intro _ n conv hn; exact .intParser n conv
  case takeUntilByte => intro f hU; exact .takeUntilByte _ f
  case takeUntilBytes => intro f hU; exact .takeUntilBytes _ f
  case noPartial => intro _ _ _ _ _ _ _ ih; exact .noPartial ih
  case lookAhead => intro _ _ _ _ _ _ _ _ ih; exact .lookAhead ih
  case crlf => intro cr lf; exact .crlf cr lf
  case nil => intro _ q hq; cases hq
  case cons =>
    intro _ _ _ _ _ _ _ _ _ _ _ _ ih ih2 q hq
    rcases hq with rfl | hq
    · exact ih
    · exact ih2 q hq
  case last => intro _ _ _ _ _ _ _ ih q hq; cases hq; exact ih
  case cons =>
    intro _ _ _ _ _ _ _ _ _ _ _ ih ih2 q hq
    rcases hq with rfl | hq
    · exact ih
    · exact ih2 q hq
  case unit => intro _ _ _ _ _ _ _ ih; exact ih
  case const => intro _ _ _ _ _ _ _ _ ih _; exact ih
  case countMinMax => intro _ _ _ _ _ _ _ _ _ _ hlo hr ih v; exact .countMinMax _ _ ih
  case dispatch => intro _ _ _ _ _ _ _ _ sel _ ih v; exact .dispatch _ ih
  case map => intro _ _ _ _ _ _ _ _ _ g _ ih v; exact .map _ (ih v)
  case pair => intro _ _ _ _ _ _ _ _ _ _ _ _ _ _ _ _ _ _ ih ih2 v; exact .pair (ih v) (ih2 v)
  case «with» => intro _ _ _ _ _ _ _ _ _ _ _ _ _ _ _ _ _ _ ih ih2 v; exact .with (ih v) (ih2 v)
  case skip => intro _ _ _ _ _ _ _ _ _ _ _ _ _ _ _ _ _ _ ih ih2 v; exact .skip (ih v) (ih2 v)
  case last => intro _ _ _ _ _ _ _ ih q hq; cases hq; exact ih
  case cons =>
    intro _ _ _ _ _ _ _ _ _ _ _ _ ih ih2 q hq
    rcases hq with rfl | hq
    · exact ih
    · exact ih2 q hq


/-- The parser can be resumed, and `parse_lazy` of it agrees. -/
theorem frag_both (hF : S.Feedable) {V : Ranges S} {p : Parser S σ α} {D : Den S.Tok α} {k r : Bool}
    (h : Frag V p D k r) : Resumable p D k r ∧ LazyAs p D := by
  have hS := hF.lawful
  apply @Frag.rec S _ _ V
    (fun p D k r _ => Resumable p D k r ∧ LazyAs p D)
    (fun ps D k _ => SeqResumable ps D k)
    (fun ps D _ => AltsResumable ps D)
    (fun f F k r n _ => ResumableAll f F k r n)
    (fun ps F k r n _ => ResumableAll (armP ps) F k r n)
  case t => exact h
  case weaken => intro _ _ _ _ _ _ _ _ _ hk hr ih; exact ⟨ih.1.weaken hk hr, ih.2⟩
  case any => exact both_atomic (atomic_any hF)
  case satisfy => intro f; exact both_atomic (atomic_tok hF _ (committed_ofLazy hS _ _ _ _ _) fun _ _ _ => rfl)
  case satisfyMap => intro _ f; exact both_atomic (atomic_tok hF _ (committed_ofLazy hS _ _ _ _ _) fun _ _ _ => rfl)
  case token => intro c; exact both_atomic (atomic_tok hF _ (committed_ofLazy hS _ _ _ _ _) fun _ _ _ => rfl)
  case oneOf =>
    intro ts
    refine both_atomic (atomic_tok hF _ (committed_ofLazy hS _ _ _ _ _) fun m i s => ?_)
    have : (fun c : S.Tok => if (ts.any fun t => t = c) then some c else none) = fun c => if c ∈ ts then some c else none := by
      funext c
      simp only [List.any_eq_true, decide_eq_true_eq, exists_eq_right]
    simp only [satisfy, Parser.ofLazy, this]
  case noneOf =>
    intro ts
    refine both_atomic (atomic_tok hF _ (committed_ofLazy hS _ _ _ _ _) fun m i s => ?_)
    have : (fun c : S.Tok => if (ts.all fun t => t ≠ c) then some c else none) = fun c => if c ∈ ts then none else some c := by
      funext c
      simp only [List.all_eq_true, decide_eq_true_eq, ne_eq]
      by_cases h : c ∈ ts
      · simp [h]
      · have hn : ∀ t, t ∈ ts → ¬t = c := fun t ht e => h (e ▸ ht)
        rw [if_neg h, if_pos hn]
    simp only [satisfy, Parser.ofLazy, this]
  case value => intro _ v; exact both_atomic (atomic_value v (committed_ofLazy hS _ _ _ _ _) fun _ _ _ => rfl)
  case produce => intro _ f; exact both_atomic (atomic_value _ (committed_ofLazy hS _ _ _ _ _) fun _ _ _ => rfl)
  case unexpected => intro α x; exact both_atomic (atomic_never (committed_ofLazy hS _ _ _ _ _) fun _ _ _ => ⟨_, rfl⟩)
  case map => intro _ _ _ _ _ _ _ f _ ih; exact both_default hS (resumable_map hF ih.1 f) fun _ => rfl
  case ignore => intro _ _ _ _ _ _ _ ih; exact ⟨resumable_ignore hF ih.1, ih.2.map _ fun _ => rfl⟩
  case flatMap => intro _ _ _ _ _ _ _ _ f _ hr ih; exact both_default hS (resumable_flatMap hF ih.1 f hr) fun _ => rfl
  case andThen => intro _ _ _ _ _ _ _ f _ hc ih; exact both_default hS (resumable_andThen hF ih.1 f hc) fun _ => rfl
  case recognize => intro _ _ _ _ _ _ _ ih; exact both_default hS (resumable_recognize hF ih.1) fun _ => rfl
  case eitherLeft => intro _ _ _ _ _ _ τ _ ih; exact ⟨resumable_eitherLeft hF ih.1 τ, ih.2.forward fun _ => rfl⟩
  case eitherRight => intro _ _ _ _ _ _ τ _ ih; exact ⟨resumable_eitherRight hF ih.1 τ, ih.2.forward fun _ => rfl⟩
  case anyPartialState => intro _ _ _ _ _ _ _ ih; exact ⟨resumable_anyPartialState hF ih.1, ih.2.forward fun _ => rfl⟩
  case lazyP => intro _ _ _ _ _ _ _ ih; exact ⟨resumable_lazy ih.1, ih.2.forward fun _ => rfl⟩
  case opaqueP => intro _ _ _ _ _ _ _ ih; exact ⟨resumable_opaque hF ih.1, ih.2.forward fun _ => rfl⟩
  case boxed => intro _ _ _ _ _ _ _ ih; exact both_default hS (resumable_boxed hF ih.1) fun _ => rfl
  case parserMacro => intro _ _ _ _ _ _ _ ih; exact both_default hS (resumable_parserMacro hF ih.1) fun _ => rfl
  case message => intro _ _ _ _ _ _ x _ ih; exact both_default hS (resumable_message hF ih.1 x) fun _ => rfl
  case expected => intro _ _ _ _ _ _ x _ ih; exact both_default hS (resumable_expected hF ih.1 x) fun _ => rfl
  case silent => intro _ _ _ _ _ _ _ ih; exact both_default hS (resumable_silent hF ih.1) fun _ => rfl
  case tuple => intro _ _ _ _ _ _ _ _ _ _ _ _ _ hr ih ih2; exact both_default hS (resumable_tuple hF ih.1 ih2 hr) fun _ => rfl
  case «with» => intro _ _ _ _ _ _ _ _ _ _ _ _ _ _ hr ih ih2; exact both_with hF ih.1 ih2.1 hr
  case skip => intro _ _ _ _ _ _ _ _ _ _ _ _ _ _ hr ih ih2; exact both_default hS (resumable_skip hF ih.1 ih2.1 hr) fun _ => rfl
  case between =>
    intro _ _ _ _ _ _ _ _ _ _ _ _ _ _ _ _ _ _ _ _ hr ih ih2 ih3; exact both_default hS (resumable_between hF ih.1 ih2.1 ih3.1 hr) fun _ => rfl
  case thenP => intro _ _ _ _ _ _ _ _ _ _ _ _ _ _ _ _ hr ih ih2; exact both_default hS (resumable_then hF ih.1 ih2 hr) fun _ => rfl
  case thenRef => intro _ _ _ _ _ _ _ _ _ _ _ _ _ _ _ _ hr ih ih2; exact both_default hS (resumable_thenRef hF ih.1 ih2 hr) fun _ => rfl
  case thenPartial => intro _ _ _ _ _ _ _ _ _ _ _ _ _ _ _ _ hr ih ih2; exact both_default hS (resumable_thenPartial hF ih.1 ih2 hr) fun _ => rfl
  case choice => intro _ _ ps _ _ ih; exact both_default hS (resumable_choice ih rfl (committed_ofMode hS _ _ _ _ _) rfl) fun _ => rfl
  case or =>
    intro _ _ _ _ _ _ _ _ _ _ _ _ _ ih ih2
    exact both_default hS (resumable_choice (alts_resumable_cons hF ih.1 (alts_resumable_last hF ih2.1)) rfl (committed_ofMode hS _ _ _ _ _) rfl) fun _ => rfl
  case optional => intro _ _ _ _ _ _ _ ih; exact both_default hS (resumable_optional hF ih.1) fun _ => rfl
  case dispatch => intro _ _ _ _ _ _ _ j _ ih; exact both_default hS (resumable_dispatch hF ih j) fun _ => rfl
  case many => intro _ _ _ _ _ _ hc ih; exact both_default hS (resumable_many hF ih.1 hc) fun _ => rfl
  case many1 => intro _ _ _ _ _ _ hc ih; exact both_default hS (resumable_many1 hF ih.1 hc) fun _ => rfl
  case sepEndBy1 => intro _ _ _ _ _ _ _ _ _ _ _ hc ih ih2; exact both_default hS (resumable_sepEndBy1 hF ih.1 ih2.1 hc) fun _ => rfl
  case sepEndBy => intro _ _ _ _ _ _ _ _ _ _ _ hc ih ih2; exact both_default hS (resumable_sepEndBy hF ih.1 ih2.1 hc) fun _ => rfl
  case chainl1 => intro _ _ _ _ _ _ _ _ _ _ _ hc ih ih2; exact both_default hS (resumable_chainl1 hF ih.1 ih2.1 hc) fun _ => rfl
  case skipMany => intro _ _ _ _ _ _ hc ih; exact both_default hS (resumable_skipMany hF ih.1 hc) fun _ => rfl
  case skipMany1 => intro _ _ _ _ _ _ hc ih; exact both_default hS (resumable_skipMany1 hF ih.1 hc) fun _ => rfl
  case countMinMax => intro _ _ _ _ _ _ _ _ _ hlo hr ih; exact both_default hS (resumable_countMinMax hF ih.1 hlo hr) fun _ => rfl
  case skipCountMinMax => intro _ _ _ _ _ _ _ _ _ hlo hr ih; exact both_default hS (resumable_skipCountMinMax hF ih.1 hlo hr) fun _ => rfl
  case iterate => intro _ _ _ items _ _ _ _ _ _ hr ih; exact both_default hS (resumable_iterate hF ih items hr) fun _ => rfl
  case range => intro r hU hr; exact both_atomic (atomic_range hF hU.ops hr)
  case take => intro n hU; exact both_atomic (atomic_take hF hU.ops hU.mkR n)
  case takeWhile => intro f hR; exact both_default hS (resumable_takeWhile hF hR.ops hR.mkR f) fun _ => rfl
  case takeWhile1 => intro f hR; exact both_default hS (resumable_takeWhile1 hF hR.ops hR.mkR f) fun _ => rfl
  case recognizeWithValue => intro _ _ _ _ _ _ hR _ ih; exact both_default hS (resumable_recognizeWithValue hF hR.ops hR.mkR ih.1) fun _ => rfl
  case recognizeRange => intro _ _ _ _ _ _ hR _ ih; exact both_default hS (resumable_recognizeRange hF hR.ops hR.mkR ih.1) fun _ => rfl
  case takeUntilRange => intro r hU; exact both_default hS (resumable_takeUntilRange hF hU.ops hU.mkR r) fun _ => rfl
  case satisfyNamed =>
    intro f n
    exact both_default hS (resumable_expected hF (resumes_tok hF _ (committed_ofLazy hS _ _ _ _ _) fun _ _ _ => rfl) _) fun _ => rfl
  case spaces =>
    intro f n
    refine both_default hS (resumable_expected hF (resumable_skipMany hF (resumable_expected hF
      (resumes_tok hF _ (committed_ofLazy hS _ _ _ _ _) fun _ _ _ => rfl) _) (Den.consuming_tok _)) _) fun _ => rfl
  case newline =>
    intro lf
    refine both_default hS (resumable_expected hF (p := satisfy S fun c => c = lf)
      (resumes_tok hF _ (committed_ofLazy hS _ _ _ _ _) fun m i s => ?_) _) fun _ => rfl
    simp only [satisfy, Parser.ofLazy, decide_eq_true_eq]
  case intParser => intro _ n conv hn; exact both_atomic (atomic_intParser hF hn conv)
  case takeUntilByte => intro f hU; exact both_default hS (resumable_takeUntilByte hF hU.ops hU.mkR hU.bytes f) fun _ => rfl
  case takeUntilBytes => intro f hU; exact both_default hS (resumable_takeUntilBytes hF hU.ops hU.mkR hU.bytes f) fun _ => rfl
  case noPartial => intro _ _ _ _ _ _ _ ih; exact both_atomic (atomic_noPartial hS ih.1.good ih.2)
  case lookAhead =>
    intro _ _ _ _ _ _ hV h ih
    exact both_atomic (atomic_lookAhead hS ih.1.good ih.2 ((frag_built h).moves hS hV.ops).lazy)
  case crlf =>
    intro cr lf
    have h1 : Resumable (satisfy S fun c => c = cr) (Den.tok fun t => if t = cr then some t else none) true true :=
      resumes_tok hF _ (committed_ofLazy hS _ _ _ _ _) fun m i s => by simp only [satisfy, Parser.ofLazy, decide_eq_true_eq]
    have h2 : Resumable (newline S lf) (Den.tok fun t => if t = lf then some t else none) true true :=
      resumable_expected hF (p := satisfy S fun c => c = lf)
        (resumes_tok hF _ (committed_ofLazy hS _ _ _ _ _) fun m i s => by
          simp only [satisfy, Parser.ofLazy, decide_eq_true_eq]) _
    have h3 := both_with hF (r' := false) h1 h2 fun e => by cases e
    exact both_default hS (resumable_expected hF (atomic_noPartial hS h3.1.good h3.2).resumable _) fun _ => rfl
  case nil => intro _; exact seq_resumable_nil
  case cons => intro _ _ _ _ _ _ _ _ _ _ _ _ ih ih2; exact seq_resumable_cons hF ih.1 ih2
  case last => intro _ _ _ _ _ _ _ ih; exact alts_resumable_last hF ih.1
  case cons => intro _ _ _ _ _ _ _ _ _ _ _ ih ih2; exact alts_resumable_cons hF ih.1 ih2
  case unit => intro _ _ _ _ _ _ _ ih; exact resumableAll_unit fun v => (ih v).1
  case const => intro _ _ _ _ _ _ _ _ ih; exact resumableAll_const ih.1
  case countMinMax => intro _ _ _ _ _ _ _ _ _ _ hlo hr ih; exact resumableAll_countMinMax hF ih.1 hlo hr
  case dispatch => intro _ _ _ _ _ _ _ _ sel _ ih; exact resumableAll_dispatch hF ih sel
  case map => intro _ _ _ _ _ _ _ _ _ g _ ih; exact resumableAll_map hF ih g
  case pair => intro _ _ _ _ _ _ _ _ _ _ _ _ _ _ _ _ _ hr ih ih2; exact resumableAll_pair hF ih ih2 hr
  case «with» => intro _ _ _ _ _ _ _ _ _ _ _ _ _ _ _ _ _ hr ih ih2; exact resumableAll_with hF ih ih2 hr
  case skip => intro _ _ _ _ _ _ _ _ _ _ _ _ _ _ _ _ _ hr ih ih2; exact resumableAll_skip hF ih ih2 hr
  case last => intro _ _ _ _ _ _ _ ih; exact resumableAll_last hF ih.1
  case cons => intro _ _ _ _ _ _ _ _ _ _ _ _ ih ih2; exact resumableAll_cons hF ih.1 ih2

theorem frag_resumable (hF : S.Feedable) {V : Ranges S} {p : Parser S σ α} {D : Den S.Tok α} {k r : Bool}
    (h : Frag V p D k r) : Resumable p D k r := (frag_both hF h).1

end Verif
