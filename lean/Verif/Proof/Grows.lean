import Verif.Spec.Built

/-! # What a parser does to an error when it describes itself -/

namespace Verif

/-- A relation between errors that holds along everything `add_error`s are made of. -/
structure Growth {T R P : Type} (E : ErrOps T R P) (Ext : E.Err → E.Err → Prop) : Prop where
  refl : ∀ e, Ext e e
  trans : ∀ {a b c}, Ext a b → Ext b c → Ext a c
  add : ∀ e x, Ext e (E.add e x)
  label : ∀ (t : Tracked E.Err) x f, Ext t.error (f t).error → Ext t.error (E.setExpected t x f).error

/-- The parser's `add_error` follows the relation. -/
def Parser.Grows {S : Strm} {σ α : Type} (Ext : S.Err → S.Err → Prop) (p : Parser S σ α) : Prop :=
  ∀ t, Ext t.error (p.addError t).error

variable {S : Strm} {R : RangeOps S} {Ext : S.Err → S.Err → Prop}

theorem Seq.addErrors_grows (hE : Growth S.E Ext) {τ β : Type} (ps : Seq S τ β)
    (h : ∀ q, ps.Mem q → q.2.2.Grows Ext) (t : Tracked S.Err) : Ext t.error (ps.addErrors t).error := by
  induction ps generalizing t with
  | nil => exact hE.refl _
  | cons p ps ih =>
    have hp := h ⟨_, _, p⟩ (.inl rfl) t
    have ih' := fun t => ih (fun q hq => h q (.inr hq)) t
    simp only [Seq.addErrors]
    split
    · exact hp
    · cases ps with
      | nil => exact hp
      | cons q qs =>
        refine hE.trans hp ?_
        have := ih' (if (p.addError t).offset = t.offset then
          { p.addError t with offset := (p.addError t).offset - p.count } else p.addError t)
        split at this
        · rename_i hh; simp only [if_pos hh]; exact this
        · rename_i hh; simp only [if_neg hh]; exact this

theorem tuple_grows (hE : Growth S.E Ext) {σ τ α β : Type} {p : Parser S σ α} (ps : Seq S τ β)
    (hp : p.Grows Ext) (h : ∀ q, ps.Mem q → q.2.2.Grows Ext) : (tuple p ps).Grows Ext := by
  intro t
  simp only [tuple, Parser.ofMode]
  split
  · exact hp t
  · refine hE.trans (hp t) ?_
    have := Seq.addErrors_grows hE ps h (if (p.addError t).offset = t.offset then
          { p.addError t with offset := (p.addError t).offset - p.count } else p.addError t)
    split at this
    · rename_i hh; simp only [if_pos hh]; exact this
    · rename_i hh; simp only [if_neg hh]; exact this

theorem Alts.addErrors_grows (hE : Growth S.E Ext) {σ α : Type} (ps : Alts S α σ)
    (h : ∀ q, ps.Mem q → q.2.Grows Ext) (t : Tracked S.Err) : Ext t.error (ps.addErrors t).error := by
  induction ps generalizing t with
  | last p => exact h ⟨_, p⟩ rfl { t with offset := 1 }
  | cons p ps ih =>
    exact hE.trans (h ⟨_, p⟩ (.inl rfl) { t with offset := 1 }) (ih (fun q hq => h q (.inr hq)) _)

theorem Alts.armAddError_grows {σ α : Type} (ps : Alts S α σ)
    (h : ∀ q, ps.Mem q → q.2.Grows Ext) (k : Nat) (t : Tracked S.Err) :
    Ext t.error (ps.armAddError k t).error := by
  induction ps generalizing k with
  | last p => exact h ⟨_, p⟩ rfl t
  | cons p ps ih =>
    cases k with
    | zero => exact h ⟨_, p⟩ (.inl rfl) t
    | succ k => exact ih (fun q hq => h q (.inr hq)) k

theorem choiceAddError_grows (hE : Growth S.E Ext) (f : Tracked S.Err → Tracked S.Err)
    (h : ∀ t, Ext t.error (f t).error) (t : Tracked S.Err) : Ext t.error (choiceAddError f t).error := by
  simp only [choiceAddError]
  split
  · exact h t
  · exact hE.refl _

theorem addOnes_grows (hE : Growth S.E Ext) {σ α : Type} (ps : List (Parser S σ α))
    (h : ∀ q ∈ ps, q.Grows Ext) (t : Tracked S.Err) : Ext t.error (addOnes ps t).error := by
  simp only [addOnes]
  induction ps generalizing t with
  | nil => exact hE.refl _
  | cons p ps ih =>
    exact hE.trans (h p (.head _) { t with offset := 1 }) (ih (fun q hq => h q (.tail _ hq)) _)

theorem expected_grows (hE : Growth S.E Ext) {σ α : Type} {p : Parser S σ α} (x : Info S.Tok S.Rng)
    (h : p.Grows Ext) : (expected p x).Grows Ext := fun t => hE.label t _ _ (h t)

theorem mem_pair {q : Σ (σ : Type) (α : Type), Parser S σ α} {τ β : Type} {p : Parser S τ β}
    (h : Seq.Mem (.cons p .nil) q) : q = ⟨_, _, p⟩ := by
  rcases h with h | h
  · exact h
  · exact h.elim

theorem pair_grows (hE : Growth S.E Ext) {σ τ α β : Type} {p : Parser S σ α} {q : Parser S τ β}
    (hp : p.Grows Ext) (hq : q.Grows Ext) : (pair p q).Grows Ext :=
  tuple_grows hE _ hp fun r hr => by cases mem_pair hr; exact hq

theorem or_grows (hE : Growth S.E Ext) {σ τ α : Type} {p : Parser S σ α} {q : Parser S τ α}
    (hp : p.Grows Ext) (hq : q.Grows Ext) : (or p q).Grows Ext := by
  intro t
  simp only [or, Parser.ofMode, choice]
  split
  · refine choiceAddError_grows hE _ (Alts.addErrors_grows hE _ fun r hr => ?_) t
    rcases hr with rfl | rfl
    · exact hp
    · exact hq
  · exact hE.refl _

theorem with_grows (hE : Growth S.E Ext) {σ τ α β : Type} {p : Parser S σ α} {q : Parser S τ β}
    (hp : p.Grows Ext) (hq : q.Grows Ext) : («with» p q).Grows Ext :=
  fun t => pair_grows hE (p := ignore p) hp hq t

theorem value_grows (hE : Growth S.E Ext) {α : Type} (v : α) : (value S v).Grows Ext := fun _ => hE.refl _

variable [DecidableEq S.Tok] [DecidableEq S.Rng]

/-- Everything built from the library's parsers does so. -/
theorem Built.grows (hE : Growth S.E Ext) {σ α : Type} {p : Parser S σ α} (h : Built R p) : p.Grows Ext := by
  have one : ∀ (x : Info S.Tok S.Rng) (t : Tracked S.Err), Ext t.error (addExpected S x t).error :=
    fun x t => hE.add _ _
  induction h with
  | token c => exact fun t => one _ t
  | tokens cmp x ts => exact fun t => one _ t
  | oneOf ts =>
    intro t
    have : ∀ (ts : List S.Tok) (t : Tracked S.Err),
        Ext t.error (ts.foldl (fun e t => addExpected S (.token t) e) t).error := by
      intro ts
      induction ts with
      | nil => exact fun t => hE.refl _
      | cons x xs ih => exact fun t => hE.trans (one (.token x) t) (ih _)
    exact this ts t
  | eof => exact fun t => one _ t
  | fnParser f hf => exact fun t => hE.refl _
  | inputConverter p c b e hb => exact fun t => hE.refl _
  | unexpected α x => exact fun t => hE.add _ _
  | message x _ ih => exact fun t => hE.trans (ih t) (hE.add _ _)
  | expected x _ ih => exact expected_grows hE x ih
  | tuple ps _ _ ih ih' => exact tuple_grows hE ps ih ih'
  | pair _ _ ih ih' => exact pair_grows hE ih ih'
  | «with» _ _ ih ih' => exact with_grows hE ih ih'
  | skip _ _ ih ih' => exact fun t => pair_grows hE (q := Verif.ignore _) ih ih' t
  | between _ _ _ ih ih' ih'' =>
    intro t
    refine tuple_grows hE _ ih (fun q hq => ?_) t
    rcases hq with rfl | hq
    · exact ih''
    · cases mem_pair hq; exact ih'
  | choice _ ih => exact fun t => choiceAddError_grows hE _ (Alts.addErrors_grows hE _ ih) t
  | or _ _ ih ih' => exact or_grows hE ih ih'
  | sliceChoice all init _ ih => exact fun t => choiceAddError_grows hE _ (addOnes_grows hE all ih) t
  | dispatch k _ ih => exact fun t => Alts.armAddError_grows _ ih k t
  | escaped esc _ _ ih ih' => exact fun t => hE.trans (ih t) (hE.add _ _)
  | range r => exact fun t => one _ t
  | satisfyNamed f n => exact fun t => hE.label t _ _ (hE.refl _)
  | spaces f n => exact fun t => hE.label t _ _ (hE.label t _ _ (hE.refl _))
  | newline lf => exact fun t => hE.label t _ _ (hE.refl _)
  | crlf cr lf =>
    exact fun t => hE.label t _ _ (with_grows hE (p := Verif.satisfy S fun c => c = cr)
      (q := Verif.newline S lf) (fun t => hE.refl _) (fun t => hE.label t _ _ (hE.refl _)) t)
  | skipCount n _ ih => exact with_grows hE (p := Verif.count n (Verif.map _ fun _ => ())) ih (value_grows hE ())
  | skipCountMinMax lo hi _ ih =>
    exact with_grows hE (p := Verif.countMinMax lo hi (Verif.map _ fun _ => ())) ih (value_grows hE ())
  | skipUntil _ ih => exact with_grows hE (p := Verif.takeUntil _) (fun t => hE.refl _) (value_grows hE ())
  | repeatSkipUntil _ _ ih ih' =>
    exact with_grows hE (p := Verif.repeatUntil _ _) (fun t => hE.refl _) (value_grows hE ())
  | stringCmp ts cmp x v => exact fun t => hE.label t _ _ (hE.refl _)
  | regexMatch re => exact fun t => one _ t
  | regexFind re => exact fun t => one _ t
  | regexFindMany re => exact fun t => one _ t
  | regexCaptures re => exact fun t => one _ t
  | regexCapturesMany re => exact fun t => one _ t
  | lengthPrefix f _ ih => exact fun t => ih t
  | _ => first | exact fun t => hE.refl _ | (rename_i ih; exact fun t => ih t) | (rename_i ih _; exact fun t => ih t)

end Verif
