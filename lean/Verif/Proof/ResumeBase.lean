import Verif.Proof.Coherent
import Verif.Proof.RangeLemmas
import Verif.Spec.Resume

/-!
# What it means that a parser can be resumed
-/

namespace Verif

variable {S : Strm} {σ τ α β : Type}

/-! ## The tokens left -/

section
variable (hS : S.Lawful)
include hS

theorem Strm.Lawful.left_cons {i j : S.Input} {t : S.Tok} (h : S.uncons i = (.ok t, j)) :
    S.left i = t :: S.left j := by
  unfold Strm.left
  rw [hS.size h]
  simp only [Strm.leftN, h]

omit hS in
theorem Strm.left_error {i j : S.Input} {e : S.SErr} (h : S.uncons i = (.error e, j)) :
    S.left i = [] := by
  unfold Strm.left
  cases S.size i with
  | zero => rfl
  | succ n => simp only [Strm.leftN, h]

theorem Strm.Lawful.left_reads {i j : S.Input} {ts : List S.Tok} (h : S.Reads i ts j) :
    S.left i = ts ++ S.left j := by
  induction h with
  | nil => rfl
  | cons hu _ ih => rw [hS.left_cons hu, ih]; rfl

theorem Strm.Lawful.uncons_of_left {i : S.Input} {t : S.Tok} {ts : List S.Tok} (h : S.left i = t :: ts) :
    ∃ j, S.uncons i = (.ok t, j) ∧ S.left j = ts := by
  cases hu : S.uncons i with
  | mk r j =>
    cases r with
    | error e => rw [Strm.left_error hu] at h; cases h
    | ok t' =>
      rw [hS.left_cons hu] at h
      cases h
      exact ⟨j, rfl, rfl⟩

theorem Strm.Lawful.uncons_of_left_nil {i : S.Input} (h : S.left i = []) :
    ∃ e, S.uncons i = (.error e, i) := by
  cases hu : S.uncons i with
  | mk r j =>
    cases r with
    | error e => cases hS.uncons_error hu; exact ⟨e, rfl⟩
    | ok t => rw [hS.left_cons hu] at h; cases h

theorem Strm.Lawful.reads_of_left {i : S.Input} {x r : List S.Tok} (h : S.left i = x ++ r) :
    ∃ j, S.Reads i x j ∧ S.left j = r := by
  induction x generalizing i with
  | nil => exact ⟨i, .nil i, h⟩
  | cons t x ih =>
    obtain ⟨j, h1, h2⟩ := hS.uncons_of_left h
    obtain ⟨k, h3, h4⟩ := ih h2
    exact ⟨k, .cons h1 h3, h4⟩

theorem Strm.Lawful.reach_of_left {i j : S.Input} (h : S.Reach i j) :
    ∃ x, S.Reads i x j ∧ S.left i = x ++ S.left j := by
  obtain ⟨x, h⟩ := h
  exact ⟨x, h, hS.left_reads h⟩

theorem Strm.Lawful.size_left (i : S.Input) : (S.left i).length ≤ S.size i := by
  obtain ⟨j, h, _⟩ := hS.reads_of_left (i := i) (x := S.left i) (r := []) (by simp)
  have := hS.reads_size h
  omega

theorem Strm.Lawful.reach_isPartial {i j : S.Input} (h : S.Reach i j) : S.isPartial j = S.isPartial i := by
  obtain ⟨x, h⟩ := h
  exact hS.reads_isPartial h

end

theorem Strm.Reads.left_eq (hS : S.Lawful) {i j : S.Input} {x r : List S.Tok} (h : S.Reads i x j)
    (hl : S.left i = x ++ r) : S.left j = r := by
  have := hS.left_reads h
  rw [hl] at this
  exact (List.append_cancel_left this).symm

/-! ## Good outcomes -/

namespace Outcome
variable {T : Type}

theorem extend_ok {c : Bool} {v : α} {r x : List T} : (ok c v r).extend x = ok c v (r ++ x) := rfl
theorem extend_map (o : Outcome T α) (f : α → β) (x : List T) : (o.map f).extend x = (o.extend x).map f := by
  cases o <;> rfl
theorem extend_after (o : Outcome T α) (c : Bool) (x : List T) : (o.after c).extend x = (o.extend x).after c := by
  cases o <;> cases c <;> rfl
theorem map_pend {o : Outcome T α} {f : α → β} : o.map f = pend ↔ o = pend := by cases o <;> simp [map]
theorem map_soft {o : Outcome T α} {f : α → β} : o.map f = soft ↔ o = soft := by cases o <;> simp [map]
theorem map_hard {o : Outcome T α} {f : α → β} : o.map f = hard ↔ o = hard := by cases o <;> simp [map]
theorem map_ok {o : Outcome T α} {f : α → β} {c y r} : o.map f = ok c y r ↔ ∃ v, o = ok c v r ∧ f v = y := by
  cases o with
  | ok c' v r' =>
    simp only [map, ok.injEq]
    constructor
    · rintro ⟨rfl, rfl, rfl⟩; exact ⟨v, ⟨rfl, rfl, rfl⟩, rfl⟩
    · rintro ⟨v', ⟨rfl, rfl, rfl⟩, rfl⟩; exact ⟨rfl, rfl, rfl⟩
  | _ => simp [map]
theorem after_pend {o : Outcome T α} {c : Bool} : o.after c = pend ↔ o = pend := by
  cases o <;> cases c <;> simp [after]
theorem after_ok {o : Outcome T α} {c d : Bool} {v : α} {r : List T} :
    o.after c = ok d v r ↔ ∃ d', o = ok d' v r ∧ (c || d') = d := by
  cases o with
  | ok c' v' r' =>
    simp only [after, ok.injEq]
    constructor
    · rintro ⟨rfl, rfl, rfl⟩; exact ⟨c', ⟨rfl, rfl, rfl⟩, rfl⟩
    · rintro ⟨d', ⟨rfl, rfl, rfl⟩, rfl⟩; exact ⟨rfl, rfl, rfl⟩
  | soft => cases c <;> simp [after]
  | pend => simp [after]
  | hard => simp [after]
theorem after_soft {o : Outcome T α} {c : Bool} : o.after c = soft ↔ o = soft ∧ c = false := by
  cases o <;> cases c <;> simp [after]
theorem after_false (o : Outcome T α) : o.after false = o := by cases o <;> simp [after]
theorem after_after (o : Outcome T α) (c d : Bool) : (o.after c).after d = o.after (d || c) := by
  cases o <;> cases c <;> cases d <;> simp [after]

end Outcome

/-- Outcomes that more tokens do not change, that never ask for more when there is none, and that tell
truthfully whether something was consumed. -/
structure Den.Good {T : Type} (D : Den T α) : Prop where
  stable : ∀ a x b, D true a ≠ .pend → D b (a ++ x) = (D true a).extend x
  complete : ∀ a, D false a ≠ .pend
  read : ∀ {b a c v r}, D b a = .ok c v r → ∃ x, a = x ++ r ∧ c = !x.isEmpty

namespace Den.Good
variable {T : Type}

theorem unread {D : Den T α} (h : D.Good) {b a v r} (hd : D b a = .ok false v r) : r = a := by
  obtain ⟨x, rfl, hx⟩ := h.read hd
  cases x with
  | nil => rfl
  | cons => cases hx

theorem stable_ok {D : Den T α} (h : D.Good) {a c v r} (hd : D true a = .ok c v r) (b : Bool) (x : List T) :
    D b (a ++ x) = .ok c v (r ++ x) := by
  rw [h.stable a x b (by rw [hd]; simp), hd]; rfl

theorem stable_soft {D : Den T α} (h : D.Good) {a} (hd : D true a = .soft) (b : Bool) (x : List T) :
    D b (a ++ x) = .soft := by
  rw [h.stable a x b (by rw [hd]; simp), hd]; rfl

/-- What is decided on `w ++ z` with `z` left stays decided when `z` becomes longer. -/
theorem stable_prefix {D : Den T α} (h : D.Good) {w z y : List T} {c v} (hd : D true (w ++ z) = .ok c v z)
    (hz : z <+: y) (b : Bool) : D b (w ++ y) = .ok c v y := by
  obtain ⟨x, rfl⟩ := hz
  rw [← List.append_assoc]
  exact h.stable_ok hd b x

theorem tok (f : T → Option α) : (Den.tok f).Good where
  stable a x b h := by
    cases a with
    | nil => simp [Den.tok, Den.short] at h
    | cons t ts => simp only [Den.tok, List.cons_append]; cases f t <;> rfl
  complete a := by
    cases a with
    | nil => simp [Den.tok, Den.short]
    | cons t ts => simp only [Den.tok]; cases f t <;> simp
  read {b a c v r} h := by
    cases a with
    | nil => cases b <;> simp [Den.tok, Den.short] at h
    | cons t ts =>
      simp only [Den.tok] at h
      cases hf : f t with
      | none => rw [hf] at h; cases h
      | some y => rw [hf] at h; cases h; exact ⟨[t], rfl, rfl⟩

theorem pure (v : α) : (Den.pure v : Den T α).Good where
  stable a x b h := rfl
  complete a := by simp [Den.pure]
  read h := by simp only [Den.pure, Outcome.ok.injEq] at h; exact ⟨[], by simp [h], h.1.symm⟩

theorem never : (Den.never : Den T α).Good where
  stable a x b h := rfl
  complete a := by simp [Den.never]
  read h := by cases h

theorem map {D : Den T α} (h : D.Good) (f : α → β) : (D.map f).Good where
  stable a x b hp := by
    simp only [Den.map] at *
    rw [Outcome.extend_map, h.stable a x b (fun e => hp (Outcome.map_pend.2 e))]
  complete a e := h.complete a (Outcome.map_pend.1 e)
  read e := by
    obtain ⟨v, e, _⟩ := Outcome.map_ok.1 e
    exact h.read e

theorem bind {D : Den T α} {F : α → Den T β} (h : D.Good) (hF : ∀ v, (F v).Good) : (D.bind F).Good where
  stable a x b hp := by
    simp only [Den.bind] at *
    cases hd : D true a with
    | ok c v r =>
      rw [hd] at hp
      rw [h.stable_ok hd b x]
      simp only at hp ⊢
      rw [Outcome.extend_after, (hF v).stable r x b (fun e => hp (Outcome.after_pend.2 e))]
    | pend => rw [hd] at hp; simp at hp
    | soft => rw [h.stable_soft hd b x]; rfl
    | hard => rw [h.stable a x b (by rw [hd]; simp), hd]; rfl
  complete a := by
    simp only [Den.bind]
    cases hd : D false a with
    | ok c v r => exact fun e => (hF v).complete r (Outcome.after_pend.1 e)
    | pend => exact absurd hd (h.complete a)
    | soft => simp
    | hard => simp
  read {b a c v r} e := by
    simp only [Den.bind] at e
    cases hd : D b a with
    | ok c v r =>
      rw [hd] at e
      obtain ⟨d', e', rfl⟩ := Outcome.after_ok.1 e
      obtain ⟨x, rfl, rfl⟩ := h.read hd
      obtain ⟨y, rfl, rfl⟩ := (hF v).read e'
      exact ⟨x ++ y, by simp, by cases x <;> simp⟩
    | pend => rw [hd] at e; cases e
    | soft => rw [hd] at e; cases e
    | hard => rw [hd] at e; cases e

theorem seq {D : Den T α} {E : Den T β} (h : D.Good) (hE : E.Good) : (D.seq E).Good :=
  h.bind fun _ => hE.map _

theorem or {D E : Den T α} (h : D.Good) (hE : E.Good) : (D.or E).Good where
  stable a x b hp := by
    simp only [Den.or] at *
    cases hd : D true a with
    | ok c v r => rw [h.stable_ok hd b x]; rfl
    | pend => rw [hd] at hp; simp at hp
    | soft =>
      rw [hd] at hp
      rw [h.stable_soft hd b x]
      exact hE.stable a x b hp
    | hard => rw [h.stable a x b (by rw [hd]; simp), hd]; rfl
  complete a := by
    simp only [Den.or]
    cases hd : D false a with
    | ok c v r => simp
    | pend => exact absurd hd (h.complete a)
    | soft => exact hE.complete a
    | hard => simp
  read {b a c v r} e := by
    simp only [Den.or] at e
    cases hd : D b a with
    | ok c v r => rw [hd] at e; cases e; exact h.read hd
    | pend => rw [hd] at e; cases e
    | soft => rw [hd] at e; exact hE.read e
    | hard => rw [hd] at e; cases e

theorem optional {D : Den T α} (h : D.Good) : D.optional.Good := (h.map some).or (pure none)

end Den.Good

/-- Neither a soft failure nor a success without consumption. -/
def Outcome.Firm {T : Type} (o : Outcome T α) : Prop := o ≠ .soft ∧ ∀ v r, o ≠ .ok false v r

namespace Outcome.Firm
variable {T : Type}

theorem map {o : Outcome T α} (h : o.Firm) (f : α → β) : (o.map f).Firm :=
  ⟨fun e => h.1 (map_soft.1 e), fun _ r e => by obtain ⟨v, e, _⟩ := map_ok.1 e; exact h.2 v r e⟩

theorem after {o : Outcome T α} (h : o.Firm) (c : Bool) : (o.after c).Firm :=
  ⟨fun e => h.1 (after_soft.1 e).1, fun v r e => by
    obtain ⟨d, e, hd⟩ := after_ok.1 e
    cases d with
    | false => exact h.2 v r e
    | true => simp at hd⟩

theorem after_true (o : Outcome T α) : (o.after true).Firm :=
  ⟨fun e => by simpa using (after_soft.1 e).2, fun v r e => by
    obtain ⟨d, e, hd⟩ := after_ok.1 e
    simp at hd⟩

end Outcome.Firm

/-- What consumed `w` and left `z` committed exactly if `w` is not empty. -/
theorem Den.Good.flag {T : Type} {D : Den T α} (h : D.Good) {b : Bool} {w z : List T} {c : Bool} {v : α}
    (hd : D b (w ++ z) = .ok c v z) : c = !w.isEmpty := by
  obtain ⟨x, h1, h2⟩ := h.read hd
  rw [List.append_cancel_right h1]
  exact h2

/-! ## Resumable parsers -/

/-- A successful result. -/
def okRes {E : Type} (c : Bool) (v : α) : ParseResult α E := if c then .commitOk v else .peekOk v

/-- The call `o` on `i`, made in a state in which `w` has been absorbed, does what `W` says. It leaves a state
in `A` after success, one in `F` after a soft failure and one in `Rep` after a request for more. -/
def Step (W : Outcome S.Tok α) (A F : σ → Prop) (Rep : σ → List S.Tok → List S.Tok → Prop)
    (w : List S.Tok) (i : S.Input) (o : Out S σ α) : Prop :=
  match W with
  | .ok c v r => (∃ c', o.res = okRes c' v ∧ (w = [] → c' = c)) ∧ S.Reach i o.inp ∧ S.left o.inp = r ∧ A o.st
  | .pend => ∃ e x, o.res = .commitErr e ∧ S.E.isEoi e = true ∧ S.Reads i x o.inp ∧ Rep o.st (w ++ x) (S.left o.inp)
  | .soft => w = [] ∧ (∃ e, o.res = .peekErr e) ∧ S.Reach i o.inp ∧ F o.st
  | .hard => True

/-- `parse_committed_mode` differs from `parse_mode` in the content of soft failures only. -/
structure CommittedAs (p : Parser S σ α) : Prop where
  other : ∀ m i s, (∀ e, (p.run m i s).res ≠ .peekErr e) → p.committed m i s = p.run m i s
  soft : ∀ m i s e, (p.run m i s).res = .peekErr e → S.Reach i (p.run m i s).inp →
    ∃ e' j, S.Reach i j ∧ p.committed m i s = ⟨.peekErr e', j, (p.run m i s).st⟩

/-- `P`, but only if `k`. -/
abbrev When (k : Bool) (P : σ → Prop) : σ → Prop := fun s => k = true → P s

/-- `D` is what the parser does; `Ready` are the states in which it can start anew; `Rep s w u` says that
`s` is a state in which `w` has been absorbed and `u` was seen but not consumed. If `k`, the parser can be
started anew after a success; if `r`, after a soft failure. All this is about inputs after which more may
follow if `live`, and about complete inputs otherwise. -/
structure Resumes (live : Bool) (p : Parser S σ α) (D : Den S.Tok α) (k r : Bool) (Ready : σ → Prop)
    (Rep : σ → List S.Tok → List S.Tok → Prop) : Prop where
  good : D.Good
  ready_init : Ready p.init
  /-- in such a state, resuming is starting anew -/
  ready_rep : ∀ {s}, Ready s → Rep s [] []
  /-- after something was absorbed everything is committed -/
  firm : ∀ {s w u}, Rep s w u → w ≠ [] → ∀ b x, (D b (w ++ (u ++ x))).Firm
  committed : CommittedAs p
  first : ∀ {s} i, S.isPartial i = live → Ready s → Step (D (S.isPartial i) (S.left i)) (When k Ready) (When r Ready) Rep [] i (p.run true i s)
  first_hard : ∀ {s} (m : Bool) i, S.isPartial i = live → Ready s → D (S.isPartial i) (S.left i) = .hard → ∃ e, (p.run m i s).res = .commitErr e
  resume : ∀ {s w u} i, S.isPartial i = live → Rep s w u → u <+: S.left i →
    Step (D (S.isPartial i) (w ++ S.left i)) (When k Ready) (When r Ready) Rep w i (p.run false i s)

/-- The first call, in either mode. -/
theorem Resumes.start {live : Bool} {p : Parser S σ α} {D : Den S.Tok α} {k r : Bool} {Ready : σ → Prop}
    {Rep : σ → List S.Tok → List S.Tok → Prop} (h : Resumes live p D k r Ready Rep) {s : σ} (m : Bool) (i : S.Input)
    (hL : S.isPartial i = live) (hs : Ready s) :
    Step (D (S.isPartial i) (S.left i)) (When k Ready) (When r Ready) Rep [] i (p.run m i s) := by
  cases m with
  | true => exact h.first i hL hs
  | false => exact h.resume i hL (h.ready_rep hs) List.nil_prefix

/-- There are such `Ready` and `Rep`; and what is known of a state while more may follow is still true when the
input turns out to be complete. -/
def Resumable (p : Parser S σ α) (D : Den S.Tok α) (k r : Bool) : Prop :=
  ∃ (Ready : Bool → σ → Prop) (Rep : Bool → σ → List S.Tok → List S.Tok → Prop),
    (∀ live, Resumes live p D k r (Ready live) (Rep live)) ∧ (∀ s, Ready true s → Ready false s) ∧
    ∀ s w u, Rep true s w u → Rep false s w u

theorem committed_describing (hS : S.Lawful) {p : Parser S σ α}
    (h : ∀ m i s, p.committed m i s = Strm.describing p.addError (p.run m) i s) : CommittedAs p where
  other m i s hn := by
    rw [h]
    unfold Strm.describing
    dsimp only
    split
    · rename_i e hr; exact absurd hr (hn e)
    · rfl
  soft m i s e hr hre := by
    obtain ⟨e', he⟩ := describe_eq (α := α) hS hre p.addError e (p.run m i s).st
    refine ⟨e', i, .refl i, ?_⟩
    rw [h]
    unfold Strm.describing
    simp only [hr, he]

/-- `parse_committed_mode` of a step is a step. -/
theorem CommittedAs.step {p : Parser S σ α} (h : CommittedAs p) {W : Outcome S.Tok α} {A F : σ → Prop}
    {Rep : σ → List S.Tok → List S.Tok → Prop} {w : List S.Tok} {m : Bool} {i : S.Input} {s : σ}
    (hs : Step W A F Rep w i (p.run m i s)) : Step W A F Rep w i (p.committed m i s) := by
  cases W with
  | ok c v r =>
    rw [h.other m i s]
    · exact hs
    · obtain ⟨⟨c', h1, _⟩, _⟩ := hs
      rw [h1]; cases c' <;> simp [okRes]
  | pend =>
    rw [h.other m i s]
    · exact hs
    · obtain ⟨e, x, h1, _⟩ := hs
      rw [h1]; simp
  | soft =>
    obtain ⟨h1, ⟨e, h2⟩, h3, h4⟩ := hs
    obtain ⟨e', j, hj, h5⟩ := h.soft m i s e h2 h3
    rw [h5]
    exact ⟨h1, ⟨e', rfl⟩, hj, h4⟩
  | hard => trivial

theorem Step.mono {W : Outcome S.Tok α} {A F A' F' : σ → Prop} {Rep : σ → List S.Tok → List S.Tok → Prop}
    {w : List S.Tok} {i : S.Input} {o : Out S σ α} (h : Step W A F Rep w i o) (hA : ∀ s, A s → A' s)
    (hF : ∀ s, F s → F' s) : Step W A' F' Rep w i o := by
  cases W with
  | ok c v r => obtain ⟨h1, h2, h3, h4⟩ := h; exact ⟨h1, h2, h3, hA _ h4⟩
  | pend => exact h
  | soft => obtain ⟨h1, h2, h3, h4⟩ := h; exact ⟨h1, h2, h3, hF _ h4⟩
  | hard => trivial

theorem Resumes.weaken {live : Bool} {p : Parser S σ α} {D : Den S.Tok α} {k r k' r' : Bool} {Ready : σ → Prop}
    {Rep : σ → List S.Tok → List S.Tok → Prop} (h : Resumes live p D k r Ready Rep) (hk : k' = true → k = true)
    (hr : r' = true → r = true) : Resumes live p D k' r' Ready Rep where
  good := h.good
  ready_init := h.ready_init
  ready_rep := h.ready_rep
  firm := h.firm
  committed := h.committed
  first i hL hs := (h.first i hL hs).mono (fun _ a b => a (hk b)) (fun _ a b => a (hr b))
  first_hard := h.first_hard
  resume i hL hs hu := (h.resume i hL hs hu).mono (fun _ a b => a (hk b)) (fun _ a b => a (hr b))

theorem Resumable.weaken {p : Parser S σ α} {D : Den S.Tok α} {k r k' r' : Bool} (h : Resumable p D k r)
    (hk : k' = true → k = true) (hr : r' = true → r = true) : Resumable p D k' r' := by
  obtain ⟨Ready, Rep, h, m⟩ := h
  exact ⟨Ready, Rep, fun live => (h live).weaken hk hr, m⟩

end Verif
