import Verif.Spec.Mp4
import Verif.Proof.Calm
import Verif.Props.Integers
import Verif.Props.Monad
import Verif.Props.Recover

/-!
# The MP4 parser, function by function
-/

namespace Verif.Mp4

variable {τ : Type} {text : List UInt8 → Except (Easy.Error UInt8 (List UInt8)) τ}

theorem lawful : Y.Lawful := convert_lawful (slice_lawful UInt8 1)

theorem lawfulR : R.Lawful id (fun _ => 1) := convertR_lawful (sliceR_lawful UInt8 1)

/-- The input after `n` bytes. -/
def past (i : Slice UInt8) (n : Nat) : Slice UInt8 := ⟨i.ptr + 1 * n, i.data.drop n⟩

theorem uncons_ok {n : Nat} {i : Slice UInt8} (h : n ≤ i.data.length) : R.unconsRange n i = (.ok (i.data.take n), past i n) := by
  show (mapExceptErr _ (if n ≤ i.data.length then _ else _ : _ × _).1, (if n ≤ i.data.length then _ else _ : _ × _).2) = _
  rw [if_pos h]
  rfl

theorem uncons_error {n : Nat} {i : Slice UInt8} (h : ¬ n ≤ i.data.length) : ∃ e, R.unconsRange n i = (.error e, i) := by
  refine ⟨UnexpectedParse.intoOtherS (Easy.Errors.ops UInt8 (List UInt8) Nat compare) .eoi, ?_⟩
  show (mapExceptErr _ (if n ≤ i.data.length then _ else _ : _ × _).1, (if n ≤ i.data.length then _ else _ : _ × _).2) = _
  rw [if_neg h]
  rfl

theorem take_answer (n : Nat) (i : Slice UInt8) : (take R n).shape i =
    if n ≤ i.data.length then .ok (!decide (n = 0)) (i.data.take n) (past i n) else .soft := by
  simp only [Parser.shape, Parser.answer, take, Parser.ofLazy, RangeOps.unconsRangeP]
  by_cases h : n ≤ i.data.length
  · rw [uncons_ok h, if_pos h]
    by_cases h0 : n = 0 <;> simp [h0] <;> rfl
  · obtain ⟨e, he⟩ := uncons_error h
    rw [he, if_neg h]
    rfl

theorem range_answer (r : List UInt8) (i : Slice UInt8) : (range R r).shape i =
    if r <+: i.data then .ok true r (past i r.length) else .soft := by
  simp only [Parser.shape, Parser.answer, range, Parser.ofLazy]
  by_cases h : r.length ≤ i.data.length
  · have hu : R.unconsRange (R.len r) i = (.ok (i.data.take r.length), past i r.length) := uncons_ok h
    rw [hu]
    by_cases h1 : i.data.take r.length = r
    · have : r <+: i.data := by rw [List.prefix_iff_eq_take, h1]
      rw [if_pos this]
      simp only [h1, if_true]
      rfl
    · have : ¬ r <+: i.data := fun h2 => h1 (List.prefix_iff_eq_take.1 h2).symm
      rw [if_neg this]
      simp only [h1, if_false]
      rfl
  · have : ¬ r <+: i.data := fun h2 => h h2.length_le
    obtain ⟨e, he⟩ := uncons_error h
    have he : R.unconsRange (R.len r) i = _ := he
    rw [he, if_neg this]
    rfl

theorem brandName_answer (i : Slice UInt8) : (brandName text).shape i =
    if 4 ≤ i.data.length then
      match text (i.data.take 4) with
      | .ok v => .ok true v (past i 4)
      | .error _ => .hard ()
    else .soft := by
  simp only [Parser.shape, Parser.answer, brandName, andThen, take, Parser.ofMode, Parser.ofLazy]
  by_cases h : 4 ≤ i.data.length
  · have hu : R.unconsRangeP 4 i = (.commitOk (i.data.take 4), past i 4) := by
      rw [RangeOps.unconsRangeP, uncons_ok h]
      rfl
    rw [hu, if_pos h]
    dsimp only
    cases text (i.data.take 4) <;> rfl
  · obtain ⟨e, he⟩ := uncons_error h
    have hu : R.unconsRangeP 4 i = (Y.wrapStreamError i e, i) := by rw [RangeOps.unconsRangeP, he]
    rw [hu, if_neg h]
    rfl

theorem moves_brandName : Moves (brandName text) := moves_andThen lawful (moves_take lawful lawfulR 4) text

theorem consuming_brandName : Consuming (brandName text) := by
  intro i c v j h
  have e := brandName_answer (text := text) i
  rw [Parser.shape, h] at e
  split at e
  · next hl =>
    split at e
    · cases e
      refine ⟨(i : Slice UInt8).data.head (by intro hn; rw [hn] at hl; simp at hl), ((i : Slice UInt8).data.take 4).tail,
        convert_reads.2 (slice_reads.2 ⟨?_, ?_⟩)⟩
      · obtain ⟨p, d⟩ := i
        cases d with
        | nil => simp at hl
        | cons b d => simp [past]
      · obtain ⟨p, d⟩ := i
        cases d with
        | nil => simp at hl
        | cons b d =>
          simp only [List.length_cons] at hl
          simp [past]
          omega
    · cases e
  · cases e

theorem Brands.step {w : List UInt8} {us : List τ} (h : Brands text w us) (hl : 4 ≤ w.length) :
    ∃ v vs, us = v :: vs ∧ text (w.take 4) = .ok v ∧ Brands text (w.drop 4) vs := by
  cases h with
  | none h => omega
  | more hn hv hw => exact ⟨_, _, rfl, by rw [List.take_left' hn]; exact hv, by rw [List.drop_left' hn]; exact hw⟩

theorem Brands.short {w : List UInt8} {us : List τ} (h : Brands text w us) (hl : w.length < 4) : us = [] := by
  cases h with
  | none h => rfl
  | more hn hv hw => simp at hl; omega

/-- The brands are read as `Brands` says, or the parser fails for good. -/
theorem brands_answer (i : Slice UInt8) :
    (∃ c vs k, (many (brandName text)).shape i = .ok c vs k ∧ ∀ us, Brands text i.data us ↔ us = vs) ∨
    ((many (brandName text)).shape i = .hard () ∧ ∀ us, ¬ Brands text i.data us) := by
  have key : ∀ {j : Slice UInt8} {vs c k}, Ref.Run (brandName text).answer j vs c k → ∀ us,
      Brands text j.data us ↔ ∃ zs, us = vs ++ zs ∧ Brands text (k : Slice UInt8).data zs := by
    intro j vs c k h
    induction h with
    | nil => intro us; simp
    | @cons j l k c d v vs hj hr ih =>
      intro us
      have e := brandName_answer (text := text) j
      rw [Parser.shape, hj] at e
      split at e
      · next hl =>
        split at e
        · next ht =>
          cases e
          constructor
          · intro h
            obtain ⟨v', vs', rfl, hv, hw⟩ := h.step hl
            cases ht.symm.trans hv
            obtain ⟨zs, rfl, hz⟩ := (ih _).1 hw
            exact ⟨zs, rfl, hz⟩
          · rintro ⟨zs, rfl, hz⟩
            have := Brands.more (w := (past j 4).data) (by simp; omega) ht ((ih _).2 ⟨zs, rfl, hz⟩)
            rw [past, List.take_append_drop] at this
            exact this
        · cases e
      · cases e
  obtain ⟨vs, c, k, hr, ha⟩ := C07_many lawful moves_brandName (Repeatable.unit moves_brandName).reusable
    (consuming_brandName (text := text)) i
  have e := brandName_answer (text := text) k
  have hk := key hr
  rw [Parser.shape] at e
  cases hx : (brandName text).answer k with
  | ok c v j => rw [hx] at ha; exact ha.elim
  | soft =>
    rw [hx] at ha e
    refine .inl ⟨c, vs, k, by rw [Parser.shape, ha]; rfl, fun us => ?_⟩
    split at e
    · split at e <;> cases e
    · next hl =>
      rw [hk]
      constructor
      · rintro ⟨zs, rfl, hz⟩
        rw [hz.short (by omega), List.append_nil]
      · rintro rfl
        exact ⟨[], by simp, .none (by omega)⟩
  | hard x =>
    rw [hx] at ha e
    refine .inr ⟨by rw [Parser.shape, ha]; rfl, fun us h => ?_⟩
    obtain ⟨zs, rfl, hz⟩ := (hk us).1 h
    split at e
    · next hl =>
      obtain ⟨v', vs', rfl, hv, hw⟩ := hz.step hl
      rw [hv] at e
      cases e
    · cases e
  | abort x =>
    rw [hx] at e
    split at e
    · split at e <;> cases e
    · cases e

/-! ## What is in a box -/

section

variable {I α β : Type} {m : Sem I Unit α} {f : α → Sem I Unit β} {i : I}

private theorem bind_ok {c : Bool} {v : α} {j : I} (h : m i = .ok c v j) : Ref.bind m f i = (f v j).after c := by
  rw [Ref.bind, h]

private theorem bind_soft (h : m i = .soft) : Ref.bind m f i = .soft := by rw [Ref.bind, h]

private theorem bind_hard {e : Unit} (h : m i = .hard e) : Ref.bind m f i = .hard e := by rw [Ref.bind, h]

end

theorem Means.ftyp_step {w : List UInt8} {b : Box τ} (h : Means text w b) (hf : ftypName <+: w) :
    ∃ v vs, 4 ≤ (w.drop 4).length ∧ text ((w.drop 4).take 4) = .ok v ∧ 4 ≤ ((w.drop 4).drop 4).length ∧
      Brands text (((w.drop 4).drop 4).drop 4) vs ∧ b = .ftyp ⟨v, ((w.drop 4).drop 4).take 4, vs⟩ := by
  cases h with
  | @ftyp major version w v vs h1 h2 h3 h4 =>
    have e1 : (ftypName ++ major ++ version ++ w).drop 4 = major ++ (version ++ w) := by simp [ftypName]
    rw [e1, List.drop_left' h1, List.take_left' h1, List.drop_left' h3, List.take_left' h3]
    exact ⟨v, vs, by simp; omega, h2, by simp; omega, h4, rfl⟩
  | moov w => simp [ftypName, moovName] at hf
  | mdat w => simp [ftypName, mdatName] at hf
  | free w => simp [ftypName, freeName] at hf
  | skip w => simp [ftypName, skipName] at hf
  | wide w => simp [ftypName, wideName] at hf
  | unknown h => exact absurd hf (h _ (by simp [names]))

theorem Means.ftyp_of {w : List UInt8} {v : τ} {vs : List τ} (hf : ftypName <+: w) (h1 : 4 ≤ (w.drop 4).length)
    (h2 : text ((w.drop 4).take 4) = .ok v) (h3 : 4 ≤ ((w.drop 4).drop 4).length)
    (h4 : Brands text (((w.drop 4).drop 4).drop 4) vs) : Means text w (.ftyp ⟨v, ((w.drop 4).drop 4).take 4, vs⟩) := by
  obtain ⟨u, rfl⟩ := hf
  have e1 : (ftypName ++ u).drop 4 = u := by simp [ftypName]
  rw [e1] at h1 h2 h3 h4 ⊢
  have h := Means.ftyp (text := text) (major := u.take 4) (version := (u.drop 4).take 4) (by simp; omega) h2 (by simp; simp at h3; omega) h4
  rw [List.append_assoc, List.take_append_drop, List.append_assoc, List.take_append_drop] at h
  exact h

theorem filetypeBox_answer (i : Slice UInt8) :
    (¬ ftypName <+: i.data ∧ (filetypeBox text).shape i = .soft) ∨
    (ftypName <+: i.data ∧ ((∃ b k, (filetypeBox text).shape i = .ok true b k ∧ ∀ b', Means text i.data b' ↔ b' = b) ∨
      ((filetypeBox text).shape i = .hard () ∧ ∀ b, ¬ Means text i.data b))) := by
  have e : (filetypeBox text).shape i = ((tuple (range R ftypName)
      (.cons (brandName text) (.cons (take R 4) (.cons (many (brandName text)) .nil)))).shape i).map
      fun y => Box.ftyp ⟨y.2.1, y.2.2.1, y.2.2.2.1⟩ := mapShape (τ := Unit) _ _
  rw [e, C12_tuple]
  simp only [Ref.seq]
  by_cases h : ftypName <+: i.data
  · refine .inr ⟨h, ?_⟩
    have e1 : (range R ftypName).shape i = .ok true ftypName (past i 4) := (range_answer _ _).trans (if_pos h)
    rw [bind_ok e1, Ref.map]
    have e2 := brandName_answer (text := text) (past i 4)
    split at e2
    · next hl =>
      split at e2
      · next v ht =>
        rw [bind_ok e2, Ref.map]
        have e3 := take_answer 4 (past (past i 4) 4)
        split at e3
        · next hl2 =>
          rw [bind_ok e3, Ref.map]
          rcases brands_answer (text := text) (past (past (past i 4) 4) 4) with ⟨c, vs, k, e4, hb⟩ | ⟨e4, hb⟩
          · rw [bind_ok e4]
            refine .inl ⟨.ftyp ⟨v, ((i.data.drop 4).drop 4).take 4, vs⟩, k, rfl, fun b => ⟨fun hm => ?_, fun hm => ?_⟩⟩
            · obtain ⟨v', vs', g1, g2, g3, g4, rfl⟩ := hm.ftyp_step h
              cases ht.symm.trans g2
              rw [(hb vs').1 g4]
            · rw [hm]
              exact .ftyp_of h hl ht hl2 ((hb vs).2 rfl)
          · rw [bind_hard e4]
            refine .inr ⟨rfl, fun b hm => ?_⟩
            obtain ⟨v', vs', g1, g2, g3, g4, rfl⟩ := hm.ftyp_step h
            exact hb _ g4
        · next hl2 =>
          rw [bind_soft e3]
          refine .inr ⟨rfl, fun b hm => ?_⟩
          obtain ⟨v', vs', g1, g2, g3, g4, rfl⟩ := hm.ftyp_step h
          exact hl2 g3
      · next ht =>
        rw [bind_hard e2]
        refine .inr ⟨rfl, fun b hm => ?_⟩
        obtain ⟨v', vs', g1, g2, g3, g4, rfl⟩ := hm.ftyp_step h
        cases ht.symm.trans g2
    · next hl =>
      rw [bind_soft e2]
      refine .inr ⟨rfl, fun b hm => ?_⟩
      obtain ⟨v', vs', g1, g2, g3, g4, rfl⟩ := hm.ftyp_step h
      exact hl g1
  · have e1 : (range R ftypName).shape i = .soft := (range_answer _ _).trans (if_neg h)
    exact .inl ⟨h, by rw [bind_soft e1]; rfl⟩

theorem moves_boxes : ∀ q, (Alts.cons (filetypeBox text) (.cons (map (range R moovName) fun _ => Box.moov)
    (.cons (map (range R mdatName) fun _ => Box.mdat) (.cons (map (range R freeName) fun _ => Box.free)
    (.cons (map (range R skipName) fun _ => Box.skip) (.cons (map (range R wideName) fun _ => Box.wide)
    (.last (value Y Box.unknown)))))))).Mem q → Moves q.2 := by
  have hr : ∀ r (b : Box τ), Moves (map (range R r) fun _ => b) := fun r b => moves_map lawful (moves_range lawful lawfulR r) _
  intro q hq
  simp only [Alts.Mem] at hq
  rcases hq with rfl | rfl | rfl | rfl | rfl | rfl | rfl
  · refine moves_map lawful (moves_tuple lawful (moves_range lawful lawfulR _) _ fun q hq => ?_) _
    simp only [Seq.Mem, or_false] at hq
    rcases hq with rfl | rfl | rfl
    · exact moves_brandName
    · exact moves_take lawful lawfulR 4
    · exact moves_many lawful moves_brandName
  · exact hr _ _
  · exact hr _ _
  · exact hr _ _
  · exact hr _ _
  · exact hr _ _
  · exact .ofLazy lawful fun i => .refl i

theorem named_answer (r : List UInt8) (b : Box τ) (i : Slice UInt8) : (map (range R r) fun _ => b).shape i =
    if r <+: i.data then .ok true b (past i r.length) else .soft := by
  have e : (map (range R r) fun _ => b).shape i = ((range R r).shape i).map fun _ => b := mapShape (τ := Unit) _ _
  rw [e, range_answer]
  split <;> rfl

theorem Means.moov_iff {w : List UInt8} (h : moovName <+: w) (b : Box τ) : Means text w b ↔ b = .moov := by
  constructor
  · intro hm
    cases hm with
    | moov w => rfl
    | unknown hh => exact absurd h (hh _ (by simp [names]))
    | _ => simp [ftypName, moovName, mdatName, freeName, skipName, wideName] at h
  · rintro rfl
    obtain ⟨u, rfl⟩ := h
    exact .moov u

theorem Means.mdat_iff {w : List UInt8} (h : mdatName <+: w) (b : Box τ) : Means text w b ↔ b = .mdat := by
  constructor
  · intro hm
    cases hm with
    | mdat w => rfl
    | unknown hh => exact absurd h (hh _ (by simp [names]))
    | _ => simp [ftypName, moovName, mdatName, freeName, skipName, wideName] at h
  · rintro rfl
    obtain ⟨u, rfl⟩ := h
    exact .mdat u

theorem Means.free_iff {w : List UInt8} (h : freeName <+: w) (b : Box τ) : Means text w b ↔ b = .free := by
  constructor
  · intro hm
    cases hm with
    | free w => rfl
    | unknown hh => exact absurd h (hh _ (by simp [names]))
    | _ => simp [ftypName, moovName, mdatName, freeName, skipName, wideName] at h
  · rintro rfl
    obtain ⟨u, rfl⟩ := h
    exact .free u

theorem Means.skip_iff {w : List UInt8} (h : skipName <+: w) (b : Box τ) : Means text w b ↔ b = .skip := by
  constructor
  · intro hm
    cases hm with
    | skip w => rfl
    | unknown hh => exact absurd h (hh _ (by simp [names]))
    | _ => simp [ftypName, moovName, mdatName, freeName, skipName, wideName] at h
  · rintro rfl
    obtain ⟨u, rfl⟩ := h
    exact .skip u

theorem Means.wide_iff {w : List UInt8} (h : wideName <+: w) (b : Box τ) : Means text w b ↔ b = .wide := by
  constructor
  · intro hm
    cases hm with
    | wide w => rfl
    | unknown hh => exact absurd h (hh _ (by simp [names]))
    | _ => simp [ftypName, moovName, mdatName, freeName, skipName, wideName] at h
  · rintro rfl
    obtain ⟨u, rfl⟩ := h
    exact .wide u

section

variable {σ σ' α : Type} {p : Parser Y σ α} {ps : Alts Y α σ'} {i : Y.Input}

private theorem choice_soft (h : p.shape i = .soft) :
    (Ref.choice (Alts.cons p ps).answers i).shape = (Ref.choice ps.answers i).shape := by
  rw [answers_cons, orSem, h]

private theorem choice_ok {c : Bool} {v : α} {j : Y.Input} (h : p.shape i = .ok c v j) :
    (Ref.choice (Alts.cons p ps).answers i).shape = .ok c v j := by
  rw [answers_cons, orSem, h]

private theorem choice_hard {e : Unit} (h : p.shape i = .hard e) :
    (Ref.choice (Alts.cons p ps).answers i).shape = .hard e := by
  rw [answers_cons, orSem, h]

end

/-- The parser of a box says what its content means, and fails for good if that is nothing. -/
theorem boxParser_answer (i : Slice UInt8) :
    (∃ c b k, (boxParser text).shape i = .ok c b k ∧ ∀ b', Means text i.data b' ↔ b' = b) ∨
    ((boxParser text).shape i = .hard () ∧ ∀ b, ¬ Means text i.data b) := by
  rw [boxParser, shape_choice lawful moves_boxes]
  rcases filetypeBox_answer (text := text) i with ⟨h0, e⟩ | ⟨h0, ⟨b, k, e, hb⟩ | ⟨e, hb⟩⟩
  · rw [choice_soft e]
    by_cases h1 : moovName <+: i.data
    · rw [choice_ok ((named_answer _ _ _).trans (if_pos h1))]
      exact .inl ⟨_, _, _, rfl, Means.moov_iff h1⟩
    rw [choice_soft ((named_answer _ _ _).trans (if_neg h1))]
    by_cases h2 : mdatName <+: i.data
    · rw [choice_ok ((named_answer _ _ _).trans (if_pos h2))]
      exact .inl ⟨_, _, _, rfl, Means.mdat_iff h2⟩
    rw [choice_soft ((named_answer _ _ _).trans (if_neg h2))]
    by_cases h3 : freeName <+: i.data
    · rw [choice_ok ((named_answer _ _ _).trans (if_pos h3))]
      exact .inl ⟨_, _, _, rfl, Means.free_iff h3⟩
    rw [choice_soft ((named_answer _ _ _).trans (if_neg h3))]
    by_cases h4 : skipName <+: i.data
    · rw [choice_ok ((named_answer _ _ _).trans (if_pos h4))]
      exact .inl ⟨_, _, _, rfl, Means.skip_iff h4⟩
    rw [choice_soft ((named_answer _ _ _).trans (if_neg h4))]
    by_cases h5 : wideName <+: i.data
    · rw [choice_ok ((named_answer _ _ _).trans (if_pos h5))]
      exact .inl ⟨_, _, _, rfl, Means.wide_iff h5⟩
    rw [choice_soft ((named_answer _ _ _).trans (if_neg h5)), answers_last]
    refine .inl ⟨false, .unknown, i, rfl, fun b => ⟨fun hm => ?_, fun hm => ?_⟩⟩
    · revert h0 h1 h2 h3 h4 h5
      generalize i.data = w at hm
      intro h0 h1 h2 h3 h4 h5
      cases hm with
      | unknown => rfl
      | ftyp => exact absurd (by simp [ftypName]) h0
      | moov => exact absurd (by simp) h1
      | mdat => exact absurd (by simp) h2
      | free => exact absurd (by simp) h3
      | skip => exact absurd (by simp) h4
      | wide => exact absurd (by simp) h5
    · rw [hm]
      refine .unknown fun n hn => ?_
      simp only [names, List.mem_cons, List.not_mem_nil, or_false] at hn
      rcases hn with rfl | rfl | rfl | rfl | rfl | rfl <;> assumption
  · rw [choice_ok e]
    exact .inl ⟨_, _, _, rfl, hb⟩
  · rw [choice_hard e]
    exact .inr ⟨rfl, hb⟩

/-- So it neither panics nor loops. -/
theorem boxParser_calm : Calm (boxParser text) := by
  intro i a h
  rcases boxParser_answer (text := text) i with ⟨c, b, k, e, _⟩ | ⟨e, _⟩ <;> cases h.symm.trans e

theorem interpret_iff {w : List UInt8} {b : Box τ} : interpret text w = .ok b ↔ Means text w b := by
  have hc : Coherent (boxParser text) := .ofMode lawful (moves_choice lawful moves_boxes).run
  have hp := C41_parse (boxParser text) hc (⟨0, w⟩ : Slice UInt8)
  have hn := boxParser_calm (text := text) |>.parse hc (⟨0, w⟩ : Slice UInt8)
  simp only [interpret, easyParse]
  have hs := boxParser_answer (text := text) ⟨0, w⟩
  rw [Parser.shape] at hs
  cases hx : (boxParser text).parse (⟨0, w⟩ : Slice UInt8) with
  | ok v k =>
    obtain ⟨c, ha⟩ := (hp.1 v k).1 hx
    rw [ha] at hs
    rcases hs with ⟨c', b', k', e, hb⟩ | ⟨e, _⟩
    · cases e
      rw [hb]
      constructor
      · intro h; cases h; rfl
      · rintro rfl; rfl
    · cases e
  | err e =>
    have ha := hp.2.1 ⟨e, hx⟩
    rcases hs with ⟨c', b', k', e, hb⟩ | ⟨e, hb⟩
    · rcases ha with ha | ⟨x, ha⟩ <;> rw [ha] at e <;> cases e
    · constructor
      · intro h; cases h
      · intro h; exact absurd h (hb b)
  | abort a => exact absurd hx (hn a)

/-! ## The frames -/

private theorem leBytes_succ (n x : Nat) : leBytes (n + 1) x = UInt8.ofNat x :: leBytes n (x / 256) := by
  have h : ∀ k, byteAt x (k + 1) = byteAt (x / 256) k := fun k => by
    simp only [byteAt, Nat.pow_succ, Nat.div_div_eq_div_mul, Nat.mul_comm]
  simp only [leBytes, List.range_succ_eq_map, List.map_cons, List.map_map, List.cons.injEq]
  refine ⟨by simp [byteAt], List.map_congr_left fun k _ => h k⟩

theorem leBytes_fromLe (bs : List UInt8) : leBytes bs.length (fromLe bs) = bs := by
  induction bs with
  | nil => rfl
  | cons b bs ih =>
    have hb := b.toNat_lt
    have e : (b.toNat + 256 * fromLe bs) / 256 = fromLe bs := by omega
    have e2 : UInt8.ofNat (b.toNat + 256 * fromLe bs) = b := by
      apply UInt8.toNat_inj.1
      rw [UInt8.toNat_ofNat']
      omega
    rw [List.length_cons, fromLe, leBytes_succ, e, e2, ih]

theorem beBytes_fromBe {bs : List UInt8} (h : bs.length = 4) : beBytes 4 (fromBe bs) = bs := by
  have := leBytes_fromLe bs.reverse
  rw [List.length_reverse, h] at this
  rw [beBytes, fromBe, this, List.reverse_reverse]

theorem fromLe_lt (bs : List UInt8) : fromLe bs < 256 ^ bs.length := by
  induction bs with
  | nil => simp [fromLe]
  | cons b bs ih =>
    have hb := b.toNat_lt
    rw [fromLe, List.length_cons, Nat.pow_succ]
    omega

theorem fromBe_lt {bs : List UInt8} (h : bs.length = 4) : fromBe bs < 2 ^ 32 := by
  have := fromLe_lt bs.reverse
  rw [List.length_reverse, h] at this
  exact this

/-- The size at the beginning of some bytes. -/
def sizeOf (w : List UInt8) : Nat := fromBe (w.take 4)

theorem sizeOf_be {n : Nat} {w : List UInt8} (h : n < 2 ^ 32) : sizeOf (beBytes 4 n ++ w) = n := by
  rw [sizeOf, List.take_left' (beBytes_length 4 n)]
  exact fromBe_beBytes 4 n h

theorem framed_append (content w : List UInt8) : framed content ++ w = beBytes 4 (content.length + 4) ++ (content ++ w) := by
  rw [framed, List.append_assoc]

theorem drop_be (n : Nat) (w : List UInt8) : (beBytes 4 n ++ w).drop 4 = w := List.drop_left' (beBytes_length 4 n)

/-- A box at the beginning: its size and content are there, and the content means something. -/
def First (text : List UInt8 → Except (Easy.Error UInt8 (List UInt8)) τ) (w : List UInt8) (b : Box τ) : Prop :=
  4 ≤ sizeOf w ∧ sizeOf w - 4 ≤ (w.drop 4).length ∧ Means text ((w.drop 4).take (sizeOf w - 4)) b

/-- What comes after it. -/
def others (w : List UInt8) : List UInt8 := (w.drop 4).drop (sizeOf w - 4)

theorem first_framed {content w : List UInt8} {b : Box τ} (h : content.length + 4 < 2 ^ 32) (hm : Means text content b) :
    First text (framed content ++ w) b ∧ others (framed content ++ w) = w ∧ 4 ≤ (framed content ++ w).length := by
  rw [framed_append, First, others, sizeOf_be h, drop_be, Nat.add_sub_cancel, List.take_left, List.drop_left]
  refine ⟨⟨by omega, by simp, hm⟩, rfl, ?_⟩
  rw [List.length_append, beBytes_length]
  omega

theorem framed_first {w : List UInt8} {b : Box τ} (hl : 4 ≤ w.length) (h : First text w b) :
    ∃ content, content.length + 4 < 2 ^ 32 ∧ Means text content b ∧ w = framed content ++ others w := by
  obtain ⟨h1, h2, h3⟩ := h
  have h4 : (w.take 4).length = 4 := by simp; omega
  have h5 := fromBe_lt h4
  have hs : sizeOf w = fromBe (w.take 4) := rfl
  refine ⟨_, ?_, h3, ?_⟩
  · rw [List.length_take, Nat.min_eq_left h2]
    omega
  · rw [framed_append, others, List.take_append_drop, List.length_take, Nat.min_eq_left h2, Nat.sub_add_cancel h1, hs,
      beBytes_fromBe h4, List.take_append_drop]

theorem Means.unique {w : List UInt8} {b b' : Box τ} (h : Means text w b) (h' : Means text w b') : b = b' := by
  have := interpret_iff.2 h
  rw [interpret_iff.2 h'] at this
  cases this
  rfl

theorem File.long {w r : List UInt8} {bs : List (Box τ)} (hl : 4 ≤ w.length) :
    File text w bs r ↔ ∃ b bs', bs = b :: bs' ∧ First text w b ∧ File text (others w) bs' r := by
  constructor
  · intro h
    cases h with
    | done h => omega
    | box h1 h2 h3 =>
      obtain ⟨g1, g2, -⟩ := first_framed (w := _) h1 h2
      exact ⟨_, _, rfl, g1, by rw [g2]; exact h3⟩
  · rintro ⟨b, bs', rfl, h1, h2⟩
    obtain ⟨content, g1, g2, g3⟩ := framed_first hl h1
    rw [g3]
    exact .box g1 g2 h2

theorem File.short {w r : List UInt8} {bs : List (Box τ)} (hl : w.length < 4) : File text w bs r ↔ bs = [] ∧ r = w := by
  constructor
  · intro h
    cases h with
    | done h => exact ⟨rfl, rfl⟩
    | @box content w r b bs h1 h2 h3 =>
      have := (first_framed (w := w) h1 h2).2.2
      omega
  · rintro ⟨rfl, rfl⟩
    exact .done hl

theorem Undersized.long {w : List UInt8} (hl : 4 ≤ w.length) :
    Undersized text w ↔ sizeOf w < 4 ∨ ∃ b, First text w b ∧ Undersized text (others w) := by
  constructor
  · intro h
    cases h with
    | here h => exact .inl (by rw [sizeOf_be (by omega)]; exact h)
    | later h1 h2 h3 =>
      obtain ⟨g1, g2, -⟩ := first_framed (w := _) h1 h2
      exact .inr ⟨_, g1, by rw [g2]; exact h3⟩
  · rintro (h | ⟨b, h1, h2⟩)
    · have h4 : (w.take 4).length = 4 := by simp; omega
      have := Undersized.here (text := text) (w := w.drop 4) h
      rw [sizeOf, beBytes_fromBe h4, List.take_append_drop] at this
      exact this
    · obtain ⟨content, g1, g2, g3⟩ := framed_first hl h1
      rw [g3]
      exact .later g1 g2 h2

theorem Undersized.short {w : List UInt8} (hl : w.length < 4) : ¬ Undersized text w := by
  intro h
  cases h with
  | @here n w h =>
    rw [List.length_append, beBytes_length] at hl
    omega
  | @later content w b h1 h2 h3 =>
    have := (first_framed (w := w) h1 h2).2.2
    omega

/-! ## The parser of frames -/

theorem be_answer (i : Slice UInt8) : (beUint Y id 4).shape i =
    if 4 ≤ i.data.length then .ok true (sizeOf i.data) (past i 4) else .soft := by
  rcases C19_decode lawful 4 (fun ts => fromBe (ts.map id)) true (i : Y.Input) with ⟨ts, j, h1, h2, h3⟩ | ⟨h1, -, h3⟩
  · obtain ⟨g1, g2⟩ := slice_reads.1 (convert_reads.1 h2)
    have hl : 4 ≤ i.data.length := by
      have := congrArg List.length g1
      rw [List.length_append] at this
      omega
    have e : j = past i 4 := by
      obtain ⟨p, d⟩ := j
      dsimp only at g1 g2
      rw [past, g1, List.drop_left' h1, g2, h1]
    have e2 : i.data.take 4 = ts := by rw [g1, List.take_left' h1]
    rw [if_pos hl, sizeOf, e2, ← e]
    have h3 : (beUint Y id 4).answer i = _ := h3
    rw [Parser.shape, h3, List.map_id]
    rfl
  · have hl : ¬ 4 ≤ i.data.length := fun hl => by
      have := h1 (i.data.take 4) (past i 4) (convert_reads.2 (slice_reads.2 ⟨(List.take_append_drop 4 _).symm, by simp [past]; omega⟩))
      simp at this
      omega
    rw [if_neg hl]
    exact h3

theorem moves_rest (debug : Bool) (n : Nat) : Moves (rest debug n) := by
  rw [rest]
  split
  · exact .ofLazy lawful fun i => .refl i
  · exact moves_take lawful lawfulR _

theorem std_rest (debug : Bool) (n : Nat) : Std (rest debug n) := by
  rw [rest]
  split
  · exact .inl fun _ _ _ => rfl
  · exact .inl fun _ _ _ => rfl

theorem coherent_rest (debug : Bool) (n : Nat) : Coherent (rest debug n) := by
  rw [rest]
  split
  · exact .ofLazy lawful fun i => .refl i
  · exact .ofLazy lawful (unconsRangeP_reach lawful lawfulR _)

theorem mp4Box_answer (debug : Bool) (i : Slice UInt8) : (mp4Box debug).shape i =
    if 4 ≤ i.data.length then ((rest debug (sizeOf i.data)).shape (past i 4)).after true else .soft := by
  have e : (mp4Box debug).shape i = Ref.bind (beUint Y id 4).shape (fun n => (rest debug n).shape) i :=
    C13_then lawful (beUint Y id 4) (rest debug) () (fun _ => rfl) (coherent_rest debug) i
  rw [e]
  by_cases h : 4 ≤ i.data.length
  · rw [if_pos h, bind_ok ((be_answer i).trans (if_pos h))]
  · rw [if_neg h, bind_soft ((be_answer i).trans (if_neg h))]

theorem flatMap_shape {σ α β : Type} (p : Parser Y σ α) (f : α → Except Y.Err β) (i : Y.Input) :
    (flatMap p f).shape i = match p.shape i with
      | .ok c v j =>
        match f v with
        | .ok w => .ok c w j
        | .error _ => if c then .hard () else .soft
      | .soft => .soft
      | .hard e => .hard e
      | .abort a => .abort a := by
  rw [Parser.shape, C13_flatMap, Parser.shape]
  cases p.answer i with
  | ok c v j =>
    simp only [Answer.shape]
    cases f v with
    | ok w => rfl
    | error e => cases c <;> rfl
  | _ => rfl

theorem moves_dataInterpreter (debug : Bool) : Moves (dataInterpreter text debug) :=
  moves_flatMap lawful (moves_thenP lawful (moves_intParser lawful 4 _) (moves_rest debug) ()) _

theorem repeatable_dataInterpreter (debug : Bool) : Repeatable (dataInterpreter text debug) :=
  ⟨moves_dataInterpreter debug, _, keeps_flatMap (keeps_thenP lawful (C := fun _ => True) trivial (keeps_unit (h := false) _)
    (fun _ => keeps_unit (h := false) _) (std_rest debug) fun n => (moves_rest debug n).run) _⟩

/-- What the parser of one box does. -/
inductive Step (text : List UInt8 → Except (Easy.Error UInt8 (List UInt8)) τ) (debug : Bool) (i : Slice UInt8) :
    Answer (Slice UInt8) Unit (Box τ) → Prop where
  | short : i.data.length < 4 → Step text debug i .soft
  | panics : 4 ≤ i.data.length → sizeOf i.data < 4 → debug = true → Step text debug i (.abort .panic)
  | small : 4 ≤ i.data.length → sizeOf i.data < 4 → debug = false → Step text debug i (.hard ())
  | bad : 4 ≤ i.data.length → 4 ≤ sizeOf i.data → (∀ b, ¬ First text i.data b) → Step text debug i (.hard ())
  | good {b : Box τ} {k : Slice UInt8} : 4 ≤ i.data.length → First text i.data b → k.data = others i.data →
      Step text debug i (.ok true b k)

theorem step (debug : Bool) (i : Slice UInt8) (hlen : i.data.length < 2 ^ 63) :
    Step text debug i ((dataInterpreter text debug).shape i) := by
  have e := flatMap_shape (mp4Box debug) (interpret text) i
  rw [mp4Box_answer] at e
  rw [dataInterpreter, e]
  by_cases hl : 4 ≤ i.data.length
  · rw [if_pos hl]
    by_cases hn : sizeOf i.data < 4
    · by_cases hd : debug = true
      · have : (rest debug (sizeOf i.data)).shape (past i 4) = .abort .panic := by
          rw [rest, if_pos ⟨hn, hd⟩]
          rfl
        rw [this]
        exact .panics hl hn hd
      · have : (rest debug (sizeOf i.data)).shape (past i 4) = .soft := by
          rw [rest, if_neg (fun h => hd h.2), take_answer, if_neg]
          have : (past i 4).data.length ≤ i.data.length := by simp [past]
          omega
        rw [this]
        exact .small hl hn (by simpa using hd)
    · have hs : sizeOf i.data < 2 ^ 32 := fromBe_lt (by simp; omega)
      have hm : (2 ^ 64 + sizeOf i.data - 4) % 2 ^ 64 = sizeOf i.data - 4 := by omega
      rw [rest, if_neg (fun h => hn h.1), take_answer, hm]
      by_cases h2 : sizeOf i.data - 4 ≤ (past i 4).data.length
      · rw [if_pos h2]
        simp only [Answer.after, Bool.true_or]
        cases hx : interpret text ((past i 4).data.take (sizeOf i.data - 4)) with
        | ok b => exact .good hl ⟨by omega, h2, interpret_iff.1 hx⟩ rfl
        | error e =>
          refine .bad hl (by omega) fun b hb => ?_
          have := interpret_iff.2 hb.2.2
          exact absurd (hx.symm.trans this) (by simp)
      · rw [if_neg h2]
        exact .bad hl (by omega) fun b hb => h2 hb.2.1
  · rw [if_neg hl]
    exact .short (by omega)

theorem consuming_dataInterpreter (debug : Bool) : Consuming (dataInterpreter text debug) := by
  intro i c v j h
  change Slice UInt8 at i
  have e := flatMap_shape (mp4Box debug) (interpret text) i
  rw [mp4Box_answer] at e
  have h' : (dataInterpreter text debug).shape i = .ok c v j := by rw [Parser.shape, h]; rfl
  rw [dataInterpreter, e] at h'
  by_cases hl : 4 ≤ i.data.length
  · rw [if_pos hl] at h'
    have hr : ∃ n, j = past (past i 4) n ∧ n ≤ (past i 4).data.length := by
      by_cases hd : sizeOf i.data < 4 ∧ debug = true
      · have : (rest debug (sizeOf i.data)).shape (past i 4) = .abort .panic := by
          rw [rest, if_pos hd]
          rfl
        rw [this] at h'
        cases h'
      · rw [rest, if_neg hd, take_answer] at h'
        by_cases hn : (2 ^ 64 + sizeOf i.data - 4) % 2 ^ 64 ≤ (past i 4).data.length
        · rw [if_pos hn] at h'
          simp only [Answer.after] at h'
          split at h'
          · cases h'; exact ⟨_, rfl, hn⟩
          · cases h'
        · rw [if_neg hn] at h'
          cases h'
    obtain ⟨n, rfl, hn⟩ := hr
    have hne : i.data ≠ [] := fun h0 => by rw [h0] at hl; simp at hl
    have hlen : (past i 4).data.length = i.data.length - 4 := by simp [past]
    obtain ⟨b, w, hw⟩ : ∃ b w, i.data.take (4 + n) = b :: w := by
      cases hd : i.data with
      | nil => exact absurd hd hne
      | cons b w => exact ⟨b, w.take (3 + n), by rw [show 4 + n = (3 + n) + 1 by omega, List.take_succ_cons]⟩
    refine ⟨b, w, convert_reads.2 (slice_reads.2 ⟨?_, ?_⟩)⟩
    · rw [← hw]
      show i.data = _ ++ (i.data.drop 4).drop n
      rw [List.drop_drop, List.take_append_drop]
    · rw [← hw, List.length_take, Nat.min_eq_left (by omega)]
      simp only [past]
      omega
  · rw [if_neg hl] at h'
    cases h'

/-! ## The whole file -/

theorem run_file (debug : Bool) {i k : Slice UInt8} {bs : List (Box τ)} {c : Bool} (hlen : i.data.length < 2 ^ 63)
    (h : Ref.Run (dataInterpreter text debug).answer i bs c k) :
    k.data.length < 2 ^ 63 ∧
    (∀ us r, File text i.data us r ↔ ∃ zs, us = bs ++ zs ∧ File text k.data zs r) ∧
    (Undersized text i.data ↔ Undersized text k.data) := by
  revert hlen
  refine Ref.Run.rec (motive := fun i bs c k _ => (i : Slice UInt8).data.length < 2 ^ 63 → (k : Slice UInt8).data.length < 2 ^ 63 ∧
    (∀ us r, File text (i : Slice UInt8).data us r ↔ ∃ zs, us = bs ++ zs ∧ File text (k : Slice UInt8).data zs r) ∧
    (Undersized text (i : Slice UInt8).data ↔ Undersized text (k : Slice UInt8).data)) ?_ ?_ h
  · intro i hlen
    exact ⟨hlen, by simp, .rfl⟩
  · intro i j k c d b bs hj hr ih hlen
    have hs := step (text := text) debug i hlen
    rw [Parser.shape, hj] at hs
    cases hs with
    | good hl h1 h2 =>
      have hjl : (j : Slice UInt8).data.length ≤ (i : Slice UInt8).data.length := by rw [h2, others]; simp
      obtain ⟨g1, g2, g3⟩ := ih (by omega)
      refine ⟨g1, fun us r => ?_, ?_⟩
      · rw [File.long hl, ← h2]
        constructor
        · rintro ⟨b', bs', rfl, hb, hf⟩
          rw [hb.2.2.unique h1.2.2]
          obtain ⟨zs, rfl, hz⟩ := (g2 _ _).1 hf
          exact ⟨zs, rfl, hz⟩
        · rintro ⟨zs, rfl, hz⟩
          exact ⟨b, bs ++ zs, rfl, h1, (g2 _ _).2 ⟨zs, rfl, hz⟩⟩
      · rw [Undersized.long hl, ← h2, ← g3]
        constructor
        · rintro (h | ⟨_, _, h⟩)
          · have := h1.1
            omega
          · exact h
        · intro h
          exact .inr ⟨_, h1, h⟩

/-- The parser of a file, with nothing said about errors. -/
theorem file_answer (debug : Bool) (i : Slice UInt8) (hlen : i.data.length < 2 ^ 63) :
    (∃ c bs k, (many (dataInterpreter text debug)).shape i = .ok c bs k ∧ (∀ us r, File text i.data us r ↔ us = bs ∧ r = k.data) ∧
      ¬ Undersized text i.data) ∨
    ((many (dataInterpreter text debug)).shape i = .hard () ∧ (∀ us r, ¬ File text i.data us r) ∧
      (debug = true → ¬ Undersized text i.data)) ∨
    ((many (dataInterpreter text debug)).shape i = .abort .panic ∧ (∀ us r, ¬ File text i.data us r) ∧
      debug = true ∧ Undersized text i.data) := by
  obtain ⟨bs, c, k, hr, ha⟩ := C07_many lawful (moves_dataInterpreter (text := text) debug)
    (repeatable_dataInterpreter debug).reusable (consuming_dataInterpreter debug) i
  obtain ⟨hk, h2, h3⟩ := run_file debug hlen hr
  have hs := step (text := text) debug k hk
  rw [Parser.shape] at hs
  rw [Parser.shape]
  cases hx : (dataInterpreter text debug).answer k with
  | ok c v j => rw [hx] at ha; exact ha.elim
  | soft =>
    rw [hx] at ha hs
    cases hs with
    | short hl =>
      refine .inl ⟨c, bs, k, by rw [ha]; rfl, fun us r => ?_, fun h => ?_⟩
      · rw [h2]
        constructor
        · rintro ⟨zs, rfl, hz⟩
          obtain ⟨rfl, rfl⟩ := (File.short hl).1 hz
          exact ⟨List.append_nil _, rfl⟩
        · rintro ⟨rfl, rfl⟩
          exact ⟨[], (List.append_nil _).symm, (File.short hl).2 ⟨rfl, rfl⟩⟩
      · exact Undersized.short hl (h3.1 h)
  | hard x =>
    rw [hx] at ha hs
    refine .inr (.inl ⟨by rw [ha]; rfl, fun us r h => ?_, fun hd h => ?_⟩)
    · obtain ⟨zs, rfl, hz⟩ := (h2 _ _).1 h
      cases hs with
      | small hl hn hd =>
        obtain ⟨b, _, _, hb, _⟩ := (File.long hl).1 hz
        have := hb.1
        omega
      | bad hl hn hb =>
        obtain ⟨b, _, _, hb', _⟩ := (File.long hl).1 hz
        exact hb b hb'
    · have h := h3.1 h
      cases hs with
      | small hl hn hd' => rw [hd] at hd'; cases hd'
      | bad hl hn hb =>
        rcases (Undersized.long hl).1 h with h | ⟨b, hb', _⟩
        · omega
        · exact hb b hb'
  | abort x =>
    rw [hx] at ha hs
    cases hs with
    | panics hl hn hd =>
      refine .inr (.inr ⟨by rw [ha]; rfl, fun us r h => ?_, hd, h3.2 ((Undersized.long hl).2 (.inl hn))⟩)
      obtain ⟨zs, rfl, hz⟩ := (h2 _ _).1 h
      obtain ⟨b, _, _, hb, _⟩ := (File.long hl).1 hz
      have := hb.1
      omega

theorem coherent_file (debug : Bool) : Coherent (many (dataInterpreter text debug)) :=
  .ofMode lawful (moves_many lawful (moves_dataInterpreter debug)).run

end Verif.Mp4
