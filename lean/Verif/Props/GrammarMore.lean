import Verif.Props.Grammar
import Verif.Proof.RunLemmas

/-!
# C56: more rules: `count_min_max`, `sep_end_by1`, `sep_end_by`
-/

namespace Verif

variable {S : Strm} {N σ τ α β : Type} {rules : N → Gram N S.Tok} {a b : Gram N S.Tok} {F : S.Tok → Prop}

/-! ## A bounded number of times -/

/-- The reference semantics of `count_min_max` as an equation. -/
def countSem {I : Type} (m : Sem I Unit α) (orElse : Sem I Unit (List α) → Sem I Unit (List α) → Sem I Unit (List α)) :
    (lo hi : Nat) → Sem I Unit (List α)
  | _, 0 => Ref.value []
  | 0, hi + 1 => orElse (Ref.bind m fun v => Ref.map (countSem m orElse 0 hi) (v :: ·)) (Ref.value [])
  | lo + 1, hi + 1 => Ref.bind m fun v => Ref.map (countSem m orElse lo hi) (v :: ·)

private theorem countSem_ok {m : Sem S.Input Unit α} : ∀ (hi : Nat) (i : S.Input), countSem m orSem 0 hi i ≠ .soft
  | 0, i, h => by cases h
  | hi + 1, i, h => by
    rw [countSem, orSem] at h
    cases hx : Ref.bind m (fun v => Ref.map (countSem m orSem 0 hi) (v :: ·)) i with
    | soft => rw [hx] at h; cases h
    | _ => rw [hx] at h; cases h

/-- The relation and the equation agree. -/
theorem countSem_eq {m : Sem S.Input Unit α} : ∀ (hi lo : Nat) (i : S.Input) (x : Answer S.Input Unit (List α)),
    Ref.IsCount lo hi m i x → x = countSem m orSem lo hi i
  | 0, lo, i, x, h => by rw [isCount_zero h]; cases lo <;> rfl
  | hi + 1, lo, i, x, h => by
    have h := isCount_step h
    cases lo with
    | zero =>
      rw [countSem, orSem]
      simp only [Ref.bind]
      cases hx : m i with
      | ok c v j =>
        rw [hx] at h
        obtain ⟨y, h1, h2⟩ := h
        have h3 := countSem_eq hi 0 j y h1
        have h4 := countSem_ok (m := m) hi j
        rw [h2, h3]
        simp only [Ref.map]
        cases hy : countSem m orSem 0 hi j with
        | soft => exact absurd hy h4
        | _ => rfl
      | soft => rw [hx] at h; rw [h]; rfl
      | hard e => rw [hx] at h; rw [h]
      | abort e => rw [hx] at h; rw [h]
    | succ lo =>
      rw [countSem]
      simp only [Ref.bind]
      cases hx : m i with
      | ok c v j =>
        rw [hx] at h
        obtain ⟨y, h1, h2⟩ := h
        rw [h2, countSem_eq hi lo j y h1]
        rfl
      | soft => rw [hx] at h; rw [h]; rfl
      | hard e => rw [hx] at h; rw [h]
      | abort e => rw [hx] at h; rw [h]

/-- What is repeated comes first. -/
theorem first_times {T : Type} {rules : N → Gram N T} {a : Gram N T} {t : T} :
    ∀ (hi lo : Nat), (a.times lo hi).First rules t → a.First rules t
  | 0, lo, h => by cases lo <;> cases h
  | hi + 1, 0, h => by
    rcases Gram.first_alt.1 h with h | h
    · rcases Gram.first_seq.1 h with h | h
      · exact h
      · exact first_times hi 0 h.2
    · cases h
  | hi + 1, lo + 1, h => by
    rcases Gram.first_seq.1 h with h | h
    · exact h
    · exact first_times hi lo h.2

private theorem value_predicts (v : α) : Predicts (S := S) rules .empty (Ref.value v) :=
  fun i => ⟨[], .nil i, .empty, rfl, fun _ _ _ _ h => by cases h⟩

private theorem value_accepts (v : α) : Accepts (S := S) rules .empty F (Ref.value v) := by
  intro i w k _ hr hd _
  cases hd
  cases Strm.reads_nil.1 hr
  exact .inl ⟨false, v, rfl⟩

private theorem map_predicts {m : Sem S.Input Unit α} (hm : Predicts rules a m) (f : α → β) : Predicts rules a (Ref.map m f) := by
  intro i
  have h := hm i
  dsimp only [Ref.map]
  revert h
  cases m i <;> exact id

private theorem map_accepts {m : Sem S.Input Unit α} (hm : Accepts rules a F m) (f : α → β) : Accepts rules a F (Ref.map m f) := by
  intro i w k hp hr hd hF
  dsimp only [Ref.map]
  rcases hm i w k hp hr hd hF with ⟨c, v, h⟩ | ⟨x, h⟩ <;> rw [h]
  · exact .inl ⟨c, f v, rfl⟩
  · exact .inr ⟨x, rfl⟩

/-- The equation as a parser of a grammar. -/
theorem countSem_follows (hS : S.Lawful) {m : Sem S.Input Unit α} (hp : Predicts rules a m)
    (hp' : Accepts rules a (fun t => a.First rules t ∨ F t) m) (ha : ¬ a.Null rules) (hF : Gram.Apart (a.First rules) F) :
    ∀ (hi lo : Nat), Predicts rules (a.times lo hi) (countSem m orSem lo hi) ∧ Accepts rules (a.times lo hi) F (countSem m orSem lo hi)
  | 0, lo => by cases lo <;> exact ⟨value_predicts [], value_accepts []⟩
  | hi + 1, lo => by
    have next : ∀ l, Accepts rules a ((a.times l hi).Then rules F) m := fun l i w k h1 h2 h3 h4 =>
      hp' i w k h1 h2 h3 fun t j hu => by
        rcases h4 t j hu with h | h
        · exact .inl (first_times hi l h)
        · exact .inr h.2
    cases lo with
    | zero =>
      have ih := countSem_follows hS hp hp' ha hF hi 0
      have hn : ¬ (a.seq (a.times 0 hi)).Null rules := fun h => ha (Gram.null_seq.1 h).1
      have hb := predicts_bind hp fun v => map_predicts ih.1 (v :: ·)
      refine ⟨predicts_or hb (value_predicts []) hn, accepts_or hb (accepts_bind hS (next 0) fun v => map_accepts ih.2 (v :: ·))
        (value_accepts []) hn (fun t _ h => by cases h) fun _ t h => ?_⟩
      rcases Gram.first_seq.1 h with h | h
      · exact hF t h
      · exact absurd h.1 ha
    | succ lo =>
      have ih := countSem_follows hS hp hp' ha hF hi lo
      exact ⟨predicts_bind hp fun v => map_predicts ih.1 (v :: ·),
        accepts_bind hS (next lo) fun v => map_accepts ih.2 (v :: ·)⟩

/-- **C56.**  `count_min_max` and `skip_count_min_max`: what is repeated can be told from what comes next. -/
theorem C56_count_min_max (hS : S.Lawful) {p : Parser S σ α} (hm : Moves p) (hr : Reusable p)
    (hp : Follows rules a (fun t => a.First rules t ∨ F t) p) (ha : ¬ a.Null rules) (hF : Gram.Apart (a.First rules) F)
    (lo hi : Nat) (hlh : lo ≤ hi) :
    Follows rules (a.times lo hi) F (countMinMax lo hi p) ∧ Follows rules (a.times lo hi) F (skipCountMinMax lo hi p) := by
  have h := countSem_follows hS hp.1 hp.2 ha hF hi lo
  have e1 : (countMinMax lo hi p).shape = countSem p.shape orSem lo hi :=
    funext fun i => countSem_eq hi lo i _ (C09_count_min_max hS hm hr lo hi hlh i)
  have e2 : (skipCountMinMax lo hi p).shape = Ref.map (countSem p.shape orSem lo hi) fun _ => () := by
    funext i
    obtain ⟨x, h1, h2⟩ := C09_skip_count_min_max hS hm hr lo hi hlh i
    rw [h2, countSem_eq hi lo i x h1]
    rfl
  exact ⟨⟨e1 ▸ h.1, e1 ▸ h.2⟩, ⟨e2 ▸ map_predicts h.1 _, e2 ▸ map_accepts h.2 _⟩⟩

/-! ## Elements each followed by a separator, except perhaps the last -/

/-- How the repetition of separator and element ends at `k'`, the whole at `k`. -/
private inductive SepEnds {I : Type} (m : Sem I Unit α) (s : Sem I Unit β) (k : I) : I → Prop where
  | without : s k = .soft → SepEnds m s k k
  | trailing {c : Bool} {v : β} {k' : I} : s k' = .ok c v k → m k = .soft → SepEnds m s k k'
  | abort {k' : I} {x : Abort} : s k' = .abort x → SepEnds m s k k'
  | after {c : Bool} {v : β} {k' l : I} {x : Abort} : s k' = .ok c v l → m l = .abort x → SepEnds m s k k'

private theorem sepEnds_stop {I : Type} {m : Sem I Unit α} {s : Sem I Unit β} {k k' : I} (h : SepEnds m s k k') (c : Bool)
    (v : α) (j : I) : Ref.bind s (fun _ => m) k' ≠ .ok c v j := by
  intro e
  simp only [Ref.bind] at e
  cases h with
  | without h => rw [h] at e; cases e
  | @trailing d _ _ h h' => rw [h] at e; dsimp only at e; rw [h'] at e; cases d <;> cases e
  | abort h => rw [h] at e; cases e
  | @after d _ _ _ _ h h' => rw [h] at e; dsimp only at e; rw [h'] at e; cases d <;> cases e

private theorem sep_end_run (hS : S.Lawful) {m : Sem S.Input Unit α} {s : Sem S.Input Unit β} (hm : Predicts rules a m)
    (hm' : Accepts rules a (fun t => b.First rules t ∨ F t) m) (hs : Predicts rules b s)
    (hs' : Accepts rules b (fun t => a.First rules t ∨ F t) s) (ha : ¬ a.Null rules) (hb : ¬ b.Null rules)
    (hbF : Gram.Apart (b.First rules) F) (haF : Gram.Apart (a.First rules) F) {g : Gram N S.Tok} {w y : List S.Tok}
    (hd : g.Derives rules w) (hg : g = (b.seq a).star) (hy : b.opt.Derives rules y) (i k0 k : S.Input)
    (hp : S.isPartial i = false) (hr : S.Reads i w k0) (hr' : S.Reads k0 y k)
    (hn : ∀ t l, S.uncons k = (.ok t, l) → F t) :
    ∃ vs c k', Ref.Run (Ref.bind s fun _ => m) i vs c k' ∧ SepEnds m s k k' := by
  induction hd generalizing i with
  | stop =>
    cases hg
    cases Strm.reads_nil.1 hr
    refine ⟨[], false, k0, .nil k0, ?_⟩
    rcases Gram.derives_alt.1 hy with hy | hy
    · rcases hs' k0 y k hp hr' hy fun t l hu => .inr (hn t l hu) with ⟨c, v, h⟩ | ⟨x, h⟩
      · rcases predicts_soft hm ((hS.reads_isPartial hr').trans hp) (fun t l hu ht => haF t ht (hn t l hu)) ha with h' | ⟨x, h'⟩
        · exact .trailing h h'
        · exact .after h h'
      · exact .abort h
    · cases hy
      cases Strm.reads_nil.1 hr'
      rcases predicts_soft hs hp (fun t l hu ht => hbF t ht (hn t l hu)) hb with h | ⟨x, h⟩
      · exact .without h
      · exact .abort h
  | @more a' u v h1 h2 _ ih2 =>
    cases hg
    obtain ⟨j, h3, h4⟩ := reads_split hr
    obtain ⟨ub, ua, rfl, h5, h6⟩ := Gram.derives_seq.1 h1
    obtain ⟨j', h7, h8⟩ := reads_split h3
    have hp1 : S.isPartial j' = false := (hS.reads_isPartial h7).trans hp
    have hnext : ∀ t l, S.uncons j = (.ok t, l) → b.First rules t ∨ F t := by
      intro t l hu
      rcases reads_next (F := fun t => b.First rules t ∨ F t) h4 h2 (fun t l hu => by
          rcases reads_next hr' hy hn t l hu with ⟨_, h⟩ | ⟨_, h⟩
          · rcases Gram.first_alt.1 h with h | h
            · exact .inl h
            · cases h
          · exact .inr h) t l hu with ⟨_, h⟩ | ⟨_, h⟩
      · rcases Gram.first_seq.1 (Gram.first_star.1 h) with h | h
        · exact .inl h
        · exact absurd h.1 hb
      · exact h
    have hnext' : ∀ t l, S.uncons j' = (.ok t, l) → a.First rules t ∨ F t := by
      intro t l hu
      cases ua with
      | nil => exact absurd h6 ha
      | cons t' ts =>
        obtain ⟨l', hl⟩ := reads_head h8
        cases hu.symm.trans hl
        exact .inl (Gram.derives_first h6 _ _ rfl)
    rcases hs' i ub j' hp h7 h5 hnext' with ⟨c, x, hx⟩ | ⟨x, hx⟩
    · rcases hm' j' ua j hp1 h8 h6 hnext with ⟨c', x', hx'⟩ | ⟨x', hx'⟩
      · obtain ⟨vs, d, k', h9, h10⟩ := ih2 rfl j ((hS.reads_isPartial h8).trans hp1) h4
        refine ⟨x' :: vs, (c || c') || d, k', .cons ?_ h9, h10⟩
        simp only [Ref.bind]
        rw [hx]
        dsimp only
        rw [hx']
        rfl
      · exact ⟨[], false, i, .nil i, .after hx hx'⟩
    · exact ⟨[], false, i, .nil i, .abort hx⟩
  | empty => cases hg
  | one => cases hg
  | seq => cases hg
  | left => cases hg
  | right => cases hg
  | ref => cases hg

private theorem sep_end_predicts {m : Sem S.Input Unit α} {s : Sem S.Input Unit β} (hm : Predicts rules a m)
    (hs : Predicts rules b s) (ha : ¬ a.Null rules) {n : Sem S.Input Unit (List α)}
    (hn : ∀ i, Ref.IsSepEndBy1 m s i (n i)) : Predicts rules (a.seq ((b.seq a).star.seq b.opt)) n := by
  intro i
  have h := hn i
  have h1 := hm i
  simp only [Ref.IsSepEndBy1] at h
  cases hx : m i with
  | soft =>
    rw [hx] at h h1
    rw [h]
    exact ⟨fun t j hu ht => by
      rcases Gram.first_seq.1 ht with ht | ht
      · exact h1.1 t j hu ht
      · exact ha ht.1, fun hl => ha (Gram.null_seq.1 hl).1⟩
  | hard e =>
    rw [hx] at h h1
    rw [h]
    exact h1.imp (fun ⟨t, j, hu, ht⟩ => ⟨t, j, hu, .seq ht⟩) id
  | abort x => rw [hx] at h; rw [h]; trivial
  | ok c v j =>
    rw [hx] at h h1
    obtain ⟨u, h2, h3, h4, _⟩ := h1
    cases u with
    | nil => exact absurd h3 ha
    | cons t ts =>
      obtain rfl : c = true := h4
      obtain ⟨l, hl⟩ := reads_head h2
      have hf := Gram.derives_first h3 _ _ rfl
      obtain ⟨vs, d, k, h5, h6⟩ := h
      obtain ⟨w, h7, h8, _⟩ := predicts_run (predicts_bind hs fun _ => hm) h5
      have h9 := hs k
      cases hk : s k with
      | soft =>
        rw [hk] at h6
        rw [h6]
        exact ⟨_, reads_append h2 h7, .seq h3 (List.append_nil w ▸ .seq h8 (.right .empty)), by simp, by simp⟩
      | hard e => rw [hk] at h6; rw [h6]; exact .inl ⟨t, l, hl, .seq hf⟩
      | abort x => rw [hk] at h6; rw [h6]; trivial
      | ok c' v' k' =>
        rw [hk] at h6 h9
        obtain ⟨y, h10, h11, _, _⟩ := h9
        dsimp only at h6
        cases hk' : m k' with
        | ok _ _ _ => rw [hk'] at h6; exact h6.elim
        | soft =>
          rw [hk'] at h6
          rw [h6]
          exact ⟨_, reads_append h2 (reads_append h7 h10), .seq h3 (.seq h8 (.left h11)), by simp, by simp⟩
        | hard e => rw [hk'] at h6; rw [h6]; exact .inl ⟨t, l, hl, .seq hf⟩
        | abort x => rw [hk'] at h6; rw [h6]; trivial

private theorem sep_end_accepts (hS : S.Lawful) {m : Sem S.Input Unit α} {s : Sem S.Input Unit β} (hm : Predicts rules a m)
    (hm' : Accepts rules a (fun t => b.First rules t ∨ F t) m) (hs : Predicts rules b s)
    (hs' : Accepts rules b (fun t => a.First rules t ∨ F t) s) (ha : ¬ a.Null rules) (hb : ¬ b.Null rules)
    (hbF : Gram.Apart (b.First rules) F) (haF : Gram.Apart (a.First rules) F) {n : Sem S.Input Unit (List α)}
    (hn : ∀ i, Ref.IsSepEndBy1 m s i (n i)) : Accepts rules (a.seq ((b.seq a).star.seq b.opt)) F n := by
  intro i w k hp hr hd hF
  obtain ⟨u, v, rfl, h1, h2⟩ := Gram.derives_seq.1 hd
  obtain ⟨x, y, rfl, h3, h4⟩ := Gram.derives_seq.1 h2
  obtain ⟨j, h5, h6⟩ := reads_split hr
  obtain ⟨k0, h7, h8⟩ := reads_split h6
  have h := hn i
  simp only [Ref.IsSepEndBy1] at h
  rcases hm' i u j hp h5 h1 (fun t l hu => by
      rcases reads_next h6 h2 hF t l hu with ⟨_, h⟩ | ⟨_, h⟩
      · rcases Gram.first_seq.1 h with h | ⟨_, h⟩
        · rcases Gram.first_seq.1 (Gram.first_star.1 h) with h | h
          · exact .inl h
          · exact absurd h.1 hb
        · rcases Gram.first_alt.1 h with h | h
          · exact .inl h
          · cases h
      · exact .inr h) with ⟨c, z, hz⟩ | ⟨z, hz⟩
  · rw [hz] at h
    obtain ⟨vs, d, k', h9, h10⟩ := sep_end_run hS hm hm' hs hs' ha hb hbF haF h3 rfl h4 j k0 k
      ((hS.reads_isPartial h5).trans hp) h7 h8 hF
    obtain ⟨vs', d', k2, h11, h12, h13⟩ := sep_rest_stop h
    obtain ⟨rfl, rfl, rfl⟩ := maximal_unique h9 h11 (sepEnds_stop h10) h12
    cases h10 with
    | without e => rw [e] at h13; exact .inl ⟨_, _, h13⟩
    | trailing e e' => rw [e] at h13; dsimp only at h13; rw [e'] at h13; exact .inl ⟨_, _, h13⟩
    | abort e => rw [e] at h13; exact .inr ⟨_, h13⟩
    | after e e' => rw [e] at h13; dsimp only at h13; rw [e'] at h13; exact .inr ⟨_, h13⟩
  · rw [hz] at h
    exact .inr ⟨z, h⟩

/-- **C56.**  `sep_end_by1`: after an element a separator, and after a separator an element, can be told from what comes
next. -/
theorem C56_sep_end_by1 (hS : S.Lawful) {Cp : σ → Prop} {Cs : τ → Prop} {p : Parser S σ α} {s : Parser S τ β} (hmp : Moves p)
    (hms : Moves s) (hkp : Keeps false Cp p) (hks : Keeps false Cs s)
    (hp : Follows rules a (fun t => b.First rules t ∨ F t) p) (hs : Follows rules b (fun t => a.First rules t ∨ F t) s)
    (ha : ¬ a.Null rules) (hb : ¬ b.Null rules) (hbF : Gram.Apart (b.First rules) F) (haF : Gram.Apart (a.First rules) F) :
    Follows rules (a.sepEndBy1 b) F (sepEndBy1 p s) :=
  have h := C10_sep_end_by1 hS hmp hms hkp hks (follows_consuming hp.1 ha)
  ⟨sep_end_predicts hp.1 hs.1 ha h, sep_end_accepts hS hp.1 hp.2 hs.1 hs.2 ha hb hbF haF h⟩

/-- **C56.**  `sep_end_by`: as `sep_end_by1`, or nothing at all. -/
theorem C56_sep_end_by (hS : S.Lawful) {Cp : σ → Prop} {Cs : τ → Prop} {p : Parser S σ α} {s : Parser S τ β} (hmp : Moves p)
    (hms : Moves s) (hkp : Keeps false Cp p) (hks : Keeps false Cs s)
    (hp : Follows rules a (fun t => b.First rules t ∨ F t) p) (hs : Follows rules b (fun t => a.First rules t ∨ F t) s)
    (ha : ¬ a.Null rules) (hb : ¬ b.Null rules) (hbF : Gram.Apart (b.First rules) F) (haF : Gram.Apart (a.First rules) F) :
    Follows rules (a.sepEndBy1 b).opt F (sepEndBy p s) := by
  have h := C10_sep_end_by hS hmp hms hkp hks (follows_consuming hp.1 ha)
  have h1 := sep_end_predicts hp.1 hs.1 ha fun i => (Classical.choose_spec (h i)).1
  have h2 := sep_end_accepts hS hp.1 hp.2 hs.1 hs.2 ha hb hbF haF fun i => (Classical.choose_spec (h i)).1
  have hn : ¬ (a.sepEndBy1 b).Null rules := fun h => ha (Gram.null_seq.1 h).1
  have e : (sepEndBy p s).shape = orSem (fun i => Classical.choose (h i)) (Ref.value []) := by
    funext i
    rw [(Classical.choose_spec (h i)).2, orSem]
    cases Classical.choose (h i) <;> rfl
  refine ⟨e ▸ predicts_or h1 (value_predicts []) hn, e ▸ accepts_or h1 h2 (value_accepts []) hn (fun t _ h => by cases h)
    fun _ t ht => ?_⟩
  rcases Gram.first_seq.1 ht with ht | ht
  · exact haF t ht
  · exact absurd ht.1 ha

/-! ## Examples -/

private abbrev B := sliceS Nat 1

/-- Statements `'[' (digit ';')* digit? ']'`, and two or three digits. -/
example (rules : Empty → Gram Empty Nat) : Follows (S := B) rules
    (.seq (.one fun t => (if t = 0 then some t else none).isSome)
      (.seq (Gram.sepEndBy1 (.one fun t => (if t = 2 then some t else none).isSome)
          (.one fun t => (if t = 3 then some t else none).isSome)).opt
        (.one fun t => (if t = 1 then some t else none).isSome)))
    (fun _ => True) (between (token B 0) (token B 1) (sepEndBy (token B 2) (token B 3))) := by
  have hS := slice_lawful Nat 1
  refine C56_between hS (C56_one (C53_token hS 0)) ?_ (C56_one (C53_token hS 1))
  refine C56_sep_end_by hS (moves_token hS 2) (moves_token hS 3) (keeps_unit (h := false) _) (keeps_unit (h := false) _)
    (C56_one (C53_token hS 2)) (C56_one (C53_token hS 3)) Gram.null_one Gram.null_one ?_ ?_
  · intro t h h'
    simp [Gram.Then, Gram.first_one, Gram.null_one] at h h'
    simp [h] at h'
  · intro t h h'
    simp [Gram.Then, Gram.first_one, Gram.null_one] at h h'
    simp [h] at h'

example : (between (token B 0) (token B 1) (sepEndBy (token B 2) (token B 3))).parse ⟨0, [0, 2, 3, 2, 3, 1]⟩ =
    .ok [2, 2] ⟨6, []⟩ := by rfl

example (rules : Empty → Gram Empty Nat) : Follows (S := B) rules
    (Gram.times (.one fun t => (if t = 2 then some t else none).isSome) 2 3) (fun t => t = 1) (countMinMax 2 3 (token B 2)) := by
  have hS := slice_lawful Nat 1
  refine (C56_count_min_max hS (moves_token hS 2) (keeps_unit (h := false) _).reusable (C56_one (C53_token hS 2))
    Gram.null_one ?_ 2 3 (by decide)).1
  rintro t h rfl
  simp [Gram.first_one] at h

end Verif
