import Verif.Spec.Alike
import Verif.Props.Repeat

/-!
# Equal answers, through the reference combinators
-/

namespace Verif

variable {I J α β γ δ : Type} {R : I → J → Prop} {V : α → β → Prop} {W : γ → δ → Prop}

/-- Equal answers of two answer functions. -/
def SemAlike (R : I → J → Prop) (V : α → β → Prop) (m : Sem I Unit α) (n : Sem J Unit β) : Prop :=
  ∀ i j, R i j → (m i).Alike R V (n j)

theorem alike_after {c : Bool} {a : Answer I Unit α} {b : Answer J Unit β} (h : a.Alike R V b) :
    (a.after c).Alike R V (b.after c) := by
  cases a <;> cases b <;> try exact h.elim
  · obtain ⟨rfl, h2, h3⟩ := h
    exact ⟨rfl, h2, h3⟩
  · cases c <;> trivial
  · trivial
  · exact h

theorem alike_map {f : α → γ} {g : β → δ} {a : Answer I Unit α} {b : Answer J Unit β} (h : a.Alike R V b)
    (hf : ∀ v w, V v w → W (f v) (g w)) : (a.map f).Alike R W (b.map g) := by
  cases a <;> cases b <;> try exact h.elim
  · obtain ⟨h1, h2, h3⟩ := h
    exact ⟨h1, hf _ _ h2, h3⟩
  · trivial
  · trivial
  · exact h

theorem alike_imp {X : α → β → Prop} {a : Answer I Unit α} {b : Answer J Unit β} (h : a.Alike R V b)
    (hx : ∀ v w, V v w → X v w) : a.Alike R X b := by
  cases a <;> cases b <;> try exact h.elim
  · exact ⟨h.1, hx _ _ h.2.1, h.2.2⟩
  · trivial
  · trivial
  · exact h

theorem semAlike_map {m : Sem I Unit α} {n : Sem J Unit β} {f : α → γ} {g : β → δ} (h : SemAlike R V m n)
    (hf : ∀ v w, V v w → W (f v) (g w)) : SemAlike R W (Ref.map m f) (Ref.map n g) :=
  fun i j hr => alike_map (h i j hr) hf

theorem semAlike_bind {m : Sem I Unit α} {n : Sem J Unit β} {f : α → Sem I Unit γ} {g : β → Sem J Unit δ}
    (h : SemAlike R V m n) (hf : ∀ v w, V v w → SemAlike R W (f v) (g w)) :
    SemAlike R W (Ref.bind m f) (Ref.bind n g) := by
  intro i j hr
  have h1 := h i j hr
  simp only [Ref.bind]
  cases hm : m i <;> cases hn : n j <;> rw [hm, hn] at h1 <;> try exact h1.elim
  · obtain ⟨rfl, h2, h3⟩ := h1
    exact alike_after (hf _ _ h2 _ _ h3)
  · trivial
  · trivial
  · exact h1

theorem alike_run {m : Sem I Unit α} {n : Sem J Unit β} (h : SemAlike R V m n) {i k : I} {vs : List α} {c : Bool}
    (hm : Ref.Run m i vs c k) {j l : J} {ws : List β} {d : Bool} (hn : Ref.Run n j ws d l)
    (hk : ∀ c v x, m k ≠ .ok c v x) (hl : ∀ c v x, n l ≠ .ok c v x) (hr : R i j) :
    c = d ∧ Each V vs ws ∧ R k l := by
  induction hm generalizing j ws d with
  | nil i =>
    cases hn with
    | nil => exact ⟨rfl, .nil, hr⟩
    | cons h1 h2 =>
      have h3 := h _ _ hr
      rw [h1] at h3
      cases hx : m i with
      | ok c v x => exact absurd hx (hk c v x)
      | _ => rw [hx] at h3; exact h3.elim
  | cons h1 h2 ih =>
    have h3 := h _ _ hr
    rw [h1] at h3
    cases hn with
    | nil =>
      cases hx : n l with
      | ok c v x => exact absurd hx (hl c v x)
      | _ => rw [hx] at h3; exact h3.elim
    | cons h4 h5 =>
      rw [h4] at h3
      obtain ⟨rfl, h6, h7⟩ := h3
      obtain ⟨rfl, h8, h9⟩ := ih h5 hk h7
      exact ⟨rfl, .cons h6 h8, h9⟩

theorem alike_isMany {m : Sem I Unit α} {n : Sem J Unit β} (h : SemAlike R V m n) {i : I} {j : J} (hr : R i j)
    {a : Answer I Unit (List α)} {b : Answer J Unit (List β)} (ha : Ref.IsMany m i a) (hb : Ref.IsMany n j b) :
    a.Alike R (Each V) b := by
  obtain ⟨vs, c, k, h1, h2⟩ := ha
  obtain ⟨ws, d, l, h3, h4⟩ := hb
  obtain ⟨rfl, h5, h6⟩ := alike_run h h1 h3 (fun c v x e => by rw [e] at h2; exact h2)
    (fun c v x e => by rw [e] at h4; exact h4) hr
  have h7 := h k l h6
  revert h2 h4
  cases hm : m k <;> cases hn : n l <;> rw [hm, hn] at h7 <;> try exact h7.elim
  · exact fun h => h.elim
  · rintro rfl rfl; exact ⟨rfl, h5, h6⟩
  · rintro rfl rfl; trivial
  · rintro rfl rfl; exact h7

theorem alike_isMany1 {m : Sem I Unit α} {n : Sem J Unit β} (h : SemAlike R V m n) {i : I} {j : J} (hr : R i j)
    {a : Answer I Unit (List α)} {b : Answer J Unit (List β)} (ha : Ref.IsMany1 m i a) (hb : Ref.IsMany1 n j b) :
    a.Alike R (Each V) b := by
  have h1 := h i j hr
  simp only [Ref.IsMany1] at ha hb
  revert ha hb
  cases hm : m i <;> cases hn : n j <;> rw [hm, hn] at h1 <;> try exact h1.elim
  · exact fun ha hb => alike_isMany h hr ha hb
  · rintro rfl rfl; trivial
  · rintro rfl rfl; trivial
  · rintro rfl rfl; exact h1

theorem alike_isSepBy1 {m : Sem I Unit α} {n : Sem J Unit β} {s : Sem I Unit γ} {t : Sem J Unit δ} (h : SemAlike R V m n)
    (hs : SemAlike R W s t) {i : I} {j : J} (hr : R i j) {a : Answer I Unit (List α)} {b : Answer J Unit (List β)}
    (ha : Ref.IsSepBy1 m s i a) (hb : Ref.IsSepBy1 n t j b) : a.Alike R (Each V) b := by
  have h1 := h i j hr
  simp only [Ref.IsSepBy1] at ha hb
  revert ha hb
  cases hm : m i <;> cases hn : n j <;> rw [hm, hn] at h1 <;> try exact h1.elim
  · rintro ⟨x, hx, rfl⟩ ⟨y, hy, rfl⟩
    obtain ⟨rfl, h2, h3⟩ := h1
    exact alike_after (alike_map (alike_isMany (semAlike_bind hs fun _ _ _ => h) h3 hx hy) fun _ _ h4 => .cons h2 h4)
  · rintro rfl rfl; trivial
  · rintro rfl rfl; trivial
  · rintro rfl rfl; exact h1

theorem alike_orEmpty {P : I → Answer I Unit (List α) → Prop} {Q : J → Answer J Unit (List β) → Prop} {i : I} {j : J} (hr : R i j)
    (h : ∀ a b, P i a → Q j b → a.Alike R (Each V) b) {a : Answer I Unit (List α)} {b : Answer J Unit (List β)}
    (ha : Ref.OrEmpty P i a) (hb : Ref.OrEmpty Q j b) : a.Alike R (Each V) b := by
  obtain ⟨x, hx, rfl⟩ := ha
  obtain ⟨y, hy, rfl⟩ := hb
  have h1 := h x y hx hy
  cases x <;> cases y <;> try exact h1.elim
  · exact h1
  · exact ⟨rfl, .nil, hr⟩
  · trivial
  · exact h1

theorem alike_isSepEndBy1 {m : Sem I Unit α} {n : Sem J Unit β} {s : Sem I Unit γ} {t : Sem J Unit δ} (h : SemAlike R V m n)
    (hs : SemAlike R W s t) {i : I} {j : J} (hr : R i j) {a : Answer I Unit (List α)} {b : Answer J Unit (List β)}
    (ha : Ref.IsSepEndBy1 m s i a) (hb : Ref.IsSepEndBy1 n t j b) : a.Alike R (Each V) b := by
  have h1 := h i j hr
  simp only [Ref.IsSepEndBy1] at ha hb
  revert ha hb
  cases hm : m i <;> cases hn : n j <;> rw [hm, hn] at h1 <;> try exact h1.elim
  · rintro ⟨vs, e, k, h2, h3⟩ ⟨ws, f, l, h4, h5⟩
    obtain ⟨rfl, h6, h7⟩ := h1
    have nok : ∀ {I α γ : Type} {s : Sem I Unit γ} {m : Sem I Unit α} {k : I} {P : Bool → γ → I → Prop} {Q : Prop} {X Y : Unit → Prop} {Z Z' : Abort → Prop},
        (match s k with
          | .soft => Q
          | .hard e => X e
          | .abort x => Z x
          | .ok c' g k' =>
            match m k' with
            | .ok _ _ _ => False
            | .soft => P c' g k'
            | .hard e => Y e
            | .abort x => Z' x) → ∀ c v x, Ref.bind s (fun _ => m) k ≠ .ok c v x := by
      intro I α γ s m k P Q X Y Z Z' hx c v x he
      simp only [Ref.bind] at he
      revert hx he
      cases s k with
      | ok c' g k' =>
        dsimp only
        cases m k' with
        | ok _ _ _ => exact fun h => h.elim
        | soft => intro _ h; cases c' <;> cases h
        | _ => intro _ h; cases h
      | _ => intro _ h; cases h
    obtain ⟨rfl, h8, h9⟩ := alike_run (semAlike_bind hs fun _ _ _ => h) h2 h4 (nok (P := fun c' _ k' => a = .ok _ _ k') h3)
      (nok (P := fun c' _ k' => b = .ok _ _ k') h5) h7
    have h10 := hs k l h9
    revert h3 h5
    cases hsk : s k <;> cases htl : t l <;> rw [hsk, htl] at h10 <;> try exact h10.elim
    · dsimp only
      obtain ⟨rfl, -, h11⟩ := h10
      have h12 := h _ _ h11
      revert h12
      generalize m _ = x
      generalize n _ = y
      cases x <;> cases y <;> intro h12 <;> try exact h12.elim
      · exact fun h => h.elim
      · rintro rfl rfl; exact ⟨rfl, .cons h6 h8, h11⟩
      · rintro rfl rfl; trivial
      · rintro rfl rfl; exact h12
    · rintro rfl rfl; exact ⟨rfl, .cons h6 h8, h9⟩
    · rintro rfl rfl; trivial
    · rintro rfl rfl; exact h10
  · rintro rfl rfl; trivial
  · rintro rfl rfl; trivial
  · rintro rfl rfl; exact h1

theorem alike_isChainl1 {m : Sem I Unit α} {n : Sem J Unit β} {s : Sem I Unit (α → α → α)} {t : Sem J Unit (β → β → β)}
    (h : SemAlike R V m n)
    (hs : SemAlike R (fun f g => ∀ x x', V x x' → ∀ y y', V y y' → V (f x y) (g x' y')) s t) {i : I} {j : J} (hr : R i j)
    {a : Answer I Unit α} {b : Answer J Unit β} (ha : Ref.IsChainl1 m s i a) (hb : Ref.IsChainl1 n t j b) :
    a.Alike R V b := by
  have h1 := h i j hr
  simp only [Ref.IsChainl1] at ha hb
  revert ha hb
  cases hm : m i <;> cases hn : n j <;> rw [hm, hn] at h1 <;> try exact h1.elim
  · rintro ⟨x, hx, rfl⟩ ⟨y, hy, rfl⟩
    obtain ⟨rfl, h2, h3⟩ := h1
    have fold : ∀ us ws, Each (fun u w => (∀ x x', V x x' → ∀ y y', V y y' → V (u.1 x y) (w.1 x' y')) ∧ V u.2 w.2) us ws →
        ∀ v w, V v w → V (List.foldl (fun l (fx : (α → α → α) × α) => fx.1 l fx.2) v us)
          (List.foldl (fun l (fx : (β → β → β) × β) => fx.1 l fx.2) w ws) := by
      intro us ws hu
      induction hu with
      | nil => exact fun v w h => h
      | cons h4 _ ih => exact fun v w h => ih _ _ (h4.1 _ _ h _ _ h4.2)
    exact alike_after (alike_map (alike_isMany (semAlike_bind hs fun f g hfg => semAlike_map h fun v w hvw => ⟨hfg, hvw⟩)
      h3 hx hy) fun us ws hu => fold us ws hu _ _ h2)
  · rintro rfl rfl; trivial
  · rintro rfl rfl; trivial
  · rintro rfl rfl; exact h1

theorem alike_run_prefix {m : Sem I Unit α} {n : Sem J Unit β} (h : SemAlike R V m n) {i k : I} {vs : List α} {c : Bool}
    (hm : Ref.Run m i vs c k) {j : J} (hr : R i j) : ∃ ws l, Ref.Run n j ws c l ∧ Each V vs ws ∧ R k l := by
  induction hm generalizing j with
  | nil i => exact ⟨[], j, .nil j, .nil, hr⟩
  | cons h1 h2 ih =>
    have h3 := h _ _ hr
    rw [h1] at h3
    cases hn : n j with
    | ok c v x =>
      rw [hn] at h3
      obtain ⟨rfl, h4, h5⟩ := h3
      obtain ⟨ws, l, h6, h7, h8⟩ := ih h5
      exact ⟨_, l, .cons hn h6, .cons h4 h7, h8⟩
    | _ => rw [hn] at h3; exact h3.elim

private theorem run_count {m : Sem I Unit α} {i k : I} {vs : List α} {c : Bool} (h : Ref.Run m i vs c k) {k' : I}
    {vs' : List α} {c' : Bool} (h' : Ref.Run m i vs' c' k') (n : Nat)
    (hk : vs.length = n ∨ vs.length < n ∧ ∀ c v x, m k ≠ .ok c v x)
    (hk' : vs'.length = n ∨ vs'.length < n ∧ ∀ c v x, m k' ≠ .ok c v x) : vs = vs' ∧ c = c' ∧ k = k' := by
  induction h generalizing vs' c' n with
  | nil i =>
    cases h' with
    | nil => exact ⟨rfl, rfl, rfl⟩
    | cons h1 h2 =>
      simp only [List.length_nil, List.length_cons] at hk hk'
      rcases hk with rfl | ⟨_, hk⟩
      · omega
      · exact absurd h1 (hk _ _ _)
  | cons h1 h2 ih =>
    cases h' with
    | nil =>
      simp only [List.length_nil, List.length_cons] at hk hk'
      rcases hk' with rfl | ⟨_, hk'⟩
      · omega
      · exact absurd h1 (hk' _ _ _)
    | cons h3 h4 =>
      cases h1.symm.trans h3
      simp only [List.length_cons] at hk hk'
      obtain ⟨rfl, rfl, rfl⟩ := ih h4 (n - 1) (by rcases hk with h | h; exact .inl (by omega); exact .inr ⟨by omega, h.2⟩)
        (by rcases hk' with h | h; exact .inl (by omega); exact .inr ⟨by omega, h.2⟩)
      exact ⟨rfl, rfl, rfl⟩

theorem each_length {vs : List α} {ws : List β} (h : Each V vs ws) : vs.length = ws.length := by
  induction h with
  | nil => rfl
  | cons _ _ ih => simp [ih]

theorem alike_isCount {m : Sem I Unit α} {n : Sem J Unit β} (h : SemAlike R V m n) {lo hi : Nat} {i : I} {j : J} (hr : R i j)
    {a : Answer I Unit (List α)} {b : Answer J Unit (List β)} (ha : Ref.IsCount lo hi m i a) (hb : Ref.IsCount lo hi n j b) :
    a.Alike R (Each V) b := by
  obtain ⟨vs, c, k, h1, h2, h3⟩ := ha
  obtain ⟨ws, d, l, h4, h5, h6⟩ := hb
  obtain ⟨ws', l', h7, h8, h9⟩ := alike_run_prefix h h1 hr
  have hl := each_length h8
  have hkl := h k l' h9
  obtain ⟨rfl, rfl, rfl⟩ := run_count h7 h4 hi (by
    by_cases he : vs.length = hi
    · exact .inl (by omega)
    · refine .inr ⟨by omega, fun c v x hx => ?_⟩
      rw [if_neg he] at h3
      rw [hx] at hkl
      cases hm : m k <;> rw [hm] at hkl h3 <;> first | exact hkl.elim | exact h3.elim) (by
    by_cases he : ws.length = hi
    · exact .inl he
    · refine .inr ⟨by omega, fun c v x hx => ?_⟩
      rw [if_neg he, hx] at h6
      exact h6)
  by_cases he : vs.length = hi
  · rw [if_pos he] at h3
    rw [if_pos (by omega)] at h6
    subst h3 h6
    exact ⟨rfl, h8, h9⟩
  · rw [if_neg he] at h3
    rw [if_neg (by omega)] at h6
    revert h3 h6
    cases hm : m k <;> cases hn : n l' <;> rw [hm, hn] at hkl <;> try exact hkl.elim
    · exact fun h => h.elim
    · dsimp only
      rw [← hl]
      rintro rfl rfl
      by_cases hlo : lo ≤ vs.length
      · rw [if_pos hlo, if_pos hlo]
        exact ⟨rfl, h8, h9⟩
      · rw [if_neg hlo, if_neg hlo]
        cases c <;> trivial
    · rintro rfl rfl; trivial
    · rintro rfl rfl; exact hkl

theorem alike_isRepeatUntil {m : Sem I Unit α} {n : Sem J Unit β} {e : Sem I Unit γ} {f : Sem J Unit δ}
    (h : SemAlike R V m n) (he : SemAlike R W e f) {i : I} {j : J} (hr : R i j) {a : Answer I Unit (List α)}
    {b : Answer J Unit (List β)} (ha : Ref.IsRepeatUntil m e i a) (hb : Ref.IsRepeatUntil n f j b) :
    a.Alike R (Each V) b := by
  obtain ⟨vs, c, k, h1, h2⟩ := ha
  obtain ⟨ws, d, l, h3, h4⟩ := hb
  have hk : e k = .soft → ∀ c v x, m k ≠ .ok c v x := by
    intro h5 c v x h6
    rw [h5] at h2
    dsimp only at h2
    rw [h6] at h2
    exact h2
  have hl : f l = .soft → ∀ c v x, n l ≠ .ok c v x := by
    intro h5 c v x h6
    rw [h5] at h4
    dsimp only at h4
    rw [h6] at h4
    exact h4
  have stop : c = d ∧ Each V vs ws ∧ R k l := by
    clear h2 h4
    induction h1 generalizing j ws d with
    | nil i =>
      cases h3 with
      | nil => exact ⟨rfl, .nil, hr⟩
      | cons h5 h6 h7 =>
        have h8 := he _ _ hr
        have h9 := h _ _ hr
        rw [h5] at h8
        rw [h6] at h9
        cases hx : e i <;> rw [hx] at h8 <;> try exact h8.elim
        cases hy : m i <;> rw [hy] at h9 <;> try exact h9.elim
        exact absurd hy (hk hx _ _ _)
    | @cons i0 i1 i2 _ _ _ _ h5 h6 h7 ih =>
      have h8 := he _ _ hr
      have h9 := h _ _ hr
      rw [h5] at h8
      rw [h6] at h9
      cases h3 with
      | nil =>
        cases hx : f l <;> rw [hx] at h8 <;> try exact h8.elim
        cases hy : n l <;> rw [hy] at h9 <;> try exact h9.elim
        exact absurd hy (hl hx _ _ _)
      | cons h10 h11 h12 =>
        rw [h11] at h9
        obtain ⟨rfl, h13, h14⟩ := h9
        obtain ⟨rfl, h15, h16⟩ := ih h14 _ _ h12 hk
        exact ⟨rfl, .cons h13 h15, h16⟩
  obtain ⟨rfl, h5, h6⟩ := stop
  have h7 := he _ _ h6
  have h8 := h _ _ h6
  revert h2 h4
  cases hx : e k <;> cases hy : f l <;> rw [hx, hy] at h7 <;> try exact h7.elim
  · rintro rfl rfl
    obtain ⟨rfl, _, _⟩ := h7
    exact ⟨rfl, h5, h6⟩
  · dsimp only
    cases hm : m k <;> cases hn : n l <;> rw [hm, hn] at h8 <;> try exact h8.elim
    · exact fun h => h.elim
    · rintro rfl rfl; trivial
    · rintro rfl rfl; trivial
    · rintro rfl rfl; exact h8
  · rintro rfl rfl; trivial
  · rintro rfl rfl; exact h7

end Verif
