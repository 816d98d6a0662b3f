import Verif.Props.Peg
import Verif.Props.Until
import Verif.Props.Chain
import Verif.Props.SkipUntilChunks

/-!
# C57: more parsers as parsing expressions: `take_until`, `repeat_until`, `count_min_max`, `sep_end_by`, `chainl1`
-/

namespace Verif

variable {S : Strm} {N σ τ α β γ : Type} {rules : N → Peg N S.Tok} {a b : Peg N S.Tok}

private theorem left_step (hS : S.Lawful) {i j : S.Input} {t : S.Tok} (h : S.uncons i = (.ok t, j)) {xs : List S.Tok}
    (hl : S.Left i xs) : ∃ ys, xs = t :: ys ∧ S.Left j ys := by
  obtain ⟨ys, k, h1, h2⟩ := left_exists hS j
  exact ⟨ys, left_unique hl ⟨k, .cons h h1, h2⟩, k, h1, h2⟩

/-! ## Until an end marker -/

private theorem until_run (hS : S.Lawful) {e : Sem S.Input Unit β} (he : Backtracks rules b e) {i k : S.Input} {ts : List S.Tok}
    (h : S.Until e i ts k) {xs : List S.Tok} (hi : S.isPartial i = false) (hl : S.Left i xs) :
    ∃ ys, S.Reads i ts k ∧ S.Left k ys ∧
      ∀ r, (b.not.seq (.one fun _ => true)).star.Matches rules ys r → (b.not.seq (.one fun _ => true)).star.Matches rules xs r := by
  induction h generalizing xs with
  | nil i => exact ⟨xs, .nil i, hl, fun _ h => h⟩
  | cons h1 h2 _ ih =>
    have hx := he _ xs hi hl
    rw [h1] at hx
    obtain ⟨ys, rfl, hj⟩ := left_step hS h2 hl
    obtain ⟨zs, h3, h4, h5⟩ := ih ((hS.isPartial h2).trans hi) hj
    exact ⟨zs, .cons h2 h3, h4, fun r h => .more (.seq (.not hx) (.one rfl)) (h5 r h)⟩

/-- **C57.**  `take_until(end)` and `skip_until(end)`: `(!end .)* &end`. -/
theorem C57_take_until (hS : S.Lawful) {e : Parser S τ β} (hm : Moves e) (hr : Reusable e) (he : Backtracks rules b e.shape)
    (hs : Softly e) :
    Backtracks rules ((b.not.seq (.one fun _ => true)).star.seq b.look) (takeUntil e).shape ∧
    Backtracks rules ((b.not.seq (.one fun _ => true)).star.seq b.look) (skipUntil e).shape := by
  have key : Backtracks rules ((b.not.seq (.one fun _ => true)).star.seq b.look) (takeUntil e).shape := by
    intro i xs hi hl
    obtain ⟨ts, k, h1, h2⟩ := C33_take_until hS hm hr i
    obtain ⟨ys, h3, h4, h5⟩ := until_run hS he h1 hi hl
    have hk := (hS.reads_isPartial h3).trans hi
    have hek := he k ys hk h4
    cases hx : e.shape k with
    | ok c v j =>
      rw [hx] at h2 hek
      rw [h2]
      obtain ⟨u, zs, _, _, hz⟩ := hek
      exact ⟨ts, ys, h3, h4, .seq (h5 _ (.stop (.seqFail (.notFail hz)))) (.look hz)⟩
    | hard x => exact absurd hx (hs k hk x)
    | abort x => rw [hx] at h2; rw [h2]; trivial
    | soft =>
      rw [hx] at h2 hek
      obtain ⟨err, k', h6, h7⟩ := h2
      obtain rfl := hS.uncons_error h6
      rw [h7, hk]
      have : ys = [] := left_unique h4 ⟨k', .nil _, err, by rw [h6]⟩
      subst this
      exact .seq (h5 _ (.stop (.seq (.not hek) .ended))) (.lookFail hek)
  refine ⟨key, ?_⟩
  rw [show (skipUntil e).shape = Ref.map (takeUntil e).shape fun _ => () from funext fun i => C33_skip_until e i]
  exact backtracks_map key _

private theorem repeat_run (hS : S.Lawful) {p : Parser S σ α} {e : Parser S τ β} (hp : Backtracks rules a p.shape)
    (he : Backtracks rules b e.shape) {i k : S.Input} {vs : List α} {c : Bool}
    (h : Ref.Until p.answer e.answer i vs c k) {xs : List S.Tok} (hi : S.isPartial i = false) (hl : S.Left i xs) :
    ∃ u ys, S.Reads i u k ∧ S.Left k ys ∧ ∀ r, (b.not.seq a).star.Matches rules ys r → (b.not.seq a).star.Matches rules xs r := by
  induction h generalizing xs with
  | nil i => exact ⟨[], xs, .nil i, hl, fun _ h => h⟩
  | cons h1 h2 _ ih =>
    have hx := he _ xs hi hl
    have hy := hp _ xs hi hl
    simp only [Parser.shape, h1, h2, Answer.shape] at hx hy
    obtain ⟨u, ys, h3, h4, h5⟩ := hy
    obtain ⟨w, zs, h6, h7, h8⟩ := ih ((hS.reads_isPartial h3).trans hi) h4
    exact ⟨u ++ w, zs, reads_append h3 h6, h7, fun r h => .more (.seq (.not hx) h5) (h8 r h)⟩

/-- **C57.**  `repeat_until(p, end)` and `repeat_skip_until(p, end)`: `(!end p)* &end`. -/
theorem C57_repeat_until (hS : S.Lawful) {p : Parser S σ α} {e : Parser S τ β} (hmp : Moves p) (hme : Moves e) (hrp : Reusable p)
    (hre : Reusable e) (hc : Consuming p) (hp : Backtracks rules a p.shape) (he : Backtracks rules b e.shape) (hs : Softly e) :
    Backtracks rules ((b.not.seq a).star.seq b.look) (repeatUntil p e).shape ∧
    Backtracks rules ((b.not.seq a).star.seq b.look) (repeatSkipUntil p e).shape := by
  have key : Backtracks rules ((b.not.seq a).star.seq b.look) (repeatUntil p e).shape := by
    intro i xs hi hl
    obtain ⟨vs, c, k, h1, h2⟩ := C33_repeat_until hS hmp hme hrp hre hc i
    obtain ⟨u, ys, h3, h4, h5⟩ := repeat_run hS hp he h1 hi hl
    have hk := (hS.reads_isPartial h3).trans hi
    have hek := he k ys hk h4
    have hpk := hp k ys hk h4
    have hsk := hs k hk
    simp only [Parser.shape] at hek hpk hsk ⊢
    cases hx : e.answer k with
    | ok d v j =>
      rw [hx] at h2 hek
      rw [h2]
      obtain ⟨w, zs, _, _, hz⟩ := hek
      exact ⟨u, ys, h3, h4, .seq (h5 _ (.stop (.seqFail (.notFail hz)))) (.look hz)⟩
    | hard x => rw [hx] at hsk; exact absurd rfl (hsk ())
    | abort x => rw [hx] at h2; rw [h2]; trivial
    | soft =>
      rw [hx] at h2 hek
      dsimp only at h2
      have stop : p.answer k = .soft ∨ (∃ x, p.answer k = .hard x) →
          ((b.not.seq a).star.seq b.look).Matches rules xs none := by
        rintro (hy | ⟨x, hy⟩) <;> rw [hy] at hpk <;>
          exact .seq (h5 _ (.stop (.seq (.not hek) hpk))) (.lookFail hek)
      cases hy : p.answer k with
      | ok c v j => rw [hy] at h2; exact h2.elim
      | soft => rw [hy] at h2; rw [h2]; exact stop (.inl hy)
      | hard x => rw [hy] at h2; rw [h2]; exact stop (.inr ⟨x, hy⟩)
      | abort x => rw [hy] at h2; rw [h2]; trivial
  refine ⟨key, ?_⟩
  rw [show (repeatSkipUntil p e).shape = Ref.map (repeatUntil p e).shape fun _ => () from
    funext fun i => C33_repeat_skip_until p e i]
  exact backtracks_map key _

/-! ## A bounded number of times -/

private theorem times_zero {T : Type} {rules : N → Peg N T} {e : Peg N T} {xs : List T} :
    ∀ hi, ¬ (e.times 0 hi).Matches rules xs none
  | 0, h => by cases h
  | hi + 1, h => by
    rcases Peg.matches_alt.1 h with ⟨ys, _, h⟩ | ⟨_, h⟩
    · cases h
    · cases h

private theorem times_run (hS : S.Lawful) {m : Sem S.Input Unit α} (hm : Backtracks rules a m) {i k : S.Input} {vs : List α}
    {c : Bool} (h : Ref.Run m i vs c k) {xs : List S.Tok} (hp : S.isPartial i = false) (hl : S.Left i xs) :
    ∃ u ys, S.Reads i u k ∧ S.Left k ys ∧ ∀ lo hi r, (a.times lo hi).Matches rules ys r →
      (a.times (lo + vs.length) (hi + vs.length)).Matches rules xs r ∧
      (lo = 0 → ∀ lo' ≤ vs.length, (a.times lo' (hi + vs.length)).Matches rules xs r) := by
  induction h generalizing xs with
  | nil i =>
    refine ⟨[], xs, .nil i, hl, fun lo hi r h => ⟨h, ?_⟩⟩
    rintro rfl lo' hlo
    obtain rfl : lo' = 0 := Nat.le_zero.1 hlo
    exact h
  | @cons i j k c d v vs h _ ih =>
    have h' := hm i xs hp hl
    rw [h] at h'
    obtain ⟨u, ys, h1, h2, h3⟩ := h'
    obtain ⟨w, zs, h4, h5, h6⟩ := ih ((hS.reads_isPartial h1).trans hp) h2
    refine ⟨u ++ w, zs, reads_append h1 h4, h5, fun lo hi r h => ?_⟩
    obtain ⟨h7, h8⟩ := h6 lo hi r h
    refine ⟨.seq h3 h7, ?_⟩
    intro hlo lo' hlo'
    cases lo' with
    | zero =>
      have h9 := h8 hlo 0 (Nat.zero_le _)
      cases r with
      | none => exact absurd h9 (times_zero _)
      | some rs => exact .left (.seq h3 h9)
    | succ lo' => exact .seq h3 (h8 hlo lo' (by simpa using hlo'))

private theorem backtracks_count (hS : S.Lawful) {m : Sem S.Input Unit α} (hm : Backtracks rules a m)
    (hh : ∀ i, S.isPartial i = false → ∀ e, m i ≠ .hard e) (lo hi : Nat) (hlh : lo ≤ hi)
    {n : Sem S.Input Unit (List α)} (hn : ∀ i, Ref.IsCount lo hi m i (n i)) : Backtracks rules (a.times lo hi) n := by
  intro i xs hp hl
  obtain ⟨vs, c, k, h1, h2, h3⟩ := hn i
  obtain ⟨u, ys, h4, h5, h6⟩ := times_run hS hm h1 hp hl
  have hk := (hS.reads_isPartial h4).trans hp
  by_cases hv : vs.length = hi
  · rw [if_pos hv] at h3
    rw [h3]
    refine ⟨u, ys, h4, h5, ?_⟩
    have := (h6 0 0 _ .empty).2 rfl lo (by omega)
    rwa [Nat.zero_add, hv] at this
  · rw [if_neg hv] at h3
    have hmk := hm k ys hk h5
    cases hx : m k with
    | ok c v j => rw [hx] at h3; exact h3.elim
    | abort x => rw [hx] at h3; rw [h3]; trivial
    | hard e => exact absurd hx (hh k hk e)
    | soft =>
      rw [hx] at h3 hmk
      dsimp only at h3
      obtain ⟨d, rfl⟩ : ∃ d, hi = d + 1 + vs.length := ⟨hi - vs.length - 1, by omega⟩
      by_cases hlo : lo ≤ vs.length
      · rw [if_pos hlo] at h3
        rw [h3]
        exact ⟨u, ys, h4, h5, (h6 0 (d + 1) _ (.right (.seqFail hmk) .empty)).2 rfl lo hlo⟩
      · rw [if_neg hlo] at h3
        obtain ⟨l, rfl⟩ : ∃ l, lo = l + 1 + vs.length := ⟨lo - vs.length - 1, by omega⟩
        have := (h6 (l + 1) (d + 1) none (.seqFail hmk)).1
        rw [h3]
        cases c <;> exact this

/-- **C57.**  `count_min_max(lo, hi, p)` and `skip_count_min_max(lo, hi, p)`: from `lo` to `hi` times. -/
theorem C57_count_min_max (hS : S.Lawful) {p : Parser S σ α} (hm : Moves p) (hr : Reusable p) (hp : Backtracks rules a p.shape)
    (hs : Softly p) (lo hi : Nat) (hlh : lo ≤ hi) :
    Backtracks rules (a.times lo hi) (countMinMax lo hi p).shape ∧
    Backtracks rules (a.times lo hi) (skipCountMinMax lo hi p).shape := by
  constructor
  · exact backtracks_count hS hp hs lo hi hlh (C09_count_min_max hS hm hr lo hi hlh)
  · intro i
    have hsk := C09_skip_count_min_max hS hm hr lo hi hlh
    have h := backtracks_count hS hp hs lo hi hlh (fun i => (Classical.choose_spec (hsk i)).1)
    have e : (skipCountMinMax lo hi p).shape = Ref.map (fun i => Classical.choose (hsk i)) fun _ => () :=
      funext fun i => (Classical.choose_spec (hsk i)).2
    rw [e]
    exact backtracks_map h _ i

/-! ## Lists with separators, chains of operators -/

private theorem sep_end_backtracks (hS : S.Lawful) {p : Sem S.Input Unit α} {s : Sem S.Input Unit β} (hp : Backtracks rules a p)
    (hsp : ∀ i, S.isPartial i = false → ∀ e, p i ≠ .hard e) (hs : Backtracks rules b s)
    (hss : ∀ i, S.isPartial i = false → ∀ e, s i ≠ .hard e) {n : Sem S.Input Unit (List α)} (hn : ∀ i, Ref.IsSepEndBy1 p s i (n i)) :
    Backtracks rules (a.seq ((b.seq a).star.seq (b.alt .empty))) n ∧ ∀ i, S.isPartial i = false → ∀ e, n i ≠ .hard e := by
  have hb := backtracks_bind hS hs fun _ => hp
  suffices H : ∀ i xs, S.isPartial i = false → S.Left i xs →
      (match n i with
      | .ok _ _ j => ∃ u ys, S.Reads i u j ∧ S.Left j ys ∧
          (a.seq ((b.seq a).star.seq (b.alt .empty))).Matches rules xs (some ys)
      | .soft => (a.seq ((b.seq a).star.seq (b.alt .empty))).Matches rules xs none
      | .hard _ => False
      | .abort _ => True) by
    constructor
    · intro i xs hi hl
      have := H i xs hi hl
      revert this
      cases n i with
      | hard e => exact fun h => h.elim
      | _ => exact id
    · intro i hi e hx
      obtain ⟨xs, hl⟩ := left_exists hS i
      have := H i xs hi hl
      rw [hx] at this
      exact this
  intro i xs hi hl
  have h1 := hn i
  have h2 := hp i xs hi hl
  simp only [Ref.IsSepEndBy1] at h1
  cases hx : p i with
  | soft => rw [hx] at h1 h2; rw [h1]; exact .seqFail h2
  | hard e => exact absurd hx (hsp i hi e)
  | abort x => rw [hx] at h1; rw [h1]; trivial
  | ok c v j =>
    rw [hx] at h1 h2
    obtain ⟨u, ys, h3, h4, h5⟩ := h2
    have hj := (hS.reads_isPartial h3).trans hi
    obtain ⟨vs, d, k, h6, h7⟩ := h1
    obtain ⟨w, zs, h8, h9, h10⟩ := backtracks_run hS hb h6 hj h4
    have hk := (hS.reads_isPartial h8).trans hj
    have hsk := hs k zs hk h9
    cases hy : s k with
    | hard e => exact absurd hy (hss k hk e)
    | abort x => rw [hy] at h7; rw [h7]; trivial
    | soft =>
      rw [hy] at h7 hsk
      rw [h7]
      exact ⟨u ++ w, zs, reads_append h3 h8, h9, .seq h5 (.seq (h10 _ (.stop (.seqFail hsk))) (.right hsk .empty))⟩
    | ok c' x k' =>
      rw [hy] at h7 hsk
      obtain ⟨u', ws, h11, h12, h13⟩ := hsk
      have hk' := (hS.reads_isPartial h11).trans hk
      have hpk := hp k' ws hk' h12
      dsimp only at h7
      cases hz : p k' with
      | ok c v j => rw [hz] at h7; exact h7.elim
      | hard e => exact absurd hz (hsp k' hk' e)
      | abort x => rw [hz] at h7; rw [h7]; trivial
      | soft =>
        rw [hz] at h7 hpk
        rw [h7]
        exact ⟨(u ++ w) ++ u', ws, reads_append (reads_append h3 h8) h11, h12,
          .seq h5 (.seq (h10 _ (.stop (.seq h13 hpk))) (.left h13))⟩

/-- **C57.**  `sep_end_by1(p, s)`: `p (s p)* s?`. -/
theorem C57_sep_end_by1 (hS : S.Lawful) {Cp : σ → Prop} {Cs : τ → Prop} {p : Parser S σ α} {s : Parser S τ β}
    (hmp : Moves p) (hms : Moves s) (hkp : Keeps false Cp p) (hks : Keeps false Cs s) (hc : Consuming p)
    (hp : Backtracks rules a p.shape) (hsp : Softly p) (hs : Backtracks rules b s.shape) (hss : Softly s) :
    Backtracks rules (a.seq ((b.seq a).star.seq (b.alt .empty))) (sepEndBy1 p s).shape ∧ Softly (sepEndBy1 p s) :=
  sep_end_backtracks hS hp hsp hs hss (C10_sep_end_by1 hS hmp hms hkp hks hc)

/-- **C57.**  `sep_end_by(p, s)`: `(p (s p)* s?)?`. -/
theorem C57_sep_end_by (hS : S.Lawful) {Cp : σ → Prop} {Cs : τ → Prop} {p : Parser S σ α} {s : Parser S τ β}
    (hmp : Moves p) (hms : Moves s) (hkp : Keeps false Cp p) (hks : Keeps false Cs s) (hc : Consuming p)
    (hp : Backtracks rules a p.shape) (hsp : Softly p) (hs : Backtracks rules b s.shape) (hss : Softly s) :
    Backtracks rules ((a.seq ((b.seq a).star.seq (b.alt .empty))).alt .empty) (sepEndBy p s).shape := by
  have h := C10_sep_end_by hS hmp hms hkp hks hc
  have k1 := sep_end_backtracks hS hp hsp hs hss (fun i => (Classical.choose_spec (h i)).1)
  have e : (sepEndBy p s).shape = orSem (fun i => Classical.choose (h i)) (Ref.value []) := by
    funext i
    rw [(Classical.choose_spec (h i)).2, orSem]
    cases Classical.choose (h i) <;> rfl
  rw [e]
  exact backtracks_or k1.1 (fun i xs _ hl => ⟨[], xs, .nil i, hl, .empty⟩) k1.2

/-- **C57.**  `chainl1(p, op)` does not backtrack over an operator: it is `p (op p)* !op`, if the operator commits. -/
theorem C57_chainl1 (hS : S.Lawful) {Cp : σ → Prop} {Co : τ → Prop} {p : Parser S σ α} {op : Parser S τ (α → α → α)}
    (hmp : Moves p) (hmo : Moves op) (hkp : Keeps false Cp p) (hko : Keeps false Co op) (hc : Consuming p) (hn : StartsAnew p)
    (hp : Backtracks rules a p.shape) (ho : Backtracks rules b op.shape) (hso : Softly op)
    (hco : ∀ i c v j, op.shape i = .ok c v j → c = true) :
    Backtracks rules (a.seq ((b.seq a).star.seq b.not)) (chainl1 p op).shape := by
  have hb := backtracks_bind hS ho fun f => backtracks_map hp fun x => (f, x)
  intro i xs hi hl
  have h1 := C11_chainl1 hS hmp hmo hkp hko hc hn i
  have h2 := hp i xs hi hl
  simp only [Ref.IsChainl1] at h1
  cases hx : p.shape i with
  | soft => rw [hx] at h1 h2; rw [h1]; exact .seqFail h2
  | hard e => rw [hx] at h1 h2; rw [h1]; exact .seqFail h2
  | abort x => rw [hx] at h1; rw [h1]; trivial
  | ok c v j =>
    rw [hx] at h1 h2
    obtain ⟨u, ys, h3, h4, h5⟩ := h2
    have hj := (hS.reads_isPartial h3).trans hi
    obtain ⟨y, ⟨vs, d, k, h6, h7⟩, h8⟩ := h1
    obtain ⟨w, zs, h9, h10, h11⟩ := backtracks_run hS hb h6 hj h4
    have hk := (hS.reads_isPartial h9).trans hj
    have hok := ho k zs hk h10
    have hbk := hb k zs hk h10
    simp only [Ref.bind] at h7 hbk
    rw [h8]
    cases hy : op.shape k with
    | hard e => exact absurd hy (hso k hk e)
    | abort x => rw [hy] at h7; dsimp only at h7; rw [h7]; trivial
    | soft =>
      rw [hy] at h7 hbk hok
      dsimp only at h7
      rw [h7]
      exact ⟨u ++ w, zs, reads_append h3 h9, h10, .seq h5 (.seq (h11 _ (.stop hbk)) (.not hok))⟩
    | ok d' f l =>
      cases hco k d' f l hy
      rw [hy] at h7 hbk hok
      dsimp only [Ref.map] at h7 hbk
      obtain ⟨u', ws, h12, h13, h14⟩ := hok
      cases hz : p.shape l with
      | ok c v j => rw [hz] at h7; exact h7.elim
      | abort x => rw [hz] at h7; simp only [Answer.map, Answer.after] at h7; rw [h7]; trivial
      | soft =>
        rw [hz] at h7 hbk
        simp only [Answer.map, Answer.after] at h7 hbk
        rw [h7]
        exact .seq h5 (.seq (h11 _ (.stop hbk)) (.notFail h14))
      | hard e =>
        rw [hz] at h7 hbk
        simp only [Answer.map, Answer.after] at h7 hbk
        rw [h7]
        exact .seq h5 (.seq (h11 _ (.stop hbk)) (.notFail h14))

/-! ## The hypotheses can be met -/

section Examples

private abbrev B := sliceS Nat 1
private abbrev tk (n : Nat) : Peg Empty Nat := Peg.one fun t => (if t = n then some t else none).isSome

private theorem tk_follows (rules : Empty → Peg Empty Nat) (n : Nat) : Backtracks (S := B) rules (tk n) (token B n).shape ∧ Softly (token B n) :=
  C57_one (rules := rules) (C53_token (slice_lawful Nat 1) n)

private theorem tk_reusable (n : Nat) : Reusable (token B n) := ⟨_, (keeps_unit (h := false) (token B n)).reusableIn⟩

/-- A comment up to `0`. -/
example (rules : Empty → Peg Empty Nat) : Backtracks (S := B) rules (((tk 0).not.seq (.one fun _ => true)).star.seq (tk 0).look)
    (takeUntil (token B 0)).shape :=
  (C57_take_until (slice_lawful Nat 1) (moves_token (slice_lawful Nat 1) 0) (tk_reusable 0) (tk_follows rules 0).1 (tk_follows rules 0).2).1

example : (takeUntil (token B 0)).shape ⟨0, [1, 2, 0, 3]⟩ = .ok true [1, 2] ⟨2, [0, 3]⟩ := by rfl
example : (takeUntil (token B 0)).shape ⟨0, [1, 2]⟩ = .soft := by rfl

/-- Any number of `1`s up to `0`. -/
example (rules : Empty → Peg Empty Nat) : Backtracks (S := B) rules (((tk 0).not.seq (tk 1)).star.seq (tk 0).look)
    (repeatUntil (token B 1) (token B 0)).shape :=
  (C57_repeat_until (slice_lawful Nat 1) (moves_token (slice_lawful Nat 1) 1) (moves_token (slice_lawful Nat 1) 0) (tk_reusable 1)
    (tk_reusable 0) (consuming_token (S := B) 1) (tk_follows rules 1).1 (tk_follows rules 0).1 (tk_follows rules 0).2).1

/-- Two or three `1`s. -/
example (rules : Empty → Peg Empty Nat) : Backtracks (S := B) rules ((tk 1).times 2 3) (countMinMax 2 3 (token B 1)).shape :=
  (C57_count_min_max (slice_lawful Nat 1) (moves_token (slice_lawful Nat 1) 1) (tk_reusable 1) (tk_follows rules 1).1
    (tk_follows rules 1).2 2 3 (by decide)).1

example : ((tk 1).times 2 3).Matches Empty.elim [1, 1, 1, 1] (some [1]) :=
  .seq (.one rfl) (.seq (.one rfl) (.left (.seq (.one rfl) .empty)))
example : ((tk 1).times 2 3).Matches Empty.elim [1, 2] none := .seq (.one rfl) (.seqFail (.other rfl))

/-- `1`s, each but the last followed by a `2`; a `2` may come at the end. -/
example (rules : Empty → Peg Empty Nat) : Backtracks (S := B) rules
    (((tk 1).seq (((tk 2).seq (tk 1)).star.seq ((tk 2).alt .empty))).alt .empty) (sepEndBy (token B 1) (token B 2)).shape :=
  C57_sep_end_by (slice_lawful Nat 1) (moves_token (slice_lawful Nat 1) 1) (moves_token (slice_lawful Nat 1) 2)
    (keeps_unit (h := false) _) (keeps_unit (h := false) _) (consuming_token (S := B) 1) (tk_follows rules 1).1 (tk_follows rules 1).2
    (tk_follows rules 2).1 (tk_follows rules 2).2

/-- Sums of `1`s, the `+` being `2`. -/
example (rules : Empty → Peg Empty Nat) : Backtracks (S := B) rules
    ((tk 1).seq (((tk 2).seq (tk 1)).star.seq (tk 2).not)) (chainl1 (token B 1) (map (token B 2) fun _ => (· + ·))).shape := by
  have hS := slice_lawful Nat 1
  have h2 := tk_follows rules 2
  have hs : ∀ i, (map (token B 2) fun _ => ((· + ·) : Nat → Nat → Nat)).shape i = Ref.map (token B 2).shape (fun _ => (· + ·)) i :=
    fun i => by
      simp only [Parser.shape, Parser.answer, Ref.map]
      rw [show (map (token B 2) fun _ => ((· + ·) : Nat → Nat → Nat)).init = (token B 2).init from rfl, (C13_map _ _ true i _).1]
      cases ((token B 2).run true i (token B 2).init).answer <;> rfl
  refine C57_chainl1 hS (moves_token hS 1) (moves_map hS (moves_token hS 2) _) (keeps_unit (h := false) _)
    (keeps_unit (h := false) _) (consuming_token (S := B) 1) (fun _ => rfl) (tk_follows rules 1).1 (C57_map h2.1 _) ?_ ?_
  · intro i hi e he
    rw [hs, Ref.map] at he
    have := h2.2 i hi
    cases hx : (token B 2).shape i with
    | hard e => exact this e hx
    | _ => rw [hx] at he; cases he
  · intro i c v j h
    rw [hs, Ref.map] at h
    rcases C53_token hS 2 i with ⟨t, j, h1, h4⟩ | ⟨h1, h4⟩ <;> rw [h4] at h
    · by_cases ht : t = 2
      · simp only [if_pos ht] at h; cases h; rfl
      · simp only [if_neg ht] at h; cases h
    · cases h

end Examples

end Verif
