import Verif.Spec.LanguageServer
import Verif.Proof.Fragment
import Verif.Proof.FeedInst
import Verif.Props.Decode

/-!
# What the decoder of `examples/async.rs` is supposed to do
-/

namespace Verif.LanguageServer

private def V : Ranges Stream := ⟨ranges, id, fun _ => 1, id, id, id⟩

private theorem easyError_eoi (e : Bytes.SErr) (h : Bytes.E.isEoiS e = true) : Stream.E.isEoiS (easyError e) = true := by
  cases e with
  | eoi => rfl
  | unexpected => cases h

theorem feedable : Stream.Feedable :=
  convert_feedable (maybe_feedable (slice_feedable UInt8 (by decide))) (easyErrors_keeps _ _ _ _) (fun _ _ h => h) easyError_eoi

theorem source : ByteSource Stream ranges id input where
  left := fun b more pos => (convert_left _).trans (byteSource_maybe.left b more pos)
  isPartial := fun _ _ _ => rfl
  distance := fun h => byteSource_maybe.distance (convert_reads.1 h)

private theorem units : V.Units :=
  ⟨convertR_units (maybeR_units (sliceR_units UInt8 1)) easyError_eoi, fun _ => rfl, fun r => (List.map_id r).symm⟩

/-! ## The outcome -/

/-- One digit. -/
private def digitD : Den UInt8 UInt8 := .tok fun t => if isAsciiDigit t then some t else none

/-- The number that some bytes stand for. -/
private def parsed (r : List UInt8) : Except Stream.SErr Nat :=
  match utf8 r with
  | none => .error (Stream.E.expected (.static "UTF-8"))
  | some s =>
    match parseUsize s with
    | .ok v => .ok v
    | .error msg => .error (Stream.E.message (.format msg))

private def numberD : Den UInt8 Nat :=
  (((digitD.many1.map fun _ => ()).consumed id).map Prod.fst).bind fun r => .ofExcept (parsed r)

private def headerD : Den UInt8 (Unit × Nat × Unit × Unit) :=
  ((Den.text newline newline).many.map fun _ => ()).seq
    (((Den.text label label).bind fun _ => numberD).seq (((Den.text (newline ++ newline) (newline ++ newline)).map fun _ => ()).seq (.pure ())))

/-- What `decode_parser` is supposed to do. -/
def messageD : Den UInt8 (List UInt8) := headerD.bind fun v => (Den.exactly v.2.1 id).map id

private theorem consuming_digits : (((digitD.many1.map fun _ => ()).consumed id).map Prod.fst).Consuming := by
  intro b a c v r h
  obtain ⟨y, h, -⟩ := Outcome.map_ok.1 h
  have hm : (digitD.many1.map fun _ => ()).Consuming :=
    ((Den.consuming_tok _).bind fun v => ((Den.Good.tok _).many (Den.consuming_tok _)).map _).map _
  unfold Den.consumed at h
  cases hd : (digitD.many1.map fun _ => ()) b a with
  | ok c' v' r' => rw [hd] at h; cases h; exact hm _ _ _ _ _ hd
  | _ => rw [hd] at h; cases h

theorem frag : ∃ V : Ranges Stream, V.ops = ranges ∧ V.Lawful ∧ ∃ l, Frag V parser messageD true l := by
  refine ⟨V, rfl, ⟨units.ops.lawful, units.mkR⟩, false, ?_⟩
  have hr : ∀ x : List UInt8, x ≠ [] → Frag V (range (S := Stream) ranges x) (.text x x) true true := fun x hx => Frag.range (V := V) units hx
  have hd : Frag V (byteClass Stream id .digit) digitD true true := Frag.satisfyNamed _ _
  have he : number (S := Stream) ranges id id = parserMacro (andThen (recognizeRange ranges (skipMany1 (byteClass Stream id .digit))) parsed) := by
    unfold number fromStr
    congr 2
    funext r
    unfold parsed
    dsimp only [id]
    cases utf8 r with
    | none => rfl
    | some s => dsimp only; cases parseUsize s <;> rfl
  have hn : Frag V (number (S := Stream) ranges id id) numberD true true := by
    rw [he]
    exact Frag.parserMacro (Frag.andThen parsed (Frag.recognizeRange ⟨units.ops.lawful, units.mkR⟩ (Frag.skipMany1 hd (Den.consuming_tok _)))
      (consuming_digits))
  have hc : Frag V (contentLength (S := Stream) ranges id id id) ((Den.text label label).bind fun _ => numberD) true true :=
    Frag.with (hr label (by decide)) hn fun _ => ⟨rfl, (Den.consuming_text (by decide) _).firm _⟩
  have hh : Frag V (header (S := Stream) ranges id id id) headerD true false :=
    Frag.tuple (Frag.skipMany (hr newline (by decide)) (Den.consuming_text (by decide) _))
      (.cons hc (.cons (.map _ (hr _ (by decide))) .nil)) nofun
  exact Frag.anyPartialState (Frag.thenPartial hh (FragAll.map (fun _ => id) (FragAll.unit fun v => Frag.take _ units)) nofun)


/-! ## Outcomes and texts -/

private theorem text_ok {ts : List UInt8} {v x : List UInt8} {b c : Bool} {a r : List UInt8} :
    Den.text ts v b a = .ok c x r ↔ c = true ∧ x = v ∧ a = ts ++ r := by
  unfold Den.text
  constructor
  · intro h
    split at h
    · split at h
      · rename_i h1 h2
        cases h
        refine ⟨rfl, rfl, ?_⟩
        conv => lhs; rw [← List.take_append_drop ts.length a, h2]
      · cases h
    · cases b <;> cases h
  · rintro ⟨rfl, rfl, rfl⟩
    rw [if_pos (by simp), if_pos (by simp), List.drop_left]

private theorem newlines_read {n : Nat} {b c : Bool} {a r : List UInt8} {vs : List (List UInt8)}
    (h : (Den.text newline newline).manyN n b a = .ok c vs r) : a = (List.replicate vs.length newline).flatten ++ r := by
  induction n generalizing a c vs with
  | zero => cases h
  | succ n ih =>
    simp only [Den.manyN] at h
    cases hd : Den.text newline newline b a with
    | ok c' v r' =>
      rw [hd] at h
      obtain ⟨d, h1, -⟩ := Outcome.after_ok.1 h
      obtain ⟨vs', h2, rfl⟩ := Outcome.map_ok.1 h1
      obtain ⟨-, -, rfl⟩ := text_ok.1 hd
      rw [ih h2]
      simp [List.replicate_succ]
    | pend => rw [hd] at h; cases h
    | soft => rw [hd] at h; cases h; rfl
    | hard => rw [hd] at h; cases h

private theorem newlines_written {b : Bool} {r : List UInt8} (hr : Den.text newline newline b r = .soft) (k n : Nat) (h : k < n) :
    ∃ c, (Den.text newline newline).manyN n b ((List.replicate k newline).flatten ++ r) = .ok c (List.replicate k newline) r := by
  induction k generalizing n with
  | zero =>
    obtain ⟨n, rfl⟩ : ∃ m, n = m + 1 := ⟨n - 1, by omega⟩
    simp only [Den.manyN, List.replicate_zero, List.flatten_nil, List.nil_append, hr]
    exact ⟨_, rfl⟩
  | succ k ih =>
    obtain ⟨n, rfl⟩ : ∃ m, n = m + 1 := ⟨n - 1, by omega⟩
    obtain ⟨c, h1⟩ := ih n (by omega)
    have h2 : Den.text newline newline b ((List.replicate (k + 1) newline).flatten ++ r) =
        .ok true newline ((List.replicate k newline).flatten ++ r) :=
      text_ok.2 ⟨rfl, rfl, by simp [List.replicate_succ]⟩
    simp only [Den.manyN, h2, h1]
    exact ⟨_, rfl⟩

private theorem digits_read {n : Nat} {b c : Bool} {a r vs : List UInt8} (h : digitD.manyN n b a = .ok c vs r) :
    a = vs ++ r ∧ ∀ d ∈ vs, isAsciiDigit d = true := by
  induction n generalizing a c vs with
  | zero => cases h
  | succ n ih =>
    simp only [Den.manyN] at h
    cases a with
    | nil =>
      cases b with
      | true => cases h
      | false => cases h; exact ⟨rfl, nofun⟩
    | cons t ts =>
      simp only [digitD, Den.tok] at h
      by_cases ht : isAsciiDigit t = true
      · rw [if_pos ht] at h
        obtain ⟨d, h1, -⟩ := Outcome.after_ok.1 h
        obtain ⟨vs', h2, rfl⟩ := Outcome.map_ok.1 h1
        obtain ⟨h1, h2⟩ := ih h2
        exact ⟨by rw [h1]; rfl, fun d hd => (List.mem_cons.1 hd).elim (fun e => e ▸ ht) (h2 d)⟩
      · rw [if_neg ht] at h
        cases h
        exact ⟨rfl, nofun⟩

private theorem digits_written {b : Bool} {t : UInt8} {r : List UInt8} (ht : isAsciiDigit t = false) (vs : List UInt8)
    (hv : ∀ d ∈ vs, isAsciiDigit d = true) (n : Nat) (h : vs.length < n) :
    ∃ c, digitD.manyN n b (vs ++ t :: r) = .ok c vs (t :: r) := by
  induction vs generalizing n with
  | nil =>
    obtain ⟨n, rfl⟩ : ∃ m, n = m + 1 := ⟨n - 1, by omega⟩
    simp only [Den.manyN, List.nil_append, digitD, Den.tok, ht]
    exact ⟨_, rfl⟩
  | cons d vs ih =>
    obtain ⟨n, rfl⟩ : ∃ m, n = m + 1 := ⟨n - 1, by omega⟩
    obtain ⟨c, h1⟩ := ih (fun x hx => hv x (List.mem_cons_of_mem _ hx)) n (by simpa using h)
    have h2 : digitD b (d :: (vs ++ t :: r)) = .ok true d (vs ++ t :: r) := by
      simp only [digitD, Den.tok, hv d List.mem_cons_self, if_true]
    simp only [List.cons_append, Den.manyN, h2, h1]
    exact ⟨_, rfl⟩

private theorem digit_char {d : UInt8} (h : isAsciiDigit d = true) :
    toDigit 10 (Char.ofNat d.toNat) = some (d.toNat - 48) := by
  have hn : ∀ n < 58, 48 ≤ n → toDigit 10 (Char.ofNat n) = some (n - 48) := by decide
  simp only [isAsciiDigit, Bool.and_eq_true, decide_eq_true_eq] at h
  exact hn _ (by have := UInt8.le_iff_toNat_le.1 h.2; simp at this; omega) (by have := UInt8.le_iff_toNat_le.1 h.1; simpa using this)

private theorem digits_char {ds : List UInt8} (h : ∀ d ∈ ds, isAsciiDigit d = true) :
    (ds.map fun b => Char.ofNat b.toNat).mapM (toDigit 10) = some (ds.map fun d => d.toNat - 48) := by
  induction ds with
  | nil => rfl
  | cons d ds ih =>
    rw [List.map_cons, List.mapM_cons, digit_char (h d List.mem_cons_self), ih fun x hx => h x (List.mem_cons_of_mem _ hx)]
    rfl

private theorem parsed_eq {ds : List UInt8} (hne : ds ≠ []) (h : ∀ d ∈ ds, isAsciiDigit d = true) :
    (value ds < 2 ^ 64 → parsed ds = .ok (value ds)) ∧ (∀ v, parsed ds = .ok v → v = value ds ∧ v < 2 ^ 64) := by
  have hu : utf8 ds = some (String.ofList (ds.map fun b => Char.ofNat b.toNat)) := by
    unfold utf8
    rw [if_pos]
    simp only [List.all_eq_true, decide_eq_true_eq]
    intro d hd
    have := h d hd
    simp only [isAsciiDigit, Bool.and_eq_true, decide_eq_true_eq] at this
    have := UInt8.le_iff_toNat_le.1 this.2
    refine UInt8.lt_iff_toNat_lt.2 ?_
    simp at this ⊢; omega
  have hv : (ds.map fun d => d.toNat - 48).foldl (fun n d => 10 * n + d) 0 = value ds := by
    unfold value
    rw [List.foldl_map]
  have hp : parseUsize (String.ofList (ds.map fun b => Char.ofNat b.toNat)) =
      if value ds < 2 ^ 64 then .ok (value ds) else .error "number too large to fit in target type" := by
    unfold parseUsize
    rw [String.toList_ofList, if_neg (by simpa using hne), digits_char h]
    dsimp only
    rw [hv]
  unfold parsed
  rw [hu]
  dsimp only
  rw [hp]
  constructor
  · intro h1
    rw [if_pos h1]
  · intro v
    by_cases h1 : value ds < 2 ^ 64
    · rw [if_pos h1]; intro h2; cases h2; exact ⟨rfl, h1⟩
    · rw [if_neg h1]; intro h2; cases h2

private theorem bind_ok {T A B : Type} {D : Den T A} {F : A → Den T B} {b c : Bool} {a r : List T} {v : B} :
    D.bind F b a = .ok c v r ↔ ∃ c₁ x l c₂, D b a = .ok c₁ x l ∧ F x b l = .ok c₂ v r ∧ c = (c₁ || c₂) := by
  unfold Den.bind
  constructor
  · intro h
    cases hd : D b a with
    | ok c₁ x l =>
      rw [hd] at h
      obtain ⟨c₂, h1, h2⟩ := Outcome.after_ok.1 h
      exact ⟨c₁, x, l, c₂, rfl, h1, h2.symm⟩
    | pend => rw [hd] at h; cases h
    | soft => rw [hd] at h; cases h
    | hard => rw [hd] at h; cases h
  · rintro ⟨c₁, x, l, c₂, h1, h2, rfl⟩
    rw [h1]
    exact Outcome.after_ok.2 ⟨c₂, h2, rfl⟩

private theorem map_ok {T A B : Type} {D : Den T A} {f : A → B} {b c : Bool} {a r : List T} {v : B} :
    D.map f b a = .ok c v r ↔ ∃ x, D b a = .ok c x r ∧ f x = v := Outcome.map_ok

private theorem seq_ok {T A B : Type} {D : Den T A} {E : Den T B} {b c : Bool} {a r : List T} {v : A × B} :
    D.seq E b a = .ok c v r ↔ ∃ c₁ l c₂, D b a = .ok c₁ v.1 l ∧ E b l = .ok c₂ v.2 r ∧ c = (c₁ || c₂) := by
  unfold Den.seq
  rw [bind_ok]
  constructor
  · rintro ⟨c₁, x, l, c₂, h1, h2, h3⟩
    obtain ⟨y, h4, rfl⟩ := map_ok.1 h2
    exact ⟨c₁, l, c₂, h1, h4, h3⟩
  · rintro ⟨c₁, l, c₂, h1, h2, h3⟩
    exact ⟨c₁, _, l, c₂, h1, map_ok.2 ⟨_, h2, rfl⟩, h3⟩

private theorem digits_ok {b c : Bool} {a r v : List UInt8}
    (h : (((digitD.many1.map fun _ => ()).consumed id).map Prod.fst) b a = .ok c v r) :
    a = v ++ r ∧ v ≠ [] ∧ ∀ d ∈ v, isAsciiDigit d = true := by
  obtain ⟨y, h0, rfl⟩ := map_ok.1 h
  clear h
  have h := h0
  unfold Den.consumed at h
  cases hd : (digitD.many1.map fun _ => ()) b a with
  | ok c' v' r' =>
    rw [hd] at h
    cases h
    obtain ⟨ds, h1, -⟩ := map_ok.1 hd
    obtain ⟨c₁, x, l, c₂, h2, h3, -⟩ := bind_ok.1 h1
    obtain ⟨xs, h4, rfl⟩ := map_ok.1 h3
    obtain ⟨rfl, h5⟩ := digits_read h4
    cases a with
    | nil => cases b <;> cases h2
    | cons t ts =>
      simp only [digitD, Den.tok] at h2
      by_cases ht : isAsciiDigit t = true
      · rw [if_pos ht] at h2
        cases h2
        have : (x :: (xs ++ r)).take ((x :: (xs ++ r)).length - r.length) = x :: xs := by
          rw [← List.cons_append, List.length_append, Nat.add_sub_cancel, List.take_left]
        simp only [id, this]
        exact ⟨rfl, by simp, fun d hd => (List.mem_cons.1 hd).elim (fun e => e ▸ ht) (h5 d)⟩
      · rw [if_neg ht] at h2; cases h2
  | pend => rw [hd] at h; cases h
  | soft => rw [hd] at h; cases h
  | hard => rw [hd] at h; cases h

private theorem ok_digits {b : Bool} {t : UInt8} {r v : List UInt8} (ht : isAsciiDigit t = false) (hne : v ≠ [])
    (hv : ∀ d ∈ v, isAsciiDigit d = true) :
    ∃ c, (((digitD.many1.map fun _ => ()).consumed id).map Prod.fst) b (v ++ t :: r) = .ok c v (t :: r) := by
  cases v with
  | nil => exact absurd rfl hne
  | cons d v =>
    obtain ⟨c, h1⟩ := digits_written (b := b) (r := r) ht v (fun x hx => hv x (List.mem_cons_of_mem _ hx))
      ((v ++ t :: r).length + 1) (by simp; omega)
    have h2 : digitD b (d :: (v ++ t :: r)) = .ok true d (v ++ t :: r) := by
      simp only [digitD, Den.tok, hv d List.mem_cons_self, if_true]
    have h3 : (digitD.many1.map fun _ => ()) b (d :: v ++ t :: r) = .ok true () (t :: r) :=
      map_ok.2 ⟨d :: v, bind_ok.2 ⟨true, d, _, c, h2, map_ok.2 ⟨v, h1, rfl⟩, rfl⟩, rfl⟩
    refine ⟨true, map_ok.2 ⟨(d :: v, ()), ?_, rfl⟩⟩
    unfold Den.consumed
    rw [h3]
    simp only [List.length_append, Nat.add_sub_cancel, List.take_left, id]

private theorem number_ok {b c : Bool} {a r : List UInt8} {n : Nat} (h : numberD b a = .ok c n r) :
    ∃ ds, a = ds ++ r ∧ ds ≠ [] ∧ (∀ d ∈ ds, isAsciiDigit d = true) ∧ n = value ds ∧ n < 2 ^ 64 := by
  obtain ⟨c₁, x, l, c₂, h1, h2, -⟩ := bind_ok.1 h
  obtain ⟨rfl, h3, h4⟩ := digits_ok h1
  cases hp : parsed x with
  | error e => rw [hp] at h2; cases h2
  | ok v =>
    rw [hp] at h2
    cases h2
    exact ⟨x, rfl, h3, h4, (parsed_eq h3 h4).2 _ hp⟩

private theorem ok_number {b : Bool} {t : UInt8} {r ds : List UInt8} (ht : isAsciiDigit t = false) (hne : ds ≠ [])
    (hv : ∀ d ∈ ds, isAsciiDigit d = true) (hn : value ds < 2 ^ 64) :
    ∃ c, numberD b (ds ++ t :: r) = .ok c (value ds) (t :: r) := by
  obtain ⟨c, h⟩ := ok_digits (b := b) (r := r) ht hne hv
  exact ⟨_, bind_ok.2 ⟨c, ds, _, false, h, by rw [(parsed_eq hne hv).1 hn]; rfl, rfl⟩⟩

private theorem digit_iff {d : UInt8} : isAsciiDigit d = true ↔ 48 ≤ d ∧ d ≤ 57 := by
  simp only [isAsciiDigit, Bool.and_eq_true, decide_eq_true_eq]

/-- The outcome is success exactly for a block, whether or not more may follow. -/
theorem messageD_ok (b : Bool) (a m r : List UInt8) :
    (∃ c, messageD b a = .ok c m r) ↔ ∃ t, IsBlock m t ∧ a = t ++ r := by
  constructor
  · rintro ⟨c, h⟩
    obtain ⟨c₁, x, l, c₂, h1, h2, -⟩ := bind_ok.1 h
    obtain ⟨c₁, l₁, c₂, h3, h4, -⟩ := seq_ok.1 h1
    obtain ⟨vs, h3, -⟩ := map_ok.1 h3
    obtain ⟨c₁, l₂, c₂, h5, h6, -⟩ := seq_ok.1 h4
    obtain ⟨c₁, y, l₃, c₂, h7, h8, -⟩ := bind_ok.1 h5
    obtain ⟨c₁, l₄, c₂, h9, h10, -⟩ := seq_ok.1 h6
    obtain ⟨y', h9, -⟩ := map_ok.1 h9
    have e1 := newlines_read h3
    obtain ⟨-, -, e2⟩ := text_ok.1 h7
    obtain ⟨ds, e3, g1, g2, g3, g4⟩ := number_ok h8
    obtain ⟨-, -, e4⟩ := text_ok.1 h9
    have e5 : l = l₄ := by cases h10; rfl
    obtain ⟨m', h11, rfl⟩ := map_ok.1 h2
    unfold Den.exactly at h11
    split at h11
    case isFalse => cases b <;> cases h11
    rename_i hl
    cases h11
    have hlen : (l.take x.2.1).length = x.2.1 := by rw [List.length_take]; omega
    refine ⟨_, ⟨vs.length, ds, g1, fun d hd => digit_iff.1 (g2 d hd), ?_, ?_, rfl⟩, ?_⟩
    · rw [← g3]; exact hlen.symm
    · simp only [id]; omega
    · rw [e1, e2, e3, e4, ← e5]
      simp only [List.append_assoc, id, List.take_append_drop]
  · rintro ⟨t, ⟨k, ds, g1, g2, g3, g4, rfl⟩, rfl⟩
    have hnl : ∀ rest, Den.text newline newline b (label ++ rest) = .soft := by
      intro rest
      unfold Den.text
      rw [if_pos (by simp [label, newline]), if_neg (by simp [label, newline])]
    obtain ⟨c₁, h1⟩ := newlines_written (hnl (ds ++ (newline ++ (newline ++ (m ++ r))))) k
      (((List.replicate k newline).flatten ++ (label ++ (ds ++ (newline ++ (newline ++ (m ++ r)))))).length + 1) (by
        simp [newline]; omega)
    obtain ⟨c₂, h2⟩ := ok_number (b := b) (t := 13) (r := 10 :: (newline ++ (m ++ r))) (by decide) g1 (fun d hd => digit_iff.2 (g2 d hd)) (by omega)
    refine ⟨_, bind_ok.2 ⟨_, ((), value ds, (), ()), m ++ r, m.length != 0, seq_ok.2 ⟨c₁, _, _, map_ok.2 ⟨List.replicate k newline, ?_, rfl⟩,
      seq_ok.2 ⟨_, _, _, bind_ok.2 ⟨true, label, _, c₂, text_ok.2 ⟨rfl, rfl, rfl⟩, h2, rfl⟩,
        seq_ok.2 ⟨true, m ++ r, false, map_ok.2 ⟨newline ++ newline, text_ok.2 ⟨rfl, rfl, rfl⟩, rfl⟩, rfl, rfl⟩, rfl⟩, rfl⟩,
      map_ok.2 ⟨m, ?_, rfl⟩, rfl⟩⟩
    · simp only [List.append_assoc]
      exact h1
    · unfold Den.exactly
      rw [if_pos (by rw [g3, List.length_append]; exact Nat.le_add_right _ _), g3]
      simp only [List.take_left, List.drop_left, id]

theorem good : messageD.Good := by
  obtain ⟨V, -, -, l, h⟩ := frag
  obtain ⟨_, _, hr, -⟩ := frag_resumable feedable h
  exact (hr true).good

/-- In the middle of a block more is asked for. -/
theorem messageD_pend {m a x : List UInt8} (h : IsBlock m (a ++ x)) (hx : x ≠ []) : messageD true a = .pend := by
  refine Classical.byContradiction fun hp => ?_
  obtain ⟨c, h1⟩ := (messageD_ok true (a ++ x) m []).2 ⟨_, h, (List.append_nil _).symm⟩
  rw [good.stable a x true hp] at h1
  cases hd : messageD true a with
  | ok c' v r =>
    rw [hd] at h1
    simp only [Outcome.extend, Outcome.ok.injEq] at h1
    exact hx (List.append_eq_nil_iff.1 h1.2.2).2
  | pend => exact hp hd
  | soft => rw [hd] at h1; cases h1
  | hard => rw [hd] at h1; cases h1

/-- Without any bytes nothing is recognised. -/
theorem messageD_nil (b : Bool) : messageD b [] = Den.short b := by cases b <;> rfl

end Verif.LanguageServer
