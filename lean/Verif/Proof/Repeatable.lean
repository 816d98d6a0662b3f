import Verif.Proof.Reuse

/-!
# Parsers that a repetition can call again and again
-/

namespace Verif

variable {S : Strm} {σ τ υ α β γ : Type}

/-- It moves, and its state is clean after every call that does not end in a committed failure. -/
structure Repeatable (p : Parser S σ α) : Prop where
  moves : Moves p
  keeps : ∃ Clean, Keeps false Clean p

theorem Repeatable.unit {p : Parser S Unit α} (h : Moves p) : Repeatable p := ⟨h, _, keeps_unit (h := false) p⟩

theorem Repeatable.reusable {p : Parser S σ α} (h : Repeatable p) : Reusable p := by
  obtain ⟨_, hk⟩ := h.keeps
  exact hk.reusable

theorem repeatable_map (hS : S.Lawful) {p : Parser S σ α} (h : Repeatable p) (f : α → β) : Repeatable (map p f) := by
  obtain ⟨_, hk⟩ := h.keeps
  exact ⟨moves_map hS h.moves f, _, keeps_map hk f⟩

theorem repeatable_expected (hS : S.Lawful) {p : Parser S σ α} (h : Repeatable p) (x : Info S.Tok S.Rng) : Repeatable (expected p x) := by
  obtain ⟨_, hk⟩ := h.keeps
  exact ⟨moves_expected hS h.moves x, _, keeps_expected hk x⟩

theorem repeatable_pair (hS : S.Lawful) {p : Parser S σ α} {q : Parser S τ β} (hp : Repeatable p) (hq : Repeatable q) : Repeatable (pair p q) := by
  obtain ⟨_, hk⟩ := hp.keeps
  obtain ⟨_, hl⟩ := hq.keeps
  exact ⟨moves_pair hS hp.moves hq.moves, _, keeps_pair hk hl⟩

theorem repeatable_with (hS : S.Lawful) {p : Parser S σ α} {q : Parser S τ β} (hp : Repeatable p) (hq : Repeatable q) : Repeatable («with» p q) := by
  obtain ⟨_, hk⟩ := hp.keeps
  obtain ⟨_, hl⟩ := hq.keeps
  exact ⟨moves_with hS hp.moves hq.moves, _, keeps_with hk hl⟩

theorem repeatable_or (hS : S.Lawful) {p : Parser S σ α} {q : Parser S τ α} (hp : Repeatable p) (hq : Repeatable q) : Repeatable (or p q) :=
  ⟨moves_or hS hp.moves hq.moves, _, keeps_or p q⟩

theorem repeatable_optional (hS : S.Lawful) {p : Parser S σ α} (hp : Repeatable p) : Repeatable (optional p) := by
  obtain ⟨_, hk⟩ := hp.keeps
  exact ⟨moves_optional hS hp.moves, _, keeps_optional hS hp.moves.run hk⟩

theorem repeatable_many (hS : S.Lawful) {p : Parser S σ α} (hp : Repeatable p) : Repeatable (many p) := by
  obtain ⟨_, hk⟩ := hp.keeps
  exact ⟨moves_many hS hp.moves, _, keeps_many hk⟩

theorem repeatable_many1 (hS : S.Lawful) {p : Parser S σ α} (hp : Repeatable p) : Repeatable (many1 p) := by
  obtain ⟨_, hk⟩ := hp.keeps
  exact ⟨moves_many1 hS hp.moves, _, keeps_many1 hk⟩

theorem repeatable_skip (hS : S.Lawful) {p : Parser S σ α} {q : Parser S τ β} (hp : Repeatable p) (hq : Repeatable q) :
    Repeatable (skip p q) := by
  obtain ⟨_, hk⟩ := hp.keeps
  obtain ⟨_, hl⟩ := hq.keeps
  exact ⟨moves_skip hS hp.moves hq.moves, _, keeps_skip hk hl⟩

theorem repeatable_between (hS : S.Lawful) {o : Parser S σ α} {c : Parser S υ γ} {p : Parser S τ β} (ho : Repeatable o)
    (hc : Repeatable c) (hp : Repeatable p) : Repeatable (between o c p) := by
  obtain ⟨_, h1⟩ := ho.keeps
  obtain ⟨_, h2⟩ := hc.keeps
  obtain ⟨_, h3⟩ := hp.keeps
  exact ⟨moves_between hS ho.moves hc.moves hp.moves, _, keeps_between h1 h2 h3⟩

theorem repeatable_tuple (hS : S.Lawful) {p : Parser S σ α} {ps : Seq S τ β} (hp : Repeatable p)
    (hps : ∀ q, ps.Mem q → Repeatable q.2.2) : Repeatable (tuple p ps) := by
  obtain ⟨_, h1⟩ := hp.keeps
  obtain ⟨_, h2⟩ := seqKeeps_exists ps fun q hq => (hps q hq).keeps
  exact ⟨moves_tuple hS hp.moves ps fun q hq => (hps q hq).moves, _, keeps_tuple h1 h2⟩

theorem repeatable_choice (hS : S.Lawful) {ps : Alts S α τ} (hps : ∀ q, ps.Mem q → Moves q.2) : Repeatable (choice ps) :=
  ⟨moves_choice hS hps, _, keeps_choice ps⟩

theorem repeatable_sepBy (hS : S.Lawful) {p : Parser S σ α} {q : Parser S τ β} (hp : Moves p) (hq : Moves q) :
    Repeatable (sepBy p q) := ⟨moves_sepBy hS hp hq, _, keeps_sepBy p q⟩

theorem repeatable_skipMany (hS : S.Lawful) {p : Parser S σ α} (hp : Repeatable p) : Repeatable (skipMany p) := by
  obtain ⟨_, hk⟩ := hp.keeps
  exact ⟨moves_skipMany hS hp.moves, _, keeps_skipMany hk⟩

theorem repeatable_skipMany1 (hS : S.Lawful) {p : Parser S σ α} (hp : Repeatable p) : Repeatable (skipMany1 p) := by
  obtain ⟨_, hk⟩ := hp.keeps
  exact ⟨moves_skipMany1 hS hp.moves, _, keeps_skipMany1 hk⟩

end Verif
