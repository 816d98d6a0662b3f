import Verif.Spec.Behaved
import Verif.Model.Range
import Verif.Model.Byte

namespace Verif

variable {S : Strm}

section
variable {σ α : Type} (j : S.Input) (s : σ)
theorem answer_commitOk (v : α) : (⟨.commitOk v, j, s⟩ : Out S σ α).answer = .ok true v j := rfl
theorem answer_peekOk (v : α) : (⟨.peekOk v, j, s⟩ : Out S σ α).answer = .ok false v j := rfl
theorem answer_commitErr (e : S.Err) : (⟨.commitErr e, j, s⟩ : Out S σ α).answer = .hard e := rfl
theorem answer_peekErr (e : Tracked S.Err) : (⟨.peekErr e, j, s⟩ : Out S σ α).answer = .soft := rfl
theorem answer_abort (a : Abort) : (⟨.abort a, j, s⟩ : Out S σ α).answer = .abort a := rfl
end

theorem shape_ok {I E α : Type} (c : Bool) (v : α) (j : I) :
    (Answer.ok c v j : Answer I E α).shape = .ok c v j := rfl

theorem Strm.reads_nil {S : Strm} {i j : S.Input} : S.Reads i [] j ↔ j = i :=
  ⟨fun h => by cases h; rfl, fun h => h ▸ .nil _⟩

theorem Strm.reads_cons {S : Strm} {i k : S.Input} {t : S.Tok} {ts : List S.Tok} :
    S.Reads i (t :: ts) k ↔ ∃ j, S.uncons i = (.ok t, j) ∧ S.Reads j ts k :=
  ⟨fun h => by cases h; exact ⟨_, ‹_›, ‹_›⟩, fun ⟨_, h, h'⟩ => .cons h h'⟩

theorem Strm.Reads.trans {i j k : S.Input} {ts us : List S.Tok} (h : S.Reads i ts j)
    (h' : S.Reads j us k) : S.Reads i (ts ++ us) k := by
  induction h with
  | nil => simpa using h'
  | cons hu _ ih => exact .cons hu (ih h')

theorem Strm.Reach.refl (i : S.Input) : S.Reach i i := ⟨[], .nil i⟩

theorem Strm.Reach.trans {i j k : S.Input} (h : S.Reach i j) (h' : S.Reach j k) : S.Reach i k := by
  obtain ⟨ts, h⟩ := h
  obtain ⟨us, h'⟩ := h'
  exact ⟨_, h.trans h'⟩

theorem Strm.Reads.det {i j k : S.Input} {ts : List S.Tok} (h : S.Reads i ts j)
    (h' : S.Reads i ts k) : j = k := by
  induction h with
  | nil => cases h'; rfl
  | cons hu _ ih =>
    cases h' with
    | cons hu' h' =>
      rw [hu] at hu'
      cases hu'
      exact ih h'

namespace Strm.Lawful

variable (hS : S.Lawful)
include hS

theorem reset_reach {i j : S.Input} (h : S.Reach i j) :
    S.reset (S.checkpoint i) j = (none, i) := hS.reset h.choose_spec

theorem reset_self (i : S.Input) : S.reset (S.checkpoint i) i = (none, i) :=
  hS.reset (.nil i)

theorem reads_size {i j : S.Input} {ts : List S.Tok} (h : S.Reads i ts j) :
    S.size i = S.size j + ts.length := by
  induction h with
  | nil => simp
  | cons hu _ ih => rw [hS.size hu, ih]; simp; omega

theorem reads_isPartial {i j : S.Input} {ts : List S.Tok} (h : S.Reads i ts j) :
    S.isPartial j = S.isPartial i := by
  induction h with
  | nil => rfl
  | cons hu _ ih => rw [ih, hS.isPartial hu]

theorem reach_size {i j : S.Input} (h : S.Reach i j) : S.size j ≤ S.size i := by
  obtain ⟨ts, h⟩ := h
  have := hS.reads_size h
  omega

theorem reads_self {i : S.Input} {ts : List S.Tok} (h : S.Reads i ts i) : ts = [] := by
  have := hS.reads_size h
  cases ts <;> simp_all

theorem uncons_reach (i : S.Input) : S.Reach i (S.uncons i).2 := by
  cases h : S.uncons i with
  | mk r j =>
    cases r with
    | ok t => exact ⟨[t], .cons h (.nil _)⟩
    | error e => rw [hS.uncons_error h]; exact .refl i

theorem tryReset_eq {σ α : Type} {i j : S.Input} (h : S.Reach i j) (s : σ)
    (k : S.Input → Out S σ α) : S.tryReset (S.checkpoint i) j s k = k i := by
  simp [tryReset, hS.reset_reach h]

theorem inputAtEof_snd (i : S.Input) : (S.inputAtEof i).2 = i := by
  unfold inputAtEof
  cases h : S.uncons i with
  | mk r j =>
    cases r with
    | ok t => simp [hS.reset_reach ⟨[t], .cons h (.nil _)⟩]
    | error e =>
      cases hS.uncons_error h
      simp [hS.reset_self]

theorem inputAtEof_eq (i : S.Input) : S.inputAtEof i = ((S.inputAtEof i).1, i) := by
  rw [Prod.ext_iff]; exact ⟨rfl, hS.inputAtEof_snd i⟩

end Strm.Lawful

theorem Strm.unconsP_snd (i : S.Input) : (S.unconsP i).2 = (S.uncons i).2 := by
  unfold unconsP
  split <;> simp_all

end Verif
