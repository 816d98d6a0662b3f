import Verif.Proof.Http
import Verif.Proof.Calm

/-!
# The HTTP parser always comes back
-/

namespace Verif

variable {S : Strm} {σ τ α β : Type}

theorem calm_takeWhile1 {R : RangeOps S} {toks : S.Rng → List S.Tok} {wt : S.Tok → Nat} (hS : S.Lawful) (hR : R.Lawful toks wt)
    (hE : S.EndsOnly) (f : S.Tok → Bool) : Calm (takeWhile1 R f) := by
  intro i a h
  obtain ⟨ts, j, _, ⟨_, _, h1⟩ | ⟨_, ⟨_, h1⟩ | ⟨_, r, _, h1⟩⟩⟩ := C16_take_while1 hS hR hE f i <;> cases h.symm.trans h1

theorem never_range {R : RangeOps S} [DecidableEq S.Rng] (r : S.Rng) : NeverAborts (range R r) := by
  refine never_ofLazy fun i a => ?_
  dsimp only
  cases R.unconsRange (R.len r) i with
  | mk x j =>
    cases x with
    | ok other =>
      dsimp only
      split <;> intro h <;> cases h
    | error e => exact wrap_safe _ _ a

namespace Http

variable [DecidableEq S.Tok] [DecidableEq S.Rng] {R : RangeOps S} {B : Octets S} {wt : S.Tok → Nat}

private theorem calm_cons {p : Parser S σ α} {ps : Seq S τ β} (hp : Calm p) (h : ∀ q, ps.Mem q → Calm q.2.2) :
    ∀ q, (Seq.cons p ps).Mem q → Calm q.2.2 := by
  rintro q (rfl | hq)
  · exact hp
  · exact h q hq

private theorem calm_nil : ∀ q, (Seq.nil : Seq S Unit Unit).Mem q → Calm q.2.2 := fun _ h => by cases h

theorem request_calm (hS : S.Lawful) (hR : R.Lawful (toks B) wt) (hE : S.EndsOnly) : Calm (request R B) := by
  have hw : ∀ f, Calm (while1 R B f) := fun f => calm_takeWhile1 hS hR hE _
  have ht : ∀ t : S.Tok, Calm (token S t) := fun t => calm_never (never_token t)
  have heol : Calm (endOfLine B) := calm_or hS
    (moves_map hS (moves_pair hS (moves_token hS _) (moves_token hS _)) _)
    (moves_map hS (moves_token hS _) _) (calm_map (calm_tuple (ht _) (calm_cons (ht _) calm_nil)) _) (calm_map (ht _) _)
  have hline : Calm (messageHeaderLine R B) := calm_map (calm_tuple (hw _) (calm_cons (hw _) (calm_cons heol calm_nil))) _
  have hheader : Calm (messageHeader R B) := calm_map (calm_tuple (hw _) (calm_cons (ht _) (calm_cons
    (calm_many1 hS (known_line hS hR hE).rep (consuming_of (known_line hS hR hE).is fun v o h => isLine_nonempty h rfl) hline) calm_nil))) _
  have hversion : Calm (httpVersion R B) := calm_with (calm_never (never_range _)) (hw _)
  have hrl : Calm (requestLine R B) := calm_map (calm_tuple (hw _) (calm_cons (hw _) (calm_cons (hw _) (calm_cons (hw _)
    (calm_cons hversion calm_nil))))) _
  exact calm_map (calm_tuple hrl (calm_cons heol (calm_cons (calm_many hS (known_header hS hR hE).rep
    (consuming_of (known_header hS hR hE).is fun v o h => isHeader_nonempty h.1 rfl) hheader) (calm_cons heol calm_nil)))) _

end Http

end Verif
