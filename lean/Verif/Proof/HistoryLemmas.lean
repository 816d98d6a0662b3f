import Verif.Spec.History
import Verif.Proof.WrapLaws
import Verif.Proof.Moves

namespace Verif

variable {S : Strm}

/-- Every operation of a history on a stream whose checkpoints can be restored from anywhere leaves
it at a reachable place. -/
theorem history_reads {R : RangeOps S} {toks : S.Rng → List S.Tok} {w : S.Tok → Nat}
    (hS : S.Lawful) (hR : R.Lawful toks w)
    (hF : ∀ i j, S.reset (S.checkpoint i) j = (none, i))
    (ops : List (StreamOp S)) (i : S.Input) : ∃ ts, S.Reads i ts (after R ops i) := by
  suffices H : ∀ (ops : List (StreamOp S)) (st : S.Input × List S.Ckpt), S.Reach i st.1 →
      (∀ c ∈ st.2, ∃ j, S.Reach i j ∧ c = S.checkpoint j) →
      S.Reach i (ops.foldl (fun st op => op.step R st) st).1 from
    H ops (i, []) (.refl i) (by simp)
  intro ops
  induction ops with
  | nil => intro st h _; exact h
  | cons op ops ih =>
    intro st h hc
    rw [List.foldl_cons]
    apply ih
    · cases op with
      | read => exact h.trans (hS.uncons_reach st.1)
      | range n => exact h.trans (unconsRange_reach hS hR n st.1)
      | scan f s =>
        refine h.trans ?_
        simp only [StreamOp.step]
        generalize hx : R.unconsWhile f s st.1 = y
        obtain ⟨⟨x, s'⟩, j⟩ := y
        obtain ⟨r, _, h1, _⟩ := hR.while_scan hx
        exact ⟨_, h1⟩
      | scan1 f s =>
        refine h.trans ?_
        simp only [StreamOp.step]
        generalize hx : R.unconsWhile1 f s st.1 = y
        obtain ⟨⟨x, s'⟩, j⟩ := y
        rcases hR.while1_scan hx with ⟨r, _, _, h1, _⟩ | ⟨e, _, h1, _⟩
        · exact ⟨_, h1⟩
        · rw [h1]; exact .refl _
      | save => exact h
      | restore k =>
        simp only [StreamOp.step]
        split
        · rename_i c hk
          obtain ⟨j, hj, rfl⟩ := hc c (List.mem_of_getElem? hk)
          rw [hF]
          exact hj
        · exact h
    · cases op with
      | save =>
        intro c hm
        rcases List.mem_append.1 hm with hm | hm
        · exact hc c hm
        · simp only [List.mem_singleton] at hm
          exact ⟨st.1, h, hm⟩
      | restore k =>
        simp only [StreamOp.step]
        split <;> exact hc
      | _ => exact hc

theorem source_foldl {T : Type} (isNl : T → Bool) (ts : List T) :
    ts.foldl (SourcePosition.update isNl) SourcePosition.start = textPosition isNl ts := by
  have key : ∀ us : List T, us.reverse.foldl (SourcePosition.update isNl) SourcePosition.start =
      textPosition isNl us.reverse := by
    intro us
    induction us with
    | nil => rfl
    | cons t us ih =>
      rw [List.reverse_cons, List.foldl_append, ih]
      simp only [List.foldl_cons, List.foldl_nil, SourcePosition.update, textPosition,
        List.countP_append, List.countP_singleton, List.reverse_append, List.reverse_reverse,
        List.reverse_singleton, List.singleton_append, List.takeWhile_cons]
      cases h : isNl t
      · simp; omega
      · simp; omega
  have := key ts.reverse
  rwa [List.reverse_reverse] at this

theorem index_foldl {T : Type} (ts : List T) (n : Nat) :
    ts.foldl (fun n _ => n + 1) n = n + ts.length := by
  induction ts generalizing n with
  | nil => rfl
  | cons t ts ih => simp only [List.foldl_cons, List.length_cons, ih]; omega

end Verif
