import Verif.Model.StructParser
import Verif.Spec.Accepts
import Verif.Spec.Sequence

/-!
# What `struct_parser!` should do
-/

namespace Verif

variable {S : Strm}

/-- The parsers in the order they are written, each where the previous one stopped; the values of the kept ones in order. -/
def Ref.fields {τ β κ : Type} : Fields S τ β κ → Sem S.Input Unit κ
  | .nil => Ref.value ()
  | .skip p fs => Ref.bind p.shape fun _ => Ref.fields fs
  | .keep p fs => Ref.bind p.shape fun x => Ref.map (Ref.fields fs) fun y => (x, y)

/-- The texts of the fields, one after the other: the values of the ignored ones are lost. -/
inductive FieldsDescribe : {τ β κ : Type} → Texts S.Tok κ → Fields S τ β κ → Prop where
  | nil : FieldsDescribe (fun w _ _ => w = []) .nil
  | skip {σ τ α β κ : Type} {p : Parser S σ α} {fs : Fields S τ β κ} {L : Texts S.Tok α} {M : Texts S.Tok κ} :
      Describes L p → FieldsDescribe M fs →
      FieldsDescribe (fun w y o => ∃ u z v, w = u ++ z ∧ L u v (lead z o) ∧ M z y o) (.skip p fs)
  | keep {σ τ α β κ : Type} {p : Parser S σ α} {fs : Fields S τ β κ} {L : Texts S.Tok α} {M : Texts S.Tok κ} :
      Describes L p → FieldsDescribe M fs →
      FieldsDescribe (fun w y o => ∃ u z, w = u ++ z ∧ L u y.1 (lead z o) ∧ M z y.2 o) (.keep p fs)

end Verif
