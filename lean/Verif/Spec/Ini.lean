import Verif.Model.Ini
import Verif.Spec.Recover

/-!
# `.ini` files as they are written

`sp` says which characters are white space.  Everywhere `o` is the character that follows (`none`: the end of the text).
-/

namespace Verif

namespace Ini

/-- A line ends here. -/
def AtLineEnd (o : Option Char) : Prop := o = none ∨ o = some '\n'

/-- White space and comments, which reach from `;` to the end of the line. -/
inductive Blank (sp : Char → Bool) (o : Option Char) : List Char → Prop where
  | nil : Blank sp o []
  | space {c : Char} {w : List Char} : sp c = true → Blank sp o w → Blank sp o (c :: w)
  | comment {u w : List Char} : (∀ c ∈ u, c ≠ '\n') → AtLineEnd (lead w o) → Blank sp o w → Blank sp o (';' :: (u ++ w))

/-- Neither white space nor a comment begins here. -/
def NoBlank (sp : Char → Bool) (o : Option Char) : Prop := ∀ c, o = some c → sp c = false ∧ c ≠ ';'

/-- White space and comments, and no more of them follow. -/
def AllBlank (sp : Char → Bool) (o : Option Char) (w : List Char) : Prop := Blank sp o w ∧ NoBlank sp o

/-- `name=value`: neither is empty, the name has none of `=`, `[`, `;`, and the value goes to the end of the line or to a `;`. -/
def IsProperty (o : Option Char) (w k v : List Char) : Prop :=
  w = k ++ '=' :: v ∧ k ≠ [] ∧ v ≠ [] ∧ (∀ c ∈ k, c ≠ '=' ∧ c ≠ '[' ∧ c ≠ ';') ∧ (∀ c ∈ v, c ≠ '\n' ∧ c ≠ ';') ∧
    (AtLineEnd o ∨ o = some ';')

/-- Properties, each followed by white space and comments. -/
inductive AreProperties (sp : Char → Bool) (o : Option Char) : List Char → Properties → Prop where
  | nil : AreProperties sp o [] []
  | cons {w b u k v : List Char} {ps : Properties} : IsProperty (lead (b ++ u) o) w k v → AllBlank sp (lead u o) b →
      AreProperties sp o u ps → AreProperties sp o (w ++ (b ++ u)) ((k, v) :: ps)

/-- No property begins here. -/
def NoProperty (o : Option Char) : Prop := o = none ∨ o = some '=' ∨ o = some '[' ∨ o = some ';'

/-- Properties, and no more of them follow. -/
def AllProperties (sp : Char → Bool) (o : Option Char) (w : List Char) (ps : Properties) : Prop := AreProperties sp o w ps ∧ NoProperty o

/-- `[name]` and properties. -/
def IsSection (sp : Char → Bool) (o : Option Char) (w name : List Char) (ps : Properties) : Prop :=
  ∃ b u, w = '[' :: (name ++ ']' :: (b ++ u)) ∧ (∀ c ∈ name, c ≠ ']') ∧ AllBlank sp (lead u o) b ∧ AllProperties sp o u ps

/-- Sections, and no more of them follow. -/
inductive AreSections (sp : Char → Bool) (o : Option Char) : List Char → List (List Char × Properties) → Prop where
  | nil : AreSections sp o [] []
  | cons {w u name : List Char} {ps : Properties} {ss : List (List Char × Properties)} : IsSection sp (lead u o) w name ps →
      AreSections sp o u ss → AreSections sp o (w ++ u) ((name, ps) :: ss)

/-- A file: properties and then sections. -/
def IsFile (sp : Char → Bool) (o : Option Char) (w : List Char) (f : File) : Prop :=
  ∃ b u z, w = b ++ (u ++ z) ∧ AllBlank sp (lead (u ++ z) o) b ∧ AllProperties sp (lead z o) u f.global ∧ AreSections sp o z f.sections ∧
    o ≠ some '['

/-! ## Writing -/

/-- A property as it is usually written. -/
def propertyText (p : List Char × List Char) : List Char := p.1 ++ '=' :: (p.2 ++ ['\n'])

/-- A section as it is usually written. -/
def sectionText (s : List Char × Properties) : List Char := '[' :: (s.1 ++ ']' :: '\n' :: s.2.flatMap propertyText)

/-- A file as it is usually written. -/
def File.text (f : File) : List Char := f.global.flatMap propertyText ++ f.sections.flatMap sectionText

/-- Names that begin with no white space, and what can be in names and values. -/
def ValidProperty (sp : Char → Bool) (p : List Char × List Char) : Prop :=
  (∃ c k, p.1 = c :: k ∧ sp c = false) ∧ p.2 ≠ [] ∧ (∀ c ∈ p.1, c ≠ '=' ∧ c ≠ '[' ∧ c ≠ ';') ∧ ∀ c ∈ p.2, c ≠ '\n' ∧ c ≠ ';'

/-- Files that can be written. -/
def File.Valid (sp : Char → Bool) (f : File) : Prop :=
  (∀ p ∈ f.global, ValidProperty sp p) ∧ ∀ s ∈ f.sections, (∀ c ∈ s.1, c ≠ ']') ∧ ∀ p ∈ s.2, ValidProperty sp p

end Ini

end Verif
