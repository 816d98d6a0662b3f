import Verif.Model.Mp4
import Verif.Spec.Bytes

/-!
# What an MP4 file is, as far as `benches/mp4.rs` looks at it

`text` decodes bytes to a text (`from_utf8`).
-/

namespace Verif.Mp4

variable {τ : Type} (text : List UInt8 → Except (Easy.Error UInt8 (List UInt8)) τ)

/-- Texts of four bytes each, until fewer than four bytes are left. -/
inductive Brands : List UInt8 → List τ → Prop where
  | none {w : List UInt8} : w.length < 4 → Brands w []
  | more {name w : List UInt8} {v : τ} {vs : List τ} : name.length = 4 → text name = .ok v → Brands w vs →
      Brands (name ++ w) (v :: vs)

/-- The names of boxes that are known. -/
def names : List (List UInt8) := [ftypName, moovName, mdatName, freeName, skipName, wideName]

/-- What the content of a box stands for.  Of a box without a known name nothing is asked. -/
inductive Means : List UInt8 → Box τ → Prop where
  | ftyp {major version w : List UInt8} {v : τ} {vs : List τ} : major.length = 4 → text major = .ok v →
      version.length = 4 → Brands text w vs → Means (ftypName ++ major ++ version ++ w) (.ftyp ⟨v, version, vs⟩)
  | moov (w : List UInt8) : Means (moovName ++ w) .moov
  | mdat (w : List UInt8) : Means (mdatName ++ w) .mdat
  | free (w : List UInt8) : Means (freeName ++ w) .free
  | skip (w : List UInt8) : Means (skipName ++ w) .skip
  | wide (w : List UInt8) : Means (wideName ++ w) .wide
  | unknown {w : List UInt8} : (∀ n ∈ names, ¬ n <+: w) → Means w .unknown

/-- A box in a file: the size of the whole in four bytes, big end first, and the content. -/
def framed (content : List UInt8) : List UInt8 := beBytes 4 (content.length + 4) ++ content

/-- Some bytes are boxes one after the other, followed by fewer than four bytes. -/
inductive File : List UInt8 → List (Box τ) → List UInt8 → Prop where
  | done {w : List UInt8} : w.length < 4 → File w [] w
  | box {content w rest : List UInt8} {b : Box τ} {bs : List (Box τ)} : content.length + 4 < 2 ^ 32 →
      Means text content b → File w bs rest → File (framed content ++ w) (b :: bs) rest

/-- After some good boxes there is a size that is smaller than the four bytes it is written in. -/
inductive Undersized : List UInt8 → Prop where
  | here {n : Nat} {w : List UInt8} : n < 4 → Undersized (beBytes 4 n ++ w)
  | later {content w : List UInt8} {b : Box τ} : content.length + 4 < 2 ^ 32 → Means text content b → Undersized w →
      Undersized (framed content ++ w)

end Verif.Mp4
