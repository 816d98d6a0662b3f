import Verif.Spec.Alike
import Verif.Spec.Classes

/-!
# Text and its bytes

`Written rd rd' String.utf8EncodeChar` relates a stream of characters to a stream of the bytes of their UTF-8 encodings.
-/

namespace Verif

variable {α β : Type}

/-- The byte of an ASCII character. -/
def asciiByte (c : Char) : UInt8 := UInt8.ofNat c.toNat

/-- `f` and `g` make the same of ASCII characters, and nothing of anything else. -/
def AsciiAlike (V : α → β → Prop) (f : Char → Option α) (g : UInt8 → Option β) : Prop :=
  (∀ c, c.toNat < 128 → Both V (f c) (g (asciiByte c))) ∧ (∀ c, 128 ≤ c.toNat → f c = none) ∧
    ∀ b, 128 ≤ b.toNat → g b = none

/-- `f` and `g` agree on ASCII, and both accept everything else, or both reject it. -/
def AsciiSpan (f : Char → Bool) (g : UInt8 → Bool) : Prop :=
  (∀ c, c.toNat < 128 → f c = g (asciiByte c)) ∧
    ∃ d, (∀ c, 128 ≤ c.toNat → f c = d) ∧ ∀ b, 128 ≤ b.toNat → g b = d

end Verif
