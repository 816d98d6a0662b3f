import Verif.Model.Http

/-!
# Requests as texts

What `benches/http.rs` takes for a request, as a relation between bytes and requests: which bytes make up each part, and in which
order the parts come.  Nothing here mentions a parser.
-/

namespace Verif.Http

/-- The end of a line: `\r\n` or `\n`. -/
def IsEol (w : List UInt8) : Prop := w = [13, 10] ∨ w = [10]

/-- One byte or more, all of them `f`. -/
def Some1 (f : UInt8 → Bool) (w : List UInt8) : Prop := w ≠ [] ∧ ∀ c ∈ w, f c = true

/-- A line of the value of a header: spaces or tabs, then anything up to the end of the line; the spaces do not belong to the
value. -/
def IsLine (w v : List UInt8) : Prop :=
  ∃ sp e, w = sp ++ v ++ e ∧ Some1 isHorizontalSpace sp ∧ Some1 isContent v ∧ (∀ c, v.head? = some c → isHorizontalSpace c = false) ∧
    IsEol e

/-- Items one after the other. -/
inductive Each {α β : Type} (P : List α → β → Prop) : List α → List β → Prop where
  | nil : Each P [] []
  | cons {w u : List α} {v : β} {vs : List β} : P w v → Each P u vs → Each P (w ++ u) (v :: vs)

/-- A header: its name, a colon, one line or more. -/
def IsHeader (w : List UInt8) (h : Header (List UInt8)) : Prop :=
  ∃ u, w = h.name ++ 58 :: u ∧ Some1 isToken h.name ∧ Each IsLine u h.value ∧ h.value ≠ []

/-- The first line, without its end. -/
def IsRequestLine (w : List UInt8) (r : Request (List UInt8)) : Prop :=
  ∃ s1 s2, w = r.method ++ s1 ++ r.uri ++ s2 ++ label ++ r.version ∧ Some1 isToken r.method ∧ Some1 isSpace s1 ∧
    Some1 isNotSpace r.uri ∧ Some1 isSpace s2 ∧ Some1 isHttpVersion r.version

/-- A request: the first line, the headers, and an empty line. -/
def IsRequest (w : List UInt8) (r : Request (List UInt8) × List (Header (List UInt8))) : Prop :=
  ∃ l e hs e', w = l ++ e ++ hs ++ e' ∧ IsRequestLine l r.1 ∧ IsEol e ∧ Each IsHeader hs r.2 ∧ IsEol e'

/-- The bytes of the parts of a request. -/
def Request.map {ρ ρ' : Type} (f : ρ → ρ') (r : Request ρ) : Request ρ' := ⟨f r.method, f r.uri, f r.version⟩

/-- The bytes of the parts of a header. -/
def Header.map {ρ ρ' : Type} (f : ρ → ρ') (h : Header ρ) : Header ρ' := ⟨f h.name, h.value.map f⟩

/-- A byte as a character. -/
def letter (c : UInt8) : Char := Char.ofNat c.toNat

/-- RFC 2616, 2.2: the characters of a token: visible ASCII characters that are not separators. -/
def TokenChar (c : UInt8) : Prop := 32 < c.toNat ∧ c.toNat < 127 ∧ letter c ∉ "()<>@,;:\\\"/[]?={}".toList
instance (c : UInt8) : Decidable (TokenChar c) := by unfold TokenChar; infer_instance

end Verif.Http
