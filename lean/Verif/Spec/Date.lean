import Verif.Model.Date
import Verif.Spec.Json

/-!
# Dates and times as they are written (ISO 8601, extended format)
-/

namespace Verif

namespace Date

open Json (digitChar decimal)

/-- Decimal digits. -/
def Digits (w : List Char) (ds : List Nat) : Prop := w = ds.map digitChar ∧ ∀ d ∈ ds, d < 10

/-- Two digits. -/
def Two (w : List Char) (n : Int) : Prop := ∃ ds, Digits w ds ∧ ds.length = 2 ∧ n = decimal ds

/-- No minutes follow an hour here. -/
def NoMinutes (o : Option Char) : Prop := ∀ c, o = some c → c ≠ ':' ∧ ∀ d < 10, c ≠ digitChar d

/-- A time zone in minutes: `Z`, `±hh`, `±hhmm` or `±hh:mm`; `o` is what follows. -/
inductive IsZone (o : Option Char) : List Char → Int → Prop where
  | utc : IsZone o ['Z'] 0
  | east {h : List Char} {n : Int} : Two h n → NoMinutes o → IsZone o ('+' :: h) (60 * n)
  | west {h : List Char} {n : Int} : Two h n → NoMinutes o → IsZone o ('-' :: h) (-(60 * n))
  | eastMin {h m : List Char} {n k : Int} : Two h n → Two m k → IsZone o ('+' :: (h ++ m)) (60 * n + k)
  | westMin {h m : List Char} {n k : Int} : Two h n → Two m k → IsZone o ('-' :: (h ++ m)) (-(60 * n + k))
  | eastColon {h m : List Char} {n k : Int} : Two h n → Two m k → IsZone o ('+' :: (h ++ ':' :: m)) (60 * n + k)
  | westColon {h m : List Char} {n k : Int} : Two h n → Two m k → IsZone o ('-' :: (h ++ ':' :: m)) (-(60 * n + k))

/-- `hh:mm:ss` and a time zone. -/
def IsTime (o : Option Char) (w : List Char) (t : Time) : Prop :=
  ∃ h m s z, Two h t.hour ∧ Two m t.minute ∧ Two s t.second ∧ IsZone o z t.zone ∧ w = h ++ ':' :: (m ++ ':' :: (s ++ z))

/-- The digits of a year, `-mm-dd`. -/
def IsDay (w : List Char) (year : List Nat) (month day : Int) : Prop :=
  ∃ y m d, Digits y year ∧ Two m month ∧ Two d day ∧ w = y ++ '-' :: (m ++ '-' :: d)

/-- A year that is a number of 32 bits. -/
def Fits (year : List Nat) : Prop := year ≠ [] ∧ decimal year ≤ 2147483647

/-- A date, `T` and a time. -/
def IsDateTime (o : Option Char) (w : List Char) (x : DateTime) : Prop :=
  ∃ year d t, IsDay d year x.date.month x.date.day ∧ Fits year ∧ x.date.year = decimal year ∧ IsTime o t x.time ∧
    w = d ++ 'T' :: t

end Date

end Verif
