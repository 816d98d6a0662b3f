import Verif.Props.Twin
import Verif.Props.Ini

/-!
# C71: `easy_parse` in the program `examples/ini.rs`
-/

namespace Verif

set_option linter.unusedSectionVars false

variable {S : Strm} [DecidableEq S.Tok] {E : ErrOps S.Tok S.Rng S.Pos} {convS : S.SErr → E.SErr} {conv : S.Err → E.Err}
variable (U : Unicode) (C : Chars S)

open Ini in
private theorem same_property : Twins S E convS conv (property C) (property (C.withErrors E convS conv)) :=
  .message _ _ (.map _ (.tuple (.many1 (.satisfy _)) (.cons (.token _) (.cons (.many1 (.satisfy _)) .nil))))

open Ini in
private theorem same_whitespace : Twins S E convS conv (whitespace U C) (whitespace U (C.withErrors E convS conv)) :=
  .skipMany (.or (.skipMany1 (.expected _ _ (.satisfy _))) (.map _ (.tuple (.token _) (.cons (.skipMany (.satisfy _)) .nil))))

open Ini in
private theorem same_properties : Twins S E convS conv (properties U C) (properties U (C.withErrors E convS conv)) :=
  .many (.skip (same_property C) (same_whitespace U C))

open Ini in
private theorem same_section : Twins S E convS conv («section» U C) («section» U (C.withErrors E convS conv)) :=
  .message _ _ (.map _ (.tuple (.between (.token _) (.token _) (.many (.satisfy _)))
    (.cons (same_whitespace U C) (.cons (same_properties U C) .nil))))

/-- **C71.**  The parser of `.ini` files is the same program for every error type. -/
theorem C71_ini_same : Twins S E convS conv (Ini.ini U C) (Ini.ini U (C.withErrors E convS conv)) :=
  .map _ (.tuple (same_whitespace U C) (.cons (same_properties U C) (.cons (.many (same_section U C)) .nil)))

open Ini in
/-- **C71.**  So what `easy_parse` gives is what the text stands for (compare `C66_ini`). -/
theorem C71_ini (hS : S.Lawful) (hw : ∀ i, S.isPartial i = false) (hc : ∀ e, E.isEoiS (convS e) = S.E.isEoiS e)
    (i : S.Input) (f : File) (k : S.Input) :
    (ini U (C.withErrors E convS conv)).parse i = .ok f k ↔
      ∃ w, S.Reads i (w.map C.tok) k ∧ IsFile (white U) ((S.ahead k).map C.chr) w f :=
  (C71_accepts hw hc (C71_ini_same U C) i f k).symm.trans (C66_ini hS (hw i) f k)

open Ini in
/-- **C71.**  A file that is written down is read back by `easy_parse` (compare `C66_round_trip`). -/
theorem C71_ini_round_trip (f : File) (h : f.Valid (white U)) : ∃ n,
    easyParse (A := strS) (cmp := compare) (convS := StringStreamError.intoOtherS easyStrE) (conv := StringStreamError.intoOther easyStrE (0 : Nat))
      (ini U (chars.withErrors easyStrE _ _)) ⟨0, f.text⟩ = .ok f ⟨n, []⟩ := by
  obtain ⟨n, hn⟩ := C66_round_trip (U := U) f h
  exact ⟨n, (C71_accepts (fun _ => rfl) (C71_conversions compare (0 : Nat) id).2.1 (C71_ini_same U chars) _ _ _).1 hn⟩

/-- Not vacuous: a file with a section. -/
example : (⟨[("a".toList, "b".toList)], [("s".toList, [("c".toList, "d".toList)])]⟩ : Ini.File).Valid
    (Ini.white ⟨fun _ => false, fun _ => false, fun _ => false, fun _ => false, fun _ => false⟩) := by
  have ok : ∀ (a b : Char) (h : (Ini.white ⟨fun _ => false, fun _ => false, fun _ => false, fun _ => false, fun _ => false⟩ a) = false),
      (a ≠ '=' ∧ a ≠ '[' ∧ a ≠ ';') → (b ≠ '\n' ∧ b ≠ ';') → Ini.ValidProperty
        (Ini.white ⟨fun _ => false, fun _ => false, fun _ => false, fun _ => false, fun _ => false⟩) ([a], [b]) :=
    fun a b h ha hb => ⟨⟨a, [], rfl, h⟩, by simp, by simpa using ha, by simpa using hb⟩
  refine ⟨fun p hp => ?_, fun s hs => ?_⟩
  · obtain rfl := List.mem_singleton.1 hp
    exact ok 'a' 'b' (by decide) (by decide) (by decide)
  · obtain rfl := List.mem_singleton.1 hs
    refine ⟨by decide, fun p hp => ?_⟩
    obtain rfl := List.mem_singleton.1 hp
    exact ok 'c' 'd' (by decide) (by decide) (by decide)

end Verif
