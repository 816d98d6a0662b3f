import Verif.Model.Range
import Verif.Model.Repeat
import Verif.Model.Byte
import Verif.Model.EasyParse
import Verif.Model.Slice

/-!
# The MP4 parser of `benches/mp4.rs`

A program written with the library: a file is a list of boxes, each with a length prefix; what is in a box is parsed by a
parser of its own.
-/

namespace Verif

namespace Mp4

/-- benches/mp4.rs:37, 66: the parsers run through `easy_parse` on a `&[u8]`, so their stream is `easy::Stream<&[u8]>`. -/
abbrev Y : Strm := easySliceS UInt8 1

/-- The operations of that stream on ranges. -/
abbrev R : RangeOps Y :=
  convertR inferInstance id (Easy.Errors.ops UInt8 (List UInt8) Nat compare)
    (UnexpectedParse.intoOtherS (Easy.Errors.ops UInt8 (List UInt8) Nat compare))
    (UnexpectedParse.intoOther (Easy.Errors.ops UInt8 (List UInt8) Nat compare) (0 : Nat)) (sliceR UInt8 1)

/-- mp4.rs:20-24 `struct FileType`; `τ` is the type of texts (`&str`). -/
structure FileType (τ : Type) where
  majorBrand : τ
  majorBrandVersion : List UInt8
  compatibleBrands : List τ
deriving DecidableEq, Repr

/-- mp4.rs:27-35 `enum MP4Box`. -/
inductive Box (τ : Type) where
  | ftyp (f : FileType τ)
  | moov
  | mdat
  | free
  | skip
  | wide
  | unknown
deriving DecidableEq, Repr

/-- `b"ftyp"`. -/
def ftypName : List UInt8 := [102, 116, 121, 112]

/-- `b"moov"`. -/
def moovName : List UInt8 := [109, 111, 111, 118]

/-- `b"mdat"`. -/
def mdatName : List UInt8 := [109, 100, 97, 116]

/-- `b"free"`. -/
def freeName : List UInt8 := [102, 114, 101, 101]

/-- `b"skip"`. -/
def skipName : List UInt8 := [115, 107, 105, 112]

/-- `b"wide"`. -/
def wideName : List UInt8 := [119, 105, 100, 101]

variable {τ : Type} (text : List UInt8 → Except (Easy.Error UInt8 (List UInt8)) τ)

/-- mp4.rs:38 `brand_name = take(4).and_then(from_utf8)`; `text` is `from_utf8` of the standard library, with its error
converted. -/
def brandName : Parser Y Unit τ := andThen (take R 4) text

/-- mp4.rs:39-51 `filetype_box`. -/
def filetypeBox := map
  (tuple (range R ftypName) (.cons (brandName text) (.cons (take R 4) (.cons (many (brandName text)) .nil))))
  fun y => Box.ftyp ⟨y.2.1, y.2.2.1, y.2.2.2.1⟩

/-- mp4.rs:53 the closure `|offset| take(offset as usize - 4)`: the subtraction overflows if `offset < 4`, which is a panic in
a debug build (`debug`) and wraps around (modulo `2^64`) in a release build. -/
def rest (debug : Bool) (offset : Nat) : Parser Y Unit (List UInt8) :=
  if offset < 4 ∧ debug = true then .ofLazy () fun i => (.abort .panic, i)
  else take R ((2 ^ 64 + offset - 4) % 2 ^ 64)

/-- mp4.rs:53 `mp4_box = be_u32().then(…)`. -/
def mp4Box (debug : Bool) := thenP (beUint Y id 4) (rest debug) ()

/-- mp4.rs:54-62 `box_parser`. -/
def boxParser := choice (.cons (filetypeBox text) (.cons (map (range R moovName) fun _ => Box.moov)
  (.cons (map (range R mdatName) fun _ => Box.mdat) (.cons (map (range R freeName) fun _ => Box.free)
  (.cons (map (range R skipName) fun _ => Box.skip) (.cons (map (range R wideName) fun _ => Box.wide)
  (.last (value Y Box.unknown))))))))

/-- mp4.rs:64 the closure `|box_data| box_parser.easy_parse(box_data).map(|t| t.0)`.  Simplifications: the address of
`box_data`, on which only the positions inside errors depend, is not known here and taken as 0; and as `box_parser` neither
panics nor loops (`boxParser_calm`), that case is not passed on. -/
def interpret (boxData : List UInt8) : Except Y.Err (Box τ) :=
  match easyParse (A := sliceS UInt8 1) (boxParser text) (⟨0, boxData⟩ : Slice UInt8) with
  | .ok v _ => .ok v
  | .err e => .error e
  | .abort _ => .error (Y.E.empty (0 : Nat))

/-- mp4.rs:63-64 `data_interpreter`. -/
def dataInterpreter (debug : Bool) := flatMap (mp4Box debug) (interpret text)

/-- mp4.rs:37-67 `parse_mp4`. -/
def parseMp4 (debug : Bool) (data : Slice UInt8) : Parser.Parsed Y (List (Box τ)) :=
  easyParse (A := sliceS UInt8 1) (many (dataInterpreter text debug)) data

end Mp4

end Verif
