import Verif.Model.ElementMap
import Verif.Model.Catalog
/-
Model of texts made for the user: values of source maps (src/source_map.rs:52-155) and the dump of the sector map (src/diskimage.rs:1922-1942).
-/
namespace Fox
namespace Text

/-! ## Values of source maps -/

/-- `Repr` (src/source_map.rs:59-63). -/
inductive Repr where
  | dec (digits : Nat)
  | hex (digits : Nat)
  | bin (digits : Nat)

/-- Zeros in front, up to a width. -/
def zeros (w : Nat) (s : List Char) : List Char := List.replicate (w - s.length) '0' ++ s

/-- `*digits + 2`, of a `u8`. -/
def plus2 (debug : Bool) (digits : Nat) : Except Err Nat :=
  if digits + 2 < 256 then .ok (digits + 2) else if debug then .error .panic else .ok (digits + 2 - 256)

/-- `Repr::fmt` (src/source_map.rs:73-85) of a number.  The prefix counts for the width; zeros stand behind it. -/
def number (debug : Bool) (n : Nat) : Repr → Except Err (List Char)
  | .dec 0 => .ok (Nat.toDigits 10 n)
  | .dec d => .ok (zeros d (Nat.toDigits 10 n))
  | .hex 0 => .ok (['0', 'x'] ++ (Nat.toDigits 16 n).map Char.toUpper)
  | .hex d => (plus2 debug d).map fun w => ['0', 'x'] ++ zeros (w - 2) ((Nat.toDigits 16 n).map Char.toUpper)
  | .bin 0 => .ok (['0', 'b'] ++ Nat.toDigits 2 n)
  | .bin d => (plus2 debug d).map fun w => ['0', 'b'] ++ zeros (w - 2) (Nat.toDigits 2 n)

/-- `Scalar` (src/source_map.rs:92-97): a number of any width, or a text. -/
inductive Scalar where
  | int (n : Nat)
  | text (s : List Char)

/-- `ValueState` (src/source_map.rs:115-120). -/
inductive State where
  | good | bad | questionable
  deriving DecidableEq

/-- `SourceValue` (src/source_map.rs:136-142), without its tip and comment. -/
structure Value where
  scalar : Option Scalar
  repr : Repr
  state : State

/-- `Display for SourceValue` (src/source_map.rs:144-155). -/
def Value.show (debug : Bool) (v : Value) : Except Err (List Char) :=
  match v.scalar with
  | none => .ok []
  | some (.text s) => .ok s
  | some (.int n) => (number debug n v.repr).map (· ++ if v.state = .bad then ['*'] else [])

/-! ## The dump of the sector map -/

/-- `bool` as text. -/
def bool (b : Bool) : List Char := if b then "true".toList else "false".toList

/-- The line of a sector (src/diskimage.rs:1930-1936). -/
def sectorLine (e : DiskTrack.Entry) : List Char :=
  ['\t', '\t'] ++ EMap.idText e.id ++ " address_crc_valid: ".toList ++ bool (!e.addressError) ++ " data_crc_valid: ".toList ++ bool (!e.dataError) ++
    " deleted: ".toList ++ bool e.noDam

/-- The lines of a track (src/diskimage.rs:1928-1937). -/
def trackLines (n : Nat) (es : List DiskTrack.Entry) : List (List Char) := ("\tTrack ".toList ++ Nat.toDigits 10 n) :: es.map sectorLine

/-- The lines of a number of tracks, from one on. -/
def tracksLines : Nat → List (List DiskTrack.Entry) → List (List Char)
  | _, [] => []
  | n, t :: ts => trackLines n t ++ tracksLines (n + 1) ts

/-- The lines of a number of heads, from one on (src/diskimage.rs:1925-1938). -/
def headsLines : Nat → List (List (List DiskTrack.Entry)) → List (List Char)
  | _, [] => []
  | n, h :: hs => ("Head ".toList ++ Nat.toDigits 10 n) :: tracksLines 0 h ++ headsLines (n + 1) hs

/-- `dump_sector_map` (src/diskimage.rs:1922-1942): what is written, if writing does not fail. -/
def dumpMap (d : Disk) : Except Err (List Char) := d.sectorMap.map fun m => (headsLines 0 m).flatMap (· ++ ['\n'])

end Text
end Fox
