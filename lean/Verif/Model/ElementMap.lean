import Verif.Model.BitTrack
import Verif.Model.Amiga
import Verif.Model.TreeMap
/-
Model of the element maps of tracks: `build_element_map` (src/track_schema/system34.rs:1181-1238, amiga.rs:1009-1062) and
`Track::element_map` (src/track/bitstream.rs:883-885).  A value is the number it holds, if it holds one.
-/
namespace Fox
namespace EMap

/-- A number, right-justified in `w` places (`{:2}`, `{:3}`). -/
def padded (w n : Nat) : List Char := List.replicate (w - (Nat.toDigits 10 n).length) ' ' ++ Nat.toDigits 10 n

/-- `Display for DiskChsn` (src/types/chs.rs:177-181). -/
def idText (x : Chsn) : List Char :=
  ['[', 'c', ':'] ++ padded 2 x.c ++ [' ', 'h', ':'] ++ padded 0 x.h ++ [' ', 's', ':'] ++ padded 3 x.s ++ [' ', 'n', ':'] ++ padded 0 x.n ++ [']']

/-- One round of the loop (src/track_schema/system34.rs:1184-1235). -/
def entry (e : S34.Inst) : List (TreeOp (Option Nat)) :=
  match e.elem with
  | .header x bad missing =>
    [.add 0 ("IDAM: " ++ String.ofList (idText x)) none,
     .child (if bad then "Address Error" else "Address OK") none,
     .sibling (if missing then "No associated DAM" else "Matching DAM") none,
     .sibling "Start" (some (e.start % 2 ^ 32)),
     .sibling "End" (some (e.stop % 2 ^ 32))]
  | .data x bad dataBad deleted =>
    [.add 0 ((if deleted then "DDAM: " else "DAM: ") ++ String.ofList (idText x)) none,
     .child (if bad then "Address Error" else "Address OK") none,
     .sibling (if dataBad then "Data Error" else "Data OK") none,
     .sibling "Start" (some (e.start % 2 ^ 32)),
     .sibling "End" (some (e.stop % 2 ^ 32))]
  | .marker _ => []

/-- `System34Schema::build_element_map` (src/track_schema/system34.rs:1181-1238). -/
def build (items : List S34.Inst) : Except Err (TreeMap (Option Nat)) :=
  match (TreeMap.new none).run ⟨0, 0⟩ (items.flatMap entry) with
  | .error e => .error e
  | .ok (t, _) => .ok t

/-- `AmigaSchema::build_element_map` (src/track_schema/amiga.rs:1009-1062): only elements of System 34 are entered, and none of the
elements is one. -/
def buildAmiga (items : List Amiga.Inst) : TreeMap (Option Nat) := items.foldl (fun t _ => t) (TreeMap.new none)

/-- `element_map` of a bitstream track of System 34 (src/track/bitstream.rs:883-885): as the track is made (lines 943, 1066-1068), or
scanned again.  If no schema was found the map is that of `TrackMetadata::default()`, without any node. -/
def ofTrack (t : Track) : Except Err (TreeMap (Option Nat)) :=
  match t.schema with
  | none => .ok ⟨[]⟩
  | some _ => build t.items

end EMap
end Fox
