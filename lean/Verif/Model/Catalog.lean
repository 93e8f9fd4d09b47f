import Verif.Model.Disk
import Verif.Model.Amiga
import Verif.Model.F86
/-
Model of the queries on what is on a track: the catalogue of elements (`TrackMetadata`), the scan for a sector, the sector map of an
image, the search for copy protections, and raw reads of tracks.

Not modelled: logging and text output.
-/
namespace Fox

namespace S34

/-! ## The catalogue of a track -/

/-- `contains` (src/track_schema/mod.rs:474-476): the end is included. -/
def Inst.contains (x : Inst) (bit : Nat) : Bool := decide (x.start ≤ bit) && decide (x.stop ≥ bit)

/-- `len` (src/track_schema/mod.rs:482-484); an end before the start, which would underflow, is not produced. -/
def Inst.len (x : Inst) : Nat := x.stop - x.start

/-- `is_sector_data` (src/track_schema/mod.rs:591-596, system34.rs:271-273). -/
def Elem.isData : Elem → Bool
  | .data .. => true
  | _ => false

/-- `is_sector_data_marker` (src/track_schema/mod.rs:584-589, system34.rs:267-269): not the mark of deleted data. -/
def Elem.isDataMarker : Elem → Bool
  | .marker .dam => true
  | _ => false

/-- `is_sector_header` (src/track_schema/mod.rs:580-582). -/
def Elem.isHeader : Elem → Bool
  | .header .. => true
  | _ => false

/-- The loop of `sector_index_from_element_index` (src/track_schema/mod.rs:181-190). -/
def sectorIndexLoop (index : Nat) : Nat → Nat → List Inst → Option Nat
  | _, _, [] => none
  | i, k, x :: rest =>
    if index = i ∧ x.elem.isData = true then some k
    else sectorIndexLoop index (i + 1) (if x.elem.isData then k + 1 else k) rest

/-- `sector_index_from_element_index` (src/track_schema/mod.rs:176-192). -/
def sectorIndex (items : List Inst) (index : Nat) : Option Nat :=
  if index ≥ items.length then none else sectorIndexLoop index 0 0 items

/-- `item_at` (src/track_schema/mod.rs:201-220): the last after a stable sort by the start, and how many there are. -/
def itemAt (items : List Inst) (bit : Nat) : Option (Inst × Nat) :=
  let hits := items.filter (·.contains bit)
  match (sortInsts hits).getLast? with
  | none => none
  | some x => some (x, hits.length)

/-- The first loop of `hit_test` (src/track_schema/mod.rs:243-250): the elements from index `i` down to 0.  `best` is the length and
index found so far; nothing is shorter than `usize::MAX`. -/
def hitBack (items : List Inst) (bit : Nat) : Nat → Option (Nat × Nat) → Option (Nat × Nat)
  | i, best =>
    let best := match items[i]? with
      | none => best
      | some x =>
        if x.contains bit then
          match best with
          | none => some (x.len, i)
          | some (l, _) => if x.len < l then some (x.len, i) else best
        else best
    match i with
    | 0 => best
    | i + 1 => hitBack items bit i best

/-- The second loop of `hit_test` (src/track_schema/mod.rs:252-262): the elements from index `i` on, until one starts later. -/
def hitOn (bit : Nat) : Nat → List Inst → Option (Nat × Nat) → Option (Nat × Nat)
  | _, [], best => best
  | i, x :: rest, best =>
    if x.start > bit then best
    else hitOn bit (i + 1) rest <|
      if x.contains bit then
        match best with
        | none => some (x.len, i)
        | some (l, _) => if x.len < l then some (x.len, i) else best
      else best

/-- `hit_test` (src/track_schema/mod.rs:224-264); `pos` is what `binary_search_by_key` answers, found or not. -/
def hitTest (items : List Inst) (bit pos : Nat) : Option (Inst × Nat) :=
  if items = [] then none
  else
    match hitOn bit pos (items.drop pos) (hitBack items bit (min pos (items.length - 1)) none) with
    | none => none
    | some (_, i) => items[i]?.map fun x => (x, i)

/-- `TrackMetadata::sector_ct` (src/track_schema/mod.rs:268-276): a `u8`, whose overflow panics if it is checked. -/
def dataMarkerCt (debug : Bool) (items : List Inst) : Except Err Nat :=
  let n := (items.filter (·.elem.isDataMarker)).length
  if debug ∧ n ≥ 256 then .error .panic else .ok (n % 256)

/-- `data_ranges` (src/track_schema/mod.rs:407-426): the data without its mark. -/
def dataRanges (items : List Inst) : List (Nat × Nat) :=
  items.filterMap fun x => if x.elem.isData then some (x.start + 64, x.stop) else none

/-- `header_ranges` (src/track_schema/mod.rs:428-438). -/
def headerRanges (items : List Inst) : List (Nat × Nat) :=
  items.filterMap fun x => if x.elem.isHeader then some (x.start, x.stop) else none

/-- `marker_ranges` (src/track_schema/mod.rs:440-450). -/
def markerRanges (items : List Inst) : List (Nat × Nat) :=
  items.filterMap fun x => match x.elem with | .marker _ => some (x.start, x.stop) | _ => none

end S34

open S34

/-! ## Scanning for a sector -/

/-- `ScanSectorResult` (src/types/structs.rs:147-182). -/
structure ScanFlags where
  notFound : Bool := true
  noDam : Bool := false
  deletedMark : Bool := false
  addressError : Bool := false
  dataError : Bool := false
  wrongCylinder : Bool := false
  badCylinder : Bool := false
  wrongHead : Bool := false
  deriving DecidableEq, Repr

/-- `From<TrackSectorScanResult>` (src/track/mod.rs:132-162). -/
def ScanFlags.ofScan : ScanResult → ScanFlags
  | .found _ _ ae de del noDam _ => { notFound := false, noDam, deletedMark := del, addressError := ae, dataError := de }
  | .notFound wc bc wh => { wrongCylinder := wc, badCylinder := bc, wrongHead := wh }

/-- `scan_sector` (src/track/bitstream.rs:386-396). -/
def Track.scanSector (t : Track) (q : Query) (offset : Option Nat) : Except Err ScanFlags :=
  (t.scanSectorElement q (offset.getD 0)).map .ofScan

/-- `scan_sector` (src/track/bitstream.rs:386-396) with the Amiga schema. -/
def Amiga.Track.scanSector (t : Amiga.Track) (q : Query) (offset : Option Nat) : ScanFlags :=
  .ofScan (Amiga.findSectorElement q t.items (offset.getD 0))

/-- `scan_sector` (src/track/metasector.rs:393-429). -/
def MetaTrack.scanSector (t : MetaTrack) (q : Query) : ScanFlags :=
  match t.matching q with
  | [] => { wrongCylinder := t.wrongCylinder q, badCylinder := t.badCylinder, wrongHead := t.wrongHead q }
  | s :: _ => { notFound := false, deletedMark := s.deletedMark, addressError := s.addressError, dataError := s.dataError,
                wrongCylinder := t.wrongCylinder q, badCylinder := t.badCylinder, wrongHead := t.wrongHead q }

namespace DiskTrack

/-- `Track::scan_sector` dispatch (src/track/fluxstream.rs:277-282). -/
def scanSector (x : DiskTrack) (q : Query) (offset : Option Nat) : Except Err ScanFlags :=
  match x with
  | .bit _ t => t.scanSector q offset
  | .sect t => .ok (t.scanSector q)
  | .flux _ (some t) => t.scanSector q offset
  | .flux _ none => .error .schema
  | .other _ => .error .unsupported

/-- `has_sector_id` of a bitstream track (src/track/bitstream.rs:152-163): the second argument is ignored. -/
def bitHas (t : Track) (sid : Nat) : Bool :=
  t.items.any fun x => match x.elem, x.chsn with
    | .marker .idam, some c => c.s == sid
    | _, _ => false

/-- `Track::has_sector_id` (src/track/bitstream.rs:152-163, metasector.rs:254-267, fluxstream.rs:239-244). -/
def hasSectorId (x : DiskTrack) (sid : Nat) (full : Option Chsn) : Bool :=
  match x with
  | .bit _ t => bitHas t sid
  | .sect t => t.sectors.any fun s => match full with
    | none => s.id.s == sid
    | some c => s.id == c
  | .flux _ (some t) => bitHas t sid
  | .flux _ none => false
  | .other _ => false

/-- `SectorMapEntry` (src/types/structs.rs): an id and its attributes. -/
structure Entry where
  id : Chsn
  addressError : Bool
  dataError : Bool
  deletedMark : Bool
  noDam : Bool := false
  deriving DecidableEq, Repr

/-- `Track::sector_list` (src/track_schema/mod.rs:289-333, metasector.rs:269-282, fluxstream.rs:246-251). -/
def sectorList : DiskTrack → List Entry
  | .bit _ t => t.sectorList.map fun x => ⟨x.1, x.2.1, x.2.2.1, x.2.2.2, false⟩
  | .sect t => t.sectors.map fun s => ⟨s.id, s.addressError, s.dataError, s.deletedMark, false⟩
  | .flux _ (some t) => t.sectorList.map fun x => ⟨x.1, x.2.1, x.2.2.1, x.2.2.2, false⟩
  | _ => []

/-- `Track::read_raw` (src/track/bitstream.rs:799-817, metasector.rs:606-608, fluxstream.rs:345-350): the bytes and the length in bits;
how many bytes to read beyond the end is ignored. -/
def readRaw (x : DiskTrack) (_overdump : Option Nat) : Except Err (List Byte × Nat) :=
  match x with
  | .bit _ t => .ok (packed t.data.bits.bits, t.data.bits.bits.length)
  | .sect _ => .error .unsupported
  | .flux _ (some t) => .ok (packed t.data.bits.bits, t.data.bits.bits.length)
  | .flux _ none => .error .schema
  | .other _ => .error .unsupported

/-- `Track::has_weak_bits` (src/track/bitstream.rs:819-821, metasector.rs:610-612, fluxstream.rs:352-357). -/
def hasWeakBits : DiskTrack → Bool
  | .bit _ t => t.data.hasWeakBits
  | .sect t => t.sectors.any (·.weak.hasBits)
  | .flux _ (some t) => t.data.hasWeakBits
  | .flux _ none => false
  | .other _ => false

end DiskTrack

namespace Disk

/-- `has_weak_bits` (src/diskimage.rs:1977-1984). -/
def anyWeak (d : Disk) : Bool := d.trackList.any (·.hasWeakBits)

/-- `sector_map` (src/diskimage.rs:1884-1902): `track_map[head]` panics if the geometry tells of more than two heads. -/
def sectorMap (d : Disk) : Except Err (List (List (List DiskTrack.Entry))) :=
  (List.range d.geometry.h).mapM fun h =>
    if h ≥ 2 then .error .panic
    else (d.headMap h).mapM fun i => match d.pool[i]? with
      | none => .error .panic
      | some t => .ok t.sectorList

/-- `read_track_raw` (src/diskimage.rs:1103-1113). -/
def readTrackRaw (d : Disk) (ch : Ch) (overdump : Option Nat) : Except Err (List Byte × Nat) :=
  if ch.h > 1 ∨ ch.c ≥ (d.headMap ch.h).length then .error .seek
  else match (d.headMap ch.h)[ch.c]? with
    | none => .error .panic
    | some i => match d.pool[i]? with
      | none => .error .panic
      | some t => t.readRaw overdump

end Disk

/-! ## Copy protection -/

/-- `CopyProtectionScheme` (src/copy_protection.rs:36-44), those that are looked for. -/
inductive Protection where
  | copyLock (version : Nat) | superlok (version : Nat) | interlock (version : Nat)
  deriving DecidableEq, Repr

/-- What `detect_copy_protection` does with one track (src/copy_protection.rs:66-95). -/
def DiskTrack.protection (t : DiskTrack) : Option Protection :=
  let q (n : Nat) : Query := ⟨some t.ch.c, some t.ch.h, 1, some n⟩
  let lock := match t.scanSector (q 1) none with
    | .ok f => if f.dataError then some (Protection.copyLock (if f.addressError then 2 else 1)) else none
    | .error _ => none
  let soft := if t.ch.c > 1 then match t.scanSector (q 6) none with
      | .ok f => if f.dataError then some (Protection.superlok 1) else none
      | .error _ => none
    else none
  let ea := if t.sectorCt = 96 then some (Protection.interlock 1) else none
  (lock.or soft).or ea

/-- `detect_copy_protection` (src/copy_protection.rs:62-99). -/
def Disk.protection (d : Disk) : Option Protection := d.trackList.findSome? (·.protection)

end Fox
