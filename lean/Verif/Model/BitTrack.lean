import Verif.Model.System34
/-
Model of src/track/bitstream.rs (`BitStreamTrack`) for MFM streams and the System34 schema, with the
metadata collection of src/track_schema/mod.rs.
-/
namespace Fox
open S34

/-- The track schema recorded for a track (src/track_schema/mod.rs:79-88); `none` = unformatted. -/
inductive Schema where
  | system34 | amiga
  deriving DecidableEq, Repr

/-- `BitStreamTrack` (src/track/bitstream.rs:60-75).  Of `TrackMetadata` only `items` is stored; the
id lists are functions of it (src/track_schema/mod.rs:139-146). -/
structure Track where
  data : Mfm
  items : List Inst := []
  schema : Option Schema := none

/-- `ReadSectorResult` (src/track/mod.rs / src/types/structs.rs); `dataRange` is (start, end). -/
structure ReadResult where
  idChsn : Option Chsn := none
  notFound : Bool := false
  noDam : Bool := false
  deletedMark : Bool := false
  addressCrcError : Bool := false
  dataCrcError : Bool := false
  dataCrc : Option (BitVec 16 × BitVec 16) := none
  wrongCylinder : Bool := false
  badCylinder : Bool := false
  wrongHead : Bool := false
  lastSector : Bool := false
  dataRange : Nat × Nat := (0, 0)
  readBuf : List Byte := []
  deriving DecidableEq, Repr

/-- The bytes a caller of `read_sector` uses: `&read_buf[data_range]`. -/
def ReadResult.bytes (r : ReadResult) : List Byte :=
  (r.readBuf.take r.dataRange.2).drop r.dataRange.1

/-- `WriteSectorResult`. -/
structure WriteResult where
  notFound : Bool := false
  noDam : Bool := false
  addressCrcError : Bool := false
  wrongCylinder : Bool := false
  badCylinder : Bool := false
  wrongHead : Bool := false
  deriving DecidableEq, Repr

namespace Track

/-- `find_sector_ids` (src/track_schema/mod.rs:387-406). -/
def sectorIds (t : Track) : List Chsn :=
  t.items.filterMap fun x => match x.elem with
    | .header c _ _ => some c
    | _ => none

/-- `find_valid_sector_ids` (src/track_schema/mod.rs:355-378). -/
def validSectorIds (t : Track) : List Chsn :=
  t.items.filterMap fun x => match x.elem with
    | .header c false _ => some c
    | _ => none

/-- `sector_list` (src/track_schema/mod.rs:289-333): (id, address error, data error, deleted). -/
def sectorList (t : Track) : List (Chsn × Bool × Bool × Bool) :=
  t.items.filterMap fun x => match x.elem with
    | .data c ae de del => some (c, ae, de, del)
    | _ => none

/-- `scan_sector_element` (src/track/bitstream.rs:1289-1301) for the System34 schema. -/
def scanSectorElement (t : Track) (q : Query) (index : Nat) : Except Err ScanResult :=
  match t.schema with
  | none => .error .unsupported
  | some _ => .ok (findSectorElement q t.items index)

/-- `read_sector` (src/track/bitstream.rs:212-384), System34 schema.  The read always fills
`n_size + overhead` bytes from the start of the element, whatever the scope. -/
def readSector (t : Track) (rnd : Nat → Bool) (q : Query) (n : Option Nat) (offset : Option Nat)
    (scope : Scope) (debug : Bool) : Except Err ReadResult :=
  match t.schema with
  | none => .error .schema
  | some _ =>
    match findSectorElement q t.items (offset.getD 0) with
    | .notFound wc bc wh =>
      .ok { notFound := true, wrongCylinder := wc, badCylinder := bc, wrongHead := wh }
    | .found ei chsn ae de del noDam last =>
      if noDam then
        .ok { idChsn := some chsn, noDam := true, addressCrcError := ae, lastSector := last }
      else if ae && !debug then
        .ok { idChsn := some chsn, addressCrcError := true }
      else match t.items[ei]? with
        | none => .error .panic
        | some x =>
          let size := x.elem.size
          let range := x.elem.range scope
          let overhead := size - (range.2 - range.1)
          let len := (match n with | some n => nSize n | none => chsn.size) + overhead
          match decodeElement t.data rnd x len with
          | .error e => .error e
          | .ok (_, none) => .error .panic
          | .ok (buf, some crc) =>
            .ok { idChsn := some chsn, deletedMark := del, addressCrcError := ae,
                  dataCrcError := de, dataCrc := some crc, lastSector := last,
                  dataRange := range, readBuf := buf }

/-- `write_sector` (src/track/bitstream.rs:474-620), System34 schema (the scope is ignored). -/
def writeSector (t : Track) (q : Query) (offset : Option Nat) (buf : List Byte)
    (writeDeleted debug : Bool) : Except Err (WriteResult × Track) :=
  match t.schema with
  | none => .error .schema
  | some _ =>
    match findSectorElement q t.items (offset.getD 0) with
    | .notFound wc bc wh =>
      .ok ({ notFound := true, wrongCylinder := wc, badCylinder := bc, wrongHead := wh }, t)
    | .found ei chsn ae _ del noDam _ =>
      if noDam then .ok ({ noDam := true, addressCrcError := ae }, t)
      else
        let wc := match q.c with | some c => chsn.c != c | none => false
        let wh := match q.h with | some h => chsn.h != h | none => false
        if ae && !debug then
          .ok ({ addressCrcError := ae, wrongCylinder := wc, wrongHead := wh }, t)
        else if writeDeleted != del then .error .parameter
        else if chsn.size ≠ buf.length then .error .parameter
        else match t.items[ei]? with
          | none => .error .panic
          | some x =>
            let (data, x') := encodeElement t.data x buf
            .ok ({ wrongCylinder := wc, wrongHead := wh },
                 { t with data := data, items := t.items.set ei x' })

/-- `recalculate_sector_crc` (src/track/bitstream.rs:622-639).  Slicing `read_buf[data_range]`
panics if the range exceeds the buffer. -/
def recalculateSectorCrc (t : Track) (rnd : Nat → Bool) (q : Query) (offset : Option Nat) :
    Except Err Track :=
  match t.readSector rnd q none offset .dataOnly false with
  | .error e => .error e
  | .ok r =>
    if r.readBuf.length < r.dataRange.2 then .error .panic
    else match t.writeSector q offset r.bytes r.deletedMark false with
      | .error e => .error e
      | .ok (_, t) => .ok t

/-- `format` (src/track/bitstream.rs:823-868).  `set_data_ranges` (visualisation) is not modelled. -/
def format (t : Track) (rnd : Nat → Bool) (std : Standard) (ids : List Chsn) (pat : List Byte)
    (gap3 : Nat) : Except Err Track :=
  match formatTrackAsBytes std t.data.len ids pat gap3 with
  | .error e => .error e
  | .ok (bytes, ms) =>
    let s := setTrackMarkers (t.data.replace (encode bytes false)) ms
    let markers := scanMarkers s
    match createClockMap (markers.map (·.start)) s.clockMap.bits with
    | .error e => .error e
    | .ok cm =>
      let s := { s with clockMap := { s.clockMap with bits := cm } }
      let r := scanMetadata s rnd markers
      .ok { t with data := r.2, items := r.1 }

/-- `next_id` (src/track/bitstream.rs:731-755), on the list of sector ids. -/
def nextIdLoop (s : Nat) (first : Chsn) : Bool → List Chsn → Option Chsn
  | m, [] => if m then some first else none
  | m, x :: rest => if m then some x else nextIdLoop s first (x.s == s) rest

/-- `next_id` (src/track/bitstream.rs:731-755). -/
def nextId (t : Track) (x : Chs) : Option Chsn :=
  match t.sectorIds with
  | [] => none
  | first :: rest => nextIdLoop x.s first false (first :: rest)

/-- The loop of `next_sector` (src/track/bitstream.rs:1224-1273). -/
def nextSectorLoop (index : Nat) : Nat → Option Chsn → List Inst → ScanResult
  | _, _, [] => .notFound false false false
  | ei, idam, x :: rest =>
    if x.start < index then nextSectorLoop index (ei + 1) idam rest
    else match x.elem with
      | .marker .idam => nextSectorLoop index (ei + 1) x.chsn rest
      | .data _ ae de del =>
        match idam with
        | some c => .found ei c ae de del false x.lastSector
        | none => nextSectorLoop index (ei + 1) idam rest
      | _ => nextSectorLoop index (ei + 1) idam rest

/-- `next_sector` (src/track/bitstream.rs:1224-1273). -/
def nextSector (t : Track) (index : Nat) : ScanResult := nextSectorLoop index 0 none t.items

/-- `ReadTrackResult` of `read_all_sectors`. -/
structure ReadTrack where
  notFound : Bool := true
  sectorsRead : Nat := 0
  readBuf : List Byte := []
  deletedMark : Bool := false
  addressCrcError : Bool := false
  dataCrcError : Bool := false

/-- The loop of `read_all_sectors` (src/track/bitstream.rs:653-729).  The search resumes at the end of
the sector just read, which is beyond its start, so `fuel = number of elements + 1` suffices.
`sectors_read` saturates at 65535. -/
def readAllLoop (t : Track) (rnd : Nat → Bool) (size eot : Nat) :
    Nat → Nat → ReadTrack → ReadTrack
  | 0, _, acc => acc
  | fuel + 1, index, acc =>
    match t.nextSector index with
    | .notFound .. => acc
    | .found ei chsn ae de del _ _ =>
      match t.items[ei]? with
      | none => acc
      | some x =>
        let buf := ((t.data.seekStart (x.start + 64)).readBytes rnd size).1
        let acc : ReadTrack := {
          notFound := false
          sectorsRead := min 65535 (acc.sectorsRead + 1)
          readBuf := acc.readBuf ++ buf
          deletedMark := acc.deletedMark || del
          addressCrcError := acc.addressCrcError || ae
          dataCrcError := acc.dataCrcError || de }
        if chsn.s = eot then acc else readAllLoop t rnd size eot fuel x.stop acc

/-- `read_all_sectors` (src/track/bitstream.rs:653-729). -/
def readAllSectors (t : Track) (rnd : Nat → Bool) (n eot : Nat) : ReadTrack :=
  readAllLoop t rnd (nSize n) eot (t.items.length + 1) 0 {}

/-- `read` (src/track/bitstream.rs:757-797) with no overdump: the whole track decoded from
`index`. -/
def readTrack (t : Track) (rnd : Nat → Bool) (index : Nat) : List Byte :=
  t.data.readDecodedBuf rnd ((t.data.len + 15) / 16) index

/-- `rescan` (src/track/bitstream.rs:1124-1167) with the System34 schema. -/
def rescan34 (t : Track) (rnd : Nat → Bool) : Except Err Track :=
  let markers := scanMarkers t.data
  let s? := if markers = [] then .ok t.data
    else (createClockMap (markers.map (·.start)) t.data.clockMap.bits).map fun cm =>
      { t.data with clockMap := { t.data.clockMap with bits := cm } }
  match s? with
  | .error e => .error e
  | .ok s =>
    let r := scanMetadata s rnd markers
    .ok { t with data := r.2, items := r.1 }

/-- A new empty MFM track (`add_empty_track` / `new_optional_ctx` with no data,
src/track/bitstream.rs:918-924, 957-976): cells `i % 2 == 0`, no markers found. -/
def emptyTrack (bitcells : Nat) : Except Err Track := do
  let data ← Mfm.new ((List.range bitcells).map fun i => i % 2 == 0) (some bitcells) none
  return { data, schema := none }

end Track
end Fox
