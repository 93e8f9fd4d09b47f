import Verif.Model.Mfm
import Verif.Model.Crc
import Verif.Model.Chs
/-
Model of src/track_schema/system34.rs for MFM streams.
-/
namespace Fox
namespace S34

/-- `GAP_BYTE`, `SYNC_BYTE` (src/track_schema/system34.rs:65-66). -/
def gapByte : Byte := 0x4E#8
def syncByte : Byte := 0x00#8
/-- `SYNC_LEN` (src/track_schema/system34.rs:74). -/
def syncLen : Nat := 12
/-- `IBM_GAP4A`, `ISO_GAP1` (src/track_schema/system34.rs:69, 72). -/
def ibmGap4a : Nat := 80
def isoGap1 : Nat := 32

/-- `System34Standard` (src/track_schema/system34.rs:122-127). -/
inductive Standard where
  | ibm | perpendicular | iso
  deriving DecidableEq, Repr

/-- `System34Standard::gap2` (src/track_schema/system34.rs:129-137; constants 71, 73, 76). -/
def Standard.gap2 : Standard → Nat
  | .ibm => 22
  | .perpendicular => 41
  | .iso => 22

/-- `System34Marker` (src/track_schema/system34.rs:139-146). -/
inductive Marker where
  | iam | idam | dam | ddam
  deriving DecidableEq, Repr

/-- `From<System34Marker> for u64` (src/track_schema/system34.rs:148-157; constants 79-82). -/
def Marker.code : Marker → BitVec 64
  | .iam => 0x5224522452245552#64
  | .idam => 0x4489448944895554#64
  | .dam => 0x4489448944895545#64
  | .ddam => 0x4489448944895548#64

/-- `TryInto<System34Marker> for u16` (src/track_schema/system34.rs:159-173). -/
def Marker.ofU16 (x : BitVec 16) : Option Marker :=
  if x = 0x5554#16 ∨ x = 0xF57E#16 then some .idam
  else if x = 0x5545#16 ∨ x = 0xF56F#16 then some .dam
  else if x = 0x554A#16 then some .ddam
  else none

/-- `ANY_MARKER` / `MARKER_MASK` search pattern (src/track_schema/system34.rs:83, 86, 568-572). -/
def anyMarkerEnc : MarkerEnc := { bits := 0x4489448944890000#64, mask := 0xFFFFFFFFFFFF0000#64 }

/-- `IDAM_MARKER_BYTES`, `DAM_MARKER_BYTES`, `DDAM_MARKER_BYTES`
(src/track_schema/system34.rs:94-96). -/
def idamBytes : List Byte := [0xA1#8, 0xA1#8, 0xA1#8, 0xFE#8]
def damBytes : List Byte := [0xA1#8, 0xA1#8, 0xA1#8, 0xFB#8]
def ddamBytes : List Byte := [0xA1#8, 0xA1#8, 0xA1#8, 0xF8#8]

/-! ### Formatting -/

/-- The `while sector_buffer.len() < n_size` loop (src/track_schema/system34.rs:402-415): `remain`
bytes still to copy, starting at `cursor` in the pattern.  `fuel` bounds the iterations; every
iteration copies at least one byte when `cursor < pat.length`, so `fuel = remain` suffices. -/
def fillLoop (pat : List Byte) : Nat → Nat → Nat → List Byte × Nat
  | 0, cursor, _ => ([], cursor)
  | fuel + 1, cursor, remain =>
    if remain = 0 then ([], cursor)
    else
      let copy := if cursor + remain ≤ pat.length then (pat.drop cursor).take remain
                  else pat.drop cursor
      let r := fillLoop pat fuel ((cursor + copy.length) % pat.length) (remain - copy.length)
      (copy ++ r.1, r.2)

/-- The sector contents written by `format_track_as_bytes` (src/track_schema/system34.rs:397-420):
a one-byte pattern is repeated and the cursor is left alone. -/
def fillSector (pat : List Byte) (cursor size : Nat) : List Byte × Nat :=
  if pat.length = 1 then (List.replicate size (pat.getD 0 0), cursor)
  else fillLoop pat size cursor size

/-- The id field as written: `c` is cast to `u8` (src/track_schema/system34.rs:373-377). -/
def idBytes (x : Chsn) : List Byte :=
  [BitVec.ofNat 8 x.c, BitVec.ofNat 8 x.h, BitVec.ofNat 8 x.s, BitVec.ofNat 8 x.n]

/-- Bytes followed by their CRC: `extend(bytes); crc = crc_ibm_3740(bytes); extend(crc.to_be_bytes())`
(src/track_schema/system34.rs:379-382, 425-427). -/
def withCrc (bytes : List Byte) : List Byte := bytes ++ be16 (crc3740 bytes)

/-- The accumulators of `format_track_as_bytes`. -/
structure FmtState where
  bytes : List Byte
  markers : List (Marker × Nat)
  cursor : Nat

/-- One iteration of the sector loop of `format_track_as_bytes`
(src/track_schema/system34.rs:366-431). -/
def formatSector (std : Standard) (pat : List Byte) (gap3 : Nat) (st : FmtState) (x : Chsn) :
    FmtState :=
  let b0 := st.bytes ++ List.replicate syncLen syncByte
  let m0 := st.markers ++ [(Marker.idam, b0.length)]
  let b1 := b0 ++ withCrc (idamBytes ++ idBytes x)
  let b2 := b1 ++ List.replicate std.gap2 gapByte ++ List.replicate syncLen syncByte
  let m1 := m0 ++ [(Marker.dam, b2.length)]
  let fill := fillSector pat st.cursor x.size
  let b3 := b2 ++ withCrc (damBytes ++ fill.1)
  { bytes := b3 ++ List.replicate gap3 gapByte, markers := m1, cursor := fill.2 }

/-- The start of the track (src/track_schema/system34.rs:353-362).  Note that the IAM is recorded
as a marker but no bytes are reserved for it. -/
def formatPreamble : Standard → FmtState
  | .iso => ⟨List.replicate isoGap1 gapByte, [], 0⟩
  | _ => ⟨List.replicate ibmGap4a gapByte ++ List.replicate syncLen syncByte,
      [(.iam, ibmGap4a + syncLen)], 0⟩

/-- `format_track_as_bytes` (src/track_schema/system34.rs:333-451). -/
def formatTrackAsBytes (std : Standard) (bitcells : Nat) (ids : List Chsn) (pat : List Byte)
    (gap3 : Nat) : Except Err (List Byte × List (Marker × Nat)) :=
  if pat = [] then .error .parameter
  else
    let byteCt := (bitcells + 16 - 1) / 16
    let st := ids.foldl (formatSector std pat gap3) (formatPreamble std)
    let padded := if st.bytes.length < byteCt
      then st.bytes ++ List.replicate (byteCt - st.bytes.length) gapByte else st.bytes
    .ok (padded.take byteCt, st.markers)

/-- `set_track_markers` (src/track_schema/system34.rs:453-469). -/
def setTrackMarkers (s : Mfm) (ms : List (Marker × Nat)) : Mfm :=
  ms.foldl (fun s m => s.writeRawBuf (be64 m.1.code) (m.2 * 16)) s

/-! ### Scanning -/

/-- `TrackMarkerItem` (src/track_schema/mod.rs). -/
structure MarkerItem where
  kind : Marker
  start : Nat
  deriving DecidableEq, Repr

/-- `find_next_marker` for MFM (src/track_schema/system34.rs:565-603): an unrecognised mark byte
ends the search. -/
def findNextMarker (s : Mfm) (off : Nat) : Option MarkerItem :=
  match s.findMarker anyMarkerEnc off none with
  | none => none
  | some (i, w) => (Marker.ofU16 w).map fun m => ⟨m, i⟩

/-- The `while let` loop of `scan_markers` (src/track_schema/system34.rs:862-875).  The cursor grows
by at least 64 in every iteration, so `fuel = len + 1` suffices. -/
def scanMarkersLoop (s : Mfm) : Nat → Nat → List MarkerItem
  | 0, _ => []
  | fuel + 1, cur =>
    match findNextMarker s cur with
    | none => []
    | some m => m :: scanMarkersLoop s fuel (m.start + 64)

/-- `scan_markers` (src/track_schema/system34.rs:841-877). -/
def scanMarkers (s : Mfm) : List MarkerItem :=
  match s.findMarker { bits := Marker.iam.code } 0 (some 5000) with
  | some (i, _) => ⟨.iam, i⟩ :: scanMarkersLoop s (s.len + 1) (i + 64)
  | none => scanMarkersLoop s (s.len + 1) 0

/-- `BitVec::set`: panics out of bounds. -/
def checkedSet (m : List Bool) (i : Nat) (b : Bool) : Except Err (List Bool) :=
  if i < m.length then .ok (m.set i b) else .error .panic

/-- `for bi in (from..to).step_by(2) { map.set(bi, true); map.set(bi + 1, false) }`
(src/track_schema/system34.rs:1131-1135, 1146-1150); `fuel ≥ to - from` suffices. -/
def clockFill : Nat → List Bool → Nat → Nat → Except Err (List Bool)
  | 0, m, _, _ => .ok m
  | fuel + 1, m, i, hi =>
    if i < hi then do
      let m ← checkedSet m i true
      let m ← checkedSet m (i + 1) false
      clockFill fuel m (i + 2) hi
    else .ok m

/-- The marker loop of `create_clock_map` (src/track_schema/system34.rs:1122-1139). -/
def clockMarkers : List Bool → Nat → List Nat → Except Err (List Bool × Nat)
  | m, last, [] => .ok (m, last)
  | m, last, s :: rest => do
    let m ← (if last > 0 then do
        let m ← checkedSet m (last - 1) false
        clockFill (s - last) m last s
      else .ok m)
    clockMarkers m s rest

/-- `create_clock_map` (src/track_schema/system34.rs:1116-1151), given the marker positions.
`clock_map.len() - 1` underflows (a panic) for an empty map. -/
def createClockMap (starts : List Nat) (m : List Bool) : Except Err (List Bool) := do
  let (m, last) ← clockMarkers m 0 starts
  let m ← (if last > 0 then checkedSet m (last - 1) false else .ok m)
  if m.length = 0 then .error .panic
  else clockFill (m.length - 1 - last) m last (m.length - 1)

/-! ### Elements -/

/-- `System34Element` (src/track_schema/system34.rs:175-196); the gap and sync variants are never
constructed by `scan_metadata` and are left out. -/
inductive Elem where
  | marker (m : Marker)
  | header (chsn : Chsn) (addressError dataMissing : Bool)
  | data (chsn : Chsn) (addressError dataError deleted : Bool)
  deriving DecidableEq, Repr

/-- `TrackElementInstance` (src/track_schema/mod.rs:455-466). -/
structure Inst where
  elem : Elem
  start : Nat
  stop : Nat
  chsn : Option Chsn
  lastSector : Bool := false
  deriving DecidableEq, Repr

/-- `RwScope` (src/types/enums.rs:477-486). -/
inductive Scope where
  | entire | dataOnly | crcOnly
  deriving DecidableEq, Repr

/-- `System34Element::size` (src/track_schema/system34.rs:226-245). -/
def Elem.size : Elem → Nat
  | .marker _ => 4
  | .data x _ _ _ => 4 + 2 + x.size
  | .header _ _ _ => 4 + 4 + 2

/-- `System34Element::range` (src/track_schema/system34.rs:248-262) as (start, end). -/
def Elem.range (e : Elem) : Scope → Nat × Nat
  | .dataOnly => match e with
    | .data .. => (4, e.size - 2)
    | _ => (0, e.size)
  | .crcOnly => match e with
    | .data .. => (e.size - 2, e.size)
    | .header .. => (e.size - 2, e.size)
    | _ => (0, e.size)
  | .entire => (0, e.size)

/-- The id fields read from a header, and whether its CRC matched
(src/track_schema/system34.rs:288-298). -/
structure SectorId where
  c : Byte := 0
  h : Byte := 0
  s : Byte := 0
  b : Byte := 0
  crcValid : Bool := false

/-- `DiskChsn::new(id.c as u16, id.h, id.s, id.b)`. -/
def SectorId.chsn (x : SectorId) : Chsn := ⟨x.c.toNat, x.h.toNat, x.s.toNat, x.b.toNat⟩

/-- The accumulators of `scan_metadata` (src/track_schema/system34.rs:887-890). -/
structure ScanState where
  stream : Mfm
  elems : List Inst := []
  lastMarker : Option Marker := none
  lastId : SectorId := {}
  lastOff : Nat := 0

/-- Reading and checking the id field of a header (src/track_schema/system34.rs:900-932). -/
def readHeader (s : Mfm) (rnd : Nat → Bool) (start : Nat) : SectorId :=
  let hdr := (List.range 8).map fun i => s.readDecodedU8 rnd (start + i * 16)
  let crc := ofBe16 (s.readDecodedU8 rnd (start + 8 * 16)) (s.readDecodedU8 rnd (start + 9 * 16))
  { c := hdr.getD 4 0, h := hdr.getD 5 0, s := hdr.getD 6 0, b := hdr.getD 7 0,
    crcValid := crc == crc3740 hdr }

/-- `crc16` (src/track_schema/system34.rs:1153-1171): (recorded, calculated) and the moved cursor. -/
def crc16 (s : Mfm) (rnd : Nat → Bool) (start stop : Nat) : (BitVec 16 × BitVec 16) × Mfm :=
  let n := (stop - start) / 16
  let (data, s') := (s.seekStart start).readBytes rnd (n + 2)
  ((ofBe16 (data.getD n 0) (data.getD (n + 1) 0), crc3740 (data.take n)), s')

/-- One iteration of the marker loop of `scan_metadata` (src/track_schema/system34.rs:892-1073). -/
def scanStep (rnd : Nat → Bool) (st : ScanState) (m : MarkerItem) : ScanState :=
  let st1 : ScanState := match st.lastMarker, m.kind with
    | prev, .idam =>
      let id := readHeader st.stream rnd m.start
      let new := if prev = some .idam then
          [{ elem := .header st.lastId.chsn (!st.lastId.crcValid) true,
             start := st.lastOff, stop := m.start, chsn := none : Inst }]
        else []
      { st with elems := st.elems ++ new, lastId := id }
    | some .idam, .dam | some .idam, .ddam =>
      let dataEnd := m.start + 64 + nSize st.lastId.b.toNat * 16
      let r := crc16 st.stream rnd m.start dataEnd
      let chsn := st.lastId.chsn
      let bad := !st.lastId.crcValid
      { st with
        stream := r.2
        elems := st.elems ++
          [{ elem := .header chsn bad false, start := st.lastOff, stop := m.start, chsn := none },
           { elem := .data chsn bad (r.1.1 != r.1.2) (m.kind == .ddam),
             start := m.start, stop := dataEnd, chsn := some chsn }] }
    | _, _ => st
  { st1 with
    elems := st1.elems ++ [{ elem := .marker m.kind, start := m.start, stop := m.start + 64,
                             chsn := some st1.lastId.chsn }]
    lastOff := m.start
    lastMarker := some m.kind }

/-- The stable `sort_by` on `start` (src/track_schema/system34.rs:1101). -/
def sortInsts (l : List Inst) : List Inst := l.mergeSort (fun a b => decide (a.start ≤ b.start))

/-- `elements.last_mut().last_sector = true` (src/track_schema/system34.rs:1104-1106). -/
def markLast : List Inst → List Inst
  | [] => []
  | [x] => [{ x with lastSector := true }]
  | x :: y :: l => x :: markLast (y :: l)

/-- `scan_metadata` (src/track_schema/system34.rs:883-1110): the elements, and the stream with its
moved cursor.  A trailing header is flagged `address_error: crc_valid` (sic, line 1089). -/
def scanMetadata (s : Mfm) (rnd : Nat → Bool) (markers : List MarkerItem) : List Inst × Mfm :=
  let st := markers.foldl (scanStep rnd) { stream := s }
  let tail := if st.lastMarker = some .idam then
      [{ elem := .header st.lastId.chsn st.lastId.crcValid true,
         start := st.lastOff, stop := st.lastOff + 256, chsn := none : Inst }]
    else []
  (markLast (sortInsts (st.elems ++ tail)), st.stream)

/-! ### Sector search -/

/-- `TrackSectorScanResult` (src/track_schema/mod.rs). -/
inductive ScanResult where
  | found (ei : Nat) (chsn : Chsn) (addressError dataError deleted noDam lastSector : Bool)
  | notFound (wrongCylinder badCylinder wrongHead : Bool)
  deriving DecidableEq, Repr

/-- The flags of `find_sector_element` (src/track_schema/system34.rs:628-632). -/
structure FindState where
  wc : Bool := false
  bc : Bool := false
  wh : Bool := false
  matched : Bool := false

/-- The loop of `find_sector_element` (src/track_schema/system34.rs:634-709). `ei` is the index of
the head of the remaining list. -/
def findLoop (q : Query) (index : Nat) : Nat → FindState → List Inst → ScanResult
  | _, st, [] => .notFound st.wc st.bc st.wh
  | ei, st, x :: rest =>
    if x.start < index then findLoop q index (ei + 1) st rest
    else match x.elem with
      | .header chsn ae dm =>
        if chsn.s = q.s then
          let st : FindState := {
            bc := st.bc || chsn.c == 0xFF
            wc := st.wc || (match q.c with | some c => chsn.c != c | none => false)
            wh := st.wh || (match q.h with | some h => chsn.h != h | none => false)
            matched := q.matchesB chsn }
          if ae || dm then .found ei chsn ae false false dm x.lastSector
          else findLoop q index (ei + 1) st rest
        else findLoop q index (ei + 1) st rest
      | .data chsn ae de del =>
        if st.matched then .found ei chsn ae de del false x.lastSector
        else findLoop q index (ei + 1) st rest
      | .marker _ => findLoop q index (ei + 1) st rest

/-- `find_sector_element` (src/track_schema/system34.rs:621-717). -/
def findSectorElement (q : Query) (items : List Inst) (index : Nat) : ScanResult :=
  findLoop q index 0 {} items

/-! ### Element read and write -/

/-- `crc16_bytes` (src/track_schema/system34.rs:1173-1179): panics on an empty buffer (index 0). -/
def crc16Bytes (data : List Byte) : Except Err (BitVec 16 × BitVec 16) :=
  if data = [] then .error .panic
  else .ok (ofBe16 (data.getD (data.length - 2) 0) (data.getD (data.length - 1) 0),
            crc3740 (data.take (data.length - 2)))

/-- `decode_element` (src/track_schema/system34.rs:719-748): the buffer of `n` bytes and the
(recorded, calculated) check for headers and data. -/
def decodeElement (s : Mfm) (rnd : Nat → Bool) (x : Inst) (n : Nat) :
    Except Err (List Byte × Option (BitVec 16 × BitVec 16)) :=
  let buf := s.readDecodedBuf rnd n x.start
  match x.elem with
  | .header .. | .data .. => (crc16Bytes buf).map fun c => (buf, some c)
  | .marker _ => .ok (buf, none)

/-- `encode_element` (src/track_schema/system34.rs:752-791): writes nothing for a header; for sector
data, writes the data and the CRC seeded with the mark bytes — the *IDAM* bytes when the sector is
deleted (line 769).  Returns the new stream and the new element. -/
def encodeElement (s : Mfm) (x : Inst) (buf : List Byte) : Mfm × Inst :=
  match x.elem with
  | .header .. => (s, x)
  | .data chsn ae _ del =>
    let seed := crc3740 (if del then idamBytes else damBytes)
    let crc := crc3740 buf (some seed)
    let s := s.writeEncodedBuf buf (x.start + 4 * 16)
    let s := s.writeEncodedBuf (be16 crc) (x.start + (4 + buf.length) * 16)
    (s, { x with elem := .data chsn ae false del })
  | .marker _ => (s.writeEncodedBuf buf x.start, x)

end S34
end Fox
