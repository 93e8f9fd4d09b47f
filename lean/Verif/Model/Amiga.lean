import Verif.Model.BitTrack
import Verif.Model.OddEven
/-
Model of src/track_schema/amiga.rs (the trackdisk schema) and of the paths of src/track/bitstream.rs that use
it.  Element starts are cell positions.  `build_element_map` and `analyze_elements` are not modelled.
-/
namespace Fox
namespace Amiga

/-- The sector marker with its mask (src/track_schema/amiga.rs:91-92, 433-437). -/
def marker : MarkerEnc := { bits := 0x2AAAAAAA44894489#64, mask := 0x7FFFFFFFFFFFFFFF#64, len := 32 }

/-- `find_next_marker` (src/track_schema/amiga.rs:431-449). -/
def findNextMarker (s : Mfm) (offset : Nat) : Option Nat := (s.findMarker marker offset none).map (·.1)

/-- The loop of `scan_markers` (src/track_schema/amiga.rs:728-740).  The cursor grows by at least 64 in every
iteration when the position found is at or beyond it, so `fuel = len + 1` suffices then. -/
def scanLoop (s : Mfm) : Nat → Nat → List Nat
  | 0, _ => []
  | fuel + 1, cur =>
    match findNextMarker s cur with
    | none => []
    | some i => i :: scanLoop s fuel (i + 64)

/-- `scan_markers` (src/track_schema/amiga.rs:722-742). -/
def scanMarkers (s : Mfm) : List Nat := scanLoop s (s.len + 1) 0

/-- `data.chunks_exact(2)` folded with exclusive or (src/track_schema/amiga.rs:994-996). -/
def xorWords : List Byte → BitVec 16
  | a :: b :: rest => ofBe16 a b ^^^ xorWords rest
  | _ => 0

/-- `checksum_u32` of `n` bytes (src/track_schema/amiga.rs:966-999); `as u32` zero-extends. -/
def checksum (s : Mfm) (rnd : Nat → Bool) (index n : Nat) : BitVec 32 :=
  (xorWords (s.readDecodedBuf rnd n index)).setWidth 32

/-- `decode_checksum` (src/track_schema/amiga.rs:796-800). -/
def decodeChecksum (s : Mfm) (rnd : Nat → Bool) (index : Nat) : BitVec 32 :=
  let b := s.readDecodedBuf rnd 4 index
  OddEven.ofBe32 (b.getD 0 0) (b.getD 1 0) (b.getD 2 0) (b.getD 3 0)

/-- `decode_interleaved_u32` (src/track_schema/amiga.rs:747-779). -/
def decodeInterleaved (s : Mfm) (index : Nat) : BitVec 32 :=
  let b := s.readRawBuf 8 index
  ((OddEven.ofBe32 (b.getD 0 0) (b.getD 1 0) (b.getD 2 0) (b.getD 3 0) &&& 0x55555555#32) <<< 1) |||
    (OddEven.ofBe32 (b.getD 4 0) (b.getD 5 0) (b.getD 6 0) (b.getD 7 0) &&& 0x55555555#32)

/-- `AmigaElement` (src/track_schema/amiga.rs:183-187), without the marker variant, which is never
constructed. -/
inductive Elem where
  | header (chsn : Chsn) (addressError dataMissing : Bool)
  | data (chsn : Chsn) (addressError dataError : Bool)
  deriving DecidableEq, Repr

/-- `TrackElementInstance` (src/track_schema/mod.rs:455-466). -/
structure Inst where
  elem : Elem
  start : Nat
  stop : Nat
  deriving DecidableEq, Repr

/-- The sector id in an info long `FF tt ss sg` (src/track_schema/amiga.rs:784-790, 822-824). -/
def idOf (info : BitVec 32) : Chsn :=
  let tt := (info.extractLsb' 16 8).toNat
  ⟨tt / 2, tt % 2, (info.extractLsb' 8 8).toNat, 2⟩

/-- The two elements of a marker (src/track_schema/amiga.rs:817-892).  Byte offsets from the marker: info 2,
label 6, header checksum 22, data checksum 26, data 30; the header checksum is taken over ten bytes. -/
def elements (s : Mfm) (rnd : Nat → Bool) (i : Nat) : List Inst :=
  let chsn := idOf (decodeInterleaved s (i + 2 * 16))
  let headerBad := decodeChecksum s rnd (i + 22 * 16) != checksum s rnd (i + 2 * 16) 10
  let dataBad := decodeChecksum s rnd (i + 26 * 16) != checksum s rnd (i + 30 * 16) 512
  [⟨.header chsn headerBad false, i, i + 10 * 16⟩,
   ⟨.data chsn headerBad dataBad, i + 26 * 16, i + (26 + 4 + 512) * 16⟩]

/-- `scan_for_elements` (src/track_schema/amiga.rs:802-897). -/
def scanElements (s : Mfm) (rnd : Nat → Bool) (ms : List Nat) : List Inst := ms.flatMap (elements s rnd)

/-- The flags of `find_sector_element` (src/track_schema/amiga.rs:534-538). -/
structure Flags where
  wc : Bool := false
  bc : Bool := false
  wh : Bool := false
  hit : Bool := false

/-- The loop of `find_sector_element` (src/track_schema/amiga.rs:540-634).  `hit` is never taken back. -/
def findLoop (q : Query) (index : Nat) : Nat → Flags → List Inst → S34.ScanResult
  | _, f, [] => .notFound f.wc f.bc f.wh
  | ei, f, x :: rest =>
    if x.start < index then findLoop q index (ei + 1) f rest
    else match x.elem with
      | .header chsn ae missing =>
        if missing then .found ei chsn ae false false true false
        else if chsn.s = q.s then
          findLoop q index (ei + 1)
            { bc := f.bc || chsn.c == 0xFF
              wc := f.wc || (match q.c with | some c => chsn.c != c | none => false)
              wh := f.wh || (match q.h with | some h => chsn.h != h | none => false)
              hit := f.hit || q.matchesB chsn } rest
        else findLoop q index (ei + 1) f rest
      | .data chsn ae de =>
        if f.hit then .found ei chsn ae de false false false else findLoop q index (ei + 1) f rest

/-- `find_sector_element` (src/track_schema/amiga.rs:527-635). -/
def findSectorElement (q : Query) (items : List Inst) (index : Nat) : S34.ScanResult :=
  findLoop q index 0 {} items

/-- `AmigaElement::size` (src/track_schema/amiga.rs:211-233). -/
def Elem.size : Elem → Nat
  | .header .. => 26
  | .data .. => 516

/-- `AmigaElement::range` (src/track_schema/amiga.rs:236-255). -/
def Elem.range : Elem → S34.Scope → Nat × Nat
  | .data .., .dataOnly => (4, 516)
  | .data .., .crcOnly => (0, 4)
  | .header .., .crcOnly => (22, 26)
  | e, _ => (0, e.size)

/-- `decode_element` (src/track_schema/amiga.rs:639-711) of a data element into a buffer of `n` bytes:
(recorded, calculated) checksums and the buffer.  Indexing the raw buffer at `i + 512` panics for buffers
below 516 bytes (but four or fewer bytes are left alone). -/
def decodeData (s : Mfm) (rnd : Nat → Bool) (start n : Nat) :
    Except Err (List Byte × (BitVec 16 × BitVec 16)) :=
  let recorded := decodeChecksum s rnd start
  let raw := s.readRawBuf (n * 2) (start + 4 * 16)
  let calculated := checksum s rnd (start + 4 * 16) 512
  if n < 4 then .error .panic
  else if n - 4 > 0 ∧ n * 2 < (n - 4) + 512 then .error .panic
  else
    let out := (List.range (n - 4)).map fun i =>
      ((raw.getD i 0 &&& 0x55#8) <<< 1) ||| (raw.getD (i + 512) 0 &&& 0x55#8)
    .ok (OddEven.be32 recorded ++ out, (recorded.setWidth 16, calculated.setWidth 16))

/-- A bitstream track with the Amiga schema (src/track/bitstream.rs:60-75). -/
structure Track where
  data : Mfm
  items : List Inst

/-- `rescan` with the Amiga schema (src/track/bitstream.rs:1124-1167), or the end of `new_optional_ctx`
(1029-1068): markers, clock map (src/track_schema/amiga.rs:903-936, the same code as
src/track_schema/system34.rs:1116-1151), elements. -/
def scan (s : Mfm) (rnd : Nat → Bool) : Except Err Track :=
  let ms := scanMarkers s
  let s? := if ms = [] then .ok s
    else (S34.createClockMap ms s.clockMap.bits).map fun cm =>
      { s with clockMap := { s.clockMap with bits := cm } }
  match s? with
  | .error e => .error e
  | .ok s => .ok ⟨s, scanElements s rnd ms⟩

/-- `read_sector` (src/track/bitstream.rs:212-384) with the Amiga schema. -/
def Track.readSector (t : Track) (rnd : Nat → Bool) (q : Query) (n : Option Nat) (offset : Option Nat)
    (scope : S34.Scope) (debug : Bool) : Except Err ReadResult :=
  match findSectorElement q t.items (offset.getD 0) with
  | .notFound wc bc wh =>
    .ok { notFound := true, wrongCylinder := wc, badCylinder := bc, wrongHead := wh }
  | .found ei chsn ae de del noDam last =>
    if noDam then
      .ok { idChsn := some chsn, noDam := true, addressCrcError := ae, lastSector := last }
    else if ae && !debug then
      .ok { idChsn := some chsn, addressCrcError := true }
    else match t.items[ei]? with
      | none => .error .panic
      | some x =>
        let size := x.elem.size
        let range := x.elem.range scope
        let overhead := size - (range.2 - range.1)
        let len := (match n with | some n => nSize n | none => chsn.size) + overhead
        match x.elem with
        | .header .. => .error .panic
        | .data .. =>
          match decodeData t.data rnd x.start len with
          | .error e => .error e
          | .ok (buf, crc) =>
            .ok { idChsn := some chsn, deletedMark := del, addressCrcError := ae,
                  dataCrcError := de, dataCrc := some crc, lastSector := last,
                  dataRange := range, readBuf := buf }

/-- `write_sector` (src/track/bitstream.rs:474-620) with the Amiga schema, whose `encode_element` writes
nothing (src/track_schema/amiga.rs:713-720). -/
def Track.writeSector (t : Track) (q : Query) (offset : Option Nat) (buf : List Byte)
    (writeDeleted debug : Bool) : Except Err (WriteResult × Track) :=
  match findSectorElement q t.items (offset.getD 0) with
  | .notFound wc bc wh =>
    .ok ({ notFound := true, wrongCylinder := wc, badCylinder := bc, wrongHead := wh }, t)
  | .found ei chsn ae _ del noDam _ =>
    if noDam then .ok ({ noDam := true, addressCrcError := ae }, t)
    else
      let wc := match q.c with | some c => chsn.c != c | none => false
      let wh := match q.h with | some h => chsn.h != h | none => false
      if ae && !debug then
        .ok ({ addressCrcError := ae, wrongCylinder := wc, wrongHead := wh }, t)
      else if writeDeleted != del then .error .parameter
      else if chsn.size ≠ buf.length then .error .parameter
      else match t.items[ei]? with
        | none => .error .panic
        | some _ => .ok ({ wrongCylinder := wc, wrongHead := wh }, t)

end Amiga
end Fox
