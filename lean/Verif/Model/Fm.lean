import Verif.Model.FluxTrack
/-
The FM codec of src/bitstream_codec/fm.rs, and what `BitStreamTrack::new` makes of an FM track
(src/track/bitstream.rs:896-1116, src/track_schema/system34.rs:565-603, 841-1171).

Left out: `error_map` (always clear), the visualisation ranges (`set_data_ranges`, `is_data`), `track_padding` (only
`set_track_padding` changes it, which is not called when a bit count is given, as the flux loaders do), the debug
strings, and the dead functions `read_bit`, `read_bit_at`, `detect_weak_regions`.
-/
namespace Fox

/-- `FmCodec` (src/bitstream_codec/fm.rs:70-83). -/
structure Fm where
  bits : List Bool
  clockMap : List Bool
  weakEnabled : Bool := true
  weakMask : List Bool
  cursor : Nat := 0
  deriving DecidableEq, Repr

namespace Fm
open S34

/-- `find_sync` and `get_fm_sync_offset` (src/bitstream_codec/fm.rs:90-115) are the MFM functions word for word. -/
def syncPhase (bits : List Bool) : Option Bool := Mfm.syncPhase bits

/-- `FmCodec::new` (src/bitstream_codec/fm.rs:475-516). -/
def new (bits : List Bool) (bitCt : Option Nat) (weak : Option (List Bool)) : Except Err Fm :=
  let bits := match bitCt with | some n => bits.take n | none => bits
  let sync := (syncPhase bits).getD false
  let weak := weak.getD (List.replicate bits.length false)
  if weak.length < bits.length then .error .panic
  else .ok { bits := bits, clockMap := List.replicate bits.length sync, weakMask := weak,
             cursor := if sync then 1 else 0 }

/-- `len` (src/bitstream_codec/fm.rs:123-125). -/
def len (s : Fm) : Nat := s.bits.length

/-- Every second element: `.step_by(2)`. -/
def everyOther : List Bool → List Bool
  | [] => []
  | [a] => [a]
  | a :: _ :: l => a :: everyOther l

/-- `read_decoded_u8` (src/bitstream_codec/fm.rs:277-296); weak bits play no role. -/
def readDecodedU8 (s : Fm) (index : Nat) : Option Byte :=
  if index ≥ s.bits.length ∨ index ≥ s.clockMap.length then none
  else
    let p := if s.clockMap.getD index false then 1 else 0
    some (byteOfBits (everyOther (((s.bits.drop index).take 16).drop p)))

/-- The loop of `read_decoded_buf` (src/bitstream_codec/fm.rs:306-313): every byte is read one cell further on, and
`unwrap` panics beyond the end. -/
def readDecodedBuf (s : Fm) : Nat → Nat → Except Err (List Byte)
  | 0, _ => .ok []
  | n + 1, off =>
    match s.readDecodedU8 off with
    | none => .error .panic
    | some b =>
      match readDecodedBuf s n (off + 1) with
      | .error e => .error e
      | .ok l => .ok (b :: l)

/-- `read_raw_u8` (src/bitstream_codec/fm.rs:231-241): the last byte may be short. -/
def readRawU8 (s : Fm) (index : Nat) : Option Byte :=
  if index ≥ s.bits.length then none else some (byteOfBits ((s.bits.drop index).take 8))

/-- The loop of `write_raw_u8` (src/bitstream_codec/fm.rs:252-259), `k` cells from `i` on: the mask is `0x80 >> i`
with the position itself as the distance, which overflows from 8 on (a panic with overflow checks, else the
distance is taken modulo 8). -/
def writeRawLoop (debug : Bool) (byte : Byte) : Nat → Nat → List Bool → Except Err (List Bool)
  | 0, _, l => .ok l
  | k + 1, i, l =>
    if i < l.length then
      if debug ∧ 8 ≤ i then .error .panic
      else writeRawLoop debug byte k (i + 1) (l.set i (byte.getMsbD (i % 8)))
    else .ok l

/-- `write_raw_u8` (src/bitstream_codec/fm.rs:252-259). -/
def writeRawU8 (debug : Bool) (s : Fm) (index : Nat) (byte : Byte) : Except Err Fm :=
  match writeRawLoop debug byte 8 index s.bits with
  | .error e => .error e
  | .ok l => .ok { s with bits := l }

/-- `FmCodec::encode(data, prev_bit, EncodingVariant::Data)` (src/bitstream_codec/fm.rs:527-573; the trait method
336-382 is the same text): the body is the MFM encoder's. -/
def encode (data : List Byte) (prev : Bool) : List Bool := encodeBits prev (bitsOf data)

/-- `FmCodec::encode(data, prev_bit, EncodingVariant::AddressMark)`. -/
def encodeMark (prev : Bool) (data : List Byte) : List Bool := Fox.encodeMark prev data

/-- `FmCodec::encode_marker` (src/bitstream_codec/fm.rs:579-608); the assertion on the length is a panic. -/
def encodeMarker (data : List Byte) : Except Err (BitVec 64) :=
  if data.length = 4 then .ok (shiftIn 64 0 (encodeBits false (bitsOf data))) else .error .panic

/-- `BitVec::set` in a row: panics out of bounds. -/
def setAll : List Bool → Nat → List Bool → Except Err (List Bool)
  | l, _, [] => .ok l
  | l, i, b :: bs => if i < l.length then setAll (l.set i b) (i + 1) bs else .error .panic

/-- `write_raw_buf` (src/bitstream_codec/fm.rs:261-275): no bounds are checked, so running over the end panics. -/
def writeRawBuf (s : Fm) (buf : List Byte) (off : Nat) : Except Err Fm :=
  match setAll s.bits off (bitsOf buf) with
  | .error e => .error e
  | .ok l => .ok { s with bits := l }

/-- `write_encoded_buf` (src/bitstream_codec/fm.rs:315-334).  `len - offset` underflows for an offset beyond the end,
but `clock_map[offset]` panics there anyway; the number of cells is cut without regard for the phase. -/
def writeEncodedBuf (s : Fm) (buf : List Byte) (off : Nat) : Except Err Fm :=
  let cells := encode buf false
  if off < s.clockMap.length ∧ off ≤ s.bits.length then
    let n := if s.bits.length < off + cells.length then s.bits.length - off else cells.length
    let phase := if s.clockMap.getD off false then 0 else 1
    match setAll s.bits (off + phase) (cells.take n) with
    | .error e => .error e
    | .ok l => .ok { s with bits := l }
  else .error .panic

/-- `FM_MARKER_CLOCK_MASK`, `FM_MARKER_CLOCK_PATTERN`, `FM_MARKER_DATA_MASK` (src/bitstream_codec/fm.rs:45-48). -/
def clockMask : BitVec 64 := 0xAAAAAAAAAAAAAAAA#64
def clockPattern : BitVec 64 := 0xAAAAAAAAAAAAA02A#64
def dataMask : BitVec 64 := 0x5555#64

/-- The two tests of `find_marker` (src/bitstream_codec/fm.rs:402-404). -/
def hit (m : MarkerEnc) (reg : BitVec 64) : Bool :=
  (reg &&& clockMask == clockPattern) && (reg &&& dataMask &&& m.mask == m.bits &&& dataMask &&& m.mask)

/-- The loop of `find_marker` (src/bitstream_codec/fm.rs:399-426); `fuel` is the number of iterations left.  The
result is `(bi - 64) + 1`, which for `bi = 63` is 0 in a release build and a panic with overflow checks. -/
def findLoop (debug : Bool) (bits : List Bool) (m : MarkerEnc) :
    Nat → Nat → BitVec 64 → Nat → Except Err (Option (Nat × BitVec 16))
  | 0, _, _, _ => .ok none
  | fuel + 1, bi, reg, ct =>
    let reg := (reg <<< 1) ||| (BitVec.ofBool (bits.getD bi false)).setWidth 64
    let ct := ct + 1
    if ct ≥ 64 ∧ hit m reg = true then
      if debug ∧ bi < 64 then .error .panic else .ok (some (bi + 1 - 64, reg.setWidth 16))
    else findLoop debug bits m fuel (bi + 1) reg ct

/-- `find_marker` (src/bitstream_codec/fm.rs:384-430). -/
def findMarker (debug : Bool) (s : Fm) (m : MarkerEnc) (start : Nat) (limit : Option Nat) :
    Except Err (Option (Nat × BitVec 16)) :=
  if s.bits.isEmpty then .ok none
  else findLoop debug s.bits m (min (limit.getD s.bits.length) s.bits.length - start) start 0 0

/-- `find_next_marker` for FM (src/track_schema/system34.rs:580-592): as for MFM, an unrecognised mark byte ends the
search. -/
def findNextMarker (debug : Bool) (s : Fm) (off : Nat) : Except Err (Option MarkerItem) :=
  match s.findMarker debug anyMarkerEnc off none with
  | .error e => .error e
  | .ok none => .ok none
  | .ok (some (i, w)) => .ok ((Marker.ofU16 w).map fun m => ⟨m, i⟩)

/-- The loop of `scan_markers` (src/track_schema/system34.rs:862-875); `fuel = len + 1` suffices. -/
def scanLoop (debug : Bool) (s : Fm) : Nat → Nat → Except Err (List MarkerItem)
  | 0, _ => .ok []
  | fuel + 1, cur =>
    match s.findNextMarker debug cur with
    | .error e => .error e
    | .ok none => .ok []
    | .ok (some m) =>
      match scanLoop debug s fuel (m.start + 64) with
      | .error e => .error e
      | .ok l => .ok (m :: l)

/-- `scan_markers` (src/track_schema/system34.rs:841-877). -/
def scanMarkers (debug : Bool) (s : Fm) : Except Err (List MarkerItem) :=
  match s.findMarker debug { bits := Marker.iam.code } 0 (some 5000) with
  | .error e => .error e
  | .ok (some (i, _)) =>
    match scanLoop debug s (s.len + 1) (i + 64) with
    | .error e => .error e
    | .ok l => .ok (⟨.iam, i⟩ :: l)
  | .ok none => scanLoop debug s (s.len + 1) 0

/-- `Iterator::next` (src/bitstream_codec/fm.rs:726-757), without padding; `len - 1` of an empty track is not reached
(seeking in it panics first). -/
def next (s : Fm) (rnd : Nat → Bool) : Option Bool × Fm :=
  if s.cursor ≥ s.bits.length - 1 then (none, s)
  else
    let i := s.cursor + 1
    let b := if s.weakEnabled && s.weakMask.getD i false then rnd i else s.bits.getD i false
    (some b, { s with cursor := if i + 1 ≥ s.bits.length then 0 else i + 1 })

/-- Up to `k` calls of `next`, ended by the first `None` (src/bitstream_codec/fm.rs:814-821). -/
def nextBits (s : Fm) (rnd : Nat → Bool) : Nat → List Bool × Fm
  | 0 => ([], s)
  | k + 1 =>
    match s.next rnd with
    | (none, s') => ([], s')
    | (some b, s') => (b :: (nextBits s' rnd k).1, (nextBits s' rnd k).2)

/-- `Read::read` (src/bitstream_codec/fm.rs:810-827), which always fills the buffer. -/
def readBytes (s : Fm) (rnd : Nat → Bool) : Nat → List Byte × Fm
  | 0 => ([], s)
  | n + 1 =>
    let r := s.nextBits rnd 8
    (byteOfBits r.1 :: (readBytes r.2 rnd n).1, (readBytes r.2 rnd n).2)

/-- `Seek::seek(SeekFrom::Start(pos))` (src/bitstream_codec/fm.rs:761-806): the position is doubled, and indexing the
clock map beyond its end panics. -/
def seekStart (s : Fm) (pos : Nat) : Except Err Fm :=
  if 2 * pos < s.clockMap.length then
    let c := if s.clockMap.getD (2 * pos) false then 2 * pos else 2 * pos + 1
    if c > s.bits.length then .error .io else .ok { s with cursor := c }
  else .error .panic

/-- `System34Schema::crc16` on an FM stream (src/track_schema/system34.rs:1153-1171); the two `unwrap`s turn an error
into a panic. -/
def crc16 (s : Fm) (rnd : Nat → Bool) (start stop : Nat) : Except Err ((BitVec 16 × BitVec 16) × Fm) :=
  match s.seekStart start with
  | .error _ => .error .panic
  | .ok s =>
    let n := (stop - start) / 16
    let r := s.readBytes rnd (n + 2)
    .ok ((ofBe16 (r.1.getD n 0) (r.1.getD (n + 1) 0), crc3740 (r.1.take n)), r.2)

/-- The id field of a header (src/track_schema/system34.rs:900-932): the first eight bytes must be there. -/
def readHeader (s : Fm) (start : Nat) : Except Err SectorId :=
  match ((List.range 8).mapM fun i => s.readDecodedU8 (start + i * 16)) with
  | none => .error .panic
  | some hdr =>
    let crc := ofBe16 ((s.readDecodedU8 (start + 8 * 16)).getD 0xAA#8) ((s.readDecodedU8 (start + 9 * 16)).getD 0xAA#8)
    .ok { c := hdr.getD 4 0, h := hdr.getD 5 0, s := hdr.getD 6 0, b := hdr.getD 7 0, crcValid := crc == crc3740 hdr }

/-- The accumulators of `scan_metadata`. -/
structure ScanState where
  stream : Fm
  elems : List Inst := []
  lastMarker : Option Marker := none
  lastId : SectorId := {}
  lastOff : Nat := 0

/-- The end of an iteration of the marker loop: the marker itself (src/track_schema/system34.rs:1055-1072). -/
def ScanState.pushMarker (st : ScanState) (m : MarkerItem) : ScanState :=
  { st with
    elems := st.elems ++ [{ elem := .marker m.kind, start := m.start, stop := m.start + 64,
                            chsn := some st.lastId.chsn }]
    lastOff := m.start
    lastMarker := some m.kind }

/-- One iteration of the marker loop of `scan_metadata` (src/track_schema/system34.rs:892-1073). -/
def scanStep (rnd : Nat → Bool) (st : ScanState) (m : MarkerItem) : Except Err ScanState :=
  match st.lastMarker, m.kind with
  | prev, .idam =>
    match st.stream.readHeader m.start with
    | .error e => .error e
    | .ok id =>
      let new := if prev = some .idam then
          [{ elem := .header st.lastId.chsn (!st.lastId.crcValid) true,
             start := st.lastOff, stop := m.start, chsn := none : Inst }]
        else []
      .ok (ScanState.pushMarker { st with elems := st.elems ++ new, lastId := id } m)
  | some .idam, .dam | some .idam, .ddam =>
    let dataEnd := m.start + 64 + nSize st.lastId.b.toNat * 16
    match ((List.range 4).mapM fun i => st.stream.readDecodedU8 (m.start + i * 16)) with
    | none => .error .panic
    | some _ =>
      match crc16 st.stream rnd m.start dataEnd with
      | .error e => .error e
      | .ok r =>
        let chsn := st.lastId.chsn
        let bad := !st.lastId.crcValid
        .ok (ScanState.pushMarker { st with
          stream := r.2
          elems := st.elems ++
            [{ elem := .header chsn bad false, start := st.lastOff, stop := m.start, chsn := none },
             { elem := .data chsn bad (r.1.1 != r.1.2) (m.kind == .ddam),
               start := m.start, stop := dataEnd, chsn := some chsn }] } m)
  | _, _ => .ok (st.pushMarker m)

/-- The marker loop. -/
def scanAll (rnd : Nat → Bool) : ScanState → List MarkerItem → Except Err ScanState
  | st, [] => .ok st
  | st, m :: ms =>
    match scanStep rnd st m with
    | .error e => .error e
    | .ok st => scanAll rnd st ms

/-- `scan_metadata` (src/track_schema/system34.rs:883-1110). -/
def scanMetadata (s : Fm) (rnd : Nat → Bool) (ms : List MarkerItem) : Except Err (List Inst × Fm) :=
  match scanAll rnd { stream := s } ms with
  | .error e => .error e
  | .ok st =>
    let tail := if st.lastMarker = some .idam then
        [{ elem := .header st.lastId.chsn st.lastId.crcValid true,
           start := st.lastOff, stop := st.lastOff + 256, chsn := none : Inst }]
      else []
    .ok (markLast (sortInsts (st.elems ++ tail)), st.stream)

/-- A bitstream track with FM data (src/track/bitstream.rs:60-75). -/
structure FmTrack where
  data : Fm
  items : List Inst := []
  schema : Option Schema := none

/-- What the Amiga schema makes of an FM stream in which `System34Schema` finds no mark
(src/track_schema/amiga.rs:722-940): not modelled. -/
abbrev AmigaScan := Fm → Except Err FmTrack

/-- `BitStreamTrack::new` for FM bits with a bit count, no weak mask and no detection of weak bits
(src/track/bitstream.rs:992-1116), as the flux loaders call it. -/
def load (debug : Bool) (rnd : Nat → Bool) (amiga : AmigaScan) (bits : List Bool) : Except Err FmTrack :=
  match new bits (some bits.length) none with
  | .error e => .error e
  | .ok s =>
    match s.scanMarkers debug with
    | .error e => .error e
    | .ok [] => amiga s
    | .ok ms =>
      match createClockMap (ms.map (·.start)) s.clockMap with
      | .error e => .error e
      | .ok cm =>
        match scanMetadata { s with clockMap := cm } rnd ms with
        | .error e => .error e
        | .ok (items, s) => .ok { data := s, items := items, schema := some .system34 }

/-- `decode_element` (src/track_schema/system34.rs:719-748) on an FM stream: the buffer of `n` bytes from the start of
the element on, and the (recorded, calculated) check for headers and data. -/
def decodeElement (s : Fm) (x : Inst) (n : Nat) : Except Err (List Byte × Option (BitVec 16 × BitVec 16)) :=
  match s.readDecodedBuf n x.start with
  | .error e => .error e
  | .ok buf =>
    match x.elem with
    | .header .. | .data .. => (crc16Bytes buf).map fun c => (buf, some c)
    | .marker _ => .ok (buf, none)

/-- `read_sector` (src/track/bitstream.rs:212-384) on an FM track. -/
def FmTrack.readSector (t : FmTrack) (q : Query) (n : Option Nat) (offset : Option Nat) (scope : Scope) (debug : Bool) :
    Except Err ReadResult :=
  match t.schema with
  | none => .error .schema
  | some _ =>
    match findSectorElement q t.items (offset.getD 0) with
    | .notFound wc bc wh => .ok { notFound := true, wrongCylinder := wc, badCylinder := bc, wrongHead := wh }
    | .found ei chsn ae de del noDam last =>
      if noDam then .ok { idChsn := some chsn, noDam := true, addressCrcError := ae, lastSector := last }
      else if ae && !debug then .ok { idChsn := some chsn, addressCrcError := true }
      else match t.items[ei]? with
        | none => .error .panic
        | some x =>
          let size := x.elem.size
          let range := x.elem.range scope
          let overhead := size - (range.2 - range.1)
          let len := (match n with | some n => nSize n | none => chsn.size) + overhead
          match decodeElement t.data x len with
          | .error e => .error e
          | .ok (_, none) => .error .panic
          | .ok (buf, some crc) =>
            .ok { idChsn := some chsn, deletedMark := del, addressCrcError := ae, dataCrcError := de, dataCrc := some crc,
                  lastSector := last, dataRange := range, readBuf := buf }

/-- The track as the flux model keeps it: its bits, clock map and elements.  (Only the elements are used there, for the
score of a revolution.) -/
def FmTrack.asTrack (t : FmTrack) : Track :=
  { data := { bits := BitRing.ofBits t.data.bits, clockMap := BitRing.ofBits t.data.clockMap,
              weakEnabled := t.data.weakEnabled, weakMask := BitRing.ofBits t.data.weakMask, cursor := t.data.cursor }
    items := t.items, schema := t.schema }

/-- The FM codec for the flux model. -/
def codec (debug : Bool) (rnd : Nat → Bool) (amiga : AmigaScan) : Flux.FmCodec := fun bits =>
  match load debug rnd amiga bits with
  | .error e => .error e
  | .ok t => .ok t.asTrack

end Fm
end Fox
