import Verif.Model.Disk
import Verif.Model.Amiga
import Verif.Model.OddEven
/-
Model of the PCE image formats: the chunk layer shared by PRI, PSI and PFI files
(src/file_parsers/pce/crc.rs, pri.rs, psi.rs, pfi.rs) and the PRI loader and writer.
-/
namespace Fox
namespace Pce

/-- One step of the inner loop of `pce_crc` (src/file_parsers/pce/crc.rs:33-40). -/
def crcBit (c : BitVec 32) : BitVec 32 :=
  if c.getMsbD 0 then (c <<< 1) ^^^ 0x1EDC6F41#32 else c <<< 1

/-- One byte of `pce_crc` (src/file_parsers/pce/crc.rs:31-41). -/
def crcByte (c : BitVec 32) (b : Byte) : BitVec 32 :=
  let c := c ^^^ ((b.setWidth 32) <<< 24)
  crcBit (crcBit (crcBit (crcBit (crcBit (crcBit (crcBit (crcBit c)))))))

/-- `pce_crc` (src/file_parsers/pce/crc.rs:29-44). -/
def crc (data : List Byte) : BitVec 32 := data.foldl crcByte 0#32

/-- A four-character chunk id. -/
structure Id where
  a : Byte
  b : Byte
  c : Byte
  d : Byte
  deriving DecidableEq, Repr

/-- The id as it stands in the file. -/
def Id.bytes (i : Id) : List Byte := [i.a, i.b, i.c, i.d]

/-- `b"PRI "`. -/
def idPri : Id := ⟨0x50#8, 0x52#8, 0x49#8, 0x20#8⟩
/-- `b"PSI "`. -/
def idPsi : Id := ⟨0x50#8, 0x53#8, 0x49#8, 0x20#8⟩
/-- `b"PFI "`. -/
def idPfi : Id := ⟨0x50#8, 0x46#8, 0x49#8, 0x20#8⟩
/-- `b"TEXT"`. -/
def idText : Id := ⟨0x54#8, 0x45#8, 0x58#8, 0x54#8⟩
/-- `b"END "`. -/
def idEnd : Id := ⟨0x45#8, 0x4E#8, 0x44#8, 0x20#8⟩
/-- `b"TRAK"`. -/
def idTrak : Id := ⟨0x54#8, 0x52#8, 0x41#8, 0x4B#8⟩
/-- `b"DATA"`. -/
def idData : Id := ⟨0x44#8, 0x41#8, 0x54#8, 0x41#8⟩
/-- `b"WEAK"`. -/
def idWeak : Id := ⟨0x57#8, 0x45#8, 0x41#8, 0x4B#8⟩
/-- `b"BCLK"`. -/
def idBclk : Id := ⟨0x42#8, 0x43#8, 0x4C#8, 0x4B#8⟩
/-- `b"SECT"`. -/
def idSect : Id := ⟨0x53#8, 0x45#8, 0x43#8, 0x54#8⟩
/-- `b"IBMM"`. -/
def idIbmm : Id := ⟨0x49#8, 0x42#8, 0x4D#8, 0x4D#8⟩
/-- `b"OFFS"`. -/
def idOffs : Id := ⟨0x4F#8, 0x46#8, 0x46#8, 0x53#8⟩
/-- `b"INDX"`. -/
def idIndx : Id := ⟨0x49#8, 0x4E#8, 0x44#8, 0x58#8⟩

/-- A chunk: `PriChunk`, `PsiChunk`, `PfiChunk` (src/file_parsers/pce/pri.rs:134-138, psi.rs:170-173,
pfi.rs:101-105).  The chunk type is a function of the id, so the id itself is kept. -/
structure Chunk where
  id : Id
  data : List Byte
  deriving DecidableEq, Repr

/-- `MAXIMUM_CHUNK_SIZE` of PRI and PSI files (src/file_parsers/pce/pri.rs:57, psi.rs:67). -/
def maxChunk : Nat := 0x100000

/-- `MAXIMUM_CHUNK_SIZE` of PFI files (src/file_parsers/pce/pfi.rs:59). -/
def maxChunkPfi : Nat := 0x1000000

/-- Four bytes read as a big-endian `u32` by `binrw`; `none` at the end of the buffer. -/
def u32At (bs : List Byte) (o : Nat) : Option (BitVec 32) :=
  match bs.drop o with
  | a :: b :: c :: d :: _ => some (OddEven.ofBe32 a b c d)
  | _ => none

/-- `read_chunk` (src/file_parsers/pce/pri.rs:203-253, psi.rs:229-283, pfi.rs:159-208) at the head of the
remaining file `bs`: the chunk and what follows it; `mx` is the format's size limit.  A read past the end is an IO error. -/
def readChunk (mx : Nat) : List Byte → Except Err (Chunk × List Byte)
  | i0 :: i1 :: i2 :: i3 :: s0 :: s1 :: s2 :: s3 :: rest =>
    let size := (OddEven.ofBe32 s0 s1 s2 s3).toNat
    if size > mx then .error .formatParse
    else if rest.length < size then .error .io
    else
      let head := [i0, i1, i2, i3, s0, s1, s2, s3]
      let data := rest.take size
      match u32At rest size with
      | none => .error .io
      | some stored =>
        if stored ≠ crc (head ++ data) then .error .crcError
        else .ok (⟨⟨i0, i1, i2, i3⟩, data⟩, rest.drop (size + 4))
  | _ => .error .io

/-- `write_chunk`, `write_chunk_raw`, `write_text` (src/file_parsers/pce/pri.rs:255-300, 303-336, 339-378):
the length is cast to `u32`. -/
def writeChunk (c : Chunk) : List Byte :=
  let head := c.id.bytes ++ OddEven.be32 (BitVec.ofNat 32 c.data.length) ++ c.data
  head ++ OddEven.be32 (crc head)

/-- `PriChunkFooter::default` as written (src/file_parsers/pce/pri.rs:70-85). -/
def footer : List Byte := idEnd.bytes ++ OddEven.be32 0#32 ++ OddEven.be32 0x3d64af78#32

end Pce

/-- `BitStreamTrack::new` for MFM data with a cell count, no weak mask and no schema hint
(src/track/bitstream.rs:896-1116): System34 marks are looked for first, then Amiga marks.  The elements of a
track on which only Amiga marks are found are not represented here (see `Amiga.scan`); its cells, clock map
and schema are. -/
def Track.ofData (rnd : Nat → Bool) (data : List Byte) (cells : Nat) : Except Err Track :=
  let bits := if data = [] then (List.range cells).map (fun i => i % 2 == 0) else bitsOf data
  match Mfm.new bits (some cells) none with
  | .error e => .error e
  | .ok s =>
    let ms := S34.scanMarkers s
    if ms ≠ [] then
      match S34.createClockMap (ms.map (·.start)) s.clockMap.bits with
      | .error e => .error e
      | .ok cm =>
        let r := S34.scanMetadata { s with clockMap := { s.clockMap with bits := cm } } rnd ms
        .ok { data := r.2, items := r.1, schema := some .system34 }
    else
      let as := Amiga.scanMarkers s
      if as ≠ [] then
        match S34.createClockMap as s.clockMap.bits with
        | .error e => .error e
        | .ok cm => .ok { data := { s with clockMap := { s.clockMap with bits := cm } }, schema := some .amiga }
      else .ok { data := s }

/-- `write_weak_mask_u32` (src/track/bitstream.rs:1315-1326) on the mask, from bit `i` of the word on: stops
at the first set bit that falls outside the mask. -/
def writeWeakMask (mask : List Bool) (w : BitVec 32) (offset : Nat) : Nat → Nat → List Bool
  | 0, _ => mask
  | k + 1, i =>
    if w.getMsbD i then
      if i + offset ≥ mask.length then mask else writeWeakMask (mask.set (i + offset) true) w offset k (i + 1)
    else writeWeakMask mask w offset k (i + 1)

namespace Pri
open Pce

/-- The state of `load_image` (src/file_parsers/pce/pri.rs:404-414).  `rates` collects the `data_rate`
handed to each new track (before its conversion to a `TrackDataRate`), `rate` is `disk_data_rate`. -/
structure State where
  disk : Disk
  cyls : List Nat := []
  heads : List Nat := []
  defClock : BitVec 32 := 0#32
  ch : Ch := ⟨0, 0⟩
  bitLen : Nat := 0
  clock : BitVec 32 := 0#32
  rates : List (BitVec 32) := []
  rate : Option (BitVec 32) := none

/-- Adding to a set. -/
def insertNat (l : List Nat) (x : Nat) : List Nat := if x ∈ l then l else l ++ [x]

/-- The entries of a WEAK chunk (src/file_parsers/pce/pri.rs:479-509) written to a mask. -/
def weakEntries (data : List Byte) : Nat → Nat → List Bool → Except Err (List Bool)
  | 0, _, mask => .ok mask
  | k + 1, i, mask => match u32At data (8 * i), u32At data (8 * i + 4) with
    | some off, some w => weakEntries data k (i + 1) (writeWeakMask mask w off.toNat 32 0)
    | _, _ => .error .formatParse

/-- The body of the loop of `load_image` (src/file_parsers/pce/pri.rs:416-515).  `alt` is the floating-point
computation of the alternate clock (443-445).  TEXT is only concatenated to a local string. -/
def step (alt : BitVec 32 → BitVec 32 → BitVec 32) (rnd : Nat → Bool) (st : State) (c : Chunk) :
    Except Err State :=
  if c.id = idTrak then
    match u32At c.data 0, u32At c.data 4, u32At c.data 8, u32At c.data 12 with
    | some cyl, some head, some len, some clk =>
      let cy := cyl.toNat % 65536
      let h := head.toNat % 256
      .ok { st with bitLen := len.toNat, defClock := clk, cyls := insertNat st.cyls cy,
                    heads := insertNat st.heads h, ch := ⟨cy, h⟩ }
    | _, _, _, _ => .error .formatParse
  else if c.id = idBclk then
    match u32At c.data 0, u32At c.data 4 with
    | some _, some new => .ok { st with clock := if new = 0#32 then st.defClock else alt new st.defClock }
    | _, _ => .error .formatParse
  else if c.id = idData then
    match st.disk.addBit st.ch (Track.ofData rnd c.data st.bitLen) with
    | (_, .error e) => .error e
    | (d, .ok _) => .ok { st with disk := d, rates := st.rates ++ [st.clock],
                                  rate := some (st.rate.getD st.clock) }
  else if c.id = idWeak then
    if c.data.length % 8 ≠ 0 then .error .formatParse
    else if st.ch.h ≥ 2 then .error .panic
    else match (st.disk.headMap st.ch.h)[st.ch.c]? with
      | none => .error .formatParse
      | some i => match st.disk.pool[i]? with
        | some (.bit ch t) =>
          match weakEntries c.data (c.data.length / 8) 0 t.data.weakMask.bits with
          | .error e => .error e
          | .ok m =>
            let t := { t with data := { t.data with weakMask := { t.data.weakMask with bits := m } } }
            .ok { st with disk := { st.disk with pool := st.disk.pool.set i (.bit ch t) } }
        | _ => .error .formatParse
  else .ok st

/-- The `while` loop of `load_image` (src/file_parsers/pce/pri.rs:416-518): the fuel bounds the number of
chunks, each of which is at least 12 bytes long. -/
def loop (alt : BitVec 32 → BitVec 32 → BitVec 32) (rnd : Nat → Bool) :
    Nat → List Byte → State → Chunk → Except Err State
  | 0, _, st, _ => .ok st
  | f + 1, bs, st, c =>
    if c.id = idEnd then .ok st
    else match step alt rnd st c with
      | .error e => .error e
      | .ok st => match readChunk maxChunk bs with
        | .error e => .error e
        | .ok (c, bs) => loop alt rnd f bs st c

/-- `PriFormat::load_image` (src/file_parsers/pce/pri.rs:380-535) into an image; the second component is
the list of track data rates.  An image with no track data unwraps `None`. -/
def load (alt : BitVec 32 → BitVec 32 → BitVec 32) (rnd : Nat → Bool) (d : Disk) (bs : List Byte) :
    Except Err (Disk × List (BitVec 32)) :=
  match readChunk maxChunk bs with
  | .error e => .error e
  | .ok (c, rest) =>
    if c.id ≠ idPri then .error .unknownFormat
    else if c.data.length < 4 then .error .formatParse
    else match loop alt rnd (bs.length + 1) rest { disk := d } c with
      | .error e => .error e
      | .ok st => match st.rate with
        | none => .error .panic
        | some _ => .ok ({ st.disk with geometry := ⟨st.cyls.length % 65536, st.heads.length % 256⟩ },
            st.rates)

/-- The entries of the weak table (src/file_parsers/pce/pri.rs:596-628): the offset is counted *after* the
bit was taken, and each entry swallows the next 31 bits. -/
def weakTable : Nat → List Bool → Nat → List (Nat × BitVec 32)
  | 0, _, _ => []
  | _ + 1, [], _ => []
  | f + 1, b :: bs, o =>
    if b then (o + 1, shiftIn 32 0 ((true :: bs.take 31) ++ List.replicate (31 - bs.length) false)) ::
      weakTable f (bs.drop 31) (o + 1 + min 31 bs.length)
    else weakTable f bs (o + 1)

/-- The data of the WEAK chunk. -/
def weakBytes (mask : List Bool) : List Byte :=
  (weakTable mask.length mask 0).flatMap fun e => OddEven.be32 (BitVec.ofNat 32 e.1) ++ OddEven.be32 e.2

/-- The data of the TRAK chunk (src/file_parsers/pce/pri.rs:574-580). -/
def trackHeader (ch : Ch) (cells : Nat) (rate : BitVec 32) : List Byte :=
  OddEven.be32 (BitVec.ofNat 32 ch.c) ++ OddEven.be32 (BitVec.ofNat 32 ch.h) ++
    OddEven.be32 (BitVec.ofNat 32 cells) ++ OddEven.be32 rate

/-- The chunks of one track (src/file_parsers/pce/pri.rs:563-633); `rate` is the track's data rate. -/
def trackChunks (rate : DiskTrack → BitVec 32) (x : DiskTrack) : Except Err (List Chunk) :=
  match x with
  | .bit ch t =>
    .ok ([⟨idTrak, trackHeader ch t.data.len (rate x)⟩, ⟨idData, DiskTrack.packed t.data.bits.bits⟩] ++
      if t.data.weakMask.bits.any id then [⟨idWeak, weakBytes t.data.weakMask.bits⟩] else [])
  | _ => .error .panic

/-- `mapM` over the tracks. -/
def tracksChunks (rate : DiskTrack → BitVec 32) : List DiskTrack → Except Err (List Chunk)
  | [] => .ok []
  | x :: xs => match trackChunks rate x with
    | .error e => .error e
    | .ok a => match tracksChunks rate xs with
      | .error e => .error e
      | .ok b => .ok (a ++ b)

/-- The chunks of a file, its header and an optional comment (src/file_parsers/pce/pri.rs:548-640). -/
def saveChunks (rate : DiskTrack → BitVec 32) (d : Disk) (text : List Chunk) : Except Err (List Byte) :=
  match tracksChunks rate d.trackList with
  | .error e => .error e
  | .ok cs => .ok ((⟨idPri, [0#8, 0#8, 0#8, 0#8]⟩ :: (text ++ cs)).flatMap writeChunk ++ footer)

/-- `PriFormat::save_image` (src/file_parsers/pce/pri.rs:537-645); `comment` is the UTF-8 text of the
"comment" metadata key.  A bitstream track with another codec is written the same way in the code; here it
has no cells, so saving one is outside the model (`panic` stands for it). -/
def save (rate : DiskTrack → BitVec 32) (comment : Option (List Byte)) (d : Disk) : Except Err (List Byte) :=
  if d.res ≠ { bit := true } then .error .unsupported
  else match comment with
    | some t => if t.length > 1000 then .error .panic else saveChunks rate d [⟨idText, t⟩]
    | none => saveChunks rate d []

end Pri
end Fox
