import Verif.Model.BitLoad
import Verif.Model.Disk
/-
Model of the IPF loader (src/file_parsers/ipf/*.rs), for a build without overflow checks.  The file is a list of bytes.
`room` is the number of bytes that can be allocated at once: asking for more ends the program, which is modelled as a panic.
Not modelled: logging, the source map, the platforms of the descriptor and the data rate of a track.
-/
namespace Fox
namespace Ipf

/-- A big-endian `u32` of a file. -/
def be32At (f : List Byte) (o : Nat) : Nat :=
  16777216 * u8At f o + 65536 * u8At f (o + 1) + 256 * u8At f (o + 2) + u8At f (o + 3)

/-- One bit of the loop of `IpfCrcHasher::update` (src/file_parsers/ipf/crc.rs:42-49). -/
def crcBit (c : BitVec 32) : BitVec 32 := if c.getLsbD 0 then (c >>> 1) ^^^ 0xEDB88320#32 else c >>> 1

/-- One byte of `IpfCrcHasher::update` (src/file_parsers/ipf/crc.rs:39-51). -/
def crcByte (c : BitVec 32) (b : Byte) : BitVec 32 :=
  crcBit (crcBit (crcBit (crcBit (crcBit (crcBit (crcBit (crcBit (c ^^^ b.setWidth 32))))))))

/-- `IpfCrcHasher` from `new` to `finalize` (src/file_parsers/ipf/crc.rs:34-56). -/
def crc (data : List Byte) : BitVec 32 := ~~~ (data.foldl crcByte 0xFFFFFFFF#32)

/-- `IpfChunk` (src/file_parsers/ipf/chunk.rs:38-60). -/
structure Chunk where
  id : List Byte
  data : List Byte
  deriving DecidableEq, Repr

/-- `calculate_crc` (src/file_parsers/ipf/chunk.rs:84-92): `head` is the id and the size as they stand in the file. -/
def chunkCrc (head data : List Byte) : BitVec 32 := crc (head ++ ([0#8, 0#8, 0#8, 0#8] ++ data))

/-- `read_chunk` (src/file_parsers/ipf/chunk.rs:180-218) at byte `p`: the chunk and where it ends. -/
def readChunk (f : List Byte) (p : Nat) : Except Err (Chunk × Nat) :=
  if f.length < p + 12 then .error .io
  else if f.length < p + 12 + (be32At f (p + 4) - 12) then .error .io
  else if 0x100000 < be32At f (p + 4) then .error .incompatible
  else
    let data := (f.drop (p + 12)).take (be32At f (p + 4) - 12)
    if be32At f (p + 8) ≠ (chunkCrc ((f.drop p).take 8) data).toNat then .error .corrupt
    else .ok (⟨(f.drop p).take 4, data⟩, p + 12 + (be32At f (p + 4) - 12))

/-- The ids of the chunks that are used (src/file_parsers/ipf/chunk.rs:151-160). -/
def idCaps : List Byte := [0x43#8, 0x41#8, 0x50#8, 0x53#8]
def idInfo : List Byte := [0x49#8, 0x4E#8, 0x46#8, 0x4F#8]
def idImage : List Byte := [0x49#8, 0x4D#8, 0x47#8, 0x45#8]
def idData : List Byte := [0x44#8, 0x41#8, 0x54#8, 0x41#8]

/-- What is used of `InfoRecord` (src/file_parsers/ipf/info_record.rs:174-202), 84 bytes. -/
structure Info where
  encoder : Nat
  maxTrack : Nat
  maxSide : Nat
  deriving DecidableEq, Repr

/-- `into_inner::<InfoRecord>` (src/file_parsers/ipf/chunk.rs:108-115). -/
def infoOf (b : List Byte) : Except Err Info :=
  if b.length < 84 then .error .corrupt else .ok ⟨be32At b 4, be32At b 28, be32At b 36⟩

/-- What is used of `ImageRecord` (src/file_parsers/ipf/image_record.rs:60-83), 68 bytes. -/
structure Image where
  track : Nat
  side : Nat
  startBit : Nat
  trackBits : Nat
  blockCount : Nat
  key : Nat
  deriving DecidableEq, Repr

/-- `into_inner::<ImageRecord>`. -/
def imageOf (b : List Byte) : Except Err Image :=
  if b.length < 68 then .error .corrupt
  else .ok ⟨be32At b 0, be32At b 4, be32At b 24, be32At b 36, be32At b 40, be32At b 52⟩

/-- `ImageRecord::ch` (src/file_parsers/ipf/image_record.rs:91-96): the numbers are cut to 16 and 8 bits. -/
def Image.ch (m : Image) : Ch := ⟨m.track % 65536, m.side % 256⟩

/-- `BlockDescriptor` (src/file_parsers/ipf/data_block.rs:40-82): what is used of it.  `dataBytes` is there if the encoder
type read so far is 1, `gapOffset` and `flags` if it is 2. -/
structure Block where
  gapBits : Nat
  dataBytes : Option Nat
  gapOffset : Option Nat
  flags : Nat
  dataOffset : Nat
  deriving DecidableEq, Repr

/-- Reading the block descriptors of a track (src/file_parsers/ipf/ipf.rs:208-213) from byte `p` on: 32 bytes each, or 24 if
the encoder type is neither 1 nor 2. -/
def readBlocks (f : List Byte) (enc : Nat) : Nat → Nat → Except Err (List Block)
  | 0, _ => .ok []
  | n + 1, p =>
    if enc = 1 ∨ enc = 2 then
      if f.length < p + 32 then .error .io
      else
        match readBlocks f enc n (p + 32) with
        | .error e => .error e
        | .ok bs => .ok (⟨be32At f (p + 4), if enc = 1 then some (be32At f (p + 8)) else none,
            if enc = 2 then some (be32At f (p + 8)) else none, be32At f (p + 20), be32At f (p + 28)⟩ :: bs)
    else if f.length < p + 24 then .error .io
    else
      match readBlocks f enc n (p + 24) with
      | .error e => .error e
      | .ok bs => .ok (⟨be32At f (p + 4), none, none, be32At f (p + 12), be32At f (p + 20)⟩ :: bs)

/-- `DataRecordInfo` (src/file_parsers/ipf/ipf.rs:68-72): where the extra data lie, and the blocks. -/
structure Data where
  edb : Nat
  blocks : List Block
  deriving DecidableEq, Repr

/-- The variables of the loop over the chunks (src/file_parsers/ipf/ipf.rs:147-161). -/
structure Store where
  enc : Nat := 0
  images : List Image := []
  datas : List Data := []
  info : Option Info := none
  deriving DecidableEq, Repr

/-- `image_map.get(&key)` and `image_pool.get(index)` (src/file_parsers/ipf/ipf.rs:191-199): the last record with the key. -/
def imageFor (l : List Image) (key : Nat) : Option Image := l.reverse.find? fun m => m.key == key

/-- What a `DATA` chunk leads to (src/file_parsers/ipf/ipf.rs:183-246): the record's 16 bytes are the length, the size in
bits, the CRC and the key; `p` is where the extra data begin.  The CRC of the extra data is not looked at. -/
def dataChunk (f : List Byte) (s : Store) (b : List Byte) (p : Nat) : Except Err (Store × Nat) :=
  if b.length < 16 then .error .corrupt
  else
    match imageFor s.images (be32At b 12) with
    | none => .error .corrupt
    | some m =>
      match readBlocks f s.enc m.blockCount p with
      | .error e => .error e
      | .ok bs =>
        if f.length < p + be32At b 0 then .error .corrupt
        else .ok ({ s with datas := s.datas ++ [⟨p, bs⟩] }, p + be32At b 0)

/-- What one chunk changes, and where the next one begins (src/file_parsers/ipf/ipf.rs:163-251). -/
def useChunk (f : List Byte) (s : Store) (c : Chunk) (p : Nat) : Except Err (Store × Nat) :=
  if c.id = idInfo then
    match infoOf c.data with
    | .error e => .error e
    | .ok i => .ok ({ s with enc := i.encoder, info := some i }, p)
  else if c.id = idImage then
    match imageOf c.data with
    | .error e => .error e
    | .ok m => .ok ({ s with images := s.images ++ [m] }, p)
  else if c.id = idData then dataChunk f s c.data p
  else .ok (s, p)

/-- The loop over the chunks (src/file_parsers/ipf/ipf.rs:163-252) from byte `p` on: it ends at the first chunk that cannot be
read, for whatever reason.  Each chunk takes 12 bytes at least, so the number of turns is no limit when it is the length of
the file. -/
def records (f : List Byte) : Nat → Nat → Store → Except Err Store
  | 0, _, s => .ok s
  | n + 1, p, s =>
    match readChunk f p with
    | .error _ => .ok s
    | .ok (c, q) =>
      match useChunk f s c q with
      | .error e => .error e
      | .ok (s, q) => records f n q s

/-- `Ord for ImageRecord` (src/file_parsers/ipf/image_record.rs:146-161) as "not after". -/
def notAfter (a b : Ch) : Bool := decide (a.c < b.c ∨ a.c = b.c ∧ a.h ≤ b.h)

/-- `sorted_pool` (src/file_parsers/ipf/ipf.rs:257-259): the indices, sorted stably by place. -/
def sorted (l : List Image) : List Nat :=
  (List.range l.length).mergeSort fun a b =>
    notAfter ((l[a]?.map Image.ch).getD ⟨0, 0⟩) ((l[b]?.map Image.ch).getD ⟨0, 0⟩)

/-- `calculate_sample_size` (src/file_parsers/ipf/stream_element.rs:275-286). -/
def sizeOf (b : List Byte) : Nat := b.foldl (fun a x => 256 * a + x.toNat) 0

/-- `DataStreamElement` (src/file_parsers/ipf/stream_element.rs:90-108); `kind` is the value of `DataType`. -/
structure Element where
  kind : Nat
  width : Nat
  sample : Option (List Byte)
  deriving DecidableEq, Repr

/-- Reading a `DataStreamElement` (src/file_parsers/ipf/stream_element.rs:90-108, 211-240) at byte `p`: the element and where
it ends.  The bytes of a sample counted in bits are taken as they are. -/
def readElement (room : Nat) (f : List Byte) (bits : Bool) (p : Nat) : Except Err (Element × Nat) :=
  if f.length ≤ p then .error .io
  else
    let kind := u8At f p % 8
    let width := u8At f p / 32
    if f.length < p + 1 + width then .error .io
    else if kind = 5 then .ok (⟨kind, width, none⟩, p + 1 + width)
    else
      let size := sizeOf ((f.drop (p + 1)).take width)
      let n := if bits then (size + 7) / 8 else size
      if room < n then .error .panic
      else if f.length < p + 1 + width + n then .error .io
      else .ok (⟨kind, width, some ((f.drop (p + 1 + width)).take n)⟩, p + 1 + width + n)

/-- `write_raw_buf` (src/bitstream_codec/mfm.rs:356-367), which divides by zero on a track without cells. -/
def writeRaw (s : Mfm) (b : List Byte) (at_ : Nat) : Except Err Mfm :=
  if s.len = 0 ∧ b ≠ [] then .error .panic else .ok (s.writeRawBuf b at_)

/-- `write_encoded_buf` (src/bitstream_codec/mfm.rs:330-354), likewise. -/
def writeEncoded (s : Mfm) (b : List Byte) (at_ : Nat) : Except Err Mfm :=
  if s.len = 0 ∧ b ≠ [] then .error .panic else .ok (s.writeEncodedBuf b at_)

/-- The loop over a block's elements (src/file_parsers/ipf/v1_track.rs:284-357, src/file_parsers/ipf/v2_track.rs:437-533):
`first` tells whether the element to be read is counted in bits, `bits` whether the later ones are.  Each element takes a
byte at least, so the number of turns is no limit when it is the length of the file and one. -/
def elements (room : Nat) (f : List Byte) (bits : Bool) :
    Nat → Bool → Nat → Mfm → Nat → Except Err (Mfm × Nat)
  | 0, _, _, _, _ => .error .panic
  | n + 1, first, p, s, cur =>
    match readElement room f first p with
    | .error e => .error e
    | .ok (e, q) =>
      if e.kind = 0 ∧ e.width = 0 then .ok (s, cur)
      else
        match e.sample with
        | none => .error .corrupt
        | some d =>
          if e.kind = 0 then .ok (s, cur)
          else if e.kind = 1 then
            match writeRaw s d cur with
            | .error e => .error e
            | .ok s => elements room f bits n bits q s (cur + d.length / 2 * 16)
          else if e.kind = 2 ∨ e.kind = 3 then
            match writeEncoded s d cur with
            | .error e => .error e
            | .ok s => elements room f bits n bits q s (cur + d.length * 16)
          else elements room f bits n bits q s (cur + d.length * 16)

/-- A block of a version 1 track (src/file_parsers/ipf/v1_track.rs:173-205, 257-283). -/
def blockV1 (room : Nat) (f : List Byte) (edb : Nat) (b : Block) (s : Mfm) (cur : Nat) : Except Err (Mfm × Nat) :=
  match b.dataBytes with
  | none => .error .corrupt
  | some _ => elements room f false (f.length + 1) false (edb + b.dataOffset) s cur

/-- `read_v2_gap_elements` (src/file_parsers/ipf/v2_track.rs:361-428), of which only where it ends is used.  The loop over
`GapStreamElement`s (src/file_parsers/ipf/stream_element.rs:168-184, 288-315); `rep` is the repeat count. -/
def gapElements (room : Nat) (f : List Byte) : Nat → Nat → Option Nat → Except Err Nat
  | 0, _, _ => .error .panic
  | n + 1, p, rep =>
    if f.length ≤ p then .error .io
    else
      let kind := u8At f p % 4
      let width := u8At f p / 32
      if f.length < p + 1 + width then .error .io
      else
        let size := sizeOf ((f.drop (p + 1)).take width)
        if kind = 1 then gapElements room f n (p + 1 + width) (some size)
        else if kind = 2 then
          if room < (size + 7) / 8 then .error .panic
          else if f.length < p + 1 + width + (size + 7) / 8 then .error .io
          else if room < (size * rep.getD 1 % 2 ^ 64 + 7) / 8 then .error .panic
          else gapElements room f n (p + 1 + width + (size + 7) / 8) none
        else .ok (p + 1 + width)

/-- The gap lists of a block (src/file_parsers/ipf/v2_track.rs:296-333): a forward and a backward one as the flags tell. -/
def gaps (room : Nat) (f : List Byte) (flags p : Nat) : Except Err Unit :=
  match (if flags % 2 = 1 then gapElements room f (f.length + 1) p none else .ok p) with
  | .error e => .error e
  | .ok p =>
    match (if flags / 2 % 2 = 1 then gapElements room f (f.length + 1) p none else .ok p) with
    | .error e => .error e
    | .ok _ => .ok ()

/-- A block of a version 2 track (src/file_parsers/ipf/v2_track.rs:240-353): the gap is skipped, not filled. -/
def blockV2 (room : Nat) (f : List Byte) (edb : Nat) (b : Block) (s : Mfm) (cur : Nat) : Except Err (Mfm × Nat) :=
  match b.gapOffset with
  | none => .error .corrupt
  | some g =>
    match (if 0 < b.gapBits then gaps room f b.flags (edb + g) else .ok ()) with
    | .error e => .error e
    | .ok _ =>
      match elements room f (b.flags / 4 % 2 == 1) (f.length + 1) false (edb + b.dataOffset) s cur with
      | .error e => .error e
      | .ok (s, cur) => .ok (s, cur + b.gapBits)

/-- The blocks of a track, one after the other (src/file_parsers/ipf/v1_track.rs:150-223, src/file_parsers/ipf/v2_track.rs:
150-213). -/
def blocks (one : Block → Mfm → Nat → Except Err (Mfm × Nat)) : List Block → Mfm → Nat → Except Err Mfm
  | [], s, _ => .ok s
  | b :: bs, s, cur =>
    match one b s cur with
    | .error e => .error e
    | .ok (s, cur) => blocks one bs s cur

/-- `valid_sector_ids` of an Amiga track (src/track_schema/mod.rs:355-377). -/
def amigaIds (l : List Amiga.Inst) : List Chsn :=
  l.filterMap fun x => match x.elem with
    | .header c ae _ => if ae then none else some c
    | _ => none

/-- `rescan(Some(Amiga))` (src/track/bitstream.rs:1124-1167): the track, and the valid sector ids its metadata list.  The
schema of the track stays what it is, System34; with it Amiga elements are never matched (the last arm of the match in
src/track_schema/system34.rs:621-718, line 708), so in the record of a track, whose elements are System34's, there are none. -/
def rescan (rnd : Nat → Bool) (t : Track) : Except Err (Track × List Chsn) :=
  match Amiga.scan t.data rnd with
  | .error e => .error e
  | .ok a =>
    if amigaIds a.items ≠ [] then .ok ({ t with data := a.data, items := [] }, amigaIds a.items)
    else
      match Track.rescan34 { t with data := a.data } rnd with
      | .error e => .error e
      | .ok t => if t.validSectorIds ≠ [] then .ok (t, t.validSectorIds) else .ok ({ t with items := [] }, [])

/-- `decode_v1_track` and `decode_v2_track` (src/file_parsers/ipf/v1_track.rs:48-248, src/file_parsers/ipf/v2_track.rs:
54-239). -/
def decodeTrack (room : Nat) (rnd : Nat → Bool) (f : List Byte) (v2 : Bool) (m : Image) (x : Data) (d : Disk) :
    Except Err (Disk × List Chsn) :=
  match (d.setResolution .bitStream).addEmpty m.ch .mfm (some .bitStream) m.trackBits (some true) with
  | (_, .error e) => .error e
  | (d, .ok i) =>
    match d.pool[i]? with
    | some (.bit ch t) =>
      match blocks (if v2 then blockV2 room f x.edb else blockV1 room f x.edb) x.blocks t.data (m.startBit / 16 * 16) with
      | .error e => .error e
      | .ok s =>
        match rescan rnd { t with data := s } with
        | .error e => .error e
        | .ok (t, ids) => .ok ({ d with pool := d.pool.set i (.bit ch t) }, ids)
    | _ => .error .formatParse

/-- The loop over the tracks and `process_track` (src/file_parsers/ipf/ipf.rs:274-276, 296-333); a record without extra data
of the same index panics.  Besides the disk the valid sector ids of each track, in the order of adding. -/
def tracks (room : Nat) (rnd : Nat → Bool) (f : List Byte) (st : Store) (i : Info) :
    List Nat → Disk → Except Err (Disk × List (Ch × List Chsn))
  | [], d => .ok (d, [])
  | k :: ks, d =>
    match st.images[k]?, st.datas[k]? with
    | some m, some x =>
      if i.encoder = 1 ∨ i.encoder = 2 then
        match decodeTrack room rnd f (i.encoder == 2) m x d with
        | .error e => .error e
        | .ok (d, ids) =>
          match tracks room rnd f st i ks d with
          | .error e => .error e
          | .ok (d, l) => .ok (d, (m.ch, ids) :: l)
      else .error .corrupt
    | _, _ => .error .panic

/-- `IpfParser::load_image` (src/file_parsers/ipf/ipf.rs:116-294): the disk and the valid sector ids of each track. -/
def load (room : Nat) (rnd : Nat → Bool) (d : Disk) (f : List Byte) : Except Err (Disk × List (Ch × List Chsn)) :=
  match readChunk f 0 with
  | .error e => .error e
  | .ok (c, p) =>
    if c.id ≠ idCaps then .error .unknownFormat
    else
      match records f f.length p {} with
      | .error e => .error e
      | .ok st =>
        match st.info with
        | none => .error .corrupt
        | some i =>
          match tracks room rnd f st i (sorted st.images) d with
          | .error e => .error e
          | .ok (d, l) => .ok ({ d with geometry := ⟨(i.maxTrack + 1) % 65536, (i.maxSide + 1) % 256⟩ }, l)

end Ipf
end Fox
