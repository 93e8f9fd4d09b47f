import Verif.Model.Scp
/-
Model of the Applesauce loaders: MOOF (src/file_parsers/as/moof.rs) and WOZ (src/file_parsers/as/woz.rs), with their CRC
(crc.rs) and their flux data (flux.rs).  The file is a list of bytes.  Not modelled: logging, the source map, progress
callbacks, the text of META chunks (it goes to the source map only), the creator's name, the density and the other fields of the
descriptor besides the geometry and the write protection; allocating the buffer of a META chunk always succeeds.  Times are exact
and the FM codec is a parameter, as in Verif.Model.FluxTrack.  GCR tracks are represented by their cells only.
-/
namespace Fox
namespace Sauce
open Flux

/-- The CRC table (src/file_parsers/as/crc.rs:32-62). -/
def crcTable : List (BitVec 32) := [
  0x00000000#32, 0x77073096#32, 0xee0e612c#32, 0x990951ba#32, 0x076dc419#32, 0x706af48f#32, 0xe963a535#32, 0x9e6495a3#32,
  0x0edb8832#32, 0x79dcb8a4#32, 0xe0d5e91e#32, 0x97d2d988#32, 0x09b64c2b#32, 0x7eb17cbd#32, 0xe7b82d07#32, 0x90bf1d91#32,
  0x1db71064#32, 0x6ab020f2#32, 0xf3b97148#32, 0x84be41de#32, 0x1adad47d#32, 0x6ddde4eb#32, 0xf4d4b551#32, 0x83d385c7#32,
  0x136c9856#32, 0x646ba8c0#32, 0xfd62f97a#32, 0x8a65c9ec#32, 0x14015c4f#32, 0x63066cd9#32, 0xfa0f3d63#32, 0x8d080df5#32,
  0x3b6e20c8#32, 0x4c69105e#32, 0xd56041e4#32, 0xa2677172#32, 0x3c03e4d1#32, 0x4b04d447#32, 0xd20d85fd#32, 0xa50ab56b#32,
  0x35b5a8fa#32, 0x42b2986c#32, 0xdbbbc9d6#32, 0xacbcf940#32, 0x32d86ce3#32, 0x45df5c75#32, 0xdcd60dcf#32, 0xabd13d59#32,
  0x26d930ac#32, 0x51de003a#32, 0xc8d75180#32, 0xbfd06116#32, 0x21b4f4b5#32, 0x56b3c423#32, 0xcfba9599#32, 0xb8bda50f#32,
  0x2802b89e#32, 0x5f058808#32, 0xc60cd9b2#32, 0xb10be924#32, 0x2f6f7c87#32, 0x58684c11#32, 0xc1611dab#32, 0xb6662d3d#32,
  0x76dc4190#32, 0x01db7106#32, 0x98d220bc#32, 0xefd5102a#32, 0x71b18589#32, 0x06b6b51f#32, 0x9fbfe4a5#32, 0xe8b8d433#32,
  0x7807c9a2#32, 0x0f00f934#32, 0x9609a88e#32, 0xe10e9818#32, 0x7f6a0dbb#32, 0x086d3d2d#32, 0x91646c97#32, 0xe6635c01#32,
  0x6b6b51f4#32, 0x1c6c6162#32, 0x856530d8#32, 0xf262004e#32, 0x6c0695ed#32, 0x1b01a57b#32, 0x8208f4c1#32, 0xf50fc457#32,
  0x65b0d9c6#32, 0x12b7e950#32, 0x8bbeb8ea#32, 0xfcb9887c#32, 0x62dd1ddf#32, 0x15da2d49#32, 0x8cd37cf3#32, 0xfbd44c65#32,
  0x4db26158#32, 0x3ab551ce#32, 0xa3bc0074#32, 0xd4bb30e2#32, 0x4adfa541#32, 0x3dd895d7#32, 0xa4d1c46d#32, 0xd3d6f4fb#32,
  0x4369e96a#32, 0x346ed9fc#32, 0xad678846#32, 0xda60b8d0#32, 0x44042d73#32, 0x33031de5#32, 0xaa0a4c5f#32, 0xdd0d7cc9#32,
  0x5005713c#32, 0x270241aa#32, 0xbe0b1010#32, 0xc90c2086#32, 0x5768b525#32, 0x206f85b3#32, 0xb966d409#32, 0xce61e49f#32,
  0x5edef90e#32, 0x29d9c998#32, 0xb0d09822#32, 0xc7d7a8b4#32, 0x59b33d17#32, 0x2eb40d81#32, 0xb7bd5c3b#32, 0xc0ba6cad#32,
  0xedb88320#32, 0x9abfb3b6#32, 0x03b6e20c#32, 0x74b1d29a#32, 0xead54739#32, 0x9dd277af#32, 0x04db2615#32, 0x73dc1683#32,
  0xe3630b12#32, 0x94643b84#32, 0x0d6d6a3e#32, 0x7a6a5aa8#32, 0xe40ecf0b#32, 0x9309ff9d#32, 0x0a00ae27#32, 0x7d079eb1#32,
  0xf00f9344#32, 0x8708a3d2#32, 0x1e01f268#32, 0x6906c2fe#32, 0xf762575d#32, 0x806567cb#32, 0x196c3671#32, 0x6e6b06e7#32,
  0xfed41b76#32, 0x89d32be0#32, 0x10da7a5a#32, 0x67dd4acc#32, 0xf9b9df6f#32, 0x8ebeeff9#32, 0x17b7be43#32, 0x60b08ed5#32,
  0xd6d6a3e8#32, 0xa1d1937e#32, 0x38d8c2c4#32, 0x4fdff252#32, 0xd1bb67f1#32, 0xa6bc5767#32, 0x3fb506dd#32, 0x48b2364b#32,
  0xd80d2bda#32, 0xaf0a1b4c#32, 0x36034af6#32, 0x41047a60#32, 0xdf60efc3#32, 0xa867df55#32, 0x316e8eef#32, 0x4669be79#32,
  0xcb61b38c#32, 0xbc66831a#32, 0x256fd2a0#32, 0x5268e236#32, 0xcc0c7795#32, 0xbb0b4703#32, 0x220216b9#32, 0x5505262f#32,
  0xc5ba3bbe#32, 0xb2bd0b28#32, 0x2bb45a92#32, 0x5cb36a04#32, 0xc2d7ffa7#32, 0xb5d0cf31#32, 0x2cd99e8b#32, 0x5bdeae1d#32,
  0x9b64c2b0#32, 0xec63f226#32, 0x756aa39c#32, 0x026d930a#32, 0x9c0906a9#32, 0xeb0e363f#32, 0x72076785#32, 0x05005713#32,
  0x95bf4a82#32, 0xe2b87a14#32, 0x7bb12bae#32, 0x0cb61b38#32, 0x92d28e9b#32, 0xe5d5be0d#32, 0x7cdcefb7#32, 0x0bdbdf21#32,
  0x86d3d2d4#32, 0xf1d4e242#32, 0x68ddb3f8#32, 0x1fda836e#32, 0x81be16cd#32, 0xf6b9265b#32, 0x6fb077e1#32, 0x18b74777#32,
  0x88085ae6#32, 0xff0f6a70#32, 0x66063bca#32, 0x11010b5c#32, 0x8f659eff#32, 0xf862ae69#32, 0x616bffd3#32, 0x166ccf45#32,
  0xa00ae278#32, 0xd70dd2ee#32, 0x4e048354#32, 0x3903b3c2#32, 0xa7672661#32, 0xd06016f7#32, 0x4969474d#32, 0x3e6e77db#32,
  0xaed16a4a#32, 0xd9d65adc#32, 0x40df0b66#32, 0x37d83bf0#32, 0xa9bcae53#32, 0xdebb9ec5#32, 0x47b2cf7f#32, 0x30b5ffe9#32,
  0xbdbdf21c#32, 0xcabac28a#32, 0x53b39330#32, 0x24b4a3a6#32, 0xbad03605#32, 0xcdd70693#32, 0x54de5729#32, 0x23d967bf#32,
  0xb3667a2e#32, 0xc4614ab8#32, 0x5d681b02#32, 0x2a6f2b94#32, 0xb40bbe37#32, 0xc30c8ea1#32, 0x5a05df1b#32, 0x2d02ef8d#32]

/-- `applesauce_crc32` (src/file_parsers/as/crc.rs:75-81). -/
def crc32 (buf : List Byte) (crc : BitVec 32) : BitVec 32 :=
  buf.foldl (fun c b => crcTable.getD ((c ^^^ b.setWidth 32) &&& 0xFF#32).toNat 0#32 ^^^ (c >>> 8)) (crc ^^^ 0xFFFFFFFF#32) ^^^ 0xFFFFFFFF#32

/-- The loop of `decode_as_flux` (src/file_parsers/as/flux.rs:51-63): the times of the fluxes in ticks, `ticks` being counted already.
A byte of 255 goes on, one of 0 is passed over. -/
def fluxTicks (ticks : Nat) : List Byte → List Nat
  | [] => []
  | b :: l =>
    if b = 255#8 then fluxTicks (ticks + 255) l
    else if b = 0#8 then fluxTicks ticks l
    else (ticks + b.toNat) :: fluxTicks 0 l

/-- `decode_as_flux` (src/file_parsers/as/flux.rs:47-69): ticks of 125 ns.  Looking at the last byte of an empty buffer panics. -/
def decodeFlux (buf : List Byte) : Except Err (List Rat) :=
  if buf = [] then .error .panic
  else .ok ((fluxTicks 0 buf).map fun (n : Nat) => (n : Rat) * (125 / 1000000000))

/-- The two formats. -/
inductive Kind where
  | moof | woz
  deriving DecidableEq, Repr

/-- `MOOF_MAGIC` (src/file_parsers/as/moof.rs:61) and `WOZ_MAGIC` (src/file_parsers/as/woz.rs:61). -/
def Kind.magic : Kind → List Byte
  | .moof => [0x4D#8, 0x4F#8, 0x4F#8, 0x46#8]
  | .woz => [0x57#8, 0x4F#8, 0x5A#8, 0x32#8]

/-- What is used of `InfoChunk` (src/file_parsers/as/moof.rs:132-163, src/file_parsers/as/woz.rs:92-128). -/
structure Info where
  version : Nat
  disk : Nat
  protect : Bool
  sides : Nat
  fluxBlock : Nat
  largestFlux : Nat
  deriving DecidableEq, Repr

/-- `InfoChunk::read` at byte `o`; `none` for an error.  A MOOF's has 44 bytes; a WOZ's 37, 9 more from version 2 on, and 4 more from
version 3 on. -/
def infoAt (k : Kind) (f : List Byte) (o : Nat) : Option Info :=
  match k with
  | .moof =>
    if f.length < o + 44 then none
    else some ⟨u8At f o, u8At f (o + 1), u8At f (o + 2) != 0, 0, le16At f (o + 40), le16At f (o + 42)⟩
  | .woz =>
    if f.length < o + 37 then none
    else if u8At f o < 2 then some ⟨u8At f o, u8At f (o + 1), u8At f (o + 2) != 0, 0, 0, 0⟩
    else if f.length < o + 46 then none
    else if u8At f o < 3 then some ⟨u8At f o, u8At f (o + 1), u8At f (o + 2) != 0, u8At f (o + 37), 0, 0⟩
    else if f.length < o + 50 then none
    else some ⟨u8At f o, u8At f (o + 1), u8At f (o + 2) != 0, u8At f (o + 37), le16At f (o + 46), le16At f (o + 48)⟩

/-- Which versions are accepted (src/file_parsers/as/moof.rs:386-391, src/file_parsers/as/woz.rs:410-414). -/
def Kind.accepts : Kind → Nat → Bool
  | .moof, v => v == 1
  | .woz, v => v ≤ 3

/-- The chunks kept: the INFO chunk, and where the data of the others begin. -/
structure Parts where
  info : Option Info := none
  tmap : Option Nat := none
  trks : Option Nat := none
  flux : Option Nat := none
  deriving DecidableEq, Repr

/-- The names of the chunks. -/
def idInfo : List Byte := [0x49#8, 0x4E#8, 0x46#8, 0x4F#8]
def idTmap : List Byte := [0x54#8, 0x4D#8, 0x41#8, 0x50#8]
def idTrks : List Byte := [0x54#8, 0x52#8, 0x4B#8, 0x53#8]
def idFlux : List Byte := [0x46#8, 0x4C#8, 0x55#8, 0x58#8]
def idMeta : List Byte := [0x4D#8, 0x45#8, 0x54#8, 0x41#8]

/-- The loop over the chunks and `read_chunk` (src/file_parsers/as/moof.rs:357-437, 662-715; src/file_parsers/as/woz.rs:379-463,
745-833) from byte `o` on: any read error ends the loop silently.  What is read of a chunk does not depend on its size; the next
one begins where the size says.  Every chunk takes at least 8 bytes, so `n` chunks are enough if `n` is at least the length of the
file. -/
def chunks (k : Kind) (f : List Byte) : Nat → Nat → Parts → Except Err Parts
  | 0, _, p => .ok p
  | n + 1, o, p =>
    if o = f.length then .ok p
    else if f.length < o + 8 then .ok p
    else
      let id := (f.drop o).take 4
      let next := o + 8 + le32At f (o + 4)
      if id = idInfo then
        match infoAt k f (o + 8) with
        | none => .ok p
        | some i => if k.accepts i.version then chunks k f n next { p with info := some i } else .error .incompatible
      else if id = idTmap then
        if f.length < o + 8 + 160 then .ok p else chunks k f n next { p with tmap := some (o + 8) }
      else if id = idTrks then
        if f.length < o + 8 + 1280 then .ok p else chunks k f n next { p with trks := some (o + 8) }
      else if id = idFlux then
        if f.length < o + 8 + 160 then .ok p else chunks k f n next { p with flux := some (o + 8) }
      else if id = idMeta then
        if f.length < next then .ok p else chunks k f n next p
      else chunks k f n next p

/-- `Trk` (src/file_parsers/as/moof.rs:222-229), 8 bytes: the first byte, the number of bytes and the number of cells. -/
structure Trk where
  start : Nat
  bytes : Nat
  cells : Nat
  deriving DecidableEq, Repr

/-- Entry `e` of the TRKS chunk. -/
def trkAt (f : List Byte) (trks e : Nat) : Trk :=
  ⟨le16At f (trks + 8 * e) * 512, le16At f (trks + 8 * e + 2) * 512, le32At f (trks + 8 * e + 4)⟩

/-- `BitStreamTrack::new` for GCR data with a cell count (src/track/bitstream.rs:896-1116, src/bitstream_codec/gcr.rs:241-276): the GCR
codec finds no markers (src/bitstream_codec/gcr.rs), so the track has no schema and no elements. -/
def gcrTrack (data : List Byte) (cells : Nat) : Track :=
  let bits := if data = [] then List.replicate cells false else (bitsOf data).take cells
  { data := { bits := BitRing.ofBits bits, clockMap := BitRing.ofBits (List.replicate bits.length false),
              weakMask := BitRing.ofBits (List.replicate bits.length false) } }

/-- `BitStreamTrack::new` for either encoding (src/track/bitstream.rs:896-1116). -/
def bitTrack (debug : Bool) (rnd : Nat → Bool) (enc : Encoding) (data : List Byte) (cells : Nat) : Except Err Track :=
  match enc with
  | .mfm => Track.ofBytes debug rnd data (some cells) false
  | _ => .ok (gcrTrack data cells)

/-- What the loop over the tracks is about: the limits of the iterator over the tracks, the encoding, how many cells an empty track
has, whether one is added even without a FLUX chunk, and where the chunks are. -/
structure Plan where
  geom : Ch
  enc : Encoding
  blank : Nat
  always : Bool
  tmap : Nat
  trks : Nat
  flux : Option Nat

/-- `add_bitstream_track` (src/file_parsers/as/moof.rs:561-600, src/file_parsers/as/woz.rs:643-683). -/
def addBits (debug : Bool) (rnd : Nat → Bool) (f : List Byte) (enc : Encoding) (d : Disk) (ch : Ch) (t : Trk) : Except Err Disk :=
  match readAt f t.start t.bytes with
  | .error e => .error e
  | .ok data =>
    match d.addBit ch (bitTrack debug rnd enc data t.cells) with
    | (_, .error e) => .error e
    | (d, .ok _) => .ok d

/-- `add_fluxstream_track` (src/file_parsers/as/moof.rs:602-660, src/file_parsers/as/woz.rs:685-743): one revolution, which takes a turn
at 300 rpm whatever the flux times add up to. -/
def addTimes (debug : Bool) (rnd : Nat → Bool) (fm : FmCodec) (f : List Byte) (d : Disk) (ch : Ch) (t : Trk) : Except Err Disk :=
  match readAt f t.start t.bytes with
  | .error e => .error e
  | .ok data =>
    match decodeFlux data with
    | .error e => .error e
    | .ok fs =>
      match d.addFlux ch (match make debug rnd fm none none [Rev.ofDeltas ch fs (1 / 5)] with
          | .ok m => .ok m.bitstream
          | .error e => .error e) with
      | (_, .error e) => .error e
      | (d, .ok _) => .ok d

/-- `add_empty_track` as used here. -/
def addBlank (p : Plan) (d : Disk) (ch : Ch) : Except Err Disk :=
  match d.addEmpty ch p.enc (some .bitStream) p.blank none with
  | (_, .error e) => .error e
  | (d, .ok _) => .ok d

/-- What the loop does with one entry of the track map (the body of the loop, src/file_parsers/as/moof.rs:475-535,
src/file_parsers/as/woz.rs:499-617). -/
def addSlot (debug : Bool) (rnd : Nat → Bool) (fm : FmCodec) (f : List Byte) (p : Plan) (s : Nat) (d : Disk) (ch : Ch) :
    Except Err Disk :=
  if u8At f (p.tmap + s) ≠ 255 then addBits debug rnd f p.enc d ch (trkAt f p.trks (u8At f (p.tmap + s)))
  else
    match p.flux with
    | some q =>
      if u8At f (q + s) < 160 then addTimes debug rnd fm f d ch (trkAt f p.trks (u8At f (q + s))) else addBlank p d ch
    | none => if p.always then addBlank p d ch else .ok d

/-- The loop over the entries of the track map (src/file_parsers/as/moof.rs:475-535, src/file_parsers/as/woz.rs:499-617): `slots` are
the entries' numbers, `place` the last track of the iterator.  Yields the disk and the place. -/
def tracks (debug : Bool) (rnd : Nat → Bool) (fm : FmCodec) (f : List Byte) (p : Plan) :
    List Nat → Option Ch → Disk → Except Err (Disk × Option Ch)
  | [], place, d => .ok (d, place)
  | s :: slots, place, d =>
    let e := u8At f (p.tmap + s)
    if e ≠ 255 ∧ 160 ≤ e then .error .corrupt
    else
      match Ch.iterNext p.geom place with
      | none => .error .panic
      | some ch =>
        match addSlot debug rnd fm f p s d ch with
        | .error x => .error x
        | .ok d => tracks debug rnd fm f p slots (some ch) d

/-- The numbers of the entries visited: the first `sides` of every pair. -/
def pairSlots (sides : Nat) : List Nat := (List.range 160).filter fun s => s % 2 < sides

/-- `heads` and the encoding of a MOOF disk type (src/file_parsers/as/moof.rs:73-101). -/
def moofDisk (t : Nat) : Option (Nat × Encoding) :=
  if t = 1 then some (1, .gcr) else if t = 2 then some (2, .gcr) else if t = 3 then some (2, .mfm) else if t = 4 then some (2, .gcr)
  else none

/-- The end of `load_image`: all tracks, then the geometry. -/
def finish (debug : Bool) (rnd : Nat → Bool) (fm : FmCodec) (f : List Byte) (p : Plan) (slots : List Nat) (sides : Nat) (protect : Bool)
    (d : Disk) : Except Err (Disk × Bool) :=
  match tracks debug rnd fm f p slots none d with
  | .error e => .error e
  | .ok (d, place) =>
    match Ch.iterNext p.geom place with
    | none => .error .panic
    | some ch => .ok ({ d with geometry := ⟨ch.c, sides⟩ }, protect)

/-- The part of `load_image` after the chunks are read (src/file_parsers/as/moof.rs:439-559, src/file_parsers/as/woz.rs:465-641).  A
WOZ's INFO chunk of version 1 has no number of sides; it counts as 0. -/
def build (k : Kind) (debug : Bool) (rnd : Nat → Bool) (fm : FmCodec) (f : List Byte) (d : Disk) (p : Parts) :
    Except Err (Disk × Bool) :=
  match p.info with
  | none => .error .corrupt
  | some i =>
    let d := if 0 < i.fluxBlock ∧ 0 < i.largestFlux then d.setMultires true else d
    match k with
    | .moof =>
      match moofDisk i.disk with
      | none => .error .incompatible
      | some (heads, enc) =>
        match p.tmap, p.trks with
        | some tmap, some trks =>
          finish debug rnd fm f ⟨⟨160, heads⟩, enc, 0, false, tmap, trks, p.flux⟩ (pairSlots heads) heads i.protect d
        | _, _ => .error .corrupt
    | .woz =>
      match p.tmap, p.trks with
      | some tmap, some trks =>
        if i.disk = 2 then
          finish debug rnd fm f ⟨⟨161, i.sides⟩, .gcr, 0, false, tmap, trks, p.flux⟩ (pairSlots i.sides) i.sides i.protect d
        else
          finish debug rnd fm f ⟨⟨161, i.sides⟩, .gcr, 51000, true, tmap, trks, p.flux⟩
            (if i.disk = 1 then List.range 160 else []) i.sides i.protect d
      | _, _ => .error .corrupt

/-- `load_image` (src/file_parsers/as/moof.rs:315-559, src/file_parsers/as/woz.rs:342-641): the disk and whether it is write protected.
A file too short for the header is not refused at once: its chunks are looked for from its first byte on. -/
def load (k : Kind) (debug : Bool) (rnd : Nat → Bool) (fm : FmCodec) (d : Disk) (f : List Byte) : Except Err (Disk × Bool) :=
  if 12 ≤ f.length ∧ f.take 4 ≠ k.magic then .error .corrupt
  else if 12 ≤ f.length ∧ (crc32 (f.drop 12) 0#32).toNat ≠ le32At f 8 then .error .corrupt
  else
    match chunks k f (f.length + 1) (if 12 ≤ f.length then 12 else 0) {} with
    | .error e => .error e
    | .ok p => build k debug rnd fm f d p

end Sauce
end Fox
