import Verif.Spec.Crc32
import Verif.Spec.Chs
/-
The IPF format: a sequence of chunks, each with an id of four bytes, its size, a CRC-32 and data, of which a DATA chunk is
followed by as many bytes of extra data as it tells.  An IMGE chunk tells of a track where it is and how many cells it has;
the extra data with the same key tell its blocks: a descriptor of 32 bytes for each, and a stream of elements.  A `sync`
element is cells, the elements of the other kinds are bytes to be recorded in MFM.  A block's elements follow each other on
the track, then comes the block's gap.
-/
namespace Fox
namespace Spec
namespace IpfFile

/-- The big-endian number in the four bytes from `o` on. -/
def number (b : List Byte) (o : Nat) : Nat :=
  (b.getD o 0#8).toNat * 2 ^ 24 + (b.getD (o + 1) 0#8).toNat * 2 ^ 16 + (b.getD (o + 2) 0#8).toNat * 2 ^ 8 +
    (b.getD (o + 3) 0#8).toNat

/-- A big-endian number of any length. -/
def value : List Byte → Nat
  | [] => 0
  | x :: b => x.toNat * 256 ^ b.length + value b

/-- The bytes `b` are a chunk with the given id and data.  The CRC is that of the chunk with the CRC taken as zero. -/
def IsChunk (id data b : List Byte) : Prop :=
  id.length = 4 ∧ 12 + data.length ≤ 0x100000 ∧
  ∃ s c : List Byte, s.length = 4 ∧ c.length = 4 ∧ number s 0 = 12 + data.length ∧
    IsCrc32 (id ++ (s ++ ([0#8, 0#8, 0#8, 0#8] ++ data))) (BitVec.ofNat 32 (number c 0)) ∧ b = id ++ (s ++ (c ++ data))

/-- The same, but for the size, which may be any number below 12 as well if there are no data. -/
def IsChunkLax (id data b : List Byte) : Prop :=
  id.length = 4 ∧
  ∃ s c : List Byte, s.length = 4 ∧ c.length = 4 ∧ number s 0 ≤ 0x100000 ∧ number s 0 - 12 = data.length ∧
    IsCrc32 (id ++ (s ++ ([0#8, 0#8, 0#8, 0#8] ++ data))) (BitVec.ofNat 32 (number c 0)) ∧ b = id ++ (s ++ (c ++ data))

/-- A chunk, and what follows it before the next one. -/
structure Piece where
  id : List Byte
  data : List Byte
  extra : List Byte := []

/-- The file consists of these chunks. -/
def Consists : List Piece → List Byte → Prop
  | [], f => f = []
  | p :: ps, f => ∃ b rest, IsChunk p.id p.data b ∧ Consists ps rest ∧ f = b ++ (p.extra ++ rest)

def caps : List Byte := [0x43#8, 0x41#8, 0x50#8, 0x53#8]
def info : List Byte := [0x49#8, 0x4E#8, 0x46#8, 0x4F#8]
def imge : List Byte := [0x49#8, 0x4D#8, 0x47#8, 0x45#8]
def data : List Byte := [0x44#8, 0x41#8, 0x54#8, 0x41#8]

/-- The file begins with these chunks, and behind them there is nothing that is a chunk. -/
def Reads : List Piece → List Byte → Prop
  | [], f => ¬ ∃ id data b rest, IsChunkLax id data b ∧ f = b ++ rest
  | p :: ps, f => ∃ b rest, IsChunkLax p.id p.data b ∧ p.extra.length = (if p.id = data then number p.data 0 else 0) ∧
      Reads ps rest ∧ f = b ++ (p.extra ++ rest)

inductive Kind where
  | sync | data | gap
  deriving DecidableEq, Repr

def Kind.code : Kind → Nat
  | .sync => 1
  | .data => 2
  | .gap => 3

/-- An element of a stream. -/
structure Elem where
  kind : Kind
  bytes : List Byte
  deriving DecidableEq, Repr

/-- `b` begins with a stream of these elements: for each a byte with its kind and the width of its length, the length, and its
bytes; in the end a zero. -/
def Stream : List Elem → List Byte → Prop
  | [], b => ∃ rest, b = 0#8 :: rest
  | e :: es, b => ∃ (head : Byte) (size rest : List Byte), head.toNat % 8 = e.kind.code ∧ head.toNat / 32 = size.length ∧
      value size = e.bytes.length ∧ Stream es rest ∧ b = head :: (size ++ (e.bytes ++ rest))

/-- `b` begins with a list of gap elements, after which comes `rest`: repeat counts and samples, which the reader writes out
(`rep` is the last repeat count), for which it must have room. -/
inductive GapList (room : Nat) : Option Nat → List Byte → List Byte → Prop where
  | done (rep : Option Nat) (rest : List Byte) : GapList room rep (0#8 :: rest) rest
  | count (rep : Option Nat) (head : Byte) (size rest out : List Byte) : head.toNat % 4 = 1 → head.toNat / 32 = size.length →
      GapList room (some (value size)) rest out → GapList room rep (head :: (size ++ rest)) out
  | sample (rep : Option Nat) (head : Byte) (size bits rest out : List Byte) : head.toNat % 4 = 2 →
      head.toNat / 32 = size.length → bits.length = (value size + 7) / 8 → (value size + 7) / 8 ≤ room →
      (value size * rep.getD 1 + 7) / 8 ≤ room → value size * rep.getD 1 < 2 ^ 64 →
      GapList room none rest out → GapList room rep (head :: (size ++ (bits ++ rest))) out

/-- A block: its elements, and the number of cells of the gap behind it. -/
structure Block where
  elems : List Elem
  gap : Nat
  deriving DecidableEq, Repr

/-- A track: its place, the number of its cells, the cell at which its first block begins, and its blocks. -/
structure Track where
  ch : Ch
  cells : Nat
  start : Nat
  blocks : List Block
  deriving DecidableEq, Repr

/-- Bytes in MFM after a data bit `prev`: cell `2 k + 1` is bit `k`, cell `2 k` is set if bit `k` and the bit before are clear. -/
def mfm (prev : Bool) (b : List Byte) : List Bool :=
  (List.range (16 * b.length)).map fun i =>
    if i % 2 = 1 then (bitsOf b).getD (i / 2) false
    else !(bitsOf b).getD (i / 2) false && !(if i = 0 then prev else (bitsOf b).getD (i / 2 - 1) false)

/-- The cells of an element, if it is recorded as if after a clear bit. -/
def Elem.cells (e : Elem) : List Bool :=
  match e.kind with
  | .sync => bitsOf e.bytes
  | _ => mfm false e.bytes

/-- The cells of a block's elements. -/
def Block.cells (b : Block) : List Bool := b.elems.flatMap Elem.cells

/-- What lies on the track from its start on; of the gaps the cells are not told. -/
def Track.laid (t : Track) : List (Option Bool) :=
  t.blocks.flatMap fun b => b.cells.map some ++ List.replicate b.gap none

/-- The cells of the track: from the start on (which is rounded down to a whole byte of data) what is laid there, round the
track; every other cell, the gaps' too, is as on a blank track, where each second cell is set. -/
def Track.Shows (t : Track) (L : List Bool) : Prop :=
  L.length = t.cells ∧ ∀ k < t.cells,
    L.getD ((t.start / 16 * 16 + k) % t.cells) false =
      ((t.laid[k]?).join).getD ((t.start / 16 * 16 + k) % t.cells % 2 == 1)

/-- An entry of a file: a track, its key, and the bytes of its IMGE chunk, its DATA chunk and the extra data. -/
structure Entry where
  track : Track
  key : Nat
  image : List Byte
  record : List Byte
  edb : List Byte

/-- What the descriptor of a block, and the lists of gap elements of the newer version, have to tell. -/
structure Entry.BlockSays (room : Nat) (v2 : Bool) (x : Entry) (i : Nat) (b : Block) : Prop where
  gap : number x.edb (32 * i + 4) = b.gap
  stream : Stream b.elems (x.edb.drop (number x.edb (32 * i + 28)))
  even : ∀ e ∈ b.elems, e.kind = .sync → e.bytes.length % 2 = 0
  inBytes : v2 = true → number x.edb (32 * i + 20) / 4 % 2 = 0
  lists : v2 = true → 0 < b.gap → ∃ r1 r2,
    (if number x.edb (32 * i + 20) % 2 = 1 then GapList room none (x.edb.drop (number x.edb (32 * i + 8))) r1
     else r1 = x.edb.drop (number x.edb (32 * i + 8))) ∧
    (if number x.edb (32 * i + 20) / 2 % 2 = 1 then GapList room none r1 r2 else r2 = r1)

/-- What an entry's bytes have to tell. -/
structure Entry.Says (room : Nat) (v2 : Bool) (x : Entry) : Prop where
  image : 68 ≤ x.image.length
  track : number x.image 0 = x.track.ch.c
  side : number x.image 4 = x.track.ch.h
  start : number x.image 24 = x.track.start
  cells : number x.image 36 = x.track.cells
  count : number x.image 40 = x.track.blocks.length
  imageKey : number x.image 52 = x.key
  record : 16 ≤ x.record.length
  length : number x.record 0 = x.edb.length
  recordKey : number x.record 12 = x.key
  table : 32 * x.track.blocks.length ≤ x.edb.length
  block : ∀ i b, x.track.blocks[i]? = some b → x.BlockSays room v2 i b

/-- `f` is an IPF file with these entries: first the IMGE chunks, then the DATA chunks as ordered in `datas`. -/
structure IsFile (room : Nat) (v2 : Bool) (images datas : List Entry) (inf f : List Byte) : Prop where
  chunks : ∃ c, Consists (⟨caps, c, []⟩ :: ⟨info, inf, []⟩ ::
    (images.map (fun x => ⟨imge, x.image, []⟩) ++ datas.map fun x => ⟨data, x.record, x.edb⟩)) f
  infoLength : 84 ≤ inf.length
  version : number inf 4 = if v2 then 2 else 1
  says : ∀ x ∈ images, x.Says room v2
  keys : (images.map Entry.key).Nodup

/-- The places of the tracks: on each side the cylinders from 0 on, none left out and none twice. -/
structure Complete (l : List Ch) : Prop where
  side : ∀ ch ∈ l, ch.h < 2 ∧ ch.c < 65536
  once : l.Nodup
  below : ∀ ch ∈ l, ∀ c < ch.c, ⟨c, ch.h⟩ ∈ l

end IpfFile
end Spec
end Fox
