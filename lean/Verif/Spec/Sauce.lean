import Verif.Spec.Crc32
import Verif.Spec.Scp
import Verif.Spec.Flux
/-
The Applesauce formats MOOF (Macintosh disks) and WOZ 2 (Apple II disks).  A header of 12 bytes: a magic number, four bytes that show
whether the file was damaged as a text (FF 0A 0D 0A), and the CRC-32 of the rest.  Then chunks: a name of four bytes, a size of four
bytes, the data.  The TMAP chunk has 160 entries, a number of a track in the TRKS chunk or 255 for each place of the disk; the FLUX
chunk has such a map for flux tracks.  The TRKS chunk tells for each number the first block (of 512 bytes) of the track in the file, the
number of blocks, and the number of cells (or of bytes of flux).
-/
namespace Fox
namespace Spec
namespace SauceFile
open ScpFile (byte word dword)

/-- A chunk. -/
structure Chunk where
  id : List Byte
  data : List Byte

/-- A number of four bytes, the least significant first. -/
def four (n : Nat) : List Byte := [BitVec.ofNat 8 n, BitVec.ofNat 8 (n / 256), BitVec.ofNat 8 (n / 65536), BitVec.ofNat 8 (n / 16777216)]

/-- The bytes of a chunk. -/
def Chunk.bytes (c : Chunk) : List Byte := c.id ++ (four c.data.length ++ c.data)

/-- The names. -/
def moof : List Byte := [0x4D, 0x4F, 0x4F, 0x46]
def woz2 : List Byte := [0x57, 0x4F, 0x5A, 0x32]
def info : List Byte := [0x49, 0x4E, 0x46, 0x4F]
def tmap : List Byte := [0x54, 0x4D, 0x41, 0x50]
def trks : List Byte := [0x54, 0x52, 0x4B, 0x53]
def flux : List Byte := [0x46, 0x4C, 0x55, 0x58]

/-- A file of chunks. -/
structure Consists (magic : List Byte) (f : List Byte) (cs : List Chunk) : Prop where
  long : 12 ≤ f.length
  magic : f.take 4 = magic
  crc : IsCrc32 (f.drop 12) (BitVec.ofNat 32 (dword f 8))
  chunks : f.drop 12 = cs.flatMap Chunk.bytes
  sizes : ∀ c ∈ cs, c.id.length = 4 ∧ c.data.length < 2 ^ 32

/-- The data of the chunk of that name, the last one if there are several. -/
def part (cs : List Chunk) (id : List Byte) : Option (List Byte) := ((cs.filter fun c => c.id == id).getLast?).map Chunk.data

/-- A track of the TRKS chunk: where it begins, how many bytes and how many cells it has. -/
def start (t : List Byte) (e : Nat) : Nat := 512 * word t (8 * e)
def size (t : List Byte) (e : Nat) : Nat := 512 * word t (8 * e + 2)
def count (t : List Byte) (e : Nat) : Nat := dword t (8 * e + 4)

/-- The cells of track `e`, the most significant bit of each byte first. -/
def cells (f t : List Byte) (e : Nat) : List Bool :=
  (List.range (count t e)).map fun k => (f.getD (start t e + k / 8) 0#8).getMsbD (k % 8)

/-- The bytes of track `e`. -/
def data (f t : List Byte) (e : Nat) : List Byte := (f.drop (start t e)).take (size t e)

/-- The flux times are written as numbers of ticks: a byte for each flux, if necessary after as many bytes of 255, which are added; what
stands after the last flux are zeros. -/
def spelled (n : Nat) : List Byte := List.replicate (n / 255) 255#8 ++ [BitVec.ofNat 8 (n % 255)]

/-- `b` are the bytes of the flux times `ts`, in ticks, followed by zeros. -/
def Spells (b : List Byte) (ts : List Nat) : Prop := ∃ z, b = ts.flatMap spelled ++ List.replicate z 0#8

/-- Flux times in seconds: a tick is 125 ns. -/
def seconds (ts : List Nat) : List Rat := ts.map fun (n : Nat) => (n : Rat) * (125 / 1000000000)

/-- A disk as its INFO chunk describes it: the number of sides, whether its cells are MFM, and whether it is a disk of a 5.25" drive, whose
places are quarters of tracks. -/
structure Drive where
  sides : Nat
  mfm : Bool
  quarter : Bool

/-- How many cylinders it has, a quarter of a track being one. -/
def Drive.cylinders (v : Drive) : Nat := if v.quarter then 160 else 80

/-- The entry of the maps for a place. -/
def Drive.slot (v : Drive) (ch : Ch) : Nat := if v.quarter then ch.c else 2 * ch.c + ch.h

/-- The places of a disk. -/
def Drive.Place (v : Drive) (ch : Ch) : Prop := ch.c < v.cylinders ∧ ch.h < v.sides

/-- What the maps say of an entry: the number of a track of cells, the number of a track of flux, or nothing. -/
inductive Entry where
  | bits (e : Nat)
  | flux (e : Nat)
  | empty
  deriving DecidableEq

/-- The entry `s`; a track of cells is preferred. -/
def entry (m : List Byte) (x : Option (List Byte)) (s : Nat) : Entry :=
  if byte m s ≠ 255 then .bits (byte m s)
  else
    match x with
    | none => .empty
    | some x => if byte x s ≠ 255 then .flux (byte x s) else .empty

/-- The maps, the table of tracks and whether the INFO chunk announces flux tracks. -/
structure Tables where
  map : List Byte
  table : List Byte
  fluxMap : Option (List Byte)
  announced : Bool

/-- What is asked of a place: the number of its track is less than 160, the track lies in the file and has a block; there are not more
cells than bits. -/
structure Tables.Good (T : Tables) (f : List Byte) (s : Nat) : Prop where
  bits : ∀ e, entry T.map T.fluxMap s = .bits e →
    e < 160 ∧ 0 < size T.table e ∧ start T.table e + size T.table e ≤ f.length ∧ count T.table e ≤ 8 * size T.table e
  flux : ∀ e, entry T.map T.fluxMap s = .flux e →
    e < 160 ∧ 0 < size T.table e ∧ start T.table e + size T.table e ≤ f.length ∧ T.announced = true

/-- A well-formed MOOF or WOZ of a disk: each of the chunks that matter has its proper size, and its places are good. -/
structure Tables.WellFormed (T : Tables) (f : List Byte) (cs : List Chunk) (v : Drive) : Prop where
  map : part cs tmap = some T.map
  table : part cs trks = some T.table
  fluxMap : part cs SauceFile.flux = T.fluxMap
  sizes : ∀ c ∈ cs, (c.id = tmap ∨ c.id = SauceFile.flux → c.data.length = 160) ∧ (c.id = trks → 1280 ≤ c.data.length)
  good : ∀ ch, v.Place ch → T.Good f (v.slot ch)

/-- No place of the disk is without a track; or places may be, because the disk is one of a 5.25" drive or the file has a FLUX chunk. -/
def Tables.NoHoles (T : Tables) (v : Drive) : Prop :=
  v.quarter = true ∨ T.fluxMap ≠ none ∨ ∀ ch, v.Place ch → entry T.map T.fluxMap (v.slot ch) ≠ .empty

/-- The disk of a MOOF's INFO chunk, 60 bytes (of which the first 44 are in use): version 1, a type. -/
def moofDrive (i : List Byte) : Option Drive :=
  if byte i 1 = 1 then some ⟨1, false, false⟩
  else if byte i 1 = 2 ∨ byte i 1 = 4 then some ⟨2, false, false⟩
  else if byte i 1 = 3 then some ⟨2, true, false⟩
  else none

/-- The disk of a WOZ's INFO chunk: version 2 or 3, type 1 for 5.25" disks (one side), type 2 for 3.5" disks. -/
def wozDrive (i : List Byte) : Option Drive :=
  if byte i 1 = 1 ∧ byte i 37 = 1 then some ⟨1, false, true⟩
  else if byte i 1 = 2 ∧ (byte i 37 = 1 ∨ byte i 37 = 2) then some ⟨byte i 37, false, false⟩
  else none

/-- A well-formed MOOF of the disk `v`. -/
structure Moof (f : List Byte) (cs : List Chunk) (v : Drive) (T : Tables) : Prop where
  file : Consists moof f cs
  info : ∃ i, part cs SauceFile.info = some i ∧ moofDrive i = some v ∧ T.announced = decide (0 < word i 40 ∧ 0 < word i 42)
  versions : ∀ c ∈ cs, c.id = SauceFile.info → 44 ≤ c.data.length ∧ byte c.data 0 = 1
  tables : T.WellFormed f cs v

/-- A well-formed WOZ of the disk `v`. -/
structure Woz (f : List Byte) (cs : List Chunk) (v : Drive) (T : Tables) : Prop where
  file : Consists woz2 f cs
  info : ∃ i, part cs SauceFile.info = some i ∧ wozDrive i = some v ∧
    T.announced = decide (byte i 0 = 3 ∧ 0 < word i 46 ∧ 0 < word i 48)
  versions : ∀ c ∈ cs, c.id = SauceFile.info → 46 ≤ c.data.length ∧ byte c.data 0 = 2 ∨ 50 ≤ c.data.length ∧ byte c.data 0 = 3
  tables : T.WellFormed f cs v

end SauceFile
end Spec
end Fox
