import Verif.Model.Chs
import Verif.Model.System34
/-
Model of src/types/standard_format.rs (with the `amiga` feature enabled).
-/
namespace Fox

/-- `StandardFormat` (src/types/standard_format.rs:148-175). -/
inductive StdFormat where
  | pc160 | pc180 | pc320 | pc360 | pc720 | pc1200 | pc1440 | pc2880 | amiga880 | amiga1760
  deriving DecidableEq, Repr

namespace StdFormat

/-- All variants (`strum::EnumIter`). -/
def all : List StdFormat :=
  [.pc160, .pc180, .pc320, .pc360, .pc720, .pc1200, .pc1440, .pc2880, .amiga880, .amiga1760]

/-- `StandardFormat::layout` (src/types/standard_format.rs:205-220). -/
def layout : StdFormat → Layout
  | .pc160 => ⟨40, 1, 8, 1, 512⟩
  | .pc180 => ⟨40, 1, 9, 1, 512⟩
  | .pc320 => ⟨40, 2, 8, 1, 512⟩
  | .pc360 => ⟨40, 2, 9, 1, 512⟩
  | .pc720 => ⟨80, 2, 9, 1, 512⟩
  | .pc1200 => ⟨80, 2, 15, 1, 512⟩
  | .pc1440 => ⟨80, 2, 18, 1, 512⟩
  | .pc2880 => ⟨80, 2, 36, 1, 512⟩
  | .amiga880 => ⟨80, 2, 11, 0, 512⟩
  | .amiga1760 => ⟨80, 2, 22, 0, 512⟩

/-- `StandardFormat::normalized_track_ct` (src/types/standard_format.rs:222-228). -/
def normalizedTrackCt (n : Nat) : Option Nat :=
  if 35 ≤ n ∧ n < 50 then some 40 else if 75 ≤ n ∧ n < 100 then some 80 else none

/-- `StandardFormat::bitcell_ct` (src/types/standard_format.rs:300-315). -/
def bitcellCt : StdFormat → Nat
  | .pc160 | .pc180 | .pc320 | .pc360 | .pc720 => 100000
  | .pc1200 => 166666
  | .pc1440 => 200000
  | .pc2880 => 400000
  | .amiga880 => 100000
  | .amiga1760 => 200000

/-- `StandardFormat::gap3` (src/types/standard_format.rs:318-333). -/
def gap3 : StdFormat → Nat
  | .pc160 | .pc180 | .pc320 | .pc360 | .pc720 => 0x50
  | .pc1200 => 0x54
  | .pc1440 => 0x6C
  | .pc2880 => 0x53
  | .amiga880 | .amiga1760 => 0x50

/-- `StandardFormat::disk_size` (src/types/standard_format.rs:349-364). -/
def diskSize : StdFormat → Nat
  | .pc160 => 163840
  | .pc180 => 184320
  | .pc320 => 327680
  | .pc360 => 368640
  | .pc720 => 737280
  | .pc1200 => 1228800
  | .pc1440 => 1474560
  | .pc2880 => 2949120
  | .amiga880 => 901120
  | .amiga1760 => 1802240

/-- `TryFrom<usize> for StandardFormat` (src/types/standard_format.rs:388-408). -/
def ofSize (size : Nat) : Option StdFormat :=
  if size = 163840 then some .pc160
  else if size = 184320 then some .pc180
  else if size = 327680 then some .pc320
  else if size = 368640 then some .pc360
  else if size = 737280 then some .pc720
  else if size = 1228800 then some .pc1200
  else if size = 1474560 then some .pc1440
  else if size = 2949120 then some .pc2880
  else if size = 901120 then some .amiga880
  else none

/-- `TryFrom<&DiskChs> for StandardFormat` (src/types/standard_format.rs:418-438). -/
def ofChs (x : Chs) : Option StdFormat :=
  if x = ⟨40, 1, 8⟩ then some .pc160
  else if x = ⟨40, 1, 9⟩ then some .pc180
  else if x = ⟨40, 2, 8⟩ then some .pc320
  else if x = ⟨40, 2, 9⟩ then some .pc360
  else if x = ⟨80, 2, 9⟩ then some .pc720
  else if x = ⟨80, 2, 15⟩ then some .pc1200
  else if x = ⟨80, 2, 18⟩ then some .pc1440
  else if x = ⟨80, 2, 36⟩ then some .pc2880
  else if x = ⟨80, 2, 11⟩ then some .amiga880
  else none

/-- `StandardFormat::chs` (src/types/standard_format.rs:241-243, src/types/sector_layout.rs:164-166). -/
def chs (f : StdFormat) : Chs := ⟨f.layout.c, f.layout.h, f.layout.s⟩

/-- `From<StandardFormat> for Platform` = `Platform::IbmPc` (src/platform.rs:71-81). -/
def isPc : StdFormat → Bool
  | .amiga880 | .amiga1760 => false
  | _ => true

/-- `Display for StandardFormatParam` (src/types/standard_format.rs:105-123). -/
def toParam : StdFormat → String
  | .pc160 => "pc_160k" | .pc180 => "pc_180k" | .pc320 => "pc_320k" | .pc360 => "pc_360k"
  | .pc720 => "pc_720k" | .pc1200 => "pc_1200k" | .pc1440 => "pc_1440k" | .pc2880 => "pc_2880k"
  | .amiga880 => "amiga_880k" | .amiga1760 => "amiga_1760k"

/-- `FromStr for StandardFormatParam` (src/types/standard_format.rs:75-101) after lower-casing: an optional
`pc_` prefix is stripped once.  Strings are lists of characters. -/
def ofParam (lower : List Char) : Option StdFormat :=
  let s := match lower with
    | 'p' :: 'c' :: '_' :: rest => rest
    | s => s
  if s = "160k".toList then some .pc160
  else if s = "180k".toList then some .pc180
  else if s = "320k".toList then some .pc320
  else if s = "360k".toList then some .pc360
  else if s = "720k".toList then some .pc720
  else if s = "1200k".toList then some .pc1200
  else if s = "1440k".toList then some .pc1440
  else if s = "2880k".toList then some .pc2880
  else if s = "amiga_880k".toList then some .amiga880
  else if s = "amiga_1760k".toList then some .amiga1760
  else none

/-- `StandardFormatParam::list` (src/types/standard_format.rs:134-147). -/
def paramList : List (String × StdFormat) :=
  [("pc_160k", .pc160), ("pc_180k", .pc180), ("pc_320k", .pc320), ("pc_360k", .pc360), ("pc_720k", .pc720),
   ("pc_1200k", .pc1200), ("pc_1440k", .pc1440), ("pc_2880k", .pc2880), ("amiga_880k", .amiga880)]

end StdFormat

/-- `BiosParameterBlock2` (src/boot_sector/bpb.rs:45-58): little-endian fields. -/
structure Bpb2 where
  bytesPerSector : BitVec 16
  sectorsPerCluster : Byte
  reservedSectors : BitVec 16
  numberOfFats : Byte
  rootEntries : BitVec 16
  totalSectors : BitVec 16
  mediaDescriptor : Byte
  sectorsPerFat : BitVec 16
  deriving DecidableEq, Repr

/-- `BiosParameterBlock3` (src/boot_sector/bpb.rs:222-231). -/
structure Bpb3 where
  sectorsPerTrack : BitVec 16
  numberOfHeads : BitVec 16
  hiddenSectors : BitVec 32
  deriving DecidableEq, Repr

/-- `BiosParameterBlock2::is_valid` (src/boot_sector/bpb.rs:64-86). -/
def Bpb2.isValid (b : Bpb2) : Bool :=
  if b.bytesPerSector.toNat < 128 ∨ b.bytesPerSector.toNat > 4096 then false
  else if b.sectorsPerCluster.toNat > 2 then false
  else if b.numberOfFats.toNat = 0 ∨ b.numberOfFats.toNat > 2 then false
  else if b.rootEntries.toNat < 0x70 ∨ b.rootEntries.toNat > 0xF0 then false
  else if b.totalSectors.toNat < 320 ∨ b.totalSectors.toNat > 5760 then false
  else if b.sectorsPerFat.toNat < 1 ∨ b.sectorsPerFat.toNat > 9 then false
  else true

/-- `TryFrom<&BiosParameterBlock2> for StandardFormat` (src/boot_sector/bpb.rs:89-127): the total sector
count decides, and only if it is unknown the media descriptor. -/
def Bpb2.format (b : Bpb2) : Option StdFormat :=
  if b.totalSectors = 320 then some .pc160
  else if b.totalSectors = 360 then some .pc180
  else if b.totalSectors = 640 then some .pc320
  else if b.totalSectors = 720 then some .pc360
  else if b.totalSectors = 1440 then some .pc720
  else if b.totalSectors = 1200 then some .pc1200
  else if b.totalSectors = 2880 then some .pc1440
  else if b.totalSectors = 5760 then some .pc2880
  else if b.mediaDescriptor = 0xFE then some .pc160
  else if b.mediaDescriptor = 0xFC then some .pc180
  else if b.mediaDescriptor = 0xFD then some .pc360
  else if b.mediaDescriptor = 0xFF then some .pc320
  else if b.mediaDescriptor = 0xF9 then some .pc1200
  else if b.mediaDescriptor = 0xF0 then some .pc1440
  else none

/-- `TryFrom<StandardFormat> for BiosParameterBlock2` (src/boot_sector/bpb.rs:129-220); `none` is
`UnsupportedFormat`. -/
def Bpb2.ofFormat : StdFormat → Option Bpb2
  | .pc160 => some ⟨512, 2, 1, 2, 0x70, 320, 0xFE, 1⟩
  | .pc180 => some ⟨512, 2, 1, 2, 0x70, 360, 0xFE, 1⟩
  | .pc320 => some ⟨512, 2, 1, 2, 0x70, 640, 0xFF, 1⟩
  | .pc360 => some ⟨512, 2, 1, 2, 0x70, 720, 0xFD, 2⟩
  | .pc720 => some ⟨512, 2, 1, 2, 0x70, 1440, 0xFD, 3⟩
  | .pc1200 => some ⟨512, 1, 1, 2, 0xE0, 2400, 0xF9, 7⟩
  | .pc1440 => some ⟨512, 1, 1, 2, 0xE0, 2880, 0xF0, 9⟩
  | .pc2880 => some ⟨512, 1, 1, 2, 0xF0, 5760, 0xF0, 9⟩
  | .amiga880 | .amiga1760 => none

/-- `TryFrom<StandardFormat> for BiosParameterBlock3` (src/boot_sector/bpb.rs:233-284). -/
def Bpb3.ofFormat : StdFormat → Option Bpb3
  | .pc160 => some ⟨8, 1, 0⟩
  | .pc180 => some ⟨9, 1, 0⟩
  | .pc320 => some ⟨8, 2, 0⟩
  | .pc360 => some ⟨9, 2, 0⟩
  | .pc720 => some ⟨9, 2, 0⟩
  | .pc1200 => some ⟨15, 2, 0⟩
  | .pc1440 => some ⟨18, 2, 0⟩
  | .pc2880 => some ⟨36, 2, 0⟩
  | .amiga880 | .amiga1760 => none

/-- Little-endian `u16` (binrw `#[brw(little)]`). -/
def le16 (x : BitVec 16) : List Byte := [x.extractLsb' 0 8, x.extractLsb' 8 8]
/-- Little-endian `u32`. -/
def le32 (x : BitVec 32) : List Byte :=
  [x.extractLsb' 0 8, x.extractLsb' 8 8, x.extractLsb' 16 8, x.extractLsb' 24 8]
/-- Read a little-endian `u16` at a byte offset. -/
def rdLe16 (b : List Byte) (o : Nat) : BitVec 16 := b.getD (o + 1) 0 ++ b.getD o 0
/-- Read a little-endian `u32` at a byte offset. -/
def rdLe32 (b : List Byte) (o : Nat) : BitVec 32 :=
  b.getD (o + 3) 0 ++ b.getD (o + 2) 0 ++ b.getD (o + 1) 0 ++ b.getD o 0

/-- The serialised BPB (binrw writes the fields in order): 13 bytes. -/
def Bpb2.bytes (b : Bpb2) : List Byte :=
  le16 b.bytesPerSector ++ [b.sectorsPerCluster] ++ le16 b.reservedSectors ++ [b.numberOfFats] ++
    le16 b.rootEntries ++ le16 b.totalSectors ++ [b.mediaDescriptor] ++ le16 b.sectorsPerFat

/-- The serialised extension: 8 bytes. -/
def Bpb3.bytes (b : Bpb3) : List Byte := le16 b.sectorsPerTrack ++ le16 b.numberOfHeads ++ le32 b.hiddenSectors

/-- `BPB_OFFSET` (src/boot_sector/bpb.rs:43). -/
def bpbOffset : Nat := 0x0B

/-- `BootSector` (src/boot_sector/bootsector.rs:76-83). -/
structure BootSector where
  bpb2 : Bpb2
  bpb3 : Bpb3
  marker : List Byte
  buf : List Byte
  deriving DecidableEq, Repr

/-- `BiosParameterBlock2::read` at an offset of a buffer. -/
def Bpb2.read (b : List Byte) (o : Nat) : Bpb2 :=
  ⟨rdLe16 b o, b.getD (o + 2) 0, rdLe16 b (o + 3), b.getD (o + 5) 0, rdLe16 b (o + 6), rdLe16 b (o + 8),
    b.getD (o + 10) 0, rdLe16 b (o + 11)⟩

/-- `BiosParameterBlock3::read` at an offset of a buffer. -/
def Bpb3.read (b : List Byte) (o : Nat) : Bpb3 := ⟨rdLe16 b o, rdLe16 b (o + 2), rdLe32 b (o + 4)⟩

/-- `BootSector::new` (src/boot_sector/bootsector.rs:93-116): the first 512 bytes are kept (a shorter buffer
is an error), the marker is taken from the *end of the buffer*. -/
def BootSector.new (b : List Byte) : Option BootSector :=
  if b.length < 512 then none
  else some ⟨Bpb2.read b bpbOffset, Bpb3.read b (bpbOffset + 13), b.drop (b.length - 2), b.take 512⟩

/-- Overwrite bytes of a buffer from an offset on (`Cursor` seek and write inside the buffer). -/
def putAt (buf : List Byte) (o : Nat) (bs : List Byte) : List Byte :=
  buf.take o ++ bs ++ buf.drop (o + bs.length)

/-- `BootSector::update_bpb_from_format` (src/boot_sector/bootsector.rs:172-184): an Amiga format fails. -/
def BootSector.updateBpb (s : BootSector) (f : StdFormat) : Option BootSector :=
  match Bpb2.ofFormat f, Bpb3.ofFormat f with
  | some b2, some b3 => some { s with bpb2 := b2, bpb3 := b3, buf := putAt s.buf bpbOffset (b2.bytes ++ b3.bytes) }
  | _, _ => none

/-- The creator string of the built-in boot sector, `"fluxfox "` (src/boot_sector/bootsector.rs:148). -/
def creatorTag : List Byte := [0x66, 0x6C, 0x75, 0x78, 0x66, 0x6F, 0x78, 0x20]

/-- `BootSector::set_creator` (src/boot_sector/bootsector.rs:121-158). -/
def BootSector.setCreator (s : BootSector) (creator : List Byte) : Option BootSector :=
  if (s.buf.drop 0x147).take 8 = creatorTag then some { s with buf := putAt s.buf 0x147 creator } else none

/-- `BootSector::standard_format` (src/boot_sector/bootsector.rs:208-210). -/
def BootSector.standardFormat (s : BootSector) : Option StdFormat := s.bpb2.format

end Fox
