import Verif.Model.Raw
/-
Model of formatting a whole disk: `DiskImage::format`, `update_standard_boot_sector`
(src/diskimage.rs) and `ImageBuilder` (src/image_builder.rs).

Not modelled: flags (dirty), logging, `from_path` and `from_archive` of the builder (they read the host's file
system and go through the `fluxfox_fat` crate).
-/
namespace Fox

/-- `DEFAULT_BOOT_SECTOR` (src/diskimage.rs:95): the bytes of resources/bootsector.bin. -/
def defaultBoot : List Byte := [
  0xEB, 0x58, 0x90, 0x00, 0x00, 0x00, 0x00, 0x00, 0x00, 0x00, 0x00, 0x00, 0x00, 0x00, 0x00, 0x00,
  0x00, 0x00, 0x00, 0x00, 0x00, 0x00, 0x00, 0x00, 0x00, 0x00, 0x00, 0x00, 0x00, 0x00, 0x00, 0x00,
  0x00, 0x00, 0x00, 0x00, 0x00, 0x00, 0x00, 0x00, 0x00, 0x00, 0x00, 0x00, 0x00, 0x00, 0x00, 0x00,
  0x00, 0x00, 0x00, 0x00, 0x00, 0x00, 0x00, 0x00, 0x00, 0x00, 0x00, 0x00, 0x00, 0x00, 0x00, 0x00,
  0x00, 0x00, 0x00, 0x00, 0x00, 0x00, 0x00, 0x00, 0x00, 0x00, 0x00, 0x00, 0x00, 0x00, 0x00, 0x00,
  0x00, 0x00, 0x00, 0x00, 0x00, 0x00, 0x00, 0x00, 0x00, 0x00, 0xFA, 0x31, 0xC0, 0x8E, 0xD0, 0xBC,
  0x00, 0x7C, 0xB8, 0xB0, 0x07, 0x50, 0x50, 0x1F, 0x07, 0xBE, 0x00, 0x01, 0xBF, 0x00, 0x03, 0xB9,
  0x00, 0x01, 0xF3, 0xA5, 0xB8, 0xD0, 0x07, 0x50, 0x50, 0x50, 0x1F, 0x07, 0xB8, 0x81, 0x01, 0x50,
  0xCB, 0xFB, 0xBE, 0xD7, 0x01, 0xE8, 0x40, 0x00, 0xBE, 0x31, 0x02, 0xE8, 0x3A, 0x00, 0xB8, 0x01,
  0x02, 0xB9, 0x01, 0x00, 0xBA, 0x80, 0x00, 0x31, 0xDB, 0x8E, 0xC3, 0xBB, 0x00, 0x7C, 0x06, 0x53,
  0xCD, 0x13, 0x72, 0x0A, 0x26, 0x81, 0x3E, 0xFE, 0x7D, 0x55, 0xAA, 0x75, 0x01, 0xCB, 0xBE, 0x81,
  0x02, 0xE8, 0x14, 0x00, 0xB4, 0x01, 0xCD, 0x16, 0x74, 0x06, 0x30, 0xE4, 0xCD, 0x16, 0xEB, 0xF4,
  0x30, 0xE4, 0xCD, 0x16, 0x31, 0xD2, 0xCD, 0x19, 0xFC, 0xAC, 0x08, 0xC0, 0x75, 0x01, 0xC3, 0x56,
  0xB4, 0x0E, 0xCD, 0x10, 0x5E, 0xEB, 0xF2, 0x5C, 0x7C, 0x2F, 0x20, 0x20, 0x20, 0x20, 0x20, 0x20,
  0x20, 0x20, 0x20, 0x20, 0x28, 0x5F, 0x5F, 0x29, 0x0A, 0x0D, 0x20, 0x20, 0x20, 0x20, 0x20, 0x60,
  0x5C, 0x2D, 0x2D, 0x2D, 0x2D, 0x2D, 0x2D, 0x28, 0x6F, 0x6F, 0x29, 0x0A, 0x0D, 0x20, 0x20, 0x20,
  0x20, 0x20, 0x20, 0x20, 0x7C, 0x7C, 0x20, 0x20, 0x20, 0x20, 0x28, 0x5F, 0x5F, 0x29, 0x0A, 0x0D,
  0x20, 0x20, 0x20, 0x20, 0x20, 0x20, 0x20, 0x7C, 0x7C, 0x77, 0x2D, 0x2D, 0x7C, 0x7C, 0x20, 0x20,
  0x20, 0x20, 0x20, 0x5C, 0x7C, 0x2F, 0x0A, 0x0D, 0x20, 0x20, 0x20, 0x5C, 0x7C, 0x2F, 0x0A, 0x0D,
  0x00, 0x44, 0x69, 0x73, 0x6B, 0x20, 0x69, 0x6D, 0x61, 0x67, 0x65, 0x20, 0x63, 0x72, 0x65, 0x61,
  0x74, 0x65, 0x64, 0x20, 0x62, 0x79, 0x20, 0x66, 0x6C, 0x75, 0x78, 0x66, 0x6F, 0x78, 0x20, 0x20,
  0x0A, 0x0D, 0x4E, 0x6F, 0x74, 0x20, 0x61, 0x20, 0x73, 0x79, 0x73, 0x74, 0x65, 0x6D, 0x20, 0x64,
  0x69, 0x73, 0x6B, 0x21, 0x20, 0x42, 0x6F, 0x6F, 0x74, 0x69, 0x6E, 0x67, 0x20, 0x66, 0x72, 0x6F,
  0x6D, 0x20, 0x68, 0x61, 0x72, 0x64, 0x20, 0x64, 0x69, 0x73, 0x6B, 0x2E, 0x2E, 0x2E, 0x0A, 0x0D,
  0x00, 0x43, 0x61, 0x6E, 0x6E, 0x6F, 0x74, 0x20, 0x6C, 0x6F, 0x61, 0x64, 0x20, 0x66, 0x72, 0x6F,
  0x6D, 0x20, 0x68, 0x61, 0x72, 0x64, 0x20, 0x64, 0x69, 0x73, 0x6B, 0x21, 0x0A, 0x0D, 0x49, 0x6E,
  0x73, 0x65, 0x72, 0x74, 0x20, 0x61, 0x20, 0x73, 0x79, 0x73, 0x74, 0x65, 0x6D, 0x20, 0x64, 0x69,
  0x73, 0x6B, 0x20, 0x61, 0x6E, 0x64, 0x20, 0x70, 0x72, 0x65, 0x73, 0x73, 0x20, 0x61, 0x6E, 0x79,
  0x20, 0x6B, 0x65, 0x79, 0x2E, 0x2E, 0x2E, 0x0A, 0x0D, 0x00, 0x00, 0x00, 0x00, 0x00, 0x00, 0x00,
  0x00, 0x00, 0x00, 0x00, 0x00, 0x00, 0x00, 0x00, 0x00, 0x00, 0x00, 0x00, 0x00, 0x00, 0x00, 0x00,
  0x00, 0x00, 0x00, 0x00, 0x00, 0x00, 0x00, 0x00, 0x00, 0x00, 0x00, 0x00, 0x00, 0x00, 0x00, 0x00,
  0x00, 0x00, 0x00, 0x00, 0x00, 0x00, 0x00, 0x00, 0x00, 0x00, 0x00, 0x00, 0x00, 0x00, 0x55, 0xAA]

/-- `FileSystemType` (src/file_system/mod.rs:44-47). -/
inductive FsType where
  | fat12 | fat16
  deriving DecidableEq, Repr

namespace Disk

/-- The positions in the order of the loops of `format` (src/diskimage.rs:1331-1333, 1339-1341): head by
head. -/
def headMajor (g : Layout) : List Ch :=
  (List.range g.h).flatMap fun h => (List.range g.c).map fun c => ⟨c, h⟩

/-- Add an empty track at each position (src/diskimage.rs:1331-1336; src/image_builder.rs:224-233). -/
def addEmpties (f : StdFormat) (r : Resolution) : List Ch → Disk → Disk × Except Err Unit
  | [], d => (d, .ok ())
  | ch :: rest, d =>
    match d.addEmpty ch .mfm (some r) f.bitcellCt (some false) with
    | (d, .error e) => (d, .error e)
    | (d, .ok _) => addEmpties f r rest d

/-- The sector ids given to each track (src/diskimage.rs:1345-1348): numbered from 1. -/
def formatIds (g : Layout) (ch : Ch) : List Chsn := (List.range g.s).map fun s => ⟨ch.c, ch.h, s + 1, g.n⟩

/-- Format each track, filled with zero bytes (src/diskimage.rs:1339-1353). -/
def formatTracks (f : StdFormat) (nz : Noise) : List Ch → Disk → Disk × Except Err Unit
  | [], d => (d, .ok ())
  | ch :: rest, d =>
    match d.formatTrack nz ch (formatIds f.layout ch) [0x00] f.gap3 with
    | (d, .error e) => (d, .error e)
    | (d, .ok _) => formatTracks f nz rest d

/-- `write_boot_sector` (src/diskimage.rs:1383-1394): only an error of the write is reported, not a sector that
was not found. -/
def writeBoot (d : Disk) (buf : List Byte) : Disk × Except Err Unit :=
  match d.writeSector ⟨0, 0⟩ ⟨some 0, some 0, 1, some 2⟩ none buf false false with
  | (d, .error e) => (d, .error e)
  | (d, .ok _) => (d, .ok ())

/-- The boot sector made from a template (src/diskimage.rs:1313-1328): the parameter block of the format is
put in, then the creator's name. -/
def makeBoot (f : StdFormat) (boot : Option (List Byte)) (creator : Option (List Byte)) :
    Except Err (List Byte) :=
  match BootSector.new (boot.getD defaultBoot) with
  | none => .error .io
  | some b => match b.updateBpb f with
    | none => .error .unsupported
    | some b => match creator with
      | none => .ok b.buf
      | some c => match b.setCreator c with
        | none => .error .incompatible
        | some b => .ok b.buf

/-- `format` (src/diskimage.rs:1291-1358).  The image is emptied before the boot sector is looked at. -/
def format (d : Disk) (nz : Noise) (f : StdFormat) (r : Resolution) (fs : FsType)
    (boot : Option (List Byte)) (creator : Option (List Byte)) : Disk × Except Err Unit :=
  if fs ≠ .fat12 then (d, .error .unsupported)
  else
    let d := d.reset
    match makeBoot f boot creator with
    | .error e => (d, .error e)
    | .ok buf =>
      match addEmpties f r (headMajor f.layout) d with
      | (d, .error e) => (d, .error e)
      | (d, .ok _) =>
        match formatTracks f nz (headMajor f.layout) d with
        | (d, .error e) => (d, .error e)
        | (d, .ok _) => d.writeBoot buf

/-- `update_standard_boot_sector` (src/diskimage.rs:1403-1419): read, replace the parameter block, write back.
Anything but a 512 byte boot sector is left alone without an error. -/
def updateBoot (d : Disk) (nz : Noise) (f : StdFormat) : Disk × Except Err Unit :=
  match d.readBoot nz with
  | .error .panic => (d, .error .panic)
  | .error _ => (d, .ok ())
  | .ok buf => match BootSector.new buf with
    | none => (d, .ok ())
    | some b => match Bpb2.ofFormat f, Bpb3.ofFormat f with
      | some b2, some b3 =>
        { d with boot := (some { b with bpb2 := b2, bpb3 := b3,
                                        buf := putAt b.buf bpbOffset (b2.bytes ++ b3.bytes) }) }.writeBoot
          (putAt buf bpbOffset (b2.bytes ++ b3.bytes))
      | _, _ => ({ d with boot := some b }, .error .unsupported)

/-- `DiskImage::create` (src/diskimage.rs:178-205). -/
def create (f : StdFormat) : Disk := { geometry := f.layout.ch, standardFormat := some f, spt := some f.layout.s }

end Disk

/-- `ImageBuilder` (src/image_builder.rs:55-85) without the sources of files. -/
structure Builder where
  standardFormat : Option StdFormat := none
  resolution : Option Resolution := none
  creator : Option (List Byte) := none
  formatted : Bool := false
  fs : Option FsType := none

namespace Builder

/-- `with_standard_format` (src/image_builder.rs:92-95). -/
def withFormat (b : Builder) (f : StdFormat) : Builder := { b with standardFormat := some f }

/-- `with_resolution` (src/image_builder.rs:98-101). -/
def withResolution (b : Builder) (r : Resolution) : Builder := { b with resolution := some r }

/-- `with_filesystem` (src/image_builder.rs:106-112). -/
def withFs (b : Builder) (fs : FsType) : Builder := { b with fs := some fs, formatted := true }

/-- `with_formatted` (src/image_builder.rs:116-120). -/
def withFormatted (b : Builder) (y : Bool) : Builder :=
  { b with formatted := y, fs := if y then some .fat12 else none }

/-- `with_creator_tag` (src/image_builder.rs:180-187): cut to 8 bytes or padded with spaces. -/
def withCreator (b : Builder) (tag : List Byte) : Builder :=
  { b with creator := some (tag.take 8 ++ List.replicate (8 - tag.length) 0x20) }

/-- `build_bitstream` (src/image_builder.rs:208-288) without file injection. -/
def buildBit (b : Builder) (H : List Byte → Nat) (nz : Noise) (f : StdFormat) : Except Err Disk :=
  match Disk.addEmpties f .bitStream (Raw.trackOrder f.layout) ((Disk.create f).setResolution .bitStream) with
  | (_, .error e) => .error e
  | (d, .ok _) =>
    match b.formatted, b.fs with
    | true, some fs =>
      match d.format nz f .bitStream fs none b.creator with
      | (_, .error e) => .error e
      | (d, .ok _) => match d.postLoad H nz with
        | .error e => .error e
        | .ok d => if d.map0.length ≠ f.layout.c then .error .parameter else .ok d
    | _, _ => if d.map0.length ≠ f.layout.c then .error .parameter else .ok d

/-- `build_metasector` (src/image_builder.rs:290-306): no track is added. -/
def buildMeta (b : Builder) (H : List Byte → Nat) (nz : Noise) (f : StdFormat) : Except Err Disk :=
  if b.formatted then .error .unsupported
  else ((Disk.create f).setResolution .metaSector).postLoad H nz

/-- `build` (src/image_builder.rs:190-206). -/
def build (b : Builder) (H : List Byte → Nat) (nz : Noise) : Except Err Disk :=
  match b.resolution with
  | none => .error .parameter
  | some r => match b.standardFormat with
    | none => .error .unsupported
    | some f => match r with
      | .bitStream => b.buildBit H nz f
      | .metaSector => b.buildMeta H nz f
      | .fluxStream => .error .unsupported

end Builder
end Fox
