import Verif.Spec.Disk
/-
Specification vocabulary for the boot sector an image tells of (`DiskImage::boot_sector`).
-/
namespace Fox.Spec

/-- What `read_sector` gives for the sector with the id cylinder 0, head 0, sector 1, of 512 bytes, on the track at
cylinder 0, head 0. -/
def readFirst (d : Disk) (nz : Noise) : Except Err ReadResult :=
  d.readSector nz ⟨0, 0⟩ ⟨some 0, some 0, 1, some 2⟩ none none .dataOnly true

/-- The image tells of a boot sector that has these bytes: the first 512 bytes are kept, and the values of the
parameter block are those the bytes 11 to 31 give. -/
def TellsBoot (d : Disk) (bytes : List Byte) : Prop :=
  ∃ b, d.boot = some b ∧ b.buf = bytes.take 512 ∧
    b.bpb2.bytesPerSector = rdLe16 bytes 11 ∧ b.bpb2.sectorsPerCluster = bytes.getD 13 0 ∧
    b.bpb2.reservedSectors = rdLe16 bytes 14 ∧ b.bpb2.numberOfFats = bytes.getD 16 0 ∧
    b.bpb2.rootEntries = rdLe16 bytes 17 ∧ b.bpb2.totalSectors = rdLe16 bytes 19 ∧
    b.bpb2.mediaDescriptor = bytes.getD 21 0 ∧ b.bpb2.sectorsPerFat = rdLe16 bytes 22 ∧
    b.bpb3.sectorsPerTrack = rdLe16 bytes 24 ∧ b.bpb3.numberOfHeads = rdLe16 bytes 26 ∧
    b.bpb3.hiddenSectors = rdLe32 bytes 28

/-- The operation empties the image. -/
def DiskOp.Resets : DiskOp → Prop
  | .reset => True
  | _ => False

end Fox.Spec
