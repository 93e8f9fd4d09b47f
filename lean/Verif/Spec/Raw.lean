import Verif.Model.Disk
import Verif.Spec.Track
/-
Vocabulary for raw sector images.
-/
namespace Fox.Spec

/-- What the boot sector of a raw image says about its format: the parameter block at byte 11 of the file,
total sectors first, media descriptor second. -/
def bootFormat (file : List Byte) : Option StdFormat := (Bpb2.read file bpbOffset).format

/-- No two different tracks of the disk have the same hash. -/
def NoCollision (H : List Byte → Nat) (d : Disk) : Prop :=
  ∀ c c' t t', DiskTrack.bit c t ∈ d.pool → DiskTrack.bit c' t' ∈ d.pool →
    H (DiskTrack.packed t.data.bits.bits) = H (DiskTrack.packed t'.data.bits.bits) →
    DiskTrack.packed t.data.bits.bits = DiskTrack.packed t'.data.bits.bits

/-- Sector number `k` of a raw image, in file order. -/
def fileSector (file : List Byte) (size k : Nat) : List Byte := slice file (k * size) size

/-- The bytes of cylinder `c`, head `h` in an 880K Amiga image: 11 sectors of 512 bytes, heads interleaved. -/
def adfTrack (file : List Byte) (c h : Nat) : List Byte := slice file ((c * 2 + h) * 5632) 5632

/-- Every odd cylinder repeats, on head 0, the even cylinder before it. -/
def Doubled (file : List Byte) : Prop := ∀ i, i < 40 → adfTrack file (2 * i) 0 = adfTrack file (2 * i + 1) 0

/-- No two different tracks of the Amiga image have the same hash. -/
def AdfNoCollision (H : List Byte → Nat) (file : List Byte) : Prop :=
  ∀ c c', c < 80 → c' < 80 → H (adfTrack file c 0) = H (adfTrack file c' 0) →
    adfTrack file c 0 = adfTrack file c' 0

end Fox.Spec
