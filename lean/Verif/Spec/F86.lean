import Verif.Model.F86
import Verif.Spec.Pri
/-
Which images an 86F file can hold.
-/
namespace Fox.Spec

/-- A two-sided image of MFM bitstream tracks, each at its place, with as many cylinders on both sides as its
geometry says; a track has at most 8 million cells, and a weak mask as long as its cells (up to the byte boundary after
them). -/
structure Held86 (d : Disk) : Prop where
  inPlace : InPlace d
  res : d.res = { bit := true }
  sides : d.geometry.h = 2
  full : ∀ h, h < 2 → (d.headMap h).length = d.geometry.c
  fits : ∀ ch x, ch.h < 2 → d.track ch = .ok (some x) → ∃ c t, x = .bit c t ∧
    t.data.bits.bits.length ≤ 8388608 ∧
    (t.data.weakMask.bits.length + 7) / 8 = (t.data.bits.bits.length + 7) / 8

/-- Such an image with at least one cylinder and at most as many as the file has room for. -/
structure Savable86 (d : Disk) : Prop extends Held86 d where
  cyls : 0 < d.geometry.c ∧ d.geometry.c ≤ 256

/-- A descriptor with a density, a data rate and an encoding the loader takes. -/
structure Describable (m : F86.Meta) : Prop where
  density : m.density = .double ∨ m.density = .high
  rate : m.rate = .r250 ∨ m.rate = .r300 ∨ m.rate = .r500 ∨ m.rate = .r1000
  encoding : m.encoding = .mfm

/-- How many cylinders of the file stand for one of the image: fewer than 80 are written twice. -/
def copies (d : Disk) : Nat := if d.geometry.c < 80 then 2 else 1

end Fox.Spec
