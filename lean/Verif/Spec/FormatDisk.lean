import Verif.Model.Format
import Verif.Spec.DiskMap
/-
Vocabulary for formatting a whole disk.
-/
namespace Fox.Spec

/-- The disk a format must leave: on every track of the format its sectors, numbered from 1, of 512 bytes, all
zero but for the boot sector. -/
def freshDisk (f : StdFormat) (boot : List Byte) : DiskMap := fun ch =>
  if ch.c < f.layout.c ∧ ch.h < f.layout.h then
    some ((List.range f.layout.s).map fun k =>
      (⟨ch.c, ch.h, k + 1, 2⟩, if ch.c = 0 ∧ ch.h = 0 ∧ k = 0 then boot else List.replicate 512 0))
  else none

/-- The boot sector for a format: 512 bytes, the template's but for the parameter block (bytes 11 to 31), which
names the format, and the creator's name (bytes 0x147 to 0x14E), if one is given. -/
structure IsBoot (f : StdFormat) (template : List Byte) (creator : Option (List Byte)) (boot : List Byte) : Prop where
  len : boot.length = 512
  rest : ∀ i, i < 512 → ¬ (11 ≤ i ∧ i < 32) → (creator.isSome → ¬ (0x147 ≤ i ∧ i < 0x147 + 8)) →
    boot.getD i 0 = template.getD i 0
  name : ∀ c, creator = some c → ∀ i, i < 8 → boot.getD (0x147 + i) 0 = c.getD i 0
  sectorSize : rdLe16 boot 11 = 512
  total : (rdLe16 boot 19).toNat = f.layout.c * f.layout.h * f.layout.s
  perTrack : (rdLe16 boot 24).toNat = f.layout.s
  heads : (rdLe16 boot 26).toNat = f.layout.h
  hidden : rdLe32 boot 28 = 0

end Fox.Spec
