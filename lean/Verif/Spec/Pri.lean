import Verif.Model.Pce
import Verif.Spec.Disk
/-
What a user can see of a bitstream image: at each position, the track's own address, its bit cells and which
of them are marked weak.
-/
namespace Fox.Spec

/-- Address and cells of the bitstream track at a position. -/
def cellsAt (d : Disk) (ch : Ch) : Option (Ch × List Bool) :=
  match d.track ch with
  | .ok (some (.bit c t)) => some (c, t.data.bits.bits)
  | _ => none

/-- The weak cells of the bitstream track at a position. -/
def weakAt (d : Disk) (ch : Ch) : Option (List Bool) :=
  match d.track ch with
  | .ok (some (.bit _ t)) => some t.data.weakMask.bits
  | _ => none

/-- An image PRI can hold: bitstream tracks only, each at its place, at least one; a track has at most 8
million cells (a chunk of one megabyte), and at most 4 million if some are weak. -/
structure Savable (d : Disk) : Prop where
  inPlace : InPlace d
  res : d.res = { bit := true }
  fits : ∀ ch x, ch.h < 2 → d.track ch = .ok (some x) → ∃ c t, x = .bit c t ∧
    t.data.bits.bits.length ≤ 8388608 ∧ (true ∈ t.data.weakMask.bits → t.data.weakMask.bits.length ≤ 4194304)
  some : 0 < (d.headMap 0).length ∨ 0 < (d.headMap 1).length
  small : (d.headMap 0).length < 65536 ∧ (d.headMap 1).length < 65536

end Fox.Spec
