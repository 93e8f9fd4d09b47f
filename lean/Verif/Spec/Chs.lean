import Verif.Model.Chs
/-
Independent specification of disk addressing.
-/
namespace Fox.Spec

/-- A sector address lies in a layout: cylinder and head below their counts, sector number among the
`s` consecutive numbers that start at the layout's first sector number. -/
def InLayout (g : Layout) (x : Chs) : Prop :=
  x.c < g.c ∧ x.h < g.h ∧ g.sOff ≤ x.s ∧ x.s < g.sOff + g.s

instance (g : Layout) (x : Chs) : Decidable (InLayout g x) := by unfold InLayout; infer_instance

/-- Number of sectors on the disk. -/
def sectorCount (g : Layout) : Nat := g.c * g.h * g.s

/-- Logical order: cylinder-major, then head, then sector. -/
def lbaOf (g : Layout) (x : Chs) : Nat := x.c * (g.h * g.s) + x.h * g.s + (x.s - g.sOff)

end Fox.Spec
