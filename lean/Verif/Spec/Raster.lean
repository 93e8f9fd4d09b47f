import Verif.Model.Raster
import Verif.Spec.Viz
/-
Specification vocabulary for the raster picture of a disk.
-/
namespace Fox.Spec
open Viz

/-- The distance lies on the ring of track `c`, when `n` tracks lie between the radii `inside` and `outside`, the first one outermost; the part `gap` of
each is left blank, on its inner side. -/
def OnRasterRing (inside outside gap : Rat) (n c : Nat) (dist : Rat) : Prop :=
  inside + ((n - 1 - c : Nat) : Rat) * ((outside - inside) / (n : Rat)) + gap * ((outside - inside) / (n : Rat)) ≤ dist ∧
    dist < inside + ((n - c : Nat) : Rat) * ((outside - inside) / (n : Rat))

/-- The distance lies in the blank part of a ring. -/
def InGap (inside outside gap : Rat) (n c : Nat) (dist : Rat) : Prop :=
  inside + ((n - 1 - c : Nat) : Rat) * ((outside - inside) / (n : Rat)) ≤ dist ∧
    dist < inside + ((n - 1 - c : Nat) : Rat) * ((outside - inside) / (n : Rat)) + gap * ((outside - inside) / (n : Rat))

end Fox.Spec
