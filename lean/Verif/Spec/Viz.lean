import Verif.Model.Viz
import Verif.Spec.VizBase
/-
Specification vocabulary for the visualization of disks.  Points of the surface are given by their distance from the center and their angle in turns.
-/
namespace Fox.Spec
open Viz S34

/-- The point belongs to the shape; angles that differ by whole turns are the same. -/
def InShape : Shape → Rat → Rat → Prop
  | .sector a b inner outer, rad, ang => inner ≤ rad ∧ rad ≤ outer ∧ ∃ k : Int, a ≤ ang + (k : Rat) ∧ ang + (k : Rat) ≤ b
  | .arc r w a b, rad, ang => r - w / 2 ≤ rad ∧ rad ≤ r + w / 2 ∧ ∃ k : Int, a ≤ ang + (k : Rat) ∧ ang + (k : Rat) ≤ b
  | .circle inner w, rad, _ => inner ≤ rad ∧ rad ≤ inner + w

/-- The angle at which the position `pos` of a track of `len` bits passes, for an index at the given angle: data run around the disk once, with or against the
clock. -/
def angleAt (dir : Turning) (index : Rat) (len : Nat) (pos : Rat) : Rat := match dir with
  | .cw => pos / (len : Rat) + index
  | .ccw => 1 - (pos / (len : Rat) + index)

/-- The two angles are the same up to whole turns. -/
def SameAngle (a b : Rat) : Prop := ∃ k : Int, a = b + (k : Rat)

/-- The distance lies on the drawn ring of a cylinder, when `n` cylinders lie between the radii `inside` and `outside` and the part `gap` of each is left blank,
half on either side. -/
def OnRing (inside outside gap : Rat) (n c : Nat) (rad : Rat) : Prop :=
  outside - ((c : Rat) + 1 - gap / 2) * ((outside - inside) / (n : Rat)) ≤ rad ∧ rad ≤ outside - ((c : Rat) + gap / 2) * ((outside - inside) / (n : Rat))

/-- The track is one of cells, or one of flux whose cells have been found. -/
def WithCells (t : DiskTrack) (s : Track) : Prop := ∃ ch, t = .bit ch s ∨ t = .flux ch (some s)

/-- Every track of the side has a stream of cells. -/
def AllStreams (d : Disk) (side : Nat) : Prop := ∀ i ∈ d.headMap side, ∃ t s, d.pool[i]? = some t ∧ WithCells t s

end Fox.Spec
