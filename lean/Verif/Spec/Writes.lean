import Verif.Model.Writes
import Verif.Spec.Disk
/-
Specification vocabulary for the write counter.
-/
namespace Fox.Spec

/-- The image and its counter after one operation. -/
def countStep (c : Counted) : DiskOp → Counted
  | .addBit ch made => (c.addBit ch made).1
  | .addMeta ch => (c.addMeta ch).1
  | .addFlux ch made => (c.addFlux ch made).1
  | .addEmpty ch enc res cells clock => (c.addEmpty ch enc res cells clock).1
  | .write ch q off buf del dbg => (c.writeSector ch q off buf del dbg).1
  | .format nz ch ids pat gap3 => (c.formatTrack nz ch ids pat gap3).1
  | .normalize H nz => c.normalize H nz
  | .removeEmpty => c.removeEmpty
  | .reset => c.reset

/-- After a history. -/
def countAfter : Counted → List DiskOp → Counted
  | c, [] => c
  | c, op :: ops => countAfter (countStep c op) ops

/-- Two images hold the same tracks in the same places. -/
def SameTracks (d e : Disk) : Prop := d.pool = e.pool ∧ d.map0 = e.map0 ∧ d.map1 = e.map1

/-- The operation makes a track of given data, or writes to a place where the image has no track of cells or flux. -/
def Tracked (d : Disk) : DiskOp → Prop
  | .addBit .. | .addMeta .. | .addFlux .. => True
  | .write ch .. => ∀ i t, d.seek ch = .ok (i, t) → ∃ m, t = .sect m
  | _ => False

/-- Every operation of the history is so. -/
def AllTracked : Disk → List DiskOp → Prop
  | _, [] => True
  | d, op :: ops => Tracked d op ∧ AllTracked (diskStep d op) ops

end Fox.Spec
