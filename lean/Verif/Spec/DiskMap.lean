import Verif.Model.Disk
import Verif.Spec.MetaMap
/-
Specification of a disk as a map from positions to tracks, each a map from sector ids to contents, with the
basic sector operations and what a user sees.
-/
namespace Fox.Spec

/-- The tracks of a disk by cylinder and head. -/
abbrev DiskMap := Ch → Option SectorMap

/-- A basic sector operation at a physical position. -/
inductive SectorOp where
  | read (nz : Noise) (ch : Ch) (q : Query)
  | write (ch : Ch) (q : Query) (buf : List Byte)

/-- What a basic sector operation shows. -/
inductive Seen where
  | bytes (l : List Byte)
  | done
  | noTrack
  | noSector
  | refused
  | other
  deriving DecidableEq

/-- One operation on the map. -/
def DiskMap.step (M : DiskMap) : SectorOp → DiskMap × Seen
  | .read _ ch q => match M ch with
    | none => (M, .noTrack)
    | some m => match m.lookup q with
      | none => (M, .noSector)
      | some d => (M, .bytes d)
  | .write ch q buf => match M ch with
    | none => (M, .noTrack)
    | some m => match m.lookup q with
      | none => (M, .noSector)
      | some d => if buf.length ≠ d.length then (M, .refused)
        else (fun ch' => if ch' = ch then some (m.update q buf) else M ch', .done)

/-- What a history shows on the map. -/
def DiskMap.run : DiskMap → List SectorOp → List Seen
  | _, [] => []
  | M, op :: ops => (M.step op).2 :: DiskMap.run (M.step op).1 ops

/-- What a `read_sector_basic` call shows. -/
def seenBasicRead : Except Err (List Byte) → Seen
  | .ok l => .bytes l
  | .error .seek => .noTrack
  | .error .idError => .noSector
  | .error .parameter => .refused
  | .error _ => .other

/-- What a `write_sector_basic` call shows. -/
def seenBasicWrite : Except Err Unit → Seen
  | .ok () => .done
  | .error .seek => .noTrack
  | .error .idError => .noSector
  | .error .parameter => .refused
  | .error _ => .other

/-- One operation on the modelled disk. -/
def basicStep (d : Disk) : SectorOp → Disk × Seen
  | .read nz ch q => (d, seenBasicRead (d.readBasic nz ch q none))
  | .write ch q buf => ((d.writeBasic ch q none buf).1, seenBasicWrite (d.writeBasic ch q none buf).2)

/-- What a history shows on the modelled disk. -/
def basicRun : Disk → List SectorOp → List Seen
  | _, [] => []
  | d, op :: ops => (basicStep d op).2 :: basicRun (basicStep d op).1 ops

/-- Writes name sectors that exist (or positions without a track). -/
def Hits (M : DiskMap) : SectorOp → Prop
  | .write ch q _ => ∀ m, M ch = some m → (m.lookup q).isSome = true
  | .read _ _ _ => True

end Fox.Spec
