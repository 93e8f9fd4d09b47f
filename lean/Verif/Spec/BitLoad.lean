import Verif.Spec.Psi
import Verif.Spec.Pri
/-
What images that describe tracks by their cells say: a list of tracks, each with its place, its cells and which of
them are weak.
-/
namespace Fox
namespace Spec

/-- A track of an image file: where it lies, its cells, and which of them are weak. -/
abbrev CellTrack := Ch × List Bool × List Bool

/-- The disk has exactly these tracks: each at its place with these cells and weak cells, and no others. -/
def HasCells (d : Disk) (ts : List CellTrack) : Prop :=
  (∀ ch cells weak, (ch, cells, weak) ∈ ts → cellsAt d ch = some (ch, cells) ∧ weakAt d ch = some weak) ∧
  ∀ ch, (∀ x ∈ ts, x.1 ≠ ch) → ∀ t, d.track ch ≠ .ok (some t)

/-- What a file must say to describe a disk: a track for each of the disk's, with its cells. -/
def Describes (ts : List CellTrack) (d : Disk) : Prop :=
  (∀ ch a cells, cellsAt d ch = some (a, cells) → ∃ x ∈ ts, x.1 = ch) ∧
  ∀ x ∈ ts, ∃ a, cellsAt d x.1 = some (a, x.2.1)

/-- No weak cells. -/
def solid (cells : List Bool) : List Bool := List.replicate cells.length false

end Spec
end Fox
