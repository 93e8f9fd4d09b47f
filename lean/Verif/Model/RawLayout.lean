import Verif.Model.Basic
import Verif.Model.Chs
/-
Model of how a layout of sectors is told from the size of a raw image: src/types/sector_layout.rs:86-118, 215-299.
-/
namespace Fox
namespace RawLayout

/-- `DEFAULT_SECTOR_SIZE` (src/lib.rs). -/
def defaultSize : Nat := 512

/-- `TryFrom<usize> for SectorLayout` (src/types/sector_layout.rs:86-101); the text of the error is left out. -/
def ofSize (size : Nat) : Option Layout :=
  if size / defaultSize % defaultSize ≠ 0 then none else some ⟨80, 2, 10, 1, size⟩

/-- `normal_cylinder_distance` (src/types/sector_layout.rs:267-274); for the cylinders it is called with, below 2^15. -/
def distance (c : Nat) : Nat := if c < 60 then (40 - c) + (c - 40) else (80 - c) + (c - 80)

/-- `equivalents` (src/types/sector_layout.rs:276-297). -/
def equivalents (l : Layout) : List Layout :=
  if l.c ≥ 79 ∧ l.c % 2 = 0 ∧ l.h = 1 then [l, { l with c := l.c / 2, h := 2 }]
  else if l.c ≤ 45 ∧ l.h = 2 then [l, { l with c := l.c * 2, h := 1 }]
  else [l]

/-- The body of the loop over the sectors of a track (src/types/sector_layout.rs:231-253).  The fields are in range, so the casts do nothing. -/
def candidate (total sectorSize spt : Nat) : Option Layout :=
  if total % spt ≠ 0 then none
  else
    let totalTracks := total / spt
    let heads := if totalTracks % 2 = 0 then 2 else 1
    let tracks := totalTracks / heads
    if (39 ≤ tracks ∧ tracks ≤ 85) ∧ ¬ (45 ≤ tracks ∧ tracks < 79) then some ⟨tracks, heads, spt, 0, sectorSize⟩ else none

/-- `8..=18` (src/types/sector_layout.rs:231). -/
def spts : List Nat := (List.range 11).map (· + 8)

/-- `derive_matches` (src/types/sector_layout.rs:215-265): a size of 0 divides by zero, `sort_by` is stable; the texts of the errors are left out. -/
def deriveMatches (size : Nat) (sectorSize : Option Nat) : Except Err (List Layout) :=
  let sectorSize := sectorSize.getD defaultSize
  if sectorSize = 0 then .error .panic
  else if size % sectorSize ≠ 0 then .error .parameter
  else
    let found := spts.filterMap (candidate (size / sectorSize) sectorSize)
    if found.isEmpty then .error .parameter
    else .ok ((found.mergeSort fun a b => distance a.c ≤ distance b.c).flatMap equivalents)

/-- `try_from_raw_size` (src/types/sector_layout.rs:108-118). -/
def ofRawSize (size : Nat) (sectorSize : Option Nat) : Except Err (List Layout) :=
  let s := sectorSize.getD defaultSize
  if s = 0 then .error .panic
  else if size / s % s ≠ 0 then .error .parameter
  else deriveMatches size (some s)

end RawLayout
end Fox
