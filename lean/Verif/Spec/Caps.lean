import Verif.Model.Caps
import Verif.Spec.Disk
/-
Specification vocabulary for the analysis of a disk: what is on its tracks.
-/
namespace Fox.Spec

/-- The sector ids found on a track, in order. -/
def idsOn : DiskTrack → List Chsn
  | .bit _ t => t.sectorIds
  | .sect t => t.sectors.map (·.id)
  | .flux _ (some t) => t.sectorIds
  | _ => []

/-- What may be remarkable about a sector. -/
inductive Remark where
  | deleted | dataCrc | addressCrc | missing
  deriving DecidableEq, Repr

/-- An element of a bitstream track bears the remark. -/
def bears : S34.Elem → Remark → Bool
  | .data _ _ _ del, .deleted => del
  | .data _ _ de _, .dataCrc => de
  | .data _ ae _ _, .addressCrc => ae
  | .header _ ae _, .addressCrc => ae
  | .header _ _ missing, .missing => missing
  | _, _ => false

/-- A stored sector bears the remark. -/
def sectorBears (s : MetaSector) : Remark → Bool
  | .deleted => s.deletedMark
  | .dataCrc => s.dataError
  | .addressCrc => s.addressError
  | .missing => s.noDam

/-- Some sector of the track bears the remark. -/
def Marked (t : DiskTrack) (r : Remark) : Prop :=
  match t with
  | .bit _ t => ∃ x ∈ t.items, bears x.elem r = true
  | .flux _ (some t) => ∃ x ∈ t.items, bears x.elem r = true
  | .sect t => ∃ s ∈ t.sectors, sectorBears s r = true
  | _ => False

/-- The layout of the track is known. -/
def Known : DiskTrack → Prop
  | .bit _ t => t.schema ≠ none
  | .flux _ (some t) => t.schema ≠ none
  | .flux _ none => False
  | _ => True

/-- The track is on the disk, its layout is known and it has sectors. -/
def Carries (d : Disk) (t : DiskTrack) : Prop := Listed d t ∧ Known t ∧ idsOn t ≠ []

/-- A track of the disk has a sector with the remark. -/
def OnDisk (d : Disk) (r : Remark) : Prop := ∃ t, Carries d t ∧ Marked t r

/-- Two tracks with sectors have different numbers of them. -/
def CountsDiffer (d : Disk) : Prop := ∃ t t', Carries d t ∧ Carries d t' ∧ (idsOn t).length ≠ (idsOn t').length

/-- Two sectors of the disk have different sizes. -/
def SizesDiffer (d : Disk) : Prop :=
  ∃ t t', Carries d t ∧ Carries d t' ∧ ∃ a ∈ idsOn t, ∃ b ∈ idsOn t', a.n ≠ b.n

/-- Two sectors of one track have different sizes. -/
def SizesDifferOnTrack (d : Disk) : Prop := ∃ t, Carries d t ∧ ∃ a ∈ idsOn t, ∃ b ∈ idsOn t, a.n ≠ b.n

/-- The six capabilities an analysis decides about. -/
def decided : Caps :=
  .variableSpt ||| .variableSspt ||| .addressCrc ||| .dataCrc ||| .dataDeleted ||| .noDam

end Fox.Spec
