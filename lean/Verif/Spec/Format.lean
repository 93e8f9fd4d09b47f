import Verif.Spec.Track
/-
Specification of a formatted track: where each requested sector goes and what it contains.
-/
namespace Fox.Spec
open Fox.S34

/-- Bytes in front of the first sector's sync field: gap 4A and the index mark's sync field
(IBM, perpendicular), or gap 1 (ISO). -/
def preBytes : Standard → Nat
  | .iso => 32
  | _ => 92

/-- Byte offset of the index mark, for the standards that have one. -/
def iamOf : Standard → Option Nat
  | .iso => none
  | _ => some 92

/-- Length of one formatted sector: sync 12, id field 10, gap 2, sync 12, data field 6 + size, gap 3. -/
def sectorBytes (std : Standard) (gap3 : Nat) (x : Chsn) : Nat :=
  12 + 10 + std.gap2 + 12 + (6 + x.size) + gap3

/-- Length of the formatted data. -/
def trackBytes (std : Standard) (gap3 : Nat) (ids : List Chsn) : Nat :=
  preBytes std + (ids.map (sectorBytes std gap3)).sum

/-- `n` bytes of the endlessly repeated pattern, from position `off` on. -/
def fillBytes (pat : List Byte) (off n : Nat) : List Byte :=
  (List.range n).map fun i => pat.getD ((off + i) % pat.length) 0

/-- The id as it is recorded: only the low byte of the cylinder number. -/
def onDisk (x : Chsn) : Chsn := { x with c := x.c % 256 }

/-- The sectors of the formatted track; the first one's sync field begins at byte `base`, the fill
pattern continues from one sector to the next. -/
def layout (std : Standard) (pat : List Byte) (gap3 : Nat) : Nat → Nat → List Chsn → List Sec
  | _, _, [] => []
  | base, off, x :: xs =>
    { io := base + 12, dof := base + 12 + 10 + std.gap2 + 12, id := onDisk x,
      data := fillBytes pat off x.size,
      crc := crc3740 (markBytes .dam ++ fillBytes pat off x.size) } ::
      layout std pat gap3 (base + sectorBytes std gap3 x) (off + x.size) xs

/-- The sectors requested by a `format` call, as they must end up on the track. -/
def formatted (std : Standard) (pat : List Byte) (gap3 : Nat) (ids : List Chsn) : List Sec :=
  layout std pat gap3 (preBytes std) 0 ids

/-- The layout (without the gap after the last sector) fits a track of `cells` cells. -/
def Fits (std : Standard) (gap3 : Nat) (ids : List Chsn) (cells : Nat) : Prop :=
  preBytes std + 4 ≤ (cells + 15) / 16 ∧ trackBytes std gap3 ids ≤ (cells + 15) / 16 + gap3

instance (std : Standard) (gap3 : Nat) (ids : List Chsn) (cells : Nat) :
    Decidable (Fits std gap3 ids cells) := by unfold Fits; infer_instance

/-- A track on which `format` can be used: no weak bits, an ordinary ring, the MFM clock map shape,
the System34 schema. -/
structure Formattable (t : Track) : Prop where
  noWeak : NoWeak t.data
  weakWrap : t.data.weakMask.wrapValue = none
  shape : ClockShape t.data
  schema : t.schema = some .system34

end Fox.Spec
