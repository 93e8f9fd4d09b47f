import Verif.Model.BitTrack
import Verif.Spec.Mfm
import Verif.Spec.Bits
/-
Specification vocabulary for a formatted MFM track: what is recorded where, stated on the bytes and
cells of the track, independently of how the formatting, scanning, reading and writing code works.
-/
namespace Fox.Spec
open Fox.S34

/-- The four bytes an address mark decodes to. -/
def markBytes : Marker → List Byte
  | .iam => [0xC2#8, 0xC2#8, 0xC2#8, 0xFC#8]
  | .idam => [0xA1#8, 0xA1#8, 0xA1#8, 0xFE#8]
  | .dam => [0xA1#8, 0xA1#8, 0xA1#8, 0xFB#8]
  | .ddam => [0xA1#8, 0xA1#8, 0xA1#8, 0xF8#8]

/-- The 64 cells of an address mark: MFM with the clock cell between bits 4 and 5 of each A1 (between
bits 3 and 4 of each C2) suppressed. -/
def markWord : Marker → BitVec 64
  | .iam => 0x5224522452245552#64
  | .idam => 0x4489448944895554#64
  | .dam => 0x4489448944895545#64
  | .ddam => 0x448944894489554A#64

/-- The data mark of a normal or deleted sector. -/
def dataMark (deleted : Bool) : Marker := if deleted then .ddam else .dam

/-- One sector of a track: byte offsets of its id mark and data mark, its id, the recorded data and
recorded data CRC, whether it has a deleted data mark, and the catalogued data-error flag. -/
structure Sec where
  io : Nat
  dof : Nat
  id : Chsn
  data : List Byte
  crc : BitVec 16
  del : Bool := false
  de : Bool := false

/-- First byte after the sector. -/
def Sec.stop (s : Sec) : Nat := s.dof + 6 + s.data.length

/-- The data CRC a correct sector carries: over the data mark bytes and the data. -/
def Sec.goodCrc (s : Sec) : BitVec 16 := crc3740 (markBytes (dataMark s.del) ++ s.data)

/-- `k` bytes of `B` from `o`. -/
def slice (B : List Byte) (o k : Nat) : List Byte := (B.drop o).take k

/-- The sectors follow one another from byte `lo` on, without overlap, inside `N` bytes. -/
def Placed (N : Nat) : Nat → List Sec → Prop
  | lo, [] => lo ≤ N
  | lo, s :: rest => lo ≤ s.io ∧ s.io + 10 ≤ s.dof ∧ Placed N s.stop rest

/-- All address marks of a track with their byte offsets, in track order. -/
def marksOf (iam : Option Nat) (secs : List Sec) : List (Marker × Nat) :=
  iam.toList.map (fun o => (Marker.iam, o)) ++
    secs.flatMap fun s => [(.idam, s.io), (dataMark s.del, s.dof)]

/-- The id field fits the one-byte fields of the format. -/
def Chsn.Bytes (x : Chsn) : Prop := x.c < 256 ∧ x.h < 256 ∧ x.s < 256 ∧ x.n < 256

/-- The decoded bytes `B` contain the fields of sector `s`. -/
structure SecBytes (B : List Byte) (s : Sec) : Prop where
  idOk : Chsn.Bytes s.id
  size : s.data.length = s.id.size
  header : slice B s.io 10 = withCrc (markBytes .idam ++ idBytes s.id)
  body : slice B s.dof (6 + s.data.length) = markBytes (dataMark s.del) ++ s.data ++ be16 s.crc

/-- The cells `f` of a track whose decoded bytes are `B` and whose address marks are `ms`:
data cells carry `B`, each mark is recorded with its 64 cells, and a clock cell is missing only inside
the marks and, possibly, in front of the bytes listed in `bnd`, which are gap or sync bytes. -/
structure CellsOk (f : List Bool) (B : List Byte) (ms : List (Marker × Nat)) (bnd : List Nat) :
    Prop where
  len : f.length = 16 * B.length
  data : ∀ j, j < 8 * B.length → f.getD (2 * j + 1) false = dat B j
  mark : ∀ m o, (m, o) ∈ ms → o + 4 ≤ B.length ∧
    ∀ k, k < 64 → f.getD (16 * o + k) false = (markWord m).getMsbD k
  clock : ∀ j, 0 < j → j < 8 * B.length → f.getD (2 * j) false = false →
    dat B (j - 1) = false → dat B j = false →
    (∃ m o i, (m, o) ∈ ms ∧ i < 3 ∧ j = 8 * (o + i) + (if m = .iam then 4 else 5)) ∨
    ∃ b ∈ bnd, j = 8 * b
  bndOk : ∀ b ∈ bnd, b < B.length → B.getD b 0 = gapByte ∨ B.getD b 0 = syncByte

/-- The elements a scan of such a track produces for one sector. -/
def secItems (s : Sec) : List Inst :=
  [{ elem := .marker .idam, start := 16 * s.io, stop := 16 * s.io + 64, chsn := some s.id },
   { elem := .header s.id false false, start := 16 * s.io, stop := 16 * s.dof, chsn := none },
   { elem := .data s.id false s.de s.del, start := 16 * s.dof,
     stop := 16 * s.dof + 64 + s.data.length * 16, chsn := some s.id },
   { elem := .marker (dataMark s.del), start := 16 * s.dof, stop := 16 * s.dof + 64,
     chsn := some s.id }]

/-- The elements of a track, in track order; the final element is flagged as the last. -/
def itemsOf (iam : Option Nat) (secs : List Sec) : List Inst :=
  markLast (iam.toList.map (fun o => { elem := .marker .iam, start := 16 * o, stop := 16 * o + 64,
                                       chsn := some ⟨0, 0, 0, 0⟩ }) ++ secs.flatMap secItems)

/-- The cells of a track: decoded bytes `B`, an optional index mark, sectors `secs`. -/
structure StreamOk (s : Mfm) (B : List Byte) (iam : Option Nat) (secs : List Sec) : Prop where
  wrap : s.bits.wrap = s.bits.bits.length
  wrapValue : s.bits.wrapValue = none
  noWeak : NoWeak s
  weakWrap : s.weakMask.wrapValue = none
  cells : CellsOk s.bits.bits B (marksOf iam secs) (secs.map Sec.stop)
  secOk : ∀ x ∈ secs, SecBytes B x
  iamPos : ∀ o, iam = some o → 0 < o ∧ 16 * o + 64 ≤ 5000
  placed : ∃ lo, 0 < lo ∧ (∀ o, iam = some o → o + 4 ≤ lo) ∧ Placed B.length lo secs

/-- The clock map of a track calls for no phase correction at even cells from the first mark on. -/
def ClockOk (s : Mfm) (iam : Option Nat) (secs : List Sec) : Prop :=
  ∀ m o, (m, o) ∈ marksOf iam secs → ∀ i, 16 * o ≤ i → i % 2 = 0 →
    s.clockMap.bitAt i = true ∨ s.clockMap.bitAt (i + 1) = false

/-- The clock map is a map over (about) the whole track, clear beyond its end. -/
structure ClockShape (s : Mfm) : Prop where
  wrap : s.clockMap.wrap = s.clockMap.bits.length
  wrapValue : s.clockMap.wrapValue = some false
  size : 16 * ((s.len + 15) / 16) ≤ s.clockMap.bits.length + 15

/-- A scanned track: cells, clock map and catalogue agree on an index mark and a list of sectors. -/
structure TrackOk (t : Track) (iam : Option Nat) (secs : List Sec) : Prop where
  stream : ∃ B, StreamOk t.data B iam secs
  clock : ClockOk t.data iam secs
  shape : ClockShape t.data
  items : t.items = itemsOf iam secs
  schema : t.schema = some .system34

end Fox.Spec
