import Verif.Spec.Crc
import Verif.Model.Chs
/-
Single density (FM) recording, after IBM 3740: every data bit is preceded by a clock bit; a mark is a byte with
clock bits missing.
-/
namespace Fox.Spec.FmDisk

/-- The sixteen cells of a byte: clock and data bits in turn. -/
def cellsOfByte (clock data : Byte) : List Bool :=
  (List.range 8).flatMap fun k => [clock.getMsbD k, data.getMsbD k]

/-- Bytes with all their clock bits. -/
def plain (bs : List Byte) : List Bool := bs.flatMap (cellsOfByte 0xFF#8)

/-- A mark: the byte `d` with the clock bits C7. -/
def mark (d : Byte) : List Bool := cellsOfByte 0xC7#8 d

/-- The cells are recorded at `p`. -/
def At (track : List Bool) (p : Nat) (cells : List Bool) : Prop := cells <+: track.drop p

/-- Three bytes with all their clock bits, and then the mark `d`, begin at `p`. -/
def MarkAt (track : List Bool) (p : Nat) (d : Byte) : Prop := ∃ a b c, At track p (plain [a, b, c] ++ mark d)

/-- The first mark at or after `off`. -/
def First (track : List Bool) (off p : Nat) (d : Byte) : Prop :=
  off ≤ p ∧ MarkAt track p d ∧ ∀ q e, off ≤ q → q < p → ¬ MarkAt track q e

/-- The CRC of a field, over the mark byte and what follows it. -/
def crc (field : List Byte) : List Byte := be16 (crcOfBits 0xFFFF#16 (bitsOf field))

/-- The id field of a sector: three of the zero bytes before it, the mark FE, the four numbers, the CRC. -/
def idField (c h s n : Byte) : List Bool :=
  plain [0, 0, 0] ++ mark 0xFE#8 ++ plain ([c, h, s, n] ++ crc [0xFE#8, c, h, s, n])

/-- The data field: three of the zero bytes before it, the mark, the bytes, the CRC. -/
def dataField (d : Byte) (bytes : List Byte) : List Bool :=
  plain [0, 0, 0] ++ mark d ++ plain (bytes ++ crc (d :: bytes))

end Fox.Spec.FmDisk

namespace Fox.Spec.FmDisk

/-- The marks from `off` on that come before the first one which is neither FE nor FB: where they are, and which they
are.  The search goes on behind each mark. -/
inductive Scanned (track : List Bool) : Nat → List (Nat × Byte) → Prop
  | none {off : Nat} : (∀ p d, off ≤ p → ¬ MarkAt track p d) → Scanned track off []
  | stop {off p : Nat} {d : Byte} : First track off p d → d ≠ 0xFE#8 → d ≠ 0xFB#8 → Scanned track off []
  | next {off p : Nat} {d : Byte} {l : List (Nat × Byte)} : First track off p d → d = 0xFE#8 ∨ d = 0xFB#8 →
      Scanned track (p + 64) l → Scanned track off ((p, d) :: l)

/-- A track that does not begin in the middle of a mark, and has no FC mark with the clocks C7 (an index mark has the
clocks D7) in its first 5000 cells. -/
def Usual (track : List Bool) : Prop :=
  (∀ d, ¬ MarkAt track 0 d) ∧ ∀ p, p + 64 ≤ 5000 → ¬ MarkAt track p 0xFC#8

/-- For the marks of a track of `n` cells: there is room for the four numbers after each FE, and the FB that directly
follow an FE begin in the first half of the track. -/
def Room (n : Nat) : Bool → List (Nat × Byte) → Prop
  | _, [] => True
  | afterId, (p, d) :: l =>
    (d = 0xFE#8 → p + 112 < n) ∧ (d = 0xFB#8 → afterId = true → 2 * p < n) ∧ Room n (d == 0xFE#8) l

end Fox.Spec.FmDisk

namespace Fox.Spec.FmDisk

/-- A byte on the track, and whether it is recorded as a mark. -/
abbrev Recorded := Bool × Byte

/-- The cells of recorded bytes. -/
def record (l : List Recorded) : List Bool :=
  l.flatMap fun x => cellsOfByte (if x.1 then 0xC7#8 else 0xFF#8) x.2

/-- Every mark follows three bytes that are no marks. -/
def Spaced (l : List Recorded) : Prop :=
  ∀ i, (l.getD i (false, 0)).1 = true → 3 ≤ i ∧ ∀ k < 3, (l.getD (i - 3 + k) (false, 0)).1 = false

/-- The data bits of recorded bytes. -/
def dataBits (l : List Recorded) : List Bool := bitsOf (l.map Prod.snd)

/-- 26 one bits, three zero bits and three one bits, as they stand in FF FF FF C7. -/
def falseMark : List Bool := List.replicate 26 true ++ List.replicate 3 false ++ List.replicate 3 true

/-- The data bits nowhere look like the clock bits of a mark. -/
def NoFalse (l : List Recorded) : Prop := ¬ falseMark <:+: dataBits l

/-- The marks among the recorded bytes: the cell where the three bytes before it begin, and the mark. -/
def recordedMarks (l : List Recorded) : List (Nat × Byte) :=
  (List.range l.length).filterMap fun i =>
    if (l.getD i (false, 0)).1 then some (16 * i - 48, (l.getD i (false, 0)).2) else none

/-- Bytes that are no marks. -/
def gapOf (n : Nat) (b : Byte) : List Recorded := List.replicate n (false, b)
def bytesOf (bs : List Byte) : List Recorded := bs.map fun b => (false, b)

/-- A sector in the standard way: six zero bytes, the id field, a gap, six zero bytes, the data field with the mark
`d`, a gap. -/
def sectorOf (c h s n d : Byte) (data : List Byte) : List Recorded :=
  gapOf 6 0 ++ [(true, 0xFE#8)] ++ bytesOf ([c, h, s, n] ++ crc [0xFE#8, c, h, s, n]) ++ gapOf 11 0xFF#8 ++
  gapOf 6 0 ++ [(true, d)] ++ bytesOf (data ++ crc (d :: data)) ++ gapOf 27 0xFF#8

end Fox.Spec.FmDisk
