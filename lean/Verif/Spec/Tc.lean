import Verif.Spec.BitLoad
/-
The TransCopy format: a header of 256 bytes, five bytes about the disk, and four tables of 256 16-bit numbers, for skew,
offset (in units of 256 bytes), size in bytes, and flags of each track.  The tables are filled up with 1111h, 0, 3333h and
4444h.  Sides alternate.  The cells of a track are its bytes, highest bit first; weak areas are runs of zeros.
-/
namespace Fox
namespace Spec
namespace TcFile

/-- A byte of the file as a number. -/
def byte (f : List Byte) (i : Nat) : Nat := (f.getD i 0#8).toNat

/-- A little-endian 16-bit number. -/
def word (f : List Byte) (i : Nat) : Nat := byte f i + 256 * byte f (i + 1)

/-- The number of sides. -/
def sides (f : List Byte) : Nat := byte f 259

/-- The tables. -/
def skew (f : List Byte) (i : Nat) : Nat := word f (261 + 2 * i)
def size (f : List Byte) (i : Nat) : Nat := word f (1285 + 2 * i)
def flag (f : List Byte) (i : Nat) : Nat := word f (1797 + 2 * i)

/-- Where a track lies: the entry of the table is big-endian. -/
def start (f : List Byte) (i : Nat) : Nat := 256 * (256 * byte f (773 + 2 * i) + byte f (773 + 2 * i + 1))

/-- The file has `n` tracks: all four tables are in use up to there, and not further. -/
def HasTracks (f : List Byte) (n : Nat) : Prop :=
  n ≤ 256 ∧ (∀ i, i < n → skew f i ≠ 0x1111 ∧ start f i ≠ 0 ∧ size f i ≠ 0x3333 ∧ flag f i ≠ 0x4444) ∧
  (n < 256 → skew f n = 0x1111 ∧ start f n = 0 ∧ size f n = 0x3333 ∧ flag f n = 0x4444)

/-- The cells of a track. -/
def cells (f : List Byte) (i : Nat) : List Bool :=
  (List.range (8 * size f i)).map fun j => (f.getD (start f i + j / 8) 0#8).getMsbD (j % 8)

/-- The weak cells of a track: a zero with six zeros before it. -/
def weak (L : List Bool) : List Bool :=
  (List.range L.length).map fun i => decide (6 ≤ i ∧ ∀ k ∈ List.range 7, L.getD (i - k) true = false)

/-- Track `i` of the file. -/
def track (f : List Byte) (i : Nat) : CellTrack :=
  (⟨i / sides f, i % sides f⟩, cells f i, weak (cells f i))

/-- The first `n` tracks of the file. -/
def tracks (f : List Byte) (n : Nat) : List CellTrack := (List.range n).map (track f)

/-- What the loader asks of a file with `n` tracks; only pairs of tracks are looked at. -/
structure WellFormed (checked : Bool) (f : List Byte) (n : Nat) : Prop where
  long : 2309 ≤ f.length
  header : byte f 0 = 0x5A ∧ byte f 1 = 0xA5
  type : byte f 256 = 0xFF ∨ byte f 256 = 2 ∨ byte f 256 = 3 ∨ byte f 256 = 7
  first : byte f 257 = 0
  step : byte f 260 = 1
  sides : sides f = 1 ∨ sides f = 2
  count : HasTracks f n
  inside : ∀ i, i < n / 2 * 2 → start f i + size f i ≤ f.length
  nonempty : ∀ i, i < n / 2 * 2 → (if checked then 4 else 1) ≤ size f i

end TcFile
end Spec
end Fox
