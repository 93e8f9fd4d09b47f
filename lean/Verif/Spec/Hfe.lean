import Verif.Spec.BitLoad
/-
The HFE format (HxC floppy emulator): a header block, a table of tracks, and for each track blocks of 512 bytes, the
first 256 of which belong to side 0 and the others to side 1.  The cells of a byte come lowest bit first.
-/
namespace Fox
namespace Spec
namespace HfeFile

/-- A byte of the file as a number. -/
def byte (f : List Byte) (i : Nat) : Nat := (f.getD i 0#8).toNat

/-- A little-endian 16-bit number. -/
def word (f : List Byte) (i : Nat) : Nat := byte f i + 256 * byte f (i + 1)

/-- The number of tracks per side. -/
def cylinders (f : List Byte) : Nat := byte f 9

/-- The number of sides. -/
def sides (f : List Byte) : Nat := byte f 10

/-- Where the table of tracks lies. -/
def table (f : List Byte) : Nat := 512 * word f 18

/-- Where the data of a cylinder starts. -/
def start (f : List Byte) (c : Nat) : Nat := 512 * word f (table f + 4 * c)

/-- The number of bytes of a cylinder, both sides together. -/
def len (f : List Byte) (c : Nat) : Nat := word f (table f + 4 * c + 2)

/-- Where byte `k` of side `h` of a cylinder lies. -/
def place (f : List Byte) (c h k : Nat) : Nat := start f c + 512 * (k / 256) + 256 * h + k % 256

/-- The cells of side `h` of cylinder `c`. -/
def cells (f : List Byte) (c h : Nat) : List Bool :=
  (List.range (8 * (len f c / 2))).map fun j => (f.getD (place f c h (j / 8)) 0#8).getLsbD (j % 8)

/-- The track at a position. -/
def track (f : List Byte) (c h : Nat) : CellTrack := (⟨c, h⟩, cells f c h, solid (cells f c h))

/-- The positions of the tracks. -/
def places (f : List Byte) : List Ch :=
  (List.range (cylinders f)).flatMap fun c => if sides f > 1 then [⟨c, 0⟩, ⟨c, 1⟩] else [⟨c, 0⟩]

/-- The tracks of the file. -/
def tracks (f : List Byte) : List CellTrack := (places f).map fun ch => track f ch.c ch.h

/-- Where the loader looks for byte `k` of side `h`: in the last block of a cylinder, if it is not full, side 1 is taken to
follow side 0 at once. -/
def foundAt (f : List Byte) (c h k : Nat) : Nat :=
  start f c + 512 * (k / 256) + (if k < 256 * (len f c / 512) then 256 * h else (len f c % 512) / 2 * h) + k % 256

/-- The cells found there. -/
def found (f : List Byte) (c h : Nat) : List Bool :=
  (List.range (8 * (len f c / 2))).map fun j => (f.getD (foundAt f c h (j / 8)) 0#8).getLsbD (j % 8)

/-- The tracks found. -/
def foundTracks (f : List Byte) : List CellTrack :=
  (places f).map fun ch => (ch, found f ch.c ch.h, solid (found f ch.c ch.h))

/-- What the loader asks of a file.  With overflow checks a side of a track must have at least four bytes and the tracks
must lie in the order of the table. -/
structure WellFormed (checked : Bool) (f : List Byte) : Prop where
  header : 26 ≤ f.length ∧ f.take 8 = [0x48#8, 0x58#8, 0x43#8, 0x50#8, 0x49#8, 0x43#8, 0x46#8, 0x45#8]
  table : cylinders f = 0 ∨ table f + 4 * cylinders f ≤ f.length
  even : ∀ c, c < cylinders f → len f c % 2 = 0
  long : ∀ c, c < cylinders f → (if checked then 8 else 2) ≤ len f c
  inside : ∀ c, c < cylinders f → start f c + len f c ≤ f.length
  ascending : checked = true → ∀ c, c + 1 < cylinders f → start f c ≤ start f (c + 1)

end HfeFile
end Spec
end Fox
