import Verif.Spec.BitLoad
/-
The HxC MFM format: a header of 19 bytes, a table of tracks somewhere in the file, and the bytes of each track, highest bit
first.  An advanced table gives the length of a track in cells, a plain one in bytes.
-/
namespace Fox
namespace Spec
namespace HxcFile

/-- A byte of the file as a number. -/
def byte (f : List Byte) (i : Nat) : Nat := (f.getD i 0#8).toNat

/-- A little-endian 16-bit number. -/
def word (f : List Byte) (i : Nat) : Nat := byte f i + 256 * byte f (i + 1)

/-- A little-endian 32-bit number. -/
def dword (f : List Byte) (i : Nat) : Nat := word f i + 65536 * word f (i + 2)

/-- The number of tracks per side. -/
def cylinders (f : List Byte) : Nat := word f 7

/-- The number of sides. -/
def sides (f : List Byte) : Nat := byte f 9

/-- Whether the table is an advanced one. -/
def advanced (f : List Byte) : Bool := 128 ≤ byte f 14

/-- The size of an entry of the table. -/
def entrySize (f : List Byte) : Nat := if advanced f then 15 else 11

/-- Where entry `i` of the table lies. -/
def entry (f : List Byte) (i : Nat) : Nat := dword f 15 + i * entrySize f

/-- The number of tracks. -/
def count (f : List Byte) : Nat := cylinders f * sides f

/-- The place of a track. -/
def place (f : List Byte) (i : Nat) : Ch := ⟨word f (entry f i), byte f (entry f i + 2)⟩

/-- The number of cells of a track. -/
def ncells (f : List Byte) (i : Nat) : Nat :=
  if advanced f then dword f (entry f i + 7) else 8 * dword f (entry f i + 3)

/-- Where its cells lie. -/
def start (f : List Byte) (i : Nat) : Nat :=
  if advanced f then dword f (entry f i + 11) else dword f (entry f i + 7)

/-- The cells of a track. -/
def cells (f : List Byte) (i : Nat) : List Bool :=
  (List.range (ncells f i)).map fun j => (f.getD (start f i + j / 8) 0#8).getMsbD (j % 8)

/-- The tracks of the file in the order of the table. -/
def tracks (f : List Byte) : List CellTrack :=
  (List.range (count f)).map fun i => (place f i, cells f i, solid (cells f i))

/-- What the loader asks of a file.  In a plain table a track must not be empty, and with overflow checks have at least 32
cells. -/
structure WellFormed (checked : Bool) (f : List Byte) : Prop where
  header : 19 ≤ f.length ∧ f.take 6 = [0x48#8, 0x58#8, 0x43#8, 0x4D#8, 0x46#8, 0x4D#8]
  table : count f = 0 ∨ entry f (count f) ≤ f.length
  side : ∀ i, i < count f → (place f i).h < 2
  inside : ∀ i, i < count f → ncells f i = 0 ∨ start f i + (ncells f i + 7) / 8 ≤ f.length
  long : advanced f = false → ∀ i, i < count f → (if checked then 32 else 8) ≤ ncells f i

end HxcFile
end Spec
end Fox
