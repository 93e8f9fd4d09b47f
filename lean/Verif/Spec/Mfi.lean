import Verif.Spec.Scp
import Verif.Spec.Flux
/-
The MAME floppy image format: a header of 32 bytes; a table with an entry of 16 bytes for each track, cylinder by cylinder;
and the tracks' data, deflated: words of 32 bits, each a type (4 bits) and a time (28 bits).  A time is an angle, in units
of a 200,000,000th of a turn, that is in ns at 300 rpm.
-/
namespace Fox
namespace Spec
namespace MfiFile
open ScpFile (dword)

/-- The number of cylinders (of which the format leaves 30 bits, and the loader 16) and of sides. -/
def cylinders (f : List Byte) : Nat := dword f 16 % 2 ^ 30 % 2 ^ 16
def sides (f : List Byte) : Nat := dword f 20 % 2 ^ 8

/-- How many tracks the table has. -/
def count (f : List Byte) : Nat := cylinders f * sides f

/-- Entry `i` of the table: where the data lie, how many bytes they are, and how many they become. -/
def offset (f : List Byte) (i : Nat) : Nat := dword f (32 + 16 * i)
def packedSize (f : List Byte) (i : Nat) : Nat := dword f (32 + 16 * i + 4)
def fullSize (f : List Byte) (i : Nat) : Nat := dword f (32 + 16 * i + 8)

/-- Where track `i` belongs. -/
def place (f : List Byte) (i : Nat) : Ch := ⟨i / sides f, i % sides f⟩

/-- A track that is not formatted. -/
def Blank (f : List Byte) (i : Nat) : Prop := offset f i = 0 ∨ packedSize f i = 0 ∨ fullSize f i = 0

instance (f : List Byte) (i : Nat) : Decidable (Blank f i) := by unfold Blank; infer_instance

/-- The data of track `i`, if they can be inflated. -/
def content (inflate : List Byte → Nat → Option (List Byte)) (f : List Byte) (i : Nat) : Option (List Byte) :=
  if Blank f i then some [] else inflate ((f.drop (offset f i)).take (packedSize f i)) (fullSize f i)

/-- The words of a track; a rest of less than four bytes is none. -/
def words (data : List Byte) : List Nat := (List.range (data.length / 4)).map fun k => dword data (4 * k)

/-- The type and the time of a word: type 0 is a flux transition, 1 to 3 the start of an unmagnetised or a damaged zone and
the end of a zone. -/
def kind (w : Nat) : Nat := w / 2 ^ 28
def time (w : Nat) : Nat := w % 2 ^ 28

/-- The times of the flux transitions of a track. -/
def times (data : List Byte) : List Nat := ((words data).filter fun w => kind w = 0).map time

/-- Times as angles, in seconds at 300 rpm. -/
def seconds (ts : List Nat) : List Rat := ts.map fun (n : Nat) => (n : Rat) / 1000000000

/-- The times are those of a track with the intervals `ks`, recorded at 300 rpm (or whose cells are as long as if it were): as
captured in a fifth of a second. -/
def At300 (ks ts : List Nat) : Prop := Captures ks (seconds ts) (1 / 5)

/-- The times are those of a high density track with the intervals `ks`, recorded at 360 rpm: a turn takes a sixth of a second, so
the times are five sixths of what the angles would be at 300 rpm. -/
structure At360 (ks ts : List Nat) : Prop where
  mfm : ∀ k ∈ ks, 2 ≤ k ∧ k ≤ 4
  looks : LooksMfm ks
  start : MixedWell (firstPart ks)
  whole : (ks.length < 20000 ∨ 41666 ≤ ks.length ∧ ks.length < 50000) → MixedWell ks
  measured : ∃ q, (978 / 1000000000 ≤ q ∧ q ≤ 1006 / 1000000000) ∧
    Measured q (35 / 1000 * q) ks ((seconds ts).map fun x => x * (5 / 6)) ∧ Expected q ks.length (1 / 6)

/-- What the loader asks of a file's header, table and compressed data. -/
structure Layout (inflate : List Byte → Nat → Option (List Byte)) (f : List Byte) : Prop where
  header : 32 ≤ f.length ∧ f.take 15 =
    [0x4D#8, 0x41#8, 0x4D#8, 0x45#8, 0x46#8, 0x4C#8, 0x4F#8, 0x50#8, 0x50#8, 0x59#8, 0x49#8, 0x4D#8, 0x41#8, 0x47#8, 0x45#8]
  form : (f.drop 24).take 4 ∈
    [[0x33#8, 0x35#8, 0x20#8, 0x20#8], [0x35#8, 0x32#8, 0x35#8, 0x20#8], [0x38#8, 0x20#8, 0x20#8, 0x20#8]]
  geometry : 0 < cylinders f ∧ (sides f = 1 ∨ sides f = 2)
  table : 32 + 16 * count f ≤ f.length
  order : ∀ i j, i < j → j < count f → packedSize f j ≠ 0 → offset f i ≠ 0 → (∀ k, i < k → k < j → offset f k = 0) →
    offset f i ≤ offset f j
  inside : ∀ i < count f, offset f i ≤ f.length ∧ (¬ Blank f i → offset f i + packedSize f i ≤ f.length)
  inflates : ∀ i < count f, ∃ d, content inflate f i = some d

/-- What the loader asks of a file. -/
structure WellFormed (inflate : List Byte → Nat → Option (List Byte)) (f : List Byte) : Prop extends Layout inflate f where
  types : ∀ i < count f, ∀ d, content inflate f i = some d → ∀ w ∈ words d, kind w < 4

end MfiFile
end Spec
end Fox
