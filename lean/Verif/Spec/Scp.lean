import Verif.Spec.Flux
import Verif.Model.Disk
/-
The SuperCard Pro format: a header of 16 bytes; a table of the offsets of up to 168 tracks; each track a header of 4 bytes,
a header of 12 bytes for each revolution, and the flux times as big-endian words.
-/
namespace Fox
namespace Spec
namespace ScpFile

/-- A byte of the file as a number. -/
def byte (f : List Byte) (i : Nat) : Nat := (f.getD i 0#8).toNat

/-- A little-endian 16-bit number. -/
def word (f : List Byte) (i : Nat) : Nat := byte f i + 256 * byte f (i + 1)

/-- A little-endian 32-bit number. -/
def dword (f : List Byte) (i : Nat) : Nat := word f i + 65536 * word f (i + 2)

/-- A big-endian 16-bit number. -/
def bword (f : List Byte) (i : Nat) : Nat := 256 * byte f i + byte f (i + 1)

/-- How many revolutions each track has. -/
def turns (f : List Byte) : Nat := byte f 5

/-- How many sides the file has. -/
def sides (f : List Byte) : Nat := if byte f 10 = 0 then 2 else 1

/-- The time of one tick in ns. -/
def tick (f : List Byte) : Nat := 25 * (byte f 11 + 1)

/-- Entry `i` of the table: where track `i` lies; 0 if there is none. -/
def offset (f : List Byte) (i : Nat) : Nat := dword f (16 + 4 * i)

/-- How many entries fit before the first track. -/
def entries (f : List Byte) : Nat := (offset f 0 - 16) / 4

/-- The offsets of the tracks before the first gap. -/
def offsets (f : List Byte) : List Nat :=
  offset f 0 :: ((List.range (entries f - 1)).map fun i => offset f (i + 1)).takeWhile (· ≠ 0)

/-- The offsets of all tracks: those entries of the table that are not zero. -/
def allOffsets (f : List Byte) : List Nat := ((List.range (entries f)).map fun i => offset f i).filter (· ≠ 0)

/-- Where track `i` belongs. -/
def place (f : List Byte) (i : Nat) : Ch := ⟨i / sides f, i % sides f⟩

/-- Where the header of revolution `j` of the track at `o` lies. -/
def turn (o j : Nat) : Nat := o + 4 + 12 * j

/-- The time it took in ticks of 25 ns, the number of its samples, and where they lie. -/
def turnTime (f : List Byte) (o j : Nat) : Nat := dword f (turn o j)
def turnCount (f : List Byte) (o j : Nat) : Nat := dword f (turn o j + 4)
def turnStart (f : List Byte) (o j : Nat) : Nat := o + dword f (turn o j + 8)

/-- Its samples. -/
def samples (f : List Byte) (o j : Nat) : List Nat :=
  (List.range (turnCount f o j)).map fun i => bword f (turnStart f o j + 2 * i)

/-- The flux times that samples stand for, in ticks, with a carry `c` for every sample of 0: such a sample says that the
16-bit counter ran over. -/
def times (c : Nat) : Nat → List Nat → List Nat
  | _, [] => []
  | acc, 0 :: ws => times c (acc + c) ws
  | acc, (n + 1) :: ws => (acc + (n + 1)) :: times c 0 ws

/-- The revolutions of the track at `o`: the flux times and the time of the whole, in seconds; `c` is the carry. -/
def flux (c : Nat) (f : List Byte) (o : Nat) : List (List Rat × Rat) :=
  (List.range (turns f)).map fun j =>
    ((times c 0 (samples f o j)).map fun n => ((n * tick f : Nat) : Rat) / 1000000000,
      ((turnTime f o j * 25 : Nat) : Rat) / 1000000000)

/-- The makers that the format knows, in the upper half of the type byte. -/
def Known (b : Nat) : Prop := b / 16 ≤ 8 ∨ b / 16 = 14 ∨ b / 16 = 15

/-- What the loader asks of a file.  Only if overflow is not checked may a revolution's time exceed 32 bits in ns. -/
structure WellFormed (checked : Bool) (f : List Byte) : Prop where
  header : 16 ≤ f.length ∧ f.take 3 = [0x53#8, 0x43#8, 0x50#8] ∧ Known (byte f 4)
  plain : (byte f 8).testBit 6 = false ∧ byte f 9 = 0 ∧ byte f 10 < 2
  first : 20 ≤ offset f 0
  order : (offsets f).Pairwise (· < ·)
  few : (offsets f).length ≤ 84 * sides f
  inside : ∀ o ∈ offsets f, o + 4 ≤ f.length ∧ (f.drop o).take 3 = [0x54#8, 0x52#8, 0x4B#8] ∧
    (turns f = 0 ∨ turn o (turns f) ≤ f.length)
  data : ∀ o ∈ offsets f, ∀ j < turns f,
    (turnCount f o j = 0 ∨ turnStart f o j + 2 * turnCount f o j ≤ f.length) ∧
    (checked = true → turnTime f o j * 25 < 2 ^ 32)

/-- The flux track at a position: its address and the cells that were found in it. -/
def fluxAt (d : Disk) (ch : Ch) : Option (Ch × Option (List Bool)) :=
  match d.track ch with
  | .ok (some (.flux c t)) => some (c, t.map fun t => t.data.bits.bits)
  | _ => none

end ScpFile
end Spec
end Fox
