import Verif.Model.Detect
/-
By what a file tells its format.
-/
namespace Fox
namespace Spec
namespace FileKind

/-- The bytes of a text. -/
def text (s : List Char) : List Byte := s.map fun c => BitVec.ofNat 8 c.toNat

/-- The marks with which files of the formats begin (raw images and ImageDisk files have none), and the least sizes of their
headers. -/
def marks : Detect.Format → List (List Byte)
  | .raw => []
  | .imd => []
  | .psi => [text ['P', 'S', 'I', ' ']]
  | .pri => [text ['P', 'R', 'I', ' ']]
  | .pfi => [text ['P', 'F', 'I', ' ']]
  | .mfm => [text ['H', 'X', 'C', 'M', 'F', 'M']]
  | .td0 => [text ['T', 'D'], text ['t', 'd']]
  | .kryo => [[13#8]]
  | .hfe => [text ['H', 'X', 'C', 'P', 'I', 'C', 'F', 'E']]
  | .f86 => [text ['8', '6', 'B', 'F'] ++ [12#8, 2#8]]
  | .tc => [[0x5A#8, 0xA5#8]]
  | .scp => [text ['S', 'C', 'P']]
  | .mfi => [text ['M', 'A', 'M', 'E', 'F', 'L', 'O', 'P', 'P', 'Y', 'I', 'M', 'A', 'G', 'E'], text ['M', 'E', 'S', 'S', 'F', 'L', 'O', 'P', 'P', 'Y', 'I', 'M', 'A', 'G', 'E']]
  | .ipf => [text ['C', 'A', 'P', 'S']]
  | .moof => [text ['M', 'O', 'O', 'F']]
  | .woz => [text ['W', 'O', 'Z', '2']]

def headerSize : Detect.Format → Nat
  | .raw => 0 | .imd => 0
  | .psi => 8 | .pri => 8 | .pfi => 8
  | .mfm => 19 | .td0 => 12 | .kryo => 1 | .hfe => 26 | .f86 => 8 | .tc => 256 | .scp => 16
  | .mfi => 32 | .ipf => 12 | .moof => 12 | .woz => 12

/-- A file begins with the mark of a format and is as long as its header. -/
def Bears (f : List Byte) (F : Detect.Format) : Prop :=
  headerSize F ≤ f.length ∧ ∃ m ∈ marks F, ∃ r, f = m ++ r

/-- The sizes of raw images, in bytes. -/
def rawSizes : List Nat :=
  [160 * 1024, 180 * 1024, 320 * 1024, 360 * 1024, 720 * 1024, 1200 * 1024, 1440 * 1024, 2880 * 1024, 880 * 1024]

/-- A zip or a gzip file, by its first bytes. -/
def Archive (f : List Byte) : Prop := (∃ r, f = text ['P', 'K'] ++ [3#8, 4#8] ++ r) ∨ ∃ r, f = [0x1F#8, 0x8B#8, 8#8] ++ r

/-- The text at the beginning of a file: up to a 0 or a Ctrl-Z, without anything that is not printable ASCII or DEL. -/
def textOf (f : List Byte) : List Byte :=
  (f.takeWhile fun b => b ≠ 0#8 ∧ b ≠ 26#8).filter fun b => 32 ≤ b.toNat ∧ b.toNat ≤ 127

/-- A run of digits. -/
def Digits (n : Nat) (l : List Byte) : Prop := l.length = n ∧ ∀ b ∈ l, 48 ≤ b.toNat ∧ b.toNat ≤ 57

/-- Blanks, at least one. -/
def Blanks (l : List Byte) : Prop := l ≠ [] ∧ ∀ b ∈ l, b = 32#8

/-- The first line of an ImageDisk file: `IMD v.vv: dd/mm/yyyy hh:mm:ss`. -/
def ImdLine (l : List Byte) : Prop :=
  ∃ v vv b1 day month year b2 hh mm ss,
    Digits 1 v ∧ Digits 2 vv ∧ Blanks b1 ∧ (Digits 1 day ∨ Digits 2 day) ∧ Digits 2 month ∧ Digits 4 year ∧ Blanks b2 ∧
    (Digits 1 hh ∨ Digits 2 hh) ∧ Digits 2 mm ∧ Digits 2 ss ∧
    l = text ['I', 'M', 'D', ' '] ++ v ++ text ['.'] ++ vv ++ text [':'] ++ b1 ++ day ++ text ['/'] ++ month ++ text ['/'] ++ year ++ b2 ++ hh ++
      text [':'] ++ mm ++ text [':'] ++ ss

/-- Such a line anywhere in the text at the beginning of a file. -/
def HasImdLine (f : List Byte) : Prop := ∃ a l z, textOf f = a ++ l ++ z ∧ ImdLine l

end FileKind
end Spec
end Fox
