import Verif.Model.Disk
/-
Model of the dumps of bytes as text (`dump_slice`, `dump_string`, `dump_sector_hex`, `dump_sector_string`).  A text is the list of its
characters.  Not modelled: errors of the writer.
-/
namespace Fox
namespace Dump

/-- A digit of `{:X}`. -/
def hexDigit (n : Nat) : Char := if n < 10 then Char.ofNat (48 + n) else Char.ofNat (55 + n)

/-- `{:X}` of a number. -/
def hexNat (n : Nat) : List Char :=
  if n < 16 then [hexDigit n] else hexNat (n / 16) ++ [hexDigit (n % 16)]

/-- `{:0wX}` of a number: zeros are put in front. -/
def hexPad (w n : Nat) : List Char := List.replicate (w - (hexNat n).length) '0' ++ hexNat n

/-- A byte as a character (src/util.rs:152-155, 179-182, 196). -/
def shown (b : Byte) : Char := if 40 ≤ b.toNat ∧ b.toNat ≤ 126 then Char.ofNat b.toNat else '.'

/-- One row (src/util.rs:138-158; for the last, 162-187): the address, the bytes with blanks in the place of those that lack, and the
characters. -/
def row (address perRow : Nat) (bytes : List Byte) : List Char :=
  hexPad 5 address ++ [' ', '|', ' '] ++
    bytes.flatMap (fun b => hexPad 2 b.toNat ++ [' ']) ++ (List.replicate (perRow - bytes.length) [' ', ' ', ' ']).flatten ++
    ['|', ' '] ++ bytes.map shown ++ List.replicate (perRow - bytes.length) ' ' ++ ['\n']

/-- `dump_slice` (src/util.rs:126-191).  Rows of no bytes divide by zero.  The bytes of row `r`, which the code indexes one by one, are
those from `r * bytes_per_row`. -/
def dumpSlice (data : List Byte) (start perRow elemSize : Nat) : Except Err (List Char) :=
  if perRow = 0 then .error .panic
  else
    let rows := data.length / perRow
    let last := data.length % perRow
    let full := (List.range rows).flatMap fun r => row (r * perRow * elemSize + start) perRow ((data.drop (r * perRow)).take perRow)
    if last > 0 then .ok (full ++ row (rows * perRow * elemSize + start) perRow (data.drop (rows * perRow)))
    else .ok full

/-- `dump_string` (src/util.rs:193-199). -/
def dumpString (data : List Byte) : List Char := data.map shown

end Dump

namespace Disk

/-- `dump_sector_hex` (src/diskimage.rs:1944-1963). -/
def dumpHex (d : Disk) (nz : Noise) (ch : Ch) (q : Query) (n offset : Option Nat) (scope : S34.Scope) (perRow : Nat) :
    Except Err (List Char) :=
  match d.readSector nz ch q n offset scope true with
  | .error e => .error e
  | .ok r =>
    match scope with
    | .dataOnly =>
      if r.readBuf.length < r.dataRange.2 then .error .panic else Dump.dumpSlice r.bytes 0 perRow 1
    | .entire => Dump.dumpSlice r.readBuf 0 perRow 1
    | _ => .error .parameter

/-- `dump_sector_string` (src/diskimage.rs:1965-1975): all of the buffer. -/
def dumpText (d : Disk) (nz : Noise) (ch : Ch) (q : Query) (n offset : Option Nat) : Except Err (List Char) :=
  match d.readSector nz ch q n offset .dataOnly true with
  | .error e => .error e
  | .ok r => .ok (Dump.dumpString r.readBuf)

end Disk
end Fox
