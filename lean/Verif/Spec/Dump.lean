import Verif.Model.Basic
/-
Specification vocabulary for dumps: how a person reads one.
-/
namespace Fox.Spec

/-- The value of a hexadecimal digit. -/
def hexVal (c : Char) : Option Nat :=
  if '0'.toNat ≤ c.toNat ∧ c.toNat ≤ '9'.toNat then some (c.toNat - '0'.toNat)
  else if 'A'.toNat ≤ c.toNat ∧ c.toNat ≤ 'F'.toNat then some (10 + (c.toNat - 'A'.toNat))
  else none

/-- The number that hexadecimal digits write. -/
def numberOf (cs : List Char) : Nat := cs.foldl (fun n c => 16 * n + (hexVal c).getD 0) 0

/-- The lines of a text, each ended by a line feed. -/
def linesOf : List Char → List (List Char)
  | [] => []
  | cs@(_ :: _) => go [] cs
where
  /-- With the line so far. -/
  go (sofar : List Char) : List Char → List (List Char)
    | [] => if sofar = [] then [] else [sofar]
    | c :: cs => if c = '\n' then sofar :: go [] cs else go (sofar ++ [c]) cs

/-- The address at the start of a line. -/
def addressOf (line : List Char) : Nat := numberOf (line.takeWhile (· ≠ ' '))

/-- What is between the first two bars. -/
def bytesColumn (line : List Char) : List Char := ((line.dropWhile (· ≠ '|')).drop 2).takeWhile (· ≠ '|')

/-- What is after the second bar. -/
def textColumn (line : List Char) : List Char := ((((line.dropWhile (· ≠ '|')).drop 2).dropWhile (· ≠ '|')).drop 2)

/-- The bytes written in a column of pairs of digits; blanks are skipped. -/
def bytesOfHex : List Char → List Byte
  | a :: b :: _ :: rest => match hexVal a, hexVal b with
    | some x, some y => BitVec.ofNat 8 (16 * x + y) :: bytesOfHex rest
    | _, _ => bytesOfHex rest
  | _ => []

/-- The bytes a dump shows. -/
def readDump (text : List Char) : List Byte := (linesOf text).flatMap fun l => bytesOfHex (bytesColumn l)

end Fox.Spec
