import Verif.Model.Basic
/-
What an LZHUF stream means, independently of the code: a list of tokens, each a byte or a copy from the last
4096 bytes.  Before the first byte the history holds 60 zeros and 4036 spaces.
-/
namespace Fox
namespace Spec
namespace Lz

/-- A byte, or `len` bytes copied from `back + 1` bytes ago. -/
inductive Token where
  | lit (b : Byte)
  | copy (len back : Nat)
  deriving DecidableEq, Repr

/-- Copies are 3 to 60 bytes long and reach back at most 4096. -/
def Token.Valid : Token → Prop
  | .lit _ => True
  | .copy len back => 3 ≤ len ∧ len ≤ 60 ∧ back < 4096

/-- What precedes the first byte. -/
def history : List Byte := List.replicate 60 0#8 ++ List.replicate 4036 0x20#8

/-- Append `len` bytes, each the one `back + 1` places before it: copies may overlap themselves. -/
def copyFrom (back : Nat) : Nat → List Byte → List Byte
  | 0, h => h
  | len + 1, h => copyFrom back len (h ++ [h.getD (h.length - (back + 1)) 0#8])

/-- The history after one token. -/
def Token.apply (h : List Byte) : Token → List Byte
  | .lit b => h ++ [b]
  | .copy len back => copyFrom back len h

/-- The bytes a list of tokens stands for. -/
def unpack (toks : List Token) : List Byte := (toks.foldl Token.apply history).drop 4096

end Lz
end Spec
end Fox
