import Verif.Model.Basic
/-
Specification vocabulary: the bits of a byte string.
-/
namespace Fox

/-- Bit `j` of a byte string, most significant first. -/
def dat (B : List Byte) (j : Nat) : Bool := (B.getD (j / 8) 0).getMsbD (j % 8)

end Fox
