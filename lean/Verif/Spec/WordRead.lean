import Verif.Model.Mfm
/-
Specification for C150: the 32-bit number four bytes stand for, and where a reader is in step with
the clock.
-/
namespace Fox.Spec

/-- The number four bytes stand for, the first of least weight. -/
def leNumber (b0 b1 b2 b3 : Byte) : Nat := b0.toNat + 256 * b1.toNat + 65536 * b2.toNat + 16777216 * b3.toNat

/-- The number four bytes stand for, the first of greatest weight. -/
def beNumber (b0 b1 b2 b3 : Byte) : Nat := b3.toNat + 256 * b2.toNat + 65536 * b1.toNat + 16777216 * b0.toNat

/-- From cell `i` on, for four bytes, clock and data cells alternate where bytes begin: either each of
the cells `i`, `i + 16`, `i + 32`, `i + 48` is a clock cell, or none is and the next of each is. -/
def InStep (clock : Nat → Bool) (i : Nat) : Prop :=
  (∀ k < 4, clock (i + 16 * k) = true) ∨ (∀ k < 4, clock (i + 16 * k) = false ∧ clock (i + 16 * k + 1) = true)

end Fox.Spec
