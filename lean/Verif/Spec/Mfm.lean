import Verif.Model.Mfm
/-
Small specification vocabulary for MFM streams.
-/
namespace Fox.Spec

/-- The 64 cells that start at `p`, first cell most significant. -/
def window64 (r : BitRing) (p : Nat) : BitVec 64 :=
  shiftIn 64 0 ((List.range 64).map fun k => r.bitAt (p + k))

/-- A search pattern matches at `p`: the window lies between `start` and `lim` and equals the pattern
under its mask. -/
def MatchAt (r : BitRing) (m : MarkerEnc) (start lim p : Nat) : Prop :=
  start ≤ p ∧ p + 64 ≤ lim ∧ window64 r p &&& m.mask = m.bits

/-- No weak bit is effective. -/
def NoWeak (s : Mfm) : Prop := s.weakEnabled = false ∨ ∀ b ∈ s.weakMask.bits, b = false

/-- The clock map calls for no phase correction at the `n` cell pairs that start at `p`. -/
def AlignedAt (s : Mfm) (p n : Nat) : Prop :=
  ∀ j < n, s.clockMap.bitAt (p + 2 * j) = true ∨ s.clockMap.bitAt (p + 2 * j + 1) = false

end Fox.Spec
