import Verif.Spec.Pll
/-
What a track must be like for its clock to be seen in its flux.
-/
namespace Fox.Spec

/-- At least one in 200 intervals is short (two cells), and one in 200 is medium or one in 200 long. -/
def Mixed (ks : List Nat) : Prop :=
  (1 ≤ times 2 ks ∧ ks.length ≤ 200 * times 2 ks) ∧
  ((1 ≤ times 3 ks ∧ ks.length ≤ 200 * times 3 ks) ∨ (1 ≤ times 4 ks ∧ ks.length ≤ 200 * times 4 ks))

instance (ks : List Nat) : Decidable (Mixed ks) := by unfold Mixed; infer_instance

/-- At least one in 100 intervals is short, and one in 100 is medium or one in 100 long. -/
def MixedWell (ks : List Nat) : Prop :=
  (1 ≤ times 2 ks ∧ ks.length ≤ 100 * times 2 ks) ∧
  ((1 ≤ times 3 ks ∧ ks.length ≤ 100 * times 3 ks) ∨ (1 ≤ times 4 ks ∧ ks.length ≤ 100 * times 4 ks))

instance (ks : List Nat) : Decidable (MixedWell ks) := by unfold MixedWell; infer_instance

/-- The first two percent of the intervals. -/
def firstPart (ks : List Nat) : List Nat := ks.take ((2 * ks.length + 50) / 100)

/-- The cell length `q` is within -20 % and +17 % of `c`. -/
def About (q c : Rat) : Prop := 80 / 100 * c ≤ q ∧ q ≤ 117 / 100 * c

/-- The cells look like MFM: more than one interval in twenty is medium, or there is a sync mark. -/
def LooksMfm (ks : List Nat) : Prop := ks.length < 20 * times 3 ks ∨ ∃ n, SyncEnds (cellsOf ks) n

/-- The cell length goes with the number `n` of transitions in a revolution and the time `t` it takes: about 2 us
for 20000 to 41665 transitions (five sixths of that in a drive with 360 rpm), about 1 us for 50000 and more. -/
def Expected (q : Rat) (n : Nat) (t : Rat) : Prop :=
  (20000 ≤ n → n < 41666 →
    if 345 ≤ 60 / t ∧ 60 / t < 414 then About q (1 / 600000) else About q (1 / 500000)) ∧
  (50000 ≤ n → About q (1 / 1000000))

/-- A revolution of time `t` with the intervals `ks`, of cells `q` long, can be read with no hint: MFM intervals, cells
between 256 ns and 3.8 us that go with the number of transitions, short intervals and others in the first part (and in
the whole, if the number of transitions says nothing). -/
structure Capturable (q : Rat) (ks : List Nat) (t : Rat) : Prop where
  low : 256 / 1000000000 ≤ q
  high : q ≤ 38 / 10000000
  mfm : ∀ k ∈ ks, 2 ≤ k ∧ k ≤ 4
  looks : LooksMfm ks
  start : Mixed (firstPart ks)
  expected : Expected q ks.length t
  whole : (ks.length < 20000 ∨ 41666 ≤ ks.length ∧ ks.length < 50000) → Mixed ks

/-- Cells of the usual length: 1.955 to 2.012 us (double density) or 0.978 to 1.006 us (high density). -/
def Usual (q : Rat) : Prop :=
  (1955 / 1000000000 ≤ q ∧ q ≤ 2012 / 1000000000) ∨ (978 / 1000000000 ≤ q ∧ q ≤ 1006 / 1000000000)

/-- A revolution of time `t`, in which the times `ds` were measured, is one of a track with the intervals `ks`: cells of
the usual length, every time right to within 3.5 % of a cell, and otherwise as for `Capturable`. -/
structure Captures (ks : List Nat) (ds : List Rat) (t : Rat) : Prop where
  mfm : ∀ k ∈ ks, 2 ≤ k ∧ k ≤ 4
  looks : LooksMfm ks
  start : MixedWell (firstPart ks)
  whole : (ks.length < 20000 ∨ 41666 ≤ ks.length ∧ ks.length < 50000) → MixedWell ks
  measured : ∃ q, Usual q ∧ Measured q (35 / 1000 * q) ks ds ∧ Expected q ks.length t

end Fox.Spec
