import Verif.Model.Basic
/-
What flux is: a disk's track is a row of bit cells of equal length; a flux transition is a cell with a 1.
-/
namespace Fox.Spec

/-- The cells of a row of flux transitions, the `i`-th of which comes `ks[i]` cells after the one before:
`k - 1` empty cells and one with a transition. -/
def cellsOf (ks : List Nat) : List Bool := ks.flatMap fun k => List.replicate (k - 1) false ++ [true]

/-- The time from each transition to the next on a disk whose cells last `q`. -/
def perfect (q : Rat) (ks : List Nat) : List Rat := ks.map fun (k : Nat) => (k : Rat) * q

/-- `x` is within `tol` of `y`. -/
def Near (tol x y : Rat) : Prop := y - tol ≤ x ∧ x ≤ y + tol

/-- `ds` are the times measured between the transitions, each off by at most `tol`. -/
inductive Measured (q tol : Rat) : List Nat → List Rat → Prop where
  | nil : Measured q tol [] []
  | cons {k : Nat} {d : Rat} {ks ds} : Near tol d (k * q) → Measured q tol ks ds → Measured q tol (k :: ks) (d :: ds)

/-- How many entries of a list are `n`. -/
def times (n : Nat) (ks : List Nat) : Nat := (ks.filter (· == n)).length

/-- The last `w` bits before position `n` are those of `v` (most significant first). -/
def EndsWith (bits : List Bool) (n w v : Nat) : Prop :=
  w ≤ n ∧ n ≤ bits.length ∧ ∀ i, i < w → bits.getD (n - w + i) false = v.testBit (w - 1 - i)

/-- A sync mark ends at bit `n`: `0xAAAAAAAA44894489` but for its first two bits, of which the second is clear or
lies before the start. -/
def SyncEnds (bits : List Bool) (n : Nat) : Prop :=
  EndsWith bits n 62 0x2AAAAAAA44894489 ∧ (n = 62 ∨ bits.getD (n - 63) false = false)

/-- How many of the bits are set. -/
def ones (bits : List Bool) : Nat := (bits.filter id).length

/-- What the FM decoder makes of intervals of one and two cells: it sees with a `narrow` or a wide cell, and takes a
double interval for a triple one while its cell is narrow. -/
def fmSeen : Bool → List Nat → List Nat
  | _, [] => []
  | narrow, k :: ks =>
    if k = 1 then 1 :: fmSeen (!narrow) ks
    else (if narrow then 3 else 2) :: fmSeen true ks

/-- The same from the start of a track: the first interval is one cell too long. -/
def fmSeenAll : List Nat → List Nat
  | [] => []
  | k :: ks => (k + 1) :: fmSeen true ks

end Fox.Spec
