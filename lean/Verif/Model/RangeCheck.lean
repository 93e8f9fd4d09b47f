import Verif.Model.Basic
/-
Model of src/range_check.rs (the same file is repeated in crates/ff_egui_lib).
-/
namespace Fox

/-- `RangeChecker` (src/range_check.rs:36-38): (value, +1 for a start / -1 for an end). -/
structure RangeChecker where
  events : List (Nat × Int)

namespace RangeChecker

/-- The lexicographic order of `(usize, i32)` used by `sort_unstable`. -/
def le (a b : Nat × Int) : Bool := decide (a.1 < b.1) || (a.1 == b.1 && decide (a.2 ≤ b.2))

/-- `RangeChecker::new` (src/range_check.rs:41-49); a range is (start, end).  The sort is by a total
order on the pairs, so stability is immaterial. -/
def new (ranges : List (Nat × Nat)) : RangeChecker :=
  ⟨(ranges.flatMap fun r => [(r.1, (1 : Int)), (r.2 + 1, (-1 : Int))]).mergeSort le⟩

/-- The loop of `contains` (src/range_check.rs:52-59). -/
def countLoop (value : Nat) : Int → List (Nat × Int) → Int
  | active, [] => active
  | active, e :: rest => if e.1 > value then active else countLoop value (active + e.2) rest

/-- `contains` (src/range_check.rs:51-61). -/
def contains (r : RangeChecker) (value : Nat) : Bool := decide (countLoop value 0 r.events > 0)

end RangeChecker
end Fox
