/-
Model of `natural_sort` (src/util.rs:201-242).  The strings are the first components of the two paths, as
lists of ASCII codes; on them `\d` is 0-9 and `to_lowercase` maps A-Z.  Taking the first component of the path
and non-ASCII names are not modelled.
-/
namespace Fox
namespace NatSort

/-- `\d` (src/util.rs:206) on ASCII. -/
def isDigit (c : Nat) : Bool := 48 ≤ c && c ≤ 57

/-- `to_lowercase` (src/util.rs:217) of an ASCII code. -/
def lower (c : Nat) : Nat := if 65 ≤ c ∧ c ≤ 90 then c + 32 else c

/-- `str::cmp`: lexicographic by code. -/
def lexCmp : List Nat → List Nat → Ordering
  | [], [] => .eq
  | [], _ :: _ => .lt
  | _ :: _, [] => .gt
  | a :: as, b :: bs => if a < b then .lt else if b < a then .gt else lexCmp as bs

/-- `re.captures_iter` for `(\D+)|(\d+)` (src/util.rs:206, 211-212): the maximal runs of digits and of other
characters. -/
def runs : List Nat → List (List Nat)
  | [] => []
  | c :: cs =>
    match runs cs with
    | (d :: r) :: rest => if isDigit c = isDigit d then (c :: d :: r) :: rest else [c] :: (d :: r) :: rest
    | rest => [c] :: rest

/-- The number a digit string denotes. -/
def value (ds : List Nat) : Nat := ds.foldl (fun v d => 10 * v + (d - 48)) 0

/-- `part.get(2).and_then(parse::<u32>)` (src/util.rs:225-226): a run of digits that fits a `u32`. -/
def number (run : List Nat) : Option Nat :=
  if run.all isDigit then (if value run < 2 ^ 32 then some (value run) else none) else none

/-- The loop of `natural_sort` (src/util.rs:214-241); `full` is the comparison of the whole names. -/
def go (full : Ordering) : List (List Nat) → List (List Nat) → Ordering
  | a :: as, b :: bs =>
    if !a.all isDigit && !b.all isDigit then
      match lexCmp (a.map lower) (b.map lower) with
      | .eq => go full as bs
      | o => o
    else
      match number a, number b with
      | some x, some y => if x < y then .lt else if y < x then .gt else go full as bs
      | _, _ => full
  | _, _ => full

/-- `natural_sort` (src/util.rs:201-242). -/
def natural (a b : List Nat) : Ordering :=
  go (lexCmp (a.map lower) (b.map lower)) (runs a) (runs b)

end NatSort
end Fox
