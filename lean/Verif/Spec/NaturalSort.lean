/-
Specification for C50: names whose numbers are written without leading zeros and are below 2^32.
-/
namespace Fox.Spec

/-- The character is a decimal digit. -/
def Digit (c : Nat) : Prop := 48 ≤ c ∧ c ≤ 57

/-- A number: digits only, at least one. -/
def IsNumber (ds : List Nat) : Prop := ds ≠ [] ∧ ∀ c ∈ ds, Digit c

/-- The number written by digits, last digit first. -/
def numRev : List Nat → Nat
  | [] => 0
  | d :: ds => (d - 48) + 10 * numRev ds

/-- The number written. -/
def num (ds : List Nat) : Nat := numRev ds.reverse

/-- The text does not end in a digit. -/
def NoDigitEnd (p : List Nat) : Prop := ∀ l c, p = l ++ [c] → ¬ Digit c

/-- The text does not start with a digit. -/
def NoDigitStart (p : List Nat) : Prop := ∀ c l, p = c :: l → ¬ Digit c

/-- `n` is one of the numbers in the name: digits with none before and none after. -/
def NumberIn (s n : List Nat) : Prop :=
  ∃ p q, s = p ++ n ++ q ∧ NoDigitEnd p ∧ NoDigitStart q ∧ IsNumber n

/-- Every number in the name is below 2^32. -/
def SmallNumbers (s : List Nat) : Prop := ∀ n, NumberIn s n → num n < 2 ^ 32

/-- Every number in the name is written without superfluous zeros. -/
def NoLeadingZeros (s : List Nat) : Prop := ∀ n, NumberIn s n → n = [48] ∨ n.head? ≠ some 48

/-- Letter case is ignored. -/
def caseFold (s : List Nat) : List Nat := s.map fun c => if 65 ≤ c ∧ c ≤ 90 then c + 32 else c

end Fox.Spec
