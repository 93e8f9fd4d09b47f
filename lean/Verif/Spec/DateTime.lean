import Verif.Model.DateTime

/-!
# The calendar

The Gregorian calendar by arithmetic, without loops: the number of days before a year, before a month, and the
milliseconds since the beginning of 1970 of a date and time.
-/

namespace Fox

/-- Every fourth year is a leap year, except the centuries that are not multiples of 400. -/
def IsLeapYear (y : Nat) : Prop := 4 ∣ y ∧ (¬ 100 ∣ y ∨ 400 ∣ y)

instance (y : Nat) : Decidable (IsLeapYear y) := by unfold IsLeapYear; infer_instance

/-- Days in a month: thirty days have September, April, June and November. -/
def monthLength (y m : Nat) : Nat :=
  if m = 2 then (if IsLeapYear y then 29 else 28)
  else if m = 4 ∨ m = 6 ∨ m = 9 ∨ m = 11 then 30 else 31

/-- Days from the beginning of year 1 to the beginning of year `y`: 365 for each, one more for each leap year,
which are the multiples of 4 less those of 100 plus those of 400. -/
def daysBeforeYear (y : Nat) : Nat := 365 * (y - 1) + (y - 1) / 4 - (y - 1) / 100 + (y - 1) / 400

/-- Days of year `y` before its month `m`. -/
def daysBeforeMonth (y m : Nat) : Nat := ((List.range (m - 1)).map fun i => monthLength y (i + 1)).sum

/-- A date and time that exist. -/
structure FsDateTime.Exists (d : FsDateTime) : Prop where
  year : 1970 ≤ d.year
  month : 1 ≤ d.month ∧ d.month ≤ 12
  day : 1 ≤ d.day ∧ d.day ≤ monthLength d.year d.month
  hour : d.hour < 24
  minute : d.minute < 60
  second : d.second < 60
  millisecond : d.millisecond < 1000

/-- Milliseconds from the beginning of 1970. -/
def FsDateTime.millis (d : FsDateTime) : Nat :=
  ((((daysBeforeYear d.year - daysBeforeYear 1970 + daysBeforeMonth d.year d.month + (d.day - 1)) * 24 + d.hour) * 60
    + d.minute) * 60 + d.second) * 1000 + d.millisecond

/-- Earlier in the calendar: compare year, then month, then day, and so on. -/
def FsDateTime.Earlier (a b : FsDateTime) : Prop :=
  a.year < b.year ∨ a.year = b.year ∧ (a.month < b.month ∨ a.month = b.month ∧ (a.day < b.day ∨ a.day = b.day ∧
    (a.hour < b.hour ∨ a.hour = b.hour ∧ (a.minute < b.minute ∨ a.minute = b.minute ∧ (a.second < b.second ∨
      a.second = b.second ∧ a.millisecond < b.millisecond)))))

end Fox
