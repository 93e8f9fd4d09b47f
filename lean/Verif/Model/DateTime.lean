import Verif.Model.Basic

/-!
# Dates and times of files

`src/file_system/date_time.rs`: the conversion of a system time to a calendar date and its text.  The conversions
from and to the FAT library's own type copy fields and are not modelled.
-/

namespace Fox

/-- `FsDateTime` (src/file_system/date_time.rs:46-55). -/
structure FsDateTime where
  year : Nat
  month : Nat
  day : Nat
  hour : Nat
  minute : Nat
  second : Nat
  millisecond : Nat
deriving DecidableEq, Repr

/-- `DateTimeError` (src/file_system/date_time.rs:36-44). -/
inductive DateErr
  | before1970
  | yearTooLarge
  | internalOutOfRange
deriving DecidableEq, Repr

namespace DateTime

/-- `is_leap_year` (src/file_system/date_time.rs:215-228). -/
def isLeap (year : Nat) : Bool :=
  if year % 400 = 0 then true
  else if year % 100 = 0 then false
  else if year % 4 = 0 then true
  else false

/-- `days_in_year` (src/file_system/date_time.rs:205-212). -/
def daysInYear (y : Nat) : Nat := if isLeap y then 366 else 365

/-- The loop of `days_to_ymd` (src/file_system/date_time.rs:156-174), entered with a year of at most `u16::MAX`. -/
def daysToYmd (year days : Nat) : Except DateErr (Nat × Nat) :=
  if days < daysInYear year then .ok (year, days)
  else if year ≥ 65535 then .error .yearTooLarge
  else daysToYmd (year + 1) (days - daysInYear year)
termination_by 65535 - year

/-- The loop over the months in `day_of_year_to_month_day` (src/file_system/date_time.rs:189-199). -/
def monthLoop (i leftover : Nat) : List Nat → Except DateErr (Nat × Nat)
  | [] => .error .internalOutOfRange
  | mlen :: ms => if leftover < mlen then .ok (i + 1, leftover + 1) else monthLoop (i + 1) (leftover - mlen) ms

/-- `day_of_year_to_month_day` (src/file_system/date_time.rs:180-203). -/
def monthDay (year dayOfYear : Nat) : Except DateErr (Nat × Nat) :=
  monthLoop 0 dayOfYear
    (if isLeap year then [31, 29, 31, 30, 31, 30, 31, 31, 30, 31, 30, 31]
     else [31, 28, 31, 30, 31, 30, 31, 31, 30, 31, 30, 31])

/-- `TryFrom<SystemTime>` (src/file_system/date_time.rs:104-151).  A system time is its distance from 1970 in
nanoseconds. -/
def ofSystemTime (ns : Int) : Except DateErr FsDateTime :=
  if ns < 0 then .error .before1970
  else do
    let totalSecs := ns.toNat / 1000000000
    let nanos := ns.toNat % 1000000000
    let millis := nanos / 1000000
    let days := totalSecs / 86400
    let leftover := totalSecs % 86400
    let hour := leftover / 3600
    let leftover := leftover % 3600
    let minute := leftover / 60
    let second := leftover % 60
    let (year, dayOfYear) ← daysToYmd 1970 days
    let (month, day) ← monthDay year dayOfYear
    return { year, month, day, hour, minute, second, millisecond := millis }

/-- The decimal digits of a number, as `Display` for unsigned integers writes them. -/
def digits (n : Nat) : List Char :=
  if n < 10 then [Char.ofNat (48 + n)] else digits (n / 10) ++ [Char.ofNat (48 + n % 10)]
termination_by n

/-- `{:0w}`: the digits, padded with zeros on the left to a width of at least `w`. -/
def padded (w n : Nat) : List Char := List.replicate (w - (digits n).length) '0' ++ digits n

/-- `Display` (src/file_system/date_time.rs:71-79). -/
def display (d : FsDateTime) : List Char :=
  padded 4 d.year ++ '/' :: (padded 2 d.month ++ '/' :: (padded 2 d.day ++ ' ' ::
    (padded 2 d.hour ++ ':' :: (padded 2 d.minute ++ ':' :: padded 2 d.second))))

end DateTime
end Fox
