import Verif.Model.Basic
/-
Model of densities, data rates and rotation rates: src/types/enums.rs:128-300 and src/types/rpm.rs.
-/
namespace Fox
namespace Rates

/-! ## Arithmetic of `f64` -/

/-- 2 to the power of an integer. -/
def pow2 : Int → Rat
  | .ofNat n => ((2 ^ n : Nat) : Rat)
  | .negSucc n => 1 / ((2 ^ (n + 1) : Nat) : Rat)

/-- The place of the leading binary digit of a positive number. -/
def lead (q : Rat) : Int :=
  let k : Int := (Nat.log2 q.num.natAbs : Int) - (Nat.log2 q.den : Int)
  if pow2 k ≤ q then k else k - 1

/-- Rounding to an integer, half to even. -/
def roundEven (x : Rat) : Int :=
  let f := x.floor
  if x - f < 1 / 2 then f
  else if 1 / 2 < x - f then f + 1
  else if f % 2 = 0 then f else f + 1

/-- The `f64` nearest to a number: 53 binary digits, ties to even.  Exponents are not bounded: numbers below 2^-1022 and from 2^1024
on do not occur. -/
def fl (q : Rat) : Rat :=
  if q = 0 then 0
  else if 0 < q then pow2 (lead q - 52) * roundEven (q / pow2 (lead q - 52))
  else -(pow2 (lead (-q) - 52) * roundEven (-q / pow2 (lead (-q) - 52)))

/-- `as u32` of a finite `f64`: the part before the point, cut at both ends. -/
def asU32 (x : Rat) : Nat := min x.floor.toNat (2 ^ 32 - 1)

/-! ## Data rates -/

/-- `TrackDensity` (src/types/enums.rs:134-143). -/
inductive Density where
  | standard | double | high | extended
  deriving DecidableEq, Repr

/-- The standard rates. -/
inductive Class where
  | k125 | k250 | k300 | k500 | k1000
  deriving DecidableEq, Repr

/-- `TrackDataRate` (src/types/enums.rs:231-238): a standard rate with a factor, or another rate. -/
inductive Rate where
  | other (n : Nat)
  | std (c : Class) (f : Rat)
  deriving DecidableEq, Repr

/-- Bits per second. -/
def Class.bps : Class → Nat
  | .k125 => 125000
  | .k250 => 250000
  | .k300 => 300000
  | .k500 => 500000
  | .k1000 => 1000000

/-- `From<TrackDataRate> for u32` (src/types/enums.rs:246-258). -/
def Rate.toU32 : Rate → Nat
  | .other n => n
  | .std c f => asU32 (fl (c.bps * f))

/-- `From<u32> for TrackDataRate` (src/types/enums.rs:262-274). -/
def Rate.ofU32 (r : Nat) : Rate :=
  if 93750 ≤ r ∧ r < 143750 then .std .k125 (fl (r / 125000))
  else if 212000 ≤ r ∧ r < 271000 then .std .k250 (fl (r / 250000))
  else if 271000 ≤ r ∧ r < 345000 then .std .k300 (fl (r / 300000))
  else if 425000 ≤ r ∧ r < 575000 then .std .k500 (fl (r / 500000))
  else if 850000 ≤ r ∧ r < 1150000 then .std .k1000 (fl (r / 1000000))
  else .other r

/-- `From<TrackDensity> for TrackDataRate` (src/types/enums.rs:276-286). -/
def Density.rate : Density → Rate
  | .standard => .std .k125 1
  | .double => .std .k250 1
  | .high => .std .k500 1
  | .extended => .std .k1000 1

/-- `From<TrackDataRate> for TrackDensity` (src/types/enums.rs:145-157). -/
def Rate.density : Rate → Density
  | .std .k125 _ => .standard
  | .std .k250 _ => .double
  | .std .k300 _ => .double
  | .std .k500 _ => .high
  | .std .k1000 _ => .extended
  | .other _ => .double

/-! ## Rotation rates -/

/-- `RpmZoneMap` (src/types/rpm.rs:172-177). -/
inductive Zones where
  | apple1 | apple2
  deriving DecidableEq, Repr

/-- `RpmZoneMap::calculate` (src/types/rpm.rs:179-206). -/
def Zones.at (z : Zones) (c : Nat) : Nat :=
  match z with
  | .apple1 => if c < 16 then 394 else if c < 32 then 429 else if c < 48 then 472 else if c < 64 then 525 else 590
  | .apple2 => if c < 16 then 402 else if c < 32 then 438 else if c < 48 then 482 else if c < 64 then 536 else 603

/-- `DiskRpm` (src/types/rpm.rs:62-74).  In the rotation rates the arithmetic is exact, not that of `f64`. -/
inductive Rpm where
  | r150 (f : Rat)
  | r300 (f : Rat)
  | r360 (f : Rat)
  | r600 (f : Rat)
  | zoned (z : Zones) (f : Rat)
  deriving DecidableEq, Repr

/-- `From<DiskRpm> for f64` (src/types/rpm.rs:76-88). -/
def Rpm.value : Rpm → Rat
  | .r150 f => 150 * f
  | .r300 f => 300 * f
  | .r360 f => 360 * f
  | .r600 f => 600 * f
  | .zoned z f => z.at 0 * f

/-- `DiskRpm::factor` (src/types/rpm.rs:120-128). -/
def Rpm.factor : Rpm → Rat
  | .r150 f => f
  | .r300 f => f
  | .r360 f => f
  | .r600 f => f
  | .zoned _ f => f

/-- `DiskRpm::try_from_index_time` (src/types/rpm.rs:135-144).  Of a time of 0 the rate is infinite: none. -/
def Rpm.ofIndexTime (t : Rat) : Option Rpm :=
  if t = 0 then none
  else if 270 ≤ 60 / t ∧ 60 / t < 327 then some (.r300 (60 / t / 300))
  else if 327 ≤ 60 / t ∧ 60 / t < 414 then some (.r360 (60 / t / 360))
  else none

/-- `DiskRpm::index_time_ms` (src/types/rpm.rs:147-149). -/
def Rpm.indexTime (r : Rpm) : Rat := 60 / r.value

/-- `DiskRpm::adjust_clock` (src/types/rpm.rs:152-160). -/
def Rpm.adjust (r : Rpm) (clock : Rat) : Rat :=
  match r with
  | .r360 _ => if 15 / 10000000 ≤ clock then clock * (300 / 360) else clock
  | _ => clock

/-- Decimal digits, at most `fuel` of them. -/
def digits : Nat → Nat → List Char
  | 0, _ => []
  | fuel + 1, n => if n < 10 then [Char.ofNat (48 + n)] else digits fuel (n / 10) ++ [Char.ofNat (48 + n % 10)]

/-- `{:.3}` of a number: a minus if it is negative, and three places after the point. -/
def fixed3 (x : Rat) : List Char :=
  let n := (roundEven (1000 * (if x < 0 then -x else x))).toNat
  (if x < 0 then ['-'] else []) ++ digits (n + 1) (n / 1000) ++ ['.'] ++
    [Char.ofNat (48 + n / 100 % 10), Char.ofNat (48 + n / 10 % 10), Char.ofNat (48 + n % 10)]

/-- `Display for DiskRpm` (src/types/rpm.rs:96-116). -/
def Rpm.text (r : Rpm) : List Char :=
  let f := r.factor
  let s := if f = 1 then [] else if 1 < f then [' ', '+'] ++ fixed3 (1 - f) ++ ['%'] else [' ', '-'] ++ fixed3 (f - 1) ++ ['%']
  match r with
  | .r150 _ => ['1', '5', '0', 'R', 'P', 'M'] ++ s
  | .r300 _ => ['3', '0', '0', 'R', 'P', 'M'] ++ s
  | .r360 _ => ['3', '6', '0', 'R', 'P', 'M'] ++ s
  | .r600 _ => ['6', '0', '0', 'R', 'P', 'M'] ++ s
  | .zoned _ _ => ['Z', 'o', 'n', 'e', 'd', ' ', 'R', 'P', 'M']

/-! ## Densities -/

/-- `TrackDensity::bitcells` (src/types/enums.rs:178-188). -/
def Density.cells (d : Density) (r : Option Rpm) : Option Nat :=
  match d, r with
  | .standard, _ => some 50000
  | .double, _ => some 100000
  | .high, some (.r360 _) => some 166666
  | .high, _ => some 200000
  | .extended, _ => some 400000

/-- `TrackDensity::from_bitcells` (src/types/enums.rs:190-198). -/
def Density.ofCells (n : Nat) : Option Density :=
  if 40000 ≤ n ∧ n < 60000 then some .standard
  else if 80000 ≤ n ∧ n < 120000 then some .double
  else if 150000 ≤ n ∧ n < 250000 then some .high
  else if 350000 ≤ n ∧ n < 450000 then some .extended
  else none

/-- `TrackDensity::base_clock` (src/types/enums.rs:204-213), in seconds. -/
def Density.clock (d : Density) (r : Option Rpm) : Rat :=
  match d, r with
  | .standard, _ => 4 / 1000000
  | .double, some (.r360 _) => 1666 / 1000000000
  | .double, _ => 2 / 1000000
  | .high, _ => 1 / 1000000
  | .extended, _ => 5 / 10000000

/-- `TrackDensity::from_base_clock` (src/types/enums.rs:216-223). -/
def Density.ofClock (c : Rat) : Option Density :=
  if 375 / 1000000000 ≤ c ∧ c < 625 / 1000000000 then some .extended
  else if 75 / 100000000 ≤ c ∧ c < 125 / 100000000 then some .high
  else if 15 / 10000000 ≤ c ∧ c < 25 / 10000000 then some .double
  else none

end Rates
end Fox
