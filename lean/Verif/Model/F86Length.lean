import Verif.Model.F86
import Verif.Model.Rates
/-
Model of the cell count of a track in an 86F file: src/file_parsers/f86.rs:209-234, 347-365.
-/
namespace Fox
namespace F86
open Rates (fl asU32)

/-- The rates and speeds a track of the format may state, as numbers: `From<TrackDataRate> for u32` (src/types/enums.rs:246-258), at the factor 1. -/
def Rate.bps : Rate → Nat
  | .nonstandard => 0 | .r125 => 125000 | .r250 => 250000 | .r300 => 300000 | .r500 => 500000 | .r1000 => 1000000

/-- `From<DiskRpm> for f64` (src/types/rpm.rs:76-88), at the factor 1; a zoned disk is taken at 394 RPM. -/
def Rpm.value : Rpm → Rat
  | .r150 => 150 | .r300 => 300 | .r360 => 360 | .r600 => 600 | .zoned => 394

/-- `F86TimeShift::adjust` (src/file_parsers/f86.rs:221-234): the factor.  The literals are rounded, and so is their inverse. -/
def shiftFactor : Nat × Bool → Rat
  | (1, false) => fl (101 / 100)
  | (2, false) => fl (101 / 100)
  | (3, false) => fl (102 / 100)
  | (1, true) => fl (1 / fl (101 / 100))
  | (2, true) => fl (1 / fl (1015 / 1000))
  | (3, true) => fl (1 / fl (102 / 100))
  | _ => 1

/-- `f86_track_bit_length` (src/file_parsers/f86.rs:347-365), in the arithmetic of `f64`. -/
def bitLength (enc : Encoding) (rate : Rate) (rpm : Rpm) (shift : Nat × Bool) (extra : Int) : Nat :=
  let r := fl ((rate.bps : Rat) / 1000)
  let r := if enc = .fm then fl (r / 2) else r
  let size := fl (fl (100000 / 250) * r)
  let size := fl (fl (size * 300) / rpm.value)
  satAdd (fl (size * shiftFactor shift)).floor.toNat extra

end F86
end Fox
