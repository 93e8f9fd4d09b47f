import Verif.Model.Basic
/-
The phase-locked loop that turns flux timings into bits: src/flux/pll.rs, and the statistics of src/flux/mod.rs.

Simplification, for the whole file: `f64` is modelled by exact rational numbers.  Rounding, infinities and NaN are
not modelled.  Counters (`u32`, `u64`, `i32`) are unbounded.  Log output and the per-flux diagnostic records
(`pll_stats`, and `error_bits`, which the function drops) are left out.
-/
namespace Fox

/-- `FluxTransition` (src/flux/mod.rs:57-65). -/
inductive FluxTransition where
  | tooShort | short | medium | long | tooLong
deriving DecidableEq, Repr

/-- `FluxTransition::to_bits` (src/flux/mod.rs:86-96). -/
def FluxTransition.toBits : FluxTransition → List Bool
  | .short => [true, false]
  | .medium => [true, false, false]
  | .long => [true, false, false, false]
  | _ => []

/-- `BasicFluxStats` (src/flux/mod.rs:98-111). -/
structure FluxStats where
  total : Nat := 0
  short : Nat := 0
  shortTime : Rat := 0
  medium : Nat := 0
  long : Nat := 0
  tooShort : Nat := 0
  tooLong : Nat := 0
  tooSlowBits : Nat := 0
  shortest : Rat := 0
  longest : Rat := 0
deriving DecidableEq, Repr

/-- `TrackDensity`, as far as `BasicFluxStats::detect_density` names it. -/
inductive FluxDensity where
  | high | double
deriving DecidableEq, Repr

/-- The encodings that flux is decoded as (`TrackDataEncoding::Mfm` and `::Fm`). -/
inductive FluxEncoding where
  | mfm | fm
deriving DecidableEq, Repr

/-- `BasicFluxStats::short_avg` (src/flux/mod.rs:147-154). -/
def FluxStats.shortAvg (s : FluxStats) : Rat := if s.short = 0 then 0 else s.shortTime / s.short

/-- `BasicFluxStats::detect_density` (src/flux/mod.rs:130-145): the two ranges are closed and tried in order. -/
def FluxStats.detectDensity (s : FluxStats) (mfi : Bool) : Option FluxDensity :=
  let avg := if mfi then s.shortAvg * 2 else s.shortAvg
  if 1 / 1000000 ≤ avg ∧ avg ≤ 3 / 1000000 then some .high
  else if 3 / 1000000 ≤ avg ∧ avg ≤ 5 / 1000000 then some .double
  else none

/-- `BasicFluxStats::detect_encoding` (src/flux/mod.rs:157-169).  For no flux at all the quotient is NaN in the
code and 0 here; both fail the comparison. -/
def FluxStats.detectEncoding (s : FluxStats) : FluxEncoding :=
  if (s.medium : Rat) / s.total > 5 / 100 then .mfm else .fm

/-- `Pll` (src/flux/pll.rs:91-103) without the fields that nothing reads. -/
structure Pll where
  defaultRate : Rat
  rate : Rat
  period : Rat
  working : Rat
  maxAdjust : Rat
  phaseGain : Rat
deriving DecidableEq, Repr

namespace Pll

/-- `Pll::new` (src/flux/pll.rs:106-118). -/
def new : Pll where
  defaultRate := 500000
  rate := 500000
  period := 2 / 1000000
  working := 2 / 1000000
  maxAdjust := 20 / 100
  phaseGain := 65 / 100

/-- `Pll::set_clock` (src/flux/pll.rs:127-143); `none` is the failed assertion. -/
def setClock (p : Pll) (rate : Rat) (maxAdj : Option Rat) : Option Pll :=
  if rate > 1 then
    some { p with defaultRate := rate, rate := rate, period := 1 / rate, working := 1 / rate,
                  maxAdjust := maxAdj.getD p.maxAdjust }
  else none

/-- `Pll::reset_clock` (src/flux/pll.rs:149-158). -/
def resetClock (p : Pll) : Pll :=
  { p with rate := p.defaultRate, period := 1 / p.defaultRate, working := 1 / p.defaultRate }

/-- `Pll::adjust_clock` (src/flux/pll.rs:160-173). -/
def adjustClock (p : Pll) (factor : Rat) : Pll :=
  { p with rate := p.rate * factor, period := 1 / (p.rate * factor), working := 1 / (p.rate * factor) }

/-- `Pll::classify_transition` (src/flux/pll.rs:202-224). -/
def classify (d : Rat) : FluxTransition :=
  if (d - 4 / 1000000).abs ≤ 5 / 10000000 then .short
  else if (d - 6 / 1000000).abs ≤ 5 / 10000000 then .medium
  else if (d - 8 / 1000000).abs ≤ 5 / 10000000 then .long
  else .tooLong

/-- A run of `while time < target { time += period; ticks += 1 }` (src/flux/pll.rs:330-344, 617-629), cut off
after `fuel` turns. -/
def tickLoop (w target : Rat) : Nat → Rat → Nat × Rat
  | 0, t => (0, t)
  | n + 1, t =>
    if t < target then
      let r := tickLoop w target n (t + w)
      (r.1 + 1, r.2)
    else (0, t)

/-- The same loop to its end: a positive period needs at most this many turns; with another one the loop is not
left (`none`). -/
def tick (w target t : Rat) : Option (Nat × Rat) :=
  if t < target then
    if 0 < w then some (tickLoop w target (((target - t) / w).ceil.toNat + 1) t) else none
  else some (0, t)

/-- `f64::clamp`; `none` is its assertion that the bounds are in order. -/
def clamp (x lo hi : Rat) : Option Rat :=
  if hi < lo then none else some (if x < lo then lo else if hi < x then hi else x)

/-- `f64::abs`. -/
def mag (x : Rat) : Rat := if x < 0 then -x else x

/-- The timing variables of `decode_mfm` (src/flux/pll.rs:270-301). -/
structure MfmClock where
  time : Rat
  last : Rat
  working : Rat
  phaseErr : Rat
  phaseAdj : Rat
  gate : Int
deriving DecidableEq, Repr

/-- The sign counter of `decode_mfm` (src/flux/pll.rs:450-467). -/
def gateStep (gate : Int) (err : Rat) : Int :=
  if err < 0 then (if gate < 0 then gate - 1 else -1)
  else if gate > 0 then gate + 1 else 1

/-- The timing of one flux in `decode_mfm` (src/flux/pll.rs:305-559): the number of clock ticks up to it, and the
variables afterwards. -/
def MfmClock.step (lo hi : Rat) (c : MfmClock) (d : Rat) : Option (Nat × MfmClock) := do
  let this := c.last + d
  let (k, time) ← tick c.working this (c.time + c.phaseAdj)
  let windowMax := (time - this) + d
  let center := windowMax - c.working / 2
  let err := d - center
  let gate := gateStep c.gate err
  let minErr := if mag err < mag c.phaseErr then err else c.phaseErr
  let adj := 65 / 100 * minErr
  let clk := if gate > 1 ∨ gate < -1 then 5 / 100 * err else 0
  let working ← clamp (c.working + clk) lo hi
  some (k, { time := time, last := this, working := working, phaseErr := err, phaseAdj := adj, gate := gate })

/-- What the two decoders give out (src/flux/pll.rs:83-89); a marker is the pair of its time and its bit. -/
structure Output where
  bits : List Bool := []
  reg : BitVec 64 := 0#64
  markers : List (Rat × Nat) := []
  transitions : List FluxTransition := []
  stats : FluxStats := {}
deriving DecidableEq, Repr

/-- Pushing one bit: `output_bits.push(b); shift_reg <<= 1; shift_reg |= b` (src/flux/pll.rs:403-421). -/
def Output.push (o : Output) (b : Bool) : Output :=
  { o with bits := o.bits ++ [b], reg := (o.reg <<< 1) ||| (if b then 1#64 else 0#64) }

/-- The bits of one flux: `k - 1` zeros and a one, nothing for no ticks (src/flux/pll.rs:402-422, 649-662). -/
def Output.flux (o : Output) : Nat → Output
  | 0 => o
  | k + 1 => ((List.replicate k false).foldl Output.push o).push true

/-- The shortest and longest flux (src/flux/pll.rs:306-311, 590-603); `first` is `flux_ct == 0`. -/
def FluxStats.extremes (s : FluxStats) (first : Bool) (d : Rat) : FluxStats :=
  { s with shortest := if first then d else if d < s.shortest then d else s.shortest,
           longest := if s.longest < d then d else s.longest }

/-- The counts of one MFM flux (src/flux/pll.rs:350-400). -/
def countMfm (s : FluxStats) (k : Nat) (d : Rat) : FluxStats :=
  if k < 2 then { s with tooShort := s.tooShort + 1 }
  else if k = 2 then { s with short := s.short + 1, shortTime := s.shortTime + d }
  else if k = 3 then { s with medium := s.medium + 1 }
  else if k = 4 then { s with long := s.long + 1 }
  else { s with tooLong := s.tooLong + 1, tooSlowBits := s.tooSlowBits + (k - 4) }

/-- The classification collected for one MFM flux (src/flux/pll.rs:370-400): nothing for more than four ticks. -/
def classMfm (k : Nat) : List FluxTransition :=
  if k < 2 then [.tooShort] else if k = 2 then [.short] else if k = 3 then [.medium]
  else if k = 4 then [.long] else []

/-- The output of one flux in `decode_mfm` (src/flux/pll.rs:305-440), with the marker test at its end. -/
def Output.mfm (enums : Bool) (o : Output) (k : Nat) (d time : Rat) (first : Bool) : Output :=
  let o : Output := { o with stats := countMfm (FluxStats.extremes o.stats first d) k d,
                             transitions := if enums then o.transitions ++ classMfm k else o.transitions }
  let o := o.flux k
  if o.reg &&& 0x7FFFFFFFFFFFFFFF#64 = 0x2AAAAAAA44894489#64 then
    { o with markers := o.markers ++ [(time, o.bits.length - 32)] }
  else o

/-- The loop of `decode_mfm` (src/flux/pll.rs:303-560). -/
def mfmLoop (enums : Bool) (lo hi : Rat) : Bool → MfmClock → Output → List Rat → Option (MfmClock × Output)
  | _, c, o, [] => some (c, o)
  | first, c, o, d :: ds => do
    let (k, c') ← c.step lo hi d
    mfmLoop enums lo hi false c' (o.mfm enums k d c'.time first) ds

/-- `Pll::decode_mfm` (src/flux/pll.rs:242-579): the loop's state afterwards is the decoder's, and `none` a failed
assertion or an endless loop.  Note that the limits are taken from the working period before it is reset. -/
def decodeMfm (p : Pll) (enums : Bool) (deltas : List Rat) : Option (Pll × Output) := do
  let lo := p.working - p.working * p.maxAdjust
  let hi := p.working + p.working * p.maxAdjust
  let c : MfmClock := { time := p.period / 2, last := 0, working := p.period, phaseErr := 0, phaseAdj := 0, gate := 0 }
  let o : Output := { stats := { total := deltas.length } }
  let (c, o) ← mfmLoop enums lo hi true c o deltas
  some ({ p with working := c.working }, o)

/-- The timing variables of `decode_fm` (src/flux/pll.rs:581-601). -/
structure FmClock where
  time : Rat
  last : Rat
  working : Rat
  acc : Rat
deriving DecidableEq, Repr

/-- `x % w` of `f64`: the remainder of the quotient cut off towards zero. -/
def frem (x w : Rat) : Rat := if x < 0 then -((-x) - ((-x) / w).floor * w) else x - (x / w).floor * w

/-- The timing of one flux in `decode_fm` (src/flux/pll.rs:614-737).  Note that the change of the period, `gain *
error / period`, is a pure number that is added to a time. -/
def FmClock.step (gain lo hi : Rat) (c : FmClock) (d : Rat) : Option (Nat × FmClock) := do
  let next := c.last + d
  let (k, t) ← tick c.working next (c.time + c.acc)
  let err := next - (c.last + k * c.working)
  let working ← clamp (c.working + gain * err / c.working) lo hi
  let acc := if mag err > working then frem err working else err
  some (k, { time := t, last := next, working := working, acc := acc })

/-- The counts of one FM flux (src/flux/pll.rs:637-654). -/
def countFm (s : FluxStats) (k : Nat) (d : Rat) : FluxStats :=
  if k = 0 then { s with tooShort := s.tooShort + 1 }
  else if k = 1 then { s with short := s.short + 1, shortTime := s.shortTime + d }
  else if k = 2 then { s with long := s.long + 1 }
  else { s with tooLong := s.tooLong + 1, tooSlowBits := s.tooSlowBits + (k - 3) }

/-- The output of one flux in `decode_fm` (src/flux/pll.rs:603-690). -/
def Output.fm (o : Output) (k : Nat) (d time : Rat) (first : Bool) : Output :=
  let o : Output := { o with stats := countFm (FluxStats.extremes o.stats first d) k d }
  let o := o.flux k
  if o.reg &&& 0xAAAAAAAAAAAAAAAA#64 = 0xAAAAAAAAAAAAA02A#64 then
    { o with markers := o.markers ++ [(time, o.bits.length - 16)] }
  else o

/-- The loop of `decode_fm` (src/flux/pll.rs:602-738). -/
def fmLoop (gain lo hi : Rat) : Bool → FmClock → Output → List Rat → Option (FmClock × Output)
  | _, c, o, [] => some (c, o)
  | first, c, o, d :: ds => do
    let (k, c') ← c.step gain lo hi d
    fmLoop gain lo hi false c' (o.fm k d c'.time first) ds

/-- `Pll::decode_fm` (src/flux/pll.rs:581-761).  The collected classifications stay empty. -/
def decodeFm (p : Pll) (deltas : List Rat) : Option (Pll × Output) := do
  let w := p.period * 2
  let lo := w - w * p.maxAdjust
  let hi := w + w * p.maxAdjust
  let c : FmClock := { time := -w / 2, last := 0, working := w, acc := 0 }
  let o : Output := { stats := { total := deltas.length } }
  let (c, o) ← fmLoop p.phaseGain lo hi true c o deltas
  some ({ p with working := c.working }, o)

/-- `Pll::decode` (src/flux/pll.rs:226-240) for the two encodings the callers use. -/
def decode (p : Pll) (enc : FluxEncoding) (enums : Bool) (deltas : List Rat) : Option (Pll × Output) :=
  match enc with
  | .mfm => p.decodeMfm enums deltas
  | .fm => p.decodeFm deltas

end Pll
end Fox
