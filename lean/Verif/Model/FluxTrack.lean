import Verif.Model.Pll
import Verif.Model.BitLoad
/-
Flux tracks: the histogram that finds the clock (src/flux/histogram.rs), revolutions (src/flux/flux_revolution.rs),
and tracks of them (src/track/fluxstream.rs).

Simplifications, for the whole file: `f64` is modelled by exact rational numbers, as in Verif.Model.Pll.  The
`histogram` crate (0.11) is not in the repository; its bucket layout is modelled after its documentation.  Log output
is left out.  What the FM codec makes of bits is a parameter (`fm`); Verif.Model.Fm
has the codec.
-/
namespace Fox.Flux

/-- `f64::round` of a number that is not negative. -/
def round (x : Rat) : Nat := (x + 1 / 2).floor.toNat

/-! ## The histogram -/

/-- The bucket of a value in `Histogram::new(3, 14)`: up to 15 one for each value, then eight for each power of two. -/
def bucketOf (v : Nat) : Nat :=
  if v < 16 then v else 16 + (v.log2 - 4) * 8 + (v - 2 ^ v.log2) / 2 ^ (v.log2 - 3)

/-- The number of buckets: values above 16383 are refused by `increment`. -/
def buckets : Nat := 96

/-- `Bucket::start`. -/
def bucketStart (i : Nat) : Nat := if i < 8 then i else (8 + i % 8) * 2 ^ (i / 8 - 1)

/-- `Bucket::end`. -/
def bucketEnd (i : Nat) : Nat := if i < 8 then i else (9 + i % 8) * 2 ^ (i / 8 - 1) - 1

/-- `FluxHistogram::delta_to_u64` (src/flux/histogram.rs:82-84): cut off to nanoseconds, not below zero. -/
def nanos (d : Rat) : Nat := (d * 1000000000).floor.toNat

/-- `FluxHistogram::new` (src/flux/histogram.rs:51-75): the counts of the buckets. -/
def histogram (deltas : List Rat) (fraction : Rat) : List Nat :=
  let vs := (deltas.take (round ((deltas.length : Rat) * fraction))).map nanos
  (List.range buckets).map fun i => (vs.filter fun v => v < 16384 && bucketOf v == i).length

/-- `FluxHistogram::find_local_maxima` (src/flux/histogram.rs:91-116) with no threshold given: the buckets that hold
at least as much as the one before, more than the one after, and half a percent. -/
def maxima (h : List Nat) : List Nat :=
  (List.range (buckets - 2)).filterMap fun j =>
    let i := j + 1
    if h.getD (i - 1) 0 ≤ h.getD i 0 ∧ h.getD (i + 1) 0 < h.getD i 0 ∧ round ((h.sum : Rat) * (5 / 1000)) ≤ h.getD i 0
    then some i else none

/-- `FluxHistogram::base_transition_time` (src/flux/histogram.rs:118-134). -/
def baseTransitionTime (h : List Nat) : Option Rat :=
  match maxima h with
  | i :: _ :: _ => some ((((bucketStart i + bucketEnd i) / 2 : Nat) : Rat) / 1000000000)
  | _ => none

/-! ## Rotation -/

/-- `DiskRpm` (src/types/rpm.rs:59-71), the zone map of `Zoned` left out. -/
inductive Rpm where
  | r150 (f : Rat) | r300 (f : Rat) | r360 (f : Rat) | r600 (f : Rat) | zoned (f : Rat)
deriving DecidableEq, Repr

/-- `DiskRpm::try_from_index_time` (src/types/rpm.rs:137-147).  For an index time of zero the speed is infinite in
the code and 0 here; neither is in a range. -/
def Rpm.ofIndexTime (t : Rat) : Option Rpm :=
  let rpm := 60 / t
  if 270 ≤ rpm ∧ rpm < 327 then some (.r300 (rpm / 300))
  else if 327 ≤ rpm ∧ rpm < 414 then some (.r360 (rpm / 360)) else none

/-- `DiskRpm::adjust_clock` (src/types/rpm.rs:155-163). -/
def Rpm.adjustClock (r : Rpm) (clock : Rat) : Rat :=
  match r with
  | .r360 _ => if 15 / 10000000 ≤ clock then clock * (300 / 360) else clock
  | _ => clock

/-! ## Revolutions -/

/-- `FluxRevolution` (src/flux/flux_revolution.rs:72-97), the fields that are used. -/
structure Rev where
  synthetic : Bool := false
  ch : Ch
  dataRate : Option Rat := none
  indexTime : Rat
  deltas : List Rat
  bits : List Bool := []
  encoding : FluxEncoding := .mfm
  markers : List (Rat × Nat) := []
deriving DecidableEq, Repr

/-- `FluxRevolution::from_f64` (src/flux/flux_revolution.rs:119-133). -/
def Rev.ofDeltas (ch : Ch) (deltas : List Rat) (indexTime : Rat) : Rev :=
  { ch := ch, indexTime := indexTime, deltas := deltas }

/-- The literals of `from_adjacent_pair`: a synthetic revolution after another one. -/
def Rev.synth (r : Rev) (deltas : List Rat) : Rev :=
  { synthetic := true, ch := r.ch, dataRate := r.dataRate, indexTime := r.indexTime, deltas := deltas }

/-- `FluxRevolution::from_adjacent_pair` (src/flux/flux_revolution.rs:137-223). -/
def fromAdjacentPair (a b : Rev) : List Rev :=
  if a.deltas.length = b.deltas.length + 2 then
    [a.synth a.deltas.dropLast, b.synth (a.deltas.getLastD 0 :: b.deltas)]
  else if b.deltas.length = a.deltas.length + 2 then
    [a.synth (a.deltas ++ [b.deltas.headD 0]), b.synth b.deltas.tail]
  else []

/-- `windows(2)` and `flat_map` of `synthesize_revolutions`. -/
def synthPairs : List Rev → List Rev
  | a :: b :: rs => fromAdjacentPair a b ++ synthPairs (b :: rs)
  | _ => []

/-- `FluxStreamTrack::synthesize_revolutions` (src/track/fluxstream.rs:661-669). -/
def synthesize (rs : List Rev) : List Rev := rs ++ synthPairs rs

/-- `RawFluxIterator` (src/track/fluxstream.rs:91-106): the revolutions from the current one on, and the current
delta. -/
abbrev RawIter := List Rev × Nat

/-- `RawFluxIterator::next` (src/track/fluxstream.rs:108-136). -/
def rawNext : List Rev → Nat → Option Rat × RawIter
  | [], d => (none, [], d)
  | r :: rs, d =>
    if h : d < r.deltas.length then (some r.deltas[d], r :: rs, d + 1)
    else
      match rs with
      | [] => (none, [], 0)
      | r' :: rs' => if r'.synthetic then (none, r' :: rs', 0) else rawNext (r' :: rs') 0

/-- `collect` on the iterator: until the first `None`; `n` bounds the number of calls. -/
def rawCollect : Nat → RawIter → List Rat
  | 0, _ => []
  | n + 1, it =>
    match rawNext it.1 it.2 with
    | (some x, it') => x :: rawCollect n it'
    | (none, _) => []

/-- `FluxRevolution::decode_direct` (src/flux/flux_revolution.rs:277-314). -/
def Rev.decodeDirect (r : Rev) (p : Pll) : Option Rev := do
  let (p, m) ← p.decode .mfm false r.deltas
  let out ←
    if m.markers = [] ∧ m.stats.detectEncoding = .fm then do
      let (_, f) ← p.decode .fm false r.deltas
      if f.markers = [] then some (FluxEncoding.mfm, m) else some (FluxEncoding.fm, f)
    else some (r.encoding, m)
  some { r with bits := out.2.bits, encoding := out.1, markers := out.2.markers,
                dataRate := some ((out.2.bits.length : Rat) * (1 / r.indexTime) / 2) }

/-! ## Tracks -/

/-- The clock guessed from a hint or the number of transitions (src/track/fluxstream.rs:503-532). -/
def guessClock (hint : Option Rat) (count : Nat) : Option Rat :=
  match hint with
  | some c => some c
  | none =>
    if 20000 ≤ count ∧ count < 41666 then some (2 / 1000000)
    else if 50000 ≤ count then some (1 / 1000000) else none

/-- The rotation speed a revolution is taken to have (src/track/fluxstream.rs:497-498, 536-555). -/
def guessRpm (hint : Option Rpm) (indexTime : Rat) : Rpm :=
  let base := hint.getD ((Rpm.ofIndexTime indexTime).getD (.r300 1))
  let rpm := 60 / indexTime
  if 255 ≤ rpm ∧ rpm < 345 then .r300 (rpm / 300)
  else if 345 ≤ rpm ∧ rpm < 414 then .r360 (rpm / 360) else base

/-- The clock before it is refined (src/track/fluxstream.rs:559-586). -/
def baseClock (hint : Option Rat) (rpm : Option Rpm) (r : Rev) : Rat :=
  match guessClock hint r.deltas.length with
  | some c => (guessRpm rpm r.indexTime).adjustClock c
  | none =>
    match baseTransitionTime (histogram r.deltas 1) with
    | some t => t / 2
    | none => 2 / 1000000

/-- The clock a revolution is decoded with: the one found in the first two percent, unless it is off by a quarter
(src/track/fluxstream.rs:588-622). -/
def clockOf (hint : Option Rat) (rpm : Option Rpm) (r : Rev) : Rat :=
  let base := baseClock hint rpm r
  match baseTransitionTime (histogram r.deltas (2 / 100)) with
  | some t => if Pll.mag ((t / 2 - base) / base) < 25 / 100 then t / 2 else base
  | none => base

/-- One revolution of `FluxStreamTrack::decode_revolutions` up to its bits (src/track/fluxstream.rs:491-632); `none`
is a panic. -/
def Rev.decode (hint : Option Rat) (rpm : Option Rpm) (r : Rev) : Option Rev := do
  let p ← Pll.new.setClock (1 / clockOf hint rpm r) none
  r.decodeDirect p

/-- What the FM codec makes of bits. -/
abbrev FmCodec := List Bool → Except Err Track

/-- The track made of a revolution's bits (src/track/fluxstream.rs:633-652): the bits packed into bytes, with their
number. -/
def Rev.track (debug : Bool) (rnd : Nat → Bool) (fm : FmCodec) (r : Rev) : Except Err Track :=
  match r.encoding with
  | .mfm => Track.ofBytes debug rnd (DiskTrack.packed r.bits) (some r.bits.length) false
  | .fm => fm r.bits

/-- `FluxStreamTrack::decode_revolutions` (src/track/fluxstream.rs:484-659): the revolutions and their tracks. -/
def decodeAll (debug : Bool) (rnd : Nat → Bool) (fm : FmCodec) (hint : Option Rat) (rpm : Option Rpm) :
    List Rev → Except Err (List (Rev × Track))
  | [] => .ok []
  | r :: rs =>
    match r.decode hint rpm with
    | none => .error .panic
    | some r' =>
      match r'.track debug rnd fm with
      | .error e => .error e
      | .ok t =>
        match decodeAll debug rnd fm hint rpm rs with
        | .error e => .error e
        | .ok l => .ok ((r', t) :: l)

/-- `BitStreamTrack::calc_quality_score` (src/track/bitstream.rs:1328-1343). -/
def score (t : Track) : Int :=
  (t.sectorList.map fun s => 5 - (if s.2.1 then 5 else 0) - (if s.2.2.1 then 1 else 0)).sum

/-- The loop of `analyze_revolutions` (src/track/fluxstream.rs:680-704): the best index so far and its score. -/
def bestLoop : Nat → Nat → Int → List Int → Nat
  | _, best, _, [] => best
  | i, best, sc, s :: ss => if s > sc then bestLoop (i + 1) i s ss else bestLoop (i + 1) best sc ss

/-- `FluxStreamTrack::analyze_revolutions` (src/track/fluxstream.rs:671-721): which revolution is the best one. -/
def best (scores : List Int) : Nat := bestLoop 0 0 0 scores

/-- The flux track that `add_track_fluxstream` makes (src/diskimage.rs:797-802). -/
structure Made where
  revs : List (Rev × Track)
  best : Nat

/-- `synthesize_revolutions`, `decode_revolutions`, `analyze_revolutions` in turn. -/
def make (debug : Bool) (rnd : Nat → Bool) (fm : FmCodec) (hint : Option Rat) (rpm : Option Rpm) (rs : List Rev) :
    Except Err Made :=
  match decodeAll debug rnd fm hint rpm (synthesize rs) with
  | .error e => .error e
  | .ok l => .ok { revs := l, best := best (l.map fun x => score x.2) }

/-- `FluxStreamTrack::get_bitstream` (src/track/fluxstream.rs:751-767); nothing is ever `resolved`. -/
def Made.bitstream (m : Made) : Option Track := (m.revs[m.best]?).map Prod.snd

/-- Of these revolutions, those that are taken for FM are such that the FM codec accepts them. -/
def FmFine (fm : FmCodec) (hint : Option Rat) (rpm : Option Rpm) (rs : List Rev) : Prop :=
  ∀ r ∈ synthesize rs, ∀ r', r.decode hint rpm = some r' → r'.encoding = .fm → ∃ t, fm r'.bits = .ok t

end Fox.Flux
