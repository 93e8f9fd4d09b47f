import Verif.Model.Viz
import Verif.Model.F86
import Verif.Model.Catalog
import Verif.Model.RangeCheck
/-
Model of src/visualization/pixmap_to_disk.rs: a picture written onto the tracks of a disk.

Where the rings and angles lie is not modelled: a sample of the picture is given by the number of the track it falls on (in the side's list), the part of
a turn it is behind the index, and the pixel there (if it is inside the picture).  What is proved holds for any samples in any order.
-/
namespace Fox
namespace Picture
open S34

/-- What a pixel holds: red, green, alpha (of 256). -/
structure Pixel where
  red : Nat
  green : Nat
  alpha : Nat
  deriving DecidableEq, Repr

/-- A sample (src/visualization/pixmap_to_disk.rs:132-191): the number of its track, its part of a turn (at least 0, less than 1), its pixel. -/
structure Sample where
  track : Nat
  turn : Rat
  pixel : Option Pixel

/-- What is used of `PixmapToDiskParams` and `RenderTrackDataParams` (src/visualization/mod.rs:494-528, 610-618), and which of the two functions is called. -/
structure Params where
  gray : Bool
  side : Nat
  sectorMask : Bool
  skip : Nat := 0
  black : Byte := 0x88#8
  white : Byte := 0x66#8
  resolution : Nat := 3

/-- `MFM_GRAYSCALE_RAMP` (src/visualization/pixmap_to_disk.rs:43-60). -/
def ramp : List (BitVec 64) :=
  [0x8888888888888888#64, 0x888888888888888A#64, 0x888A88888888888A#64, 0x888A88A88888888A#64, 0x8A8A88A88888888A#64, 0xAA8A88A88888888A#64,
   0xAA8A88A88888A88A#64, 0xAA8A8AA88888A88A#64, 0xAA8A8AA88888AA8A#64, 0xAAAA8AA88888AA8A#64, 0xAAAA8AAA8888AA8A#64, 0xAAAA8AAAA888AA8A#64,
   0xAAAA8AAAA888AAAA#64, 0xAAAA8AAAAA88AAAA#64, 0xAAAAAAAAAA88AAAA#64, 0xAAAAAAAAAAAAAAAA#64]

/-- `to_be_bytes` of a `u64`. -/
def beBytes (x : BitVec 64) : List Byte := (List.range 8).map fun i => (x >>> (56 - 8 * i)).setWidth 8

/-- The slots of `gen_ramp_64` (src/visualization/pixmap_to_disk.rs:221). -/
def slots : List Nat := [61, 57, 53, 49, 45, 41, 37, 33, 29, 25, 21, 17, 13, 9, 5, 1]

/-- `gen_ramp_64` (src/visualization/pixmap_to_disk.rs:216-233). -/
def genRamp (value : Byte) : BitVec 64 :=
  (List.range 8).foldl (fun r i => if value.getLsbD i then r ||| 1#64 <<< slots.getD (i * 2) 0 ||| 1#64 <<< slots.getD (i * 2 + 1) 0 else r)
    0x8888888888888888#64

/-- `is_data` without wrapping (src/bitstream_codec/mfm.rs:444-464): ranges that reach the end of the track are left out.  The ranges are those of the
track's elements (src/track/bitstream.rs:1076-1083); of a track without data there are none. -/
def isData (t : Track) (i : Nat) : Bool :=
  (RangeChecker.new ((dataRanges t.items).filter fun r => !(decide (r.1 ≥ Viz.lenOf t) || decide (r.2 ≥ Viz.lenOf t)))).contains i

/-- Writing the bytes of a pixel (src/bitstream_codec/mfm.rs:232-236, 356-367): a track with no bits panics. -/
def put (t : Track) (bytes : List Byte) (i : Nat) : Except Err Track :=
  if Viz.lenOf t = 0 then .error .panic else .ok { t with data := t.data.writeRawBuf bytes i }

/-- One sample on its track, in black and white (src/visualization/pixmap_to_disk.rs:165-206). -/
def paintMono (debug : Bool) (p : Params) (t : Track) (s : Sample) : Except Err Track :=
  let bit := (s.turn * Viz.lenOf t).floor.toNat
  if p.sectorMask ∧ isData t bit = false then .ok t
  else
    let bit := bit / 2 ^ p.resolution * 2 ^ p.resolution
    match F86.subU debug 64 (Viz.lenOf t) 9 with
    | .error e => .error e
    | .ok last => match s.pixel with
      | none => .ok t
      | some x => if 128 ≤ x.alpha then put t [if x.red < 128 then p.black else p.white] (min bit last) else .ok t

/-- One sample on its track, in gray (src/visualization/pixmap_to_disk.rs:343-377). -/
def paintGray (debug : Bool) (p : Params) (t : Track) (s : Sample) : Except Err Track :=
  let bit := (s.turn * Viz.lenOf t).floor.toNat / 64 * 64
  match F86.subU debug 64 (Viz.lenOf t) 64 with
  | .error e => .error e
  | .ok last =>
    let bit := min bit last
    if p.sectorMask ∧ isData t bit = false then .ok t
    else match s.pixel with
      | none => .ok t
      | some x => if 128 ≤ x.alpha then put t (beBytes (ramp.getD (x.green / 16) 0#64)) bit else .ok t

/-- One sample on a track of the pool: tracks with no stream are left alone.  (Tracks of other encodings than MFM are not modelled, and left alone.) -/
def paintTrack (debug : Bool) (p : Params) (s : Sample) (dt : DiskTrack) : Except Err DiskTrack :=
  let paint := if p.gray then paintGray debug p else paintMono debug p
  match dt with
  | .bit ch t => (paint t s).map (.bit ch)
  | .flux ch (some t) => (paint t s).map fun t => .flux ch (some t)
  | dt => .ok dt

/-- One sample (src/visualization/pixmap_to_disk.rs:143-206, 316-377). -/
def paintSample (debug : Bool) (p : Params) (d : Disk) (s : Sample) : Except Err Disk :=
  if s.track < p.skip then .ok d
  else match (d.headMap p.side)[s.track]? with
    | none => .ok d
    | some i => match d.pool[i]? with
      | none => .error .panic
      | some dt => match paintTrack debug p s dt with
        | .error e => .error e
        | .ok dt => .ok { d with pool := d.pool.set i dt }

/-- `render_pixmap_to_disk` (src/visualization/pixmap_to_disk.rs:70-213) and `render_pixmap_to_disk_grayscale` (238-383). -/
def render (debug : Bool) (p : Params) (d : Disk) (samples : List Sample) : Except Err Disk :=
  if p.gray = false ∧ (p.resolution < 1 ∨ 8 < p.resolution) then .error .parameter
  else samples.foldlM (paintSample debug p) d

end Picture
end Fox
