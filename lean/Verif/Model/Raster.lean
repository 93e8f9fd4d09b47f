import Verif.Model.Viz
/-
Model of the raster picture of the data of a disk (src/visualization/rasterize_disk.rs:90-237).

Simplified: numbers, `f32` in the code, are rationals, so nothing is rounded.  Angles are in turns instead of radians (TAU is 1).  The distance of
a pixel from the center and the angle of its direction (`sqrt` and `atan2`) come from a function that is given, as they are no rationals.  A width
of tracks of 0 gives 0 instead of an infinite or undefined quotient.

Not modelled: the resolution in bytes, where the number of bits set in a byte is drawn, and with it the decoding of data; colors (a pixel is
background, or black or white); masks and elements, that are drawn by `tiny_skia`.
-/
namespace Fox.Viz.Raster

/-- `x % TAU` of `f32`, and `fract`: what remains after the part before the point is taken away; it has the sign of `x`. -/
def frem (x : Rat) : Rat := if 0 ≤ x then x - (x.floor : Rat) else x - (x.ceil : Rat)

/-- The colors a pixel is given (rasterize_disk.rs:152-159). -/
inductive Pix where
  | background
  | bit (b : Bool)
  deriving DecidableEq, Repr

/-- The bit under a pixel in the direction `turn`, which `atan2` gives in (-1/2, 1/2] (rasterize_disk.rs:168, 184-198). -/
def bitIndex (p : Params) (turn : Rat) (len : Nat) : Nat :=
  let angle := frem (turn + 1/2)
  let norm := match p.direction with
    | .cw => angle - p.indexAngle
    | .ccw => 1 - (angle - p.indexAngle)
  (frem (norm + 1/2) * (len : Rat)).floor.toNat % len

/-- Indexing a stream of cells (src/bitstream_codec/mfm.rs:593-603, 791-802; fm.rs and gcr.rs do the same): the bit at `index` is the data cell of the
pair of cells of that number.  The look at the weak mask, that changes nothing, is left out. -/
def streamIndex (t : Track) (index : Nat) : Bool :=
  t.data.bits.bitAt ((if t.data.clockMap.bitAt index then 1 else 0) + 2 * index)

/-- What a pixel at a distance from the center is given (rasterize_disk.rs:111-120, 130-149, 165-232); `none` if it is left as it was.  The inner
radius is found as in `track_params`, from the number of tracks that are drawn. -/
def pixel (tracks : List Track) (p : Params) (total dist turn : Rat) : Option Pix :=
  let num := min tracks.length (p.trackLimit.getD maxCylinder)
  let minR := p.innerRadius total num
  let width := (total - minR) / (num : Rat)
  if dist ≥ minR ∧ dist ≤ total then
    let offset := (dist - minR) / width
    if frem offset < p.gap then none
    else
      let c := (num - 1) - offset.floor.toNat
      if c < num then match tracks[c]? with
        | none => none
        | some t => if lenOf t = 0 then none else some (.bit (streamIndex t (bitIndex p turn (lenOf t))))
      else none
  else some .background

/-- The places of the loops over the pixels (rasterize_disk.rs:163-164): row by row. -/
def places (w h : Nat) : List (Nat × Nat) := (List.range h).flatMap fun y => (List.range w).map fun x => (x, y)

/-- Set the pixels in turn (rasterize_disk.rs:229, 232): a place beyond the buffer panics. -/
def paint (span xo yo : Nat) (color : Nat × Nat → Option Pix) : List (Nat × Nat) → List Pix → Except VizErr (List Pix)
  | [], buf => .ok buf
  | xy :: rest, buf => match color xy with
    | none => paint span xo yo color rest buf
    | some c =>
      if (xy.2 + yo) * span + (xy.1 + xo) < buf.length then
        paint span xo yo color rest (buf.set ((xy.2 + yo) * span + (xy.1 + xo)) c)
      else .error .panic

/-- `rasterize_track_data` (rasterize_disk.rs:90-237); `span` is the width of the picture, `polar` gives distance and direction of a pixel from the
center. -/
def rasterize (d : Disk) (side : Nat) (p : Params) (w h span xo yo : Nat) (polar : Rat → Rat → Rat × Rat) (buf : List Pix) :
    Except VizErr (List Pix) :=
  if side > 1 then .error .panic
  else if min (collect d side).length (p.trackLimit.getD maxCylinder) = 0 then .error .noTracks
  else
    let total : Rat := ((min w h : Nat) : Rat) / 2
    paint span xo yo (fun xy =>
      let pol := polar ((xy.1 : Rat) - (w : Rat) / 2) ((xy.2 : Rat) - (h : Rat) / 2)
      pixel (collect d side) p total pol.1 pol.2) (places w h) buf

end Fox.Viz.Raster
