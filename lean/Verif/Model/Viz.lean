import Verif.Model.VizBase
import Verif.Model.Catalog
/-
Model of the visualization of disks: the rings of the tracks, the elements and data that are drawn on them, selections, and what is under a
point (src/visualization/mod.rs, src/visualization/vectorize_disk.rs).

Simplified: numbers, `f32` in the code, are rationals, so nothing is rounded.  Angles are in turns instead of radians (TAU is 1), and the
point of a hit test is given by its distance from the center and its angle, in [0, 1), instead of by coordinates, as its distance is a root
and its angle an arc tangent.  Shapes are given by the angles and radii they are made from (`from_angles`) instead of by points on curves.
Elements are those of the System 34 schema.

Not modelled: `vectorize_disk_elements` (deprecated), rasterization (`tiny_skia`), `pixmap_to_disk`, rotation of shapes, colors.
-/
namespace Fox.Viz
open S34

/-- `DiskVisualizationError` (src/types/errors.rs), and panics. -/
inductive VizErr where
  | noTracks | invalid | notVisible | panic
  deriving DecidableEq, Repr

/-- `TurningDirection` (src/visualization/mod.rs:571-576). -/
inductive Turning where
  | cw | ccw
  deriving DecidableEq, Repr

/-- `opposite` (src/visualization/mod.rs:579-584). -/
def Turning.opposite : Turning → Turning
  | .cw => .ccw
  | .ccw => .cw

/-- `adjust_angle` (src/visualization/mod.rs:586-591). -/
def Turning.adjust : Turning → Rat → Rat
  | .cw, a => a
  | .ccw, a => 1 - a

/-- `CommonVizParams` (src/visualization/mod.rs:214-256), without the offset, which only moves what is drawn, and `track_overlap`, which nothing
reads. -/
structure Params where
  radius : Option Rat := some (1/2)
  maxRatio : Rat := 1
  minRatio : Rat := 3/10
  indexAngle : Rat := 0
  trackLimit : Option Nat := none
  pin : Bool := true
  gap : Rat := 1/10
  direction : Turning := .ccw

/-- `InternalTrackParams` (src/visualization/mod.rs:340-352). -/
structure TrackParams where
  totalRadius : Rat
  minRadius : Rat
  maxRadius : Rat
  numTracks : Nat
  totalWidth : Rat
  renderWidth : Rat
  radiusAdjust : Rat
  deriving DecidableEq, Repr

/-- `MAX_CYLINDER` (src/lib.rs:86). -/
def maxCylinder : Nat := 85

/-- The number of tracks a disk of `n` should have (src/visualization/mod.rs:299-302). -/
def standardTracks (n : Nat) : Nat := if n < 50 then 40 else 80

/-- The inner radius (src/visualization/mod.rs:288, 295-309). -/
def Params.innerRadius (p : Params) (total : Rat) (n : Nat) : Rat :=
  let minR := p.minRatio * total
  if p.pin then
    let std := standardTracks n
    let w := (total - minR) / (std : Rat)
    let over := n - std
    p.minRatio * total - (over : Rat) * w
  else minR

/-- `track_params` (src/visualization/mod.rs:276-338). -/
def Params.trackParams (p : Params) (n : Nat) : Except VizErr TrackParams :=
  let num := min n (p.trackLimit.getD maxCylinder)
  if num = 0 then .error .noTracks
  else
    let total := p.radius.getD (1/2)
    let maxR := p.maxRatio * total
    let minR := p.innerRadius total n
    if maxR ≤ minR then .error .invalid
    else
      let w := (maxR - minR) / (n : Rat)
      let (adj, rw) := if p.gap = 0 then (-(w * (1/100)) / 2, w * (101/100)) else (w * (p.gap / 2), w * (1 - p.gap))
      if w ≤ 0 then .error .notVisible
      else .ok ⟨total, minR, maxR, num, w, rw, adj⟩

/-- `radii` (src/visualization/mod.rs:400-422): outer, middle and inner; both answers to `vector` do the same. -/
def TrackParams.radii (t : TrackParams) (cyl : Nat) : Rat × Rat × Rat :=
  let outer := t.totalRadius - (cyl : Rat) * t.totalWidth
  let inner := outer - t.totalWidth
  let middle := outer - t.totalWidth / 2
  (outer - t.radiusAdjust, middle, inner + t.radiusAdjust)

/-- `quadrant_clip` (src/visualization/mod.rs:354-359, 384-386), and the same table in vectorize_disk.rs:430-436. -/
def quadrantClip (q : Nat) : Rat × Rat := match q % 4 with
  | 0 => (0, 1/4)
  | 1 => (1/4, 1/2)
  | 2 => (1/2, 3/4)
  | _ => (3/4, 1)

/-- `RenderGeometry` (src/visualization/mod.rs:168-173). -/
inductive Geometry where
  | sector | arc
  deriving DecidableEq, Repr

/-- What is drawn: `VizShape` (src/visualization/types/shapes.rs:60-97).  A sector between two angles and radii, an arc stroked at a radius, a
circle stroked outside a radius. -/
inductive Shape where
  | sector (start stop inner outer : Rat)
  | arc (radius width start stop : Rat)
  | circle (inner width : Rat)
  deriving DecidableEq, Repr

/-- `VizElement` and `VizElementInfo` (src/visualization/types/shapes.rs:606-619, 644-652): `elem` is `None` for the background of a track. -/
structure Drawn where
  shape : Shape
  elem : Option Elem := none
  cyl : Nat
  head : Nat
  chsn : Option Chsn := none
  range : Option (Nat × Nat) := none
  elementIdx : Option Nat := none
  sectorIdx : Option Nat := none
  trackFlag : Bool := false
  emptyFlag : Bool := false
  overlapLong : Bool := false
  deriving DecidableEq, Repr

/-! ## The tracks of a side -/

/-- `Track::stream` and `Track::metadata` (src/track/bitstream.rs:138-140, 875-877, fluxstream.rs:225-230, 382-387, metasector.rs:246-248, 659-661). -/
def streamOf : DiskTrack → Option Track
  | .bit _ t => some t
  | .flux _ (some t) => some t
  | _ => none

/-- The length of a track's stream. -/
def lenOf (t : Track) : Nat := t.data.bits.bits.length

/-- The tracks of a side (src/diskimage.rs:236-240), for side 0 or 1; an index beyond the pool, which no image has, is left out. -/
def sideTracks (d : Disk) (side : Nat) : List DiskTrack := (d.headMap side).filterMap fun i => d.pool[i]?

/-- `collect_streams` and `collect_metadata` (src/visualization/mod.rs:652-657, 675-680): tracks without a stream are left out. -/
def collect (d : Disk) (side : Nat) : List Track := (sideTracks d side).filterMap streamOf

/-! ## Elements by quadrants (src/visualization/vectorize_disk.rs:379-670) -/

/-- `matches!(generic_element, Marker)` (src/track_schema/system34.rs:275-300). -/
def isMarker : Elem → Bool
  | .marker _ => true
  | _ => false

/-- `overlap_max` (vectorize_disk.rs:390). -/
def overlapMax : Nat := (1024 + 6) * 16

/-- Invert for the direction and exchange if reversed (vectorize_disk.rs:519-528, 611-625). -/
def orient (dir : Turning) (a b : Rat) : Rat × Rat :=
  let (a, b) := match dir with
    | .cw => (a, b)
    | .ccw => (1 - a, 1 - b)
  if a > b then (b, a) else (a, b)

/-- Skip what is outside a quadrant and clip the rest (vectorize_disk.rs:530-542, 627-635). -/
def clip (q : Nat) (ab : Rat × Rat) : Option (Rat × Rat) :=
  let (lo, hi) := quadrantClip q
  if ab.2 ≤ lo ∨ ab.1 ≥ hi then none else some (max ab.1 lo, min ab.2 hi)

/-- The shape for a range of angles (vectorize_disk.rs:544-574, 637-665). -/
def shapeOf (g : Geometry) (tp : TrackParams) (cyl : Nat) (ab : Rat × Rat) : Shape :=
  let (outer, middle, inner) := tp.radii cyl
  match g with
  | .sector => .sector ab.1 ab.2 inner outer
  | .arc => .arc middle tp.renderWidth ab.1 ab.2

/-- What is drawn of an element that reaches the index, at the beginning of the track (vectorize_disk.rs:477-577). -/
def overlapPiece (p : Params) (g : Geometry) (tp : TrackParams) (cyl head len : Nat) (x : Inst) : Option Drawn :=
  if isMarker x.elem then none
  else if x.stop ≥ len then
    let long := decide (x.stop - x.start > overlapMax)
    let a := p.indexAngle
    let b := p.indexAngle + (if long then (((x.start + overlapMax) % len : Nat) : Rat) / (len : Rat) else ((x.stop % len : Nat) : Rat) / (len : Rat))
    let (a, b) := if a > b then (b, a) else (a, b)
    (clip 0 (orient p.direction a b)).map fun ab =>
      { shape := shapeOf g tp cyl ab, elem := some x.elem, cyl, head, chsn := x.chsn, overlapLong := long }
  else none

/-- What is drawn of an element in a quadrant (vectorize_disk.rs:585-667). -/
def elementPiece (p : Params) (g : Geometry) (tp : TrackParams) (cyl head len q : Nat) (x : Inst) : Option Drawn :=
  let a := (x.start : Rat) / (len : Rat) + p.indexAngle
  let b := (x.stop : Rat) / (len : Rat) + p.indexAngle
  let (a, b) := if a > b then (b, a) else (a, b)
  (clip q (orient p.direction a b)).map fun ab =>
    { shape := shapeOf g tp cyl ab, elem := some x.elem, cyl, head, chsn := x.chsn }

/-- Everything drawn of a track in a quadrant (vectorize_disk.rs:427-667): the background, what reaches the index, what is no mark, the marks. -/
def quadrantPieces (p : Params) (g : Geometry) (lookup : Bool) (tp : TrackParams) (cyl head len q : Nat) (items : List Inst) : List Drawn :=
  let bg : Drawn := { shape := .arc (tp.radii cyl).2.1 tp.renderWidth (quadrantClip q).1 (quadrantClip q).2, cyl, head, trackFlag := true,
                      emptyFlag := items.isEmpty }
  bg :: ((if q = 0 ∧ lookup = false then items.filterMap (overlapPiece p g tp cyl head len) else []) ++
    (items.filter (fun x => !isMarker x.elem)).filterMap (elementPiece p g tp cyl head len q) ++
    (items.filter (fun x => isMarker x.elem)).filterMap (elementPiece p g tp cyl head len q))

/-- The quadrants that are drawn (vectorize_disk.rs:385). -/
def quadrants : Option Nat → List Nat
  | some q => [q]
  | none => [0, 1, 2, 3]

/-- `vectorize_disk_elements_by_quadrants` (vectorize_disk.rs:379-670): the tracks are counted among those with streams. -/
def elements (d : Disk) (p : Params) (side : Nat) (quadrant : Option Nat) (g : Geometry) (lookup : Bool) : Except VizErr (DisplayList Drawn) :=
  let qs := quadrants quadrant
  if side > 1 then .error .panic
  else
    let ts := collect d side
    match p.trackParams (d.headMap side).length with
    | .error e => .error e
    | .ok tp =>
      let num := min ts.length (p.trackLimit.getD maxCylinder)
      if num = 0 then .error .noTracks
      else
        let drawn := ts.zipIdx.flatMap fun x => (qs.flatMap fun q => quadrantPieces p g lookup tp x.2 side (lenOf x.1) q x.1.items).map fun y => (x.2, y)
        .ok (drawn.foldl (fun dl x => dl.push x.1 x.2) (DisplayList.new num))

/-! ## Selections (src/visualization/vectorize_disk.rs:686-824) -/

/-- The angles of an element, and whether it is longer than the track (vectorize_disk.rs:748-775). -/
def elementAngles (p : Params) (len : Nat) (x : Inst) : (Rat × Rat) × Bool :=
  let a := (x.start : Rat) / (len : Rat) + p.indexAngle
  let b := (x.stop : Rat) / (len : Rat) + p.indexAngle
  (orient p.direction a b, decide (b - a > 1))

/-- The shape of a selection (vectorize_disk.rs:777-808, 919-945). -/
def selectionShape (g : Geometry) (tp : TrackParams) (cyl : Nat) (ab : Rat × Rat) (wrapping : Bool) : Shape :=
  let (outer, middle, inner) := tp.radii cyl
  match g with
  | .sector => .sector ab.1 ab.2 inner outer
  | .arc => if wrapping then .circle inner (outer - inner) else .arc middle (outer - inner) ab.1 ab.2

/-- The loop over the elements for the sector with the given index (vectorize_disk.rs:724-822): `k` counts data, in a byte. -/
def selectLoop (sectorIdx : Nat) : Nat → Nat → List Inst → Option (Nat × Inst × Nat)
  | _, _, [] => none
  | i, k, x :: rest =>
    let k := if x.elem.isData then (k + 1) % 256 else k
    if isMarker x.elem then selectLoop sectorIdx (i + 1) k rest
    else if x.elem.isData = false ∨ k < sectorIdx then selectLoop sectorIdx (i + 1) k rest
    else some (i, x, k)

/-- `vectorize_disk_selection` (vectorize_disk.rs:686-824): whether a sector or a track is selected (`selection_type`) is not read, and what is
drawn goes to the first track of the list.  `stream` and `metadata` (src/visualization/mod.rs:638-650) panic for tracks that are missing or
have none. -/
def selection (d : Disk) (p : Params) (_selectTrack : Bool) (ch : Ch) (sectorIdx : Nat) (g : Geometry) : Except VizErr (DisplayList Drawn) :=
  if ch.h > 1 then .error .panic
  else match p.trackParams (d.headMap ch.h).length with
    | .error e => .error e
    | .ok tp => match ((d.headMap ch.h)[ch.c]?).bind (fun i => d.pool[i]?) |>.bind streamOf with
      | none => .error .panic
      | some t =>
        let num := min (d.headMap ch.h).length (p.trackLimit.getD maxCylinder)
        if num = 0 then .error .noTracks
        else if ch.c ≥ num then .error .invalid
        else
          let dl := DisplayList.new num
          match selectLoop sectorIdx 0 0 t.items with
          | none => .ok dl
          | some (i, x, k) =>
            let (ab, wrapping) := elementAngles p (lenOf t) x
            .ok (dl.push 0 { shape := selectionShape g tp ch.c (max ab.1 0, min ab.2 1) wrapping, elem := some x.elem, cyl := ch.c, head := ch.h,
                             chsn := x.chsn, elementIdx := some i, sectorIdx := some k })

/-! ## What is under a point (src/visualization/vectorize_disk.rs:837-989) -/

/-- `DiskHitTestResult` (src/visualization/mod.rs:553-560); the display list has one track. -/
structure Hit where
  drawn : Option Drawn := none
  angle : Rat := 0
  bitIndex : Nat := 0
  sectorIndex : Option Nat := none
  track : Nat := 0
  deriving DecidableEq, Repr

/-- The cylinder at a distance from the center (vectorize_disk.rs:871-879): counted from inside in widths without gaps. -/
def hitCylinder (tp : TrackParams) (dist : Rat) : Nat :=
  if dist > tp.maxRadius then 0
  else (tp.numTracks - 1) - ((dist - tp.minRadius) / tp.renderWidth).floor.toNat

/-- `vectorize_disk_hit_test` (vectorize_disk.rs:837-989); `search` is what the binary search of `hit_test` answers. -/
def hitTest (d : Disk) (p : Params) (side : Nat) (g : Geometry) (dist angle : Rat) (search : Nat) : Except VizErr Hit :=
  if side > 1 then .error .panic
  else match p.trackParams (d.headMap side).length with
    | .error e => .error e
    | .ok tp =>
      let coyote := tp.renderWidth * (1/2)
      if dist > tp.maxRadius + coyote ∨ dist < tp.minRadius then .ok {}
      else
        let cyl := hitCylinder tp dist
        match ((d.headMap side)[cyl]?).bind fun i => d.pool[i]? with
        | none => .ok {}
        | some t => match streamOf t with
          | none => .error .panic
          | some t =>
            let norm := p.direction.adjust angle
            let bit := (norm * (lenOf t : Rat)).floor.toNat
            match S34.hitTest t.items bit search with
            | none => .ok { angle := norm, bitIndex := bit, track := cyl }
            | some (x, i) =>
              let (ab, wrapping) := elementAngles p (lenOf t) x
              .ok { drawn := some { shape := selectionShape g tp cyl (max ab.1 0, ab.2) wrapping, elem := some x.elem, cyl, head := side,
                                    chsn := x.chsn, range := some (x.start, x.stop), elementIdx := some i }
                    angle := norm, bitIndex := bit, sectorIndex := S34.sectorIndex t.items i, track := cyl }

/-! ## Data (src/visualization/vectorize_disk.rs:1000-1147) -/

/-- `VizDataSlice` (src/visualization/types/shapes.rs): how many bits of the slice are set, of how many — the density is the quotient, and not
a number for a slice of no bits — and the arc. -/
structure Slice where
  ones : Nat
  bits : Nat
  radius : Rat
  start : Rat
  stop : Rat
  deriving DecidableEq, Repr

/-- The number of tracks a disk should have (vectorize_disk.rs:1046-1050): not as in `track_params`. -/
def standardTracksData (n : Nat) : Nat := if n < 50 then 40 else if n < 90 then 80 else 160

/-- The sizes the segmenter gives (vectorize_disk.rs:1092): `collect`, for at most `fuel` items. -/
def segmentList : Nat → Segmenter → List Nat
  | 0, _ => []
  | fuel + 1, s => match s.next with
    | (none, _) => []
    | (some x, s) => x :: segmentList fuel s

/-- The slices of a track (vectorize_disk.rs:1096-1143): `idx` bits are before the rest of the data. -/
def slicesOf (p : Params) (slices : Nat) (overlap mid : Rat) (len : Nat) : Nat → List Bool → List Nat → List Slice
  | _, _, [] => []
  | idx, bits, n :: rest =>
    let a := (idx : Rat) / (len : Rat) + p.indexAngle
    let b := ((idx + n : Nat) : Rat) / (len : Rat) + p.indexAngle + (1 / (slices : Rat)) * overlap
    { ones := (bits.take n).countP id, bits := n, radius := mid, start := p.direction.adjust a, stop := p.direction.adjust b } ::
      slicesOf p slices overlap mid len (idx + n) (bits.drop n) rest

/-- `VizDataSliceDisplayList` with the densities it states (src/visualization/types/display_list.rs:129-135). -/
structure DataList where
  minDensity : Rat
  maxDensity : Rat
  trackWidth : Rat
  list : DisplayList Slice

/-- The densities found so far, after a slice (vectorize_disk.rs:1111-1117): comparisons with what is not a number are false. -/
def density (mm : Rat × Rat) (s : Slice) : Rat × Rat :=
  if s.bits = 0 then mm
  else
    let x := (s.ones : Rat) / (s.bits : Rat)
    (if x < mm.1 then x else mm.1, if x > mm.2 then x else mm.2)

/-- The inner radius (vectorize_disk.rs:1009, 1042-1058). -/
def Params.dataInner (p : Params) (total : Rat) (num : Nat) : Rat :=
  let minR := p.minRatio * total
  if p.pin then p.minRatio * total - ((num - standardTracksData num : Nat) : Rat) * ((p.maxRatio * total - minR) / (standardTracksData num : Rat))
  else minR

/-- The width of a track (vectorize_disk.rs:1065). -/
def Params.dataWidth (p : Params) (total : Rat) (num : Nat) : Rat := (p.maxRatio * total - p.dataInner total num) / (num : Rat)

/-- The slices of a track (vectorize_disk.rs:1076-1143). -/
def trackSlices (p : Params) (total : Rat) (num slices : Nat) (overlap : Rat) (t : Track) (ti : Nat) : List Slice :=
  let w := p.dataWidth total num
  let mid := p.maxRatio * total - (ti : Rat) * w - w / 2
  let sizes := segmentList (slices + 1) ⟨slices, lenOf t / slices, lenOf t % slices, 0, 0⟩
  slicesOf p slices overlap mid (lenOf t) 0 t.data.bits.bits sizes

/-- `vectorize_disk_data` (vectorize_disk.rs:1000-1147). -/
def dataSlices (d : Disk) (p : Params) (side slices : Nat) (overlap : Rat) : Except VizErr DataList :=
  let total := p.radius.getD (1/2)
  if p.maxRatio * total ≤ p.minRatio * total then .error .invalid
  else if side > 1 then .error .panic
  else
    let ts := collect d side
    let num := min ts.length (p.trackLimit.getD maxCylinder)
    if num = 0 then .error .noTracks
    else
      let w := p.dataWidth total num
      let stroke := if p.gap = 0 then w * (101/100) else w * (1 - p.gap)
      if slices = 0 then .error .panic
      else
        let drawn := ts.zipIdx.flatMap fun x => (trackSlices p total num slices overlap x.1 x.2).map fun s => (x.2, s)
        let mm := drawn.foldl (fun mm s => density mm s.2) (0, 1)
        .ok ⟨mm.1, mm.2, stroke, drawn.foldl (fun dl x => dl.push x.1 x.2) (DisplayList.new num)⟩

end Fox.Viz
