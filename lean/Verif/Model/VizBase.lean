import Verif.Model.Basic
import Mathlib.Algebra.Order.Field.Rat
/-
Model of the parts of the visualization that know nothing of disks: rectangles, display lists and the division of a track into slices.

Simplified: the coordinates, `f32` or whole numbers in the code, are rationals, so nothing is rounded and nothing overflows.
-/
namespace Fox.Viz

/-! ## Rectangles (src/visualization/types/shapes.rs:142-283) -/

/-- `VizPoint2d` (src/visualization/types/shapes.rs:285-330). -/
structure Point where
  x : Rat
  y : Rat
  deriving DecidableEq, Repr

/-- `VizRect` (src/visualization/types/shapes.rs:148-151). -/
structure Rect where
  topLeft : Point
  bottomRight : Point
  deriving DecidableEq, Repr

namespace Rect

/-- `min` (src/visualization/types/shapes.rs:155-162). -/
def lesser (a b : Rat) : Rat := if a < b then a else b

/-- `max` (src/visualization/types/shapes.rs:165-172). -/
def greater (a b : Rat) : Rat := if a > b then a else b

/-- `width` (src/visualization/types/shapes.rs:185-187). -/
def width (r : Rect) : Rat := r.bottomRight.x - r.topLeft.x

/-- `height` (src/visualization/types/shapes.rs:189-191). -/
def height (r : Rect) : Rat := r.bottomRight.y - r.topLeft.y

/-- `intersection` (src/visualization/types/shapes.rs:195-212). -/
def intersection (a b : Rect) : Option Rect :=
  let tl : Point := ⟨greater a.topLeft.x b.topLeft.x, greater a.topLeft.y b.topLeft.y⟩
  let br : Point := ⟨lesser a.bottomRight.x b.bottomRight.x, lesser a.bottomRight.y b.bottomRight.y⟩
  if tl.x ≤ br.x ∧ tl.y ≤ br.y then some ⟨tl, br⟩ else none

/-- `bounding_box` (src/visualization/types/shapes.rs:215-227). -/
def boundingBox (a b : Rect) : Rect :=
  ⟨⟨lesser a.topLeft.x b.topLeft.x, lesser a.topLeft.y b.topLeft.y⟩,
   ⟨greater a.bottomRight.x b.bottomRight.x, greater a.bottomRight.y b.bottomRight.y⟩⟩

/-- `contains_point` (src/visualization/types/shapes.rs:230-235). -/
def containsPoint (r : Rect) (p : Point) : Bool :=
  decide (p.x ≥ r.topLeft.x) && decide (p.x ≤ r.bottomRight.x) && decide (p.y ≥ r.topLeft.y) && decide (p.y ≤ r.bottomRight.y)

/-- `contains_rect` (src/visualization/types/shapes.rs:238-240). -/
def containsRect (r o : Rect) : Bool := r.containsPoint o.topLeft && r.containsPoint o.bottomRight

/-- `normalize` (src/visualization/types/shapes.rs:257-268). -/
def normalize (r : Rect) : Rect :=
  ⟨⟨lesser r.topLeft.x r.bottomRight.x, lesser r.topLeft.y r.bottomRight.y⟩,
   ⟨greater r.topLeft.x r.bottomRight.x, greater r.topLeft.y r.bottomRight.y⟩⟩

/-- `grow_pinned` (src/visualization/types/shapes.rs:244-254): the new height is added to the bottom. -/
def growPinned (r : Rect) (factor : Rat) : Rect :=
  let w := r.width * factor
  let h := r.height * factor
  normalize ⟨⟨r.topLeft.x, r.topLeft.y⟩, ⟨r.topLeft.x + w, r.bottomRight.y + h⟩⟩

/-- `center` (src/visualization/types/shapes.rs:283-288). -/
def center (r : Rect) : Point := ⟨r.topLeft.x + r.width / 2, r.topLeft.y + r.height / 2⟩

end Rect

/-! ## Display lists (src/visualization/types/display_list.rs) -/

/-- `VizElementDisplayList` and `VizDataSliceDisplayList` (display_list.rs:38-42, 129-135): what is drawn on each track. -/
structure DisplayList (α : Type) where
  tracks : List (List α)

namespace DisplayList
variable {α : Type}

/-- `new` (display_list.rs:45-51, 166-174). -/
def new (n : Nat) : DisplayList α := ⟨List.replicate n []⟩

/-- `push` (display_list.rs:55-59, 180-184). -/
def push (d : DisplayList α) (c : Nat) (x : α) : DisplayList α :=
  if c < d.tracks.length then ⟨d.tracks.modify c (· ++ [x])⟩ else d

/-- `len` (display_list.rs:62-69, 186-192): the loop that adds up. -/
def len (d : DisplayList α) : Nat := d.tracks.foldl (fun n t => n + t.length) 0

/-- `items` (display_list.rs:96-98). -/
def items (d : DisplayList α) (c : Nat) : Option (List α) := d.tracks[c]?

/-- The iterator (display_list.rs:102-105): what remains of the tracks, and of the track it is on. -/
structure Iter (α : Type) where
  outer : List (List α)
  inner : Option (List α)

/-- `iter` (display_list.rs:88-93). -/
def iter (d : DisplayList α) : Iter α := match d.tracks with
  | [] => ⟨[], none⟩
  | t :: rest => ⟨rest, some t⟩

/-- The loop of `next` over the tracks that remain (display_list.rs:111-125). -/
def Iter.onward : List (List α) → Option α × Iter α
  | [] => (none, ⟨[], none⟩)
  | [] :: rest => onward rest
  | (x :: t) :: rest => (some x, ⟨rest, some t⟩)

/-- `next` (display_list.rs:110-126). -/
def Iter.next (i : Iter α) : Option α × Iter α := match i.inner with
  | some (x :: t) => (some x, ⟨i.outer, some t⟩)
  | _ => Iter.onward i.outer

end DisplayList

/-! ## Slices of a track (src/visualization/data_segmenter.rs) -/

/-- `DataSegmenter` (data_segmenter.rs:31-37). -/
structure Segmenter where
  divisor : Nat
  base : Nat
  step : Nat
  accum : Nat
  count : Nat

namespace Segmenter

/-- `new` (data_segmenter.rs:40-55). -/
def new (dividend divisor : Nat) : Except Err Segmenter :=
  if divisor = 0 then .error .panic
  else .ok ⟨divisor, dividend / divisor, dividend % divisor, 0, 0⟩

/-- `next` (data_segmenter.rs:62-82). -/
def next (s : Segmenter) : Option Nat × Segmenter :=
  if s.count ≥ s.divisor then (none, s)
  else
    let s := { s with count := s.count + 1, accum := s.accum + s.step }
    if s.accum ≥ s.divisor then (some (s.base + 1), { s with accum := s.accum - s.divisor }) else (some s.base, s)

end Segmenter

end Fox.Viz
