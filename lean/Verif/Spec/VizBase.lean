import Verif.Model.VizBase
/-
Specification vocabulary for rectangles, display lists and slices.
-/
namespace Fox.Spec
open Viz

/-- The point lies in the rectangle, its edges included. -/
def Inside (r : Rect) (p : Point) : Prop :=
  r.topLeft.x ≤ p.x ∧ p.x ≤ r.bottomRight.x ∧ r.topLeft.y ≤ p.y ∧ p.y ≤ r.bottomRight.y

/-- The first corner is not right of or below the second. -/
def Proper (r : Rect) : Prop := r.topLeft.x ≤ r.bottomRight.x ∧ r.topLeft.y ≤ r.bottomRight.y

/-- What an iterator gives, by asking it until it has nothing more. -/
inductive Yields {σ α : Type} (next : σ → Option α × σ) : σ → List α → Prop
  | done {s s'} : next s = (none, s') → Yields next s []
  | more {s s' a l} : next s = (some a, s') → Yields next s' l → Yields next s (a :: l)

/-- What was pushed to a track. -/
def pushedTo {α : Type} (c : Nat) (ps : List (Nat × α)) : List α := (ps.filter (fun p => p.1 == c)).map (·.2)

/-- A display list after pushing. -/
def pushAll {α : Type} (d : DisplayList α) (ps : List (Nat × α)) : DisplayList α := ps.foldl (fun d p => d.push p.1 p.2) d

end Fox.Spec
