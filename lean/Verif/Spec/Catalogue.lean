import Verif.Spec.TrackMap
/-
Shape of a catalogue of track elements.
-/
namespace Fox.Spec
open Fox.S34

/-- A catalogue in which every header with data is directly followed by its data element (same id, same
address-error flag, not in front of the header), and no other data element exists. -/
inductive Paired : List Inst → Prop where
  | nil : Paired []
  | marker {x : Inst} {m : Marker} {l : List Inst} (h : x.elem = .marker m) : Paired l → Paired (x :: l)
  | orphan {x : Inst} {c : Chsn} {ae : Bool} {l : List Inst} (h : x.elem = .header c ae true) :
      Paired l → Paired (x :: l)
  | sector {x y : Inst} {c : Chsn} {ae de del : Bool} {l : List Inst} (hx : x.elem = .header c ae false)
      (hy : y.elem = .data c ae de del) (h : x.start ≤ y.start) : Paired l → Paired (x :: y :: l)

/-- The catalogue holds a readable sector with id `c`: a good header beginning at or after `index`,
followed by data. -/
def Readable (index : Nat) (c : Chsn) (l : List Inst) : Prop :=
  ∃ a x y b de del, l = a ++ x :: y :: b ∧ x.elem = .header c false false ∧
    y.elem = .data c false de del ∧ index ≤ x.start

end Fox.Spec
