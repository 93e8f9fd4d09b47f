import Verif.Model.Catalog
import Verif.Spec.Catalogue
import Verif.Spec.Caps
/-
Specification vocabulary for the queries on what is on a track.
-/
namespace Fox.Spec
open S34

/-- The bit belongs to the element: its range is half open, as `range` says (src/track_schema/mod.rs:478-480). -/
def Covers (x : Inst) (bit : Nat) : Prop := x.start ≤ bit ∧ bit < x.stop

/-- The bit belongs to the element or is the one behind it. -/
def Touches (x : Inst) (bit : Nat) : Prop := x.start ≤ bit ∧ bit ≤ x.stop

instance (x : Inst) (bit : Nat) : Decidable (Touches x bit) := inferInstanceAs (Decidable (_ ∧ _))

/-- The elements are in the order of their beginnings. -/
def Ordered (items : List Inst) : Prop := items.Pairwise fun a b => a.start ≤ b.start

/-- `x` is an element with the property, and no other such element is shorter. -/
def Smallest (items : List Inst) (P : Inst → Prop) (x : Inst) : Prop :=
  x ∈ items ∧ P x ∧ ∀ y ∈ items, P y → x.stop - x.start ≤ y.stop - y.start

/-- The catalogue the library makes of a stream. -/
def catalogue (s : Mfm) (rnd : Nat → Bool) : List Inst := (scanMetadata s rnd (scanMarkers s)).1

end Fox.Spec
