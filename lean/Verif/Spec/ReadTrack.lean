import Verif.Spec.MetaMap
/-
Specification of reading a whole track: the contents of its sectors in track order.
-/
namespace Fox.Spec

/-- The map after a history of operations. -/
def mapAfter : SectorMap → List TrackOp → SectorMap
  | m, [] => m
  | m, op :: ops => mapAfter (mapStep m op).1 ops

/-- The sectors up to and including the first one numbered `eot`; all of them if there is none. -/
def upTo (eot : Nat) : SectorMap → SectorMap
  | [] => []
  | e :: m => if e.1.s = eot then [e] else e :: upTo eot m

end Fox.Spec
