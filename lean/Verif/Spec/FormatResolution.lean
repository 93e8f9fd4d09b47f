import Verif.Model.Detect
import Verif.Model.Raw
import Verif.Model.Imd
import Verif.Model.Psi
import Verif.Model.Pce
import Verif.Model.Td0
import Verif.Model.Hfe
import Verif.Model.Hxc
import Verif.Model.F86
import Verif.Model.Tc
import Verif.Model.Scp
import Verif.Model.Kryo
import Verif.Model.Mfi
import Verif.Model.Ipf
import Verif.Model.Sauce
/-
Specification vocabulary for the resolution of images loaded from files.
-/
namespace Fox.Spec

/-- The image holds tracks of this resolution only, and names no other among its resolutions. -/
def HoldsOnly (r : Resolution) (d : Disk) : Prop :=
  (∀ t ∈ d.pool, t.resolution = r) ∧ ∀ r', d.res.has r' = true → r' = r

/-- The image is what the parser of the format makes of some file, whatever is random or computed with floats.  (PFI is not among them: what is modelled of
its images has flux tracks only.) -/
inductive Parsed : Detect.Format → Disk → Prop
  | raw {nz f d} : Raw.loadImage nz f = .ok d → Parsed .raw d
  | imd {debug f d} : Imd.load debug {} f = .ok d → Parsed .imd d
  | psi {f d x} : Psi.load {} f = .ok (d, x) → Parsed .psi d
  | pri {alt rnd f d x} : Pri.load alt rnd {} f = .ok (d, x) → Parsed .pri d
  | mfm {debug rnd f d x} : Hxc.load debug rnd {} f = .ok (d, x) → Parsed .mfm d
  | td0 {f d} : Td0.load {} f = .ok d → Parsed .td0 d
  | kryo {debug rnd fm dir f d} : Kryo.loadDir debug rnd fm dir f = .ok d → Parsed .kryo d
  | hfe {debug rnd f d x} : Hfe.load debug rnd {} f = .ok (d, x) → Parsed .hfe d
  | f86 {debug bitLen rnd f d x} : F86.load debug bitLen rnd {} f = .ok (d, x) → Parsed .f86 d
  | tc {debug trace rnd f d x} : Tc.load debug trace rnd {} f = .ok (d, x) → Parsed .tc d
  | scp {debug rnd fm f d x} : Scp.load debug rnd fm {} f = .ok (d, x) → Parsed .scp d
  | mfi {inflate debug rnd fm f d x} : Mfi.load inflate debug rnd fm {} f = .ok (d, x) → Parsed .mfi d
  | ipf {room rnd f d x} : Ipf.load room rnd {} f = .ok (d, x) → Parsed .ipf d
  | moof {debug rnd fm f d x} : Sauce.load .moof debug rnd fm {} f = .ok (d, x) → Parsed .moof d
  | woz {debug rnd fm f d x} : Sauce.load .woz debug rnd fm {} f = .ok (d, x) → Parsed .woz d

end Fox.Spec
