import Verif.Spec.Kryo
import Verif.Model.Disk
/-
A set of KryoFlux streams: files in a directory, named after the tracks.
-/
namespace Fox
namespace Spec
namespace KryoSet

/-- ASCII lower case. -/
def low (l : List Byte) : List Byte :=
  l.map fun b => if 65 ≤ b.toNat ∧ b.toNat ≤ 90 then BitVec.ofNat 8 (b.toNat + 32) else b

/-- The name of the stream of a track with a cylinder below 100: the name of the set, two digits, a dot, a digit and `.raw`. -/
def nameOf (set : List Byte) (ch : Ch) : List Byte :=
  set ++ [BitVec.ofNat 8 (48 + ch.c / 10), BitVec.ofNat 8 (48 + ch.c % 10), 46#8, BitVec.ofNat 8 (48 + ch.h), 46#8, 114#8, 97#8, 119#8]

/-- A directory has a stream of the set for a track, in whatever case. -/
def Has (names : List (List Byte)) (set : List Byte) (ch : Ch) : Prop := ∃ f ∈ names, low f = nameOf (low set) ch

instance (names : List (List Byte)) (set : List Byte) (ch : Ch) : Decidable (Has names set ch) := by unfold Has; infer_instance

/-- The tracks of the first `n` cylinders, side 0 before side 1. -/
def grid (n : Nat) : List Ch := (List.range n).flatMap fun c => [⟨c, 0⟩, ⟨c, 1⟩]

/-- The cylinders and the sides of which there are streams among the first `n` cylinders. -/
def cylinders (names : List (List Byte)) (set : List Byte) (n : Nat) : List Nat :=
  (List.range n).filter fun c => Has names set ⟨c, 0⟩ ∨ Has names set ⟨c, 1⟩
def sides (names : List (List Byte)) (set : List Byte) (n : Nat) : List Nat :=
  [0, 1].filter fun h => (List.range n).any fun c => Has names set ⟨c, h⟩

/-- A directory has exactly the streams of `C` cylinders and `S` sides of a set. -/
def Complete (names : List (List Byte)) (set : List Byte) (C S : Nat) : Prop :=
  ∀ c h, c < 100 → h < 2 → (Has names set ⟨c, h⟩ ↔ c < C ∧ h < S)

/-- A revolution of time `t` in which the times `ds` were measured is one of a double density track with the intervals `ks`, at
about 300 rpm: cells of about 2 us, and as many of them as there can be. -/
structure DoubleDensity (ks : List Nat) (ds : List Rat) (t : Rat) : Prop where
  captures : Captures ks ds t
  cells : ∃ q, 1955 / 1000000000 ≤ q ∧ q ≤ 2012 / 1000000000 ∧ Measured q (35 / 1000 * q) ks ds
  speed : 255 ≤ 60 / t ∧ 60 / t < 345
  rate : 424000 * t ≤ ((cellsOf ks).length : Rat) ∧ ((cellsOf ks).length : Rat) < 542000 * t

/-- The cells of the flux track that a disk has at a place. -/
def fluxCells (d : Disk) (ch : Ch) : Option (List Bool) :=
  match d.track ch with
  | .ok (some (.flux _ (some t))) => some t.data.bits.bits
  | _ => none

end KryoSet
end Spec
end Fox
