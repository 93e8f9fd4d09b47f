import Verif.Model.Pfi
import Verif.Spec.Psi
/-
Specification of PFI files: how a transition time is written, and which transitions make up a revolution.
-/
namespace Fox.Spec
open Pce

/-- The five ways of writing a time. -/
inductive PfiForm where
  | one | short | word | three | four
  deriving DecidableEq

/-- The times each can write. -/
def PfiForm.fits : PfiForm → Nat → Prop
  | .one, t => 8 ≤ t ∧ t < 256
  | .short, t => t < 1024
  | .word, t => t < 2 ^ 16
  | .three, t => t < 2 ^ 24
  | .four, t => t < 2 ^ 32

/-- The bytes written: the time itself; 04 to 07 with the high bits and the low byte; 01, 02, 03 and two,
three or four bytes. -/
def PfiForm.bytes : PfiForm → Nat → List Byte
  | .one, t => [byteOf t]
  | .short, t => [byteOf (4 + t / 256), byteOf (t % 256)]
  | .word, t => [1#8, byteOf (t / 256), byteOf (t % 256)]
  | .three, t => [2#8, byteOf (t / 65536), byteOf (t / 256 % 256), byteOf (t % 256)]
  | .four, t => [3#8, byteOf (t / 16777216), byteOf (t / 65536 % 256), byteOf (t / 256 % 256), byteOf (t % 256)]

/-- Transition times as bytes. -/
def fluxBytes (fl : List (PfiForm × Nat)) : List Byte := fl.flatMap fun x => x.1.bytes x.2

/-- The times with the clock at which each starts. -/
def starts : Nat → List Nat → List (Nat × Nat)
  | _, [] => []
  | p, t :: ts => (p, t) :: starts (p + t) ts

/-- The transitions that start between two index times. -/
def between (ts : List Nat) (a b : Nat) : List Nat :=
  ((starts 0 ts).filter fun x => a ≤ x.1 ∧ x.1 < b).map (·.2)

/-- Neighbouring index times. -/
def neighbours : List Nat → List (Nat × Nat)
  | a :: b :: l => (a, b) :: neighbours (b :: l)
  | _ => []

/-- The revolutions: from each index time to the next, as long as their transitions together. -/
def revolutions (ts : List Nat) (index : List Nat) : List Pfi.Rev :=
  (neighbours index).map fun x => ⟨between ts x.1 x.2, (between ts x.1 x.2).sum⟩

/-- A transition starts in each revolution. -/
def Turning (ts : List Nat) (index : List Nat) : Prop :=
  ∀ x ∈ neighbours index, between ts x.1 x.2 ≠ []

/-- Four bytes, high byte first. -/
def be4 (n : Nat) : List Byte :=
  [byteOf (n / 16777216), byteOf (n / 65536 % 256), byteOf (n / 256 % 256), byteOf (n % 256)]

/-- A track of a file: address, clock rate, index times, transitions. -/
structure PfiTrack where
  ch : Ch
  rate : Nat
  index : List Nat
  flux : List (PfiForm × Nat)

/-- Its chunks. -/
def PfiTrack.chunks (t : PfiTrack) : List Chunk :=
  [⟨idTrak, be4 t.ch.c ++ be4 t.ch.h ++ be4 t.rate⟩, ⟨idIndx, t.index.flatMap be4⟩, ⟨idData, fluxBytes t.flux⟩]

/-- A file. -/
def pfiFile (cs : List Chunk) : List Byte := (⟨idPfi, [0#8, 0#8, 0#8, 0#8]⟩ :: cs).flatMap writeChunk ++ footer

/-- The contents fit the format: at least one index time, times that can be written, together below 2^32
clocks, a transition in every revolution. -/
structure PfiTrack.Ok (t : PfiTrack) : Prop where
  cyl : t.ch.c < 65536
  head : t.ch.h < 2
  rate : t.rate < 2 ^ 32
  index : t.index ≠ [] ∧ ∀ i ∈ t.index, i < 2 ^ 32
  flux : ∀ x ∈ t.flux, x.1.fits x.2
  total : (t.flux.map (·.2)).sum < 2 ^ 32
  turning : Turning (t.flux.map (·.2)) t.index
  size : (fluxBytes t.flux).length ≤ maxChunkPfi ∧ 4 * t.index.length ≤ maxChunkPfi

/-- The revolutions it stands for. -/
def PfiTrack.revs (t : PfiTrack) : List Pfi.Rev := revolutions (t.flux.map (·.2)) t.index

end Fox.Spec
