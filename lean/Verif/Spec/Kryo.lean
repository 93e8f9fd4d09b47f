import Verif.Spec.Flux
import Verif.Model.Basic
/-
The KryoFlux stream format, told by how a stream is written.
-/
namespace Fox
namespace Spec
namespace KryoFile

/-- A decimal number with a point: its digits. -/
structure Decimal where
  whole : List Nat
  frac : List Nat

/-- The number that digits make. -/
def natOf (ds : List Nat) : Nat := ds.foldl (fun v d => 10 * v + d) 0

/-- Its value. -/
def Decimal.value (x : Decimal) : Rat := (natOf x.whole : Rat) + (natOf x.frac : Rat) / ((10 ^ x.frac.length : Nat) : Rat)

/-- Its text. -/
def Decimal.text (x : Decimal) : List Byte :=
  x.whole.map (fun d => BitVec.ofNat 8 (48 + d)) ++ [46#8] ++ x.frac.map fun d => BitVec.ofNat 8 (48 + d)

/-- Digits before and behind the point, all below 10. -/
def Decimal.Good (x : Decimal) : Prop :=
  x.whole ≠ [] ∧ x.frac ≠ [] ∧ (∀ d ∈ x.whole, d < 10) ∧ (∀ d ∈ x.frac, d < 10)

/-- What a stream consists of. -/
inductive Item where
  /-- A flux time, in one, two or three bytes. -/
  | flux1 (n : Nat)
  | flux2 (n : Nat)
  | flux3 (n : Nat)
  | nop1
  | nop2 (x : Byte)
  | nop3 (x y : Byte)
  /-- Adds 65536 to the next flux time. -/
  | overflow
  /-- An index pulse: the stream position of the next flux, the sample counter and the index counter. -/
  | index (pos sample counter : Nat)
  /-- Information that tells no clocks. -/
  | note (text : List Byte)
  /-- Information that tells the clocks. -/
  | clocks (before : List Byte) (sck ick : Decimal) (after : List Byte)
  | streamInfo (pos time : Nat)
  | streamEnd (pos status : Nat)

/-- Little-endian numbers. -/
def le2 (n : Nat) : List Byte := [BitVec.ofNat 8 n, BitVec.ofNat 8 (n / 256)]
def le4 (n : Nat) : List Byte := le2 n ++ le2 (n / 65536)

/-- `sck=` and `, ick=`. -/
def sckIs : List Byte := [115#8, 99#8, 107#8, 61#8]
def ickIs : List Byte := [44#8, 32#8, 105#8, 99#8, 107#8, 61#8]

/-- The text of information about the clocks. -/
def clockText (before : List Byte) (sck ick : Decimal) (after : List Byte) : List Byte :=
  before ++ (sckIs ++ (sck.text ++ (ickIs ++ (ick.text ++ after))))

/-- The bytes of an item. -/
def Item.bytes : Item → List Byte
  | .flux1 n => [BitVec.ofNat 8 n]
  | .flux2 n => [BitVec.ofNat 8 (n / 256), BitVec.ofNat 8 n]
  | .flux3 n => [12#8, BitVec.ofNat 8 (n / 256), BitVec.ofNat 8 n]
  | .nop1 => [8#8]
  | .nop2 x => [9#8, x]
  | .nop3 x y => [10#8, x, y]
  | .overflow => [11#8]
  | .index pos sample counter => [13#8, 2#8, 12#8, 0#8] ++ le4 pos ++ le4 sample ++ le4 counter
  | .note text => [13#8, 4#8] ++ le2 (text.length + 1) ++ text ++ [0#8]
  | .clocks a s i z => [13#8, 4#8] ++ le2 ((clockText a s i z).length + 1) ++ clockText a s i z ++ [0#8]
  | .streamInfo pos time => [13#8, 1#8, 8#8, 0#8] ++ le4 pos ++ le4 time
  | .streamEnd pos status => [13#8, 3#8, 8#8, 0#8] ++ le4 pos ++ le4 status

/-- Printable text. -/
def Printable (l : List Byte) : Prop := ∀ b ∈ l, 32 ≤ b.toNat ∧ b.toNat < 128

/-- The numbers fit their fields; texts are printable; no `sck=` stands in a note, or before the clocks. -/
def Item.Good : Item → Prop
  | .flux1 n => 14 ≤ n ∧ n < 256
  | .flux2 n => n < 2048
  | .flux3 n => n < 65536
  | .index pos sample counter => pos < 2 ^ 32 ∧ sample < 2 ^ 32 ∧ counter < 2 ^ 32
  | .note text => Printable text ∧ ¬ sckIs <:+: text
  | .clocks a s i z => Printable a ∧ Printable z ∧ s.Good ∧ i.Good ∧ ¬ sckIs <:+: a ++ [115#8, 99#8, 107#8] ∧
      ∀ b ∈ z.head?, ¬ (48 ≤ b.toNat ∧ b.toNat ≤ 57)
  | .streamInfo pos time => pos < 2 ^ 32 ∧ time < 2 ^ 32
  | .streamEnd pos status => pos < 2 ^ 32 ∧ status < 2 ^ 32 ∧ status ≠ 1 ∧ status ≠ 2
  | _ => True

/-- A file: the items and the end mark; what follows does not matter. -/
def file (items : List Item) (rest : List Byte) : List Byte := items.flatMap Item.bytes ++ ([13#8, 13#8] ++ rest)

/-- How far an item moves the stream position: information and index pulses are out of band. -/
def Item.size : Item → Nat
  | .flux1 _ => 1 | .flux2 _ => 2 | .flux3 _ => 3
  | .nop1 => 1 | .nop2 _ => 2 | .nop3 _ _ => 3
  | .overflow => 1
  | _ => 0

/-- The stream positions at which items start, and that of the end. -/
def starts : Nat → List Item → List Nat
  | p, [] => [p]
  | p, i :: is => p :: starts (p + i.size) is

/-- The flux times with their stream positions; `ovl` is what overflows have added so far, `clk` the sample clock. -/
def fluxes : Nat → Nat → Rat → List Item → List (Nat × Rat)
  | _, _, _, [] => []
  | p, ovl, clk, i :: is =>
    match i with
    | .flux1 n => (p, ((ovl + n : Nat) : Rat) / clk) :: fluxes (p + 1) 0 clk is
    | .flux2 n => (p, ((ovl + n : Nat) : Rat) / clk) :: fluxes (p + 2) 0 clk is
    | .flux3 n => (p, ((ovl + n : Nat) : Rat) / clk) :: fluxes (p + 3) 0 clk is
    | .overflow => fluxes (p + 1) (ovl + 65536) clk is
    | .clocks _ s _ _ => fluxes p ovl s.value is
    | i => fluxes (p + i.size) ovl clk is

/-- The index pulses: position and counter. -/
def pulses : List Item → List (Nat × Nat)
  | [] => []
  | .index pos _ counter :: is => (pos, counter) :: pulses is
  | _ :: is => pulses is

/-- The sample and the index clock if nothing is told: 18432000 * 73 / 14 / 2 Hz, halved and divided by 16. -/
def usualSck : Rat := 18432000 * 73 / 14 / 2 / 2
def usualIck : Rat := 18432000 * 73 / 14 / 2 / 16

/-- The revolutions: for each two successive index pulses the flux between them, and the time from the 32-bit counters. -/
def turns (F : List (Nat × Rat)) (ick : Rat) : List (Nat × Nat) → List (List Rat × Rat)
  | [] => []
  | [_] => []
  | x :: y :: l =>
    ((F.filter fun z => x.1 ≤ z.1 ∧ z.1 < y.1).map Prod.snd, (((y.2 + 2 ^ 32 - x.2) % 2 ^ 32 : Nat) : Rat) / ick) ::
      turns F ick (y :: l)

/-- The index clock that a stream tells last, or the usual one. -/
def ickOf (items : List Item) : Rat :=
  items.foldl (fun c i => match i with | .clocks _ _ x _ => x.value | _ => c) usualIck

/-- The revolutions that a stream describes. -/
def revolutions (items : List Item) : List (List Rat × Rat) :=
  turns (fluxes 0 0 usualSck items) (ickOf items) (pulses items)

/-- A stream that can be cut up: good items, two index pulses at least, each at the start of an item, in order. -/
structure Good (is : List Item) : Prop where
  items : ∀ i ∈ is, i.Good
  two : 2 ≤ (pulses is).length
  ordered : ((pulses is).map Prod.fst).Pairwise (· < ·)
  begins : ∀ x ∈ pulses is, x.1 ∈ starts 0 is

/-- Neither overflows nor flux times of three bytes. -/
def Plain (is : List Item) : Prop := ∀ i ∈ is, match i with | .flux3 _ => False | .overflow => False | _ => True

end KryoFile
end Spec
end Fox
