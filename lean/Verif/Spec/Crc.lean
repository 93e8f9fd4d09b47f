import Verif.Model.Basic
/-
Independent specification of CRC-16/IBM-3740: a bit-serial linear feedback shift register for the
generator x^16 + x^12 + x^5 + 1, fed most significant bit first, starting from all ones.
-/
namespace Fox.Spec

/-- Feed one message bit: the feedback bit is the bit leaving the register XOR the message bit. -/
def lfsr (c : BitVec 16) (b : Bool) : BitVec 16 :=
  (c <<< 1) ^^^ (if c.getMsbD 0 ^^ b then 0x1021#16 else 0#16)

/-- Register after a bit string. -/
def crcOfBits (seed : BitVec 16) (bs : List Bool) : BitVec 16 := bs.foldl lfsr seed

/-- The two bit strings have equal length and differ only at positions `p ≤ i < p + w`. -/
def DifferOnlyWithin (p w : Nat) (a b : List Bool) : Prop :=
  a.length = b.length ∧ ∀ i, a[i]? ≠ b[i]? → p ≤ i ∧ i < p + w

/-- Number of positions at which two bit strings of equal length differ. -/
def hamming : List Bool → List Bool → Nat
  | a :: as, b :: bs => (if a = b then 0 else 1) + hamming as bs
  | _, _ => 0

end Fox.Spec
