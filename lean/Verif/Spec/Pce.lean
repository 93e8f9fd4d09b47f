import Verif.Model.Basic
/-
Independent specification of the CRC of PCE chunk files: a bit-serial shift register for the Castagnoli
generator x^32 + x^28 + x^27 + x^26 + x^25 + x^23 + x^22 + x^20 + x^19 + x^18 + x^14 + x^13 + x^11 + x^10 +
x^9 + x^8 + x^6 + 1, fed most significant bit first from an all-zero register.
-/
namespace Fox.Spec

/-- Exponents of the generator below 32. -/
def castagnoliExps : List Nat := [28, 27, 26, 25, 23, 22, 20, 19, 18, 14, 13, 11, 10, 9, 8, 6, 0]

/-- The feedback word. -/
def castagnoli : BitVec 32 := castagnoliExps.foldl (fun w e => w ^^^ (1#32 <<< e)) 0#32

/-- Feed one message bit. -/
def lfsr32 (c : BitVec 32) (b : Bool) : BitVec 32 :=
  (c <<< 1) ^^^ (if c.getMsbD 0 ^^ b then castagnoli else 0#32)

/-- Register after a bit string. -/
def crc32OfBits (seed : BitVec 32) (bs : List Bool) : BitVec 32 := bs.foldl lfsr32 seed

end Fox.Spec
