import Verif.Spec.Crc
/-
Independent specification of CRC-32 (CRC-32/ISO-HDLC, the CRC of zip and Ethernet): a bit-serial linear feedback shift
register for the generator x^32 + x^26 + x^23 + x^22 + x^16 + x^12 + x^11 + x^10 + x^8 + x^7 + x^5 + x^4 + x^2 + x + 1, fed
with the least significant bit of each byte first, starting from all ones; the result is inverted.  The register is kept
reflected: its least significant bit is the coefficient of x^31.
-/
namespace Fox.Spec

/-- The bits of a byte string, the least significant bit of each byte first. -/
def lsbBits (bytes : List Byte) : List Bool := bytes.flatMap fun b => (List.range 8).map b.getLsbD

/-- The exponents below 32 of the generator. -/
def crc32Taps : List Nat := [26, 23, 22, 16, 12, 11, 10, 8, 7, 5, 4, 2, 1, 0]

/-- Coefficient `k` of the register is its bit `31 - k`. -/
def coeff (c : BitVec 32) (k : Nat) : Bool := k < 32 && c.getLsbD (31 - k)

/-- The register after one message bit: it is multiplied by x and reduced by the generator, the message bit being added to
the coefficient that leaves it. -/
def Lfsr32 (c : BitVec 32) (b : Bool) (d : BitVec 32) : Prop :=
  ∀ k < 32, coeff d k = ((decide (0 < k) && coeff c (k - 1)) ^^ ((coeff c 31 ^^ b) && decide (k ∈ crc32Taps)))

/-- `d` is what the bits make of the register `c`. -/
def Fed32 (c : BitVec 32) : List Bool → BitVec 32 → Prop
  | [], d => d = c
  | b :: bs, d => ∃ e, Lfsr32 c b e ∧ Fed32 e bs d

/-- `x` is the CRC-32 of the bytes. -/
def IsCrc32 (bytes : List Byte) (x : BitVec 32) : Prop := Fed32 (BitVec.allOnes 32) (lsbBits bytes) (~~~ x)

end Fox.Spec
