/-
Basic types shared by the whole model.

Citations are to files of /repo at the pinned commit (dbalsom/fluxfox).
-/
namespace Fox

/-- A byte (`u8`). -/
abbrev Byte := BitVec 8

/-- The bits of a byte, most significant first.  Models the loops
`for i in 0..8 { byte & (0x80 >> i) != 0 }` (src/bitstream_codec/mfm.rs:374-376, 360-361). -/
def byteBits (b : Byte) : List Bool :=
  [b.getMsbD 0, b.getMsbD 1, b.getMsbD 2, b.getMsbD 3,
   b.getMsbD 4, b.getMsbD 5, b.getMsbD 6, b.getMsbD 7]

/-- Shift bits into a register, most significant bit first: the loop
`acc = (acc << 1) | bit` used by every reader
(src/bitstream_codec/mfm.rs:216-219, 254-265, 776-779; src/bit_ring/mod.rs:233-237). -/
def shiftIn (w : Nat) (acc : BitVec w) (bs : List Bool) : BitVec w :=
  bs.foldl (fun a b => (a <<< 1) ||| (BitVec.ofBool b).setWidth w) acc

/-- A byte assembled from bits, most significant first. -/
def byteOfBits (bs : List Bool) : Byte := shiftIn 8 0 bs

/-- All bits of a byte string, most significant first, in order. -/
def bitsOf (bytes : List Byte) : List Bool := bytes.flatMap byteBits

/-- Errors of the modelled API.  `panic` stands for any Rust panic. -/
inductive Err where
  | panic
  | parameter
  | schema
  | unsupported
  | seek
  | incompatible
  | uniqueId
  | dataError
  | unknownFormat
  | idError
  | io
  | formatParse
  | crcError
  | corrupt
  deriving DecidableEq, Repr

/-- `u16::to_be_bytes`. -/
def be16 (x : BitVec 16) : List Byte := [x.extractLsb' 8 8, x.extractLsb' 0 8]

/-- `u16::from_be_bytes`. -/
def ofBe16 (hi lo : Byte) : BitVec 16 := hi ++ lo

/-- `u64::to_be_bytes`. -/
def be64 (x : BitVec 64) : List Byte :=
  [x.extractLsb' 56 8, x.extractLsb' 48 8, x.extractLsb' 40 8, x.extractLsb' 32 8,
   x.extractLsb' 24 8, x.extractLsb' 16 8, x.extractLsb' 8 8, x.extractLsb' 0 8]

end Fox
