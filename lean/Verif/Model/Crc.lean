import Verif.Model.Basic
/-
Model of the CRC routines in src/util.rs:85-124.
-/
namespace Fox

/-- One bit of the shift loop: `if (crc & 0x8000) != 0 { crc = (crc << 1) ^ 0x1021 } else { crc <<= 1 }`
(src/util.rs:96-101 and 115-120; the mask is tested `!= 0`). -/
def crcBit (crc : BitVec 16) : BitVec 16 :=
  if crc.getMsbD 0 then (crc <<< 1) ^^^ 0x1021#16 else crc <<< 1

/-- One byte: XOR into the high byte, then eight shift steps: the loop body of `crc_ibm_3740`
(src/util.rs:92-102). -/
def crcByte (crc : BitVec 16) (b : Byte) : BitVec 16 :=
  let c := crc ^^^ ((b.setWidth 16) <<< 8)
  crcBit (crcBit (crcBit (crcBit (crcBit (crcBit (crcBit (crcBit c)))))))

/-- `crc_ibm_3740(data, start)` (src/util.rs:89-104): the initial value is `start` or 0xFFFF. -/
def crc3740 (data : List Byte) (start : Option (BitVec 16) := none) : BitVec 16 :=
  data.foldl crcByte (start.getD 0xFFFF#16)

/-- The loop `for _ in 0..k` of `crc_ibm_3740_byte` (src/util.rs:115-122). -/
def crcShift : Nat → BitVec 16 → BitVec 16
  | 0, c => c
  | k + 1, c => crcShift k (crcBit c)

/-- `crc_ibm_3740_byte(byte, crc)` (src/util.rs:110-124). -/
def crc3740Byte (byte : Byte) (crc : BitVec 16) : BitVec 16 :=
  crcShift 8 (crc ^^^ ((byte.setWidth 16) <<< 8))

end Fox
