import Verif.Model.BitRing
/-
Model of src/bitstream_codec/mfm.rs (and the marker type of src/bitstream_codec/mod.rs).
-/
namespace Fox

/-- `MFM_BYTE_LEN` (src/bitstream_codec/mfm.rs:44). -/
def mfmByteLen : Nat := 16

/-- The bit loop of `MfmCodec::encode` for `EncodingVariant::Data`
(src/bitstream_codec/mfm.rs:374-397).  `prev` is "the last cell pushed so far", which is the last
data bit, or the caller's `prev_bit` when nothing has been pushed yet. -/
def encodeBits (prev : Bool) : List Bool → List Bool
  | [] => []
  | true :: bs => false :: true :: encodeBits true bs
  | false :: bs => (!prev) :: false :: encodeBits false bs

/-- `MfmCodec::encode(data, prev_bit, EncodingVariant::Data)` (src/bitstream_codec/mfm.rs:369-415). -/
def encode (data : List Byte) (prev : Bool) : List Bool := encodeBits prev (bitsOf data)

/-- One byte of `MfmCodec::encode(.., EncodingVariant::AddressMark)`: as `Data`, then the clock cell
of the fourth bit is cleared (src/bitstream_codec/mfm.rs:399-407). -/
def encodeMarkByte (prev : Bool) (b : Byte) : List Bool := (encodeBits prev (byteBits b)).set 6 false

/-- `MfmCodec::encode(data, prev_bit, EncodingVariant::AddressMark)`. -/
def encodeMark (prev : Bool) : List Byte → List Bool
  | [] => []
  | b :: bs => encodeMarkByte prev b ++ encodeMark (b.getLsbD 0) bs

/-- Bit loop of `MfmCodec::encode_marker` (src/bitstream_codec/mfm.rs:552-580): the same cells shifted
into a `u64`. -/
def encodeMarker (data : List Byte) : BitVec 64 := shiftIn 64 0 (encodeBits false (bitsOf data))

/-- `MarkerEncoding` (src/bitstream_codec/mod.rs:42-56). -/
structure MarkerEnc where
  bits : BitVec 64 := 0
  mask : BitVec 64 := BitVec.allOnes 64
  len : Nat := 64

/-- `MfmCodec` (src/bitstream_codec/mfm.rs:58-69).  `error_map`, `initial_phase`, `track_padding`
and the two visualisation range sets are not part of this record; the range sets are modelled in
`Verif.Model.RangeCheck`. -/
structure Mfm where
  bits : BitRing
  clockMap : BitRing
  weakEnabled : Bool := true
  weakMask : BitRing
  cursor : Nat := 0

namespace Mfm

/-- `len` (src/bitstream_codec/mfm.rs:104-106). -/
def len (s : Mfm) : Nat := s.bits.len

/-- `replace` (src/bitstream_codec/mfm.rs:112-114): only the bits are replaced; the clock map and the
weak mask keep their old contents and length. -/
def replace (s : Mfm) (bits : List Bool) : Mfm := { s with bits := BitRing.ofBits bits }

/-- One data cell: random when weak (src/bitstream_codec/mfm.rs:255-261).  `rnd i` is the value
`rand::random()` returns when cell `i` is read. -/
def cell (s : Mfm) (rnd : Nat → Bool) (i : Nat) : Bool :=
  if s.weakEnabled && !s.weakMask.bits.isEmpty && s.weakMask.bitAt i then rnd i else s.bits.bitAt i

/-- Clock adjustment `if !clock_map[c] && clock_map[c + 1] { c += 1 }`
(src/bitstream_codec/mfm.rs:247-249, 344-346, 724-727, 758-761). -/
def nudge (s : Mfm) (i : Nat) : Nat :=
  if !s.clockMap.bitAt i && s.clockMap.bitAt (i + 1) then i + 1 else i

/-- `read_decoded_u8` (src/bitstream_codec/mfm.rs:240-267). -/
def readDecodedU8 (s : Mfm) (rnd : Nat → Bool) (index : Nat) : Byte :=
  let c := s.nudge index + 1
  byteOfBits ((List.range 8).map fun k => s.cell rnd (c + 2 * k))

/-- `read_decoded_buf` into a buffer of `n` bytes (src/bitstream_codec/mfm.rs:321-328). -/
def readDecodedBuf (s : Mfm) (rnd : Nat → Bool) (n offset : Nat) : List Byte :=
  (List.range n).map fun i => s.readDecodedU8 rnd (offset + i * 16)

/-- `read_raw_u8` (src/bitstream_codec/mfm.rs:215-221). -/
def readRawU8 (s : Mfm) (index : Nat) : Byte :=
  byteOfBits ((List.range 8).map fun k => s.bits.bitAt (index + k))

/-- `read_raw_buf` (src/bitstream_codec/mfm.rs:223-230). -/
def readRawBuf (s : Mfm) (n offset : Nat) : List Byte :=
  (List.range n).map fun i => s.readRawU8 (offset + i * 8)

/-- `write_raw_buf` (src/bitstream_codec/mfm.rs:356-367). -/
def writeRawBuf (s : Mfm) (buf : List Byte) (offset : Nat) : Mfm :=
  { s with bits := s.bits.setMany offset (bitsOf buf) }

/-- `write_encoded_buf` (src/bitstream_codec/mfm.rs:330-354). -/
def writeEncodedBuf (s : Mfm) (buf : List Byte) (offset : Nat) : Mfm :=
  { s with bits := s.bits.setMany (s.nudge offset) (encode buf false) }

/-- `Iterator::next` (src/bitstream_codec/mfm.rs:717-741): the decoded bit at the cursor. The weak
mask is indexed without the emptiness test here; the model's `cell` agrees with it on a non-empty
mask (an empty mask would panic). -/
def next (s : Mfm) (rnd : Nat → Bool) : Bool × Mfm :=
  let c := s.nudge s.cursor
  (s.cell rnd (c + 1), { s with cursor := c + 2 })

/-- Eight calls of `next` (src/bitstream_codec/mfm.rs:776-783). -/
def nextBits (s : Mfm) (rnd : Nat → Bool) : Nat → List Bool × Mfm
  | 0 => ([], s)
  | k + 1 =>
    let (b, s1) := s.next rnd
    let (bs, s2) := nextBits s1 rnd k
    (b :: bs, s2)

/-- `Read::read` (src/bitstream_codec/mfm.rs:768-789) into a buffer of `n` bytes; `read_exact` is
one such call because `read` always fills the buffer. -/
def readBytes (s : Mfm) (rnd : Nat → Bool) : Nat → List Byte × Mfm
  | 0 => ([], s)
  | k + 1 =>
    let (bs, s1) := s.nextBits rnd 8
    let (rest, s2) := readBytes s1 rnd k
    (byteOfBits bs :: rest, s2)

/-- `Seek::seek(SeekFrom::Start(pos))` (src/bitstream_codec/mfm.rs:743-766). -/
def seekStart (s : Mfm) (pos : Nat) : Mfm := { s with cursor := s.nudge pos }

/-- The loop of `find_marker` (src/bitstream_codec/mfm.rs:433-439); `fuel` is the number of
remaining iterations.  The Rust expression is `(bi - marker.len) + 1`: for a match ending at
`bi = marker.len - 1` it wraps around to 0 in a release build (modelled here) and panics when overflow
checks are on (`findMarkerPanics`). -/
def findMarkerLoop (ring : BitRing) (m : MarkerEnc) :
    Nat → Nat → BitVec 64 → Nat → Option (Nat × BitVec 16)
  | 0, _, _, _ => none
  | fuel + 1, bi, reg, ct =>
    let reg := (reg <<< 1) ||| (BitVec.ofBool (ring.bitAt bi)).setWidth 64
    let ct := ct + 1
    if ct ≥ 64 ∧ reg &&& m.mask = m.bits then some (bi + 1 - m.len, reg.setWidth 16)
    else findMarkerLoop ring m fuel (bi + 1) reg ct

/-- `find_marker` (src/bitstream_codec/mfm.rs:417-442). -/
def findMarker (s : Mfm) (m : MarkerEnc) (start : Nat) (limit : Option Nat) :
    Option (Nat × BitVec 16) :=
  if s.bits.bits.isEmpty then none
  else
    let lim := match limit with
      | some l => min l s.bits.len
      | none => s.bits.len
    findMarkerLoop s.bits m (lim - start) start 0 0

/-- With overflow checks on, `find_marker` panics exactly when the match it is about to report ends at
a bit index below `marker.len` (src/bitstream_codec/mfm.rs:437). -/
def findMarkerPanics (s : Mfm) (m : MarkerEnc) (start : Nat) (limit : Option Nat) : Prop :=
  ∃ w, s.findMarker m start limit = some (0, w)

/-- `find_sync` (src/bitstream_codec/mfm.rs:85-96), loop over the cells after `start_idx`. -/
def findSyncLoop : List Bool → Nat → BitVec 32 → Option Nat
  | [], _, _ => none
  | b :: bs, i, reg =>
    let reg := (reg <<< 1) ||| (BitVec.ofBool b).setWidth 32
    if i ≥ 32 ∧ reg = 0xAAAAAAAA#32 then some (i - 32) else findSyncLoop bs (i + 1) reg

/-- `get_mfm_sync_offset` (src/bitstream_codec/mfm.rs:71-83). -/
def syncPhase (bits : List Bool) : Option Bool :=
  (findSyncLoop bits 0 0).map fun o => o % 2 != 0

/-- `MfmCodec::new` (src/bitstream_codec/mfm.rs:491-534).  Panics when the weak mask is shorter than
the (truncated) bits. -/
def new (bits : List Bool) (bitCt : Option Nat) (weak : Option (List Bool)) : Except Err Mfm :=
  let bits := match bitCt with | some n => bits.take n | none => bits
  let sync := (syncPhase bits).getD false
  let weak := weak.getD (List.replicate bits.length false)
  if weak.length < bits.length then .error .panic
  else .ok {
    bits := BitRing.ofBits bits
    clockMap := { (BitRing.ofBits (List.replicate bits.length sync)) with wrapValue := some false }
    weakMask := BitRing.ofBits weak
    cursor := if sync then 1 else 0 }

/-- Loop of `create_weak_bit_mask` (src/bitstream_codec/mfm.rs:660-688). -/
def weakMaskLoop (run : Nat) : Nat → List Bool → List Bool
  | _, [] => []
  | zeros, b :: bs =>
    let z := if b then 0 else zeros + 1
    decide (z > run) :: weakMaskLoop run z bs

/-- `create_weak_bit_mask` (src/bitstream_codec/mfm.rs:660-688): one revolution of the ring. -/
def createWeakBitMask (s : Mfm) (run : Nat) : List Bool := weakMaskLoop run 0 s.bits.bits

/-- `detect_weak_bits` region/bit counters (src/bitstream_codec/mfm.rs:605-627). -/
def detectWeakLoop (run : Nat) : Nat → Nat → Nat → List Bool → Nat × Nat
  | regions, weak, _, [] => (regions, weak)
  | regions, weak, zeros, b :: bs =>
    let regions := if b ∧ zeros ≥ run then regions + 1 else regions
    let z := if b then 0 else zeros + 1
    let weak := if z > 3 then weak + 1 else weak
    detectWeakLoop run regions weak z bs

/-- `create_error_map` (src/bitstream_codec/mfm.rs:691-714). -/
def errorMapLoop : Nat → Bool → List Bool → List Bool
  | _, _, [] => []
  | zeros, bad, b :: bs =>
    if b then
      let bad := if zeros < 4 then false else bad
      bad :: errorMapLoop 0 bad bs
    else
      let z := zeros + 1
      let bad := if z > 3 then true else bad
      bad :: errorMapLoop z bad bs

end Mfm
end Fox
