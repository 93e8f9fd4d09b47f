import Verif.Model.Basic
/-
Model of src/bit_ring/mod.rs.
-/
namespace Fox

/-- `BitRing` (src/bit_ring/mod.rs:75-81). -/
structure BitRing where
  bits : List Bool
  wrap : Nat
  cursor : Nat := 0
  wrapValue : Option Bool := none
  deriving DecidableEq, Repr

namespace BitRing

/-- `From<BitVec>` (src/bit_ring/mod.rs:84-94). -/
def ofBits (bits : List Bool) : BitRing := { bits, wrap := bits.length }

/-- `From<&[u8]>` (src/bit_ring/mod.rs:97-108). -/
def ofBytes (bytes : List Byte) : BitRing := ofBits (bitsOf bytes)

/-- `from_elem` (src/bit_ring/mod.rs:138-145). -/
def fromElem (len : Nat) (b : Bool) : BitRing := ofBits (List.replicate len b)

/-- `len` (src/bit_ring/mod.rs:149-151). -/
def len (r : BitRing) : Nat := r.bits.length

/-- `set_wrap` (src/bit_ring/mod.rs:196-198). -/
def setWrap (r : BitRing) (n : Nat) : BitRing := { r with wrap := min n r.bits.length }

/-- `set_wrap_value` (src/bit_ring/mod.rs:202-204). -/
def setWrapValue (r : BitRing) (v : Option Bool) : BitRing := { r with wrapValue := v }

/-- `Index::index` (src/bit_ring/mod.rs:245-261) with its panics (out of bounds, modulo zero). -/
def index (r : BitRing) (i : Nat) : Except Err Bool :=
  if i < r.wrap then
    if i < r.bits.length then .ok (r.bits.getD i false) else .error .panic
  else match r.wrapValue with
    | some v => .ok v
    | none =>
      if r.wrap = 0 then .error .panic
      else if i % r.wrap < r.bits.length then .ok (r.bits.getD (i % r.wrap) false)
      else .error .panic

/-- `Index::index` as a total function: agrees with `index` whenever that does not panic
(`BitRing.index_eq_bitAt`); `false` where the Rust code would panic. -/
def bitAt (r : BitRing) (i : Nat) : Bool :=
  if i < r.wrap then r.bits.getD i false
  else match r.wrapValue with
    | some v => v
    | none => r.bits.getD (i % r.wrap) false

/-- `set` (src/bit_ring/mod.rs:185-192).  Out-of-range writes (a panic in Rust) leave the list
unchanged; they cannot happen while `0 < wrap ≤ len`. -/
def set (r : BitRing) (i : Nat) (b : Bool) : BitRing :=
  if i < r.wrap then { r with bits := r.bits.set i b }
  else { r with bits := r.bits.set (i % r.wrap) b }

/-- Write consecutive bits starting at position `off`:
`for (i, bit) in buf { bits.set(off + i, bit) }`
(src/bitstream_codec/mfm.rs:348-351, 358-363). -/
def setMany (r : BitRing) (off : Nat) : List Bool → BitRing
  | [] => r
  | b :: bs => setMany (r.set off b) (off + 1) bs

/-- `incr_cursor` / `wrap_cursor` (src/bit_ring/mod.rs:207-217). -/
def incrCursor (r : BitRing) : BitRing := { r with cursor := (r.cursor + 1) % r.wrap }

/-- `Iterator::next` (src/bit_ring/mod.rs:220-227): never ends; panics when the cursor is outside
the bits (only possible for an empty ring or a cursor moved there before `set_wrap`). -/
def next (r : BitRing) : Except Err (Bool × BitRing) :=
  if r.cursor < r.bits.length ∧ r.wrap ≠ 0 then .ok (r.bits.getD r.cursor false, r.incrCursor)
  else .error .panic

/-- Take `k` bits from the iterator (the inner loop of `Read::read`, src/bit_ring/mod.rs:229-243). -/
def takeBits (r : BitRing) : Nat → Except Err (List Bool × BitRing)
  | 0 => .ok ([], r)
  | k + 1 => do
    let (b, r) ← r.next
    let (bs, r) ← takeBits r k
    return (b :: bs, r)

/-- `Read::read` into a buffer of `k` bytes (src/bit_ring/mod.rs:229-243). -/
def read (r : BitRing) : Nat → Except Err (List Byte × BitRing)
  | 0 => .ok ([], r)
  | k + 1 => do
    let (bs, r) ← r.takeBits 8
    let (rest, r) ← read r k
    return (byteOfBits bs :: rest, r)

/-- `BitRingIter::next` (src/bit_ring/mod.rs:46-60): `limit = none` is `iter()`,
`limit = some wrap` is `iter_revolution()`. `.ok none` = end of iteration. -/
def iterNext (r : BitRing) (limit : Option Nat) (cursor : Nat) : Except Err (Option (Bool × Nat)) :=
  if (match limit with | some l => decide (cursor ≥ l) | none => false) then .ok none
  else if cursor < r.bits.length then .ok (some (r.bits.getD cursor false, cursor + 1))
  else .error .panic

end BitRing
end Fox
