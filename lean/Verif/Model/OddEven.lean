import Verif.Model.Basic
/-
Model of src/track_schema/meta_encoding/odd_even.rs.
-/
namespace Fox.OddEven

/-- src/track_schema/meta_encoding/odd_even.rs:76-93 `odd_even_decode_u8_pair`. -/
def decodeU8Pair (o e : Byte) : Byte × Byte :=
  let o0 : BitVec 16 := o.setWidth 16 <<< 8
  let e0 : BitVec 16 := e.setWidth 16
  let e1 := (e0 ||| (e0 <<< 4)) &&& 0x0F0F#16
  let e2 := (e1 ||| (e1 <<< 2)) &&& 0x3333#16
  let e3 := (e2 ||| (e2 <<< 1)) &&& 0x5555#16
  let o1 := (o0 ||| (o0 >>> 4)) &&& 0xF0F0#16
  let o2 := (o1 ||| (o1 >>> 2)) &&& 0xCCCC#16
  let o3 := (o2 ||| (o2 >>> 1)) &&& 0xAAAA#16
  let w := o3 ||| e3
  ((w >>> 8).setWidth 8, w.setWidth 8)

/-- odd_even.rs:95-113 `odd_even_encode_u8_pair`. -/
def encodeU8Pair (x y : Byte) : Byte × Byte :=
  let w : BitVec 16 := (x.setWidth 16 <<< 8) ||| y.setWidth 16
  let e0 := w &&& 0x5555#16
  let o0 := (w &&& 0xAAAA#16) >>> 1
  let e1 := (e0 ||| (e0 >>> 1)) &&& 0x3333#16
  let e2 := (e1 ||| (e1 >>> 2)) &&& 0x0F0F#16
  let e3 := (e2 ||| (e2 >>> 4)) &&& 0x00FF#16
  let o1 := (o0 ||| (o0 <<< 1)) &&& 0xCCCC#16
  let o2 := (o1 ||| (o1 <<< 2)) &&& 0xF0F0#16
  let o3 := (o2 ||| (o2 <<< 4)) &&& 0xFF00#16
  ((o3 >>> 8).setWidth 8, e3.setWidth 8)

/-- odd_even.rs:117-138 `odd_even_decode_u32_pair`. -/
def decodeU32Pair (o e : BitVec 32) : BitVec 32 × BitVec 32 :=
  let o0 : BitVec 64 := o.setWidth 64 <<< 32
  let e0 : BitVec 64 := e.setWidth 64
  let e1 := (e0 ||| (e0 <<< 16)) &&& 0x0000FFFF0000FFFF#64
  let e2 := (e1 ||| (e1 <<< 8)) &&& 0x00FF00FF00FF00FF#64
  let e3 := (e2 ||| (e2 <<< 4)) &&& 0x0F0F0F0F0F0F0F0F#64
  let e4 := (e3 ||| (e3 <<< 2)) &&& 0x3333333333333333#64
  let e5 := (e4 ||| (e4 <<< 1)) &&& 0x5555555555555555#64
  let o1 := (o0 ||| (o0 >>> 16)) &&& 0xFFFF0000FFFF0000#64
  let o2 := (o1 ||| (o1 >>> 8)) &&& 0xFF00FF00FF00FF00#64
  let o3 := (o2 ||| (o2 >>> 4)) &&& 0xF0F0F0F0F0F0F0F0#64
  let o4 := (o3 ||| (o3 >>> 2)) &&& 0xCCCCCCCCCCCCCCCC#64
  let o5 := (o4 ||| (o4 >>> 1)) &&& 0xAAAAAAAAAAAAAAAA#64
  let w := o5 ||| e5
  ((w >>> 32).setWidth 32, w.setWidth 32)

/-- odd_even.rs:140-162 `odd_even_encode_u32_pair`. -/
def encodeU32Pair (x y : BitVec 32) : BitVec 32 × BitVec 32 :=
  let w : BitVec 64 := (x.setWidth 64 <<< 32) ||| y.setWidth 64
  let e0 := w &&& 0x5555555555555555#64
  let o0 := (w &&& 0xAAAAAAAAAAAAAAAA#64) >>> 1
  let e1 := (e0 ||| (e0 >>> 1)) &&& 0x3333333333333333#64
  let e2 := (e1 ||| (e1 >>> 2)) &&& 0x0F0F0F0F0F0F0F0F#64
  let e3 := (e2 ||| (e2 >>> 4)) &&& 0x00FF00FF00FF00FF#64
  let e4 := (e3 ||| (e3 >>> 8)) &&& 0x0000FFFF0000FFFF#64
  let e5 := (e4 ||| (e4 >>> 16)) &&& 0x00000000FFFFFFFF#64
  let o1 := (o0 ||| (o0 <<< 1)) &&& 0xCCCCCCCCCCCCCCCC#64
  let o2 := (o1 ||| (o1 <<< 2)) &&& 0xF0F0F0F0F0F0F0F0#64
  let o3 := (o2 ||| (o2 <<< 4)) &&& 0xFF00FF00FF00FF00#64
  let o4 := (o3 ||| (o3 <<< 8)) &&& 0xFFFF0000FFFF0000#64
  let o5 := (o4 ||| (o4 <<< 16)) &&& 0xFFFFFFFF00000000#64
  ((o5 >>> 32).setWidth 32, e5.setWidth 32)

/-- odd_even.rs:164-182 `odd_even_decode_u32`. -/
def decodeU32 (x : BitVec 32) : BitVec 32 :=
  let o0 := x &&& 0xFFFF0000#32
  let e0 := x &&& 0x0000FFFF#32
  let e1 := (e0 ||| (e0 <<< 8)) &&& 0x00FF00FF#32
  let e2 := (e1 ||| (e1 <<< 4)) &&& 0x0F0F0F0F#32
  let e3 := (e2 ||| (e2 <<< 2)) &&& 0x33333333#32
  let e4 := (e3 ||| (e3 <<< 1)) &&& 0x55555555#32
  let o1 := (o0 ||| (o0 >>> 8)) &&& 0xFF00FF00#32
  let o2 := (o1 ||| (o1 >>> 4)) &&& 0xF0F0F0F0#32
  let o3 := (o2 ||| (o2 >>> 2)) &&& 0xCCCCCCCC#32
  let o4 := (o3 ||| (o3 >>> 1)) &&& 0xAAAAAAAA#32
  o4 ||| e4

/-- odd_even.rs:185-204 `odd_even_encode_u32`. -/
def encodeU32 (x : BitVec 32) : BitVec 32 :=
  let e0 := x &&& 0x55555555#32
  let o0 := (x &&& 0xAAAAAAAA#32) >>> 1
  let e1 := (e0 ||| (e0 >>> 1)) &&& 0x33333333#32
  let e2 := (e1 ||| (e1 >>> 2)) &&& 0x0F0F0F0F#32
  let e3 := (e2 ||| (e2 >>> 4)) &&& 0x00FF00FF#32
  let e4 := (e3 ||| (e3 >>> 8)) &&& 0x0000FFFF#32
  let o1 := (o0 ||| (o0 <<< 1)) &&& 0xCCCCCCCC#32
  let o2 := (o1 ||| (o1 <<< 2)) &&& 0xF0F0F0F0#32
  let o3 := (o2 ||| (o2 <<< 4)) &&& 0xFF00FF00#32
  let o4 := (o3 ||| (o3 <<< 8)) &&& 0xFFFF0000#32
  o4 ||| e4

/-- `u32::to_be_bytes`. -/
def be32 (x : BitVec 32) : List Byte :=
  [x.extractLsb' 24 8, x.extractLsb' 16 8, x.extractLsb' 8 8, x.extractLsb' 0 8]

/-- `u32::from_be_bytes`. -/
def ofBe32 (a b c d : Byte) : BitVec 32 := a ++ b ++ c ++ d

/-- odd_even.rs:59-74 `odd_even_decode_raw_u32_from_slice`. -/
def decodeRawU32 : List Byte → BitVec 32
  | b0 :: b1 :: b2 :: b3 :: b4 :: b5 :: b6 :: b7 :: _ =>
    ((ofBe32 b0 b1 b2 b3 &&& 0x55555555#32) <<< 1) ||| (ofBe32 b4 b5 b6 b7 &&& 0x55555555#32)
  | _ => 0

/-- odd_even.rs:249-267 `odd_even_encode_mfm_u32`: overwrite the first eight bytes of the buffer. -/
def encodeMfmU32 (value : BitVec 32) (bytes : List Byte) : List Byte :=
  if bytes.length < 8 then bytes
  else be32 ((value >>> 1) &&& 0x55555555#32) ++ be32 (value &&& 0x55555555#32) ++ bytes.drop 8

/-- odd_even.rs:272-290 `odd_even_encode_fm_u32`. -/
def encodeFmU32 (value : BitVec 32) (bytes : List Byte) : List Byte :=
  if bytes.length < 8 then bytes
  else be32 (((value >>> 1) &&& 0x55555555#32) ||| 0xAAAAAAAA#32) ++
    be32 ((value &&& 0x55555555#32) ||| 0xAAAAAAAA#32) ++ bytes.drop 8

/-- `dst.chunks_exact_mut(2)` zipped with a list of pairs: the first pairs overwrite the leading two-element
chunks, the rest of `dst` (and an odd last element) is untouched. -/
def putPairs {α : Type} : List (α × α) → List α → List α
  | (a, b) :: ps, _ :: _ :: dst => a :: b :: putPairs ps dst
  | _, dst => dst

/-- `src.chunks_exact(2)`: the leading pairs; an odd last element is dropped. -/
def getPairs {α : Type} : List α → List (α × α)
  | a :: b :: rest => (a, b) :: getPairs rest
  | _ => []

/-- Overwrite the head of `dst` with `xs`, as far as both go (`iter_mut().zip(..)`). -/
def overwrite {α : Type} : List α → List α → List α
  | x :: xs, _ :: dst => x :: overwrite xs dst
  | _, dst => dst

/-- The common shape of the two decoders of buffers (odd_even.rs:208-213 and 228-233): split the source in
halves, decode element pairs, store two elements each. -/
def decodeBuf {α : Type} (pair : α → α → α × α) (src dst : List α) : List α :=
  let n := src.length / 2
  putPairs (((src.take n).zip (src.drop n)).map fun p => pair p.1 p.2) dst

/-- The common shape of the two encoders of buffers (odd_even.rs:217-224 and 237-244): `split_at_mut` panics
when the split point is beyond the destination. -/
def encodeBuf {α : Type} (pair : α → α → α × α) (src dst : List α) : Except Err (List α) :=
  let n := src.length / 2
  if n > dst.length then .error .panic
  else
    let odds := dst.take n
    let evens := dst.drop n
    let k := min (min odds.length evens.length) (getPairs src).length
    let enc := ((getPairs src).take k).map fun p => pair p.1 p.2
    .ok (overwrite (enc.map (·.1)) odds ++ overwrite (enc.map (·.2)) evens)

/-- odd_even.rs:208-213 `odd_even_decode_u8_buf`. -/
def decodeU8Buf (src dst : List Byte) : List Byte := decodeBuf decodeU8Pair src dst
/-- odd_even.rs:217-224 `odd_even_encode_u8_buf`. -/
def encodeU8Buf (src dst : List Byte) : Except Err (List Byte) := encodeBuf encodeU8Pair src dst
/-- odd_even.rs:228-233 `odd_even_decode_u32_buf`. -/
def decodeU32Buf (src dst : List (BitVec 32)) : List (BitVec 32) := decodeBuf decodeU32Pair src dst
/-- odd_even.rs:237-244 `odd_even_encode_u32_buf`. -/
def encodeU32Buf (src dst : List (BitVec 32)) : Except Err (List (BitVec 32)) := encodeBuf encodeU32Pair src dst

end Fox.OddEven
