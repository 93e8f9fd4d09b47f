import Verif.Model.Basic
import Verif.Spec.Lzhuf
/-
Model of the LZHUF expander of TeleDisk 2.x images (src/file_parsers/compression/lzhuf/).

`Vec<usize>` is a list of naturals with checked access: an index out of range is `Err.panic`.  A loop that
could go on for ever carries fuel and ends in `Err.panic` when it runs out, so a theorem that excludes
`Err.panic` excludes hanging as well.  The compressor (`compress`, `AdaptiveHuffmanCoder`) is dead code in
the crate; only `encode_char` and `encode_position` are modelled.
-/
namespace Fox
namespace Lzhuf

/-- `v[i]` on a `Vec`. -/
def rd (l : List Nat) (i : Nat) : Except Err Nat :=
  match l[i]? with
  | some v => .ok v
  | none => .error .panic

/-- `v[i] = x` on a `Vec`. -/
def wr (l : List Nat) (i x : Nat) : Except Err (List Nat) :=
  if i < l.length then .ok (l.set i x) else .error .panic

/-- `AdaptiveHuffmanTree` (src/file_parsers/compression/lzhuf/adaptive_huff.rs:11-24).  `max_freq` is always
0x8000, `node_count` 2n-1 and `root` 2n-2. -/
structure Tree where
  n : Nat
  freq : List Nat
  parent : List Nat
  son : List Nat
  symb : List Nat
  deriving DecidableEq, Repr

/-- `node_count`. -/
abbrev Tree.count (t : Tree) : Nat := 2 * t.n - 1

/-- `root`. -/
abbrev Tree.root (t : Tree) : Nat := 2 * t.n - 2

/-- The leaves of `create` (src/file_parsers/compression/lzhuf/adaptive_huff.rs:99-116), for one symbol. -/
def createLeaf (t : Tree) (i : Nat) : Except Err Tree := do
  let freq ← wr t.freq i 1
  let son ← wr t.son i (i + t.count)
  let symb ← wr t.symb i i
  pure { t with freq := freq, son := son, symb := symb }

/-- The `while j <= root` loop of `create`
(src/file_parsers/compression/lzhuf/adaptive_huff.rs:123-132). -/
def createNodes : Nat → Tree → Nat → Nat → Except Err Tree
  | 0, _, _, _ => .error .panic
  | fuel + 1, t, i, j =>
    if j ≤ t.root then do
      let a ← rd t.freq i
      let b ← rd t.freq (i + 1)
      let freq ← wr t.freq j (a + b)
      let son ← wr t.son j i
      let parent ← wr t.parent i j
      let parent ← wr parent (i + 1) j
      createNodes fuel { t with freq := freq, son := son, parent := parent } (i + 2) (j + 1)
    else .ok t

/-- `AdaptiveHuffmanTree::create` (src/file_parsers/compression/lzhuf/adaptive_huff.rs:98-137). -/
def create (n : Nat) : Except Err Tree := do
  let t : Tree :=
    { n := n, freq := List.replicate (2 * n) 0, parent := List.replicate (2 * n - 1) 0,
      son := List.replicate (2 * n - 1) 0, symb := List.replicate n 0 }
  let t ← (List.range n).foldlM createLeaf t
  let t ← createNodes (n + 1) t 0 n
  let freq ← wr t.freq t.count 0xffff
  let parent ← wr t.parent t.root 0
  pure { t with freq := freq, parent := parent }

/-- One turn of the first loop of `rebuild_huff`: leaves are packed on the left with half their frequency
(src/file_parsers/compression/lzhuf/adaptive_huff.rs:142-149).  The state is `(j, freq, son)`. -/
def packLeaf (count : Nat) (st : Nat × List Nat × List Nat) (i : Nat) :
    Except Err (Nat × List Nat × List Nat) := do
  let s ← rd st.2.2 i
  if s ≥ count then do
    let f ← rd st.2.1 i
    let freq ← wr st.2.1 st.1 ((f + 1) / 2)
    let son ← wr st.2.2 st.1 s
    pure (st.1 + 1, freq, son)
  else pure st

/-- `while f < self.freq[k] { k -= 1 }` (src/file_parsers/compression/lzhuf/adaptive_huff.rs:163-166): the
last `k`; going below 0 panics. -/
def scanDown (freq : List Nat) (f : Nat) : Nat → Except Err Nat
  | 0 => do
    let v ← rd freq 0
    if f < v then .error .panic else .ok 0
  | k + 1 => do
    let v ← rd freq (k + 1)
    if f < v then scanDown freq f k else .ok (k + 1)

/-- `for kp in (k..k + l).rev() { v[kp + 1] = v[kp] }`
(src/file_parsers/compression/lzhuf/adaptive_huff.rs:170-172, 174-176). -/
def shiftUp (v : List Nat) (k : Nat) : Nat → Except Err (List Nat)
  | 0 => .ok v
  | l + 1 => do
    let x ← rd v (k + l)
    let v ← wr v (k + l + 1) x
    shiftUp v k l

/-- The second loop of `rebuild_huff` (src/file_parsers/compression/lzhuf/adaptive_huff.rs:152-181). -/
def connect (count : Nat) : Nat → List Nat → List Nat → Nat → Nat → Except Err (List Nat × List Nat)
  | 0, _, _, _, _ => .error .panic
  | fuel + 1, freq, son, i, j =>
    if j < count then do
      let a ← rd freq i
      let b ← rd freq (i + 1)
      let f := a + b
      let freq ← wr freq j f
      let k ← scanDown freq f (j - 1)
      let k := k + 1
      let l := (j - k) * 2
      let freq ← shiftUp freq k l
      let freq ← wr freq k f
      let son ← shiftUp son k l
      let son ← wr son k i
      connect count fuel freq son (i + 2) (j + 1)
    else .ok (freq, son)

/-- Point the sons, or the symbol, held in `s` at node `i`
(src/file_parsers/compression/lzhuf/adaptive_huff.rs:185-194, 222-229, 234-240). -/
def link (count : Nat) (parent symb : List Nat) (s i : Nat) : Except Err (List Nat × List Nat) :=
  if s ≥ count then do
    let symb ← wr symb (s - count) i
    pure (parent, symb)
  else do
    let parent ← wr parent s i
    let parent ← wr parent (s + 1) i
    pure (parent, symb)

/-- `rebuild_huff` (src/file_parsers/compression/lzhuf/adaptive_huff.rs:139-195). -/
def rebuild (t : Tree) : Except Err Tree := do
  let st ← (List.range t.count).foldlM (packLeaf t.count) (0, t.freq, t.son)
  let fs ← connect t.count (t.count + 1) st.2.1 st.2.2 0 t.n
  let ps ← (List.range t.count).foldlM (fun (ps : List Nat × List Nat) i => do
    let s ← rd fs.2 i
    link t.count ps.1 ps.2 s i) (t.parent, t.symb)
  pure { t with freq := fs.1, son := fs.2, parent := ps.1, symb := ps.2 }

/-- `while k > self.freq[l] { l += 1 }` (src/file_parsers/compression/lzhuf/adaptive_huff.rs:214-216). -/
def scanUp (freq : List Nat) (k : Nat) : Nat → Nat → Except Err Nat
  | 0, _ => .error .panic
  | fuel + 1, l => do
    let v ← rd freq l
    if k > v then scanUp freq k fuel (l + 1) else .ok l

/-- One turn of the loop of `update`: raise the frequency of node `c` and keep the nodes sorted; the new place
of the node (src/file_parsers/compression/lzhuf/adaptive_huff.rs:207-244). -/
def raise (t : Tree) (c : Nat) : Except Err (Tree × Nat) := do
  let v ← rd t.freq c
  let k := v + 1
  let freq ← wr t.freq c k
  let next ← rd freq (c + 1)
  if k > next then do
    let l ← scanUp freq k (freq.length + 1) (c + 1)
    let l := l - 1
    let x ← rd freq l
    let freq ← wr freq c x
    let freq ← wr freq l k
    let i ← rd t.son c
    let ps ← link t.count t.parent t.symb i l
    let j ← rd t.son l
    let son ← wr t.son l i
    let ps ← link t.count ps.1 ps.2 j c
    let son ← wr son c j
    pure ({ t with freq := freq, son := son, parent := ps.1, symb := ps.2 }, l)
  else pure ({ t with freq := freq }, c)

/-- The loop of `update` (src/file_parsers/compression/lzhuf/adaptive_huff.rs:207-249). -/
def climb : Nat → Tree → Nat → Except Err Tree
  | 0, _, _ => .error .panic
  | fuel + 1, t, c => do
    let tc ← raise t c
    let p ← rd tc.1.parent tc.2
    if p = 0 then pure tc.1 else climb fuel tc.1 p

/-- `update` (src/file_parsers/compression/lzhuf/adaptive_huff.rs:197-250). -/
def update (t : Tree) (s : Nat) : Except Err Tree := do
  let f ← rd t.freq t.root
  let t ← if f = 0x8000 then rebuild t else pure t
  let c ← rd t.symb s
  climb (t.count + 1) t c

/-- The bits buffered by `AdaptiveHuffmanDecoder` and the reader behind them
(src/file_parsers/compression/lzhuf/adaptive_huff.rs:32-36). -/
structure Reader where
  bits : List Bool
  ptr : Nat
  src : List Byte
  deriving DecidableEq, Repr

/-- `get_bit` (src/file_parsers/compression/lzhuf/adaptive_huff.rs:339-359) with `drop_leading_bits`
(327-334). -/
def getBitFrom (bits : List Bool) (ptr : Nat) : List Byte → Except Err (Bool × Reader)
  | [] =>
    match bits[ptr]? with
    | some b => .ok (b, ⟨bits, ptr + 1, []⟩)
    | none => .error .io
  | by' :: src =>
    match bits[ptr]? with
    | some b => .ok (b, ⟨bits, ptr + 1, by' :: src⟩)
    | none =>
      if bits.length > 512 then getBitFrom (bits.drop ptr ++ byteBits by') 0 src
      else getBitFrom (bits ++ byteBits by') ptr src

/-- `get_bit`. -/
def getBit (r : Reader) : Except Err (Bool × Reader) := getBitFrom r.bits r.ptr r.src

/-- `ans <<= 1; ans |= get_bit()`, `m` times, on a number that does not overflow
(src/file_parsers/compression/lzhuf/adaptive_huff.rs:361-368, 390-393). -/
def getBits : Nat → Nat → Reader → Except Err (Nat × Reader)
  | 0, acc, r => .ok (acc, r)
  | m + 1, acc, r => do
    let br ← getBit r
    getBits m (2 * acc + br.1.toNat) br.2

/-- The descent of `decode_char` (src/file_parsers/compression/lzhuf/adaptive_huff.rs:370-377). -/
def descend (t : Tree) : Nat → Nat → Reader → Except Err (Nat × Reader)
  | 0, _, _ => .error .panic
  | fuel + 1, c, r =>
    if c < t.count then do
      let br ← getBit r
      let c ← rd t.son (c + br.1.toNat)
      descend t fuel c br.2
    else .ok (c - t.count, r)

/-- `decode_char` (src/file_parsers/compression/lzhuf/adaptive_huff.rs:369-380). -/
def decodeChar (t : Tree) (r : Reader) : Except Err (Nat × Tree × Reader) := do
  let c ← rd t.son t.root
  let sr ← descend t (t.count + 1) c r
  let t ← update t sr.1
  pure (sr.1, t, sr.2)

/-- `P_LEN` (src/file_parsers/compression/lzhuf/adaptive_huff.rs:40-45). -/
def pLen : List Nat :=
  [3, 4, 4, 4, 5, 5, 5, 5, 5, 5, 5, 5, 6, 6, 6, 6, 6, 6, 6, 6, 6, 6, 6, 6, 7, 7, 7, 7, 7, 7, 7, 7, 7, 7,
   7, 7, 7, 7, 7, 7, 7, 7, 7, 7, 7, 7, 7, 7, 8, 8, 8, 8, 8, 8, 8, 8, 8, 8, 8, 8, 8, 8, 8, 8]

/-- `P_CODE` (src/file_parsers/compression/lzhuf/adaptive_huff.rs:50-55). -/
def pCode : List Nat :=
  [0, 32, 48, 64, 80, 88, 96, 104, 112, 120, 128, 136, 144, 148, 152, 156, 160, 164, 168, 172, 176, 180,
   184, 188, 192, 194, 196, 198, 200, 202, 204, 206, 208, 210, 212, 214, 216, 218, 220, 222, 224, 226,
   228, 230, 232, 234, 236, 238, 240, 241, 242, 243, 244, 245, 246, 247, 248, 249, 250, 251, 252, 253,
   254, 255]

/-- `D_LEN` (src/file_parsers/compression/lzhuf/adaptive_huff.rs:61-76). -/
def dLen : List Nat :=
  [3, 3, 3, 3, 3, 3, 3, 3, 3, 3, 3, 3, 3, 3, 3, 3, 3, 3, 3, 3, 3, 3, 3, 3, 3, 3, 3, 3, 3, 3, 3, 3, 4, 4,
   4, 4, 4, 4, 4, 4, 4, 4, 4, 4, 4, 4, 4, 4, 4, 4, 4, 4, 4, 4, 4, 4, 4, 4, 4, 4, 4, 4, 4, 4, 4, 4, 4, 4,
   4, 4, 4, 4, 4, 4, 4, 4, 4, 4, 4, 4, 5, 5, 5, 5, 5, 5, 5, 5, 5, 5, 5, 5, 5, 5, 5, 5, 5, 5, 5, 5, 5, 5,
   5, 5, 5, 5, 5, 5, 5, 5, 5, 5, 5, 5, 5, 5, 5, 5, 5, 5, 5, 5, 5, 5, 5, 5, 5, 5, 5, 5, 5, 5, 5, 5, 5, 5,
   5, 5, 5, 5, 5, 5, 5, 5, 6, 6, 6, 6, 6, 6, 6, 6, 6, 6, 6, 6, 6, 6, 6, 6, 6, 6, 6, 6, 6, 6, 6, 6, 6, 6,
   6, 6, 6, 6, 6, 6, 6, 6, 6, 6, 6, 6, 6, 6, 6, 6, 6, 6, 6, 6, 6, 6, 7, 7, 7, 7, 7, 7, 7, 7, 7, 7, 7, 7,
   7, 7, 7, 7, 7, 7, 7, 7, 7, 7, 7, 7, 7, 7, 7, 7, 7, 7, 7, 7, 7, 7, 7, 7, 7, 7, 7, 7, 7, 7, 7, 7, 7, 7,
   7, 7, 8, 8, 8, 8, 8, 8, 8, 8, 8, 8, 8, 8, 8, 8, 8, 8]

/-- `D_CODE` (src/file_parsers/compression/lzhuf/adaptive_huff.rs:80-95). -/
def dCode : List Nat :=
  [0, 0, 0, 0, 0, 0, 0, 0, 0, 0, 0, 0, 0, 0, 0, 0, 0, 0, 0, 0, 0, 0, 0, 0, 0, 0, 0, 0, 0, 0, 0, 0, 1, 1,
   1, 1, 1, 1, 1, 1, 1, 1, 1, 1, 1, 1, 1, 1, 2, 2, 2, 2, 2, 2, 2, 2, 2, 2, 2, 2, 2, 2, 2, 2, 3, 3, 3, 3,
   3, 3, 3, 3, 3, 3, 3, 3, 3, 3, 3, 3, 4, 4, 4, 4, 4, 4, 4, 4, 5, 5, 5, 5, 5, 5, 5, 5, 6, 6, 6, 6, 6, 6,
   6, 6, 7, 7, 7, 7, 7, 7, 7, 7, 8, 8, 8, 8, 8, 8, 8, 8, 9, 9, 9, 9, 9, 9, 9, 9, 10, 10, 10, 10, 10, 10,
   10, 10, 11, 11, 11, 11, 11, 11, 11, 11, 12, 12, 12, 12, 13, 13, 13, 13, 14, 14, 14, 14, 15, 15, 15,
   15, 16, 16, 16, 16, 17, 17, 17, 17, 18, 18, 18, 18, 19, 19, 19, 19, 20, 20, 20, 20, 21, 21, 21, 21,
   22, 22, 22, 22, 23, 23, 23, 23, 24, 24, 25, 25, 26, 26, 27, 27, 28, 28, 29, 29, 30, 30, 31, 31, 32,
   32, 33, 33, 34, 34, 35, 35, 36, 36, 37, 37, 38, 38, 39, 39, 40, 40, 41, 41, 42, 42, 43, 43, 44, 44,
   45, 45, 46, 46, 47, 47, 48, 49, 50, 51, 52, 53, 54, 55, 56, 57, 58, 59, 60, 61, 62, 63]

/-- `decode_position` (src/file_parsers/compression/lzhuf/adaptive_huff.rs:382-395); `coded_bits - 2` cannot
underflow for a table entry of at least 3. -/
def decodePosition (r : Reader) : Except Err (Nat × Reader) := do
  let fr ← getBits 8 0 r
  let upper ← rd dCode fr.1
  let len ← rd dLen fr.1
  let lr ← getBits (len - 2) fr.1 fr.2
  pure ((upper <<< 6) ||| (lr.1 &&& 0x3f), lr.2)

/-- `RingBuffer` (src/file_parsers/compression/lzhuf/ring_buffer.rs:3-7). -/
structure Ring where
  buf : List Byte
  pos : Nat
  n : Nat

/-- `RingBuffer::get` (src/file_parsers/compression/lzhuf/ring_buffer.rs:33-35). -/
def Ring.get (r : Ring) (offset : Int) : Except Err Byte :=
  match r.buf[(((r.pos : Int) + offset).emod r.n).toNat]? with
  | some b => .ok b
  | none => .error .panic

/-- `RingBuffer::set` (src/file_parsers/compression/lzhuf/ring_buffer.rs:36-38). -/
def Ring.set (r : Ring) (offset : Int) (v : Byte) : Except Err Ring :=
  let i := (((r.pos : Int) + offset).emod r.n).toNat
  if i < r.buf.length then .ok { r with buf := r.buf.set i v } else .error .panic

/-- `RingBuffer::advance` (src/file_parsers/compression/lzhuf/ring_buffer.rs:39-41). -/
def Ring.advance (r : Ring) : Ring := { r with pos := (r.pos + 1) % r.n }

/-- Write one byte to the output and the dictionary
(src/file_parsers/compression/lzhuf/lzhuf.rs:346-348, 359-361). -/
def emit (d : Ring) (out : List Byte) (b : Byte) : Except Err (Ring × List Byte) := do
  let d ← d.set 0 b
  pure (d.advance, out ++ [b])

/-- The copy loop of `expand` (src/file_parsers/compression/lzhuf/lzhuf.rs:357-362). -/
def copy (offset : Int) : Nat → Ring → List Byte → Except Err (Ring × List Byte)
  | 0, d, out => .ok (d, out)
  | m + 1, d, out => do
    let b ← d.get offset
    let dr ← emit d out b
    copy offset m dr.1 dr.2

/-- `u32::MAX`, the size limit of a stream without a header
(src/file_parsers/compression/lzhuf/lzhuf.rs:325). -/
def u32Max : Nat := 2 ^ 32 - 1

/-- One turn of the main loop of `expand` (src/file_parsers/compression/lzhuf/lzhuf.rs:340-363) with `threshold`
2; `none` when the input ends. -/
def turn (t : Tree) (r : Reader) (d : Ring) (out : List Byte) : Except Err (Option (Tree × Reader × Ring × List Byte)) :=
  match decodeChar t r with
  | .error .io => .ok none
  | .error e => .error e
  | .ok (c, t, r) =>
    if c < 256 then
      match emit d out (BitVec.ofNat 8 c) with
      | .error e => .error e
      | .ok (d, out) => .ok (some (t, r, d, out))
    else
      match decodePosition r with
      | .error .io => .ok none
      | .error e => .error e
      | .ok (p, r) =>
        match copy (-((p : Int) + 1)) (c + 2 - 255) d out with
        | .error e => .error e
        | .ok (d, out) => .ok (some (t, r, d, out))

/-- The main loop of `expand` (src/file_parsers/compression/lzhuf/lzhuf.rs:339-364) with no header: the size
limit is `u32::MAX` for the stream position, which starts at 12.  Each turn consumes at least one bit, which
bounds the fuel. -/
def expandLoop : Nat → Tree → Reader → Ring → List Byte → Except Err (List Byte)
  | 0, _, _, _, _ => .error .panic
  | fuel + 1, t, r, d, out =>
    if 12 + out.length < u32Max then
      match turn t r d out with
      | .error e => .error e
      | .ok none => .ok out
      | .ok (some (t, r, d, out)) => expandLoop fuel t r d out
    else .ok out

/-- The dictionary at the start: 4036 spaces and 60 zeros, positioned behind the spaces
(src/file_parsers/compression/lzhuf/lzhuf.rs:333-338). -/
def startRing : Ring := ⟨List.replicate 4036 0x20#8 ++ List.replicate 60 0#8, 4036, 4096⟩

/-- `expand` with `TD0_READ_OPTIONS` (src/file_parsers/compression/lzhuf/lzhuf.rs:313-370,
src/file_parsers/compression/lzhuf/mod.rs:60-68) on the bytes that follow the 12 byte file header; the
bytes it writes behind the first 12 of the output. -/
def expand (data : List Byte) : Except Err (List Byte) := do
  let t ← create (256 + 60 - 2)
  expandLoop (8 * data.length + 1) t ⟨[], 0, data⟩ startRing []

/-- The walk of `encode_char` from a leaf to the root
(src/file_parsers/compression/lzhuf/adaptive_huff.rs:294-305): the code bits, root first.  The code is kept as
a list of bits; the code keeps it in a `u16`, which loses the bits beyond the 16 nearest the root. -/
def walk (t : Tree) : Nat → Nat → List Bool → Except Err (List Bool)
  | 0, _, _ => .error .panic
  | fuel + 1, c, acc => do
    let p ← rd t.parent c
    let acc := (c % 2 == 1) :: acc
    if p = t.root then .ok acc else walk t fuel p acc

/-- The bits written by `encode_char` and the tree after it
(src/file_parsers/compression/lzhuf/adaptive_huff.rs:291-308), for codes of at most 16 bits. -/
def encodeChar (t : Tree) (s : Nat) : Except Err (List Bool × Tree) := do
  let c ← rd t.symb s
  let bits ← walk t (t.count + 1) c []
  let t ← update t s
  pure (bits, t)

/-- The `m` most significant bits of a `w`-bit number: `put_code`
(src/file_parsers/compression/lzhuf/adaptive_huff.rs:273-278). -/
def msb (w m x : Nat) : List Bool := (List.range m).map (fun i => x.testBit (w - 1 - i))

/-- The bits written by `encode_position` (src/file_parsers/compression/lzhuf/adaptive_huff.rs:310-316). -/
def encodePosition (p : Nat) : List Bool :=
  msb 8 (pLen.getD (p >>> 6) 0) (pCode.getD (p >>> 6) 0) ++ msb 6 6 (p &&& 0x3f)

/-- What the main loop of `compress` writes for a byte or a match
(src/file_parsers/compression/lzhuf/lzhuf.rs:268-275); how matches are found is not modelled. -/
def encodeToken (t : Tree) : Spec.Lz.Token → Except Err (List Bool × Tree)
  | .lit b => encodeChar t b.toNat
  | .copy len back => do
    let bt ← encodeChar t (255 - 2 + len)
    pure (bt.1 ++ encodePosition back, bt.2)

/-- The bits of a list of tokens. -/
def encodeFrom : Tree → List Spec.Lz.Token → Except Err (List Bool × Tree)
  | t, [] => .ok ([], t)
  | t, k :: ks => do
    let bt ← encodeToken t k
    let rest ← encodeFrom bt.2 ks
    pure (bt.1 ++ rest.1, rest.2)

/-- The bits of a whole stream. -/
def encode (toks : List Spec.Lz.Token) : Except Err (List Bool) := do
  let t ← create (256 + 60 - 2)
  let r ← encodeFrom t toks
  pure r.1

end Lzhuf
end Fox
