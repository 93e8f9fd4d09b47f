import Verif.Model.Lzhuf
/-
Model of the LZW compressor and expander of TeleDisk 1.x images (src/file_parsers/compression/lzw/mod.rs) with
the `Teledisk` preset: 16-bit chunk headers holding the bit count divided by 4, 12-bit codes packed least
significant bit first, a fresh dictionary after 4096 codes, no clear or stop code.

The hash maps are functions from keys to optional values.  A failed `unwrap`, an index out of range and a loop
that runs out of fuel are `Err.panic`; `FileFormatMismatch` and `FileTooLarge` are `Err.formatParse` and
`Err.unsupported` (td0.rs turns both into the same error).
-/
namespace Fox
namespace Lzw
open Lzhuf (Reader)

/-- The bits of a byte, least significant first: `bytes_to_bits_lsb0`
(src/file_parsers/compression/lzw/mod.rs:149-158). -/
def lsbBits (b : Byte) : List Bool :=
  [b.getLsbD 0, b.getLsbD 1, b.getLsbD 2, b.getLsbD 3, b.getLsbD 4, b.getLsbD 5, b.getLsbD 6, b.getLsbD 7]

/-- `get_bit` (src/file_parsers/compression/lzw/mod.rs:252-275) with `drop_leading_bits` (241-248). -/
def getBitFrom (bits : List Bool) (ptr : Nat) : List Byte → Except Err (Bool × Reader)
  | [] =>
    match bits[ptr]? with
    | some b => .ok (b, ⟨bits, ptr + 1, []⟩)
    | none => .error .io
  | by' :: src =>
    match bits[ptr]? with
    | some b => .ok (b, ⟨bits, ptr + 1, by' :: src⟩)
    | none =>
      if bits.length > 512 then getBitFrom (bits.drop ptr ++ lsbBits by') 0 src
      else getBitFrom (bits ++ lsbBits by') ptr src

/-- The loop of `get_code` for `Lsb0` (src/file_parsers/compression/lzw/mod.rs:276-294): `m` bits still to read,
the next one going to place `i`. -/
def getCode : Nat → Nat → Nat → Reader → Except Err (Nat × Reader)
  | 0, _, ans, r => .ok (ans, r)
  | m + 1, i, ans, r =>
    match getBitFrom r.bits r.ptr r.src with
    | .error e => .error e
    | .ok (b, r) => getCode m (i + 1) (ans ||| (b.toNat <<< i)) r

/-- The dictionary of the expander: a code to its base code and symbol
(src/file_parsers/compression/lzw/mod.rs:320-329). -/
abbrev Dict := Nat → Option (Nat × Nat)

/-- The dictionary made by `create` (src/file_parsers/compression/lzw/mod.rs:335-352). -/
def startDict : Dict := fun c => if c ≤ 255 then some (c, c) else none

/-- `HashMap::insert`. -/
def Dict.insert (d : Dict) (k : Nat) (v : Nat × Nat) : Dict := fun c => if c = k then some v else d c

/-- `get_string` (src/file_parsers/compression/lzw/mod.rs:355-366); `acc` is what was pushed so far, reversed. -/
def getString (d : Dict) : Nat → Nat → List Byte → Except Err (List Byte)
  | 0, _, _ => .error .panic
  | fuel + 1, code, acc =>
    match d code with
    | none => .error .panic
    | some (base, sym) =>
      if sym = base ∧ code ≤ 255 then .ok (BitVec.ofNat 8 sym :: acc)
      else getString d fuel base (BitVec.ofNat 8 sym :: acc)

/-- `advance_code` (src/file_parsers/compression/lzw/mod.rs:370-401): the new `curr_code` and the result. -/
def advance (curr : Option Nat) : Option Nat × Option Nat :=
  let n := match curr with
    | none => 0
    | some c => c + 1
  let n := if n ≤ 255 then 256 else n
  if n > 4095 then (some 4095, none) else (some n, some n)

/-- What the main loop of `expand` keeps between codes (src/file_parsers/compression/lzw/mod.rs:590-594). -/
structure State where
  dict : Dict
  curr : Option Nat
  prevCode : Option Nat
  prevStr : List Byte

/-- The start of a chunk (src/file_parsers/compression/lzw/mod.rs:575, 590-594). -/
def State.start : State := ⟨startDict, none, none, []⟩

/-- The string of a code (src/file_parsers/compression/lzw/mod.rs:621-636). -/
def stringOf (st : State) (next : Option Nat) (code : Nat) : Except Err (List Byte) :=
  match st.dict code with
  | none =>
    match st.prevStr with
    | [] => .error .panic
    | x :: _ =>
      match next with
      | none => .error .formatParse
      | some n => if code ≠ n then .error .formatParse else .ok (st.prevStr ++ [x])
  | some _ => getString st.dict 4097 code []

/-- One code (src/file_parsers/compression/lzw/mod.rs:617-646): the state and the bytes written. -/
def stepCode (st : State) (code : Nat) : Except Err State := do
  let cn := match st.prevCode with
    | none => (st.curr, none)
    | some _ => advance st.curr
  let str ← stringOf st cn.2 code
  match cn.2, st.prevCode with
  | some n, some p =>
    match str with
    | [] => .error .panic
    | x :: _ => .ok ⟨st.dict.insert n (p, x.toNat), cn.1, some code, str⟩
  | _, _ => .ok ⟨st.dict, cn.1, some code, str⟩

/-- The loop over the codes of a chunk (src/file_parsers/compression/lzw/mod.rs:596-647): the output, the reader
and whether the data ended.  `left` bits are still to be read. -/
def chunkLoop : Nat → Nat → State → Reader → List Byte → Except Err (List Byte × Reader × Bool)
  | 0, _, _, _, _ => .error .panic
  | fuel + 1, left, st, r, out =>
    if 0 < left then
      match getCode 12 0 0 r with
      | .error .io => .ok (out, r, true)
      | .error e => .error e
      | .ok (code, r) =>
        match stepCode st code with
        | .error e => .error e
        | .ok st => chunkLoop fuel (left - 12) st r (out ++ st.prevStr)
    else .ok (out, r, false)

/-- The loop over the chunks (src/file_parsers/compression/lzw/mod.rs:573-652).  The reader left behind when
the data ends is not used. -/
def chunksLoop : Nat → Reader → List Byte → Except Err (List Byte)
  | 0, _, _ => .error .panic
  | fuel + 1, r, out =>
    match getCode 16 0 0 r with
    | .error .io => .ok out
    | .error e => .error e
    | .ok (code, r) =>
      match chunkLoop (4 * code + 1) (4 * code) State.start r out with
      | .error e => .error e
      | .ok (out, _, true) => .ok out
      | .ok (out, r, false) => chunksLoop fuel r out

/-- `max_file_size` of the preset (src/file_parsers/compression/lzw/mod.rs:119). -/
def maxFile : Nat := 3000000

/-- `expand` (src/file_parsers/compression/lzw/mod.rs:552-656) on the bytes that follow the 12 byte file header;
the bytes it writes behind the first 12 of the output. -/
def expand (data : List Byte) : Except Err (List Byte) :=
  if data.length > maxFile then .error .unsupported
  else chunksLoop (8 * data.length + 1) ⟨[], 0, data⟩ []

/-! The compressor -/

/-- The dictionary of the compressor: a base code and a symbol to a code; no base is a root
(src/file_parsers/compression/lzw/mod.rs:320-329). -/
abbrev EDict := Option Nat × Nat → Option Nat

/-- The dictionary made by `create` (src/file_parsers/compression/lzw/mod.rs:335-352). -/
def startEDict : EDict := fun k => if k.1 = none ∧ k.2 ≤ 255 then some k.2 else none

/-- `HashMap::insert`. -/
def EDict.insert (d : EDict) (k : Option Nat × Nat) (v : Nat) : EDict := fun c => if c = k then some v else d c

/-- The loop that builds a match (src/file_parsers/compression/lzw/mod.rs:475-516), with `check_match`
(409-431): the code of the match, the dictionary and `curr_code` after it, and the bytes that follow; the last
flag says whether the data ended.  The key just matched is kept as the code found under it. -/
def matchLoop (d : EDict) (curr : Option Nat) (m : Option Nat) : List Byte →
    Option Nat × EDict × Option Nat × List Byte × Bool
  | [] => (m, d, curr, [], true)
  | s :: rest =>
    match d (m, s.toNat) with
    | some code => matchLoop d curr (some code) rest
    | none =>
      match advance curr with
      | (curr', some code) => (m, d.insert (m, s.toNat) code, curr', s :: rest, false)
      | (curr', none) => (m, d, curr', s :: rest, false)

/-- The loop over the matches of a chunk (src/file_parsers/compression/lzw/mod.rs:472-544): the codes and, unless
the data ended, the bytes left for the next chunk.  `left` codes fit. -/
def compressChunk : Nat → EDict → Option Nat → List Byte → Except Err (List Nat × Option (List Byte))
  | 0, _, _, data => .ok ([], some data)
  | left + 1, d, curr, data =>
    match matchLoop d curr none data with
    | (m, _, _, _, true) => .ok (m.toList, none)
    | (none, _, _, _, false) => .error .panic
    | (some c, d, curr, rest, false) =>
      match compressChunk left d curr rest with
      | .error e => .error e
      | .ok (cs, more) => .ok (c :: cs, more)

/-- The loop over the chunks (src/file_parsers/compression/lzw/mod.rs:460-545). -/
def compressLoop : Nat → List Byte → Except Err (List (List Nat))
  | 0, _ => .error .panic
  | fuel + 1, data =>
    match compressChunk 4096 startEDict none data with
    | .error e => .error e
    | .ok (cs, none) => .ok [cs]
    | .ok (cs, some rest) =>
      match compressLoop fuel rest with
      | .error e => .error e
      | .ok css => .ok (cs :: css)

/-- The `m` low bits of a number, least significant first: `put_code` for `Lsb0`
(src/file_parsers/compression/lzw/mod.rs:208-215). -/
def lsb (m x : Nat) : List Bool := (List.range m).map (fun i => x.testBit i)

/-- The bits of a chunk: its header (src/file_parsers/compression/lzw/mod.rs:501-508, 530-537) and its codes.
Each chunk but the last has 4096 codes and fills its last byte, so the place held for the next header is
where the coder stands; the rewinding of the writer is not modelled. -/
def chunkBits (codes : List Nat) : List Bool := lsb 16 (codes.length * 12 / 4) ++ codes.flatMap (lsb 12)

/-- The byte of up to eight bits, least significant first (src/file_parsers/compression/lzw/mod.rs:127-146). -/
def lsbByte (bits : List Bool) : Byte :=
  BitVec.ofNat 8 (bits.foldr (fun b acc => b.toNat + 2 * acc) 0)

/-- `bits_to_bytes_lsb0` (src/file_parsers/compression/lzw/mod.rs:127-146). -/
def packLsb : List Bool → List Byte
  | a :: b :: c :: d :: e :: f :: g :: h :: rest => lsbByte [a, b, c, d, e, f, g, h] :: packLsb rest
  | [] => []
  | rest => [lsbByte rest]

/-- `compress` (src/file_parsers/compression/lzw/mod.rs:437-546) without offsets: the bytes written behind
the first 12. -/
def compress (data : List Byte) : Except Err (List Byte) :=
  if data.length > maxFile then .error .unsupported
  else
    match compressLoop (data.length + 1) data with
    | .error e => .error e
    | .ok css => .ok (packLsb (css.flatMap chunkBits))

end Lzw
end Fox
