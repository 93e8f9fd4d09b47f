import Verif.Model.Td0
import Verif.Spec.Psi
import Verif.Spec.Lzw
import Verif.Spec.Lzhuf
/-
Specification of TeleDisk files: what a described disk looks like in a file and which sectors it stands for.
-/
namespace Fox.Spec

/-- The checksum: a shift register for the polynomial A097, fed most significant bit first from zero. -/
def td0Check (data : List Byte) : BitVec 16 :=
  (bitsOf data).foldl (fun c b => (c <<< 1) ^^^ (if c.getMsbD 0 ^^ b then 0xA097#16 else 0#16)) 0#16

/-- Two bytes, low byte first. -/
def word (x : BitVec 16) : List Byte := [x.setWidth 8, (x >>> 8).setWidth 8]

/-- An entry of a run-length coded sector: some bytes, or a pattern repeated. -/
inductive Td0Run where
  | literal (d : List Byte)
  | run (pat : List Byte) (count : Nat)

/-- Zero and the length, or half the length of the pattern and the count. -/
def Td0Run.bytes : Td0Run → List Byte
  | .literal d => [0#8, byteOf d.length] ++ d
  | .run pat k => [byteOf (pat.length / 2), byteOf k] ++ pat

/-- What it stands for. -/
def Td0Run.contents : Td0Run → List Byte
  | .literal d => d
  | .run pat k => (List.replicate k pat).flatten

/-- It fits its bytes and stands for at least one byte. -/
def Td0Run.Ok : Td0Run → Prop
  | .literal d => 0 < d.length ∧ d.length < 256
  | .run pat k => 0 < pat.length ∧ pat.length % 2 = 0 ∧ pat.length / 2 < 256 ∧ 0 < k ∧ k < 256

/-- A pair of bytes repeated. -/
structure Td0Pair where
  count : Nat
  a : Byte
  b : Byte

/-- The count, then the pair. -/
def Td0Pair.bytes (x : Td0Pair) : List Byte := word (BitVec.ofNat 16 x.count) ++ [x.a, x.b]

/-- What it stands for. -/
def Td0Pair.contents (x : Td0Pair) : List Byte := (List.replicate x.count [x.a, x.b]).flatten

/-- The contents of a sector: none in the file, because it was skipped as unallocated or had no data mark; its
bytes; pairs; run-length coded. -/
inductive Td0Body where
  | absent (skipped noDam : Bool) (check : Byte)
  | raw (d : List Byte)
  | pairs (l : List Td0Pair)
  | rle (l : List Td0Run)

/-- What it stands for. -/
def Td0Body.contents : Td0Body → List Byte
  | .absent _ _ _ => []
  | .raw d => d
  | .pairs l => l.flatMap Td0Pair.contents
  | .rle l => l.flatMap Td0Run.contents

/-- The encoding and the encoded bytes. -/
def Td0Body.coded : Td0Body → Byte × List Byte
  | .absent _ _ _ => (0#8, [])
  | .raw d => (0#8, d)
  | .pairs l => (1#8, l.flatMap Td0Pair.bytes)
  | .rle l => (2#8, l.flatMap Td0Run.bytes)

/-- Its flags in the sector header. -/
def Td0Body.flags : Td0Body → Byte
  | .absent sk nd _ => flag sk 0x10#8 ||| flag nd 0x20#8
  | _ => 0#8

/-- There are contents. -/
def Td0Body.there : Td0Body → Bool
  | .absent _ _ _ => false
  | _ => true

/-- A sector: its id, its flags (duplicated, read with an error, deleted, without a header), its contents. -/
structure Td0Sec where
  c : Nat
  h : Nat
  s : Nat
  n : Nat
  dup : Bool := false
  err : Bool := false
  del : Bool := false
  noId : Bool := false
  body : Td0Body

/-- The low byte of the checksum of the contents. -/
def Td0Sec.check (x : Td0Sec) : Byte :=
  match x.body with
  | .absent _ _ ck => ck
  | b => (td0Check b.contents).setWidth 8

/-- The sector with a given checksum: header, then length, encoding and bytes if there are contents. -/
def Td0Sec.bytesWith (x : Td0Sec) (check : Byte) : List Byte :=
  [byteOf x.c, byteOf x.h, byteOf x.s, byteOf x.n,
    flag x.dup 1#8 ||| flag x.err 2#8 ||| flag x.del 4#8 ||| flag x.noId 0x40#8 ||| x.body.flags, check] ++
  if x.body.there then word (BitVec.ofNat 16 (x.body.coded.2.length + 1)) ++ x.body.coded.1 :: x.body.coded.2 else []

/-- The sector in the file. -/
def Td0Sec.bytes (x : Td0Sec) : List Byte := x.bytesWith x.check

/-- The sector it stands for. -/
def Td0Sec.sector (x : Td0Sec) : MetaSector :=
  { id := ⟨x.c, x.h, x.s, x.n⟩, dataError := x.err, deletedMark := x.del, data := x.body.contents,
    weak := .empty x.body.contents.length, hole := .empty x.body.contents.length }

/-- The fields fit the format, the contents have the size of the sector.  Pairs of different bytes are left
out. -/
structure Td0Sec.Ok (x : Td0Sec) : Prop where
  c : x.c < 256
  h : x.h < 256
  s : x.s < 256
  n : x.n ≤ 6
  absent : ∀ sk nd ck, x.body = .absent sk nd ck → (sk || nd) = true
  size : x.body.there = true → x.body.contents.length = 128 * 2 ^ x.n
  pairs : ∀ l, x.body = .pairs l → ∀ p ∈ l, p.a = p.b ∧ 0 < p.count
  rle : ∀ l, x.body = .rle l → ∀ r ∈ l, r.Ok

/-- The four bytes that start a track. -/
def td0TrackHeader (n c h : Nat) : List Byte :=
  [byteOf n, byteOf c, byteOf h, (td0Check [byteOf n, byteOf c, byteOf h]).setWidth 8]

/-- A track in the file: the number of its sectors, its position, the low byte of the checksum of these three
bytes; the sectors. -/
def td0Track (t : Ch × List Td0Sec) : List Byte :=
  td0TrackHeader t.2.length t.1.c t.1.h ++ t.2.flatMap Td0Sec.bytes

/-- The end mark. -/
def td0End (a b c : Byte) : List Byte := [0xFF#8, a, b, c]

/-- A comment: a checksum, a date of six bytes, lines that end in a zero byte. -/
structure Td0Comment where
  check : BitVec 16
  date : List Byte
  text : List Char

/-- UTF-8. -/
def utf8Bytes (cs : List Char) : List Byte := (cs.flatMap String.utf8EncodeChar).map UInt8.toBitVec

/-- The comment in the file. -/
def Td0Comment.bytes (x : Td0Comment) : List Byte :=
  word x.check ++ word (BitVec.ofNat 16 (utf8Bytes x.text).length) ++ x.date ++ utf8Bytes x.text

/-- It fits. -/
def Td0Comment.Ok (x : Td0Comment) : Prop := x.date.length = 6 ∧ (utf8Bytes x.text).length < 65536

/-- What follows the file header: an optional comment, the tracks. -/
def td0Body (cm : Option Td0Comment) (ts : List (Ch × List Td0Sec)) : List Byte :=
  (match cm with | some x => x.bytes | none => []) ++ ts.flatMap td0Track

/-- The fields of the file header. -/
structure Td0Header where
  sequence : Byte
  checkSequence : Byte
  version : Byte
  rate : Byte
  drive : Byte
  stepping : Byte
  alloc : Byte
  heads : Byte

/-- The file header: "TD", or "td" if compressed, the fields, the checksum of these ten bytes. -/
def Td0Header.bytes (x : Td0Header) (packed : Bool) : List Byte :=
  let l := [if packed then 0x74#8 else 0x54#8, if packed then 0x64#8 else 0x44#8, x.sequence, x.checkSequence,
    x.version, x.rate, x.drive, x.stepping, x.alloc, x.heads]
  l ++ word (td0Check l)

/-- The highest bit of the stepping field says whether there is a comment. -/
def Td0Header.Fits (x : Td0Header) (cm : Option Td0Comment) : Prop := x.stepping.getMsbD 0 = cm.isSome

/-- The tracks described: the sectors that have contents. -/
def td0Tracks (ts : List (Ch × List Td0Sec)) : List (Ch × List MetaSector) :=
  ts.map fun t => (t.1, (t.2.filter fun x => x.body.there).map Td0Sec.sector)

/-- The number of different cylinders. -/
def td0Cylinders (ts : List (Ch × List Td0Sec)) : Nat :=
  ((List.range 256).filter fun c => ts.any fun t => t.1.c == c).length

end Fox.Spec
