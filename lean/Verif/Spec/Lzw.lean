import Verif.Model.Basic
/-
What TeleDisk 1.x LZW data means, independently of the code: a sequence of chunks, each a 16-bit count of
quarter bits followed by 12-bit codes.  The dictionary is a growing table of strings: each code after the first
adds the previous string extended by the first byte of its own.
-/
namespace Fox
namespace Spec
namespace Lzw

/-- The bits of some bytes, least significant first. -/
def bits (data : List Byte) : List Bool := data.flatMap (fun b => (List.range 8).map (fun i => b.getLsbD i))

/-- The number some bits stand for, least significant first. -/
def value (bs : List Bool) : Nat := bs.foldr (fun b acc => b.toNat + 2 * acc) 0

/-- The string of a code: a byte, or an entry of the table. -/
def look (table : List (List Byte)) (c : Nat) : Option (List Byte) :=
  if c < 256 then some [BitVec.ofNat 8 c] else table[c - 256]?

/-- The table holds 3840 strings, which leaves no 12-bit code free. -/
def grow (table : List (List Byte)) (s : List Byte) : List (List Byte) :=
  if table.length < 3840 then table ++ [s] else table

/-- The bytes of some codes that follow the string `prev`. -/
def decodeFrom (table : List (List Byte)) (prev : List Byte) : List Nat → Option (List Byte)
  | [] => some []
  | c :: cs =>
    match look table c with
    | some s => (decodeFrom (grow table (prev ++ s.take 1)) s cs).map (s ++ ·)
    | none =>
      if c = 256 + table.length ∧ table.length < 3840 then
        let s := prev ++ prev.take 1
        (decodeFrom (grow table s) s cs).map (s ++ ·)
      else none

/-- The bytes of a chunk; it starts with the code of a byte. -/
def decodeChunk : List Nat → Option (List Byte)
  | [] => some []
  | c :: cs => if c < 256 then (decodeFrom [] [BitVec.ofNat 8 c] cs).map (BitVec.ofNat 8 c :: ·) else none

/-- Up to `k` codes of 12 bits. -/
def codes : Nat → List Bool → List Nat
  | 0, _ => []
  | k + 1, bs => if bs.length < 12 then [] else value (bs.take 12) :: codes k (bs.drop 12)

/-- The chunks of a bit string; the last one may be cut short. -/
def chunks (bs : List Bool) : List (List Nat) :=
  if h : bs.length < 16 then []
  else
    let k := (4 * value (bs.take 16) + 11) / 12
    if (bs.drop 16).length < 12 * k then [codes k (bs.drop 16)]
    else codes k (bs.drop 16) :: chunks ((bs.drop 16).drop (12 * k))
termination_by bs.length
decreasing_by simp only [List.length_drop]; omega

end Lzw
end Spec
end Fox
