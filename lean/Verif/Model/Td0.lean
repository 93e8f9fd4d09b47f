import Verif.Model.Disk
import Verif.Model.Pce
import Verif.Model.Imd
import Verif.Model.Lzhuf
import Verif.Model.Lzw
/-
Model of the TeleDisk loader (src/file_parsers/td0.rs).  `Cursor` reads are reads from a list of bytes.  Trace
logging is not modelled; one trace statement computes `len - 1` of a sector data header, which overflows for
`len = 0` in a debug build that logs at that level.  Of the descriptor only the geometry is modelled.
-/
namespace Fox
namespace Td0

/-- One turn of the inner loop of `td0_crc` (src/file_parsers/td0.rs:175-177). -/
def crcBit (crc : BitVec 16) : BitVec 16 :=
  (crc <<< 1) ^^^ (if crc &&& 0x8000#16 != 0#16 then 0xA097#16 else 0#16)

/-- The body of the outer loop of `td0_crc` (src/file_parsers/td0.rs:173-178). -/
def crcByte (crc : BitVec 16) (b : Byte) : BitVec 16 :=
  let c := crc ^^^ ((b.setWidth 16) <<< 8)
  crcBit (crcBit (crcBit (crcBit (crcBit (crcBit (crcBit (crcBit c)))))))

/-- `td0_crc` (src/file_parsers/td0.rs:170-180). -/
def crc (data : List Byte) (start : BitVec 16) : BitVec 16 := data.foldl crcByte start

/-- `crc as u8`. -/
def low (c : BitVec 16) : Byte := c.setWidth 8

/-- A little-endian `u16`. -/
def le16 (a b : Byte) : BitVec 16 := b ++ a

/-- `td0_decompress_repeated_data`, the loop over the copies of one entry (src/file_parsers/td0.rs:515-524): the
second byte of the pattern is written first. -/
def copies (size : Nat) (a b : Byte) : Nat → List Byte → Except Err (List Byte)
  | 0, out => .ok out
  | k + 1, out =>
    if out.length < size - 1 then copies size a b k (out ++ [b, a])
    else .error .formatParse

/-- One entry of `td0_decompress_repeated_data` (src/file_parsers/td0.rs:511-524). -/
def pairEntry (size : Nat) (out : List Byte) : List Byte → Except Err (List Byte × List Byte)
  | lo :: hi :: a :: b :: rest =>
    match copies size a b (le16 lo hi).toNat out with
    | .error e => .error e
    | .ok out => .ok (out, rest)
  | _ => .error .io

/-- `td0_decompress_repeated_data` (src/file_parsers/td0.rs:504-529).  The bytes written so far and the rest of
the file; each entry takes four bytes, which bounds the fuel. -/
def repeated (size : Nat) : Nat → List Byte → List Byte → Except Err (List Byte × List Byte)
  | 0, _, _ => .error .panic
  | f + 1, out, bs =>
    if out.length < size then
      match pairEntry size out bs with
      | .error e => .error e
      | .ok (out, rest) => repeated size f out rest
    else .ok (out, bs)

/-- The loop over the copies of a pattern (src/file_parsers/td0.rs:559-573).  A slice that ends behind the
output panics. -/
def runs (size : Nat) (pat : List Byte) : Nat → List Byte → Except Err (List Byte)
  | 0, out => .ok out
  | k + 1, out =>
    if out.length < size then
      if size < out.length + pat.length then .error .panic else runs size pat k (out ++ pat)
    else .error .formatParse

/-- One entry of `td0_decompress_rle_data` (src/file_parsers/td0.rs:539-574). -/
def rleEntry (size : Nat) (out : List Byte) : List Byte → Except Err (List Byte × List Byte)
  | code :: arg :: rest =>
    if code = 0#8 then
      if size < out.length + arg.toNat then .error .panic
      else match Imd.take arg.toNat rest with
        | .error e => .error e
        | .ok (d, rest) => .ok (out ++ d, rest)
    else match Imd.take (code.toNat * 2) rest with
      | .error e => .error e
      | .ok (pat, rest) =>
        match runs size pat arg.toNat out with
        | .error e => .error e
        | .ok out => .ok (out, rest)
  | _ => .error .io

/-- `td0_decompress_rle_data` (src/file_parsers/td0.rs:531-586).  Each entry takes two bytes or more. -/
def rle (size : Nat) : Nat → List Byte → List Byte → Except Err (List Byte × List Byte)
  | 0, _, _ => .error .panic
  | f + 1, out, bs =>
    if out.length < size then
      match rleEntry size out bs with
      | .error e => .error e
      | .ok (out, rest) => rle size f out rest
    else .ok (out, bs)

/-- The `match` on the encoding (src/file_parsers/td0.rs:428-447). -/
def decode (enc : Byte) (size : Nat) (bs : List Byte) : Except Err (List Byte × List Byte) :=
  match enc.toNat with
  | 0 => Imd.take size bs
  | 1 => repeated size (bs.length + 1) [] bs
  | 2 => rle size (bs.length + 1) [] bs
  | _ => .error .corrupt

/-- The part of the loop over the sectors after a sector header was read (src/file_parsers/td0.rs:406-483). -/
def sector (t : MetaTrack) (c h s n flags check : Byte) (bs : List Byte) : Except Err (MetaTrack × List Byte) :=
  if flags &&& 0x30#8 != 0#8 then .ok (t, bs)
  else match bs with
    | _ :: _ :: enc :: bs =>
      match decode enc (nSize n.toNat) bs with
      | .error e => .error e
      | .ok (d, bs) =>
        if check ≠ low (crc d 0#16) then .error .corrupt
        else match t.addSector { id := ⟨c.toNat, h.toNat, s.toNat, bytesToN d.length⟩, data := d,
                                 dataError := flags &&& 2#8 != 0#8, deletedMark := flags &&& 4#8 != 0#8 } with
          | .error e => .error e
          | .ok t => .ok (t, bs)
    | _ => .error .io

/-- The loop over the sectors of a track (src/file_parsers/td0.rs:393-484). -/
def sectors : Nat → List Byte → MetaTrack → Except Err (MetaTrack × List Byte)
  | 0, bs, t => .ok (t, bs)
  | k + 1, bs, t =>
    match bs with
    | c :: h :: s :: n :: flags :: check :: bs =>
      match sector t c h s n flags check bs with
      | .error e => .error e
      | .ok (t, bs) => sectors k bs t
    | _ => .error .io

/-- The state of `load_image`: the image and `cylinder_set`. -/
structure State where
  disk : Disk
  cyls : List Nat := []

/-- The body of the loop over the tracks after a header that is not the end mark
(src/file_parsers/td0.rs:378-487). -/
def track (st : State) (n c h check : Byte) (bs : List Byte) : Except Err (State × List Byte) :=
  if check ≠ low (crc [n, c, h] 0#16) then .error .corrupt
  else match st.disk.addMeta ⟨c.toNat, h.toNat⟩ with
    | (_, .error e) => .error e
    | (d, .ok i) =>
      match sectors n.toNat bs { ch := ⟨c.toNat, h.toNat⟩ } with
      | .error e => .error e
      | .ok (t, bs) =>
        .ok ({ disk := { d with pool := d.pool.set i (.sect t) }, cyls := Pri.insertNat st.cyls c.toNat }, bs)

/-- The loop over the tracks (src/file_parsers/td0.rs:358-488): it ends at a header with 255 sectors and at one
that cannot be read in full.  Each track takes four bytes or more, which bounds the fuel. -/
def loop : Nat → State → List Byte → Except Err State
  | 0, _, _ => .error .panic
  | f + 1, st, n :: c :: h :: check :: bs =>
    if n = 0xFF#8 then .ok st
    else match track st n c h check bs with
      | .error e => .error e
      | .ok (st, bs) => loop f st bs
  | _ + 1, st, _ => .ok st

/-- `String::from_utf8(..).is_ok()`. -/
def utf8 (bs : List Byte) : Bool := ByteArray.validateUTF8 ⟨(bs.map UInt8.ofBitVec).toArray⟩

/-- The comment block (src/file_parsers/td0.rs:315-355): what follows it.  `total` is `decompressed_length`, `body`
starts behind the 12 byte file header.  The checksum is computed, which may run out of data, but not enforced. -/
def comment (total : Nat) (body : List Byte) : Except Err (List Byte) :=
  match body with
  | _ :: _ :: lo :: hi :: _ :: _ :: _ :: _ :: _ :: _ :: rest =>
    let len := (le16 lo hi).toNat
    match Imd.take (8 + len) (body.drop 2) with
    | .error e => .error e
    | .ok _ =>
      if total - 10 < len then .error .corrupt
      else match Imd.take len rest with
        | .error e => .error e
        | .ok (text, rest) =>
          if utf8 (text.map fun b => if b = 0#8 then 0x0A#8 else b) then .ok rest else .error .formatParse
  | _ => .error .io

/-- `load_image` from the comment block on (src/file_parsers/td0.rs:312-501). -/
def loadBody (d : Disk) (hasComment : Bool) (heads : Byte) (total : Nat) (body : List Byte) : Except Err Disk :=
  match (if hasComment then comment total body else .ok body) with
  | .error e => .error e
  | .ok bs =>
    match loop (bs.length + 1) { disk := d } bs with
    | .error e => .error e
    | .ok st => .ok { st.disk with geometry := ⟨st.cyls.length % 65536, heads.toNat⟩ }

/-- An error of the expander becomes `ImageCorruptError` (src/file_parsers/td0.rs:296, 302); a panic stays one. -/
def mapErr : Except Err (List Byte) → Except Err (List Byte)
  | .ok x => .ok x
  | .error .panic => .error .panic
  | .error _ => .error .corrupt

/-- `Td0Format::load_image` (src/file_parsers/td0.rs:232-502). -/
def load (d : Disk) (file : List Byte) : Except Err Disk :=
  match file with
  | i0 :: i1 :: sq :: ck :: ver :: rate :: drive :: step :: alloc :: heads :: lo :: hi :: rest =>
    if ¬ ((i0 = 0x54#8 ∧ i1 = 0x44#8) ∨ (i0 = 0x74#8 ∧ i1 = 0x64#8)) then .error .unknownFormat
    else if le16 lo hi ≠ crc [i0, i1, sq, ck, ver, rate, drive, step, alloc, heads] 0#16 then .error .corrupt
    else if i0 = 0x74#8 ∧ i1 = 0x64#8 then
      match mapErr (if ver.toNat / 10 < 2 then Lzw.expand rest else Lzhuf.expand rest) with
      | .error e => .error e
      | .ok body => loadBody d (step &&& 0x80#8 != 0#8) heads body.length body
    else loadBody d (step &&& 0x80#8 != 0#8) heads file.length rest
  | _ => .error .unknownFormat

end Td0
end Fox
