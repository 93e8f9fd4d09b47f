import Verif.Model.BitLoad
/-
Model of the HFE loader (src/file_parsers/hfe.rs).  The file is a list of bytes.  Not modelled: the source map,
logging; of the descriptor the geometry, the data rate (its variant), the density and the write protection are.
-/
namespace Fox
namespace Hfe

/-- `reverse_bits` (src/file_parsers/hfe.rs:47-53); `REVERSE_TABLE` (55-65) tabulates it. -/
def reverseBits (b : Byte) : Byte :=
  let b := b.rotateLeft 4
  let b := ((b &&& 0x33#8) <<< 2) ||| ((b &&& 0xCC#8) >>> 2)
  ((b &&& 0x55#8) <<< 1) ||| ((b &&& 0xAA#8) >>> 1)

/-- The signature `HXCPICFE`. -/
def signature : List Byte := [0x48#8, 0x58#8, 0x43#8, 0x50#8, 0x49#8, 0x43#8, 0x46#8, 0x45#8]

/-- `From<u8> for HfeFloppyInterface` and `From<HfeFloppyInterface> for TrackDensity`
(src/file_parsers/hfe.rs:90-111, 150-171). -/
def density (mode : Nat) : F86.Density :=
  if mode = 1 ∨ mode = 3 ∨ mode = 5 ∨ mode = 0x0D then .high else if mode = 8 then .extended else .double

/-- The table of tracks (src/file_parsers/hfe.rs:340-348): offsets and lengths. -/
def table (f : List Byte) : Nat → Nat → Except Err (List (Nat × Nat))
  | 0, _ => .ok []
  | k + 1, o =>
    match readAt f o 4 with
    | .error e => .error e
    | .ok _ =>
      if le16At f (o + 2) % 2 ≠ 0 then .error .formatParse
      else match table f k (o + 4) with
        | .error e => .error e
        | .ok l => .ok ((le16At f o, le16At f (o + 2)) :: l)

/-- The loop over the blocks of a track (src/file_parsers/hfe.rs:381-428): the bytes of both heads.  `rem` is
`bytes_remaining`, even, `pos` where the stream stands; a block of fewer than 512 bytes is the last. -/
def blocks (f : List Byte) : Nat → Nat → Nat → List Byte → List Byte → Except Err (List Byte × List Byte)
  | 0, _, _, _, _ => .error .panic
  | fuel + 1, rem, pos, a, b =>
    if rem = 0 then .ok (a, b)
    else
      let size := if rem ≥ 512 then 256 else rem / 2
      match readAt f pos size with
      | .error e => .error e
      | .ok x =>
        match readAt f (pos + size) size with
        | .error e => .error e
        | .ok y =>
          if rem ≥ 512 then blocks f fuel (rem - 512) (pos + 512) (a ++ x.map reverseBits) (b ++ y.map reverseBits)
          else .ok (a ++ x.map reverseBits, b ++ y.map reverseBits)

/-- What follows a track in the table, or the end of the file (src/file_parsers/hfe.rs:355-361). -/
def nextStart (f : List Byte) : List (Nat × Nat) → Nat
  | [] => f.length
  | e :: _ => 512 * e.1

/-- The loop over the tracks (src/file_parsers/hfe.rs:350-482).  The length of the data block is computed, which may
overflow, but only logged. -/
def tracks (debug : Bool) (rnd : Nat → Bool) (sides : Nat) (f : List Byte) :
    List (Nat × Nat) → Nat → Disk → Except Err Disk
  | [], _, d => .ok d
  | (o, len) :: rest, c, d =>
    match F86.subU debug 64 (nextStart f rest) (512 * o) with
    | .error e => .error e
    | .ok _ =>
      match blocks f (len + 1) len (512 * o) [] [] with
      | .error e => .error e
      | .ok (a, b) =>
        match d.addBit ⟨c, 0⟩ (Track.ofBytes debug rnd a none false) with
        | (_, .error e) => .error e
        | (d, .ok _) =>
          if sides > 1 then
            match d.addBit ⟨c, 1⟩ (Track.ofBytes debug rnd b none false) with
            | (_, .error e) => .error e
            | (d, .ok _) => tracks debug rnd sides f rest (c + 1) d
          else tracks debug rnd sides f rest (c + 1) d

/-- What the loader says about the disk besides its tracks: the data rate of every track, that of the disk, the
density, the write protection. -/
structure Info where
  trackRate : F86.Rate
  rate : F86.Rate
  density : F86.Density
  writeProtect : Bool
  deriving DecidableEq, Repr

/-- `HfeFormat::load_image` (src/file_parsers/hfe.rs:308-494). -/
def load (debug : Bool) (rnd : Nat → Bool) (d : Disk) (f : List Byte) : Except Err (Disk × Info) :=
  match readAt f 0 26 with
  | .error e => .error e
  | .ok _ =>
    if f.take 8 ≠ signature then .error .unknownFormat
    else match table f (u8At f 9) (512 * le16At f 18) with
      | .error e => .error e
      | .ok l =>
        match tracks debug rnd (u8At f 10) f l 0 d with
        | .error e => .error e
        | .ok d =>
          .ok ({ d with geometry := ⟨u8At f 9, u8At f 10⟩ },
            { trackRate := rateOf (le16At f 12 * 100), rate := rateOf (le16At f 12 * 1000),
              density := density (u8At f 16), writeProtect := u8At f 20 == 0 })

end Hfe
end Fox
