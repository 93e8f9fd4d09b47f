import Verif.Model.Mfm
/-
Model of the 32-bit reads of the MFM codec (src/bitstream_codec/mfm.rs:269-319).
-/
namespace Fox
namespace Mfm

/-- Where both 32-bit reads start: `cursor += !clock_map[cursor] as usize; cursor += 1`
(src/bitstream_codec/mfm.rs:273-276, 301-304).  Unlike `nudge`, the next cell is not looked at. -/
def wordStart (s : Mfm) (index : Nat) : Nat := index + (if s.clockMap.bitAt index then 0 else 1) + 1

/-- `read_decoded_u32_le` (src/bitstream_codec/mfm.rs:269-295): four bytes of eight data cells, the
`b`-th shifted up by `b * 8`.  The cursor is carried on from byte to byte. -/
def readDecodedU32Le (s : Mfm) (rnd : Nat → Bool) (index : Nat) : BitVec 32 :=
  (List.range 4).foldl (fun dword b =>
    dword ||| (shiftIn 32 0 ((List.range 8).map fun k => s.cell rnd (s.wordStart index + b * 16 + 2 * k)) <<< (b * 8))) 0

/-- `read_decoded_u32_be` (src/bitstream_codec/mfm.rs:297-319). -/
def readDecodedU32Be (s : Mfm) (rnd : Nat → Bool) (index : Nat) : BitVec 32 :=
  shiftIn 32 0 ((List.range 32).map fun k => s.cell rnd (s.wordStart index + 2 * k))

end Mfm
end Fox
