import Verif.Proofs.Pce
/-
C46: the chunk layer of PCE files (PRI, PSI, PFI).
-/
namespace Fox
open Spec OddEven Pce

/-- **C46.** The chunk checksum is the shift register of the Castagnoli generator, started from zero and fed
with the bits of the data. -/
theorem C46_is_castagnoli (data : List Byte) : crc data = crc32OfBits 0#32 (bitsOf data) := crc_eq_bits data

/-- **C46.** A chunk that was written is read back unchanged, whatever follows it in the file, and the reader
stops exactly at its end. -/
theorem C46_round_trip (mx : Nat) (c : Chunk) (tail : List Byte) (h : c.data.length ≤ mx)
    (h32 : c.data.length < 2 ^ 32) : readChunk mx (writeChunk c ++ tail) = .ok (c, tail) := by
  rw [writeChunk_eq, List.append_assoc, readChunk_frame mx c _ tail h h32]
  simp

example : readChunk maxChunk (writeChunk ⟨idTrak, [1#8, 2#8, 3#8]⟩ ++ [7#8]) =
    .ok (⟨idTrak, [1#8, 2#8, 3#8]⟩, [7#8]) := C46_round_trip _ _ _ (by decide) (by decide)

/-- **C46.** The reader accepts nothing else: what it returns is what the writer would have written, and it is
followed by the rest of the file. -/
theorem C46_accepts_only_written (mx : Nat) (bs rest : List Byte) (c : Chunk)
    (h : readChunk mx bs = .ok (c, rest)) : bs = writeChunk c ++ rest ∧ c.data.length ≤ mx :=
  ⟨(readChunk_ok h).1, (readChunk_ok h).2.1⟩

theorem frame_crc {c : Chunk} {b : List Byte} (hl : b.length = (writeChunk c).length)
    (hs : (b.drop 4).take 4 = ((writeChunk c).drop 4).take 4) (h32 : c.data.length < 2 ^ 32)
    {mx : Nat} (h : c.data.length ≤ mx) (hne : crc (writeChunk c) ≠ crc b) (tail : List Byte) :
    readChunk mx (b ++ tail) = .error .crcError := by
  have hz : crc (writeChunk c) = 0#32 := (residue _ _).2 rfl
  rw [writeChunk_length] at hl
  have he : ((writeChunk c).drop 4).take 4 = be32 (BitVec.ofNat 32 c.data.length) := rfl
  rw [he] at hs
  obtain ⟨c', st, rfl, hn⟩ := frame_of b _ hl hs
  rw [List.append_assoc, readChunk_frame mx c' st tail (by omega) (by omega), if_pos]
  intro e
  exact hne (by rw [hz, (residue _ _).2 e])

/-- **C46.** A change confined to 32 consecutive bits of a stored chunk, outside its size field, is reported
as a CRC error. -/
theorem C46_burst_detected (mx : Nat) (c : Chunk) (h : c.data.length ≤ mx) (h32 : c.data.length < 2 ^ 32)
    (b tail : List Byte) (hne : writeChunk c ≠ b) (p w : Nat) (hw : w ≤ 32)
    (hd : DifferOnlyWithin p w (bitsOf (writeChunk c)) (bitsOf b))
    (hsize : (b.drop 4).take 4 = ((writeChunk c).drop 4).take 4) :
    readChunk mx (b ++ tail) = .error .crcError := by
  have hl : b.length = (writeChunk c).length := by
    have := hd.1; rw [bitsOf_length, bitsOf_length] at this; omega
  exact frame_crc hl hsize h32 h (crc_burst hne p w hw hd) tail

/-- **C46.** So is any odd number of changed bits outside the size field. -/
theorem C46_odd_errors_detected (mx : Nat) (c : Chunk) (h : c.data.length ≤ mx) (h32 : c.data.length < 2 ^ 32)
    (b tail : List Byte) (hl : b.length = (writeChunk c).length)
    (hodd : hamming (bitsOf (writeChunk c)) (bitsOf b) % 2 = 1)
    (hsize : (b.drop 4).take 4 = ((writeChunk c).drop 4).take 4) :
    readChunk mx (b ++ tail) = .error .crcError :=
  frame_crc hl hsize h32 h (crc_odd hl.symm hodd) tail

-- a chunk and a version of it with three changed bits meet the hypotheses of both theorems
example : let c : Chunk := ⟨idText, [0x41#8, 0x42#8]⟩
    let b := (writeChunk c).set 8 0x4F#8
    hamming (bitsOf (writeChunk c)) (bitsOf b) = 3 ∧ b.length = (writeChunk c).length ∧
      (b.drop 4).take 4 = ((writeChunk c).drop 4).take 4 := by decide +kernel
example : let c : Chunk := ⟨idText, [0x41#8, 0x42#8]⟩
    DifferOnlyWithin 64 8 (bitsOf (writeChunk c)) (bitsOf ((writeChunk c).set 8 0x4F#8)) := by
  refine ⟨by decide +kernel, fun i => ?_⟩
  by_cases h : i < 112
  · revert h; revert i; decide +kernel
  · intro hne
    exfalso; apply hne
    rw [List.getElem?_eq_none (by rw [bitsOf_length]; simp [writeChunk_length]; omega),
        List.getElem?_eq_none (by rw [bitsOf_length, List.length_set]; simp [writeChunk_length]; omega)]

/-- **C46.** The constant written at the end of a PRI file is a proper END chunk. -/
theorem C46_footer : footer = writeChunk ⟨idEnd, []⟩ := by decide +kernel

/-- **C46.** A truncated chunk is never accepted: every proper prefix of a written chunk is an IO error. -/
theorem C46_truncated (mx : Nat) (c : Chunk) (h : c.data.length ≤ mx) (h32 : c.data.length < 2 ^ 32) (k : Nat)
    (hk : k < (writeChunk c).length) : readChunk mx ((writeChunk c).take k) = .error .io := by
  rw [writeChunk_length] at hk
  rcases c with ⟨⟨i0, i1, i2, i3⟩, data⟩
  replace h : data.length ≤ mx := h
  replace h32 : data.length < 2 ^ 32 := h32
  replace hk : k < 12 + data.length := hk
  generalize hr : be32 (crc (body ⟨⟨i0, i1, i2, i3⟩, data⟩)) = r
  have hrl : r.length = 4 := by rw [← hr]; rfl
  have e : writeChunk ⟨⟨i0, i1, i2, i3⟩, data⟩ =
      i0 :: i1 :: i2 :: i3 :: (BitVec.ofNat 32 data.length).extractLsb' 24 8 ::
        (BitVec.ofNat 32 data.length).extractLsb' 16 8 :: (BitVec.ofNat 32 data.length).extractLsb' 8 8 ::
        (BitVec.ofNat 32 data.length).extractLsb' 0 8 :: (data ++ r) := by
    rw [writeChunk_eq, hr]
    unfold body Id.bytes be32
    simp
  rw [e]
  match k, hk with
  | 0, _ | 1, _ | 2, _ | 3, _ | 4, _ | 5, _ | 6, _ | 7, _ => rfl
  | k + 8, hk =>
    simp only [List.take_succ_cons]
    unfold readChunk
    simp only
    rw [ofBe32_be32, BitVec.toNat_ofNat, Nat.mod_eq_of_lt h32, if_neg (by omega)]
    by_cases hs : ((data ++ r).take k).length < data.length
    · rw [if_pos hs]
    · rw [if_neg hs]
      rcases hu : u32At ((data ++ r).take k) data.length with _ | st
      · rfl
      · have := (u32At_some hu).2
        rw [List.length_take, List.length_append] at this
        omega

/-- **C46 is false for large chunks.** The writer accepts data of any length, but a chunk above the reader's
limit cannot be read back. -/
theorem C46_false_large (mx : Nat) (c : Chunk) (tail : List Byte) (h : mx < c.data.length)
    (h32 : c.data.length < 2 ^ 32) : readChunk mx (writeChunk c ++ tail) = .error .formatParse := by
  rcases c with ⟨⟨i0, i1, i2, i3⟩, data⟩
  replace h : mx < data.length := h
  replace h32 : data.length < 2 ^ 32 := h32
  generalize hr : be32 (crc (body ⟨⟨i0, i1, i2, i3⟩, data⟩)) = r
  have e : writeChunk ⟨⟨i0, i1, i2, i3⟩, data⟩ =
      i0 :: i1 :: i2 :: i3 :: (BitVec.ofNat 32 data.length).extractLsb' 24 8 ::
        (BitVec.ofNat 32 data.length).extractLsb' 16 8 :: (BitVec.ofNat 32 data.length).extractLsb' 8 8 ::
        (BitVec.ofNat 32 data.length).extractLsb' 0 8 :: (data ++ r) := by
    rw [writeChunk_eq, hr]
    unfold body Id.bytes be32
    simp
  rw [e]
  simp only [List.cons_append]
  unfold readChunk
  simp only
  rw [ofBe32_be32, BitVec.toNat_ofNat, Nat.mod_eq_of_lt h32, if_pos (by omega)]

end Fox
