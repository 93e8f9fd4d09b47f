import Verif.Model.WordRead
import Verif.Spec.WordRead
import Verif.Props.Mfm
import Mathlib.Tactic.IntervalCases
/-
C150: a 32-bit number read from an MFM track is the number the four bytes there stand for.
-/
namespace Fox
open Spec

theorem be_word (f : Nat → Bool) :
    (shiftIn 32 0 ((List.range 32).map f)) =
      (byteOfBits ((List.range 8).map fun k => f k) ++ byteOfBits ((List.range 8).map fun k => f (8 + k))
       ++ byteOfBits ((List.range 8).map fun k => f (16 + k)) ++ byteOfBits ((List.range 8).map fun k => f (24 + k)) : BitVec 32) := by
  apply BitVec.eq_of_getLsbD_eq
  intro i hi
  simp only [List.range, List.range.loop, List.map, BitVec.getLsbD_append, byteOfBits]
  interval_cases i <;> simp [-BitVec.getLsbD_eq_getElem, shiftIn_getLsbD]

theorem le_word (f : Nat → Bool) :
    (List.range 4).foldl (fun dword b => dword ||| (shiftIn 32 0 ((List.range 8).map fun k => f (8 * b + k)) <<< (b * 8))) 0 =
      (byteOfBits ((List.range 8).map fun k => f (24 + k)) ++ byteOfBits ((List.range 8).map fun k => f (16 + k))
       ++ byteOfBits ((List.range 8).map fun k => f (8 + k)) ++ byteOfBits ((List.range 8).map fun k => f k) : BitVec 32) := by
  apply BitVec.eq_of_getLsbD_eq
  intro i hi
  simp only [List.range, List.range.loop, List.foldl, List.map, BitVec.getLsbD_append, BitVec.getLsbD_or, BitVec.getLsbD_shiftLeft, byteOfBits]
  interval_cases i <;> simp [-BitVec.getLsbD_eq_getElem, shiftIn_getLsbD]

theorem append4_toNat (a b c d : Byte) : (a ++ b ++ c ++ d : BitVec 32).toNat = beNumber a b c d := by
  have ha := a.isLt; have hb := b.isLt; have hc := c.isLt; have hd := d.isLt
  unfold beNumber
  rw [BitVec.toNat_append, BitVec.toNat_append, BitVec.toNat_append, ← Nat.shiftLeft_add_eq_or_of_lt hb,
    ← Nat.shiftLeft_add_eq_or_of_lt hc, ← Nat.shiftLeft_add_eq_or_of_lt hd]
  simp only [Nat.shiftLeft_eq]
  omega

/-- Byte `k` of a 32-bit read: its eight data cells. -/
def wordByte (s : Mfm) (rnd : Nat → Bool) (i b : Nat) : Byte :=
  byteOfBits ((List.range 8).map fun k => s.cell rnd (s.wordStart i + 2 * (8 * b + k)))

theorem be_bytes (s : Mfm) (rnd : Nat → Bool) (i : Nat) :
    (s.readDecodedU32Be rnd i).toNat = beNumber (wordByte s rnd i 0) (wordByte s rnd i 1) (wordByte s rnd i 2) (wordByte s rnd i 3) := by
  have := be_word fun k => s.cell rnd (s.wordStart i + 2 * k)
  unfold Mfm.readDecodedU32Be
  rw [this, append4_toNat]
  unfold wordByte
  simp only [Nat.mul_zero, Nat.zero_add]

theorem le_bytes (s : Mfm) (rnd : Nat → Bool) (i : Nat) :
    (s.readDecodedU32Le rnd i).toNat = leNumber (wordByte s rnd i 0) (wordByte s rnd i 1) (wordByte s rnd i 2) (wordByte s rnd i 3) := by
  have := le_word fun k => s.cell rnd (s.wordStart i + 2 * k)
  have e : ∀ b k, s.wordStart i + b * 16 + 2 * k = s.wordStart i + 2 * (8 * b + k) := by intros; omega
  unfold Mfm.readDecodedU32Le
  simp only [e]
  rw [this, append4_toNat]
  unfold wordByte beNumber leNumber
  simp only [Nat.mul_zero, Nat.zero_add]

theorem wordByte_inStep {s : Mfm} {i : Nat} (h : InStep s.clockMap.bitAt i) (rnd : Nat → Bool) (b : Nat) (hb : b < 4) :
    wordByte s rnd i b = s.readDecodedU8 rnd (i + 16 * b) := by
  have e : s.nudge (i + 16 * b) + 1 = s.wordStart i + 16 * b := by
    unfold Mfm.nudge Mfm.wordStart
    rcases h with h | h
    · have h0 := h 0 (by omega)
      have h1 := h b hb
      simp only [Nat.mul_zero, Nat.add_zero] at h0
      rw [h0, h1]; simp; omega
    · have h0 := (h 0 (by omega)).1
      obtain ⟨h1, h2⟩ := h b hb
      simp only [Nat.mul_zero, Nat.add_zero] at h0
      rw [h0, h1, h2]; simp; omega
  unfold wordByte Mfm.readDecodedU8
  simp only [e]
  congr 1
  refine List.map_congr_left fun k _ => ?_
  congr 1; omega

/-- **C150 (partial).**  Where the reader is in step with the clock, a 32-bit read gives the number the
four bytes read one by one from there stand for, of either byte order; so it also takes the cells the
clock map says are data.  Missing: places where the clock is out of step, where it fails
(`C150_false_unsynchronised`). -/
theorem C150_number_partial (s : Mfm) (rnd : Nat → Bool) (i : Nat) (h : InStep s.clockMap.bitAt i) :
    (s.readDecodedU32Le rnd i).toNat =
      leNumber (s.readDecodedU8 rnd i) (s.readDecodedU8 rnd (i + 16)) (s.readDecodedU8 rnd (i + 32)) (s.readDecodedU8 rnd (i + 48)) ∧
    (s.readDecodedU32Be rnd i).toNat =
      beNumber (s.readDecodedU8 rnd i) (s.readDecodedU8 rnd (i + 16)) (s.readDecodedU8 rnd (i + 32)) (s.readDecodedU8 rnd (i + 48)) := by
  have w0 := wordByte_inStep h rnd 0 (by omega)
  have w1 := wordByte_inStep h rnd 1 (by omega)
  have w2 := wordByte_inStep h rnd 2 (by omega)
  have w3 := wordByte_inStep h rnd 3 (by omega)
  rw [le_bytes, be_bytes, w0, w1, w2, w3]
  exact ⟨rfl, rfl⟩

theorem number_of_buf {s : Mfm} {rnd : Nat → Bool} {i : Nat} {b0 b1 b2 b3 : Byte} (h : InStep s.clockMap.bitAt i)
    (hr : s.readDecodedBuf rnd 4 i = [b0, b1, b2, b3]) :
    (s.readDecodedU32Le rnd i).toNat = leNumber b0 b1 b2 b3 ∧ (s.readDecodedU32Be rnd i).toNat = beNumber b0 b1 b2 b3 := by
  have e : s.readDecodedBuf rnd 4 i =
      [s.readDecodedU8 rnd i, s.readDecodedU8 rnd (i + 16), s.readDecodedU8 rnd (i + 32), s.readDecodedU8 rnd (i + 48)] := by
    simp [Mfm.readDecodedBuf, List.range, List.range.loop]
  rw [e] at hr
  injection hr with h0 hr
  injection hr with h1 hr
  injection hr with h2 hr
  injection hr with h3 hr
  have := C150_number_partial s rnd i h
  rwa [h0, h1, h2, h3] at this

/-- **C150.**  Four bytes written at a place whose clock cells are marked as such are read from there as
the number they stand for, of either byte order. -/
theorem C150_written (s : Mfm) (rnd : Nat → Bool) (off : Nat) (b0 b1 b2 b3 : Byte)
    (hw : NoWeak s) (hv : s.weakMask.wrapValue = none) (hf : s.bits.wrap = s.bits.len)
    (hfit : off + 64 ≤ s.len) (hc : ∀ j < 32, s.clockMap.bitAt (off + 2 * j) = true) :
    ((s.writeEncodedBuf [b0, b1, b2, b3] off).readDecodedU32Le rnd off).toNat = leNumber b0 b1 b2 b3 ∧
    ((s.writeEncodedBuf [b0, b1, b2, b3] off).readDecodedU32Be rnd off).toNat = beNumber b0 b1 b2 b3 := by
  have h := (C01_write_read s rnd [b0, b1, b2, b3] off hw hv hf hfit (by simp) fun j hj => .inl (hc j hj)).1
  refine number_of_buf ?_ h
  refine .inl fun k hk => ?_
  have := hc (8 * k) (by omega)
  rwa [show off + 2 * (8 * k) = off + 16 * k by omega] at this

/-- **C150.**  Wherever they read, in step or not, the two reads are of the same four bytes in opposite
orders. -/
theorem C150_orders (s : Mfm) (rnd : Nat → Bool) (i : Nat) :
    ∃ b0 b1 b2 b3 : Byte, (s.readDecodedU32Le rnd i).toNat = leNumber b0 b1 b2 b3 ∧
      (s.readDecodedU32Be rnd i).toNat = beNumber b0 b1 b2 b3 :=
  ⟨_, _, _, _, le_bytes s rnd i, be_bytes s rnd i⟩

/-- **C150, refuted.**  On a track without clock (no marker was found on it), the 32-bit reads start a
cell later than the byte reads, and give another number. -/
theorem C150_false_unsynchronised :
    ∃ s : Mfm, s.bits.len = s.clockMap.len ∧ ∀ rnd, (s.readDecodedU32Be rnd 0).toNat ≠
      beNumber (s.readDecodedU8 rnd 0) (s.readDecodedU8 rnd 16) (s.readDecodedU8 rnd 32) (s.readDecodedU8 rnd 48) := by
  refine ⟨{ bits := BitRing.ofBits [false, true], clockMap := BitRing.ofBits [false, false], weakMask := BitRing.ofBits [] }, rfl, ?_⟩
  intro rnd
  have e0 : ∀ i, (Mfm.cell { bits := BitRing.ofBits [false, true], clockMap := BitRing.ofBits [false, false], weakMask := BitRing.ofBits [] } rnd i)
      = (BitRing.ofBits [false, true]).bitAt i := fun i => by simp [Mfm.cell, BitRing.ofBits]
  simp only [Mfm.readDecodedU32Be, Mfm.readDecodedU8, e0]
  decide

/-- The hypotheses of `C150_number_partial` and `C150_written` are met by a track in step: the bytes 12 34 56 78. -/
def wordTrack : Mfm :=
  { bits := BitRing.ofBits (encode [0x12, 0x34, 0x56, 0x78] false)
    clockMap := BitRing.ofBits ((List.range 64).map fun i => i % 2 == 0), weakMask := BitRing.ofBits [] }

example : InStep wordTrack.clockMap.bitAt 0 := .inl (by decide)

example : NoWeak wordTrack ∧ wordTrack.weakMask.wrapValue = none ∧ wordTrack.bits.wrap = wordTrack.bits.len ∧
    0 + 64 ≤ wordTrack.len ∧ ∀ j < 32, wordTrack.clockMap.bitAt (0 + 2 * j) = true :=
  ⟨.inr (by simp [wordTrack, BitRing.ofBits]), rfl, rfl, by decide, by decide⟩

example : (wordTrack.readDecodedU32Le (fun _ => false) 0).toNat = 0x78563412 ∧
    (wordTrack.readDecodedU32Be (fun _ => false) 0).toNat = 0x12345678 := by decide

end Fox
