import Verif.Spec.Td0
import Verif.Proofs.Crc
/-
The checksum of TeleDisk files.
-/
namespace Fox
namespace Td0
open Spec

/-- Feed one bit. -/
def feed (c : BitVec 16) (b : Bool) : BitVec 16 :=
  (c <<< 1) ^^^ (if c.getMsbD 0 ^^ b then 0xA097#16 else 0#16)

theorem msb_and : ∀ c : BitVec 16, (c &&& 0x8000#16 != 0#16) = c.getMsbD 0 := by
  intro c
  have hm : c.getMsbD 0 = c.getLsbD 15 := by simp [BitVec.getMsbD]
  have h15 : ∀ i, i < 16 → (0x8000#16).getLsbD i = decide (i = 15) := by decide
  rw [hm]
  by_cases hv : c.getLsbD 15 = true
  · rw [hv, bne_iff_ne]
    intro h
    have := congrArg (fun x => BitVec.getLsbD x 15) h
    simp only [BitVec.getLsbD_and] at this
    rw [hv, h15 15 (by decide)] at this
    simp at this
  · rw [Bool.not_eq_true] at hv
    rw [hv, bne_eq_false_iff_eq]
    apply BitVec.eq_of_getLsbD_eq
    intro i hi
    rw [BitVec.getLsbD_and, h15 i hi]
    by_cases h : i = 15
    · subst h; rw [hv]; simp
    · rw [decide_eq_false h]; simp

theorem bit_eq (c : BitVec 16) : Td0.crcBit c = feed c false := by
  unfold Td0.crcBit feed
  rw [msb_and, Bool.xor_false]

theorem feed_xor (c d : BitVec 16) (a b : Bool) : feed (c ^^^ d) (a ^^ b) = feed c a ^^^ feed d b := by
  unfold feed
  rw [BitVec.shiftLeft_xor_distrib, BitVec.getMsbD_xor]
  have : ∀ x y z w : Bool, (if (x ^^ y ^^ (z ^^ w)) then 0xA097#16 else 0#16) =
      (if x ^^ z then 0xA097#16 else 0#16) ^^^ (if y ^^ w then 0xA097#16 else 0#16) := by decide
  rw [this]
  ac_rfl

theorem feed_eq (c : BitVec 16) (b : Bool) : feed c b = Td0.crcBit (c ^^^ topBit b) := by
  rw [bit_eq]
  have h := feed_xor c (topBit b) b b
  rw [Bool.xor_self] at h
  rw [h]
  have : feed (topBit b) b = 0#16 := by cases b <;> decide
  rw [this, BitVec.xor_zero]

theorem bit_xor (c d : BitVec 16) : Td0.crcBit (c ^^^ d) = Td0.crcBit c ^^^ Td0.crcBit d := by
  rw [bit_eq, bit_eq, bit_eq]
  exact feed_xor c d false false

theorem bit_eq_zero {c : BitVec 16} (h : Td0.crcBit c = 0#16) : c = 0#16 := by
  rw [bit_eq] at h
  unfold feed at h
  rw [Bool.xor_false] at h
  by_cases hm : c.getMsbD 0 = true
  · rw [if_pos hm] at h
    have h0 := congrArg (fun x => BitVec.getLsbD x 0) h
    simp at h0
  · rw [if_neg hm, BitVec.xor_zero] at h
    apply BitVec.eq_of_getLsbD_eq
    intro i hi
    by_cases h15 : i = 15
    · subst h15
      simpa [BitVec.getMsbD] using hm
    · have h0 := congrArg (fun x => BitVec.getLsbD x (i + 1)) h
      simp only [BitVec.getLsbD_shiftLeft] at h0
      have : decide (i + 1 < 16) = true := by simp; omega
      rw [this] at h0
      simpa using h0

/-- `k` shift steps. -/
def steps : Nat → BitVec 16 → BitVec 16
  | 0, c => c
  | k + 1, c => steps k (Td0.crcBit c)

theorem steps_xor (k : Nat) (c d : BitVec 16) : steps k (c ^^^ d) = steps k c ^^^ steps k d := by
  induction k generalizing c d with
  | zero => rfl
  | succ k ih => simp only [steps, bit_xor, ih]

theorem steps_eq_zero {k : Nat} {c : BitVec 16} (h : steps k c = 0#16) : c = 0#16 := by
  induction k generalizing c with
  | zero => exact h
  | succ k ih => exact bit_eq_zero (ih h)

theorem bit_ushiftRight (w : BitVec 16) (h : w.getLsbD 0 = false) : Td0.crcBit (w >>> 1) = w := by
  rw [bit_eq]
  unfold feed
  have hm : ¬ ((w >>> 1).getMsbD 0 ^^ false) = true := by simp
  rw [if_neg hm, BitVec.xor_zero]
  apply BitVec.eq_of_getLsbD_eq
  intro i hi
  rw [BitVec.getLsbD_shiftLeft]
  by_cases h0 : i = 0
  · subst h0; rw [h]; simp
  · rw [BitVec.getLsbD_ushiftRight]
    have : decide (i < 1) = false := by simp; omega
    rw [this]
    have e : 1 + (i - 1) = i := by omega
    simp [hi, e]

theorem feeds_short (bs : List Bool) (h : bs.length ≤ 16) (c : BitVec 16) :
    bs.foldl feed c = steps bs.length (c ^^^ topWord bs) := by
  induction bs generalizing c with
  | nil => simp [steps, topWord]
  | cons b bs ih =>
    simp only [List.length_cons] at h
    rw [List.foldl_cons, ih (by omega), List.length_cons, steps, feed_eq, topWord]
    congr 1
    have := bit_ushiftRight (topWord bs) (topWord_getLsbD_low bs 0 (by omega))
    rw [← BitVec.xor_assoc, bit_xor (c ^^^ topBit b), this]

theorem crcByte_feed (c : BitVec 16) (b : Byte) : Td0.crcByte c b = (byteBits b).foldl feed c := by
  rw [feeds_short _ (by simp [byteBits]), topWord_byteBits]
  rfl

theorem crc_feed (data : List Byte) (c : BitVec 16) : Td0.crc data c = (bitsOf data).foldl feed c := by
  unfold Td0.crc bitsOf
  induction data generalizing c with
  | nil => rfl
  | cons b data ih => rw [List.foldl_cons, List.flatMap_cons, List.foldl_append, crcByte_feed, ih]

/-- The code's checksum is the register of the specification. -/
theorem crc_eq (data : List Byte) : Td0.crc data 0#16 = td0Check data := crc_feed data 0#16

theorem crcByte_steps (c : BitVec 16) (b : Byte) : Td0.crcByte c b = steps 8 (c ^^^ ((b.setWidth 16) <<< 8)) := rfl

theorem crc_state_inj (data : List Byte) {c d : BitVec 16} (h : Td0.crc data c = Td0.crc data d) : c = d := by
  induction data generalizing c d with
  | nil => exact h
  | cons b data ih =>
    have := ih (show Td0.crc data (Td0.crcByte c b) = Td0.crc data (Td0.crcByte d b) from h)
    rw [crcByte_steps, crcByte_steps, steps_xor, steps_xor 8 d] at this
    have h2 : steps 8 (c ^^^ d) = 0#16 := by
      rw [steps_xor]
      have e : steps 8 c = steps 8 d := by
        have := congrArg (· ^^^ steps 8 ((b.setWidth 16) <<< 8)) this
        simpa [BitVec.xor_assoc] using this
      rw [e, BitVec.xor_self]
    exact BitVec.xor_eq_zero_iff.1 (steps_eq_zero h2)

theorem crcByte_inj {c : BitVec 16} {a b : Byte} (h : Td0.crcByte c a = Td0.crcByte c b) : a = b := by
  rw [crcByte_steps, crcByte_steps, steps_xor, steps_xor 8 c] at h
  have h2 : steps 8 (((a.setWidth 16) <<< 8) ^^^ ((b.setWidth 16) <<< 8)) = 0#16 := by
    rw [steps_xor]
    have e : steps 8 ((a.setWidth 16) <<< 8) = steps 8 ((b.setWidth 16) <<< 8) := by
      have := congrArg (steps 8 c ^^^ ·) h
      simpa [← BitVec.xor_assoc] using this
    rw [e, BitVec.xor_self]
  have h3 := BitVec.xor_eq_zero_iff.1 (steps_eq_zero h2)
  apply BitVec.eq_of_getLsbD_eq
  intro i hi
  have := congrArg (fun x => BitVec.getLsbD x (i + 8)) h3
  simp only [BitVec.getLsbD_shiftLeft, BitVec.getLsbD_setWidth] at this
  have e1 : decide (i + 8 < 16) = true := by simp; omega
  have e2 : decide (i + 8 < 8) = false := by simp
  have e3 : decide (i + 8 - 8 < 16) = true := by simp; omega
  rw [e1, e2, e3, Nat.add_sub_cancel] at this
  simpa using this

/-- A changed byte changes the checksum. -/
theorem crc_byte_changed (pre post : List Byte) (a b : Byte) (c : BitVec 16)
    (h : Td0.crc (pre ++ a :: post) c = Td0.crc (pre ++ b :: post) c) : a = b := by
  unfold Td0.crc at h
  rw [List.foldl_append, List.foldl_append, List.foldl_cons, List.foldl_cons] at h
  exact crcByte_inj (crc_state_inj post h)

theorem le16_word (x : BitVec 16) : le16 (x.setWidth 8) ((x >>> 8).setWidth 8) = x := by
  unfold le16
  apply BitVec.eq_of_getLsbD_eq
  intro i hi
  rw [BitVec.getLsbD_append]
  by_cases h : i < 8
  · rw [if_pos h]; simp [h]
  · rw [if_neg h]
    simp only [BitVec.getLsbD_setWidth, BitVec.getLsbD_ushiftRight]
    rw [decide_eq_true (by omega : i - 8 < 8), show 8 + (i - 8) = i by omega, Bool.true_and]

theorem le16_inj {a b c d : Byte} (h : le16 a b = le16 c d) : a = c ∧ b = d := by
  unfold le16 at h
  constructor
  · apply BitVec.eq_of_getLsbD_eq
    intro i hi
    have := congrArg (fun x : BitVec 16 => x.getLsbD i) h
    rw [BitVec.getLsbD_append, BitVec.getLsbD_append, if_pos hi, if_pos hi] at this
    exact this
  · apply BitVec.eq_of_getLsbD_eq
    intro i hi
    have := congrArg (fun x : BitVec 16 => x.getLsbD (i + 8)) h
    rw [BitVec.getLsbD_append, BitVec.getLsbD_append, if_neg (by omega), if_neg (by omega), Nat.add_sub_cancel] at this
    exact this

end Td0
end Fox
