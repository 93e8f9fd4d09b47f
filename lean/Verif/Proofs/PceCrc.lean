import Verif.Model.Pce
import Verif.Spec.Pce
import Verif.Spec.Crc
import Verif.Props.Crc
/-
The CRC of PCE chunks as a linear shift register (same development as Proofs/Crc.lean, for 32 bits).
-/
namespace Fox.Pce
open Spec

theorem castagnoli_eq : castagnoli = 0x1EDC6F41#32 := by decide

theorem crcBit_eq (c : BitVec 32) : crcBit c = lfsr32 c false := by
  unfold crcBit lfsr32
  rw [castagnoli_eq]
  by_cases h : c.getMsbD 0 <;> simp [h]

theorem lfsr32_xor (c d : BitVec 32) (a b : Bool) :
    lfsr32 (c ^^^ d) (a ^^ b) = lfsr32 c a ^^^ lfsr32 d b := by
  unfold lfsr32
  rw [castagnoli_eq, BitVec.shiftLeft_xor_distrib, BitVec.getMsbD_xor]
  have : ∀ x y z w : Bool, (if (x ^^ y ^^ (z ^^ w)) then 0x1EDC6F41#32 else 0#32) =
      (if x ^^ z then 0x1EDC6F41#32 else 0#32) ^^^ (if y ^^ w then 0x1EDC6F41#32 else 0#32) := by decide
  rw [this]
  ac_rfl

/-- The top-bit word of a message bit. -/
def topBit (b : Bool) : BitVec 32 := if b then 0x80000000#32 else 0#32

theorem lfsr32_eq_crcBit (c : BitVec 32) (b : Bool) : lfsr32 c b = crcBit (c ^^^ topBit b) := by
  rw [crcBit_eq]
  have h := lfsr32_xor c (topBit b) b b
  rw [Bool.xor_self] at h
  rw [h]
  have : lfsr32 (topBit b) b = 0#32 := by cases b <;> decide
  rw [this, BitVec.xor_zero]

theorem crcBit_xor (c d : BitVec 32) : crcBit (c ^^^ d) = crcBit c ^^^ crcBit d := by
  rw [crcBit_eq, crcBit_eq, crcBit_eq]
  exact lfsr32_xor c d false false

theorem crcBit_zero : crcBit 0#32 = 0#32 := by decide

theorem crcBit_eq_zero {c : BitVec 32} (h : crcBit c = 0#32) : c = 0#32 := by
  unfold crcBit at h
  by_cases hm : c.getMsbD 0 = true
  · rw [if_pos hm] at h
    have h0 := congrArg (fun x => BitVec.getLsbD x 0) h
    simp at h0
  · rw [if_neg hm] at h
    apply BitVec.eq_of_getLsbD_eq
    intro i hi
    by_cases h15 : i = 31
    · subst h15
      simpa [BitVec.getMsbD] using hm
    · have h0 := congrArg (fun x => BitVec.getLsbD x (i + 1)) h
      simp only [BitVec.getLsbD_shiftLeft] at h0
      have : decide (i + 1 < 32) = true := by simp; omega
      rw [this] at h0
      simpa using h0

/-- `k` shift steps. -/
def crcSteps : Nat → BitVec 32 → BitVec 32
  | 0, c => c
  | k + 1, c => crcSteps k (crcBit c)

theorem crcSteps_xor (k : Nat) (c d : BitVec 32) :
    crcSteps k (c ^^^ d) = crcSteps k c ^^^ crcSteps k d := by
  induction k generalizing c d with
  | zero => rfl
  | succ k ih => simp only [crcSteps, crcBit_xor, ih]

theorem crcSteps_eq_zero {k : Nat} {c : BitVec 32} (h : crcSteps k c = 0#32) : c = 0#32 := by
  induction k generalizing c with
  | zero => exact h
  | succ k ih => exact crcBit_eq_zero (ih h)

/-- Bits placed at the top of a 32-bit word, most significant first. -/
def topWord : List Bool → BitVec 32
  | [] => 0#32
  | b :: bs => topBit b ^^^ (topWord bs >>> 1)

/-- Lowest bit that `topWord` of `k` bits can set is `32 - k`. -/
theorem topWord_getLsbD_low (bs : List Bool) (i : Nat) (h : i + bs.length < 32) :
    (topWord bs).getLsbD i = false := by
  induction bs generalizing i with
  | nil => simp [topWord]
  | cons b bs ih =>
    simp only [List.length_cons] at h
    simp only [topWord, BitVec.getLsbD_xor, BitVec.getLsbD_ushiftRight]
    rw [Nat.add_comm 1 i, ih (i + 1) (by omega), Bool.xor_false]
    have : ∀ i < 31, ∀ b : Bool, (topBit b).getLsbD i = false := by decide
    exact this i (by omega) b

theorem crcBit_ushiftRight (w : BitVec 32) (h : w.getLsbD 0 = false) : crcBit (w >>> 1) = w := by
  unfold crcBit
  have hm : ¬ (w >>> 1).getMsbD 0 = true := by simp
  rw [if_neg hm]
  apply BitVec.eq_of_getLsbD_eq
  intro i hi
  rw [BitVec.getLsbD_shiftLeft]
  by_cases h0 : i = 0
  · subst h0; rw [h]; simp
  · rw [BitVec.getLsbD_ushiftRight]
    have : decide (i < 1) = false := by simp; omega
    rw [this]
    have e : 1 + (i - 1) = i := by omega
    simp [hi, e]

/-- Feeding at most 32 bits is XORing them into the top of the register and then shifting. -/
theorem crc32OfBits_short (bs : List Bool) (h : bs.length ≤ 32) (c : BitVec 32) :
    crc32OfBits c bs = crcSteps bs.length (c ^^^ topWord bs) := by
  induction bs generalizing c with
  | nil => simp [crc32OfBits, crcSteps, topWord]
  | cons b bs ih =>
    simp only [List.length_cons] at h
    have e1 : crc32OfBits c (b :: bs) = crc32OfBits (lfsr32 c b) bs := rfl
    rw [e1, ih (by omega), List.length_cons, crcSteps, lfsr32_eq_crcBit, topWord]
    congr 1
    have := crcBit_ushiftRight (topWord bs) (topWord_getLsbD_low bs 0 (by omega))
    rw [← BitVec.xor_assoc, crcBit_xor (c ^^^ topBit b), this]

theorem topWord_byteBits : ∀ b : Byte, topWord (byteBits b) = (b.setWidth 32) <<< 24 := by
  intro b
  apply BitVec.eq_of_getLsbD_eq
  intro i hi
  simp only [topWord, byteBits, BitVec.getLsbD_xor, BitVec.getLsbD_ushiftRight,
    BitVec.getLsbD_shiftLeft, BitVec.getLsbD_setWidth, BitVec.ushiftRight_xor_distrib]
  have hb : ∀ (x : Bool) (j : Nat), (topBit x).getLsbD j = (x && decide (j = 31)) := by
    intro x j
    by_cases hj : j < 32
    · revert x; revert j; decide
    · rw [BitVec.getLsbD_of_ge _ _ (by omega)]
      have : decide (j = 31) = false := by simp; omega
      rw [this, Bool.and_false]
  simp only [hb]
  revert i
  intro i hi
  match i, hi with
  | 0, _ => simp [BitVec.getMsbD]
  | 1, _ => simp [BitVec.getMsbD]
  | 2, _ => simp [BitVec.getMsbD]
  | 3, _ => simp [BitVec.getMsbD]
  | 4, _ => simp [BitVec.getMsbD]
  | 5, _ => simp [BitVec.getMsbD]
  | 6, _ => simp [BitVec.getMsbD]
  | 7, _ => simp [BitVec.getMsbD]
  | 8, _ => simp [BitVec.getMsbD]
  | 9, _ => simp [BitVec.getMsbD]
  | 10, _ => simp [BitVec.getMsbD]
  | 11, _ => simp [BitVec.getMsbD]
  | 12, _ => simp [BitVec.getMsbD]
  | 13, _ => simp [BitVec.getMsbD]
  | 14, _ => simp [BitVec.getMsbD]
  | 15, _ => simp [BitVec.getMsbD]
  | 16, _ => simp [BitVec.getMsbD]
  | 17, _ => simp [BitVec.getMsbD]
  | 18, _ => simp [BitVec.getMsbD]
  | 19, _ => simp [BitVec.getMsbD]
  | 20, _ => simp [BitVec.getMsbD]
  | 21, _ => simp [BitVec.getMsbD]
  | 22, _ => simp [BitVec.getMsbD]
  | 23, _ => simp [BitVec.getMsbD]
  | 24, _ => simp [BitVec.getMsbD]
  | 25, _ => simp [BitVec.getMsbD]
  | 26, _ => simp [BitVec.getMsbD]
  | 27, _ => simp [BitVec.getMsbD]
  | 28, _ => simp [BitVec.getMsbD]
  | 29, _ => simp [BitVec.getMsbD]
  | 30, _ => simp [BitVec.getMsbD]
  | 31, _ => simp [BitVec.getMsbD]
  | i + 32, h => omega

theorem crcByte_eq (c : BitVec 32) (b : Byte) : crcByte c b = crc32OfBits c (byteBits b) := by
  rw [crc32OfBits_short _ (by simp [byteBits]), topWord_byteBits]
  rfl

theorem crc32OfBits_append (c : BitVec 32) (a b : List Bool) :
    crc32OfBits c (a ++ b) = crc32OfBits (crc32OfBits c a) b := by
  unfold crc32OfBits; rw [List.foldl_append]

theorem crc_eq_bits (data : List Byte) : crc data = crc32OfBits 0#32 (bitsOf data) := by
  unfold crc
  generalize 0#32 = c
  induction data generalizing c with
  | nil => rfl
  | cons b bs ih =>
    rw [List.foldl_cons, ih, crcByte_eq]
    show _ = crc32OfBits c (byteBits b ++ bitsOf bs)
    rw [crc32OfBits_append]

/-- Linearity on equal-length strings. -/
theorem crc32OfBits_linear (a b : List Bool) (h : a.length = b.length) (c d : BitVec 32) :
    crc32OfBits (c ^^^ d) (List.zipWith (· ^^ ·) a b) = crc32OfBits c a ^^^ crc32OfBits d b := by
  induction a generalizing b c d with
  | nil => cases b with
    | nil => rfl
    | cons _ _ => simp at h
  | cons x a ih => cases b with
    | nil => simp at h
    | cons y b =>
      have h' : a.length = b.length := by simpa using h
      show crc32OfBits (lfsr32 (c ^^^ d) (x ^^ y)) (List.zipWith (· ^^ ·) a b) = _
      rw [lfsr32_xor]
      exact ih b h' _ _

theorem crc32OfBits_zeros (k : Nat) (c : BitVec 32) :
    crc32OfBits c (List.replicate k false) = crcSteps k c := by
  induction k generalizing c with
  | zero => rfl
  | succ k ih =>
    show crc32OfBits (lfsr32 c false) (List.replicate k false) = _
    rw [← crcBit_eq, ih]; rfl

theorem crcSteps_zero (k : Nat) : crcSteps k 0#32 = 0#32 := by
  induction k with
  | zero => rfl
  | succ k ih => rw [crcSteps, crcBit_zero, ih]

/-- `topWord` loses nothing on at most 32 bits. -/
theorem topWord_getMsbD (bs : List Bool) (i : Nat) (hi : i < 32) (h : bs.length ≤ 32) :
    (topWord bs).getMsbD i = bs.getD i false := by
  induction bs generalizing i with
  | nil => simp [topWord]
  | cons b bs ih =>
    simp only [List.length_cons] at h
    rw [topWord, BitVec.getMsbD_xor]
    cases i with
    | zero =>
      rw [BitVec.getMsbD_ushiftRight]
      have : (topBit b).getMsbD 0 = b := by cases b <;> decide
      simp [this]
    | succ i =>
      rw [BitVec.getMsbD_ushiftRight]
      have h0 : ∀ i < 31, ∀ b : Bool, (topBit b).getMsbD (i + 1) = false := by decide
      rw [h0 i (by omega) b, Nat.add_sub_cancel, ih i (by omega) (by omega)]
      have : ¬ (i + 1 < 1) := by omega
      simp [hi]

theorem topWord_ne_zero (bs : List Bool) (h : bs.length ≤ 32) (i : Nat)
    (hi : bs.getD i false = true) : topWord bs ≠ 0#32 := by
  intro e
  have hlt : i < 32 := by
    rcases Nat.lt_or_ge i 32 with h1 | h1
    · exact h1
    · rw [List.getD_eq_getElem?_getD, List.getElem?_eq_none (by omega)] at hi; simp at hi
  have := topWord_getMsbD bs i hlt h
  rw [e, hi] at this
  simp at this

/-- A nonzero error word confined to a 32-bit window has a nonzero syndrome. -/
theorem burst_syndrome (d : List Bool) (p w : Nat) (hw : w ≤ 32)
    (hz : ∀ i, d.getD i false = true → p ≤ i ∧ i < p + w) (i : Nat) (hi : d.getD i false = true) :
    crc32OfBits 0#32 d ≠ 0#32 := by
  have hd : d = List.take p d ++ (List.take w (List.drop p d) ++ List.drop w (List.drop p d)) := by
    rw [List.take_append_drop, List.take_append_drop]
  have h1 : List.take p d = List.replicate (List.take p d).length false := by
    rw [List.eq_replicate_iff]
    refine ⟨rfl, fun b hb => ?_⟩
    obtain ⟨j, hj, rfl⟩ := List.mem_iff_getElem.1 hb
    rw [List.length_take] at hj
    rw [List.getElem_take]
    by_cases hv : d[j] = true
    · have := hz j (by rw [List.getD_eq_getElem?_getD, List.getElem?_eq_getElem (by omega)]; exact hv)
      omega
    · simpa using hv
  have h3 : List.drop w (List.drop p d) =
      List.replicate (List.drop w (List.drop p d)).length false := by
    rw [List.eq_replicate_iff]
    refine ⟨rfl, fun b hb => ?_⟩
    obtain ⟨j, hj, rfl⟩ := List.mem_iff_getElem.1 hb
    rw [List.length_drop, List.length_drop] at hj
    rw [List.getElem_drop, List.getElem_drop]
    by_cases hv : d[p + (w + j)] = true
    · have := hz (p + (w + j))
        (by rw [List.getD_eq_getElem?_getD, List.getElem?_eq_getElem (by omega)]; exact hv)
      omega
    · simpa using hv
  rw [hd, crc32OfBits_append, h1, crc32OfBits_zeros, crcSteps_zero, crc32OfBits_append, h3,
    crc32OfBits_zeros, crc32OfBits_short _ (by rw [List.length_take]; omega)]
  intro e
  have e := crcSteps_eq_zero (crcSteps_eq_zero e)
  rw [BitVec.zero_xor] at e
  have hb := hz i hi
  refine topWord_ne_zero (List.take w (List.drop p d)) (by rw [List.length_take]; omega) (i - p) ?_ e
  rw [List.getD_eq_getElem?_getD] at hi ⊢
  rw [List.getElem?_take, if_pos (by omega), List.getElem?_drop, show p + (i - p) = i by omega]
  exact hi


end Fox.Pce
