import Verif.Model.System34
import Verif.Spec.Crc
namespace Fox
open Spec

theorem crcBit_eq (c : BitVec 16) : crcBit c = lfsr c false := by
  unfold crcBit lfsr
  by_cases h : c.getMsbD 0 <;> simp [h]

theorem lfsr_xor (c d : BitVec 16) (a b : Bool) :
    lfsr (c ^^^ d) (a ^^ b) = lfsr c a ^^^ lfsr d b := by
  unfold lfsr
  rw [BitVec.shiftLeft_xor_distrib, BitVec.getMsbD_xor]
  have : ∀ x y z w : Bool, (if (x ^^ y ^^ (z ^^ w)) then 0x1021#16 else 0#16) =
      (if x ^^ z then 0x1021#16 else 0#16) ^^^ (if y ^^ w then 0x1021#16 else 0#16) := by decide
  rw [this]
  ac_rfl

/-- The top-bit word of a message bit. -/
def topBit (b : Bool) : BitVec 16 := if b then 0x8000#16 else 0#16

theorem lfsr_eq_crcBit (c : BitVec 16) (b : Bool) : lfsr c b = crcBit (c ^^^ topBit b) := by
  rw [crcBit_eq]
  have h := lfsr_xor c (topBit b) b b
  rw [Bool.xor_self] at h
  rw [h]
  have : lfsr (topBit b) b = 0#16 := by cases b <;> decide
  rw [this, BitVec.xor_zero]

theorem crcBit_xor (c d : BitVec 16) : crcBit (c ^^^ d) = crcBit c ^^^ crcBit d := by
  rw [crcBit_eq, crcBit_eq, crcBit_eq]
  exact lfsr_xor c d false false

theorem crcBit_zero : crcBit 0#16 = 0#16 := by decide

theorem crcBit_eq_zero {c : BitVec 16} (h : crcBit c = 0#16) : c = 0#16 := by
  unfold crcBit at h
  by_cases hm : c.getMsbD 0 = true
  · rw [if_pos hm] at h
    have h0 := congrArg (fun x => BitVec.getLsbD x 0) h
    simp at h0
  · rw [if_neg hm] at h
    apply BitVec.eq_of_getLsbD_eq
    intro i hi
    by_cases h15 : i = 15
    · subst h15
      simpa [BitVec.getMsbD] using hm
    · have h0 := congrArg (fun x => BitVec.getLsbD x (i + 1)) h
      simp only [BitVec.getLsbD_shiftLeft] at h0
      have : decide (i + 1 < 16) = true := by simp; omega
      rw [this] at h0
      simpa using h0

/-- `k` shift steps. -/
def crcSteps : Nat → BitVec 16 → BitVec 16
  | 0, c => c
  | k + 1, c => crcSteps k (crcBit c)

theorem crcSteps_xor (k : Nat) (c d : BitVec 16) :
    crcSteps k (c ^^^ d) = crcSteps k c ^^^ crcSteps k d := by
  induction k generalizing c d with
  | zero => rfl
  | succ k ih => simp only [crcSteps, crcBit_xor, ih]

theorem crcSteps_eq_zero {k : Nat} {c : BitVec 16} (h : crcSteps k c = 0#16) : c = 0#16 := by
  induction k generalizing c with
  | zero => exact h
  | succ k ih => exact crcBit_eq_zero (ih h)

/-- Bits placed at the top of a 16-bit word, most significant first. -/
def topWord : List Bool → BitVec 16
  | [] => 0#16
  | b :: bs => topBit b ^^^ (topWord bs >>> 1)

/-- Lowest bit that `topWord` of `k` bits can set is `16 - k`. -/
theorem topWord_getLsbD_low (bs : List Bool) (i : Nat) (h : i + bs.length < 16) :
    (topWord bs).getLsbD i = false := by
  induction bs generalizing i with
  | nil => simp [topWord]
  | cons b bs ih =>
    simp only [List.length_cons] at h
    simp only [topWord, BitVec.getLsbD_xor, BitVec.getLsbD_ushiftRight]
    rw [Nat.add_comm 1 i, ih (i + 1) (by omega), Bool.xor_false]
    have : ∀ i < 15, ∀ b : Bool, (topBit b).getLsbD i = false := by decide
    exact this i (by omega) b

theorem crcBit_ushiftRight (w : BitVec 16) (h : w.getLsbD 0 = false) : crcBit (w >>> 1) = w := by
  unfold crcBit
  have hm : ¬ (w >>> 1).getMsbD 0 = true := by simp
  rw [if_neg hm]
  apply BitVec.eq_of_getLsbD_eq
  intro i hi
  rw [BitVec.getLsbD_shiftLeft]
  by_cases h0 : i = 0
  · subst h0; rw [h]; simp
  · rw [BitVec.getLsbD_ushiftRight]
    have : decide (i < 1) = false := by simp; omega
    rw [this]
    have e : 1 + (i - 1) = i := by omega
    simp [hi, e]

/-- Feeding at most 16 bits is XORing them into the top of the register and then shifting. -/
theorem crcOfBits_short (bs : List Bool) (h : bs.length ≤ 16) (c : BitVec 16) :
    crcOfBits c bs = crcSteps bs.length (c ^^^ topWord bs) := by
  induction bs generalizing c with
  | nil => simp [crcOfBits, crcSteps, topWord]
  | cons b bs ih =>
    simp only [List.length_cons] at h
    have e1 : crcOfBits c (b :: bs) = crcOfBits (lfsr c b) bs := rfl
    rw [e1, ih (by omega), List.length_cons, crcSteps, lfsr_eq_crcBit, topWord]
    congr 1
    have := crcBit_ushiftRight (topWord bs) (topWord_getLsbD_low bs 0 (by omega))
    rw [← BitVec.xor_assoc, crcBit_xor (c ^^^ topBit b), this]

theorem topWord_byteBits : ∀ b : Byte, topWord (byteBits b) = (b.setWidth 16) <<< 8 := by
  intro b
  apply BitVec.eq_of_getLsbD_eq
  intro i hi
  simp only [topWord, byteBits, BitVec.getLsbD_xor, BitVec.getLsbD_ushiftRight,
    BitVec.getLsbD_shiftLeft, BitVec.getLsbD_setWidth, BitVec.ushiftRight_xor_distrib]
  have hb : ∀ (x : Bool) (j : Nat), (topBit x).getLsbD j = (x && decide (j = 15)) := by
    intro x j
    by_cases hj : j < 16
    · revert x; revert j; decide
    · rw [BitVec.getLsbD_of_ge _ _ (by omega)]
      have : decide (j = 15) = false := by simp; omega
      rw [this, Bool.and_false]
  simp only [hb]
  have hcases : i = 0 ∨ i = 1 ∨ i = 2 ∨ i = 3 ∨ i = 4 ∨ i = 5 ∨ i = 6 ∨ i = 7 ∨ i = 8 ∨ i = 9 ∨
    i = 10 ∨ i = 11 ∨ i = 12 ∨ i = 13 ∨ i = 14 ∨ i = 15 := by omega
  rcases hcases with rfl|rfl|rfl|rfl|rfl|rfl|rfl|rfl|rfl|rfl|rfl|rfl|rfl|rfl|rfl|rfl <;>
    simp [BitVec.getMsbD]

theorem byteBits_length (b : Byte) : (byteBits b).length = 8 := rfl

theorem crcByte_eq (c : BitVec 16) (b : Byte) : crcByte c b = crcOfBits c (byteBits b) := by
  rw [crcOfBits_short _ (by simp [byteBits]), topWord_byteBits]
  rfl

theorem crcOfBits_append (c : BitVec 16) (a b : List Bool) :
    crcOfBits c (a ++ b) = crcOfBits (crcOfBits c a) b := by
  unfold crcOfBits; rw [List.foldl_append]

theorem crc3740_eq_bits (data : List Byte) (seed : Option (BitVec 16)) :
    crc3740 data seed = crcOfBits (seed.getD 0xFFFF#16) (bitsOf data) := by
  unfold crc3740
  generalize seed.getD 0xFFFF#16 = c
  induction data generalizing c with
  | nil => rfl
  | cons b bs ih =>
    rw [List.foldl_cons, ih, crcByte_eq]
    show _ = crcOfBits c (byteBits b ++ bitsOf bs)
    rw [crcOfBits_append]

/-- Linearity on equal-length strings. -/
theorem crcOfBits_linear (a b : List Bool) (h : a.length = b.length) (c d : BitVec 16) :
    crcOfBits (c ^^^ d) (List.zipWith (· ^^ ·) a b) = crcOfBits c a ^^^ crcOfBits d b := by
  induction a generalizing b c d with
  | nil => cases b with
    | nil => rfl
    | cons _ _ => simp at h
  | cons x a ih => cases b with
    | nil => simp at h
    | cons y b =>
      have h' : a.length = b.length := by simpa using h
      show crcOfBits (lfsr (c ^^^ d) (x ^^ y)) (List.zipWith (· ^^ ·) a b) = _
      rw [lfsr_xor]
      exact ih b h' _ _

theorem crcOfBits_zeros (k : Nat) (c : BitVec 16) :
    crcOfBits c (List.replicate k false) = crcSteps k c := by
  induction k generalizing c with
  | zero => rfl
  | succ k ih =>
    show crcOfBits (lfsr c false) (List.replicate k false) = _
    rw [← crcBit_eq, ih]; rfl

theorem crcSteps_zero (k : Nat) : crcSteps k 0#16 = 0#16 := by
  induction k with
  | zero => rfl
  | succ k ih => rw [crcSteps, crcBit_zero, ih]

/-- `topWord` loses nothing on at most 16 bits. -/
theorem topWord_getMsbD (bs : List Bool) (i : Nat) (hi : i < 16) (h : bs.length ≤ 16) :
    (topWord bs).getMsbD i = bs.getD i false := by
  induction bs generalizing i with
  | nil => simp [topWord]
  | cons b bs ih =>
    simp only [List.length_cons] at h
    rw [topWord, BitVec.getMsbD_xor]
    cases i with
    | zero =>
      rw [BitVec.getMsbD_ushiftRight]
      have : (topBit b).getMsbD 0 = b := by cases b <;> decide
      simp [this]
    | succ i =>
      rw [BitVec.getMsbD_ushiftRight]
      have h0 : ∀ i < 15, ∀ b : Bool, (topBit b).getMsbD (i + 1) = false := by decide
      rw [h0 i (by omega) b, Nat.add_sub_cancel, ih i (by omega) (by omega)]
      have : ¬ (i + 1 < 1) := by omega
      simp [hi]

theorem topWord_ne_zero (bs : List Bool) (h : bs.length ≤ 16) (i : Nat)
    (hi : bs.getD i false = true) : topWord bs ≠ 0#16 := by
  intro e
  have hlt : i < 16 := by
    rcases Nat.lt_or_ge i 16 with h1 | h1
    · exact h1
    · rw [List.getD_eq_getElem?_getD, List.getElem?_eq_none (by omega)] at hi; simp at hi
  have := topWord_getMsbD bs i hlt h
  rw [e, hi] at this
  simp at this

/-- A nonzero error word confined to a 16-bit window has a nonzero syndrome. -/
theorem burst_syndrome (d : List Bool) (p w : Nat) (hw : w ≤ 16)
    (hz : ∀ i, d.getD i false = true → p ≤ i ∧ i < p + w) (i : Nat) (hi : d.getD i false = true) :
    crcOfBits 0#16 d ≠ 0#16 := by
  have hd : d = List.take p d ++ (List.take w (List.drop p d) ++ List.drop w (List.drop p d)) := by
    rw [List.take_append_drop, List.take_append_drop]
  have h1 : List.take p d = List.replicate (List.take p d).length false := by
    rw [List.eq_replicate_iff]
    refine ⟨rfl, fun b hb => ?_⟩
    obtain ⟨j, hj, rfl⟩ := List.mem_iff_getElem.1 hb
    rw [List.length_take] at hj
    rw [List.getElem_take]
    by_cases hv : d[j] = true
    · have := hz j (by rw [List.getD_eq_getElem?_getD, List.getElem?_eq_getElem (by omega)]; exact hv)
      omega
    · simpa using hv
  have h3 : List.drop w (List.drop p d) =
      List.replicate (List.drop w (List.drop p d)).length false := by
    rw [List.eq_replicate_iff]
    refine ⟨rfl, fun b hb => ?_⟩
    obtain ⟨j, hj, rfl⟩ := List.mem_iff_getElem.1 hb
    rw [List.length_drop, List.length_drop] at hj
    rw [List.getElem_drop, List.getElem_drop]
    by_cases hv : d[p + (w + j)] = true
    · have := hz (p + (w + j))
        (by rw [List.getD_eq_getElem?_getD, List.getElem?_eq_getElem (by omega)]; exact hv)
      omega
    · simpa using hv
  rw [hd, crcOfBits_append, h1, crcOfBits_zeros, crcSteps_zero, crcOfBits_append, h3,
    crcOfBits_zeros, crcOfBits_short _ (by rw [List.length_take]; omega)]
  intro e
  have e := crcSteps_eq_zero (crcSteps_eq_zero e)
  rw [BitVec.zero_xor] at e
  have hb := hz i hi
  refine topWord_ne_zero (List.take w (List.drop p d)) (by rw [List.length_take]; omega) (i - p) ?_ e
  rw [List.getD_eq_getElem?_getD] at hi ⊢
  rw [List.getElem?_take, if_pos (by omega), List.getElem?_drop, show p + (i - p) = i by omega]
  exact hi

theorem topWord_be16 (r : BitVec 16) : topWord (bitsOf (be16 r)) = r := by
  apply BitVec.eq_of_getMsbD_eq
  intro i hi
  rw [topWord_getMsbD _ _ (by omega) (by simp [bitsOf, be16, byteBits])]
  have hcases : i = 0 ∨ i = 1 ∨ i = 2 ∨ i = 3 ∨ i = 4 ∨ i = 5 ∨ i = 6 ∨ i = 7 ∨ i = 8 ∨ i = 9 ∨
    i = 10 ∨ i = 11 ∨ i = 12 ∨ i = 13 ∨ i = 14 ∨ i = 15 := by omega
  rcases hcases with rfl|rfl|rfl|rfl|rfl|rfl|rfl|rfl|rfl|rfl|rfl|rfl|rfl|rfl|rfl|rfl <;>
    simp [bitsOf, be16, byteBits, BitVec.getMsbD]

theorem ofBe16_be16 (r : BitVec 16) :
    ofBe16 ((be16 r).getD 0 0) ((be16 r).getD 1 0) = r := by
  apply BitVec.eq_of_getLsbD_eq
  intro i hi
  simp only [ofBe16, be16]
  rw [BitVec.getLsbD_append]
  by_cases h : i < 8
  · simp [h]
  · have e : 8 + (i - 8) = i := by omega
    simp [h, e]; omega

/-- Appending a CRC field: the residue is zero exactly when the field is the CRC. -/
theorem crc_residue (body : List Byte) (r : BitVec 16) :
    crc3740 (body ++ be16 r) = 0#16 ↔ r = crc3740 body := by
  rw [crc3740_eq_bits, crc3740_eq_bits]
  have : bitsOf (body ++ be16 r) = bitsOf body ++ bitsOf (be16 r) := by
    unfold bitsOf; rw [List.flatMap_append]
  rw [this, crcOfBits_append, crcOfBits_short _ (by simp [bitsOf, be16, byteBits]), topWord_be16]
  constructor
  · intro h
    have h := crcSteps_eq_zero h
    generalize crcOfBits _ _ = c at h
    have : c ^^^ r ^^^ r = r := by rw [h, BitVec.zero_xor]
    rw [BitVec.xor_assoc, BitVec.xor_self, BitVec.xor_zero] at this
    exact this.symm
  · intro h
    rw [← h, BitVec.xor_self, crcSteps_zero]

/-- Every frame of at least two bytes is a body followed by a 16-bit field. -/
theorem frame_split (d : List Byte) (h : 2 ≤ d.length) :
    ∃ body r, d = body ++ be16 r ∧ S34.crc16Bytes d = .ok (r, crc3740 body) := by
  have hne : d ≠ [] := by intro e; subst e; simp at h
  obtain ⟨b1, hb1⟩ : ∃ b, d[d.length - 2]? = some b :=
    ⟨_, List.getElem?_eq_getElem (by omega)⟩
  obtain ⟨b2, hb2⟩ : ∃ b, d[d.length - 1]? = some b :=
    ⟨_, List.getElem?_eq_getElem (by omega)⟩
  have hd : d = d.take (d.length - 2) ++ [b1, b2] := by
    conv => lhs; rw [← List.take_append_drop (d.length - 2) d]
    congr 1
    apply List.ext_getElem?
    intro i
    rw [List.getElem?_drop]
    match i with
    | 0 => rw [Nat.add_zero]; exact hb1
    | 1 => rw [show d.length - 2 + 1 = d.length - 1 by omega]; exact hb2
    | i + 2 => rw [List.getElem?_eq_none (by omega)]; simp
  have hbe : be16 (ofBe16 b1 b2) = [b1, b2] := by
    unfold be16 ofBe16
    congr 1
    · apply BitVec.eq_of_getLsbD_eq
      intro i hi
      rw [BitVec.getLsbD_extractLsb', BitVec.getLsbD_append]
      simp [hi]
    · congr 1
      apply BitVec.eq_of_getLsbD_eq
      intro i hi
      rw [BitVec.getLsbD_extractLsb', BitVec.getLsbD_append]
      simp [hi]
  refine ⟨d.take (d.length - 2), ofBe16 b1 b2, by rw [hbe]; exact hd, ?_⟩
  unfold S34.crc16Bytes
  rw [if_neg hne]
  simp only [List.getD_eq_getElem?_getD, hb1, hb2, Option.getD_some]

/-! Parity -/

def parity (l : List Bool) : Bool := l.foldr (· ^^ ·) false

def wordBits (c : BitVec 16) : List Bool := (List.range 16).map fun i => c.getLsbD i

theorem parity_lfsr (c : BitVec 16) (b : Bool) :
    parity (wordBits (lfsr c b)) = (parity (wordBits c) ^^ b) := by
  have e : ∀ i, (lfsr c b).getLsbD i =
      ((decide (i < 16) && !decide (i < 1) && c.getLsbD (i - 1)) ^^
        ((c.getLsbD 15 ^^ b) && (0x1021#16).getLsbD i)) := by
    intro i
    unfold lfsr
    rw [BitVec.getLsbD_xor, BitVec.getLsbD_shiftLeft]
    congr 1
    have : c.getMsbD 0 = c.getLsbD 15 := by simp [BitVec.getMsbD]
    rw [this]
    cases c.getLsbD 15 ^^ b <;> simp
  simp only [parity, wordBits, List.range, List.range.loop, List.map, List.foldr, e]
  generalize c.getLsbD 15 = x15
  generalize c.getLsbD 14 = x14
  generalize c.getLsbD 13 = x13
  generalize c.getLsbD 12 = x12
  simp (config := { decide := true })
  cases x15 <;> cases b <;> simp <;>
  (generalize c.getLsbD 4 = y4; generalize c.getLsbD 11 = y11; generalize c.getLsbD 5 = y5
   generalize c.getLsbD 10 = y10
   cases y4 <;> cases x12 <;> cases y11 <;> simp)

end Fox
