import Verif.Model.Ipf
import Verif.Spec.Crc32
import Verif.Proofs.Crc
namespace Fox
namespace Ipf
open Spec

/-- The register after one message bit. -/
def step (c : BitVec 32) (b : Bool) : BitVec 32 := crcBit (c ^^^ if b then 1#32 else 0#32)

/-- The register after message bits. -/
def feed (c : BitVec 32) (bs : List Bool) : BitVec 32 := bs.foldl step c

theorem crcBit_eq (c : BitVec 32) : crcBit c = (c >>> 1) ^^^ if c.getLsbD 0 then 0xEDB88320#32 else 0#32 := by
  unfold crcBit
  by_cases h : c.getLsbD 0 = true
  · rw [if_pos h, if_pos h]
  · rw [if_neg h, if_neg h, BitVec.xor_zero]

theorem crcBit_xor (c d : BitVec 32) : crcBit (c ^^^ d) = crcBit c ^^^ crcBit d := by
  rw [crcBit_eq, crcBit_eq, crcBit_eq, BitVec.ushiftRight_xor_distrib, BitVec.getLsbD_xor]
  have : ∀ x y : Bool, (if (x ^^ y) then 0xEDB88320#32 else 0#32) =
      (if x then 0xEDB88320#32 else 0#32) ^^^ (if y then 0xEDB88320#32 else 0#32) := by decide
  rw [this]
  ac_rfl

theorem crcBit_zero : crcBit 0#32 = 0#32 := by decide

theorem crcBit_eq_zero {c : BitVec 32} (h : crcBit c = 0#32) : c = 0#32 := by
  rw [crcBit_eq] at h
  by_cases hm : c.getLsbD 0 = true
  · rw [if_pos hm] at h
    have h0 := congrArg (fun x => BitVec.getLsbD x 31) h
    simp at h0
  · rw [if_neg hm, BitVec.xor_zero] at h
    apply BitVec.eq_of_getLsbD_eq
    intro i hi
    cases i with
    | zero => simpa using hm
    | succ i =>
      have h0 := congrArg (fun x => BitVec.getLsbD x i) h
      simp only [BitVec.getLsbD_ushiftRight] at h0
      rw [Nat.add_comm 1 i] at h0
      simpa using h0

theorem step_xor (c d : BitVec 32) (a b : Bool) : step (c ^^^ d) (a ^^ b) = step c a ^^^ step d b := by
  unfold step
  rw [← crcBit_xor]
  congr 1
  have : ∀ x y : Bool, (if (x ^^ y) then 1#32 else 0#32) = (if x then 1#32 else 0#32) ^^^ (if y then 1#32 else 0#32) := by decide
  rw [this]
  ac_rfl

theorem step_inj {c d : BitVec 32} {b : Bool} (h : step c b = step d b) : c = d := by
  have h1 := step_xor c d b b
  rw [h, BitVec.xor_self, Bool.xor_self] at h1
  have h2 : crcBit (c ^^^ d) = 0#32 := by
    have : step (c ^^^ d) false = crcBit (c ^^^ d) := by unfold step; simp
    rw [← this, h1]
  have h3 := crcBit_eq_zero h2
  have h4 : c ^^^ d ^^^ d = 0#32 ^^^ d := by rw [h3]
  rw [BitVec.xor_assoc, BitVec.xor_self] at h4
  simpa using h4

theorem feed_append (c : BitVec 32) (a b : List Bool) : feed c (a ++ b) = feed (feed c a) b := by
  unfold feed; rw [List.foldl_append]

theorem feed_inj {bs : List Bool} {c d : BitVec 32} (h : feed c bs = feed d bs) : c = d := by
  induction bs generalizing c d with
  | nil => exact h
  | cons b bs ih => exact step_inj (ih h)

theorem feed_linear (a b : List Bool) (h : a.length = b.length) (c d : BitVec 32) :
    feed (c ^^^ d) (List.zipWith (· ^^ ·) a b) = feed c a ^^^ feed d b := by
  induction a generalizing b c d with
  | nil => cases b with
    | nil => rfl
    | cons _ _ => simp at h
  | cons x a ih => cases b with
    | nil => simp at h
    | cons y b =>
      show feed (step (c ^^^ d) (x ^^ y)) (List.zipWith (· ^^ ·) a b) = _
      rw [step_xor]
      exact ih b (by simpa using h) _ _

/-- `k` shifts. -/
def shifts : Nat → BitVec 32 → BitVec 32
  | 0, c => c
  | k + 1, c => shifts k (crcBit c)

theorem shifts_eq_zero {k : Nat} {c : BitVec 32} (h : shifts k c = 0#32) : c = 0#32 := by
  induction k generalizing c with
  | zero => exact h
  | succ k ih => exact crcBit_eq_zero (ih h)

theorem shifts_zero (k : Nat) : shifts k 0#32 = 0#32 := by
  induction k with
  | zero => rfl
  | succ k ih => rw [shifts, crcBit_zero, ih]

theorem feed_zeros (k : Nat) (c : BitVec 32) : feed c (List.replicate k false) = shifts k c := by
  induction k generalizing c with
  | zero => rfl
  | succ k ih =>
    show feed (step c false) (List.replicate k false) = _
    rw [ih]
    have : step c false = crcBit c := by unfold step; simp
    rw [this]; rfl

/-- Bits placed at the bottom of the register, the first lowest. -/
def lowWord : List Bool → BitVec 32
  | [] => 0#32
  | b :: bs => (if b then 1#32 else 0#32) ^^^ (lowWord bs <<< 1)

theorem lowWord_getLsbD (bs : List Bool) (i : Nat) (hi : i < 32) : (lowWord bs).getLsbD i = bs.getD i false := by
  induction bs generalizing i with
  | nil => simp [lowWord]
  | cons b bs ih =>
    rw [lowWord, BitVec.getLsbD_xor, BitVec.getLsbD_shiftLeft]
    cases i with
    | zero => cases b <;> simp
    | succ i =>
      rw [Nat.add_sub_cancel, ih i (by omega)]
      have : ((if b then 1#32 else 0#32) : BitVec 32).getLsbD (i + 1) = false := by
        cases b
        · simp
        · rw [if_pos rfl, BitVec.getLsbD_one]; simp
      rw [this]
      have e1 : decide (i + 1 < 32) = true := by simpa using hi
      simp [e1]

theorem crcBit_shiftLeft (w : BitVec 32) (h : w.getLsbD 31 = false) : crcBit (w <<< 1) = w := by
  rw [crcBit_eq]
  have : (w <<< 1).getLsbD 0 = false := by simp
  rw [this, if_neg (by simp), BitVec.xor_zero]
  apply BitVec.eq_of_getLsbD_eq
  intro i hi
  rw [BitVec.getLsbD_ushiftRight, BitVec.getLsbD_shiftLeft]
  by_cases h0 : i = 31
  · subst h0; rw [h]; simp
  · have : decide (1 + i < 32) = true := by simp; omega
    rw [this, Nat.add_comm 1 i]
    simp

theorem feed_short (bs : List Bool) (h : bs.length ≤ 32) (c : BitVec 32) :
    feed c bs = shifts bs.length (c ^^^ lowWord bs) := by
  induction bs generalizing c with
  | nil => simp [feed, shifts, lowWord]
  | cons b bs ih =>
    simp only [List.length_cons] at h
    have e1 : feed c (b :: bs) = feed (step c b) bs := rfl
    rw [e1, ih (by omega), List.length_cons, shifts, lowWord]
    congr 1
    have h31 : (lowWord bs).getLsbD 31 = false := by
      rw [lowWord_getLsbD _ _ (by omega), List.getD_eq_getElem?_getD, List.getElem?_eq_none (by omega)]; rfl
    rw [← BitVec.xor_assoc, crcBit_xor (c ^^^ _), crcBit_shiftLeft _ h31]
    rfl

/-- A nonzero error pattern within 32 consecutive bits leaves the register nonzero. -/
theorem burst (d : List Bool) (p : Nat) (hz : ∀ i, d.getD i false = true → p ≤ i ∧ i < p + 32) (i : Nat)
    (hi : d.getD i false = true) : feed 0#32 d ≠ 0#32 := by
  have hd : d = List.take p d ++ (List.take 32 (List.drop p d) ++ List.drop 32 (List.drop p d)) := by
    rw [List.take_append_drop, List.take_append_drop]
  have h1 : List.take p d = List.replicate (List.take p d).length false := by
    rw [List.eq_replicate_iff]
    refine ⟨rfl, fun b hb => ?_⟩
    obtain ⟨j, hj, rfl⟩ := List.mem_iff_getElem.1 hb
    rw [List.length_take] at hj
    rw [List.getElem_take]
    by_cases hv : d[j] = true
    · have := hz j (by rw [List.getD_eq_getElem?_getD, List.getElem?_eq_getElem (by omega)]; exact hv)
      omega
    · simpa using hv
  have h3 : List.drop 32 (List.drop p d) = List.replicate (List.drop 32 (List.drop p d)).length false := by
    rw [List.eq_replicate_iff]
    refine ⟨rfl, fun b hb => ?_⟩
    obtain ⟨j, hj, rfl⟩ := List.mem_iff_getElem.1 hb
    rw [List.length_drop, List.length_drop] at hj
    rw [List.getElem_drop, List.getElem_drop]
    by_cases hv : d[p + (32 + j)] = true
    · have := hz (p + (32 + j))
        (by rw [List.getD_eq_getElem?_getD, List.getElem?_eq_getElem (by omega)]; exact hv)
      omega
    · simpa using hv
  rw [hd, feed_append, h1, feed_zeros, shifts_zero, feed_append, h3, feed_zeros,
    feed_short _ (by rw [List.length_take]; omega)]
  intro e
  have e := shifts_eq_zero (shifts_eq_zero e)
  rw [BitVec.zero_xor] at e
  have hb := hz i hi
  have h5 := lowWord_getLsbD (List.take 32 (List.drop p d)) (i - p) (by omega)
  rw [e] at h5
  rw [List.getD_eq_getElem?_getD] at hi h5
  rw [List.getElem?_take, if_pos (by omega), List.getElem?_drop, show p + (i - p) = i by omega, hi] at h5
  simp at h5

theorem lsbBits_cons (b : Byte) (bs : List Byte) : lsbBits (b :: bs) = (List.range 8).map b.getLsbD ++ lsbBits bs := rfl

theorem lsbBits_append (a b : List Byte) : lsbBits (a ++ b) = lsbBits a ++ lsbBits b := by
  unfold lsbBits; rw [List.flatMap_append]

theorem lsbBits_length (a : List Byte) : (lsbBits a).length = 8 * a.length := by
  induction a with
  | nil => rfl
  | cons b a ih => rw [lsbBits_cons, List.length_append, ih, List.length_map, List.length_range, List.length_cons]; omega

theorem lsbBits_getD (a : List Byte) (i : Nat) : (lsbBits a).getD i false = (a.getD (i / 8) 0#8).getLsbD (i % 8) := by
  induction a generalizing i with
  | nil => simp [lsbBits]
  | cons b a ih =>
    rw [lsbBits_cons]
    by_cases h : i < 8
    · rw [List.getD_eq_getElem?_getD, List.getElem?_append_left (by simpa using h), Nat.div_eq_of_lt h, Nat.mod_eq_of_lt h]
      rw [List.getElem?_map, List.getElem?_range h]; rfl
    · rw [List.getD_eq_getElem?_getD, List.getElem?_append_right (by simpa using h), ← List.getD_eq_getElem?_getD]
      have e1 : i / 8 = (i - 8) / 8 + 1 := by omega
      have e2 : i % 8 = (i - 8) % 8 := by omega
      rw [List.length_map, List.length_range, ih, e1, e2]; rfl

theorem lowWord_byte (b : Byte) : lowWord ((List.range 8).map b.getLsbD) = b.setWidth 32 := by
  apply BitVec.eq_of_getLsbD_eq
  intro i hi
  rw [lowWord_getLsbD _ _ hi, BitVec.getLsbD_setWidth, List.getD_eq_getElem?_getD, List.getElem?_map]
  by_cases h : i < 8
  · rw [List.getElem?_range h]; simp [hi]
  · rw [List.getElem?_eq_none (by simpa using h), BitVec.getLsbD_of_ge _ _ (by omega)]; simp

theorem crcByte_eq (c : BitVec 32) (b : Byte) : crcByte c b = feed c ((List.range 8).map b.getLsbD) := by
  rw [feed_short _ (by simp), lowWord_byte]
  rfl

theorem foldl_eq (data : List Byte) (c : BitVec 32) : data.foldl crcByte c = feed c (lsbBits data) := by
  induction data generalizing c with
  | nil => rfl
  | cons b bs ih => rw [List.foldl_cons, ih, crcByte_eq, lsbBits_cons, feed_append]

theorem crc_eq (data : List Byte) : crc data = ~~~ feed (BitVec.allOnes 32) (lsbBits data) := by
  unfold crc
  rw [foldl_eq]
  rfl

theorem crc_inj_feed {a b : List Byte} (h : crc a = crc b) :
    feed (BitVec.allOnes 32) (lsbBits a) = feed (BitVec.allOnes 32) (lsbBits b) := by
  rw [crc_eq, crc_eq] at h
  have := congrArg (fun x => ~~~ x) h
  simpa using this

/-- One step is the shift register of the specification, and the only one. -/
theorem step_lfsr (c : BitVec 32) (b : Bool) (d : BitVec 32) : Lfsr32 c b d ↔ d = step c b := by
  have key : ∀ k < 32, coeff (step c b) k =
      ((decide (0 < k) && coeff c (k - 1)) ^^ ((coeff c 31 ^^ b) && decide (k ∈ crc32Taps))) := by
    intro k hk
    have h1 : step c b = (c >>> 1) ^^^ if (c.getLsbD 0 ^^ b) then 0xEDB88320#32 else 0#32 := by
      unfold step
      rw [crcBit_eq, BitVec.ushiftRight_xor_distrib, BitVec.getLsbD_xor]
      cases b
      · simp
      · simp
    have h2 : coeff c 31 = c.getLsbD 0 := by simp [coeff]
    have h3 : ∀ k < 32, ∀ x : Bool, ((if x then 0xEDB88320#32 else 0#32 : BitVec 32)).getLsbD (31 - k) =
        (x && decide (k ∈ crc32Taps)) := by decide
    rw [h1, h2]
    unfold coeff
    rw [BitVec.getLsbD_xor, h3 k hk, BitVec.getLsbD_ushiftRight]
    cases k with
    | zero => simp
    | succ k =>
      have e : 1 + (31 - (k + 1)) = 31 - k := by omega
      have e2 : k < 32 := by omega
      rw [e, Nat.add_sub_cancel]
      simp [hk, e2]
  constructor
  · intro h
    apply BitVec.eq_of_getLsbD_eq
    intro i hi
    have h1 := h (31 - i) (by omega)
    rw [← key _ (by omega)] at h1
    unfold coeff at h1
    have e : 31 - (31 - i) = i := by omega
    have e2 : 31 - i < 32 := by omega
    rw [e] at h1
    simpa [e2] using h1
  · intro h
    subst h
    exact key

theorem feed_fed (bs : List Bool) (c d : BitVec 32) : Fed32 c bs d ↔ d = feed c bs := by
  induction bs generalizing c with
  | nil => exact Iff.rfl
  | cons b bs ih =>
    constructor
    · rintro ⟨e, h1, h2⟩
      rw [step_lfsr] at h1
      subst h1
      exact (ih _).1 h2
    · intro h
      exact ⟨step c b, (step_lfsr _ _ _).2 rfl, (ih _).2 h⟩

end Ipf
end Fox
