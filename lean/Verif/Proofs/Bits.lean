import Verif.Model.Mfm
import Verif.Spec.Bits
/-
Bit-level lemmas: bytes as bit lists, shift registers, MFM cells, rings.
-/
namespace Fox

theorem byteBits_getD (b : Byte) (k : Nat) (h : k < 8) : (byteBits b).getD k false = b.getMsbD k := by
  have hcases : k = 0 ∨ k = 1 ∨ k = 2 ∨ k = 3 ∨ k = 4 ∨ k = 5 ∨ k = 6 ∨ k = 7 := by omega
  rcases hcases with rfl|rfl|rfl|rfl|rfl|rfl|rfl|rfl <;> rfl

theorem bitsOf_cons (b : Byte) (l : List Byte) : bitsOf (b :: l) = byteBits b ++ bitsOf l := rfl

theorem bitsOf_append (a b : List Byte) : bitsOf (a ++ b) = bitsOf a ++ bitsOf b := by
  unfold bitsOf; rw [List.flatMap_append]

theorem length_byteBits (b : Byte) : (byteBits b).length = 8 := rfl

theorem length_bitsOf (l : List Byte) : (bitsOf l).length = 8 * l.length := by
  induction l with
  | nil => rfl
  | cons b l ih => rw [bitsOf_cons, List.length_append, length_byteBits, ih, List.length_cons]; omega

theorem getD_append_left {α} (a b : List α) (i : Nat) (d : α) (h : i < a.length) :
    (a ++ b).getD i d = a.getD i d := by
  simp only [List.getD_eq_getElem?_getD, List.getElem?_append_left h]

theorem getD_append_right {α} (a b : List α) (i : Nat) (d : α) (h : a.length ≤ i) :
    (a ++ b).getD i d = b.getD (i - a.length) d := by
  simp only [List.getD_eq_getElem?_getD, List.getElem?_append_right h]

theorem getD_ge {α} (a : List α) (i : Nat) (d : α) (h : a.length ≤ i) : a.getD i d = d := by
  simp only [List.getD_eq_getElem?_getD, List.getElem?_eq_none h, Option.getD_none]

theorem ext_getD {α} (a b : List α) (d : α) (hl : a.length = b.length)
    (h : ∀ i, i < a.length → a.getD i d = b.getD i d) : a = b := by
  apply List.ext_getElem hl
  intro i h1 h2
  have := h i h1
  simpa only [List.getD_eq_getElem?_getD, List.getElem?_eq_getElem h1, List.getElem?_eq_getElem h2,
    Option.getD_some] using this

theorem getD_map_range {α} (f : Nat → α) (n i : Nat) (d : α) (h : i < n) :
    ((List.range n).map f).getD i d = f i := by
  simp [List.getD_eq_getElem?_getD, List.getElem?_map, List.getElem?_range h]

theorem bitsOf_getD (l : List Byte) (j : Nat) : (bitsOf l).getD j false = dat l j := by
  induction l generalizing j with
  | nil => simp [bitsOf, dat]
  | cons b l ih =>
    rw [bitsOf_cons]
    by_cases h : j < 8
    · rw [getD_append_left _ _ _ _ (by rw [length_byteBits]; exact h), byteBits_getD _ _ h]
      unfold dat
      rw [Nat.div_eq_of_lt h, Nat.mod_eq_of_lt h]; rfl
    · rw [getD_append_right _ _ _ _ (by rw [length_byteBits]; omega), length_byteBits, ih]
      unfold dat
      obtain ⟨k, rfl⟩ : ∃ k, j = k + 8 := ⟨j - 8, by omega⟩
      have e1 : k + 8 - 8 = k := by omega
      have e2 : (k + 8) / 8 = k / 8 + 1 := by omega
      have e3 : (k + 8) % 8 = k % 8 := by omega
      rw [e1, e2, e3]; rfl

theorem dat_byte (l : List Byte) (i k : Nat) (h : k < 8) :
    dat l (8 * i + k) = (l.getD i 0).getMsbD k := by
  unfold dat
  have e1 : (8 * i + k) / 8 = i := by omega
  have e2 : (8 * i + k) % 8 = k := by omega
  rw [e1, e2]

/-! Shift registers -/

theorem shiftIn_append (w : Nat) (acc : BitVec w) (a b : List Bool) :
    shiftIn w acc (a ++ b) = shiftIn w (shiftIn w acc a) b := by
  unfold shiftIn; rw [List.foldl_append]

theorem shiftIn_cons (w : Nat) (acc : BitVec w) (b : Bool) (bs : List Bool) :
    shiftIn w acc (b :: bs) = shiftIn w ((acc <<< 1) ||| (BitVec.ofBool b).setWidth w) bs := rfl

theorem step_getLsbD (w : Nat) (acc : BitVec w) (b : Bool) (k : Nat) (hk : k < w) :
    ((acc <<< 1) ||| (BitVec.ofBool b).setWidth w).getLsbD k =
      if k = 0 then b else acc.getLsbD (k - 1) := by
  rw [BitVec.getLsbD_or, BitVec.getLsbD_shiftLeft, BitVec.getLsbD_setWidth, BitVec.getLsbD_ofBool]
  by_cases h : k = 0
  · subst h; simp [hk]
  · have : decide (k < 1) = false := by simp; omega
    have : decide (k = 0) = false := by simp [h]
    simp [h, hk]

/-- Bit `k` (from the least significant end) after shifting in `bs`. -/
theorem shiftIn_getLsbD (w : Nat) (acc : BitVec w) (bs : List Bool) (k : Nat) (hk : k < w) :
    (shiftIn w acc bs).getLsbD k =
      if k < bs.length then bs.getD (bs.length - 1 - k) false else acc.getLsbD (k - bs.length) := by
  induction bs generalizing acc with
  | nil => simp [shiftIn]
  | cons b bs ih =>
    rw [shiftIn_cons, ih, List.length_cons]
    by_cases h : k < bs.length
    · rw [if_pos h, if_pos (by omega)]
      have : bs.length + 1 - 1 - k = (bs.length - 1 - k) + 1 := by omega
      rw [this]; rfl
    · rw [if_neg h, step_getLsbD w acc b _ (by omega)]
      by_cases h2 : k = bs.length
      · subst h2; simp
      · rw [if_neg (by omega), if_neg (by omega)]
        congr 1

/-- Bit `k` from the most significant end, when exactly `w` bits were shifted in. -/
theorem shiftIn_getMsbD (w : Nat) (acc : BitVec w) (bs : List Bool) (h : bs.length = w) (k : Nat)
    (hk : k < w) : (shiftIn w acc bs).getMsbD k = bs.getD k false := by
  rw [BitVec.getMsbD_eq_getLsbD, shiftIn_getLsbD _ _ _ _ (by omega), if_pos (by omega)]
  simp only [hk, decide_true, Bool.true_and]
  congr 1; omega

theorem byteOfBits_getMsbD (f : Nat → Bool) (k : Nat) (hk : k < 8) :
    (byteOfBits ((List.range 8).map f)).getMsbD k = f k := by
  unfold byteOfBits
  rw [shiftIn_getMsbD _ _ _ (by simp) _ hk, getD_map_range _ _ _ _ hk]

theorem byteOfBits_eq (f : Nat → Bool) (b : Byte) (h : ∀ k < 8, f k = b.getMsbD k) :
    byteOfBits ((List.range 8).map f) = b := by
  apply BitVec.eq_of_getMsbD_eq
  intro i hi
  rw [byteOfBits_getMsbD f i (by omega), h i (by omega)]

/-! MFM cells -/

theorem encodeBits_length (p : Bool) (bs : List Bool) : (encodeBits p bs).length = 2 * bs.length := by
  induction bs generalizing p with
  | nil => rfl
  | cons b bs ih => cases b <;> simp [encodeBits, ih] <;> omega

theorem encode_length (data : List Byte) (p : Bool) : (encode data p).length = 16 * data.length := by
  unfold encode; rw [encodeBits_length, length_bitsOf]; omega

/-- The bit before bit `j`. -/
def prevBit (p : Bool) (bs : List Bool) (j : Nat) : Bool :=
  if j = 0 then p else bs.getD (j - 1) false

theorem encodeBits_data (p : Bool) (bs : List Bool) (j : Nat) :
    (encodeBits p bs).getD (2 * j + 1) false = bs.getD j false := by
  induction bs generalizing p j with
  | nil => simp [encodeBits]
  | cons b bs ih =>
    cases j with
    | zero => cases b <;> rfl
    | succ j =>
      have e : 2 * (j + 1) + 1 = (2 * j + 1) + 1 + 1 := by omega
      rw [e]
      cases b <;> simp only [encodeBits, List.getD_cons_succ, ih]

theorem encodeBits_clock (p : Bool) (bs : List Bool) (j : Nat) (hj : j < bs.length) :
    (encodeBits p bs).getD (2 * j) false = (!prevBit p bs j && !bs.getD j false) := by
  induction bs generalizing p j with
  | nil => simp at hj
  | cons b bs ih =>
    cases j with
    | zero => cases b <;> cases p <;> rfl
    | succ j =>
      have e : 2 * (j + 1) = (2 * j) + 1 + 1 := by omega
      rw [e]
      have hj' : j < bs.length := by simpa using hj
      have hp : prevBit p (b :: bs) (j + 1) = prevBit b bs j := by
        unfold prevBit
        cases j with
        | zero => rfl
        | succ j => rfl
      rw [hp]
      cases b <;> simp only [encodeBits, List.getD_cons_succ, ih _ _ hj']

theorem encode_data (data : List Byte) (p : Bool) (j : Nat) :
    (encode data p).getD (2 * j + 1) false = dat data j := by
  unfold encode; rw [encodeBits_data, bitsOf_getD]

theorem encode_clock (data : List Byte) (p : Bool) (j : Nat) (hj : j < 8 * data.length) :
    (encode data p).getD (2 * j) false =
      (!(if j = 0 then p else dat data (j - 1)) && !dat data j) := by
  unfold encode
  rw [encodeBits_clock _ _ _ (by rw [length_bitsOf]; exact hj), bitsOf_getD]
  unfold prevBit
  rw [bitsOf_getD]

/-! Rings -/

/-- A ring whose wrap point is its whole length. -/
structure BitRing.Full (r : BitRing) : Prop where
  wrap : r.wrap = r.bits.length

theorem BitRing.ofBits_full (l : List Bool) : (BitRing.ofBits l).Full := ⟨rfl⟩

theorem BitRing.bitAt_lt {r : BitRing} (h : r.wrap = r.bits.length) {i : Nat}
    (hi : i < r.bits.length) : r.bitAt i = r.bits.getD i false := by
  unfold BitRing.bitAt; rw [if_pos (by omega)]

theorem getD_set {α} (l : List α) (i j : Nat) (a d : α) :
    (l.set i a).getD j d = if i = j ∧ j < l.length then a else l.getD j d := by
  simp only [List.getD_eq_getElem?_getD, List.getElem?_set]
  by_cases h : i = j
  · subst h
    by_cases h2 : i < l.length
    · simp [h2]
    · simp [h2]
  · simp [h]

theorem setMany_spec (bs : List Bool) : ∀ (r : BitRing) (off : Nat),
    r.wrap = r.bits.length → off + bs.length ≤ r.bits.length →
    (r.setMany off bs).wrap = r.wrap ∧ (r.setMany off bs).wrapValue = r.wrapValue ∧
    (r.setMany off bs).bits.length = r.bits.length ∧
    ∀ i, (r.setMany off bs).bits.getD i false =
      if off ≤ i ∧ i < off + bs.length then bs.getD (i - off) false else r.bits.getD i false := by
  induction bs with
  | nil =>
    intro r off _ _
    refine ⟨rfl, rfl, rfl, fun i => ?_⟩
    rw [if_neg (by simp only [List.length_nil]; omega)]; rfl
  | cons b bs ih =>
    intro r off hw hl
    simp only [List.length_cons] at hl
    have hset : r.set off b = { r with bits := r.bits.set off b } := by
      unfold BitRing.set; rw [if_pos (by omega)]
    have := ih (r.set off b) (off + 1) (by rw [hset]; simp [hw]) (by rw [hset]; simp; omega)
    rw [hset] at this
    obtain ⟨h1, h2, h3, h4⟩ := this
    simp only [List.length_set] at h3
    refine ⟨by rw [BitRing.setMany, hset]; exact h1, by rw [BitRing.setMany, hset]; exact h2,
      by rw [BitRing.setMany, hset]; exact h3, fun i => ?_⟩
    rw [BitRing.setMany, hset, h4 i, getD_set, List.length_cons]
    by_cases c1 : off + 1 ≤ i ∧ i < off + 1 + bs.length
    · rw [if_pos c1, if_pos (by omega)]
      have : i - off = (i - (off + 1)) + 1 := by omega
      rw [this]; rfl
    · rw [if_neg c1]
      by_cases c2 : off = i
      · rw [if_pos (by omega), if_pos (by omega)]; subst c2; simp
      · rw [if_neg (by omega), if_neg (by omega)]

end Fox
