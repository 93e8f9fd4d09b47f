import Verif.Model.OddEven
import Verif.Proofs.Bits
/-
C25: the Amiga odd/even codec.
-/
namespace Fox

open OddEven

set_option linter.unusedSimpArgs false

/-! ### Specification -/

/-- `(o, e)` is the odd/even encoding of the `2n`-bit value whose upper half is `x` and lower half `y`:
bit `k` of `e` is bit `2k` of the value and bit `k` of `o` is bit `2k+1`. -/
def IsOddEven {n : Nat} (x y o e : BitVec n) : Prop :=
  ∀ k, k < n → e.getLsbD k = (x ++ y).getLsbD (2 * k) ∧ o.getLsbD k = (x ++ y).getLsbD (2 * k + 1)

/-! ### Bit descriptions of the code -/

theorem decodeU8Pair_bits (o e : Byte) :
    ∀ i, i < 16 → ((decodeU8Pair o e).1 ++ (decodeU8Pair o e).2).getLsbD i =
      if i % 2 = 0 then e.getLsbD (i / 2) else o.getLsbD (i / 2) := by
  intro i hi
  rw [BitVec.getLsbD_append]; unfold decodeU8Pair
  have : i = 0 ∨ i = 1 ∨ i = 2 ∨ i = 3 ∨ i = 4 ∨ i = 5 ∨ i = 6 ∨ i = 7 ∨ i = 8 ∨ i = 9 ∨ i = 10 ∨ i = 11 ∨ i = 12 ∨ i = 13 ∨ i = 14 ∨ i = 15 := by omega
  rcases this with rfl|rfl|rfl|rfl|rfl|rfl|rfl|rfl|rfl|rfl|rfl|rfl|rfl|rfl|rfl|rfl <;>
  simp [BitVec.getLsbD_and, BitVec.getLsbD_or, BitVec.getLsbD_shiftLeft, BitVec.getLsbD_ushiftRight, BitVec.getLsbD_append, BitVec.getElem_append]

theorem encodeU8Pair_even (x y : Byte) :
    ∀ i, i < 8 → (encodeU8Pair x y).2.getLsbD i = (x ++ y).getLsbD (2 * i) := by
  intro i hi
  rw [BitVec.getLsbD_append]; unfold encodeU8Pair
  have : i = 0 ∨ i = 1 ∨ i = 2 ∨ i = 3 ∨ i = 4 ∨ i = 5 ∨ i = 6 ∨ i = 7 := by omega
  rcases this with rfl|rfl|rfl|rfl|rfl|rfl|rfl|rfl <;>
  simp [BitVec.getLsbD_and, BitVec.getLsbD_or, BitVec.getLsbD_shiftLeft, BitVec.getLsbD_ushiftRight, BitVec.getLsbD_append, BitVec.getElem_append]

theorem encodeU8Pair_odd (x y : Byte) :
    ∀ i, i < 8 → (encodeU8Pair x y).1.getLsbD i = (x ++ y).getLsbD (4 * (i / 2) + 3) := by
  intro i hi
  rw [BitVec.getLsbD_append]; unfold encodeU8Pair
  have : i = 0 ∨ i = 1 ∨ i = 2 ∨ i = 3 ∨ i = 4 ∨ i = 5 ∨ i = 6 ∨ i = 7 := by omega
  rcases this with rfl|rfl|rfl|rfl|rfl|rfl|rfl|rfl <;>
  simp [BitVec.getLsbD_and, BitVec.getLsbD_or, BitVec.getLsbD_shiftLeft, BitVec.getLsbD_ushiftRight, BitVec.getLsbD_append, BitVec.getElem_append]

theorem decodeU32Pair_bits (o e : BitVec 32) :
    ∀ i, i < 64 → ((decodeU32Pair o e).1 ++ (decodeU32Pair o e).2).getLsbD i =
      if i % 2 = 0 then e.getLsbD (i / 2) else o.getLsbD (i / 2) := by
  intro i hi
  rw [BitVec.getLsbD_append]; unfold decodeU32Pair
  have : i = 0 ∨ i = 1 ∨ i = 2 ∨ i = 3 ∨ i = 4 ∨ i = 5 ∨ i = 6 ∨ i = 7 ∨ i = 8 ∨ i = 9 ∨ i = 10 ∨ i = 11 ∨ i = 12 ∨ i = 13 ∨ i = 14 ∨ i = 15 ∨ i = 16 ∨ i = 17 ∨ i = 18 ∨ i = 19 ∨ i = 20 ∨ i = 21 ∨ i = 22 ∨ i = 23 ∨ i = 24 ∨ i = 25 ∨ i = 26 ∨ i = 27 ∨ i = 28 ∨ i = 29 ∨ i = 30 ∨ i = 31 ∨ i = 32 ∨ i = 33 ∨ i = 34 ∨ i = 35 ∨ i = 36 ∨ i = 37 ∨ i = 38 ∨ i = 39 ∨ i = 40 ∨ i = 41 ∨ i = 42 ∨ i = 43 ∨ i = 44 ∨ i = 45 ∨ i = 46 ∨ i = 47 ∨ i = 48 ∨ i = 49 ∨ i = 50 ∨ i = 51 ∨ i = 52 ∨ i = 53 ∨ i = 54 ∨ i = 55 ∨ i = 56 ∨ i = 57 ∨ i = 58 ∨ i = 59 ∨ i = 60 ∨ i = 61 ∨ i = 62 ∨ i = 63 := by omega
  rcases this with rfl|rfl|rfl|rfl|rfl|rfl|rfl|rfl|rfl|rfl|rfl|rfl|rfl|rfl|rfl|rfl|rfl|rfl|rfl|rfl|rfl|rfl|rfl|rfl|rfl|rfl|rfl|rfl|rfl|rfl|rfl|rfl|rfl|rfl|rfl|rfl|rfl|rfl|rfl|rfl|rfl|rfl|rfl|rfl|rfl|rfl|rfl|rfl|rfl|rfl|rfl|rfl|rfl|rfl|rfl|rfl|rfl|rfl|rfl|rfl|rfl|rfl|rfl|rfl <;>
  simp [BitVec.getLsbD_and, BitVec.getLsbD_or, BitVec.getLsbD_shiftLeft, BitVec.getLsbD_ushiftRight, BitVec.getLsbD_append, BitVec.getElem_append]

theorem encodeU32Pair_even (x y : BitVec 32) :
    ∀ i, i < 32 → (encodeU32Pair x y).2.getLsbD i = (x ++ y).getLsbD (2 * i) := by
  intro i hi
  rw [BitVec.getLsbD_append]; unfold encodeU32Pair
  have : i = 0 ∨ i = 1 ∨ i = 2 ∨ i = 3 ∨ i = 4 ∨ i = 5 ∨ i = 6 ∨ i = 7 ∨ i = 8 ∨ i = 9 ∨ i = 10 ∨ i = 11 ∨ i = 12 ∨ i = 13 ∨ i = 14 ∨ i = 15 ∨ i = 16 ∨ i = 17 ∨ i = 18 ∨ i = 19 ∨ i = 20 ∨ i = 21 ∨ i = 22 ∨ i = 23 ∨ i = 24 ∨ i = 25 ∨ i = 26 ∨ i = 27 ∨ i = 28 ∨ i = 29 ∨ i = 30 ∨ i = 31 := by omega
  rcases this with rfl|rfl|rfl|rfl|rfl|rfl|rfl|rfl|rfl|rfl|rfl|rfl|rfl|rfl|rfl|rfl|rfl|rfl|rfl|rfl|rfl|rfl|rfl|rfl|rfl|rfl|rfl|rfl|rfl|rfl|rfl|rfl <;>
  simp [BitVec.getLsbD_and, BitVec.getLsbD_or, BitVec.getLsbD_shiftLeft, BitVec.getLsbD_ushiftRight, BitVec.getLsbD_append, BitVec.getElem_append]

theorem encodeU32Pair_odd (x y : BitVec 32) :
    ∀ i, i < 32 → (encodeU32Pair x y).1.getLsbD i = (x ++ y).getLsbD (4 * (i / 2) + 3) := by
  intro i hi
  rw [BitVec.getLsbD_append]; unfold encodeU32Pair
  have : i = 0 ∨ i = 1 ∨ i = 2 ∨ i = 3 ∨ i = 4 ∨ i = 5 ∨ i = 6 ∨ i = 7 ∨ i = 8 ∨ i = 9 ∨ i = 10 ∨ i = 11 ∨ i = 12 ∨ i = 13 ∨ i = 14 ∨ i = 15 ∨ i = 16 ∨ i = 17 ∨ i = 18 ∨ i = 19 ∨ i = 20 ∨ i = 21 ∨ i = 22 ∨ i = 23 ∨ i = 24 ∨ i = 25 ∨ i = 26 ∨ i = 27 ∨ i = 28 ∨ i = 29 ∨ i = 30 ∨ i = 31 := by omega
  rcases this with rfl|rfl|rfl|rfl|rfl|rfl|rfl|rfl|rfl|rfl|rfl|rfl|rfl|rfl|rfl|rfl|rfl|rfl|rfl|rfl|rfl|rfl|rfl|rfl|rfl|rfl|rfl|rfl|rfl|rfl|rfl|rfl <;>
  simp [BitVec.getLsbD_and, BitVec.getLsbD_or, BitVec.getLsbD_shiftLeft, BitVec.getLsbD_ushiftRight, BitVec.getLsbD_append, BitVec.getElem_append]

theorem decodeU32_bits (x : BitVec 32) :
    ∀ i, i < 32 → (decodeU32 x).getLsbD i =
      if i % 2 = 0 then x.getLsbD (i / 2) else x.getLsbD (16 + i / 2) := by
  intro i hi
  unfold decodeU32
  have : i = 0 ∨ i = 1 ∨ i = 2 ∨ i = 3 ∨ i = 4 ∨ i = 5 ∨ i = 6 ∨ i = 7 ∨ i = 8 ∨ i = 9 ∨ i = 10 ∨ i = 11 ∨ i = 12 ∨ i = 13 ∨ i = 14 ∨ i = 15 ∨ i = 16 ∨ i = 17 ∨ i = 18 ∨ i = 19 ∨ i = 20 ∨ i = 21 ∨ i = 22 ∨ i = 23 ∨ i = 24 ∨ i = 25 ∨ i = 26 ∨ i = 27 ∨ i = 28 ∨ i = 29 ∨ i = 30 ∨ i = 31 := by omega
  rcases this with rfl|rfl|rfl|rfl|rfl|rfl|rfl|rfl|rfl|rfl|rfl|rfl|rfl|rfl|rfl|rfl|rfl|rfl|rfl|rfl|rfl|rfl|rfl|rfl|rfl|rfl|rfl|rfl|rfl|rfl|rfl|rfl <;>
  simp [BitVec.getLsbD_and, BitVec.getLsbD_or, BitVec.getLsbD_shiftLeft, BitVec.getLsbD_ushiftRight, BitVec.getLsbD_append, BitVec.getElem_append]

theorem encodeU32_bits (x : BitVec 32) :
    ∀ i, i < 32 → (encodeU32 x).getLsbD i =
      if i < 16 then x.getLsbD (2 * i) else x.getLsbD (4 * ((i - 16) / 2) + 3) := by
  intro i hi
  unfold encodeU32
  have : i = 0 ∨ i = 1 ∨ i = 2 ∨ i = 3 ∨ i = 4 ∨ i = 5 ∨ i = 6 ∨ i = 7 ∨ i = 8 ∨ i = 9 ∨ i = 10 ∨ i = 11 ∨ i = 12 ∨ i = 13 ∨ i = 14 ∨ i = 15 ∨ i = 16 ∨ i = 17 ∨ i = 18 ∨ i = 19 ∨ i = 20 ∨ i = 21 ∨ i = 22 ∨ i = 23 ∨ i = 24 ∨ i = 25 ∨ i = 26 ∨ i = 27 ∨ i = 28 ∨ i = 29 ∨ i = 30 ∨ i = 31 := by omega
  rcases this with rfl|rfl|rfl|rfl|rfl|rfl|rfl|rfl|rfl|rfl|rfl|rfl|rfl|rfl|rfl|rfl|rfl|rfl|rfl|rfl|rfl|rfl|rfl|rfl|rfl|rfl|rfl|rfl|rfl|rfl|rfl|rfl <;>
  simp [BitVec.getLsbD_and, BitVec.getLsbD_or, BitVec.getLsbD_shiftLeft, BitVec.getLsbD_ushiftRight, BitVec.getLsbD_append, BitVec.getElem_append]

/-! ### Pairs -/

theorem append_inj {n m : Nat} {a a' : BitVec n} {b b' : BitVec m} (h : a ++ b = a' ++ b') : (a, b) = (a', b') := by
  have hb : b = b' := by
    apply BitVec.eq_of_getLsbD_eq
    intro i hi
    have := congrArg (fun v => v.getLsbD i) h
    simpa [BitVec.getLsbD_append, hi] using this
  have ha : a = a' := by
    apply BitVec.eq_of_getLsbD_eq
    intro i hi
    have := congrArg (fun v => v.getLsbD (m + i)) h
    simpa [BitVec.getLsbD_append, show ¬ (m + i < m) by omega] using this
  rw [ha, hb]

/-- **C25** (8-bit pairs): decoding is exact — `decode` returns `(x, y)` precisely when its arguments are
the odd/even encoding of `(x, y)`. -/
theorem C25_decode_U8_pair (x y o e : Byte) : decodeU8Pair o e = (x, y) ↔ IsOddEven x y o e := by
  have hb := decodeU8Pair_bits o e
  constructor
  · intro h k hk
    rw [h] at hb
    have h0 := hb (2 * k) (by omega)
    have h1 := hb (2 * k + 1) (by omega)
    rw [if_pos (by omega), show 2 * k / 2 = k by omega] at h0
    rw [if_neg (by omega), show (2 * k + 1) / 2 = k by omega] at h1
    exact ⟨h0.symm, h1.symm⟩
  · intro h
    have : (decodeU8Pair o e).1 ++ (decodeU8Pair o e).2 = x ++ y := by
      apply BitVec.eq_of_getLsbD_eq
      intro i hi
      rw [hb i hi]
      by_cases h2 : i % 2 = 0
      · rw [if_pos h2, (h (i / 2) (by omega)).1, show 2 * (i / 2) = i by omega]
      · rw [if_neg h2, (h (i / 2) (by omega)).2, show 2 * (i / 2) + 1 = i by omega]
    exact append_inj this

/-- **C25 (partial)** (8-bit pairs): exactly which values survive `encode` then `decode`: those whose bits
`4j+1` and `4j+3` agree for every `j`.  Missing: all other values (refuted below). -/
theorem C25_encode_U8_pair_partial (x y : Byte) :
    decodeU8Pair (encodeU8Pair x y).1 (encodeU8Pair x y).2 = (x, y) ↔
      ∀ j, j < 4 → (x ++ y).getLsbD (4 * j + 1) = (x ++ y).getLsbD (4 * j + 3) := by
  rw [C25_decode_U8_pair]
  constructor
  · intro h j hj
    have h0 := (h (2 * j) (by omega)).2
    rw [encodeU8Pair_odd x y (2 * j) (by omega), show 2 * j / 2 = j by omega,
      show 2 * (2 * j) + 1 = 4 * j + 1 by omega] at h0
    exact h0.symm
  · intro h k hk
    refine ⟨encodeU8Pair_even x y k hk, ?_⟩
    rw [encodeU8Pair_odd x y k hk]
    by_cases h2 : k % 2 = 0
    · rw [← h (k / 2) (by omega), show 4 * (k / 2) = 2 * k by omega]
    · rw [show 4 * (k / 2) + 3 = 2 * k + 1 by omega]

/-- **C25 is false of the code** (8-bit pairs): no decoder at all can invert `encode`. -/
theorem C25_false_U8_pair : ¬ ∃ dec : Byte → Byte → Byte × Byte, ∀ x y,
    dec (encodeU8Pair x y).1 (encodeU8Pair x y).2 = (x, y) := by
  rintro ⟨dec, h⟩
  have h0 := h 0 0
  have h2 := h 0 2
  rw [show encodeU8Pair 0 2 = encodeU8Pair 0 0 by decide, h0] at h2
  exact absurd (Prod.ext_iff.1 h2).2 (by decide)

/-- **C25** (32-bit pairs): decoding is exact — `decode` returns `(x, y)` precisely when its arguments are
the odd/even encoding of `(x, y)`. -/
theorem C25_decode_U32_pair (x y o e : BitVec 32) : decodeU32Pair o e = (x, y) ↔ IsOddEven x y o e := by
  have hb := decodeU32Pair_bits o e
  constructor
  · intro h k hk
    rw [h] at hb
    have h0 := hb (2 * k) (by omega)
    have h1 := hb (2 * k + 1) (by omega)
    rw [if_pos (by omega), show 2 * k / 2 = k by omega] at h0
    rw [if_neg (by omega), show (2 * k + 1) / 2 = k by omega] at h1
    exact ⟨h0.symm, h1.symm⟩
  · intro h
    have : (decodeU32Pair o e).1 ++ (decodeU32Pair o e).2 = x ++ y := by
      apply BitVec.eq_of_getLsbD_eq
      intro i hi
      rw [hb i hi]
      by_cases h2 : i % 2 = 0
      · rw [if_pos h2, (h (i / 2) (by omega)).1, show 2 * (i / 2) = i by omega]
      · rw [if_neg h2, (h (i / 2) (by omega)).2, show 2 * (i / 2) + 1 = i by omega]
    exact append_inj this

/-- **C25 (partial)** (32-bit pairs): exactly which values survive `encode` then `decode`: those whose bits
`4j+1` and `4j+3` agree for every `j`.  Missing: all other values (refuted below). -/
theorem C25_encode_U32_pair_partial (x y : BitVec 32) :
    decodeU32Pair (encodeU32Pair x y).1 (encodeU32Pair x y).2 = (x, y) ↔
      ∀ j, j < 16 → (x ++ y).getLsbD (4 * j + 1) = (x ++ y).getLsbD (4 * j + 3) := by
  rw [C25_decode_U32_pair]
  constructor
  · intro h j hj
    have h0 := (h (2 * j) (by omega)).2
    rw [encodeU32Pair_odd x y (2 * j) (by omega), show 2 * j / 2 = j by omega,
      show 2 * (2 * j) + 1 = 4 * j + 1 by omega] at h0
    exact h0.symm
  · intro h k hk
    refine ⟨encodeU32Pair_even x y k hk, ?_⟩
    rw [encodeU32Pair_odd x y k hk]
    by_cases h2 : k % 2 = 0
    · rw [← h (k / 2) (by omega), show 4 * (k / 2) = 2 * k by omega]
    · rw [show 4 * (k / 2) + 3 = 2 * k + 1 by omega]

/-- **C25 is false of the code** (32-bit pairs): no decoder at all can invert `encode`. -/
theorem C25_false_U32_pair : ¬ ∃ dec : BitVec 32 → BitVec 32 → BitVec 32 × BitVec 32, ∀ x y,
    dec (encodeU32Pair x y).1 (encodeU32Pair x y).2 = (x, y) := by
  rintro ⟨dec, h⟩
  have h0 := h 0 0
  have h2 := h 0 2
  rw [show encodeU32Pair 0 2 = encodeU32Pair 0 0 by decide, h0] at h2
  exact absurd (Prod.ext_iff.1 h2).2 (by decide)

/-! ### Single 32-bit values -/

/-- **C25** (`u32`): decoding is exact: bit `k` of the low half becomes bit `2k`, bit `k` of the high half
bit `2k+1`. -/
theorem C25_decode_u32 (x c : BitVec 32) : decodeU32 c = x ↔
    ∀ k, k < 16 → c.getLsbD k = x.getLsbD (2 * k) ∧ c.getLsbD (16 + k) = x.getLsbD (2 * k + 1) := by
  have hb := decodeU32_bits c
  constructor
  · intro h k hk
    rw [h] at hb
    have h0 := hb (2 * k) (by omega)
    have h1 := hb (2 * k + 1) (by omega)
    rw [if_pos (by omega), show 2 * k / 2 = k by omega] at h0
    rw [if_neg (by omega), show (2 * k + 1) / 2 = k by omega] at h1
    exact ⟨h0.symm, h1.symm⟩
  · intro h
    apply BitVec.eq_of_getLsbD_eq
    intro i hi
    rw [hb i hi]
    by_cases h2 : i % 2 = 0
    · rw [if_pos h2, (h (i / 2) (by omega)).1, show 2 * (i / 2) = i by omega]
    · rw [if_neg h2, (h (i / 2) (by omega)).2, show 2 * (i / 2) + 1 = i by omega]

/-- **C25 (partial)** (`u32`): exactly which values survive `encode` then `decode`. -/
theorem C25_encode_u32_partial (x : BitVec 32) : decodeU32 (encodeU32 x) = x ↔
    ∀ j, j < 8 → x.getLsbD (4 * j + 1) = x.getLsbD (4 * j + 3) := by
  rw [C25_decode_u32]
  constructor
  · intro h j hj
    have h0 := (h (2 * j) (by omega)).2
    rw [encodeU32_bits x (16 + 2 * j) (by omega), if_neg (by omega),
      show (16 + 2 * j - 16) / 2 = j by omega, show 2 * (2 * j) + 1 = 4 * j + 1 by omega] at h0
    exact h0.symm
  · intro h k hk
    rw [encodeU32_bits x k (by omega), if_pos hk, encodeU32_bits x (16 + k) (by omega), if_neg (by omega),
      show (16 + k - 16) / 2 = k / 2 by omega]
    refine ⟨rfl, ?_⟩
    by_cases h2 : k % 2 = 0
    · rw [← h (k / 2) (by omega), show 4 * (k / 2) = 2 * k by omega]
    · rw [show 4 * (k / 2) + 3 = 2 * k + 1 by omega]

/-- **C25 is false of the code** (`u32`): no decoder at all can invert `encode`. -/
theorem C25_false_u32 : ¬ ∃ dec : BitVec 32 → BitVec 32, ∀ x, dec (encodeU32 x) = x := by
  rintro ⟨dec, h⟩
  have h0 := h 0
  have h2 := h 2
  rw [show encodeU32 2 = encodeU32 0 by decide, h0] at h2
  exact absurd h2 (by decide)

/-! ### Clocked words -/

theorem ofBe32_be32 (x : BitVec 32) : ofBe32 (x.extractLsb' 24 8) (x.extractLsb' 16 8) (x.extractLsb' 8 8)
    (x.extractLsb' 0 8) = x := by
  apply BitVec.eq_of_getLsbD_eq
  intro i hi
  unfold ofBe32
  rw [BitVec.getLsbD_append, BitVec.getLsbD_append, BitVec.getLsbD_append]
  simp only [BitVec.getLsbD_extractLsb']
  by_cases h1 : i < 8
  · simp [h1]
  · by_cases h2 : i - 8 < 8
    · simp [h1, h2, show 8 + (i - 8) = i by omega]
    · by_cases h3 : i - 8 - 8 < 8
      · simp [h1, h2, h3, show 16 + (i - 8 - 8) = i by omega]
      · simp [h1, h2, h3, show i - 8 - 8 - 8 < 8 by omega, show 24 + (i - 8 - 8 - 8) = i by omega]

/-- **C25** (MFM words): storing a value into any buffer of at least eight bytes and reading it back gives
the value, and nothing beyond the eight bytes changes. -/
theorem C25_mfm_u32 (v : BitVec 32) (bytes : List Byte) (h : 8 ≤ bytes.length) :
    decodeRawU32 (encodeMfmU32 v bytes) = v ∧ (encodeMfmU32 v bytes).length = bytes.length ∧
      (encodeMfmU32 v bytes).drop 8 = bytes.drop 8 := by
  unfold encodeMfmU32
  rw [if_neg (by omega)]
  refine ⟨?_, by simp [be32]; omega, by simp [be32]⟩
  simp only [be32, List.cons_append, List.nil_append, decodeRawU32, ofBe32_be32]
  apply BitVec.eq_of_getLsbD_eq
  intro i hi
  have : i = 0 ∨ i = 1 ∨ i = 2 ∨ i = 3 ∨ i = 4 ∨ i = 5 ∨ i = 6 ∨ i = 7 ∨ i = 8 ∨ i = 9 ∨ i = 10 ∨ i = 11 ∨ i = 12 ∨ i = 13 ∨ i = 14 ∨ i = 15 ∨ i = 16 ∨ i = 17 ∨ i = 18 ∨ i = 19 ∨ i = 20 ∨ i = 21 ∨ i = 22 ∨ i = 23 ∨ i = 24 ∨ i = 25 ∨ i = 26 ∨ i = 27 ∨ i = 28 ∨ i = 29 ∨ i = 30 ∨ i = 31 := by omega
  rcases this with rfl|rfl|rfl|rfl|rfl|rfl|rfl|rfl|rfl|rfl|rfl|rfl|rfl|rfl|rfl|rfl|rfl|rfl|rfl|rfl|rfl|rfl|rfl|rfl|rfl|rfl|rfl|rfl|rfl|rfl|rfl|rfl <;>
  simp

/-- **C25** (FM words). -/
theorem C25_fm_u32 (v : BitVec 32) (bytes : List Byte) (h : 8 ≤ bytes.length) :
    decodeRawU32 (encodeFmU32 v bytes) = v ∧ (encodeFmU32 v bytes).length = bytes.length ∧
      (encodeFmU32 v bytes).drop 8 = bytes.drop 8 := by
  unfold encodeFmU32
  rw [if_neg (by omega)]
  refine ⟨?_, by simp [be32]; omega, by simp [be32]⟩
  simp only [be32, List.cons_append, List.nil_append, decodeRawU32, ofBe32_be32]
  apply BitVec.eq_of_getLsbD_eq
  intro i hi
  have : i = 0 ∨ i = 1 ∨ i = 2 ∨ i = 3 ∨ i = 4 ∨ i = 5 ∨ i = 6 ∨ i = 7 ∨ i = 8 ∨ i = 9 ∨ i = 10 ∨ i = 11 ∨ i = 12 ∨ i = 13 ∨ i = 14 ∨ i = 15 ∨ i = 16 ∨ i = 17 ∨ i = 18 ∨ i = 19 ∨ i = 20 ∨ i = 21 ∨ i = 22 ∨ i = 23 ∨ i = 24 ∨ i = 25 ∨ i = 26 ∨ i = 27 ∨ i = 28 ∨ i = 29 ∨ i = 30 ∨ i = 31 := by omega
  rcases this with rfl|rfl|rfl|rfl|rfl|rfl|rfl|rfl|rfl|rfl|rfl|rfl|rfl|rfl|rfl|rfl|rfl|rfl|rfl|rfl|rfl|rfl|rfl|rfl|rfl|rfl|rfl|rfl|rfl|rfl|rfl|rfl <;>
  simp

/-! ### Buffers -/

theorem putPairs_spec {α : Type} (d : α) : ∀ (ps : List (α × α)) (dst data : List α),
    dst.length = 2 * ps.length → data.length = 2 * ps.length →
    (∀ k, k < ps.length → ps.getD k (d, d) = (data.getD (2 * k) d, data.getD (2 * k + 1) d)) →
    putPairs ps dst = data
  | [], dst, data, h1, h2, _ => by
    rw [List.length_nil, Nat.mul_zero, List.length_eq_zero_iff] at h1 h2
    rw [h1, h2]; rfl
  | p :: ps, a :: b :: dst, x :: y :: data, h1, h2, h => by
    have h0 := h 0 (by simp)
    simp at h0
    rw [h0, putPairs, putPairs_spec d ps dst data (by simp at h1; omega) (by simp at h2; omega)]
    intro k hk
    have := h (k + 1) (by simp; omega)
    simpa [Nat.mul_add] using this
  | p :: ps, [], _, h1, _, _ => by simp at h1
  | p :: ps, [_], _, h1, _, _ => by simp at h1; omega
  | p :: ps, _ :: _ :: _, [], _, h2, _ => by simp at h2
  | p :: ps, _ :: _ :: _, [_], _, h2, _ => by simp at h2; omega

/-- **C25** (byte buffers, e.g. a 512-byte sector): if the source holds, for every pair of data bytes, its odd
half in the first half of the buffer and its even half in the second, decoding returns the data, whatever
the destination held. -/
theorem C25_decode_u8_buf (n : Nat) (src dst data : List Byte) (hs : src.length = 2 * n)
    (hd : dst.length = 2 * n) (hx : data.length = 2 * n)
    (h : ∀ k, k < n → IsOddEven (data.getD (2 * k) 0) (data.getD (2 * k + 1) 0) (src.getD k 0)
      (src.getD (n + k) 0)) : decodeU8Buf src dst = data := by
  unfold decodeU8Buf decodeBuf
  rw [hs, show 2 * n / 2 = n by omega]
  have hl : (((src.take n).zip (src.drop n)).map fun p => decodeU8Pair p.1 p.2).length = n := by
    simp; omega
  refine putPairs_spec 0 _ dst data (by rw [hl, hd]) (by rw [hl, hx]) ?_
  rw [hl]
  intro k hk
  rw [← (C25_decode_U8_pair _ _ _ _).2 (h k hk)]
  simp [List.getD_eq_getElem?_getD, 
    List.getElem?_eq_getElem (show k < ((src.take n).zip (src.drop n)).length by simp; omega),
    show k < src.length by omega, hk,
    show n + k < src.length by omega]

/-- **C25** (buffers of 32-bit words, e.g. the sector label). -/
theorem C25_decode_u32_buf (n : Nat) (src dst data : List (BitVec 32)) (hs : src.length = 2 * n)
    (hd : dst.length = 2 * n) (hx : data.length = 2 * n)
    (h : ∀ k, k < n → IsOddEven (data.getD (2 * k) 0) (data.getD (2 * k + 1) 0) (src.getD k 0)
      (src.getD (n + k) 0)) : decodeU32Buf src dst = data := by
  unfold decodeU32Buf decodeBuf
  rw [hs, show 2 * n / 2 = n by omega]
  have hl : (((src.take n).zip (src.drop n)).map fun p => decodeU32Pair p.1 p.2).length = n := by
    simp; omega
  refine putPairs_spec 0 _ dst data (by rw [hl, hd]) (by rw [hl, hx]) ?_
  rw [hl]
  intro k hk
  rw [← (C25_decode_U32_pair _ _ _ _).2 (h k hk)]
  simp [List.getD_eq_getElem?_getD, 
    List.getElem?_eq_getElem (show k < ((src.take n).zip (src.drop n)).length by simp; omega),
    show k < src.length by omega, hk,
    show n + k < src.length by omega]

/-- A concrete non-trivial encoding meets the hypotheses. -/
example : IsOddEven (0x1F : Byte) 0x66 0x35 0x7A := (C25_decode_U8_pair _ _ _ _).1 (by decide)
example : decodeU8Buf [0x35, 0x12, 0x7A, 0x80] [9, 9, 9, 9] = [0x1F, 0x66, 0x42, 0x08] := by decide
/-- A value that survives the encoder, and one that does not. -/
example : decodeU32 (encodeU32 0xFF00000B#32) = 0xFF00000B#32 ∧ decodeU32 (encodeU32 0x2#32) = 0 := by decide

end Fox
