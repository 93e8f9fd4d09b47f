import Verif.Spec.Track
import Verif.Proofs.Mfm
/-
Address marks in a stream of cells: where the sync patterns can occur.
-/
namespace Fox
open Fox.Spec Fox.S34

variable {f : List Bool} {B : List Byte} {ms : List (Marker × Nat)} {bnd : List Nat}

/-- A missing clock of the stream, as cells. -/
theorem Spec.CellsOk.missing (h : CellsOk f B ms bnd) (p : Nat) (hp : p % 2 = 1)
    (hl : p + 2 < f.length)
    (h0 : f.getD p false = false) (h1 : f.getD (p + 1) false = false)
    (h2 : f.getD (p + 2) false = false) :
    (∃ m o i, (m, o) ∈ ms ∧ i < 3 ∧ p + 1 = 16 * (o + i) + (if m = .iam then 8 else 10)) ∨
    ∃ b ∈ bnd, p + 1 = 16 * b ∧ b < B.length ∧ (B.getD b 0 = gapByte ∨ B.getD b 0 = syncByte) := by
  have hlen := h.len
  obtain ⟨q, rfl⟩ : ∃ q, p = 2 * q + 1 := ⟨p / 2, by omega⟩
  rw [show 2 * q + 1 + 1 = 2 * (q + 1) by omega] at h1
  rw [show 2 * q + 1 + 2 = 2 * (q + 1) + 1 by omega] at h2
  rw [h.data q (by omega)] at h0
  rw [h.data (q + 1) (by omega)] at h2
  rcases h.clock (q + 1) (by omega) (by omega) h1 (by simpa using h0) h2 with ⟨m, o, i, h3, h4, h5⟩ | ⟨b, hb, h5⟩
  · left
    refine ⟨m, o, i, h3, h4, ?_⟩
    split at h5 <;> rename_i hm <;> simp only [hm, if_true, if_false] <;> omega
  · right
    exact ⟨b, hb, by omega, by omega, h.bndOk b hb (by omega)⟩

/-- Data cell `k` of byte `b`. -/
theorem Spec.CellsOk.byteCell (h : CellsOk f B ms bnd) (b k : Nat) (hb : b < B.length) (hk : k < 8) :
    f.getD (16 * b + (2 * k + 1)) false = (B.getD b 0).getMsbD k := by
  rw [← dat_byte B b k hk, ← h.data (8 * b + k) (by omega)]
  congr 1; omega

/-- The A1 sync word occurs only at the bytes of address marks. -/
theorem Spec.CellsOk.sync_a1 (h : CellsOk f B ms bnd) (p : Nat) (hl : p + 16 ≤ f.length)
    (hp : ∀ k, k < 16 → f.getD (p + k) false = (0x4489#16).getMsbD k) :
    ∃ m o i, (m, o) ∈ ms ∧ m ≠ .iam ∧ i < 3 ∧ p = 16 * (o + i) := by
  have hlen := h.len
  rcases Nat.mod_two_eq_zero_or_one p with hm | hm
  · rcases h.missing (p + 9) (by omega) (by omega) (hp 9 (by decide)) (hp 10 (by decide))
      (hp 11 (by decide)) with ⟨m, o, i, hmem, hi, he⟩ | ⟨b, _, he, hb, hB⟩
    · obtain ⟨_, hmark⟩ := h.mark m o hmem
      by_cases hmi : m = .iam
      · exfalso
        rw [if_pos hmi] at he
        have h3 := hp 3 (by decide)
        rw [show p + 3 = 16 * o + (16 * i + 1) by omega, hmark _ (by omega), hmi] at h3
        have : i = 0 ∨ i = 1 ∨ i = 2 := by omega
        rcases this with rfl | rfl | rfl <;> revert h3 <;> decide
      · rw [if_neg hmi] at he
        exact ⟨m, o, i, hmem, hmi, hi, by omega⟩
    · exfalso
      have h13 := hp 13 (by decide)
      have h15 := hp 15 (by decide)
      rw [show p + 13 = 16 * b + (2 * 1 + 1) by omega, h.byteCell b 1 hb (by decide)] at h13
      rw [show p + 15 = 16 * b + (2 * 2 + 1) by omega, h.byteCell b 2 hb (by decide)] at h15
      rcases hB with hB | hB <;> rw [hB] at h13 h15 <;> revert h13 h15 <;> decide
  · rcases h.missing (p + 2) (by omega) (by omega) (hp 2 (by decide)) (hp 3 (by decide))
      (hp 4 (by decide)) with ⟨m, o, i, hmem, hi, he⟩ | ⟨b, _, he, hb, hB⟩
    · exfalso
      obtain ⟨_, hmark⟩ := h.mark m o hmem
      by_cases hmi : m = .iam
      · rw [if_pos hmi] at he
        have h14 := hp 14 (by decide)
        rw [show p + 14 = 16 * o + (16 * i + 19) by omega, hmark _ (by omega), hmi] at h14
        have : i = 0 ∨ i = 1 ∨ i = 2 := by omega
        rcases this with rfl | rfl | rfl <;> revert h14 <;> decide
      · rw [if_neg hmi] at he
        have h10 := hp 10 (by decide)
        rw [show p + 10 = 16 * o + (16 * i + 17) by omega, hmark _ (by omega)] at h10
        have : i = 0 ∨ i = 1 ∨ i = 2 := by omega
        rcases this with rfl | rfl | rfl <;> revert h10 hmi <;> cases m <;> decide
    · exfalso
      have h6 := hp 6 (by decide)
      have h8 := hp 8 (by decide)
      rw [show p + 6 = 16 * b + (2 * 1 + 1) by omega, h.byteCell b 1 hb (by decide)] at h6
      rw [show p + 8 = 16 * b + (2 * 2 + 1) by omega, h.byteCell b 2 hb (by decide)] at h8
      rcases hB with hB | hB <;> rw [hB] at h6 h8 <;> revert h6 h8 <;> decide

/-- Two C2 sync words in a row occur only at the bytes of an index mark. -/
theorem Spec.CellsOk.sync_c2 (h : CellsOk f B ms bnd) (p : Nat) (hl : p + 32 ≤ f.length)
    (hp : ∀ k, k < 32 → f.getD (p + k) false = (0x52245224#32).getMsbD k) :
    ∃ o i, (Marker.iam, o) ∈ ms ∧ i < 3 ∧ p = 16 * (o + i) := by
  have hlen := h.len
  rcases Nat.mod_two_eq_zero_or_one p with hm | hm
  · rcases h.missing (p + 7) (by omega) (by omega) (hp 7 (by decide)) (hp 8 (by decide))
      (hp 9 (by decide)) with ⟨m, o, i, hmem, hi, he⟩ | ⟨b, _, he, hb, hB⟩
    · obtain ⟨_, hmark⟩ := h.mark m o hmem
      by_cases hmi : m = .iam
      · rw [if_pos hmi] at he
        subst hmi
        exact ⟨o, i, hmem, hi, by omega⟩
      · exfalso
        rw [if_neg hmi] at he
        have h1 := hp 1 (by decide)
        rw [show p + 1 = 16 * o + (16 * i + 3) by omega, hmark _ (by omega)] at h1
        have : i = 0 ∨ i = 1 ∨ i = 2 := by omega
        rcases this with rfl | rfl | rfl <;> revert h1 hmi <;> cases m <;> decide
    · exfalso
      have h11 := hp 11 (by decide)
      have h13 := hp 13 (by decide)
      rw [show p + 11 = 16 * b + (2 * 1 + 1) by omega, h.byteCell b 1 hb (by decide)] at h11
      rw [show p + 13 = 16 * b + (2 * 2 + 1) by omega, h.byteCell b 2 hb (by decide)] at h13
      rcases hB with hB | hB <;> rw [hB] at h11 h13 <;> revert h11 h13 <;> decide
  · rcases h.missing (p + 14) (by omega) (by omega) (hp 14 (by decide)) (hp 15 (by decide))
      (hp 16 (by decide)) with ⟨m, o, i, hmem, hi, he⟩ | ⟨b, _, he, hb, hB⟩
    · exfalso
      obtain ⟨_, hmark⟩ := h.mark m o hmem
      by_cases hmi : m = .iam
      · rw [if_pos hmi] at he
        have h8 := hp 8 (by decide)
        rw [show p + 8 = 16 * o + (16 * i + 1) by omega, hmark _ (by omega), hmi] at h8
        have : i = 0 ∨ i = 1 ∨ i = 2 := by omega
        rcases this with rfl | rfl | rfl <;> revert h8 <;> decide
      · rw [if_neg hmi] at he
        have h20 := hp 20 (by decide)
        rw [show p + 20 = 16 * o + (16 * i + 15) by omega, hmark _ (by omega)] at h20
        have : i = 0 ∨ i = 1 ∨ i = 2 := by omega
        rcases this with rfl | rfl | rfl <;> revert h20 hmi <;> cases m <;> decide
    · exfalso
      have h18 := hp 18 (by decide)
      have h22 := hp 22 (by decide)
      rw [show p + 18 = 16 * b + (2 * 1 + 1) by omega, h.byteCell b 1 hb (by decide)] at h18
      rw [show p + 22 = 16 * b + (2 * 3 + 1) by omega, h.byteCell b 3 hb (by decide)] at h22
      rcases hB with hB | hB <;> rw [hB] at h18 h22 <;> revert h18 h22 <;> decide

/-- Three A1 sync words in a row occur exactly at the address marks. -/
theorem Spec.CellsOk.sync_a1x3 (h : CellsOk f B ms bnd) (p : Nat) (hl : p + 48 ≤ f.length)
    (hp : ∀ k, k < 48 → f.getD (p + k) false = (0x448944894489#48).getMsbD k) :
    ∃ m o, (m, o) ∈ ms ∧ m ≠ .iam ∧ p = 16 * o := by
  have a1 : ∀ c : Nat, c < 3 → ∀ k, k < 16 → f.getD (p + 16 * c + k) false = (0x4489#16).getMsbD k := by
    intro c hc k hk
    rw [show p + 16 * c + k = p + (16 * c + k) by omega, hp _ (by omega)]
    have hcc : c = 0 ∨ c = 1 ∨ c = 2 := by omega
    have : ∀ k : Fin 16, (0x448944894489#48).getMsbD (16 * 0 + k) = (0x4489#16).getMsbD k ∧
        (0x448944894489#48).getMsbD (16 * 1 + k) = (0x4489#16).getMsbD k ∧
        (0x448944894489#48).getMsbD (16 * 2 + k) = (0x4489#16).getMsbD k := by decide
    have := this ⟨k, hk⟩
    rcases hcc with rfl | rfl | rfl
    · exact this.1
    · exact this.2.1
    · exact this.2.2
  obtain ⟨m, o, i, hmem, hmi, hi, he⟩ := h.sync_a1 p (by omega) (a1 0 (by omega))
  obtain ⟨_, hmark⟩ := h.mark m o hmem
  have hcase : i = 0 ∨ i = 1 ∨ i = 2 := by omega
  refine ⟨m, o, hmem, hmi, ?_⟩
  rcases hcase with rfl | rfl | rfl
  · omega
  · exfalso
    have h9 := hp 35 (by decide)
    rw [show p + 35 = 16 * o + 51 by omega, hmark _ (by omega)] at h9
    revert h9 hmi; cases m <;> decide
  · exfalso
    have h9 := hp 19 (by decide)
    rw [show p + 19 = 16 * o + 51 by omega, hmark _ (by omega)] at h9
    revert h9 hmi; cases m <;> decide

/-- The index mark pattern occurs exactly at index marks. -/
theorem Spec.CellsOk.sync_iam (h : CellsOk f B ms bnd) (p : Nat) (hl : p + 64 ≤ f.length)
    (hp : ∀ k, k < 64 → f.getD (p + k) false = (markWord .iam).getMsbD k) :
    ∃ o, (Marker.iam, o) ∈ ms ∧ p = 16 * o := by
  obtain ⟨o, i, hmem, hi, he⟩ := h.sync_c2 p (by omega) (by
    intro k hk
    rw [hp k (by omega)]
    have : ∀ k : Fin 32, (markWord .iam).getMsbD k = (0x52245224#32).getMsbD k := by decide
    exact this ⟨k, hk⟩)
  obtain ⟨_, hmark⟩ := h.mark _ o hmem
  have hcase : i = 0 ∨ i = 1 ∨ i = 2 := by omega
  refine ⟨o, hmem, ?_⟩
  rcases hcase with rfl | rfl | rfl
  · omega
  · exfalso
    have h9 := hp 37 (by decide)
    rw [show p + 37 = 16 * o + 53 by omega, hmark _ (by omega)] at h9
    revert h9; decide
  · exfalso
    have h9 := hp 21 (by decide)
    rw [show p + 21 = 16 * o + 53 by omega, hmark _ (by omega)] at h9
    revert h9; decide

end Fox
