import Verif.Proofs.PllLock
/-
Two regions that the loop does not leave: the errors `e` and `f` of the last two transitions and the deviation `u`
of the period, in units of `D`.
-/
namespace Fox.Pll
open Fox.Spec

/-- The eight ways a step can go. -/
theorem eight {e f u u' : Rat} (h : Turn e f u u') :
    (0 ≤ e ∧ 0 ≤ f ∧ f ≤ e ∧ least e f = f ∧ u' = u + 5 / 100 * e) ∨
    (0 ≤ e ∧ 0 ≤ f ∧ e ≤ f ∧ least e f = e ∧ u' = u + 5 / 100 * e) ∨
    (0 ≤ e ∧ f ≤ 0 ∧ -f ≤ e ∧ least e f = f ∧ u' = u) ∨
    (0 ≤ e ∧ f ≤ 0 ∧ e ≤ -f ∧ least e f = e ∧ u' = u) ∨
    (e ≤ 0 ∧ f ≤ 0 ∧ e ≤ f ∧ least e f = f ∧ u' = u + 5 / 100 * e) ∨
    (e ≤ 0 ∧ f ≤ 0 ∧ f ≤ e ∧ least e f = e ∧ u' = u + 5 / 100 * e) ∨
    (e ≤ 0 ∧ 0 ≤ f ∧ f ≤ -e ∧ least e f = f ∧ u' = u) ∨
    (e ≤ 0 ∧ 0 ≤ f ∧ -e ≤ f ∧ least e f = e ∧ u' = u) := by
  have pos : ∀ x : Rat, 0 ≤ x → mag x = x := fun x hx => by unfold mag; rw [if_neg (by linarith)]
  have neg : ∀ x : Rat, x ≤ 0 → mag x = -x := fun x hx => by
    unfold mag
    split
    · rfl
    · linarith
  unfold least
  rcases h with ⟨hu, ⟨a, b⟩ | ⟨a, b⟩⟩ | ⟨hu, ⟨a, b⟩ | ⟨a, b⟩⟩
  · rw [pos e a, pos f b]
    split
    · exact Or.inr (Or.inl ⟨a, b, by linarith, rfl, hu⟩)
    · exact Or.inl ⟨a, b, by linarith, rfl, hu⟩
  · rw [neg e a, neg f b]
    split
    · exact Or.inr (Or.inr (Or.inr (Or.inr (Or.inr (Or.inl ⟨a, b, by linarith, rfl, hu⟩)))))
    · exact Or.inr (Or.inr (Or.inr (Or.inr (Or.inl ⟨a, b, by linarith, rfl, hu⟩))))
  · rw [pos e a, neg f b]
    split
    · exact Or.inr (Or.inr (Or.inr (Or.inl ⟨a, b, by linarith, rfl, hu⟩)))
    · exact Or.inr (Or.inr (Or.inl ⟨a, b, by linarith, rfl, hu⟩))
  · rw [neg e a, pos f b]
    split
    · exact Or.inr (Or.inr (Or.inr (Or.inr (Or.inr (Or.inr (Or.inr ⟨a, b, by linarith, rfl, hu⟩))))))
    · exact Or.inr (Or.inr (Or.inr (Or.inr (Or.inr (Or.inr (Or.inl ⟨a, b, by linarith, rfl, hu⟩))))))

/-- The region for transitions that are off by at most `D` each, on a disk whose cell is off by at most `D`. -/
structure Tight (D e f u : Rat) : Prop where
  b0 : e ≤ 1289 / 100 * D
  b1 : u ≤ 27 / 25 * D
  b2 : 2 * e - f + 10 * u ≤ 63 / 5 * D
  b3 : 2 * e - f ≤ 1819 / 100 * D
  b4 : e - f - 10 * u ≤ 402 / 25 * D
  b5 : e - f ≤ 19 / 2 * D
  b6 : e + 10 * u ≤ 269 / 25 * D
  b7 : 2 * e + 10 * u ≤ 511 / 25 * D
  b8 : f + 20 * u ≤ 2153 / 100 * D
  b9 : -e ≤ 1289 / 100 * D
  b10 : -u ≤ 27 / 25 * D
  b11 : -2 * e + f - 10 * u ≤ 63 / 5 * D
  b12 : -2 * e + f ≤ 1819 / 100 * D
  b13 : -e + f + 10 * u ≤ 402 / 25 * D
  b14 : -e + f ≤ 19 / 2 * D
  b15 : -e - 10 * u ≤ 269 / 25 * D
  b16 : -2 * e - 10 * u ≤ 511 / 25 * D
  b17 : -f - 20 * u ≤ 2153 / 100 * D

/-- The region for perfectly spaced transitions on a disk whose cell is shorter than the decoder's by `D`. -/
structure Drift (D e f u : Rat) : Prop where
  b0 : -2 * e - u ≤ 1543 / 100 * D
  b1 : 2 * e - u ≤ 2169 / 200 * D
  b2 : -2 * e + u ≤ 3427 / 200 * D
  b3 : u ≤ 201 / 200 * D
  b4 : -2 * e + f - 7 * u ≤ 11 / 2 * D
  b5 : -e - 7 * u ≤ 101 / 25 * D
  b6 : e - f - 7 * u ≤ 156 / 25 * D
  b7 : -e + f + 7 * u ≤ 1101 / 100 * D
  b8 : e - f ≤ 467 / 100 * D
  b9 : -e + f ≤ 417 / 100 * D
  b10 : -e + f - 14 * u ≤ 681 / 100 * D
  b11 : -2 * e + f ≤ 301 / 25 * D
  b12 : e + f + 7 * u ≤ 177 / 20 * D
  b13 : 2 * e - f + 7 * u ≤ 1119 / 200 * D
  b14 : -f - 14 * u ≤ 397 / 50 * D
  b15 : f + 7 * u ≤ 1401 / 200 * D

set_option maxHeartbeats 4000000 in
theorem Tight.next {D e f u u' j : Rat} {k : Nat} (h : Tight D e f u) (ht : Turn e f u u') (hk : 2 ≤ k ∧ k ≤ 4)
    (hj : -D ≤ j ∧ j ≤ D) : Tight D (e + j - 65 / 100 * least e f - (k - 1 / 2) * u' - u / 2) e u' := by
  obtain ⟨x0, x1, x2, x3, x4, x5, x6, x7, x8, x9, x10, x11, x12, x13, x14, x15, x16, x17⟩ := h
  obtain ⟨hj1, hj2⟩ := hj
  have hk : (k : Rat) = 2 ∨ (k : Rat) = 3 ∨ (k : Rat) = 4 := by
    rcases (show k = 2 ∨ k = 3 ∨ k = 4 by omega) with rfl | rfl | rfl <;> simp
  have hD : 0 ≤ D := by linarith only [x0, x9]
  rcases eight ht with ⟨e1, e2, e3, e4, e5⟩ | ⟨e1, e2, e3, e4, e5⟩ | ⟨e1, e2, e3, e4, e5⟩ | ⟨e1, e2, e3, e4, e5⟩ |
    ⟨e1, e2, e3, e4, e5⟩ | ⟨e1, e2, e3, e4, e5⟩ | ⟨e1, e2, e3, e4, e5⟩ | ⟨e1, e2, e3, e4, e5⟩
  · rcases hk with hk | hk | hk
    · rw [e4, e5, hk]; constructor
      · linarith only [x3, x4, e2, hj1, hj2, hD]
      · linarith only [x6, e1, e2, e3, hj1, hj2, hD]
      · linarith only [x2, x3, e2, hj1, hj2, hD]
      · linarith only [x3, x4, e2, hj1, hj2, hD]
      · linarith only [x15, x17, e2, hj1, hj2, hD]
      · linarith only [x15, x17, e2, hj1, hj2, hD]
      · linarith only [x2, x6, e2, hj1, hj2, hD]
      · linarith only [x2, x3, e2, hj1, hj2, hD]
      · linarith only [x2, x6, x7, hj1, hj2, hD]
      · linarith only [x6, e1, e2, e3, hj1, hj2, hD]
      · linarith only [x10, x17, e3, hj1, hj2, hD]
      · linarith only [x10, x17, e3, hj1, hj2, hD]
      · linarith only [x6, x7, e3, hj1, hj2, hD]
      · linarith only [x6, x7, e3, hj1, hj2, hD]
      · linarith only [x0, x7, e3, hj1, hj2, hD]
      · linarith only [x15, x17, e3, hj1, hj2, hD]
      · linarith only [x15, e1, e2, e3, hj1, hj2, hD]
      · linarith only [x15, e1, e2, e3, hj1, hj2, hD]
    · rw [e4, e5, hk]; constructor
      · linarith only [x3, x4, e2, hj1, hj2, hD]
      · linarith only [x6, e1, e2, e3, hj1, hj2, hD]
      · linarith only [x2, x3, e2, hj1, hj2, hD]
      · linarith only [x3, x4, e2, hj1, hj2, hD]
      · linarith only [x15, x17, e2, hj1, hj2, hD]
      · linarith only [x15, x17, e2, hj1, hj2, hD]
      · linarith only [x2, x6, x7, hj1, hj2, hD]
      · linarith only [x2, x3, e2, hj1, hj2, hD]
      · linarith only [x2, x6, x7, hj1, hj2, hD]
      · linarith only [x6, e1, e2, e3, hj1, hj2, hD]
      · linarith only [x10, x17, e3, hj1, hj2, hD]
      · linarith only [x0, x10, e3, hj1, hj2, hD]
      · linarith only [x6, e1, e2, e3, hj1, hj2, hD]
      · linarith only [x6, e1, e2, e3, hj1, hj2, hD]
      · linarith only [x0, x7, e3, hj1, hj2, hD]
      · linarith only [x15, e1, e2, e3, hj1, hj2, hD]
      · linarith only [x15, e1, e2, e3, hj1, hj2, hD]
      · linarith only [x15, e1, e2, e3, hj1, hj2, hD]
    · rw [e4, e5, hk]; constructor
      · linarith only [x3, x4, e2, hj1, hj2, hD]
      · linarith only [x6, e1, e2, e3, hj1, hj2, hD]
      · linarith only [x2, x3, e2, hj1, hj2, hD]
      · linarith only [x4, x17, e2, hj1, hj2, hD]
      · linarith only [x15, x17, e2, hj1, hj2, hD]
      · linarith only [x15, x17, e2, hj1, hj2, hD]
      · linarith only [x0, x2, x3, hj1, hj2, hD]
      · linarith only [x2, x3, e2, hj1, hj2, hD]
      · linarith only [x2, x6, x7, hj1, hj2, hD]
      · linarith only [x6, e1, e2, e3, hj1, hj2, hD]
      · linarith only [x10, x17, e3, hj1, hj2, hD]
      · linarith only [x0, x10, e3, hj1, hj2, hD]
      · linarith only [x6, e1, e2, e3, hj1, hj2, hD]
      · linarith only [x6, e1, e2, e3, hj1, hj2, hD]
      · linarith only [x0, x7, e3, hj1, hj2, hD]
      · linarith only [x15, e1, e2, e3, hj1, hj2, hD]
      · linarith only [x15, e1, e2, e3, hj1, hj2, hD]
      · linarith only [x15, e1, e2, e3, hj1, hj2, hD]
  · rcases hk with hk | hk | hk
    · rw [e4, e5, hk]; constructor
      · linarith only [x0, x10, x14, hj1, hj2, hD]
      · linarith only [x6, x8, e1, hj1, hj2, hD]
      · linarith only [x6, x8, e1, hj1, hj2, hD]
      · linarith only [x11, x15, e1, hj1, hj2, hD]
      · linarith only [x11, x15, e1, hj1, hj2, hD]
      · linarith only [x11, x15, e1, hj1, hj2, hD]
      · linarith only [x6, x8, e1, hj1, hj2, hD]
      · linarith only [x6, x7, x14, hj1, hj2, hD]
      · linarith only [x6, x7, x14, hj1, hj2, hD]
      · linarith only [x6, x8, e1, hj1, hj2, hD]
      · linarith only [x10, x11, x15, hj1, hj2, hD]
      · linarith only [x10, x11, x15, hj1, hj2, hD]
      · linarith only [x6, x7, x14, hj1, hj2, hD]
      · linarith only [x6, x7, x14, hj1, hj2, hD]
      · linarith only [x0, x7, x14, hj1, hj2, hD]
      · linarith only [x10, x11, x15, hj1, hj2, hD]
      · linarith only [x11, x15, e1, hj1, hj2, hD]
      · linarith only [x10, x11, x15, hj1, hj2, hD]
    · rw [e4, e5, hk]; constructor
      · linarith only [x0, x10, x14, hj1, hj2, hD]
      · linarith only [x6, x8, e1, hj1, hj2, hD]
      · linarith only [x6, x8, e1, hj1, hj2, hD]
      · linarith only [x10, x11, x15, hj1, hj2, hD]
      · linarith only [x10, x11, x15, hj1, hj2, hD]
      · linarith only [x11, x15, e1, hj1, hj2, hD]
      · linarith only [x6, x7, x14, hj1, hj2, hD]
      · linarith only [x0, x7, x14, hj1, hj2, hD]
      · linarith only [x6, x7, x14, hj1, hj2, hD]
      · linarith only [x6, x8, e1, hj1, hj2, hD]
      · linarith only [x10, x11, x15, hj1, hj2, hD]
      · linarith only [x0, x10, x14, hj1, hj2, hD]
      · linarith only [x6, x8, e1, hj1, hj2, hD]
      · linarith only [x6, x8, e1, hj1, hj2, hD]
      · linarith only [x0, x7, x14, hj1, hj2, hD]
      · linarith only [x11, x15, e1, hj1, hj2, hD]
      · linarith only [x11, x15, e1, hj1, hj2, hD]
      · linarith only [x10, x11, x15, hj1, hj2, hD]
    · rw [e4, e5, hk]; constructor
      · linarith only [x0, x10, x14, hj1, hj2, hD]
      · linarith only [x6, x8, e1, hj1, hj2, hD]
      · linarith only [x6, x8, e1, hj1, hj2, hD]
      · linarith only [x10, x11, x15, hj1, hj2, hD]
      · linarith only [x10, x11, x15, hj1, hj2, hD]
      · linarith only [x11, x15, e1, hj1, hj2, hD]
      · linarith only [x6, x7, x14, hj1, hj2, hD]
      · linarith only [x0, x7, x14, hj1, hj2, hD]
      · linarith only [x6, x7, x14, hj1, hj2, hD]
      · linarith only [x6, x8, e1, hj1, hj2, hD]
      · linarith only [x10, x11, x15, hj1, hj2, hD]
      · linarith only [x0, x10, x14, hj1, hj2, hD]
      · linarith only [x6, x8, e1, hj1, hj2, hD]
      · linarith only [x6, x8, e1, hj1, hj2, hD]
      · linarith only [x0, x7, x14, hj1, hj2, hD]
      · linarith only [x11, x15, e1, hj1, hj2, hD]
      · linarith only [x11, x15, e1, hj1, hj2, hD]
      · linarith only [x10, x11, x15, hj1, hj2, hD]
  · rcases hk with hk | hk | hk
    · rw [e4, e5, hk]; constructor
      · linarith only [x3, x4, x5, hj1, hj2, hD]
      · linarith only [x6, e1, e2, e3, hj1, hj2, hD]
      · linarith only [x2, x5, e3, hj1, hj2, hD]
      · linarith only [x4, x5, e3, hj1, hj2, hD]
      · linarith only [x4, x17, e3, hj1, hj2, hD]
      · linarith only [x4, x5, e3, hj1, hj2, hD]
      · linarith only [x2, x6, e3, hj1, hj2, hD]
      · linarith only [x2, x3, x5, hj1, hj2, hD]
      · linarith only [x6, e1, e2, e3, hj1, hj2, hD]
      · linarith only [x6, e1, e2, e3, hj1, hj2, hD]
      · linarith only [x4, x17, e2, hj1, hj2, hD]
      · linarith only [x15, e1, e2, e3, hj1, hj2, hD]
      · linarith only [x6, e1, e2, e3, hj1, hj2, hD]
      · linarith only [x6, e1, e2, e3, hj1, hj2, hD]
      · linarith only [x6, e1, e2, e3, hj1, hj2, hD]
      · linarith only [x15, e1, e2, e3, hj1, hj2, hD]
      · linarith only [x15, e1, e2, e3, hj1, hj2, hD]
      · linarith only [x15, x17, e2, hj1, hj2, hD]
    · rw [e4, e5, hk]; constructor
      · linarith only [x3, x4, x5, hj1, hj2, hD]
      · linarith only [x6, e1, e2, e3, hj1, hj2, hD]
      · linarith only [x2, x5, e3, hj1, hj2, hD]
      · linarith only [x4, x5, e3, hj1, hj2, hD]
      · linarith only [x15, x17, e2, hj1, hj2, hD]
      · linarith only [x4, x5, e3, hj1, hj2, hD]
      · linarith only [x2, x6, e3, hj1, hj2, hD]
      · linarith only [x2, x3, x5, hj1, hj2, hD]
      · linarith only [x6, e1, e2, e3, hj1, hj2, hD]
      · linarith only [x6, e1, e2, e3, hj1, hj2, hD]
      · linarith only [x4, x17, e2, hj1, hj2, hD]
      · linarith only [x15, e1, e2, e3, hj1, hj2, hD]
      · linarith only [x6, e1, e2, e3, hj1, hj2, hD]
      · linarith only [x6, e1, e2, e3, hj1, hj2, hD]
      · linarith only [x6, e1, e2, e3, hj1, hj2, hD]
      · linarith only [x15, e1, e2, e3, hj1, hj2, hD]
      · linarith only [x15, e1, e2, e3, hj1, hj2, hD]
      · linarith only [x15, x17, e2, hj1, hj2, hD]
    · rw [e4, e5, hk]; constructor
      · linarith only [x3, x4, e2, hj1, hj2, hD]
      · linarith only [x6, e1, e2, e3, hj1, hj2, hD]
      · linarith only [x2, x5, e3, hj1, hj2, hD]
      · linarith only [x4, x5, e3, hj1, hj2, hD]
      · linarith only [x15, x17, e2, hj1, hj2, hD]
      · linarith only [x4, x17, e3, hj1, hj2, hD]
      · linarith only [x2, x6, e3, hj1, hj2, hD]
      · linarith only [x2, x3, x5, hj1, hj2, hD]
      · linarith only [x6, e1, e2, e3, hj1, hj2, hD]
      · linarith only [x6, e1, e2, e3, hj1, hj2, hD]
      · linarith only [x4, x17, e2, hj1, hj2, hD]
      · linarith only [x15, e1, e2, e3, hj1, hj2, hD]
      · linarith only [x6, e1, e2, e3, hj1, hj2, hD]
      · linarith only [x6, e1, e2, e3, hj1, hj2, hD]
      · linarith only [x6, e1, e2, e3, hj1, hj2, hD]
      · linarith only [x15, e1, e2, e3, hj1, hj2, hD]
      · linarith only [x15, e1, e2, e3, hj1, hj2, hD]
      · linarith only [x15, x17, e2, hj1, hj2, hD]
  · rcases hk with hk | hk | hk
    · rw [e4, e5, hk]; constructor
      · linarith only [x4, x17, e3, hj1, hj2, hD]
      · linarith only [x2, x6, e1, hj1, hj2, hD]
      · linarith only [x2, x6, e1, hj1, hj2, hD]
      · linarith only [x15, x17, e3, hj1, hj2, hD]
      · linarith only [x15, x17, e3, hj1, hj2, hD]
      · linarith only [x15, x17, e1, hj1, hj2, hD]
      · linarith only [x2, x6, e1, hj1, hj2, hD]
      · linarith only [x2, x6, e3, hj1, hj2, hD]
      · linarith only [x2, x6, e1, hj1, hj2, hD]
      · linarith only [x2, x6, e1, hj1, hj2, hD]
      · linarith only [x15, x17, e3, hj1, hj2, hD]
      · linarith only [x4, x17, e3, hj1, hj2, hD]
      · linarith only [x2, x6, e1, hj1, hj2, hD]
      · linarith only [x2, x6, e1, hj1, hj2, hD]
      · linarith only [x2, x5, e3, hj1, hj2, hD]
      · linarith only [x15, x17, e3, hj1, hj2, hD]
      · linarith only [x15, x17, e1, hj1, hj2, hD]
      · linarith only [x15, x17, e3, hj1, hj2, hD]
    · rw [e4, e5, hk]; constructor
      · linarith only [x4, x17, e3, hj1, hj2, hD]
      · linarith only [x2, x6, e1, hj1, hj2, hD]
      · linarith only [x2, x6, e1, hj1, hj2, hD]
      · linarith only [x15, x17, e3, hj1, hj2, hD]
      · linarith only [x15, x17, e3, hj1, hj2, hD]
      · linarith only [x15, x17, e1, hj1, hj2, hD]
      · linarith only [x2, x6, e1, hj1, hj2, hD]
      · linarith only [x2, x6, e3, hj1, hj2, hD]
      · linarith only [x2, x6, e1, hj1, hj2, hD]
      · linarith only [x2, x6, e1, hj1, hj2, hD]
      · linarith only [x15, x17, e3, hj1, hj2, hD]
      · linarith only [x4, x17, e3, hj1, hj2, hD]
      · linarith only [x2, x6, e1, hj1, hj2, hD]
      · linarith only [x2, x6, e1, hj1, hj2, hD]
      · linarith only [x2, x6, e3, hj1, hj2, hD]
      · linarith only [x15, x17, e3, hj1, hj2, hD]
      · linarith only [x15, x17, e1, hj1, hj2, hD]
      · linarith only [x15, x17, e3, hj1, hj2, hD]
    · rw [e4, e5, hk]; constructor
      · linarith only [x4, x17, e3, hj1, hj2, hD]
      · linarith only [x2, x6, e1, hj1, hj2, hD]
      · linarith only [x2, x6, e1, hj1, hj2, hD]
      · linarith only [x15, x17, e3, hj1, hj2, hD]
      · linarith only [x15, x17, e3, hj1, hj2, hD]
      · linarith only [x15, x17, e1, hj1, hj2, hD]
      · linarith only [x2, x6, e1, hj1, hj2, hD]
      · linarith only [x2, x5, e3, hj1, hj2, hD]
      · linarith only [x2, x6, e1, hj1, hj2, hD]
      · linarith only [x2, x6, e1, hj1, hj2, hD]
      · linarith only [x15, x17, e3, hj1, hj2, hD]
      · linarith only [x4, x17, e3, hj1, hj2, hD]
      · linarith only [x2, x6, e1, hj1, hj2, hD]
      · linarith only [x2, x6, e1, hj1, hj2, hD]
      · linarith only [x2, x6, e3, hj1, hj2, hD]
      · linarith only [x15, x17, e3, hj1, hj2, hD]
      · linarith only [x15, x17, e1, hj1, hj2, hD]
      · linarith only [x15, x17, e3, hj1, hj2, hD]
  · rcases hk with hk | hk | hk
    · rw [e4, e5, hk]; constructor
      · linarith only [x15, e1, e2, e3, hj1, hj2, hD]
      · linarith only [x1, x8, e3, hj1, hj2, hD]
      · linarith only [x1, x8, e3, hj1, hj2, hD]
      · linarith only [x15, x16, e3, hj1, hj2, hD]
      · linarith only [x15, x16, e3, hj1, hj2, hD]
      · linarith only [x9, x16, e3, hj1, hj2, hD]
      · linarith only [x6, x8, e3, hj1, hj2, hD]
      · linarith only [x6, e1, e2, e3, hj1, hj2, hD]
      · linarith only [x6, e1, e2, e3, hj1, hj2, hD]
      · linarith only [x12, x13, e2, hj1, hj2, hD]
      · linarith only [x15, e1, e2, e3, hj1, hj2, hD]
      · linarith only [x11, x12, e2, hj1, hj2, hD]
      · linarith only [x12, x13, e2, hj1, hj2, hD]
      · linarith only [x6, x8, e2, hj1, hj2, hD]
      · linarith only [x6, x8, e2, hj1, hj2, hD]
      · linarith only [x11, x15, e2, hj1, hj2, hD]
      · linarith only [x11, x12, e2, hj1, hj2, hD]
      · linarith only [x11, x15, x16, hj1, hj2, hD]
    · rw [e4, e5, hk]; constructor
      · linarith only [x15, e1, e2, e3, hj1, hj2, hD]
      · linarith only [x1, x8, e3, hj1, hj2, hD]
      · linarith only [x1, x9, e3, hj1, hj2, hD]
      · linarith only [x15, e1, e2, e3, hj1, hj2, hD]
      · linarith only [x15, e1, e2, e3, hj1, hj2, hD]
      · linarith only [x9, x16, e3, hj1, hj2, hD]
      · linarith only [x6, e1, e2, e3, hj1, hj2, hD]
      · linarith only [x6, e1, e2, e3, hj1, hj2, hD]
      · linarith only [x6, e1, e2, e3, hj1, hj2, hD]
      · linarith only [x12, x13, e2, hj1, hj2, hD]
      · linarith only [x15, e1, e2, e3, hj1, hj2, hD]
      · linarith only [x11, x12, e2, hj1, hj2, hD]
      · linarith only [x12, x13, e2, hj1, hj2, hD]
      · linarith only [x6, x8, e2, hj1, hj2, hD]
      · linarith only [x6, x8, e2, hj1, hj2, hD]
      · linarith only [x11, x15, x16, hj1, hj2, hD]
      · linarith only [x11, x12, e2, hj1, hj2, hD]
      · linarith only [x11, x15, x16, hj1, hj2, hD]
    · rw [e4, e5, hk]; constructor
      · linarith only [x15, e1, e2, e3, hj1, hj2, hD]
      · linarith only [x1, x8, e3, hj1, hj2, hD]
      · linarith only [x1, x9, e3, hj1, hj2, hD]
      · linarith only [x15, e1, e2, e3, hj1, hj2, hD]
      · linarith only [x15, e1, e2, e3, hj1, hj2, hD]
      · linarith only [x9, x16, e3, hj1, hj2, hD]
      · linarith only [x6, e1, e2, e3, hj1, hj2, hD]
      · linarith only [x6, e1, e2, e3, hj1, hj2, hD]
      · linarith only [x6, e1, e2, e3, hj1, hj2, hD]
      · linarith only [x12, x13, e2, hj1, hj2, hD]
      · linarith only [x15, e1, e2, e3, hj1, hj2, hD]
      · linarith only [x11, x12, e2, hj1, hj2, hD]
      · linarith only [x8, x13, e2, hj1, hj2, hD]
      · linarith only [x6, x8, e2, hj1, hj2, hD]
      · linarith only [x6, x8, e2, hj1, hj2, hD]
      · linarith only [x9, x11, x12, hj1, hj2, hD]
      · linarith only [x11, x12, e2, hj1, hj2, hD]
      · linarith only [x11, x15, x16, hj1, hj2, hD]
  · rcases hk with hk | hk | hk
    · rw [e4, e5, hk]; constructor
      · linarith only [x15, x17, e1, hj1, hj2, hD]
      · linarith only [x1, x2, x6, hj1, hj2, hD]
      · linarith only [x1, x2, x6, hj1, hj2, hD]
      · linarith only [x5, x15, x16, hj1, hj2, hD]
      · linarith only [x5, x15, x16, hj1, hj2, hD]
      · linarith only [x5, x9, x16, hj1, hj2, hD]
      · linarith only [x1, x2, x6, hj1, hj2, hD]
      · linarith only [x2, x6, e1, hj1, hj2, hD]
      · linarith only [x1, x2, x6, hj1, hj2, hD]
      · linarith only [x1, x5, x9, hj1, hj2, hD]
      · linarith only [x15, x17, e1, hj1, hj2, hD]
      · linarith only [x15, x17, e1, hj1, hj2, hD]
      · linarith only [x2, x6, e1, hj1, hj2, hD]
      · linarith only [x2, x6, e1, hj1, hj2, hD]
      · linarith only [x2, x6, e1, hj1, hj2, hD]
      · linarith only [x15, x17, e1, hj1, hj2, hD]
      · linarith only [x5, x15, x16, hj1, hj2, hD]
      · linarith only [x5, x15, x16, hj1, hj2, hD]
    · rw [e4, e5, hk]; constructor
      · linarith only [x15, x17, e1, hj1, hj2, hD]
      · linarith only [x1, x2, x6, hj1, hj2, hD]
      · linarith only [x1, x5, x9, hj1, hj2, hD]
      · linarith only [x15, x17, e1, hj1, hj2, hD]
      · linarith only [x15, x17, e1, hj1, hj2, hD]
      · linarith only [x5, x9, x16, hj1, hj2, hD]
      · linarith only [x2, x6, e1, hj1, hj2, hD]
      · linarith only [x2, x6, e1, hj1, hj2, hD]
      · linarith only [x1, x2, x6, hj1, hj2, hD]
      · linarith only [x1, x5, x9, hj1, hj2, hD]
      · linarith only [x15, x17, e1, hj1, hj2, hD]
      · linarith only [x15, x17, e1, hj1, hj2, hD]
      · linarith only [x1, x2, x6, hj1, hj2, hD]
      · linarith only [x1, x2, x6, hj1, hj2, hD]
      · linarith only [x2, x6, e1, hj1, hj2, hD]
      · linarith only [x5, x15, x16, hj1, hj2, hD]
      · linarith only [x5, x9, x16, hj1, hj2, hD]
      · linarith only [x5, x15, x16, hj1, hj2, hD]
    · rw [e4, e5, hk]; constructor
      · linarith only [x15, x17, e1, hj1, hj2, hD]
      · linarith only [x1, x2, x6, hj1, hj2, hD]
      · linarith only [x1, x5, x9, hj1, hj2, hD]
      · linarith only [x15, x17, e1, hj1, hj2, hD]
      · linarith only [x15, x17, e1, hj1, hj2, hD]
      · linarith only [x5, x9, x16, hj1, hj2, hD]
      · linarith only [x2, x6, e1, hj1, hj2, hD]
      · linarith only [x2, x6, e1, hj1, hj2, hD]
      · linarith only [x1, x2, x6, hj1, hj2, hD]
      · linarith only [x1, x5, x9, hj1, hj2, hD]
      · linarith only [x15, x17, e1, hj1, hj2, hD]
      · linarith only [x15, x17, e1, hj1, hj2, hD]
      · linarith only [x1, x2, x6, hj1, hj2, hD]
      · linarith only [x1, x2, x6, hj1, hj2, hD]
      · linarith only [x2, x6, e1, hj1, hj2, hD]
      · linarith only [x5, x15, x16, hj1, hj2, hD]
      · linarith only [x5, x9, x16, hj1, hj2, hD]
      · linarith only [x5, x15, x16, hj1, hj2, hD]
  · rcases hk with hk | hk | hk
    · rw [e4, e5, hk]; constructor
      · linarith only [x15, e1, e2, e3, hj1, hj2, hD]
      · linarith only [x6, x8, e2, hj1, hj2, hD]
      · linarith only [x6, e1, e2, e3, hj1, hj2, hD]
      · linarith only [x15, e1, e2, e3, hj1, hj2, hD]
      · linarith only [x15, e1, e2, e3, hj1, hj2, hD]
      · linarith only [x15, e1, e2, e3, hj1, hj2, hD]
      · linarith only [x6, e1, e2, e3, hj1, hj2, hD]
      · linarith only [x6, e1, e2, e3, hj1, hj2, hD]
      · linarith only [x6, x8, e2, hj1, hj2, hD]
      · linarith only [x12, x13, x14, hj1, hj2, hD]
      · linarith only [x15, e1, e2, e3, hj1, hj2, hD]
      · linarith only [x11, x14, e3, hj1, hj2, hD]
      · linarith only [x13, x14, e3, hj1, hj2, hD]
      · linarith only [x8, x13, e3, hj1, hj2, hD]
      · linarith only [x13, x14, e3, hj1, hj2, hD]
      · linarith only [x11, x15, e3, hj1, hj2, hD]
      · linarith only [x11, x12, x14, hj1, hj2, hD]
      · linarith only [x15, e1, e2, e3, hj1, hj2, hD]
    · rw [e4, e5, hk]; constructor
      · linarith only [x15, e1, e2, e3, hj1, hj2, hD]
      · linarith only [x6, x8, e2, hj1, hj2, hD]
      · linarith only [x6, e1, e2, e3, hj1, hj2, hD]
      · linarith only [x15, e1, e2, e3, hj1, hj2, hD]
      · linarith only [x15, e1, e2, e3, hj1, hj2, hD]
      · linarith only [x15, e1, e2, e3, hj1, hj2, hD]
      · linarith only [x6, e1, e2, e3, hj1, hj2, hD]
      · linarith only [x6, e1, e2, e3, hj1, hj2, hD]
      · linarith only [x6, x8, e2, hj1, hj2, hD]
      · linarith only [x12, x13, x14, hj1, hj2, hD]
      · linarith only [x15, e1, e2, e3, hj1, hj2, hD]
      · linarith only [x11, x14, e3, hj1, hj2, hD]
      · linarith only [x13, x14, e3, hj1, hj2, hD]
      · linarith only [x6, x8, e2, hj1, hj2, hD]
      · linarith only [x13, x14, e3, hj1, hj2, hD]
      · linarith only [x11, x15, e3, hj1, hj2, hD]
      · linarith only [x11, x12, x14, hj1, hj2, hD]
      · linarith only [x15, e1, e2, e3, hj1, hj2, hD]
    · rw [e4, e5, hk]; constructor
      · linarith only [x15, e1, e2, e3, hj1, hj2, hD]
      · linarith only [x6, x8, e2, hj1, hj2, hD]
      · linarith only [x6, e1, e2, e3, hj1, hj2, hD]
      · linarith only [x15, e1, e2, e3, hj1, hj2, hD]
      · linarith only [x15, e1, e2, e3, hj1, hj2, hD]
      · linarith only [x15, e1, e2, e3, hj1, hj2, hD]
      · linarith only [x6, e1, e2, e3, hj1, hj2, hD]
      · linarith only [x6, e1, e2, e3, hj1, hj2, hD]
      · linarith only [x6, x8, e2, hj1, hj2, hD]
      · linarith only [x12, x13, e2, hj1, hj2, hD]
      · linarith only [x15, e1, e2, e3, hj1, hj2, hD]
      · linarith only [x11, x14, e3, hj1, hj2, hD]
      · linarith only [x13, x14, e3, hj1, hj2, hD]
      · linarith only [x6, x8, e2, hj1, hj2, hD]
      · linarith only [x8, x13, e3, hj1, hj2, hD]
      · linarith only [x11, x15, e3, hj1, hj2, hD]
      · linarith only [x11, x12, x14, hj1, hj2, hD]
      · linarith only [x15, e1, e2, e3, hj1, hj2, hD]
  · rcases hk with hk | hk | hk
    · rw [e4, e5, hk]; constructor
      · linarith only [x11, x15, e1, hj1, hj2, hD]
      · linarith only [x6, x8, e3, hj1, hj2, hD]
      · linarith only [x6, x8, e3, hj1, hj2, hD]
      · linarith only [x11, x15, e1, hj1, hj2, hD]
      · linarith only [x11, x15, e1, hj1, hj2, hD]
      · linarith only [x11, x14, e3, hj1, hj2, hD]
      · linarith only [x6, x8, e3, hj1, hj2, hD]
      · linarith only [x6, x8, e1, hj1, hj2, hD]
      · linarith only [x6, x8, e3, hj1, hj2, hD]
      · linarith only [x8, x13, e3, hj1, hj2, hD]
      · linarith only [x11, x15, e1, hj1, hj2, hD]
      · linarith only [x11, x15, e1, hj1, hj2, hD]
      · linarith only [x6, x8, e3, hj1, hj2, hD]
      · linarith only [x6, x8, e3, hj1, hj2, hD]
      · linarith only [x6, x8, e1, hj1, hj2, hD]
      · linarith only [x11, x15, e1, hj1, hj2, hD]
      · linarith only [x11, x15, e3, hj1, hj2, hD]
      · linarith only [x11, x15, e1, hj1, hj2, hD]
    · rw [e4, e5, hk]; constructor
      · linarith only [x11, x15, e1, hj1, hj2, hD]
      · linarith only [x6, x8, e3, hj1, hj2, hD]
      · linarith only [x8, x13, e3, hj1, hj2, hD]
      · linarith only [x11, x15, e1, hj1, hj2, hD]
      · linarith only [x11, x15, e1, hj1, hj2, hD]
      · linarith only [x11, x15, e3, hj1, hj2, hD]
      · linarith only [x6, x8, e3, hj1, hj2, hD]
      · linarith only [x6, x8, e1, hj1, hj2, hD]
      · linarith only [x6, x8, e3, hj1, hj2, hD]
      · linarith only [x8, x13, e3, hj1, hj2, hD]
      · linarith only [x11, x15, e1, hj1, hj2, hD]
      · linarith only [x11, x15, e1, hj1, hj2, hD]
      · linarith only [x6, x8, e3, hj1, hj2, hD]
      · linarith only [x6, x8, e3, hj1, hj2, hD]
      · linarith only [x6, x8, e1, hj1, hj2, hD]
      · linarith only [x11, x15, e1, hj1, hj2, hD]
      · linarith only [x11, x15, e3, hj1, hj2, hD]
      · linarith only [x11, x15, e1, hj1, hj2, hD]
    · rw [e4, e5, hk]; constructor
      · linarith only [x11, x15, e1, hj1, hj2, hD]
      · linarith only [x6, x8, e3, hj1, hj2, hD]
      · linarith only [x8, x13, e3, hj1, hj2, hD]
      · linarith only [x11, x15, e1, hj1, hj2, hD]
      · linarith only [x11, x15, e1, hj1, hj2, hD]
      · linarith only [x11, x15, e3, hj1, hj2, hD]
      · linarith only [x6, x8, e3, hj1, hj2, hD]
      · linarith only [x6, x8, e1, hj1, hj2, hD]
      · linarith only [x6, x8, e3, hj1, hj2, hD]
      · linarith only [x8, x13, e3, hj1, hj2, hD]
      · linarith only [x11, x15, e1, hj1, hj2, hD]
      · linarith only [x11, x15, e1, hj1, hj2, hD]
      · linarith only [x6, x8, e3, hj1, hj2, hD]
      · linarith only [x6, x8, e3, hj1, hj2, hD]
      · linarith only [x6, x8, e1, hj1, hj2, hD]
      · linarith only [x11, x15, e1, hj1, hj2, hD]
      · linarith only [x11, x14, e3, hj1, hj2, hD]
      · linarith only [x11, x15, e1, hj1, hj2, hD]

set_option maxHeartbeats 4000000 in
theorem Drift.next {D e f u u' j : Rat} {k : Nat} (h : Drift D e f u) (ht : Turn e f u u') (hk : 2 ≤ k ∧ k ≤ 4)
    (hj : j = 0) : Drift D (e + j - 65 / 100 * least e f - (k - 1 / 2) * u' - u / 2) e u' := by
  obtain ⟨x0, x1, x2, x3, x4, x5, x6, x7, x8, x9, x10, x11, x12, x13, x14, x15⟩ := h
  subst hj
  have hk : (k : Rat) = 2 ∨ (k : Rat) = 3 ∨ (k : Rat) = 4 := by
    rcases (show k = 2 ∨ k = 3 ∨ k = 4 by omega) with rfl | rfl | rfl <;> simp
  have hD : 0 ≤ D := by linarith only [x8, x9]
  rcases eight ht with ⟨e1, e2, e3, e4, e5⟩ | ⟨e1, e2, e3, e4, e5⟩ | ⟨e1, e2, e3, e4, e5⟩ | ⟨e1, e2, e3, e4, e5⟩ |
    ⟨e1, e2, e3, e4, e5⟩ | ⟨e1, e2, e3, e4, e5⟩ | ⟨e1, e2, e3, e4, e5⟩ | ⟨e1, e2, e3, e4, e5⟩
  · rcases hk with hk | hk | hk
    · rw [e4, e5, hk]; constructor
      · linarith only [x13, e1, e2, e3, hD]
      · linarith only [x1, x6, x13, hD]
      · linarith only [x13, e1, e2, e3, hD]
      · linarith only [x13, e1, e2, e3, hD]
      · linarith only [x1, x10, e3, hD]
      · linarith only [x10, e1, e2, e3, hD]
      · linarith only [x10, x14, e2, hD]
      · linarith only [x13, e1, e2, e3, hD]
      · linarith only [x10, x14, e2, hD]
      · linarith only [x1, x12, e3, hD]
      · linarith only [x1, x6, x10, hD]
      · linarith only [x13, e1, e2, e3, hD]
      · linarith only [x1, x12, x13, hD]
      · linarith only [x6, x13, e2, hD]
      · linarith only [x10, e1, e2, e3, hD]
      · linarith only [x12, x13, e3, hD]
    · rw [e4, e5, hk]; constructor
      · linarith only [x13, e1, e2, e3, hD]
      · linarith only [x1, x6, x13, hD]
      · linarith only [x13, e1, e2, e3, hD]
      · linarith only [x13, e1, e2, e3, hD]
      · linarith only [x1, x10, e3, hD]
      · linarith only [x10, e1, e2, e3, hD]
      · linarith only [x10, x14, e2, hD]
      · linarith only [x13, e1, e2, e3, hD]
      · linarith only [x10, x14, e2, hD]
      · linarith only [x12, x13, e3, hD]
      · linarith only [x1, x6, x10, hD]
      · linarith only [x13, e1, e2, e3, hD]
      · linarith only [x1, x6, x13, hD]
      · linarith only [x6, x13, e2, hD]
      · linarith only [x10, e1, e2, e3, hD]
      · linarith only [x12, x13, e3, hD]
    · rw [e4, e5, hk]; constructor
      · linarith only [x13, e1, e2, e3, hD]
      · linarith only [x1, x6, x13, hD]
      · linarith only [x13, e1, e2, e3, hD]
      · linarith only [x13, e1, e2, e3, hD]
      · linarith only [x1, x12, e3, hD]
      · linarith only [x10, e1, e2, e3, hD]
      · linarith only [x10, x14, e2, hD]
      · linarith only [x13, e1, e2, e3, hD]
      · linarith only [x10, x14, e2, hD]
      · linarith only [x12, x13, e3, hD]
      · linarith only [x1, x6, x10, hD]
      · linarith only [x13, e1, e2, e3, hD]
      · linarith only [x1, x6, x13, hD]
      · linarith only [x6, x13, e2, hD]
      · linarith only [x10, e1, e2, e3, hD]
      · linarith only [x12, x13, e3, hD]
  · rcases hk with hk | hk | hk
    · rw [e4, e5, hk]; constructor
      · linarith only [x13, x15, e1, hD]
      · linarith only [x1, x10, e3, hD]
      · linarith only [x13, x15, e1, hD]
      · linarith only [x13, x15, e1, hD]
      · linarith only [x1, x10, e3, hD]
      · linarith only [x10, e1, e2, e3, hD]
      · linarith only [x10, e1, e2, e3, hD]
      · linarith only [x13, x15, e1, hD]
      · linarith only [x10, e1, e2, e3, hD]
      · linarith only [x1, x12, e3, hD]
      · linarith only [x1, x10, e3, hD]
      · linarith only [x13, x15, e1, hD]
      · linarith only [x1, x12, e3, hD]
      · linarith only [x13, x15, e1, hD]
      · linarith only [x10, e1, e2, e3, hD]
      · linarith only [x12, x13, x15, hD]
    · rw [e4, e5, hk]; constructor
      · linarith only [x13, x15, e1, hD]
      · linarith only [x1, x10, e3, hD]
      · linarith only [x13, x15, e1, hD]
      · linarith only [x13, x15, e1, hD]
      · linarith only [x1, x10, e3, hD]
      · linarith only [x10, e1, e2, e3, hD]
      · linarith only [x10, e1, e2, e3, hD]
      · linarith only [x13, x15, e1, hD]
      · linarith only [x10, e1, e2, e3, hD]
      · linarith only [x12, x13, e3, hD]
      · linarith only [x1, x10, e3, hD]
      · linarith only [x13, x15, e1, hD]
      · linarith only [x1, x12, e3, hD]
      · linarith only [x13, x15, e1, hD]
      · linarith only [x10, e1, e2, e3, hD]
      · linarith only [x12, x13, x15, hD]
    · rw [e4, e5, hk]; constructor
      · linarith only [x13, x15, e1, hD]
      · linarith only [x1, x10, e3, hD]
      · linarith only [x13, x15, e1, hD]
      · linarith only [x13, x15, e1, hD]
      · linarith only [x1, x12, e3, hD]
      · linarith only [x10, e1, e2, e3, hD]
      · linarith only [x10, e1, e2, e3, hD]
      · linarith only [x13, x15, e1, hD]
      · linarith only [x10, e1, e2, e3, hD]
      · linarith only [x12, x13, x15, hD]
      · linarith only [x1, x10, e3, hD]
      · linarith only [x13, x15, e1, hD]
      · linarith only [x1, x12, e3, hD]
      · linarith only [x10, e1, e2, e3, hD]
      · linarith only [x10, e1, e2, e3, hD]
      · linarith only [x12, x13, x15, hD]
  · rcases hk with hk | hk | hk
    · rw [e4, e5, hk]; constructor
      · linarith only [x13, e1, e2, e3, hD]
      · linarith only [x6, x13, e2, hD]
      · linarith only [x13, e1, e2, e3, hD]
      · linarith only [x13, e1, e2, e3, hD]
      · linarith only [x10, e1, e2, e3, hD]
      · linarith only [x10, e1, e2, e3, hD]
      · linarith only [x6, x14, e3, hD]
      · linarith only [x13, e1, e2, e3, hD]
      · linarith only [x6, x8, e3, hD]
      · linarith only [x13, e1, e2, e3, hD]
      · linarith only [x6, x14, e2, hD]
      · linarith only [x13, e1, e2, e3, hD]
      · linarith only [x6, x13, e2, hD]
      · linarith only [x8, x13, e3, hD]
      · linarith only [x10, x14, e3, hD]
      · linarith only [x13, e1, e2, e3, hD]
    · rw [e4, e5, hk]; constructor
      · linarith only [x13, e1, e2, e3, hD]
      · linarith only [x6, x13, e2, hD]
      · linarith only [x13, e1, e2, e3, hD]
      · linarith only [x13, e1, e2, e3, hD]
      · linarith only [x10, e1, e2, e3, hD]
      · linarith only [x10, e1, e2, e3, hD]
      · linarith only [x10, x14, e2, hD]
      · linarith only [x13, e1, e2, e3, hD]
      · linarith only [x6, x14, e3, hD]
      · linarith only [x13, e1, e2, e3, hD]
      · linarith only [x6, x14, e2, hD]
      · linarith only [x13, e1, e2, e3, hD]
      · linarith only [x6, x13, e2, hD]
      · linarith only [x8, x13, e3, hD]
      · linarith only [x10, x14, e3, hD]
      · linarith only [x13, e1, e2, e3, hD]
    · rw [e4, e5, hk]; constructor
      · linarith only [x13, e1, e2, e3, hD]
      · linarith only [x6, x13, e2, hD]
      · linarith only [x13, e1, e2, e3, hD]
      · linarith only [x13, e1, e2, e3, hD]
      · linarith only [x13, e1, e2, e3, hD]
      · linarith only [x10, e1, e2, e3, hD]
      · linarith only [x6, x14, e2, hD]
      · linarith only [x13, e1, e2, e3, hD]
      · linarith only [x6, x14, e3, hD]
      · linarith only [x13, e1, e2, e3, hD]
      · linarith only [x6, x14, e2, hD]
      · linarith only [x13, e1, e2, e3, hD]
      · linarith only [x6, x13, e2, hD]
      · linarith only [x6, x8, e3, hD]
      · linarith only [x10, x14, e3, hD]
      · linarith only [x13, e1, e2, e3, hD]
  · rcases hk with hk | hk | hk
    · rw [e4, e5, hk]; constructor
      · linarith only [x13, e1, e2, e3, hD]
      · linarith only [x6, x14, e3, hD]
      · linarith only [x13, e1, e2, e3, hD]
      · linarith only [x13, e1, e2, e3, hD]
      · linarith only [x6, x14, e3, hD]
      · linarith only [x10, x14, e1, hD]
      · linarith only [x10, x14, e1, hD]
      · linarith only [x13, e1, e2, e3, hD]
      · linarith only [x10, x14, e1, hD]
      · linarith only [x13, e1, e2, e3, hD]
      · linarith only [x10, x14, e3, hD]
      · linarith only [x13, e1, e2, e3, hD]
      · linarith only [x13, e1, e2, e3, hD]
      · linarith only [x13, e1, e2, e3, hD]
      · linarith only [x10, x14, e1, hD]
      · linarith only [x13, e1, e2, e3, hD]
    · rw [e4, e5, hk]; constructor
      · linarith only [x13, e1, e2, e3, hD]
      · linarith only [x6, x14, e3, hD]
      · linarith only [x13, e1, e2, e3, hD]
      · linarith only [x13, e1, e2, e3, hD]
      · linarith only [x6, x8, e3, hD]
      · linarith only [x10, x14, e1, hD]
      · linarith only [x10, x14, e1, hD]
      · linarith only [x13, e1, e2, e3, hD]
      · linarith only [x10, x14, e1, hD]
      · linarith only [x13, e1, e2, e3, hD]
      · linarith only [x10, x14, e3, hD]
      · linarith only [x13, e1, e2, e3, hD]
      · linarith only [x13, e1, e2, e3, hD]
      · linarith only [x13, e1, e2, e3, hD]
      · linarith only [x10, x14, e1, hD]
      · linarith only [x13, e1, e2, e3, hD]
    · rw [e4, e5, hk]; constructor
      · linarith only [x13, e1, e2, e3, hD]
      · linarith only [x6, x14, e3, hD]
      · linarith only [x13, e1, e2, e3, hD]
      · linarith only [x13, e1, e2, e3, hD]
      · linarith only [x13, e1, e2, e3, hD]
      · linarith only [x10, x14, e1, hD]
      · linarith only [x10, x14, e1, hD]
      · linarith only [x13, e1, e2, e3, hD]
      · linarith only [x10, x14, e1, hD]
      · linarith only [x13, e1, e2, e3, hD]
      · linarith only [x10, x14, e3, hD]
      · linarith only [x13, e1, e2, e3, hD]
      · linarith only [x8, x13, e3, hD]
      · linarith only [x10, x14, e1, hD]
      · linarith only [x10, x14, e1, hD]
      · linarith only [x13, e1, e2, e3, hD]
  · rcases hk with hk | hk | hk
    · rw [e4, e5, hk]; constructor
      · linarith only [x7, x9, x11, hD]
      · linarith only [x10, e1, e2, e3, hD]
      · linarith only [x7, x9, x11, hD]
      · linarith only [x3, x13, x15, hD]
      · linarith only [x4, x9, e2, hD]
      · linarith only [x4, x5, e2, hD]
      · linarith only [x5, x10, e3, hD]
      · linarith only [x3, x13, x15, hD]
      · linarith only [x0, x5, e3, hD]
      · linarith only [x13, x15, e2, hD]
      · linarith only [x10, e1, e2, e3, hD]
      · linarith only [x7, x9, e2, hD]
      · linarith only [x13, e1, e2, e3, hD]
      · linarith only [x2, x3, e3, hD]
      · linarith only [x5, x10, e3, hD]
      · linarith only [x13, x15, e2, hD]
    · rw [e4, e5, hk]; constructor
      · linarith only [x7, x9, x11, hD]
      · linarith only [x10, e1, e2, e3, hD]
      · linarith only [x2, x3, x7, x11, hD]
      · linarith only [x3, x13, x15, hD]
      · linarith only [x4, x9, e2, hD]
      · linarith only [x4, x9, x11, hD]
      · linarith only [x5, x10, e3, hD]
      · linarith only [x3, x13, x15, hD]
      · linarith only [x0, x5, e3, hD]
      · linarith only [x13, x15, e2, hD]
      · linarith only [x10, e1, e2, e3, hD]
      · linarith only [x7, x15, e2, hD]
      · linarith only [x13, e1, e2, e3, hD]
      · linarith only [x2, x3, e3, hD]
      · linarith only [x5, x10, e3, hD]
      · linarith only [x13, x15, e2, hD]
    · rw [e4, e5, hk]; constructor
      · linarith only [x2, x3, x7, x11, hD]
      · linarith only [x10, e1, e2, e3, hD]
      · linarith only [x2, x3, x7, x11, hD]
      · linarith only [x3, x13, x15, hD]
      · linarith only [x7, x9, e2, hD]
      · linarith only [x4, x9, x11, hD]
      · linarith only [x5, x10, e3, hD]
      · linarith only [x3, x13, x15, hD]
      · linarith only [x0, x5, e3, hD]
      · linarith only [x13, x15, e2, hD]
      · linarith only [x10, e1, e2, e3, hD]
      · linarith only [x7, x15, e2, hD]
      · linarith only [x13, e1, e2, e3, hD]
      · linarith only [x0, x5, e3, hD]
      · linarith only [x5, x10, e3, hD]
      · linarith only [x13, x15, e2, hD]
  · rcases hk with hk | hk | hk
    · rw [e4, e5, hk]; constructor
      · linarith only [x2, x3, x8, hD]
      · linarith only [x10, x14, e1, hD]
      · linarith only [x2, x3, x8, hD]
      · linarith only [x3, x13, e3, hD]
      · linarith only [x10, x14, e1, hD]
      · linarith only [x5, x10, x14, hD]
      · linarith only [x5, x10, x14, hD]
      · linarith only [x3, x13, e3, hD]
      · linarith only [x0, x5, x8, hD]
      · linarith only [x13, e1, e2, e3, hD]
      · linarith only [x10, x14, e1, hD]
      · linarith only [x3, x13, e3, hD]
      · linarith only [x13, e1, e2, e3, hD]
      · linarith only [x2, x3, x8, hD]
      · linarith only [x5, x10, x14, hD]
      · linarith only [x13, e1, e2, e3, hD]
    · rw [e4, e5, hk]; constructor
      · linarith only [x2, x3, x8, hD]
      · linarith only [x10, x14, e1, hD]
      · linarith only [x2, x3, x8, hD]
      · linarith only [x3, x13, e3, hD]
      · linarith only [x10, x14, e1, hD]
      · linarith only [x0, x5, x8, hD]
      · linarith only [x5, x10, x14, hD]
      · linarith only [x3, x13, e3, hD]
      · linarith only [x0, x5, x8, hD]
      · linarith only [x13, e1, e2, e3, hD]
      · linarith only [x10, x14, e1, hD]
      · linarith only [x3, x13, e3, hD]
      · linarith only [x13, e1, e2, e3, hD]
      · linarith only [x2, x3, x8, hD]
      · linarith only [x5, x10, x14, hD]
      · linarith only [x13, e1, e2, e3, hD]
    · rw [e4, e5, hk]; constructor
      · linarith only [x2, x3, x8, hD]
      · linarith only [x10, x14, e1, hD]
      · linarith only [x2, x3, x8, hD]
      · linarith only [x3, x13, e3, hD]
      · linarith only [x13, e1, e2, e3, hD]
      · linarith only [x0, x5, x8, hD]
      · linarith only [x5, x10, x14, hD]
      · linarith only [x3, x13, e3, hD]
      · linarith only [x0, x5, x8, hD]
      · linarith only [x13, e1, e2, e3, hD]
      · linarith only [x10, x14, e1, hD]
      · linarith only [x3, x13, e3, hD]
      · linarith only [x13, e1, e2, e3, hD]
      · linarith only [x0, x5, x8, hD]
      · linarith only [x5, x10, x14, hD]
      · linarith only [x13, e1, e2, e3, hD]
  · rcases hk with hk | hk | hk
    · rw [e4, e5, hk]; constructor
      · linarith only [x7, x9, e2, hD]
      · linarith only [x10, e1, e2, e3, hD]
      · linarith only [x7, x9, e2, hD]
      · linarith only [x7, x15, e2, hD]
      · linarith only [x4, x9, e3, hD]
      · linarith only [x4, x10, e3, hD]
      · linarith only [x10, e1, e2, e3, hD]
      · linarith only [x7, x15, e2, hD]
      · linarith only [x10, e1, e2, e3, hD]
      · linarith only [x9, x15, e3, hD]
      · linarith only [x10, e1, e2, e3, hD]
      · linarith only [x7, x9, x15, hD]
      · linarith only [x13, e1, e2, e3, hD]
      · linarith only [x13, e1, e2, e3, hD]
      · linarith only [x5, x10, e2, hD]
      · linarith only [x13, x15, e2, hD]
    · rw [e4, e5, hk]; constructor
      · linarith only [x7, x9, e2, hD]
      · linarith only [x10, e1, e2, e3, hD]
      · linarith only [x7, x9, e2, hD]
      · linarith only [x7, x15, e2, hD]
      · linarith only [x4, x9, e3, hD]
      · linarith only [x4, x10, e3, hD]
      · linarith only [x10, e1, e2, e3, hD]
      · linarith only [x7, x15, e2, hD]
      · linarith only [x10, e1, e2, e3, hD]
      · linarith only [x9, x15, e3, hD]
      · linarith only [x10, e1, e2, e3, hD]
      · linarith only [x7, x9, x15, hD]
      · linarith only [x13, e1, e2, e3, hD]
      · linarith only [x13, e1, e2, e3, hD]
      · linarith only [x5, x10, e2, hD]
      · linarith only [x13, x15, e2, hD]
    · rw [e4, e5, hk]; constructor
      · linarith only [x7, x9, e2, hD]
      · linarith only [x10, e1, e2, e3, hD]
      · linarith only [x7, x9, e2, hD]
      · linarith only [x7, x15, e2, hD]
      · linarith only [x9, x15, e3, hD]
      · linarith only [x4, x9, e3, hD]
      · linarith only [x10, e1, e2, e3, hD]
      · linarith only [x7, x15, e2, hD]
      · linarith only [x10, e1, e2, e3, hD]
      · linarith only [x9, x15, e3, hD]
      · linarith only [x10, e1, e2, e3, hD]
      · linarith only [x7, x9, x15, hD]
      · linarith only [x13, e1, e2, e3, hD]
      · linarith only [x10, e1, e2, e3, hD]
      · linarith only [x5, x10, e2, hD]
      · linarith only [x13, x15, e2, hD]
  · rcases hk with hk | hk | hk
    · rw [e4, e5, hk]; constructor
      · linarith only [x9, x15, e3, hD]
      · linarith only [x10, e1, e2, e3, hD]
      · linarith only [x13, x15, e3, hD]
      · linarith only [x13, x15, e3, hD]
      · linarith only [x10, e1, e2, e3, hD]
      · linarith only [x10, e1, e2, e3, hD]
      · linarith only [x10, e1, e2, e3, hD]
      · linarith only [x13, x15, e3, hD]
      · linarith only [x4, x10, e3, hD]
      · linarith only [x13, x15, e1, hD]
      · linarith only [x10, e1, e2, e3, hD]
      · linarith only [x13, x15, e3, hD]
      · linarith only [x13, x15, e1, hD]
      · linarith only [x13, x15, e3, hD]
      · linarith only [x10, e1, e2, e3, hD]
      · linarith only [x13, x15, e1, hD]
    · rw [e4, e5, hk]; constructor
      · linarith only [x13, x15, e3, hD]
      · linarith only [x10, e1, e2, e3, hD]
      · linarith only [x13, x15, e3, hD]
      · linarith only [x13, x15, e3, hD]
      · linarith only [x10, e1, e2, e3, hD]
      · linarith only [x10, e1, e2, e3, hD]
      · linarith only [x10, e1, e2, e3, hD]
      · linarith only [x13, x15, e3, hD]
      · linarith only [x4, x10, e3, hD]
      · linarith only [x13, x15, e1, hD]
      · linarith only [x10, e1, e2, e3, hD]
      · linarith only [x13, x15, e3, hD]
      · linarith only [x13, x15, e1, hD]
      · linarith only [x9, x15, e3, hD]
      · linarith only [x10, e1, e2, e3, hD]
      · linarith only [x13, x15, e1, hD]
    · rw [e4, e5, hk]; constructor
      · linarith only [x13, x15, e3, hD]
      · linarith only [x10, e1, e2, e3, hD]
      · linarith only [x13, x15, e3, hD]
      · linarith only [x13, x15, e3, hD]
      · linarith only [x13, x15, e1, hD]
      · linarith only [x10, e1, e2, e3, hD]
      · linarith only [x10, e1, e2, e3, hD]
      · linarith only [x13, x15, e3, hD]
      · linarith only [x4, x10, e3, hD]
      · linarith only [x13, x15, e1, hD]
      · linarith only [x10, e1, e2, e3, hD]
      · linarith only [x13, x15, e3, hD]
      · linarith only [x13, x15, e1, hD]
      · linarith only [x4, x10, e3, hD]
      · linarith only [x10, e1, e2, e3, hD]
      · linarith only [x13, x15, e1, hD]

end Fox.Pll
