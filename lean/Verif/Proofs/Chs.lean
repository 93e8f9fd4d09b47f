import Verif.Spec.Chs
import Mathlib.Tactic.Ring
namespace Fox
open Spec

theorem toLba_eq (g : Layout) (x : Chs) : g.toLba x = lbaOf g x := by
  unfold Layout.toLba lbaOf; ring

theorem lbaOf_lt {g : Layout} {x : Chs} (h : InLayout g x) : lbaOf g x < sectorCount g := by
  obtain ⟨h1, h2, h3, h4⟩ := h
  unfold lbaOf sectorCount
  have e1 : x.s - g.sOff < g.s := by omega
  have e2 : (x.h + 1) * g.s ≤ g.h * g.s := Nat.mul_le_mul_right _ h2
  have e3 : (x.c + 1) * (g.h * g.s) ≤ g.c * (g.h * g.s) := Nat.mul_le_mul_right _ h1
  rw [Nat.add_mul] at e2 e3
  rw [Nat.mul_assoc]
  omega

/-- Decomposing an LBA into cylinder, head and sector index. -/
theorem lba_decompose (H S n : Nat) :
    n / (H * S) * (H * S) + n / S % H * S + n % S = n := by
  have h1 := Nat.div_add_mod n S
  have h2 := Nat.div_add_mod (n / S) H
  have h3 : n / S / H = n / (H * S) := by rw [Nat.div_div_eq_div_mul, Nat.mul_comm]
  rw [h3] at h2
  calc n / (H * S) * (H * S) + n / S % H * S + n % S
      = S * (H * (n / (H * S)) + n / S % H) + n % S := by ring
    _ = n := by rw [h2, h1]

theorem lba_unique {H S c h s c' h' s' : Nat} (hh : h < H) (hh' : h' < H) (hs : s < S)
    (hs' : s' < S)
    (e : c * (H * S) + h * S + s = c' * (H * S) + h' * S + s') : c = c' ∧ h = h' ∧ s = s' := by
  have a : (c * H + h) * S + s = (c' * H + h') * S + s' := by
    rw [Nat.add_mul, Nat.add_mul, Nat.mul_assoc, Nat.mul_assoc]; exact e
  have hS : 0 < S := by omega
  have q : ∀ a b : Nat, b < S → (a * S + b) / S = a ∧ (a * S + b) % S = b := by
    intro a b hb
    refine ⟨?_, ?_⟩
    · rw [Nat.add_comm, Nat.add_mul_div_right _ _ hS, Nat.div_eq_of_lt hb, Nat.zero_add]
    · rw [Nat.add_comm, Nat.add_mul_mod_self_right, Nat.mod_eq_of_lt hb]
  have q' : ∀ a b : Nat, b < H → (a * H + b) / H = a ∧ (a * H + b) % H = b := by
    intro a b hb
    have hH : 0 < H := by omega
    refine ⟨?_, ?_⟩
    · rw [Nat.add_comm, Nat.add_mul_div_right _ _ hH, Nat.div_eq_of_lt hb, Nat.zero_add]
    · rw [Nat.add_comm, Nat.add_mul_mod_self_right, Nat.mod_eq_of_lt hb]
  have e1 : c * H + h = c' * H + h' := by
    rw [← (q (c * H + h) s hs).1, a, (q (c' * H + h') s' hs').1]
  have e2 : s = s' := by
    rw [← (q (c * H + h) s hs).2, a, (q (c' * H + h') s' hs').2]
  have e3 : c = c' := by rw [← (q' c h hh).1, e1, (q' c' h' hh').1]
  have e4 : h = h' := by rw [← (q' c h hh).2, e1, (q' c' h' hh').2]
  exact ⟨e3, e4, e2⟩

theorem lbaOf_inj {g : Layout} {x y : Chs} (hx : InLayout g x) (hy : InLayout g y)
    (e : lbaOf g x = lbaOf g y) : x = y := by
  obtain ⟨a1, a2, a3, a4⟩ := hx
  obtain ⟨b1, b2, b3, b4⟩ := hy
  have := lba_unique a2 b2 (show x.s - g.sOff < g.s by omega) (show y.s - g.sOff < g.s by omega) e
  obtain ⟨e1, e2, e3⟩ := this
  cases x; cases y; simp only [Chs.mk.injEq] at *; omega

/-- Every LBA below the sector count is the LBA of the decomposed address. -/
theorem lba_addr (g : Layout) (n : Nat) (h : n < sectorCount g) :
    InLayout g ⟨n / (g.h * g.s), n / g.s % g.h, n % g.s + g.sOff⟩ ∧
    lbaOf g ⟨n / (g.h * g.s), n / g.s % g.h, n % g.s + g.sOff⟩ = n := by
  unfold sectorCount at h
  have hpos : 0 < g.c * g.h * g.s := by omega
  have hs : 0 < g.s := Nat.pos_of_mul_pos_left hpos
  have hch : 0 < g.c * g.h := Nat.pos_of_mul_pos_right hpos
  have hh : 0 < g.h := Nat.pos_of_mul_pos_left hch
  refine ⟨⟨?_, ?_, ?_, ?_⟩, ?_⟩
  · show n / (g.h * g.s) < g.c
    rw [Nat.div_lt_iff_lt_mul (Nat.mul_pos hh hs), ← Nat.mul_assoc]; exact h
  · exact Nat.mod_lt _ hh
  · show g.sOff ≤ n % g.s + g.sOff; omega
  · have := Nat.mod_lt n hs
    show n % g.s + g.sOff < g.sOff + g.s; omega
  · show n / (g.h * g.s) * (g.h * g.s) + n / g.s % g.h * g.s + (n % g.s + g.sOff - g.sOff) = n
    rw [Nat.add_sub_cancel]; exact lba_decompose _ _ _

/-- What `next_sector` does to the LBA of an address in the layout. -/
theorem nextSector_spec {g : Layout} {x : Chs} (hx : InLayout g x) (hs : g.s - 1 + g.sOff ≤ 255) :
    (∃ y, g.nextSector x = .ok (some y) ∧ InLayout g y ∧ lbaOf g y = lbaOf g x + 1) ∨
    (g.nextSector x = .ok none ∧ lbaOf g x + 1 = sectorCount g) := by
  obtain ⟨h1, h2, h3, h4⟩ := hx
  have hs0 : 0 < g.s := by omega
  unfold Layout.nextSector
  rw [if_neg (by omega)]
  by_cases c1 : x.s < g.s - 1 + g.sOff
  · left
    refine ⟨_, if_pos c1, ⟨h1, h2, by show _ ≤ x.s + 1; omega, by show x.s + 1 < _; omega⟩, ?_⟩
    show x.c * (g.h * g.s) + x.h * g.s + (x.s + 1 - g.sOff) = lbaOf g x + 1
    unfold lbaOf; omega
  · rw [if_neg c1]
    have e : x.s - g.sOff + 1 = g.s := by omega
    by_cases c2 : x.h < g.h - 1
    · left
      refine ⟨_, if_pos c2, ⟨h1, by show x.h + 1 < g.h; omega, Nat.le_refl _, by show g.sOff < _; omega⟩, ?_⟩
      show x.c * (g.h * g.s) + (x.h + 1) * g.s + (g.sOff - g.sOff) = lbaOf g x + 1
      unfold lbaOf; rw [Nat.add_mul]; omega
    · rw [if_neg c2]
      have e2 : x.h + 1 = g.h := by omega
      have e3 : x.h * g.s + g.s = g.h * g.s := by rw [← e2, Nat.add_mul]; omega
      by_cases c3 : x.c < g.c - 1
      · left
        refine ⟨_, if_pos c3, ⟨by show x.c + 1 < g.c; omega, by show 0 < g.h; omega, Nat.le_refl _, by show g.sOff < _; omega⟩, ?_⟩
        show (x.c + 1) * (g.h * g.s) + 0 * g.s + (g.sOff - g.sOff) = lbaOf g x + 1
        unfold lbaOf; rw [Nat.add_mul]; omega
      · right
        refine ⟨if_neg c3, ?_⟩
        have e4 : x.c + 1 = g.c := by omega
        unfold lbaOf sectorCount
        rw [Nat.mul_assoc, ← e4, Nat.add_mul]; omega

/-- Iterating from an address in the layout. -/
theorem iterTake_from {g : Layout} (hs : g.s - 1 + g.sOff ≤ 255) :
    ∀ (m : Nat) (x : Chs), InLayout g x → lbaOf g x + m + 1 = sectorCount g →
      ∃ xs, g.iterTake (m + 1) (some x) = .ok (xs, true) ∧ xs.length = m ∧
        ∀ k (hk : k < xs.length), InLayout g xs[k] ∧ lbaOf g xs[k] = lbaOf g x + 1 + k := by
  intro m
  induction m with
  | zero =>
    intro x hx e
    rcases nextSector_spec hx hs with ⟨y, _, hy, e2⟩ | ⟨e1, _⟩
    · have := lbaOf_lt hy; omega
    · exact ⟨[], by simp [Layout.iterTake, Layout.iterNext, e1], rfl, by simp⟩
  | succ m ih =>
    intro x hx e
    rcases nextSector_spec hx hs with ⟨y, e1, hy, e2⟩ | ⟨_, e2⟩
    · obtain ⟨ys, h1, h2, h3⟩ := ih y hy (by omega)
      refine ⟨y :: ys, ?_, by simp [h2], ?_⟩
      · rw [Layout.iterTake]; simp [Layout.iterNext, e1, h1]
      · intro k hk
        cases k with
        | zero => exact ⟨hy, by simpa using e2⟩
        | succ k =>
          have := h3 k (by simpa using hk)
          refine ⟨by simpa using this.1, ?_⟩
          have := this.2
          simp only [List.getElem_cons_succ]; omega
    · omega

end Fox
