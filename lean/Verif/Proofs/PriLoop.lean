import Verif.Proofs.Pri
/-
The PRI writer's file, read back by the loader.
-/
namespace Fox
open Spec OddEven S34 Pce

/-- The entries of a weak table written to a mask. -/
def applyTable (m : List Bool) (l : List (Nat × BitVec 32)) : List Bool :=
  l.foldl (fun m e => writeWeakMask m e.2 e.1 32 0) m

theorem weakTable_entries : ∀ (f : Nat) (bs : List Bool) (o : Nat),
    32 * (Pri.weakTable f bs o).length ≤ bs.length + 31 ∧ ∀ e ∈ Pri.weakTable f bs o, e.1 ≤ o + bs.length
  | 0, bs, o => by simp [Pri.weakTable]
  | f + 1, [], o => by simp [Pri.weakTable]
  | f + 1, b :: bs, o => by
    unfold Pri.weakTable
    by_cases hb : b = true
    · rw [if_pos hb]
      obtain ⟨h1, h2⟩ := weakTable_entries f (bs.drop 31) (o + 1 + min 31 bs.length)
      rw [List.length_drop] at h1 h2
      simp only [List.length_cons]
      refine ⟨by omega, ?_⟩
      intro e he
      rw [List.mem_cons] at he
      rcases he with rfl | he
      · simp only; omega
      · have := h2 e he; omega
    · rw [if_neg hb]
      obtain ⟨h1, h2⟩ := weakTable_entries f bs (o + 1)
      simp only [List.length_cons]
      refine ⟨by omega, fun e he => by have := h2 e he; omega⟩

theorem applyTable_weakTable : ∀ (f : Nat) (bs : List Bool) (o : Nat) (m : List Bool), bs.length ≤ f →
    (applyTable m (Pri.weakTable f bs o)).length = m.length ∧ ∀ j, j < m.length →
      (applyTable m (Pri.weakTable f bs o)).getD j false =
        (m.getD j false || (decide (o + 1 ≤ j) && bs.getD (j - (o + 1)) false))
  | 0, bs, o, m, h => by
    have : bs = [] := List.length_eq_zero_iff.1 (by omega)
    subst this
    simp [Pri.weakTable, applyTable]
  | f + 1, [], o, m, _ => by simp [Pri.weakTable, applyTable]
  | f + 1, b :: bs, o, m, h => by
    simp only [List.length_cons] at h
    unfold Pri.weakTable
    by_cases hb : b = true
    · rw [if_pos hb]
      generalize hl : (true :: bs.take 31) ++ List.replicate (31 - bs.length) false = l
      have hll : l.length = 32 := by
        rw [← hl, List.length_append, List.length_cons, List.length_take, List.length_replicate]; omega
      have hlg : ∀ k, k < 32 → l.getD k false = (b :: bs).getD k false := by
        intro k hk
        rw [← hl, hb]
        by_cases h1 : k < (true :: bs.take 31).length
        · rw [getD_append_left _ _ _ _ h1]
          cases k with
          | zero => rfl
          | succ k =>
            rw [List.getD_cons_succ, List.getD_cons_succ, List.getD_eq_getElem?_getD, List.getD_eq_getElem?_getD,
              List.getElem?_take, if_pos (by omega)]
        · rw [List.length_cons, List.length_take] at h1
          have e1 : ((true :: bs.take 31) ++ List.replicate (31 - bs.length) false).getD k false = false := by
            rw [List.getD_eq_getElem?_getD, List.getElem?_append_right (by rw [List.length_cons, List.length_take]; omega),
              List.getElem?_replicate]
            split <;> rfl
          rw [e1, List.getD_eq_getElem?_getD, List.getElem?_eq_none (by simp; omega)]
          rfl
      obtain ⟨g1, g2⟩ := writeWeakMask_spec (shiftIn 32 0 l) (o + 1) 32 0 m
      obtain ⟨h1, h2⟩ := applyTable_weakTable f (bs.drop 31) (o + 1 + min 31 bs.length)
        (writeWeakMask m (shiftIn 32 0 l) (o + 1) 32 0) (by rw [List.length_drop]; omega)
      show (applyTable (writeWeakMask m (shiftIn 32 0 l) (o + 1) 32 0) _).length = _ ∧ ∀ j, _ →
        (applyTable (writeWeakMask m (shiftIn 32 0 l) (o + 1) 32 0) _).getD j false = _
      refine ⟨by rw [h1, g1], fun j hj => ?_⟩
      rw [h2 j (by rw [g1]; exact hj), g2 j hj, Bool.or_assoc]
      congr 1
      by_cases c1 : j < o + 1
      · have e1 : decide (0 + (o + 1) ≤ j) = false := by simp; omega
        have e2 : decide (o + 1 ≤ j) = false := by simp; omega
        have e3 : decide (o + 1 + min 31 bs.length + 1 ≤ j) = false := by simp; omega
        rw [e1, e2, e3]; rfl
      · by_cases c2 : j < o + 33
        · have e1 : decide (0 + (o + 1) ≤ j) = true := by simp; omega
          have e2 : decide (j < 0 + 32 + (o + 1)) = true := by simp; omega
          have e3 : decide (o + 1 ≤ j) = true := by simp; omega
          rw [e1, e2, e3, shiftIn_getMsbD _ _ _ hll _ (by omega), hlg _ (by omega)]
          simp only [Bool.true_and]
          have e4 : (decide (o + 1 + min 31 bs.length + 1 ≤ j) &&
              (bs.drop 31).getD (j - (o + 1 + min 31 bs.length + 1)) false) = false := by
            by_cases c3 : o + 1 + min 31 bs.length + 1 ≤ j
            · have : (bs.drop 31).getD (j - (o + 1 + min 31 bs.length + 1)) false = false := by
                rw [List.getD_eq_getElem?_getD, List.getElem?_eq_none (by rw [List.length_drop]; omega)]
                rfl
              rw [this, Bool.and_false]
            · have : decide (o + 1 + min 31 bs.length + 1 ≤ j) = false := by simp; omega
              rw [this]; rfl
          rw [e4, Bool.or_false]
        · have e1 : decide (j < 0 + 32 + (o + 1)) = false := by simp; omega
          have e3 : decide (o + 1 ≤ j) = true := by simp; omega
          rw [e1, e3]
          simp only [Bool.and_false, Bool.false_and, Bool.false_or, Bool.true_and]
          have e5 : j - (o + 1) = (j - (o + 2)) + 1 := by omega
          rw [e5, List.getD_cons_succ]
          by_cases c3 : 31 ≤ bs.length
          · have e6 : decide (o + 1 + min 31 bs.length + 1 ≤ j) = true := by simp; omega
            rw [e6, Bool.true_and, List.getD_eq_getElem?_getD, List.getD_eq_getElem?_getD, List.getElem?_drop]
            congr 2
            omega
          · rw [List.getD_eq_getElem?_getD, List.getElem?_eq_none (by rw [List.length_drop]; omega),
              List.getD_eq_getElem?_getD, List.getElem?_eq_none (by omega)]
            simp
    · rw [if_neg hb]
      obtain ⟨h1, h2⟩ := applyTable_weakTable f bs (o + 1) m (by omega)
      refine ⟨h1, fun j hj => ?_⟩
      rw [h2 j hj]
      congr 1
      have hb' : b = false := by simpa using hb
      subst hb'
      by_cases c1 : j < o + 1
      · have e1 : decide (o + 1 + 1 ≤ j) = false := by simp; omega
        have e2 : decide (o + 1 ≤ j) = false := by simp; omega
        rw [e1, e2]; rfl
      · by_cases c2 : j = o + 1
        · subst c2
          simp
        · have e1 : decide (o + 1 + 1 ≤ j) = true := by simp; omega
          have e2 : decide (o + 1 ≤ j) = true := by simp; omega
          have e5 : j - (o + 1) = (j - (o + 1 + 1)) + 1 := by omega
          rw [e1, e2, e5, List.getD_cons_succ]

theorem weakEntries_table : ∀ (l : List (Nat × BitVec 32)) (pre : List Byte) (i : Nat) (m : List Bool),
    pre.length = 8 * i → (∀ e ∈ l, e.1 < 2 ^ 32) →
    Pri.weakEntries (pre ++ l.flatMap fun e => be32 (BitVec.ofNat 32 e.1) ++ be32 e.2) l.length i m =
      .ok (applyTable m l)
  | [], pre, i, m, _, _ => rfl
  | e :: l, pre, i, m, hp, hl => by
    unfold Pri.weakEntries
    simp only [List.flatMap_cons, List.length_cons]
    have e1 : u32At (pre ++ ((be32 (BitVec.ofNat 32 e.1) ++ be32 e.2) ++
        l.flatMap fun e => be32 (BitVec.ofNat 32 e.1) ++ be32 e.2)) (8 * i) = some (BitVec.ofNat 32 e.1) := by
      rw [← hp, List.append_assoc]; exact u32At_be32 _ _ _
    have e2 : u32At (pre ++ ((be32 (BitVec.ofNat 32 e.1) ++ be32 e.2) ++
        l.flatMap fun e => be32 (BitVec.ofNat 32 e.1) ++ be32 e.2)) (8 * i + 4) = some e.2 := by
      have := u32At_be32 e.2 (pre ++ be32 (BitVec.ofNat 32 e.1))
        (l.flatMap fun e => be32 (BitVec.ofNat 32 e.1) ++ be32 e.2)
      rw [List.length_append, hp, be32_length] at this
      rw [← this]
      simp
    rw [e1, e2]
    simp only
    rw [BitVec.toNat_ofNat, Nat.mod_eq_of_lt (hl e (by simp))]
    have := weakEntries_table l (pre ++ (be32 (BitVec.ofNat 32 e.1) ++ be32 e.2)) (i + 1)
      (writeWeakMask m e.2 e.1 32 0) (by simp [hp, be32_length]; omega) (fun x hx => hl x (by simp [hx]))
    rw [List.append_assoc] at this
    exact this

/-- A mask moved up by one position, cut to `n` bits. -/
def shiftMask (n : Nat) (mask : List Bool) : List Bool :=
  (List.range n).map fun i => decide (0 < i) && mask.getD (i - 1) false

theorem weakBytes_length (mask : List Bool) :
    (Pri.weakBytes mask).length = 8 * (Pri.weakTable mask.length mask 0).length := by
  unfold Pri.weakBytes
  generalize Pri.weakTable mask.length mask 0 = l
  induction l with
  | nil => rfl
  | cons e l ih => rw [List.flatMap_cons, List.length_append, ih]; simp [be32_length]; omega

/-- The loader's reading of the weak table the writer makes. -/
theorem weakEntries_weakBytes (mask : List Bool) (n : Nat) (h32 : mask.length < 2 ^ 32) :
    Pri.weakEntries (Pri.weakBytes mask) ((Pri.weakBytes mask).length / 8) 0 (List.replicate n false) =
      .ok (shiftMask n mask) := by
  have hl : (Pri.weakBytes mask).length / 8 = (Pri.weakTable mask.length mask 0).length := by
    rw [weakBytes_length]; omega
  rw [hl]
  have := weakEntries_table (Pri.weakTable mask.length mask 0) [] 0 (List.replicate n false) rfl (by
    intro e he
    have := (weakTable_entries mask.length mask 0).2 e he
    omega)
  rw [List.nil_append] at this
  have e : Pri.weakBytes mask = (Pri.weakTable mask.length mask 0).flatMap
    fun e => be32 (BitVec.ofNat 32 e.1) ++ be32 e.2 := rfl
  rw [e, this]
  congr 1
  obtain ⟨h1, h2⟩ := applyTable_weakTable mask.length mask 0 (List.replicate n false) (by omega)
  rw [List.length_replicate] at h1 h2
  apply ext_getD _ _ false (by rw [h1]; simp [shiftMask])
  intro j hj
  rw [h1] at hj
  rw [h2 j hj]
  unfold shiftMask
  rw [getD_map_range _ _ _ _ hj]
  simp [List.getD_eq_getElem?_getD, List.getElem?_replicate, hj]
  rfl

end Fox
