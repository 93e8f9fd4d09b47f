import Verif.Proofs.Bits
import Verif.Spec.Mfm
namespace Fox
open Spec

theorem weak_getD_false {l : List Bool} (h : ∀ b ∈ l, b = false) (i : Nat) : l.getD i false = false := by
  rw [List.getD_eq_getElem?_getD]
  cases e : l[i]? with
  | none => rfl
  | some b => exact h b (List.mem_of_getElem? e)

theorem bitAt_false_of_all {r : BitRing} (h : ∀ b ∈ r.bits, b = false) (hv : r.wrapValue = none)
    (i : Nat) : r.bitAt i = false := by
  unfold BitRing.bitAt
  rw [hv]
  split <;> exact weak_getD_false h _

/-- Without weak bits a cell read is the stored bit. -/
theorem cell_of_noWeak {s : Mfm} (hw : NoWeak s) (hv : s.weakMask.wrapValue = none)
    (rnd : Nat → Bool) (i : Nat) : s.cell rnd i = s.bits.bitAt i := by
  unfold Mfm.cell
  rcases hw with h | h
  · simp [h]
  · simp [bitAt_false_of_all h hv]

theorem nudge_of_aligned {s : Mfm} {i : Nat}
    (h : s.clockMap.bitAt i = true ∨ s.clockMap.bitAt (i + 1) = false) : s.nudge i = i := by
  unfold Mfm.nudge
  rcases h with h | h <;> simp [h]

/-- Eight aligned reads of the iterator. -/
theorem nextBits_aligned {s : Mfm} {rnd : Nat → Bool} :
    ∀ (n : Nat) (c : Nat), AlignedAt s c n →
      ({ s with cursor := c } : Mfm).nextBits rnd n =
        ((List.range n).map fun k => s.cell rnd (c + 2 * k + 1),
         ({ s with cursor := c + 2 * n } : Mfm)) := by
  intro n
  induction n with
  | zero => intro c _; rfl
  | succ n ih =>
    intro c h
    have h0 := h 0 (by omega)
    have hn : ({ s with cursor := c } : Mfm).nudge c = c := by
      apply nudge_of_aligned
      simpa using h0
    have hnext : ({ s with cursor := c } : Mfm).next rnd =
        (s.cell rnd (c + 1), ({ s with cursor := c + 2 } : Mfm)) := by
      unfold Mfm.next
      simp only [hn]
      rfl
    have h' : AlignedAt s (c + 2) n := by
      intro j hj
      have := h (j + 1) (by omega)
      have e1 : c + 2 + 2 * j = c + 2 * (j + 1) := by omega
      rw [e1]; exact this
    rw [Mfm.nextBits]
    simp only [hnext, ih (c + 2) h']
    rw [List.range_succ_eq_map, List.map_cons, List.map_map]
    refine Prod.ext ?_ ?_
    · simp only [Nat.mul_zero, Nat.add_zero]
      congr 1
      apply List.map_congr_left
      intro k _
      simp only [Function.comp]
      congr 1; omega
    · simp only
      congr 1; omega

/-- A byte read through the iterator equals the direct decoded read. -/
theorem readBytes_aligned {s : Mfm} {rnd : Nat → Bool} :
    ∀ (n : Nat) (c : Nat), AlignedAt s c (8 * n) →
      ({ s with cursor := c } : Mfm).readBytes rnd n =
        (s.readDecodedBuf rnd n c, ({ s with cursor := c + 16 * n } : Mfm)) := by
  intro n
  induction n with
  | zero => intro c _; rfl
  | succ n ih =>
    intro c h
    have h8 : AlignedAt s c 8 := fun j hj => h j (by omega)
    have h' : AlignedAt s (c + 16) (8 * n) := by
      intro j hj
      have := h (j + 8) (by omega)
      have e1 : c + 16 + 2 * j = c + 2 * (j + 8) := by omega
      rw [e1]; exact this
    have hn : s.nudge c = c := nudge_of_aligned (by simpa using h 0 (by omega))
    rw [Mfm.readBytes]
    simp only [nextBits_aligned 8 c h8]
    rw [show c + 2 * 8 = c + 16 by omega, ih (c + 16) h']
    unfold Mfm.readDecodedBuf
    rw [show List.range (n + 1) = 0 :: List.map Nat.succ (List.range n) from List.range_succ_eq_map,
      List.map_cons, List.map_map]
    refine Prod.ext ?_ ?_
    · simp only
      congr 1
      · unfold Mfm.readDecodedU8
        simp only [Nat.zero_mul, Nat.add_zero, hn]
        refine congrArg byteOfBits (List.map_congr_left fun k _ => ?_)
        rw [show c + 2 * k + 1 = c + 1 + 2 * k by omega]
      · apply List.map_congr_left
        intro k _
        simp only [Function.comp]
        congr 1; omega
    · simp only
      congr 1; omega

theorem seekStart_eq {s : Mfm} {p : Nat} (h : s.nudge p = p) :
    s.seekStart p = { s with cursor := p } := by
  unfold Mfm.seekStart; rw [h]

/-- The value of a decoded byte at an aligned position, from the data cells. -/
theorem readDecodedU8_eq {s : Mfm} (hw : NoWeak s) (hv : s.weakMask.wrapValue = none)
    (rnd : Nat → Bool) (i : Nat) (hn : s.nudge i = i) (b : Byte)
    (h : ∀ k < 8, s.bits.bitAt (i + 2 * k + 1) = b.getMsbD k) : s.readDecodedU8 rnd i = b := by
  unfold Mfm.readDecodedU8
  simp only [hn]
  apply byteOfBits_eq
  intro k hk
  rw [cell_of_noWeak hw hv, ← h k hk]
  congr 1; omega

/-! find_marker -/

theorem window64_getMsbD (r : BitRing) (p k : Nat) (hk : k < 64) :
    (window64 r p).getMsbD k = r.bitAt (p + k) := by
  unfold window64
  rw [shiftIn_getMsbD _ _ _ (by simp) _ hk, getD_map_range _ _ _ _ hk]

/-- The register after at least 64 cells is the window of the last 64. -/
theorem shiftIn_window (r : BitRing) (start n : Nat) (h : 64 ≤ n) :
    shiftIn 64 0 ((List.range n).map fun k => r.bitAt (start + k)) =
      window64 r (start + n - 64) := by
  apply BitVec.eq_of_getLsbD_eq
  intro i hi
  unfold window64
  rw [shiftIn_getLsbD _ _ _ _ hi, shiftIn_getLsbD _ _ _ _ hi]
  simp only [List.length_map, List.length_range]
  rw [if_pos (by omega), if_pos (by omega), getD_map_range _ _ _ _ (by omega),
    getD_map_range _ _ _ _ (by omega)]
  congr 1; omega

/-- Loop invariant of `find_marker`. -/
theorem findMarkerLoop_spec (r : BitRing) (m : MarkerEnc) (start lim : Nat) :
    ∀ (fuel bi : Nat), start ≤ bi → bi + fuel = max lim start →
      (∀ p, MatchAt r m start bi p → False) →
      ∀ res, Mfm.findMarkerLoop r m fuel bi
          (shiftIn 64 0 ((List.range (bi - start)).map fun k => r.bitAt (start + k)))
          (bi - start) = res →
        (res = none ∧ ∀ p, ¬ MatchAt r m start (max lim start) p) ∨
        (∃ p, res = some (p + 64 - m.len, (window64 r p).setWidth 16) ∧
          MatchAt r m start (max lim start) p ∧
          ∀ q, MatchAt r m start (max lim start) q → p ≤ q) := by
  intro fuel
  induction fuel with
  | zero =>
    intro bi _ he hno res hres
    left
    refine ⟨by rw [← hres]; rfl, ?_⟩
    intro p hp
    rw [← he] at hp
    exact hno p (by simpa using hp)
  | succ fuel ih =>
    intro bi hb he hno res hres
    have hreg : (shiftIn 64 0 ((List.range (bi - start)).map fun k => r.bitAt (start + k)) <<< 1) |||
        (BitVec.ofBool (r.bitAt bi)).setWidth 64 =
        shiftIn 64 0 ((List.range (bi + 1 - start)).map fun k => r.bitAt (start + k)) := by
      have : bi + 1 - start = (bi - start) + 1 := by omega
      rw [this, List.range_succ, List.map_append, shiftIn_append]
      simp only [List.map_cons, List.map_nil]
      rw [shiftIn_cons]
      have e : start + (bi - start) = bi := by omega
      rw [e]; rfl
    rw [Mfm.findMarkerLoop] at hres
    simp only [hreg] at hres
    have hct : bi - start + 1 = bi + 1 - start := by omega
    rw [hct] at hres
    by_cases hc : bi + 1 - start ≥ 64 ∧
        shiftIn 64 0 ((List.range (bi + 1 - start)).map fun k => r.bitAt (start + k)) &&& m.mask = m.bits
    · rw [if_pos hc] at hres
      right
      rw [shiftIn_window _ _ _ hc.1] at hc hres
      have e : start + (bi + 1 - start) - 64 = bi + 1 - 64 := by omega
      rw [e] at hc hres
      refine ⟨bi + 1 - 64, ?_, ⟨by omega, by omega, hc.2⟩, ?_⟩
      · rw [← hres]
        congr 2; omega
      · intro q hq
        apply Nat.le_of_not_lt
        intro hlt
        exact hno q ⟨hq.1, by omega, hq.2.2⟩
    · rw [if_neg hc] at hres
      refine ih (bi + 1) (by omega) (by omega) ?_ res hres
      intro p hp
      by_cases hp2 : p + 64 ≤ bi
      · exact hno p ⟨hp.1, hp2, hp.2.2⟩
      · have hpe : p + 64 = bi + 1 := by have := hp.2.1; omega
        have h1 := hp.1
        apply hc
        rw [shiftIn_window _ _ _ (by omega)]
        refine ⟨by omega, ?_⟩
        have e : start + (bi + 1 - start) - 64 = p := by omega
        rw [e]; exact hp.2.2

end Fox
