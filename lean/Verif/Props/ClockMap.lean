import Verif.Proofs.Bits
import Verif.Model.System34
/-
Property C29: the clock map (src/track_schema/system34.rs, create_clock_map).
-/
namespace Fox
open Fox.S34

theorem checkedSet_ok {m : List Bool} {i : Nat} {b : Bool} (h : i < m.length) :
    checkedSet m i b = .ok (m.set i b) := by unfold checkedSet; rw [if_pos h]

theorem clockFill_spec : ∀ (fuel : Nat) (m : List Bool) (lo hi : Nat), hi - lo ≤ fuel → hi < m.length →
    ∃ r, clockFill fuel m lo hi = .ok r ∧ r.length = m.length ∧
      (∀ i, i < lo → r.getD i false = m.getD i false) ∧
      (∀ i, lo ≤ i → i < hi → r.getD i false = decide ((i - lo) % 2 = 0))
  | 0, m, lo, hi, hf, hl => ⟨m, rfl, rfl, fun _ _ => rfl, fun i _ _ => by omega⟩
  | fuel + 1, m, lo, hi, hf, hl => by
    rw [clockFill]
    by_cases h : lo < hi
    · rw [if_pos h, checkedSet_ok (by omega : lo < m.length)]
      show ∃ r, (checkedSet (m.set lo true) (lo + 1) false >>= fun m => clockFill fuel m (lo + 2) hi) = _ ∧ _
      rw [checkedSet_ok (by rw [List.length_set]; omega)]
      obtain ⟨r, h1, h2, h3, h4⟩ := clockFill_spec fuel ((m.set lo true).set (lo + 1) false) (lo + 2) hi
        (by omega) (by simp only [List.length_set]; omega)
      refine ⟨r, h1, by rw [h2]; simp, fun i hi' => ?_, fun i h6 h7 => ?_⟩
      · rw [h3 i (by omega), getD_set, getD_set, if_neg (by omega), if_neg (by omega)]
      · by_cases h8 : i < lo + 2
        · rw [h3 i h8, getD_set, getD_set]
          simp only [List.length_set]
          by_cases h9 : i = lo
          · subst h9
            rw [if_neg (by omega), if_pos (by omega)]; simp
          · rw [if_pos (by omega)]
            have : i - lo = 1 := by omega
            rw [this]; rfl
        · rw [h4 i (by omega) h7]
          congr 1
          have : i - lo = (i - (lo + 2)) + 2 := by omega
          rw [this]; simp
    · rw [if_neg h]
      exact ⟨m, rfl, rfl, fun _ _ => rfl, fun i _ _ => by omega⟩

/-- The rest of `create_clock_map` after the marker at `last`. -/
def clockRest (m : List Bool) (last : Nat) (rest : List Nat) : Except Err (List Bool) := do
  let (m, last) ← clockMarkers m last rest
  let m ← (if last > 0 then checkedSet m (last - 1) false else .ok m)
  if m.length = 0 then .error .panic
  else clockFill (m.length - 1 - last) m last (m.length - 1)

theorem clockRest_spec : ∀ (rest : List Nat) (m : List Bool) (last : Nat), 0 < last →
    (last :: rest).Pairwise (· < ·) → (∀ s ∈ last :: rest, s < m.length) →
    ∃ r, clockRest m last rest = .ok r ∧ r.length = m.length ∧
      (∀ i, i + 1 < last → r.getD i false = m.getD i false) ∧
      (∀ s ∈ last :: rest, r.getD (s - 1) false = false) ∧
      (∀ s ∈ last :: rest, ∀ i, s ≤ i → (∀ s' ∈ rest, s < s' → i < s') → i + 1 < m.length →
        r.getD i false = (decide ((i - s) % 2 = 0) && decide (i + 1 ∉ rest)))
  | [], m, last, h0, _, hl => by
    have hlast := hl last (by simp)
    obtain ⟨r, h1, h2, h3, h4⟩ := clockFill_spec (m.length - 1 - last) (m.set (last - 1) false) last
      (m.length - 1) (by omega) (by simp only [List.length_set]; omega)
    refine ⟨r, ?_, by rw [h2]; simp, ?_, ?_, ?_⟩
    · unfold clockRest
      rw [clockMarkers]
      show (if last > 0 then checkedSet m (last - 1) false else .ok m) >>= _ = _
      rw [if_pos h0, checkedSet_ok (by omega)]
      show (if (m.set (last - 1) false).length = 0 then Except.error Err.panic
        else clockFill ((m.set (last - 1) false).length - 1 - last) (m.set (last - 1) false) last
          ((m.set (last - 1) false).length - 1)) = _
      simp only [List.length_set]
      rw [if_neg (by omega), h1]
    · intro i hi
      rw [h3 i (by omega), getD_set, if_neg (by omega)]
    · intro s hs
      have : s = last := by simpa using hs
      subst this
      rw [h3 _ (by omega), getD_set, if_pos (by omega)]
    · intro s hs i hi _ hlt
      have : s = last := by simpa using hs
      subst this
      rw [h4 i hi (by omega)]; simp
  | s :: rest, m, last, h0, hp, hl => by
    rw [List.pairwise_cons] at hp
    have hls : last < s := hp.1 s (by simp)
    have hsl := hl s (by simp)
    obtain ⟨m2, h1, h2, h3, h4⟩ := clockFill_spec (s - last) (m.set (last - 1) false) last s
      (Nat.le_refl _) (by simp only [List.length_set]; omega)
    rw [List.length_set] at h2
    obtain ⟨r, g1, g2, g3, g4, g5⟩ := clockRest_spec rest m2 s (by omega) hp.2
      (fun x hx => by rw [h2]; exact hl x (by simp [hx]))
    refine ⟨r, ?_, by omega, ?_, ?_, ?_⟩
    · rw [← g1]
      unfold clockRest
      rw [clockMarkers, if_pos h0, checkedSet_ok (by omega)]
      show (((clockFill (s - last) (m.set (last - 1) false) last s) >>= fun m => clockMarkers m s rest) >>= _) = _
      rw [h1]; rfl
    · intro i hi
      rw [g3 i (by omega), h3 i (by omega), getD_set, if_neg (by omega)]
    · intro x hx
      rcases List.mem_cons.1 hx with rfl | hx
      · rw [g3 _ (by omega), h3 _ (by omega), getD_set, if_pos (by omega)]
      · exact g4 x hx
    · intro x hx i hi hn hlt
      rcases List.mem_cons.1 hx with rfl | hx
      · have his : i < s := hn s (by simp) hls
        have hrest : ∀ y ∈ rest, s < y := by
          have := hp.2; rw [List.pairwise_cons] at this; exact this.1
        by_cases he : i + 1 = s
        · have : r.getD i false = false := by
            have := g4 s (by simp)
            rwa [show s - 1 = i by omega] at this
          rw [this, he]; simp
        · rw [g3 i (by omega), h4 i hi his]
          have : i + 1 ∉ s :: rest := by
            intro hmem
            rcases List.mem_cons.1 hmem with h | h
            · exact he h
            · have := hrest _ h; omega
          simp only [this, not_false_eq_true, decide_true, Bool.and_true]
      · rw [g5 x hx i hi (fun s' hs' => hn s' (by simp [hs'])) (by omega)]
        have hxs : s ≤ x := by
          rcases List.mem_cons.1 hx with rfl | hx
          · omega
          · have := hp.2; rw [List.pairwise_cons] at this; exact Nat.le_of_lt (this.1 x hx)
        have : (i + 1 ∉ s :: rest) ↔ i + 1 ∉ rest := by
          rw [List.mem_cons]
          constructor
          · exact fun h1 h2 => h1 (Or.inr h2)
          · rintro h1 (h2 | h2)
            · omega
            · exact h1 h2
        simp only [this]

/-- **C29.** Rebuilding the clock map from ascending marker positions (none at cell 0, all inside the
map) succeeds; from each marker on, up to the next one, clock and data cells alternate starting with a
clock cell — except that the cell just before a marker is never a clock cell, so no position before a
marker can be mistaken for its first clock cell; cells before the first marker keep their value. -/
theorem C29_clock_map (starts : List Nat) (m : List Bool) (hne : starts ≠ [])
    (hp : starts.Pairwise (· < ·)) (hb : ∀ s ∈ starts, 0 < s ∧ s < m.length) :
    ∃ r, createClockMap starts m = .ok r ∧ r.length = m.length ∧
      (∀ s ∈ starts, s + 1 < m.length → r.getD s false = decide (s + 1 ∉ starts)) ∧
      (∀ s ∈ starts, ∀ i, s ≤ i → (∀ s' ∈ starts, s < s' → i < s') → i + 1 < m.length →
        r.getD i false = (decide ((i - s) % 2 = 0) && decide (i + 1 ∉ starts))) ∧
      (∀ s ∈ starts, r.getD (s - 1) false = false) ∧
      (∀ i, (∀ s ∈ starts, i + 1 < s) → r.getD i false = m.getD i false) := by
  cases starts with
  | nil => exact absurd rfl hne
  | cons s rest =>
    have hs := hb s (by simp)
    obtain ⟨r, h1, h2, h3, h4, h5⟩ := clockRest_spec rest m s hs.1 hp (fun x hx => (hb x hx).2)
    have hrest : ∀ y ∈ rest, s < y := by rw [List.pairwise_cons] at hp; exact hp.1
    have key : ∀ x ∈ s :: rest, ∀ i, x ≤ i → (∀ s' ∈ s :: rest, x < s' → i < s') → i + 1 < m.length →
        r.getD i false = (decide ((i - x) % 2 = 0) && decide (i + 1 ∉ s :: rest)) := by
      intro x hx i hi hn hlt
      rw [h5 x hx i hi (fun s' hs' => hn s' (by simp [hs'])) hlt]
      have hxs : s ≤ x := by
        rcases List.mem_cons.1 hx with rfl | hx
        · omega
        · exact Nat.le_of_lt (hrest x hx)
      have : (i + 1 ∉ s :: rest) ↔ i + 1 ∉ rest := by
        rw [List.mem_cons]
        constructor
        · exact fun h1 h2 => h1 (Or.inr h2)
        · rintro h1 (h2 | h2)
          · omega
          · exact h1 h2
      simp only [this]
    refine ⟨r, ?_, h2, ?_, key, h4, fun i hi => h3 i (hi s (by simp))⟩
    · rw [← h1]
      unfold createClockMap clockRest
      rw [clockMarkers, if_neg (by omega)]
      rfl
    · intro x hx hlt
      rw [key x hx x (Nat.le_refl _) (fun s' _ h => h) hlt]
      simp

/-- Non-vacuity, with markers at odd distance: cell 4 before the marker at 5 is cleared. -/
example : createClockMap [2, 5] (List.replicate 10 true) =
    .ok [true, false, true, false, false, true, false, true, false, true] := by rfl

/-- **C29, finding.** A marker at cell 0 is treated like "no marker yet": the cells between it and the
next marker keep their old value. -/
theorem C29_false_marker_at_zero :
    createClockMap [0, 4] (List.replicate 8 false) =
      .ok [false, false, false, false, true, false, true, false] := by rfl

/-- **C29, finding.** Rebuilding the clock map of an empty track panics (`len() - 1` underflows). -/
theorem C29_empty_panics : createClockMap [] [] = .error .panic := by rfl

end Fox
