import Verif.Spec.Viz
import Verif.Props.VizBase
import Mathlib.Algebra.Order.Field.Basic
/-
Proofs about the rings of the tracks (C127).
-/
namespace Fox
open Viz Spec

/-- What `track_params` gives. -/
theorem trackParams_ok {p : Params} {n : Nat} {tp : TrackParams} (h : p.trackParams n = .ok tp) :
    0 < n ∧ tp.numTracks = min n (p.trackLimit.getD maxCylinder) ∧ 0 < tp.numTracks ∧ tp.totalRadius = p.radius.getD (1/2) ∧
    tp.maxRadius = p.maxRatio * tp.totalRadius ∧
    tp.minRadius = (if p.pin then p.minRatio * tp.totalRadius -
      ((n - standardTracks n : Nat) : Rat) * ((tp.totalRadius - p.minRatio * tp.totalRadius) / (standardTracks n : Rat)) else p.minRatio * tp.totalRadius) ∧
    tp.minRadius < tp.maxRadius ∧ tp.totalWidth = (tp.maxRadius - tp.minRadius) / (n : Rat) ∧ 0 < tp.totalWidth ∧
    tp.renderWidth = (if p.gap = 0 then tp.totalWidth * (101/100) else tp.totalWidth * (1 - p.gap)) ∧
    tp.radiusAdjust = (if p.gap = 0 then -(tp.totalWidth * (1/100)) / 2 else tp.totalWidth * (p.gap / 2)) := by
  unfold Params.trackParams at h
  simp only at h
  split at h
  · cases h
  · rename_i h0
    split at h
    · cases h
    · rename_i h1
      split at h
      · cases h
      · rename_i h2
        injection h with h
        subst h
        refine ⟨by omega, rfl, by simp only; omega, rfl, rfl, ?_, not_le.1 h1, rfl, not_le.1 h2, ?_, ?_⟩
        · rfl
        · simp only; split <;> rfl
        · simp only; split <;> rfl

/-- **C127 (errors).** No tracks, or a limit of none, are refused as that; an outer radius that is not beyond the inner one as invalid; everything else gives rings. -/
theorem C127_errors (p : Params) (n : Nat) :
    ((∃ tp, p.trackParams n = .ok tp) ∨ p.trackParams n = .error .noTracks ∨ p.trackParams n = .error .invalid) ∧
    (p.trackParams n = .error .noTracks ↔ n = 0 ∨ p.trackLimit = some 0) := by
  have hlim : min n (p.trackLimit.getD maxCylinder) = 0 ↔ n = 0 ∨ p.trackLimit = some 0 := by
    cases p.trackLimit with
    | none => simp [maxCylinder]
    | some k => simp
  unfold Params.trackParams
  simp only
  by_cases h0 : min n (p.trackLimit.getD maxCylinder) = 0
  · rw [if_pos h0]
    exact ⟨.inr (.inl rfl), fun _ => hlim.1 h0, fun _ => rfl⟩
  · rw [if_neg h0]
    have hn : n ≠ 0 := by omega
    split
    · refine ⟨.inr (.inr rfl), (fun h => by cases h), fun h => absurd (hlim.2 h) h0⟩
    · rename_i h1
      split
      · rename_i h2
        exfalso
        have hpos : (0 : Rat) < (n : Rat) := by exact_mod_cast Nat.pos_of_ne_zero hn
        have := div_pos (sub_pos.2 (not_le.1 h1)) hpos
        exact absurd h2 (not_le.2 this)
      · exact ⟨.inl ⟨_, rfl⟩, (fun h => by cases h), fun h => absurd (hlim.2 h) h0⟩

example : ∃ tp, Params.trackParams {} 80 = .ok tp := ⟨⟨1/2, 3/20, 1/2, 80, 7/1600, 63/16000, 7/32000⟩, by decide +kernel⟩

/-- **C127 (partial).** With the full radius used and a gap of less than the whole: the rings of the cylinders have the width without the gap, lie between the
inner and the outer radius, from outside in, the gap between each and the next, half a gap at the ends; the middle is in the middle.
Missing: a smaller outer radius, and no gap (both refuted below). -/
theorem C127_rings_partial (p : Params) (n : Nat) (tp : TrackParams) (h : p.trackParams n = .ok tp) (hm : p.maxRatio = 1) (hg : 0 < p.gap) (hg1 : p.gap < 1) (c : Nat) :
    ((∀ rad, (tp.radii c).2.2 ≤ rad ∧ rad ≤ (tp.radii c).1 ↔ OnRing tp.minRadius tp.maxRadius p.gap n c rad) ∧
    (tp.radii c).1 - (tp.radii c).2.2 = tp.renderWidth ∧ 0 < tp.renderWidth ∧
    (tp.radii c).2.1 = ((tp.radii c).1 + (tp.radii c).2.2) / 2 ∧
    (tp.radii c).2.2 - (tp.radii (c + 1)).1 = tp.totalWidth * p.gap) ∧
    (tp.radii 0).1 + tp.totalWidth * (p.gap / 2) = tp.maxRadius ∧
    (tp.radii (n - 1)).2.2 - tp.totalWidth * (p.gap / 2) = tp.minRadius := by
  obtain ⟨hn, _, _, hR, hM, _, hlt, hw, hwp, hrw, hadj⟩ := trackParams_ok h
  rw [hm, one_mul] at hM
  have hg0 : p.gap ≠ 0 := ne_of_gt hg
  rw [if_neg hg0] at hrw hadj
  have hrp : 0 < tp.totalWidth * (1 - p.gap) := mul_pos hwp (by linarith)
  have hnn : (0 : Rat) < (n : Rat) := by exact_mod_cast hn
  have hdw : tp.totalWidth * (n : Rat) = tp.maxRadius - tp.minRadius := by rw [hw]; exact div_mul_cancel₀ _ (ne_of_gt hnn)
  have hcast : ((n - 1 : Nat) : Rat) = (n : Rat) - 1 := by
    have : ((n - 1 + 1 : Nat) : Rat) = (n : Rat) := by congr 1; omega
    rw [Nat.cast_add] at this
    have e : ((1 : Nat) : Rat) = 1 := rfl
    rw [e] at this
    linarith
  have hsucc : ((c + 1 : Nat) : Rat) = (c : Rat) + 1 := by rw [Nat.cast_add]; rfl
  unfold TrackParams.radii OnRing
  simp only
  rw [hadj, hrw, hsucc, hcast, ← hw, hM]
  refine ⟨⟨fun rad => ?_, by ring, hrp, by ring, by ring⟩, ?_, ?_⟩
  · constructor
    · rintro ⟨h1, h2⟩; constructor <;> linarith
    · rintro ⟨h1, h2⟩; constructor <;> linarith
  · have : ((0 : Nat) : Rat) = 0 := rfl
    rw [this]; ring
  · linarith

/-- **C127 (which radius is the inner one).** With the full radius used: without pinning, or with no more tracks than a standard disk has, the inner radius is the
one asked for; with pinning and at least as many, the last standard track ends there (but for half a gap), whatever lies further in. -/
theorem C127_pinned (p : Params) (n : Nat) (tp : TrackParams) (h : p.trackParams n = .ok tp) (hm : p.maxRatio = 1) :
    (p.pin = false ∨ n ≤ standardTracks n → tp.minRadius = p.minRatio * tp.totalRadius) ∧
    (p.pin = true → standardTracks n ≤ n → tp.totalRadius - (standardTracks n : Rat) * tp.totalWidth = p.minRatio * tp.totalRadius) := by
  obtain ⟨hn, _, _, hR, hM, hmin, hlt, hw, hwp, hrw, hadj⟩ := trackParams_ok h
  rw [hm, one_mul] at hM
  constructor
  · rintro (hp | hp)
    · rw [hmin, hp]; simp
    · rw [hmin]
      have : n - standardTracks n = 0 := by omega
      rw [this]
      have e : ((0 : Nat) : Rat) = 0 := rfl
      rw [e]
      split <;> ring
  · intro hp hle
    rw [if_pos hp] at hmin
    have hs : (0 : Rat) < (standardTracks n : Rat) := by
      unfold standardTracks; split <;> decide
    have hnn : (0 : Rat) < (n : Rat) := by exact_mod_cast hn
    have hdw : tp.totalWidth * (n : Rat) = tp.maxRadius - tp.minRadius := by rw [hw]; exact div_mul_cancel₀ _ (ne_of_gt hnn)
    have hover : ((n - standardTracks n : Nat) : Rat) = (n : Rat) - (standardTracks n : Rat) := Nat.cast_sub hle
    rw [hM, hmin, hover] at hdw
    generalize hW : (tp.totalRadius - p.minRatio * tp.totalRadius) / (standardTracks n : Rat) = W at hdw
    have hWd : W * (standardTracks n : Rat) = tp.totalRadius - p.minRatio * tp.totalRadius := by
      rw [← hW]; exact div_mul_cancel₀ _ (ne_of_gt hs)
    have e : tp.totalWidth * (n : Rat) = W * (n : Rat) := by
      rw [hdw]; linarith
    have : tp.totalWidth = W := mul_right_cancel₀ (ne_of_gt hnn) e
    rw [this]
    linarith

/-- **C127 fails** for every outer radius that is not the full one: the first ring does not begin there, the last does not end at the inner radius. -/
theorem C127_false_outer (p : Params) (n : Nat) (tp : TrackParams) (h : p.trackParams n = .ok tp) (hm : p.maxRatio ≠ 1) (hr : tp.totalRadius ≠ 0) (hg : p.gap ≠ 0) :
    (tp.radii 0).1 + tp.totalWidth * (p.gap / 2) = tp.totalRadius ∧ tp.maxRadius ≠ tp.totalRadius ∧
    (tp.radii (n - 1)).2.2 - tp.totalWidth * (p.gap / 2) = tp.minRadius + (tp.totalRadius - tp.maxRadius) := by
  obtain ⟨hn, _, _, hR, hM, _, hlt, hw, hwp, hrw, hadj⟩ := trackParams_ok h
  rw [if_neg hg] at hadj
  have hnn : (0 : Rat) < (n : Rat) := by exact_mod_cast hn
  have hdw : tp.totalWidth * (n : Rat) = tp.maxRadius - tp.minRadius := by rw [hw]; exact div_mul_cancel₀ _ (ne_of_gt hnn)
  have hcast : ((n - 1 : Nat) : Rat) = (n : Rat) - 1 := by
    have : ((n - 1 + 1 : Nat) : Rat) = (n : Rat) := by congr 1; omega
    rw [Nat.cast_add] at this
    have e : ((1 : Nat) : Rat) = 1 := rfl
    rw [e] at this
    linarith
  unfold TrackParams.radii
  simp only
  rw [hadj, hcast]
  refine ⟨?_, ?_, ?_⟩
  · have : ((0 : Nat) : Rat) = 0 := rfl
    rw [this]; ring
  · rw [hM]
    intro e
    apply hm
    exact mul_right_cancel₀ hr (by rw [e]; ring)
  · linarith

example : ∃ tp, Params.trackParams { maxRatio := 9/10 } 80 = .ok tp ∧ tp.totalRadius ≠ 0 :=
  ⟨⟨1/2, 3/20, 9/20, 80, 3/800, 27/8000, 3/16000⟩, by decide +kernel, by decide +kernel⟩

/-- **C127 fails** without a gap: each ring reaches into the next. -/
theorem C127_false_overlap (p : Params) (n : Nat) (tp : TrackParams) (h : p.trackParams n = .ok tp) (hg : p.gap = 0) (c : Nat) :
    (tp.radii c).2.2 < (tp.radii (c + 1)).1 := by
  obtain ⟨hn, _, _, hR, hM, _, hlt, hw, hwp, hrw, hadj⟩ := trackParams_ok h
  rw [if_pos hg] at hadj
  have hsucc : ((c + 1 : Nat) : Rat) = (c : Rat) + 1 := by rw [Nat.cast_add]; rfl
  unfold TrackParams.radii
  simp only
  rw [hadj, hsucc]
  linarith

example : ∃ tp, Params.trackParams { gap := 0 } 80 = .ok tp := ⟨⟨1/2, 3/20, 1/2, 80, 7/1600, 707/160000, -7/320000⟩, by decide +kernel⟩

/-- **C127 fails** for disks of many tracks, with pinning, as is the default: the innermost rings have negative radii. -/
theorem C127_false_negative : ∃ tp, Params.trackParams {} 160 = .ok tp ∧ (tp.radii 159).1 < 0 :=
  ⟨⟨1/2, -1/5, 1/2, 85, 7/1600, 63/16000, 7/32000⟩, by decide +kernel, by decide +kernel⟩

/-! ## Directions and quadrants -/

/-- Turning over twice is nothing, and the two directions show a disk mirrored. -/
theorem C127_turning (t : Turning) (a : Rat) : t.opposite.opposite = t ∧ t.adjust (t.adjust a) = a ∧ t.adjust a + t.opposite.adjust a = 1 := by
  cases t
  · refine ⟨rfl, rfl, ?_⟩; show a + (1 - a) = 1; ring
  · refine ⟨rfl, ?_, ?_⟩
    · show 1 - (1 - a) = a; ring
    · show (1 - a) + a = 1; ring

end Fox
