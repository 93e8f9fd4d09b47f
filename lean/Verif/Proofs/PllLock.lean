import Verif.Model.Pll
import Verif.Spec.Pll
import Mathlib.Tactic.Linarith
import Mathlib.Algebra.Order.Field.Rat
import Mathlib.Algebra.Order.Field.Basic
/-
The phase-locked loop stays locked: invariants of `MfmClock.step`.
-/
namespace Fox.Pll
open Fox.Spec

/-! ## The tick loop -/

theorem tickLoop_exact {w target : Rat} : ∀ (k fuel : Nat) (t : Rat), k ≤ fuel → 0 < w →
    (∀ i : Nat, i < k → t + i * w < target) → target ≤ t + k * w → tickLoop w target (fuel + 1) t = (k, t + k * w) := by
  intro k
  induction k with
  | zero =>
    intro fuel t _ _ _ h2
    have : ¬ t < target := by simp only [Nat.cast_zero, zero_mul] at h2; linarith
    rw [tickLoop, if_neg this]
    simp
  | succ k ih =>
    intro fuel t hf hw h1 h2
    obtain ⟨m, rfl⟩ : ∃ m, fuel = m + 1 := ⟨fuel - 1, by omega⟩
    have h0 := h1 0 (by omega)
    simp only [Nat.cast_zero, zero_mul, add_zero] at h0
    have e : t + w + (k : Rat) * w = t + ((k + 1 : Nat) : Rat) * w := by push_cast; linarith
    rw [tickLoop, if_pos h0]
    have := ih m (t + w) (by omega) hw (fun i hi => by
      have := h1 (i + 1) (by omega)
      push_cast at this
      linarith) (by rw [e]; exact h2)
    rw [this, e]

/-- The number of ticks: the first that reaches the target. -/
theorem tick_exact {w target t : Rat} (k : Nat) (hw : 0 < w) (h1 : k = 0 ∨ t + ((k : Rat) - 1) * w < target)
    (h2 : target ≤ t + k * w) : tick w target t = some (k, t + k * w) := by
  unfold tick
  rcases Nat.eq_zero_or_pos k with rfl | hk
  · have : ¬ t < target := by simp only [Nat.cast_zero, zero_mul] at h2; linarith
    rw [if_neg this]; simp
  · have h1 : t + ((k : Rat) - 1) * w < target := by rcases h1 with h | h; omega; exact h
    have hk1 : (1 : Rat) ≤ (k : Rat) := by exact_mod_cast hk
    have hle : ∀ i : Nat, i < k → t + (i : Rat) * w < target := by
      intro i hi
      have : (i : Rat) + 1 ≤ (k : Rat) := by exact_mod_cast hi
      have := mul_le_mul_of_nonneg_right this (le_of_lt hw)
      linarith
    have h0 := hle 0 hk
    simp only [Nat.cast_zero, zero_mul, add_zero] at h0
    rw [if_pos h0, if_pos hw, tickLoop_exact k _ t _ hw hle h2]
    have hd : ((k : Rat) - 1) < (target - t) / w := (lt_div_iff₀ hw).2 (by linarith)
    have hc : ((target - t) / w) ≤ (((target - t) / w).ceil : Rat) := Rat.le_ceil
    have : ((k : Rat) - 1) < (((target - t) / w).ceil : Rat) := lt_of_lt_of_le hd hc
    have : ((k : Int) - 1) < ((target - t) / w).ceil := by exact_mod_cast this
    omega

theorem clamp_id {x lo hi : Rat} (h1 : lo ≤ x) (h2 : x ≤ hi) : clamp x lo hi = some x := by
  unfold clamp
  rw [if_neg (by linarith), if_neg (by linarith), if_neg (by linarith)]

/-! ## The invariant -/

/-- How the period moves: with the error if the last two errors point the same way, else not at all. -/
def Turn (e f u u' : Rat) : Prop :=
  (u' = u + 5 / 100 * e ∧ ((0 ≤ e ∧ 0 ≤ f) ∨ (e ≤ 0 ∧ f ≤ 0))) ∨
  (u' = u ∧ ((0 ≤ e ∧ f ≤ 0) ∨ (e ≤ 0 ∧ 0 ≤ f)))

/-- The smaller of the last two errors. -/
def least (e f : Rat) : Rat := if mag e < mag f then e else f

/-- The state between two transitions: `R` relates the last error, the one before and the deviation of the period
from the disk's `q`. -/
structure Locked (q : Rat) (R : Rat → Rat → Rat → Prop) (c : MfmClock) : Prop where
  held : ∃ f u, R c.phaseErr f u ∧ c.time - c.last = (q + u) / 2 - c.phaseErr ∧
    c.phaseAdj = 65 / 100 * least c.phaseErr f ∧ Turn c.phaseErr f u (c.working - q)
  gate : (0 < c.gate ∧ 0 ≤ c.phaseErr) ∨ (c.gate < 0 ∧ c.phaseErr < 0)

/-- The step in terms of the errors: if the transition falls into the `k`-th window, it counts as `k` ticks. -/
theorem step_window {q lo hi u u' a e : Rat} {c : MfmClock} (k : Nat) (d : Rat)
    (ht : c.time - c.last = (q + u) / 2 - e) (ha : c.phaseAdj = a) (hw : c.working - q = u')
    (E : Rat) (hE : E = e + (d - k * q) - a - (k - 1 / 2) * u' - u / 2)
    (h0 : 0 < q + u') (h1 : -(q + u') < 2 * E) (h2 : 2 * E ≤ q + u')
    (W : Rat) (hW : W = (q + u') + if gateStep c.gate E > 1 ∨ gateStep c.gate E < -1 then 5 / 100 * E else 0)
    (hc1 : lo ≤ W) (hc2 : W ≤ hi) :
    c.step lo hi d = some (k, MfmClock.mk (c.time + a + k * (q + u')) (c.last + d) W E
      (65 / 100 * least E c.phaseErr) (gateStep c.gate E)) := by
  have hwk : c.working = q + u' := by linarith
  have htk : tick c.working (c.last + d) (c.time + c.phaseAdj) = some (k, c.time + a + k * (q + u')) := by
    rw [hwk, ha]
    refine tick_exact k h0 (Or.inr ?_) ?_
    · rw [hE] at h2; linarith
    · rw [hE] at h1; linarith
  have hEr : d - (c.time + a + (k : Rat) * (q + u') - (c.last + d) + d - c.working / 2) = E := by
    rw [hwk, hE]; linarith
  unfold MfmClock.step
  simp only [htk, Option.bind_eq_bind, Option.bind_some]
  rw [hEr, hwk, ← hW, clamp_id hc1 hc2]
  rfl

/-- The hypotheses under which the loop stays locked. -/
structure Stable (q lo hi : Rat) (R : Rat → Rat → Rat → Prop) (J : Nat → Rat → Prop) : Prop where
  window : ∀ e f u, R e f u → 0 < q + u ∧ -(q + u) < 2 * e ∧ 2 * e ≤ q + u
  limits : ∀ e f u, R e f u → lo ≤ q + u ∧ q + u ≤ hi ∧ lo ≤ q + u + 5 / 100 * e ∧ q + u + 5 / 100 * e ≤ hi
  next : ∀ e f u u' k j, R e f u → Turn e f u u' → J k j →
    R (e + j - 65 / 100 * least e f - (k - 1 / 2) * u' - u / 2) e u'

theorem limits_ite {q lo hi : Rat} {R J} (h : Stable q lo hi R J) {e f u : Rat} (hr : R e f u) (P : Prop) [Decidable P] :
    lo ≤ (q + u) + (if P then 5 / 100 * e else 0) ∧ (q + u) + (if P then 5 / 100 * e else 0) ≤ hi := by
  have := h.limits e f u hr
  split
  · exact ⟨this.2.2.1, this.2.2.2⟩
  · rw [add_zero]; exact ⟨this.1, this.2.1⟩

theorem turn_gate {e e' u : Rat} {g : Int} (hg : (0 < g ∧ 0 ≤ e) ∨ (g < 0 ∧ e < 0)) :
    Turn e' e u (u + if gateStep g e' > 1 ∨ gateStep g e' < -1 then 5 / 100 * e' else 0) ∧
    ((0 < gateStep g e' ∧ 0 ≤ e') ∨ (gateStep g e' < 0 ∧ e' < 0)) := by
  unfold gateStep Turn
  rcases hg with ⟨g1, g2⟩ | ⟨g1, g2⟩
  · by_cases he : e' < 0
    · rw [if_pos he, if_neg (by omega), if_neg (by omega), add_zero]
      exact ⟨Or.inr ⟨rfl, Or.inr ⟨le_of_lt he, g2⟩⟩, Or.inr ⟨by omega, he⟩⟩
    · rw [if_neg he, if_pos g1, if_pos (by omega)]
      exact ⟨Or.inl ⟨rfl, Or.inl ⟨by linarith, g2⟩⟩, Or.inl ⟨by omega, by linarith⟩⟩
  · by_cases he : e' < 0
    · rw [if_pos he, if_pos g1, if_pos (by omega)]
      exact ⟨Or.inl ⟨rfl, Or.inr ⟨le_of_lt he, le_of_lt g2⟩⟩, Or.inr ⟨by omega, he⟩⟩
    · rw [if_neg he, if_neg (by omega), if_neg (by omega), add_zero]
      exact ⟨Or.inr ⟨rfl, Or.inl ⟨by linarith, le_of_lt g2⟩⟩, Or.inl ⟨by omega, by linarith⟩⟩

theorem locked_step {q lo hi : Rat} {R J} (h : Stable q lo hi R J) {c : MfmClock} (hc : Locked q R c) (k : Nat) (d : Rat)
    (hj : J k (d - k * q)) : ∃ c', c.step lo hi d = some (k, c') ∧ Locked q R c' := by
  obtain ⟨⟨f, u, hr, ht, ha, hu⟩, hg⟩ := hc
  have hn := h.next _ _ _ _ k _ hr hu hj
  have hwin := h.window _ _ _ hn
  have hlim := limits_ite h hn
  refine ⟨_, step_window k d ht ha rfl _ rfl hwin.1 hwin.2.1 hwin.2.2 _ rfl (hlim _).1 (hlim _).2, ?_⟩
  have htg := turn_gate (e' := c.phaseErr + (d - k * q) - 65 / 100 * least c.phaseErr f - (k - 1 / 2) * (c.working - q) - u / 2)
    (u := c.working - q) hg
  refine ⟨⟨c.phaseErr, c.working - q, hn, ?_, rfl, ?_⟩, htg.2⟩
  · show _ - _ = _ - _
    simp only
    linarith
  · have := htg.1
    simp only
    rw [show ∀ x y z : Rat, x + y + z - x = y + z from fun x y z => by linarith]
    exact this

/-- The first transition. -/
theorem first_step {q lo hi p : Rat} {R J} (h : Stable q lo hi R J) (k : Nat) (d : Rat)
    (hr : R ((d - k * q) - k * (p - q)) 0 (p - q)) :
    ∃ c', (MfmClock.mk (p / 2) 0 p 0 0 0).step lo hi d = some (k, c') ∧ Locked q R c' := by
  have hwin := h.window _ _ _ hr
  have hlim := limits_ite h hr
  have hE : d - k * q - k * (p - q) = 0 + (d - k * q) - 0 - (k - 1 / 2) * (p - q) - (p - q) / 2 := by linarith
  refine ⟨_, step_window (q := q) (u := p - q) (u' := p - q) (a := 0) (e := 0) k d (by simp only; linarith) rfl rfl _
    hE hwin.1 hwin.2.1 hwin.2.2 _ rfl (hlim _).1 (hlim _).2, ?_⟩
  refine ⟨⟨0, p - q, hr, ?_, rfl, ?_⟩, ?_⟩
  · simp only; linarith
  · simp only [gateStep]
    generalize d - k * q - k * (p - q) = E at *
    right
    by_cases he : E < 0
    · rw [if_pos he, if_neg (by omega)]
      exact ⟨by linarith, Or.inr ⟨by linarith, by linarith⟩⟩
    · rw [if_neg he, if_neg (by omega)]
      exact ⟨by linarith, Or.inl ⟨by linarith, by linarith⟩⟩
  · simp only [gateStep]
    generalize d - k * q - k * (p - q) = E at *
    by_cases he : E < 0
    · right; rw [if_pos he]; exact ⟨by decide, he⟩
    · left; rw [if_neg he]; exact ⟨by decide, by linarith⟩

/-! ## The output -/

theorem flux_cells : ∀ (k : Nat) (o : Output), 1 ≤ k →
    (o.flux k).bits = o.bits ++ (List.replicate (k - 1) false ++ [true]) := by
  intro k o hk
  obtain ⟨n, rfl⟩ : ∃ n, k = n + 1 := ⟨k - 1, by omega⟩
  have : ∀ (n : Nat) (o : Output), ((List.replicate n false).foldl Output.push o).bits = o.bits ++ List.replicate n false := by
    intro n
    induction n with
    | zero => intro o; simp
    | succ n ih =>
      intro o
      rw [List.replicate_succ, List.foldl_cons, ih]
      simp [Output.push]
  rw [Output.flux]
  show ((List.replicate n false).foldl Output.push o).bits ++ [true] = _
  rw [this, Nat.add_sub_cancel, List.append_assoc]

theorem flux_zero (o : Output) : (o.flux 0).bits = o.bits := rfl

theorem flux_rest (k : Nat) (o : Output) : (o.flux k).stats = o.stats ∧ (o.flux k).markers = o.markers ∧
    (o.flux k).transitions = o.transitions := by
  have : ∀ (n : Nat) (o : Output), ((List.replicate n false).foldl Output.push o).stats = o.stats ∧
      ((List.replicate n false).foldl Output.push o).markers = o.markers ∧
      ((List.replicate n false).foldl Output.push o).transitions = o.transitions := by
    intro n
    induction n with
    | zero => intro o; exact ⟨rfl, rfl, rfl⟩
    | succ n ih =>
      intro o
      rw [List.replicate_succ, List.foldl_cons]
      exact ih _
  cases k with
  | zero => exact ⟨rfl, rfl, rfl⟩
  | succ n => exact this n o

theorem mfm_bits (en : Bool) (o : Output) (k : Nat) (d t : Rat) (b : Bool) : (o.mfm en k d t b).bits = (o.flux k).bits := by
  have e : ∀ (o : Output) (s : FluxStats) (tr : List FluxTransition),
      (({ o with stats := s, transitions := tr } : Output).flux k).bits = (o.flux k).bits := by
    intro o s tr
    rcases Nat.eq_zero_or_pos k with rfl | hk
    · rfl
    · rw [flux_cells _ _ hk, flux_cells _ _ hk]
  unfold Output.mfm
  simp only
  split <;> split <;> exact e _ _ _

theorem mfm_stats (en : Bool) (o : Output) (k : Nat) (d t : Rat) (b : Bool) :
    (o.mfm en k d t b).stats = countMfm (FluxStats.extremes o.stats b d) k d := by
  unfold Output.mfm
  simp only
  split <;> split <;> exact (flux_rest _ _).1

/-- The statistics after a row of fluxes that took `ks` ticks. -/
def countAll (first : Bool) (s : FluxStats) : List (Nat × Rat) → FluxStats
  | [] => s
  | (k, d) :: r => countAll false (countMfm (FluxStats.extremes s first d) k d) r

theorem locked_loop {q lo hi : Rat} {R J} (h : Stable q lo hi R J) (en : Bool) :
    ∀ (l : List (Nat × Rat)) (b : Bool) (c : MfmClock) (o : Output), Locked q R c →
    (∀ x ∈ l, 1 ≤ x.1 ∧ J x.1 (x.2 - x.1 * q)) →
    ∃ c' o', mfmLoop en lo hi b c o (l.map Prod.snd) = some (c', o') ∧ o'.bits = o.bits ++ cellsOf (l.map Prod.fst) ∧
      o'.stats = countAll b o.stats l := by
  intro l
  induction l with
  | nil => intro b c o _ _; exact ⟨c, o, rfl, by simp [cellsOf], rfl⟩
  | cons x l ih =>
    intro b c o hc hl
    obtain ⟨c1, h1, h2⟩ := locked_step h hc x.1 x.2 (hl x List.mem_cons_self).2
    obtain ⟨c', o', g1, g2, g3⟩ := ih false c1 (o.mfm en x.1 x.2 c1.time b) h2 (fun y hy => hl y (List.mem_cons_of_mem _ hy))
    refine ⟨c', o', ?_, ?_, ?_⟩
    · rw [List.map_cons, mfmLoop]
      simp only [h1, Option.bind_eq_bind, Option.bind_some]
      exact g1
    · rw [g2, mfm_bits, flux_cells _ _ (hl x List.mem_cons_self).1]
      simp [cellsOf]
    · rw [g3, mfm_stats, countAll]

/-- Decoding from the start. -/
theorem locked_decode {q : Rat} {R J} (P : Pll) (hw : P.working = P.period)
    (h : Stable q (P.period - P.period * P.maxAdjust) (P.period + P.period * P.maxAdjust) R J) (en : Bool)
    (hi : ∀ k j, J k j → R (j - k * (P.period - q)) 0 (P.period - q)) (l : List (Nat × Rat))
    (hl : ∀ x ∈ l, 1 ≤ x.1 ∧ J x.1 (x.2 - x.1 * q)) :
    ∃ P' o, P.decodeMfm en (l.map Prod.snd) = some (P', o) ∧ o.bits = cellsOf (l.map Prod.fst) ∧
      o.stats = countAll true { total := l.length } l := by
  unfold decodeMfm
  rw [hw]
  cases l with
  | nil => exact ⟨_, _, rfl, rfl, rfl⟩
  | cons x l =>
    obtain ⟨c1, h1, h2⟩ := first_step h x.1 x.2 (hi _ _ (hl x List.mem_cons_self).2)
    obtain ⟨c', o', g1, g2, g3⟩ := locked_loop h en l false c1
      (Output.mfm en { stats := { total := ((x :: l).map Prod.snd).length } } x.1 x.2 c1.time true) h2
      (fun y hy => hl y (List.mem_cons_of_mem _ hy))
    refine ⟨{ P with working := c'.working }, o', ?_, ?_, ?_⟩
    · rw [List.map_cons] at g1 ⊢
      simp only [mfmLoop, h1, Option.bind_eq_bind, Option.bind_some]
      rw [g1]
      rfl
    · rw [g2, mfm_bits, flux_cells _ _ (hl x List.mem_cons_self).1]
      simp [cellsOf]
    · rw [g3, mfm_stats, countAll, List.length_map]

end Fox.Pll
