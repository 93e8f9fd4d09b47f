import Verif.Proofs.PllRun
import Verif.Props.Pll
/-
C68: sync marks found in flux.  C69: every decoding ends, and accounts for every flux.
C70: the decoder's clock.  C71: decoding FM flux.  C72: every mark is reported once.
-/
namespace Fox
open Fox.Spec Fox.Pll

/-! ## C68 -/

/-- **C68, nothing but sync marks.** Whatever the flux, every mark that MFM decoding reports stands on the two sync
words (4489 4489, at the reported bit) after the end of a row of sync bytes. -/
theorem C68_marks_are_there (P P' : Pll) (en : Bool) (ds : List Rat) (o : Output)
    (h : P.decode .mfm en ds = some (P', o)) : ∀ m ∈ o.markers, SyncEnds o.bits (m.2 + 32) :=
  (decodeMfm_inv h MarksOk (marks_empty _) (fun _ _ _ _ _ h => h.mfm _ _ _ _ _)).sound

/-- **C68, every sync mark.** -/
theorem C68_marks_are_found (P P' : Pll) (en : Bool) (ds : List Rat) (o : Output)
    (h : P.decode .mfm en ds = some (P', o)) (n : Nat) (hn : SyncEnds o.bits (n + 32)) : ∃ m ∈ o.markers, m.2 = n := by
  obtain ⟨m, h1, h2⟩ := (decodeMfm_inv h MarksOk (marks_empty _) (fun _ _ _ _ _ h => h.mfm _ _ _ _ _)).complete _ hn
  exact ⟨m, h1, by omega⟩

/-- The marks are in strictly increasing order, and none lies beyond the bits. -/
def MarksUp (o : Output) : Prop :=
  (o.markers.map Prod.snd).Pairwise (· < ·) ∧ ∀ m ∈ o.markers, m.2 + 32 ≤ o.bits.length

theorem _root_.Fox.Pll.RegOk.upd {o : Output} (h : RegOk o) (T : List FluxTransition) (S : FluxStats) (k : Nat) :
    RegOk ((Output.mk o.bits o.reg o.markers T S).flux k) := by
  have : RegOk (Output.mk o.bits o.reg o.markers T S) := h
  exact this.flux k

theorem MarksUp.mfm {o : Output} (h : MarksUp o) (hr : RegOk o) (en : Bool) (k : Nat) (hk : 1 ≤ k) (d t : Rat) (b : Bool) :
    MarksUp (o.mfm en k d t b) := by
  obtain ⟨h1, h2⟩ := h
  have core : ∀ (o1 : Output), RegOk o1 → o1.markers = o.markers → o.bits.length < o1.bits.length →
      MarksUp (if o1.reg &&& 0x7FFFFFFFFFFFFFFF#64 = 0x2AAAAAAA44894489#64 then
          { o1 with markers := o1.markers ++ [(t, o1.bits.length - 32)] } else o1) := by
    intro o1 hr1 hm hb
    split
    · next he =>
      have := ((reg_sync hr1).1 he).last
      refine ⟨?_, ?_⟩
      · show ((o1.markers ++ [(t, o1.bits.length - 32)]).map Prod.snd).Pairwise _
        rw [hm, List.map_append, List.pairwise_append]
        refine ⟨h1, List.pairwise_singleton _ _, ?_⟩
        intro a ha c hc
        obtain ⟨m, hm', rfl⟩ := List.mem_map.1 ha
        have := h2 m hm'
        simp only [List.map_cons, List.map_nil, List.mem_singleton] at hc
        omega
      · intro m hm'
        rcases List.mem_append.1 hm' with hm' | hm'
        · rw [hm] at hm'
          have := h2 m hm'
          show m.2 + 32 ≤ o1.bits.length
          omega
        · rw [List.mem_singleton.1 hm']
          show o1.bits.length - 32 + 32 ≤ o1.bits.length
          omega
    · exact ⟨by rw [hm]; exact h1, fun m hm' => by rw [hm] at hm'; have := h2 m hm'; omega⟩
  unfold Output.mfm
  refine core _ ?_ ?_ ?_
  · exact hr.upd _ _ k
  · exact (flux_rest _ _).2.1
  · rw [flux_cells _ _ hk]
    simp only [List.length_append, List.length_replicate, List.length_singleton]
    omega

/-- **C72, once each.** If no flux came within a tick of the one before, no mark is reported twice, and they come in
order. -/
theorem C72_marks_once_partial (P P' : Pll) (en : Bool) (ds : List Rat) (o : Output)
    (h : P.decode .mfm en ds = some (P', o)) (hs : o.stats.tooShort = 0) : (o.markers.map Prod.snd).Pairwise (· < ·) := by
  have := decodeMfm_inv h (fun o => RegOk o ∧ (o.stats.tooShort = 0 → MarksUp o))
    ⟨(marks_empty _).reg, fun _ => ⟨List.Pairwise.nil, fun m hm => by cases hm⟩⟩ (by
      intro o k d t b ⟨h1, h2⟩
      have hr : RegOk (o.mfm en k d t b) := by
        unfold Output.mfm
        simp only
        split <;> split <;> exact h1.upd _ _ k
      refine ⟨hr, fun hs => ?_⟩
      rw [mfm_stats] at hs
      have hk : 1 ≤ k ∧ o.stats.tooShort = 0 := by
        unfold countMfm at hs
        split at hs
        · simp at hs
        · next hk =>
          refine ⟨by omega, ?_⟩
          split at hs
          · exact hs
          · split at hs
            · exact hs
            · split at hs
              · exact hs
              · exact hs
      exact (h2 hk.2).mfm h1 en k hk.1 d t b)
  exact (this.2 hs).1

/-- The intervals of four sync bytes and the two sync words. -/
def syncRun : List Nat := List.replicate 16 2 ++ [3, 4, 3, 4, 3, 2, 4, 3, 4, 3]

/-- **C72 does not hold as stated:** a glitch, a second transition within the same tick right after a mark, makes
the mark come twice. -/
theorem C72_false_glitch : ∃ P P' o, Pll.new.setClock 500000 none = some P ∧
    P.decode .mfm false (perfect (2 / 1000000) syncRun ++ [1 / 10000000]) = some (P', o) ∧
    o.markers.map Prod.snd = [33, 33] := by
  have h : ((Pll.new.setClock 500000 none).bind fun P =>
      P.decode .mfm false (perfect (2 / 1000000) syncRun ++ [1 / 10000000])).map (fun r => r.2.markers.map Prod.snd) =
      some [33, 33] := by decide +kernel
  cases h1 : Pll.new.setClock 500000 none with
  | none => rw [h1] at h; cases h
  | some P =>
    rw [h1] at h
    cases h2 : P.decode .mfm false (perfect (2 / 1000000) syncRun ++ [1 / 10000000]) with
    | none => simp only [Option.bind_some, h2] at h; cases h
    | some r =>
      simp only [Option.bind_some, h2, Option.map_some, Option.some.injEq] at h
      exact ⟨P, r.1, r.2, rfl, h2, h⟩

/-! ## C69 -/

/-- What can be done with a decoder: setting, adjusting and resetting its clock, and decoding. -/
inductive Used : Pll → Prop where
  | new : Used Pll.new
  | set {P P' : Pll} (rate : Rat) (adj : Option Rat) : Used P → (∀ a, adj = some a → 0 ≤ a ∧ a < 1) →
      P.setClock rate adj = some P' → Used P'
  | adjust {P : Pll} (factor : Rat) : Used P → 0 < factor → Used (P.adjustClock factor)
  | reset {P : Pll} : Used P → Used P.resetClock
  | decode {P P' : Pll} {enc en ds o} : Used P → P.decode enc en ds = some (P', o) → Used P'

theorem Used.sane {P : Pll} (h : Used P) : Sane P := by
  induction h with
  | new => exact ⟨⟨by decide +kernel, by decide +kernel⟩, by decide +kernel, by decide +kernel, by decide +kernel⟩
  | @set P P' rate adj _ ha hs ih =>
    unfold setClock at hs
    split at hs
    · next hr =>
      cases hs
      have hp : 0 < 1 / rate := one_div_pos.2 (by linarith)
      refine ⟨⟨by simp only; linarith, by simp only; linarith⟩, hp, hp, ?_⟩
      cases adj with
      | none => exact ih.adjust
      | some a => exact ha a rfl
    · cases hs
  | adjust factor _ hf ih =>
    have h1 := mul_pos ih.rate.2 hf
    exact ⟨⟨ih.rate.1, h1⟩, one_div_pos.2 h1, one_div_pos.2 h1, ih.adjust⟩
  | reset _ ih =>
    have h1 := one_div_pos.2 ih.rate.1
    exact ⟨⟨ih.rate.1, ih.rate.1⟩, h1, h1, ih.adjust⟩
  | @decode P P' enc en ds o _ hd ih =>
    cases enc with
    | mfm =>
      obtain ⟨P1, o1, h1, h2, _⟩ := decodeMfm_total ih en ds
      have hd : P.decodeMfm en ds = some (P', o) := hd
      rw [h1] at hd; cases hd; exact h2
    | fm =>
      obtain ⟨P1, o1, h1, h2, _⟩ := decodeFm_total ih ds
      have hd : P.decodeFm ds = some (P', o) := hd
      rw [h1] at hd; cases hd; exact h2

/-- **C69.** However a decoder has been used before, and whatever flux it is given (empty, negative, of any length),
decoding ends without a failed assertion. -/
theorem C69_always_ends (P : Pll) (h : Used P) (enc : FluxEncoding) (en : Bool) (ds : List Rat) :
    ∃ r, P.decode enc en ds = some r := by
  cases enc with
  | mfm => obtain ⟨P', o, h1, _⟩ := decodeMfm_total h.sane en ds; exact ⟨_, h1⟩
  | fm => obtain ⟨P', o, h1, _⟩ := decodeFm_total h.sane ds; exact ⟨_, h1⟩

/-- The account of an MFM decoding of `n` fluxes so far. -/
def AccountMfm (n : Nat) (o : Output) : Prop :=
  n = o.stats.tooShort + o.stats.short + o.stats.medium + o.stats.long + o.stats.tooLong ∧
  ∃ x ≤ o.stats.tooShort,
    ones o.bits = o.stats.short + o.stats.medium + o.stats.long + o.stats.tooLong + x ∧
    o.bits.length = 2 * o.stats.short + 3 * o.stats.medium + 4 * o.stats.long +
      (4 * o.stats.tooLong + o.stats.tooSlowBits) + x

theorem ones_append (a b : List Bool) : ones (a ++ b) = ones a + ones b := by
  unfold ones; rw [List.filter_append, List.length_append]

theorem ones_flux (k : Nat) (o : Output) : ones (o.flux k).bits = ones o.bits + (if k = 0 then 0 else 1) ∧
    (o.flux k).bits.length = o.bits.length + k := by
  by_cases hk : k = 0
  · subst hk; exact ⟨rfl, rfl⟩
  · rw [flux_cells _ _ (by omega), ones_append, ones_append, if_neg hk]
    have : ones (List.replicate (k - 1) false) = 0 := by unfold ones; simp
    rw [this]
    refine ⟨rfl, ?_⟩
    simp only [List.length_append, List.length_replicate, List.length_singleton]
    omega

theorem account_step (n : Nat) (o : Output) (en : Bool) (k : Nat) (d t : Rat) (b : Bool) (h : AccountMfm n o) :
    AccountMfm (n + 1) (o.mfm en k d t b) := by
  obtain ⟨h1, x, h2, h3, h4⟩ := h
  unfold AccountMfm
  rw [mfm_bits, mfm_stats, (ones_flux k o).1, (ones_flux k o).2]
  unfold countMfm FluxStats.extremes
  rcases (show k = 0 ∨ k = 1 ∨ k = 2 ∨ k = 3 ∨ k = 4 ∨ 5 ≤ k by omega) with rfl | rfl | rfl | rfl | rfl | hk
  · simp only [show (0 : Nat) < 2 by omega, if_true]
    exact ⟨by omega, x, by omega, by omega, by omega⟩
  · simp only [show (1 : Nat) < 2 by omega, if_true]
    exact ⟨by omega, x + 1, by omega, by simp; omega, by omega⟩
  · simp only [show ¬ (2 : Nat) < 2 by omega, if_true, if_false]
    exact ⟨by omega, x, by omega, by simp; omega, by omega⟩
  · simp only [show ¬ (3 : Nat) < 2 by omega, show ¬ (3 : Nat) = 2 by omega, if_true, if_false]
    exact ⟨by omega, x, by omega, by simp; omega, by omega⟩
  · simp only [show ¬ (4 : Nat) < 2 by omega, show ¬ (4 : Nat) = 2 by omega, show ¬ (4 : Nat) = 3 by omega, if_true, if_false]
    exact ⟨by omega, x, by omega, by simp; omega, by omega⟩
  · simp only [show ¬ k < 2 by omega, show ¬ k = 2 by omega, show ¬ k = 3 by omega, show ¬ k = 4 by omega,
      show ¬ k = 0 by omega, if_false]
    exact ⟨by omega, x, by omega, by omega, by omega⟩

theorem account_loop {en : Bool} {lo hi : Rat} : ∀ (ds : List Rat) (b : Bool) (c : MfmClock) (o : Output) (n : Nat) (c' o'),
    mfmLoop en lo hi b c o ds = some (c', o') → AccountMfm n o → AccountMfm (n + ds.length) o' ∧ o'.stats.total = o.stats.total := by
  intro ds
  induction ds with
  | nil => intro b c o n c' o' h ho; cases h; exact ⟨ho, rfl⟩
  | cons d ds ih =>
    intro b c o n c' o' h ho
    rw [mfmLoop] at h
    cases hs : c.step lo hi d with
    | none => rw [hs] at h; cases h
    | some r =>
      rw [hs] at h
      obtain ⟨g1, g2⟩ := ih false _ _ (n + 1) c' o' h (account_step n o en _ _ _ _ ho)
      rw [List.length_cons, show n + (ds.length + 1) = n + 1 + ds.length by omega]
      refine ⟨g1, ?_⟩
      rw [g2, mfm_stats]
      unfold countMfm FluxStats.extremes
      split
      · rfl
      · split
        · rfl
        · split
          · rfl
          · split <;> rfl

/-- **C69, the account.** Every flux of an MFM decoding is counted under exactly one heading, and the headings
account for every bit: two for each short flux, three for each medium, four for each long one, four and the
overrun for each that is too long, and one for each that is too short but lasted a tick; and for every set bit. -/
theorem C69_account (P P' : Pll) (en : Bool) (ds : List Rat) (o : Output) (h : P.decode .mfm en ds = some (P', o)) :
    o.stats.total = ds.length ∧
    o.stats.total = o.stats.tooShort + o.stats.short + o.stats.medium + o.stats.long + o.stats.tooLong ∧
    ∃ x ≤ o.stats.tooShort,
      ones o.bits = o.stats.short + o.stats.medium + o.stats.long + o.stats.tooLong + x ∧
      o.bits.length = 2 * o.stats.short + 3 * o.stats.medium + 4 * o.stats.long +
        (4 * o.stats.tooLong + o.stats.tooSlowBits) + x := by
  have h : P.decodeMfm en ds = some (P', o) := h
  unfold decodeMfm at h
  cases hl : mfmLoop en (P.working - P.working * P.maxAdjust) (P.working + P.working * P.maxAdjust) true
    { time := P.period / 2, last := 0, working := P.period, phaseErr := 0, phaseAdj := 0, gate := 0 }
    { stats := { total := ds.length } } ds with
  | none => simp only [hl] at h; cases h
  | some r =>
    simp only [hl] at h
    cases h
    obtain ⟨⟨g1, g2⟩, g3⟩ := account_loop ds _ _ _ 0 _ _ hl ⟨rfl, 0, Nat.le_refl _, rfl, rfl⟩
    rw [Nat.zero_add] at g1
    exact ⟨g3, by rw [g3]; exact g1, g2⟩

/-- Not vacuous: used, and decoding what makes little sense. -/
example : ∃ P, Used P ∧ (P.decode .mfm false [-1 / 1000000, 0, 1 / 100000]).map (fun r => (r.2.bits.length, r.2.stats.total)) =
    some (3, 3) :=
  ⟨_, .decode (.set 500000 (some (1 / 10)) .new (fun a h => by cases h; decide +kernel) rfl)
    (show Pll.decode _ .fm false [] = some _ from rfl), by decide +kernel⟩

/-! ## C70 -/

/-- **C70, the first time.** Right after the clock is set, decoding keeps the period within the decoder's limits of
the nominal one (of twice that, for FM), and never changes the nominal clock. -/
theorem C70_limits_partial (P Q Q' : Pll) (h : Used P) (rate : Rat) (adj : Option Rat)
    (ha : ∀ a, adj = some a → 0 ≤ a ∧ a < 1) (hs : P.setClock rate adj = some Q) (enc : FluxEncoding) (en : Bool)
    (ds : List Rat) (o : Output) (hd : Q.decode enc en ds = some (Q', o)) :
    Q'.period = 1 / rate ∧ Q'.rate = rate ∧
    (enc = .mfm → 1 / rate * (1 - Q.maxAdjust) ≤ Q'.working ∧ Q'.working ≤ 1 / rate * (1 + Q.maxAdjust)) ∧
    (enc = .fm → 2 * (1 / rate) * (1 - Q.maxAdjust) ≤ Q'.working ∧ Q'.working ≤ 2 * (1 / rate) * (1 + Q.maxAdjust)) := by
  have hu : Used Q := .set rate adj h ha hs
  have hq : Q.period = 1 / rate ∧ Q.working = Q.period ∧ Q.rate = rate := by
    unfold setClock at hs
    split at hs
    · cases hs; exact ⟨rfl, rfl, rfl⟩
    · cases hs
  rw [← hq.1]
  cases enc with
  | mfm =>
    obtain ⟨P1, o1, h1, _, h2, h3⟩ := decodeMfm_total hu.sane en ds
    have hd : Q.decodeMfm en ds = some (Q', o) := hd
    rw [h1] at hd; cases hd
    exact ⟨by rw [h3], by rw [h3]; exact hq.2.2, fun _ => h2 hq.2.1, fun h => by cases h⟩
  | fm =>
    obtain ⟨P1, o1, h1, _, h2, h3⟩ := decodeFm_total hu.sane ds
    have hd : Q.decodeFm ds = some (Q', o) := hd
    rw [h1] at hd; cases hd
    exact ⟨by rw [h3], by rw [h3]; exact hq.2.2, fun h => (by cases h), fun _ => h2⟩

theorem used_gain {P : Pll} (h : Used P) : P.phaseGain = 65 / 100 := by
  induction h with
  | new => rfl
  | set rate adj _ _ hs ih =>
    unfold setClock at hs
    split at hs
    · cases hs; exact ih
    · cases hs
  | adjust _ _ _ ih => exact ih
  | reset _ ih => exact ih
  | @decode P P' enc en ds o hu hd ih =>
    cases enc with
    | mfm =>
      obtain ⟨P1, o1, h1, _, _, h3⟩ := decodeMfm_total hu.sane en ds
      have hd : P.decodeMfm en ds = some (P', o) := hd
      rw [h1] at hd; cases hd; rw [h3]; exact ih
    | fm =>
      obtain ⟨P1, o1, h1, _, _, h3⟩ := decodeFm_total hu.sane ds
      have hd : P.decodeFm ds = some (P', o) := hd
      rw [h1] at hd; cases hd; rw [h3]; exact ih

/-- **C70, after setting the clock.** Setting clock and limit makes a used decoder read flux as a new one does. -/
theorem C70_after_set_partial (P Q : Pll) (h : Used P) (rate a : Rat) (hs : P.setClock rate (some a) = some Q)
    (enc : FluxEncoding) (en : Bool) (ds : List Rat) :
    ∃ Q0, Pll.new.setClock rate (some a) = some Q0 ∧ Q.decode enc en ds = Q0.decode enc en ds := by
  unfold setClock at hs ⊢
  split at hs
  · next hr =>
    cases hs
    rw [if_pos hr]
    refine ⟨_, rfl, ?_⟩
    rw [used_gain h]
    rfl
  · cases hs

/-- **C70 does not hold as stated:** a decoder that has decoded FM before, even no flux at all, keeps the doubled
period's limits, and misreads perfectly timed MFM flux at its own clock rate that a new one reads right. -/
theorem C70_false_history : ∃ P P1, Pll.new.setClock 500000 none = some P ∧ P.decode .fm false [] = some (P1, {}) ∧
    P1.rate = P.rate ∧ P1.period = P.period ∧
    (P.decode .mfm false (perfect (2 / 1000000) [2, 2, 2])).map (fun r => r.2.bits) = some (cellsOf [2, 2, 2]) ∧
    (P1.decode .mfm false (perfect (2 / 1000000) [2, 2, 2])).map (fun r => r.2.bits) = some (cellsOf [2, 1, 2]) :=
  ⟨_, _, rfl, rfl, rfl, rfl, by decide +kernel, by decide +kernel⟩

/-! ## C71 -/

theorem fm_bits (o : Output) (k : Nat) (d t : Rat) (b : Bool) : (o.fm k d t b).bits = (o.flux k).bits := by
  have e : ∀ (o : Output) (s : FluxStats), (({ o with stats := s } : Output).flux k).bits = (o.flux k).bits := by
    intro o s
    rcases Nat.eq_zero_or_pos k with rfl | hk
    · rfl
    · rw [flux_cells _ _ hk, flux_cells _ _ hk]
  unfold Output.fm
  simp only
  split <;> exact e _ _

theorem mag_le {x y : Rat} (h1 : x ≤ y) (h2 : -x ≤ y) : mag x ≤ y := by unfold mag; split <;> assumption

/-- One step of the FM decoder, in cells of length `p`. -/
theorem fm_step {p a w b r w' g : Rat} {last : Rat} (k n : Nat) (hp : 0 < p) (hw : 0 < w) (hk : k ≠ 0)
    (h1 : a + b + ((k : Rat) - 1) * w < n) (h2 : (n : Rat) ≤ a + b + k * w)
    (hg : g = 65 / 100 * ((n : Rat) - k * w) / w)
    (hc : clamp (w * p + g) (8 / 10 * p) (12 / 10 * p) = some (w' * p)) (hw' : 0 < w')
    (hr : r = if mag (n - k * w) > w' then frem (n - k * w) w' else n - k * w) :
    (FmClock.mk (last + a * p) last (w * p) (b * p)).step (65 / 100) (8 / 10 * p) (12 / 10 * p) (n * p) =
      some (k, FmClock.mk (last + n * p + (a + b + k * w - n) * p) (last + n * p) (w' * p) (r * p)) := by
  have ht : tick (w * p) (last + n * p) (last + a * p + b * p) = some (k, last + a * p + b * p + k * (w * p)) := by
    refine tick_exact k (mul_pos hw hp) (Or.inr ?_) ?_
    · have := mul_lt_mul_of_pos_right h1 hp
      linarith
    · have := mul_le_mul_of_nonneg_right h2 (le_of_lt hp)
      linarith
  have he : last + n * p - (last + k * (w * p)) = (n - k * w) * p := by linarith
  have hgg : 65 / 100 * ((n - k * w) * p) / (w * p) = g := by
    rw [hg, ← mul_assoc, mul_div_mul_right _ _ (ne_of_gt hp)]
  have hm : ∀ x : Rat, mag (x * p) = mag x * p := by
    intro x
    unfold mag
    by_cases hx : x < 0
    · rw [if_pos hx, if_pos (mul_neg_of_neg_of_pos hx hp)]; linarith
    · rw [if_neg hx, if_neg (by have := mul_nonneg (not_lt.1 hx) (le_of_lt hp); linarith)]
  have hf : ∀ x : Rat, frem (x * p) (w' * p) = frem x w' * p := by
    intro x
    unfold frem
    rw [show -(x * p) = (-x) * p by linarith, mul_div_mul_right _ _ (ne_of_gt hp), mul_div_mul_right _ _ (ne_of_gt hp)]
    by_cases hx : x < 0
    · rw [if_pos hx, if_pos (mul_neg_of_neg_of_pos hx hp)]; linarith
    · rw [if_neg hx, if_neg (by have := mul_nonneg (not_lt.1 hx) (le_of_lt hp); linarith)]; linarith
  unfold FmClock.step
  simp only [ht, Option.bind_eq_bind, Option.bind_some]
  rw [he, hgg, hc]
  simp only [Option.bind_some, Option.some.injEq, Prod.mk.injEq, FmClock.mk.injEq, true_and]
  have hT : last + a * p + b * p + k * (w * p) = last + n * p + (a + b + k * w - n) * p := by linarith
  refine ⟨hT, ?_⟩
  rw [hm, hf, hr]
  by_cases hgt : mag (n - k * w) > w'
  · rw [if_pos hgt, if_pos (mul_lt_mul_of_pos_right hgt hp)]
  · rw [if_neg hgt, if_neg (by
      have := mul_le_mul_of_nonneg_right (not_lt.1 hgt) (le_of_lt hp)
      linarith)]

/-- The states the FM decoder is in between fluxes of one or two cells. -/
def fmState (p last : Rat) : Fin 3 → FmClock
  | 0 => FmClock.mk (last + 5 / 10 * p) last (8 / 10 * p) (-2 / 10 * p)
  | 1 => FmClock.mk (last + 1 / 10 * p) last (12 / 10 * p) (2 / 10 * p)
  | 2 => FmClock.mk (last + 7 / 10 * p) last (8 / 10 * p) (-4 / 10 * p)

theorem clamp_low {x lo hi : Rat} (h : lo ≤ hi) (hx : x ≤ lo) : clamp x lo hi = some lo := by
  unfold clamp
  rw [if_neg (not_lt.2 h)]
  by_cases hl : x < lo
  · rw [if_pos hl]
  · have : x = lo := le_antisymm hx (not_lt.1 hl)
    subst this
    rw [if_neg hl, if_neg (not_lt.2 h)]

theorem clamp_high {x lo hi : Rat} (h : lo ≤ hi) (hx : hi ≤ x) : clamp x lo hi = some hi := by
  unfold clamp
  rw [if_neg (not_lt.2 h), if_neg (not_lt.2 (le_trans h hx))]
  by_cases hl : hi < x
  · rw [if_pos hl]
  · rw [if_neg hl, le_antisymm hx (not_lt.1 hl)]

/-- Whether the cell is narrow in a state. -/
def fmNarrow (i : Fin 3) : Bool := i != 1

theorem fmState_step {p last : Rat} (hp : 0 < p) (hp' : p ≤ 2 / 1000) (i : Fin 3) (k : Nat) (hk : k = 1 ∨ k = 2) :
    ∃ m i', (fmState p last i).step (65 / 100) (8 / 10 * p) (12 / 10 * p) (k * p) = some (m, fmState p (last + k * p) i') ∧
      1 ≤ m ∧ ∀ ks, fmSeen (fmNarrow i) (k :: ks) = m :: fmSeen (fmNarrow i') ks := by
  have hlh : 8 / 10 * p ≤ 12 / 10 * p := by linarith
  rcases hk with rfl | rfl <;>
    [(match i with
      | 0 =>
        refine ⟨1, 1, ?_, by omega, fun ks => rfl⟩
        have := fm_step (p := p) (a := 5 / 10) (w := 8 / 10) (b := -2 / 10) (r := 2 / 10) (w' := 12 / 10)
          (g := 65 / 100 * (2 / 10) / (8 / 10)) (last := last) 1 1 hp (by norm_num) (by norm_num) (by norm_num)
          (by norm_num) (by norm_num) (clamp_high hlh (by norm_num <;> linarith)) (by norm_num) (by decide +kernel)
        rw [show fmState p last 0 = FmClock.mk (last + 5 / 10 * p) last (8 / 10 * p) (-2 / 10 * p) from rfl, this]
        simp only [fmState]
        norm_num
      | 1 =>
        refine ⟨1, 0, ?_, by omega, fun ks => rfl⟩
        have := fm_step (p := p) (a := 1 / 10) (w := 12 / 10) (b := 2 / 10) (r := -2 / 10) (w' := 8 / 10)
          (g := 65 / 100 * (-2 / 10) / (12 / 10)) (last := last) 1 1 hp (by norm_num) (by norm_num) (by norm_num)
          (by norm_num) (by norm_num) (clamp_low hlh (by norm_num <;> linarith)) (by norm_num) (by decide +kernel)
        rw [show fmState p last 1 = FmClock.mk (last + 1 / 10 * p) last (12 / 10 * p) (2 / 10 * p) from rfl, this]
        simp only [fmState]
        norm_num
      | 2 =>
        refine ⟨1, 1, ?_, by omega, fun ks => rfl⟩
        have := fm_step (p := p) (a := 7 / 10) (w := 8 / 10) (b := -4 / 10) (r := 2 / 10) (w' := 12 / 10)
          (g := 65 / 100 * (2 / 10) / (8 / 10)) (last := last) 1 1 hp (by norm_num) (by norm_num) (by norm_num)
          (by norm_num) (by norm_num) (clamp_high hlh (by norm_num <;> linarith)) (by norm_num) (by decide +kernel)
        rw [show fmState p last 2 = FmClock.mk (last + 7 / 10 * p) last (8 / 10 * p) (-4 / 10 * p) from rfl, this]
        simp only [fmState]
        norm_num);
     (match i with
      | 0 =>
        refine ⟨3, 2, ?_, by omega, fun ks => rfl⟩
        have := fm_step (p := p) (a := 5 / 10) (w := 8 / 10) (b := -2 / 10) (r := -4 / 10) (w' := 8 / 10)
          (g := 65 / 100 * (-4 / 10) / (8 / 10)) (last := last) 3 2 hp (by norm_num) (by norm_num) (by norm_num)
          (by norm_num) (by norm_num) (clamp_low hlh (by norm_num <;> linarith)) (by norm_num) (by decide +kernel)
        rw [show fmState p last 0 = FmClock.mk (last + 5 / 10 * p) last (8 / 10 * p) (-2 / 10 * p) from rfl, this]
        simp only [fmState]
        norm_num
      | 1 =>
        refine ⟨2, 2, ?_, by omega, fun ks => rfl⟩
        have := fm_step (p := p) (a := 1 / 10) (w := 12 / 10) (b := 2 / 10) (r := -4 / 10) (w' := 8 / 10)
          (g := 65 / 100 * (-4 / 10) / (12 / 10)) (last := last) 2 2 hp (by norm_num) (by norm_num) (by norm_num)
          (by norm_num) (by norm_num) (clamp_low hlh (by norm_num <;> linarith)) (by norm_num) (by decide +kernel)
        rw [show fmState p last 1 = FmClock.mk (last + 1 / 10 * p) last (12 / 10 * p) (2 / 10 * p) from rfl, this]
        simp only [fmState]
        norm_num
      | 2 =>
        refine ⟨3, 2, ?_, by omega, fun ks => rfl⟩
        have := fm_step (p := p) (a := 7 / 10) (w := 8 / 10) (b := -4 / 10) (r := -4 / 10) (w' := 8 / 10)
          (g := 65 / 100 * (-4 / 10) / (8 / 10)) (last := last) 3 2 hp (by norm_num) (by norm_num) (by norm_num)
          (by norm_num) (by norm_num) (clamp_low hlh (by norm_num <;> linarith)) (by norm_num) (by decide +kernel)
        rw [show fmState p last 2 = FmClock.mk (last + 7 / 10 * p) last (8 / 10 * p) (-4 / 10 * p) from rfl, this]
        simp only [fmState]
        norm_num)]

theorem fmState_loop {p : Rat} (hp : 0 < p) (hp' : p ≤ 2 / 1000) : ∀ (ks : List Nat) (b : Bool) (i : Fin 3) (last : Rat)
    (o : Output), (∀ k ∈ ks, k = 1 ∨ k = 2) →
    ∃ c o', fmLoop (65 / 100) (8 / 10 * p) (12 / 10 * p) b (fmState p last i) o (perfect p ks) = some (c, o') ∧
      o'.bits = o.bits ++ cellsOf (fmSeen (fmNarrow i) ks) := by
  intro ks
  induction ks with
  | nil => intro b i last o _; exact ⟨_, _, rfl, by simp [cellsOf, fmSeen]⟩
  | cons k ks ih =>
    intro b i last o hks
    obtain ⟨m, i', hs, hm, hf⟩ := fmState_step (last := last) hp hp' i k (hks k (List.mem_cons_self))
    obtain ⟨c, o', h1, h2⟩ := ih false i' (last + k * p) (o.fm m (k * p) (fmState p (last + k * p) i').time b)
      (fun x hx => hks x (List.mem_cons_of_mem _ hx))
    refine ⟨c, o', ?_, ?_⟩
    · rw [show perfect p (k :: ks) = (k * p) :: perfect p ks from rfl, fmLoop]
      simp only [hs, Option.bind_eq_bind, Option.bind_some]
      exact h1
    · rw [h2, fm_bits, flux_cells _ _ hm, hf]
      simp [cellsOf]

/-- **C71, as far as it holds:** exactly what a new FM decoder makes of perfectly timed FM flux: the first interval
gets one cell too many, and a double interval is read as a triple one unless an odd number of single intervals lies
between it and the double interval before. -/
theorem C71_what_fm_reads_partial (rate : Rat) (hr : 1000 ≤ rate) (P : Pll) (hP : Pll.new.setClock rate none = some P)
    (en : Bool) (ks : List Nat) (hks : ∀ k ∈ ks, k = 1 ∨ k = 2) :
    ∃ P' o, P.decode .fm en (perfect (2 / rate) ks) = some (P', o) ∧ o.bits = cellsOf (fmSeenAll ks) := by
  have hr0 : (0 : Rat) < rate := by linarith
  have hp : 0 < 2 / rate := div_pos (by norm_num) hr0
  have hp' : 2 / rate ≤ 2 / 1000 := by
    rw [div_le_div_iff₀ hr0 (by norm_num)]; linarith
  unfold setClock at hP
  rw [if_pos (by linarith)] at hP
  cases hP
  simp only [decode, decodeFm, Option.getD_none]
  have e1 : 1 / rate * 2 = 2 / rate := by rw [div_mul_eq_mul_div]; norm_num
  rw [e1]
  simp only [show (Pll.new.maxAdjust) = 20 / 100 from rfl, show Pll.new.phaseGain = 65 / 100 from rfl]
  generalize 2 / rate = p at *
  have elo : p - p * (20 / 100) = 8 / 10 * p := by linarith
  have ehi : p + p * (20 / 100) = 12 / 10 * p := by linarith
  rw [elo, ehi]
  have hlh : 8 / 10 * p ≤ 12 / 10 * p := by linarith
  cases ks with
  | nil => exact ⟨_, _, rfl, rfl⟩
  | cons k ks =>
    have first : (FmClock.mk (-p / 2) 0 p 0).step (65 / 100) (8 / 10 * p) (12 / 10 * p) (k * p) =
        some (k + 1, fmState p (0 + k * p) 0) := by
      have hc0 : FmClock.mk (-p / 2) 0 p 0 = FmClock.mk (0 + (-1 / 2) * p) 0 (1 * p) (0 * p) := by
        congr 1 <;> linarith
      rw [hc0]
      rcases hks k (List.mem_cons_self) with rfl | rfl
      · rw [fm_step (p := p) (r := -2 / 10) (w' := 8 / 10) (g := 65 / 100 * (-1) / 1) 2 1 hp (by norm_num) (by norm_num)
          (by norm_num) (by norm_num) (by norm_num) (clamp_low hlh (by norm_num <;> linarith)) (by norm_num) (by decide +kernel)]
        simp only [fmState]
        norm_num
      · rw [fm_step (p := p) (r := -2 / 10) (w' := 8 / 10) (g := 65 / 100 * (-1) / 1) 3 2 hp (by norm_num) (by norm_num)
          (by norm_num) (by norm_num) (by norm_num) (clamp_low hlh (by norm_num <;> linarith)) (by norm_num) (by decide +kernel)]
        simp only [fmState]
        norm_num
    obtain ⟨c, o', h1, h2⟩ := fmState_loop hp hp' ks false 0 (0 + k * p)
      (Output.fm { stats := { total := (perfect p (k :: ks)).length } } (k + 1) (k * p) (fmState p (0 + k * p) 0).time true)
      (fun x hx => hks x (List.mem_cons_of_mem _ hx))
    have hl : ∀ o, fmLoop (65 / 100) (8 / 10 * p) (12 / 10 * p) true (FmClock.mk (-p / 2) 0 p 0) o (perfect p (k :: ks)) =
        fmLoop (65 / 100) (8 / 10 * p) (12 / 10 * p) false (fmState p (0 + k * p) 0)
          (o.fm (k + 1) (k * p) (fmState p (0 + k * p) 0).time true) (perfect p ks) := by
      intro o
      rw [show perfect p (k :: ks) = (k * p) :: perfect p ks from rfl, fmLoop]
      simp only [first, Option.bind_eq_bind, Option.bind_some]
    rw [hl, h1]
    refine ⟨_, o', rfl, ?_⟩
    rw [h2, fm_bits, flux_cells _ _ (by omega)]
    simp [cellsOf, fmSeenAll, fmNarrow]

theorem fmSeen_zeros (n : Nat) : fmSeen true (List.replicate n 2) = List.replicate n 3 := by
  induction n with
  | zero => rfl
  | succ n ih => rw [List.replicate_succ, List.replicate_succ, fmSeen, if_neg (by omega), if_pos rfl, ih]

/-- **C71 does not hold as stated:** however long a run of FM zeros is (the filler that the decoder should lock on to),
every double interval of it is read as a triple one, on flux with perfect timing at the decoder's own clock. -/
theorem C71_false_zeros (rate : Rat) (hr : 1000 ≤ rate) (P : Pll) (hP : Pll.new.setClock rate none = some P)
    (en : Bool) (n : Nat) :
    ∃ P' o, P.decode .fm en (perfect (2 / rate) (List.replicate n 2)) = some (P', o) ∧
      o.bits = cellsOf (List.replicate n 3) := by
  obtain ⟨P', o, h1, h2⟩ := C71_what_fm_reads_partial rate hr P hP en (List.replicate n 2)
    (fun k hk => Or.inr (List.eq_of_mem_replicate hk))
  refine ⟨P', o, h1, ?_⟩
  rw [h2]
  cases n with
  | zero => rfl
  | succ n => rw [List.replicate_succ, fmSeenAll, fmSeen_zeros, List.replicate_succ]

/-- **C71:** a run of FM ones is read right, but for a zero put before it. -/
theorem C71_ones_partial (rate : Rat) (hr : 1000 ≤ rate) (P : Pll) (hP : Pll.new.setClock rate none = some P)
    (en : Bool) (n : Nat) :
    ∃ P' o, P.decode .fm en (perfect (2 / rate) (List.replicate (n + 1) 1)) = some (P', o) ∧
      o.bits = false :: cellsOf (List.replicate (n + 1) 1) := by
  obtain ⟨P', o, h1, h2⟩ := C71_what_fm_reads_partial rate hr P hP en (List.replicate (n + 1) 1)
    (fun k hk => Or.inl (List.eq_of_mem_replicate hk))
  refine ⟨P', o, h1, ?_⟩
  have : ∀ n b, fmSeen b (List.replicate n 1) = List.replicate n 1 := by
    intro n
    induction n with
    | zero => intro b; rfl
    | succ n ih => intro b; rw [List.replicate_succ, fmSeen, if_pos rfl, ih]
  rw [h2, List.replicate_succ, fmSeenAll, this]
  simp [cellsOf]

/-- Example: an FM byte `0xA1` after some zeros, at 500 kHz. -/
example : ∃ P P' o, Pll.new.setClock 500000 none = some P ∧
    P.decode .fm false (perfect (2 / 500000) [2, 2, 1, 1, 2, 1, 1, 2, 2, 2]) = some (P', o) ∧
    o.bits = cellsOf [3, 3, 1, 1, 3, 1, 1, 3, 3, 3] := by
  obtain ⟨P', o, h1, h2⟩ := C71_what_fm_reads_partial 500000 (by norm_num) _ rfl false [2, 2, 1, 1, 2, 1, 1, 2, 2, 2]
    (by decide)
  exact ⟨_, P', o, rfl, h1, h2⟩

end Fox
