import Verif.Proofs.Histogram
import Verif.Proofs.BitLoad
import Verif.Proofs.Pri
import Verif.Props.PllRun
/-
C73: the clock of a flux track is found.  C74: the same for extended density.  C75: revolutions.
-/
namespace Fox
open Fox.Spec Fox.Pll Fox.Flux

/-! ## C73 -/

theorem about_peak {q c : Rat} (h1 : 256 / 1000000000 ≤ q) (h : About q c) :
    mag ((peakTime q / 2 - c) / c) < 25 / 100 := by
  obtain ⟨p1, p2⟩ := peakTime_near h1
  obtain ⟨a1, a2⟩ := h
  have hc : 0 < c := by linarith
  have u : (peakTime q / 2 - c) / c < 25 / 100 := by rw [div_lt_iff₀ hc]; linarith
  have l : -(25 / 100) < (peakTime q / 2 - c) / c := by rw [lt_div_iff₀ hc]; linarith
  unfold mag
  split <;> linarith

theorem round_part (n : Nat) : round ((n : Rat) * (2 / 100)) = (2 * n + 50) / 100 := by
  unfold round
  have : ((n : Rat) * (2 / 100) + 1 / 2).floor = (((2 * n + 50) / 100 : Nat) : Int) := by
    have h1 := Nat.div_add_mod (2 * n + 50) 100
    have h2 := Nat.mod_lt (2 * n + 50) (show 0 < 100 by omega)
    have h1' : (100 : Rat) * ((2 * n + 50) / 100 : Nat) + ((2 * n + 50) % 100 : Nat) = 2 * n + 50 := by exact_mod_cast h1
    have h2' : (((2 * n + 50) % 100 : Nat) : Rat) + 1 ≤ 100 := by exact_mod_cast h2
    have h0 : (0 : Rat) ≤ (((2 * n + 50) % 100 : Nat) : Rat) := by exact_mod_cast Nat.zero_le _
    generalize (2 * n + 50) / 100 = m at *
    generalize (((2 * n + 50) % 100 : Nat) : Rat) = r at *
    apply le_antisymm
    · have : ((n : Rat) * (2 / 100) + 1 / 2).floor < (m : Int) + 1 := by
        rw [Rat.floor_lt_iff]; push_cast; linarith
      omega
    · rw [Rat.le_floor_iff]; push_cast; linarith
  rw [this]; rfl

theorem round_one (n : Nat) : round ((n : Rat) * 1) = n := by
  unfold round
  have : ((n : Rat) * 1 + 1 / 2).floor = (n : Int) := by
    apply le_antisymm
    · have : ((n : Rat) * 1 + 1 / 2).floor < (n : Int) + 1 := by
        rw [Rat.floor_lt_iff]; push_cast; linarith
      omega
    · rw [Rat.le_floor_iff]; push_cast; linarith
  rw [this]; rfl

/-- The clock that is found, if the guess is about right. -/
theorem clock_found {q : Rat} (h1 : 256 / 1000000000 ≤ q) (h2 : q ≤ 38 / 10000000) {ks : List Nat}
    (hk : ∀ k ∈ ks, 2 ≤ k ∧ k ≤ 4) (hm : Mixed (firstPart ks)) (hint : Option Rat) (rpm : Option Rpm) (r : Rev)
    (hr : r.deltas = perfect q ks) (hb : baseClock hint rpm r = peakTime q / 2 ∨ About q (baseClock hint rpm r)) :
    clockOf hint rpm r = peakTime q / 2 := by
  have hp := peak_perfect h1 h2 (2 / 100) ks hk (by rw [round_part]; exact hm)
  unfold clockOf
  rw [hr, hp]
  simp only
  rcases hb with hb | hb
  · rw [hb]; split <;> rfl
  · rw [if_pos (about_peak h1 hb)]

/-- Decoding with the clock that is found. -/
theorem decode_found {q : Rat} (h1 : 256 / 1000000000 ≤ q) (h2 : q ≤ 38 / 10000000) {ks : List Nat}
    (hk : ∀ k ∈ ks, 2 ≤ k ∧ k ≤ 4) (hl : LooksMfm ks) (hint : Option Rat) (rpm : Option Rpm) (r : Rev)
    (hr : r.deltas = perfect q ks) (hre : r.encoding = .mfm) (hc : clockOf hint rpm r = peakTime q / 2) :
    ∃ r', r.decode hint rpm = some r' ∧ r'.bits = Spec.cellsOf ks ∧ r'.encoding = .mfm := by
  obtain ⟨p1, p2⟩ := peakTime_near h1
  have hc0 : 0 < peakTime q / 2 := by linarith
  have hrate : 1 / (peakTime q / 2) > 1 := by
    rw [gt_iff_lt, lt_div_iff₀ hc0]; linarith
  unfold Rev.decode
  rw [hc]
  obtain ⟨P, hP⟩ : ∃ P, Pll.new.setClock (1 / (peakTime q / 2)) none = some P := by
    unfold setClock; rw [if_pos hrate]; exact ⟨_, rfl⟩
  have e : 1 / (1 / (peakTime q / 2)) = peakTime q / 2 := one_div_one_div _
  obtain ⟨P', o, d1, d2, d3⟩ := C67_speed _ P hP q (by linarith) (by rw [e]; exact p1) (by rw [e]; exact p2) ks hk false
  simp only [hP, Option.bind_eq_bind, Option.bind_some]
  unfold Rev.decodeDirect
  rw [hr]
  simp only [d1, Option.bind_eq_bind, Option.bind_some]
  have hno : ¬ (o.markers = [] ∧ o.stats.detectEncoding = .fm) := by
    rintro ⟨m1, m2⟩
    rcases hl with hl | ⟨n, hn⟩
    · unfold FluxStats.detectEncoding at m2
      obtain ⟨s1, s2, s3, s4⟩ := d3
      have hpos : (0 : Rat) < o.stats.total := by
        rw [s1]
        have : 0 < ks.length := by
          rcases Nat.eq_zero_or_pos ks.length with h0 | h0
          · rw [List.length_eq_zero_iff.1 h0] at hl; simp [times] at hl
          · exact h0
        exact_mod_cast this
      rw [if_pos] at m2
      · cases m2
      · rw [gt_iff_lt, lt_div_iff₀ hpos, s1, s3]
        have : (ks.length : Rat) < 20 * (times 3 ks : Nat) := by exact_mod_cast hl
        linarith
    · have hn32 : 32 ≤ n := by have := hn.1.1; omega
      rw [← d2] at hn
      obtain ⟨m, hm, _⟩ := C68_marks_are_found P P' false _ o d1 (n - 32) (by rw [Nat.sub_add_cancel hn32]; exact hn)
      rw [m1] at hm
      cases hm
  rw [if_neg hno]
  exact ⟨_, rfl, d2, hre⟩

/-- **C73.** MFM flux with even timing, of cells between 256 ns and 3.8 us, is decoded to exactly its cells with no
hint at all, if its first two percent show short intervals and others, and the number of transitions is not
misleading; where it is no help (below 20000, or 41666 to 49999), if the whole revolution shows both. -/
theorem C73_no_hints (q : Rat) (h1 : 256 / 1000000000 ≤ q) (h2 : q ≤ 38 / 10000000) (ks : List Nat)
    (hk : ∀ k ∈ ks, 2 ≤ k ∧ k ≤ 4) (hl : LooksMfm ks) (hm : Mixed (firstPart ks)) (t : Rat)
    (he : Expected q ks.length t)
    (ha : (ks.length < 20000 ∨ 41666 ≤ ks.length ∧ ks.length < 50000) → Mixed ks) (ch : Ch) :
    ∃ r, (Rev.ofDeltas ch (perfect q ks) t).decode none none = some r ∧ r.bits = Spec.cellsOf ks ∧ r.encoding = .mfm := by
  refine decode_found h1 h2 hk hl none none _ rfl rfl (clock_found h1 h2 hk hm none none _ rfl ?_)
  have hn : (Rev.ofDeltas ch (perfect q ks) t).deltas.length = ks.length := by
    show (perfect q ks).length = _; unfold perfect; rw [List.length_map]
  unfold baseClock guessClock
  rw [hn]
  simp only
  by_cases g1 : 20000 ≤ ks.length ∧ ks.length < 41666
  · rw [if_pos g1]
    right
    have hh := he.1 g1.1 g1.2
    show About q ((guessRpm none t).adjustClock (2 / 1000000))
    unfold guessRpm
    simp only [Option.getD_none]
    by_cases r3 : 255 ≤ 60 / t ∧ 60 / t < 345
    · rw [if_pos r3]
      rw [if_neg (by rintro ⟨a, _⟩; linarith [r3.2])] at hh
      show About q (2 / 1000000)
      convert hh using 1
      norm_num
    · rw [if_neg r3]
      by_cases r6 : 345 ≤ 60 / t ∧ 60 / t < 414
      · rw [if_pos r6]
        rw [if_pos r6] at hh
        show About q (if 15 / 10000000 ≤ (2 : Rat) / 1000000 then 2 / 1000000 * (300 / 360) else 2 / 1000000)
        rw [if_pos (by norm_num)]
        convert hh using 1
        norm_num
      · rw [if_neg r6]
        rw [if_neg r6] at hh
        have : (Rpm.ofIndexTime t).getD (.r300 1) = .r300 1 := by
          unfold Rpm.ofIndexTime
          simp only
          rw [if_neg, if_neg]
          · rfl
          · rintro ⟨a, b⟩
            rcases lt_or_ge (60 / t) 345 with h | h
            · exact r3 ⟨by linarith, h⟩
            · exact r6 ⟨h, b⟩
          · rintro ⟨a, b⟩
            exact r3 ⟨by linarith, by linarith⟩
        rw [this]
        show About q (2 / 1000000)
        convert hh using 1
        norm_num
  · rw [if_neg g1]
    by_cases g2 : 50000 ≤ ks.length
    · rw [if_pos g2]
      right
      have hh := he.2 g2
      show About q ((guessRpm none t).adjustClock (1 / 1000000))
      have : (guessRpm none t).adjustClock (1 / 1000000) = 1 / 1000000 := by
        generalize guessRpm none t = R
        cases R <;> simp only [Rpm.adjustClock]
        rw [if_neg (by norm_num)]
      rw [this]
      exact hh
    · rw [if_neg g2]
      left
      show (match baseTransitionTime (histogram (perfect q ks) 1) with | some t => t / 2 | none => 2 / 1000000) = _
      rw [peak_perfect h1 h2 1 ks hk (by rw [round_one, List.take_length]; exact ha (by omega))]

/-- **C73, with a hint.** A clock hint does it as well, for a disk that turns at 300 rpm or cells below 1.5 us. -/
theorem C73_hint (q : Rat) (h1 : 256 / 1000000000 ≤ q) (h2 : q ≤ 38 / 10000000) (ks : List Nat)
    (hk : ∀ k ∈ ks, 2 ≤ k ∧ k ≤ 4) (hl : LooksMfm ks) (hm : Mixed (firstPart ks)) (t c : Rat) (hc : About q c)
    (ht : c < 15 / 10000000 ∨ 255 ≤ 60 / t ∧ 60 / t < 345) (rpm : Option Rpm) (ch : Ch) :
    ∃ r, (Rev.ofDeltas ch (perfect q ks) t).decode (some c) rpm = some r ∧ r.bits = Spec.cellsOf ks ∧
      r.encoding = .mfm := by
  refine decode_found h1 h2 hk hl (some c) rpm _ rfl rfl (clock_found h1 h2 hk hm (some c) rpm _ rfl (Or.inr ?_))
  have : baseClock (some c) rpm (Rev.ofDeltas ch (perfect q ks) t) = c := by
    show (guessRpm rpm t).adjustClock c = c
    rcases ht with ht | ht
    · generalize guessRpm rpm t = R
      cases R <;> simp only [Rpm.adjustClock]
      rw [if_neg (by linarith)]
    · unfold guessRpm
      simp only
      rw [if_pos ht]
      rfl
  rw [this]
  exact hc

theorem length_sum {ks : List Nat} (hk : ∀ k ∈ ks, 2 ≤ k ∧ k ≤ 4) : 2 * ks.length ≤ ks.sum ∧ ks.sum ≤ 4 * ks.length := by
  induction ks with
  | nil => simp
  | cons k ks ih =>
    have := ih (fun x hx => hk x (List.mem_cons_of_mem _ hx))
    have := hk k List.mem_cons_self
    simp only [List.sum_cons, List.length_cons]
    omega

/-- **C73 for double density.** A track of less than 100000 cells of about 2 us, at 300 rpm, is decoded exactly with no
hint. -/
theorem C73_double_density (q : Rat) (hq : About q (1 / 500000)) (ks : List Nat) (hk : ∀ k ∈ ks, 2 ≤ k ∧ k ≤ 4)
    (hs : ks.sum < 100000) (hl : LooksMfm ks) (hm : Mixed (firstPart ks)) (hw : Mixed ks) (t : Rat)
    (ht : 255 ≤ 60 / t ∧ 60 / t < 345) (ch : Ch) :
    ∃ r, (Rev.ofDeltas ch (perfect q ks) t).decode none none = some r ∧ r.bits = Spec.cellsOf ks ∧ r.encoding = .mfm := by
  have := length_sum hk
  refine C73_no_hints q (by linarith [hq.1]) (by linarith [hq.2]) ks hk hl hm t ⟨fun _ _ => ?_, fun h => by omega⟩ (fun _ => hw) ch
  rw [if_neg (by rintro ⟨a, _⟩; linarith [ht.2])]
  exact hq

/-- **C73 for high density.** A track of at least 200000 cells of about 1 us is decoded exactly with no hint. -/
theorem C73_high_density (q : Rat) (hq : About q (1 / 1000000)) (ks : List Nat) (hk : ∀ k ∈ ks, 2 ≤ k ∧ k ≤ 4)
    (hs : 200000 ≤ ks.sum) (hl : LooksMfm ks) (hm : Mixed (firstPart ks)) (t : Rat) (ch : Ch) :
    ∃ r, (Rev.ofDeltas ch (perfect q ks) t).decode none none = some r ∧ r.bits = Spec.cellsOf ks ∧ r.encoding = .mfm := by
  have := length_sum hk
  exact C73_no_hints q (by linarith [hq.1]) (by linarith [hq.2]) ks hk hl hm t ⟨fun h h' => by omega, fun _ => hq⟩
    (fun h => by omega) ch

/-- Not vacuous: 300 intervals of a double density disk that turns 4 % too slow. -/
example : ∃ r, (Rev.ofDeltas ⟨0, 0⟩ (perfect (208 / 100000000) ((List.replicate 100 [2, 3, 4]).flatten)) (208 / 1000)).decode none none =
    some r ∧ r.bits = Spec.cellsOf ((List.replicate 100 [2, 3, 4]).flatten) := by
  obtain ⟨r, a, b, _⟩ := C73_double_density (208 / 100000000) (by unfold About; decide +kernel)
    ((List.replicate 100 [2, 3, 4]).flatten) (by decide +kernel) (by decide +kernel) (Or.inl (by decide +kernel))
    (by decide +kernel) (by decide +kernel) (208 / 1000) (by decide +kernel) ⟨0, 0⟩
  exact ⟨r, a, b⟩

/-! ## C74 -/

theorem flux_bits_mono (o : Output) (k : Nat) : ∃ l, (o.flux k).bits = o.bits ++ l := by
  rcases Nat.eq_zero_or_pos k with rfl | h
  · exact ⟨[], by simp [Output.flux]⟩
  · exact ⟨_, flux_cells _ _ h⟩

theorem mfmLoop_mono (en : Bool) (lo hi : Rat) : ∀ (ds : List Rat) (b : Bool) (c : MfmClock) (o : Output) (r : MfmClock × Output),
    mfmLoop en lo hi b c o ds = some r → ∃ l, r.2.bits = o.bits ++ l := by
  intro ds
  induction ds with
  | nil =>
    intro b c o r h
    unfold mfmLoop at h
    cases h
    exact ⟨[], by simp⟩
  | cons d ds ih =>
    intro b c o r h
    rw [mfmLoop] at h
    cases hs : c.step lo hi d with
    | none => rw [hs] at h; cases h
    | some x =>
      rw [hs] at h
      obtain ⟨l, hl⟩ := ih _ _ _ _ h
      obtain ⟨l', hl'⟩ := flux_bits_mono o x.1
      rw [mfm_bits, hl'] at hl
      exact ⟨l' ++ l, by rw [hl, List.append_assoc]⟩

theorem fmLoop_mono (g lo hi : Rat) : ∀ (ds : List Rat) (b : Bool) (c : FmClock) (o : Output) (r : FmClock × Output),
    fmLoop g lo hi b c o ds = some r → ∃ l, r.2.bits = o.bits ++ l := by
  intro ds
  induction ds with
  | nil =>
    intro b c o r h
    unfold fmLoop at h
    cases h
    exact ⟨[], by simp⟩
  | cons d ds ih =>
    intro b c o r h
    rw [fmLoop] at h
    cases hs : c.step g lo hi d with
    | none => rw [hs] at h; cases h
    | some x =>
      rw [hs] at h
      obtain ⟨l, hl⟩ := ih _ _ _ _ h
      obtain ⟨l', hl'⟩ := flux_bits_mono o x.1
      rw [fm_bits, hl'] at hl
      exact ⟨l' ++ l, by rw [hl, List.append_assoc]⟩

/-- A first interval read too short makes the bits wrong. -/
theorem bits_differ {k k' : Nat} (h1 : 1 ≤ k') (h : k' < k) (ks : List Nat) (l : List Bool) :
    (List.replicate (k' - 1) false ++ [true]) ++ l ≠ Spec.cellsOf (k :: ks) := by
  intro e
  have e1 : ((List.replicate (k' - 1) false ++ [true]) ++ l)[k' - 1]? = some true := by
    rw [List.getElem?_append_left (by simp), List.getElem?_append_right (by simp)]
    simp
  have e2 : (Spec.cellsOf (k :: ks))[k' - 1]? = some false := by
    unfold Spec.cellsOf
    rw [List.flatMap_cons, List.getElem?_append_left (by simp; omega), List.getElem?_append_left (by simp; omega)]
    rw [List.getElem?_replicate, if_pos (by omega)]
  rw [e, e2] at e1
  cases e1

theorem fst_some {α : Type} {x : Option (Nat × α)} {n : Nat} (h : x.map Prod.fst = some n) : ∃ c, x = some (n, c) := by
  cases x with
  | none => cases h
  | some y => cases y; cases h; exact ⟨_, rfl⟩

/-- The decoder with a clock of 1 us. -/
def pllHd : Pll := { Pll.new with defaultRate := 1000000, rate := 1000000, period := 1 / 1000000, working := 1 / 1000000 }

theorem ed_mfm (k : Nat) (hk : 2 ≤ k ∧ k ≤ 4) (ks : List Nat) (P : Pll) (o : Output)
    (h : pllHd.decode .mfm false (perfect (1 / 2000000) (k :: ks)) = some (P, o)) :
    o.bits ≠ Spec.cellsOf (k :: ks) ∧ P.period = 1 / 1000000 ∧ P.maxAdjust = 20 / 100 ∧ P.phaseGain = 65 / 100 := by
  have h : pllHd.decodeMfm false ((k : Rat) * (1 / 2000000) :: perfect (1 / 2000000) ks) = some (P, o) := h
  unfold decodeMfm at h
  simp only at h
  rw [mfmLoop] at h
  have hst : ∃ k' c, (MfmClock.step (pllHd.working - pllHd.working * pllHd.maxAdjust)
      (pllHd.working + pllHd.working * pllHd.maxAdjust)
      { time := pllHd.period / 2, last := 0, working := pllHd.period, phaseErr := 0, phaseAdj := 0, gate := 0 }
      ((k : Rat) * (1 / 2000000))) = some (k', c) ∧ 1 ≤ k' ∧ k' < k := by
    have : k = 2 ∨ k = 3 ∨ k = 4 := by omega
    rcases this with rfl | rfl | rfl
    · obtain ⟨c, hc⟩ := fst_some (x := MfmClock.step (pllHd.working - pllHd.working * pllHd.maxAdjust)
        (pllHd.working + pllHd.working * pllHd.maxAdjust)
        { time := pllHd.period / 2, last := 0, working := pllHd.period, phaseErr := 0, phaseAdj := 0, gate := 0 }
        (((2 : Nat) : Rat) * (1 / 2000000))) (n := 1) (by decide +kernel)
      exact ⟨1, c, hc, by omega, by omega⟩
    · obtain ⟨c, hc⟩ := fst_some (x := MfmClock.step (pllHd.working - pllHd.working * pllHd.maxAdjust)
        (pllHd.working + pllHd.working * pllHd.maxAdjust)
        { time := pllHd.period / 2, last := 0, working := pllHd.period, phaseErr := 0, phaseAdj := 0, gate := 0 }
        (((3 : Nat) : Rat) * (1 / 2000000))) (n := 1) (by decide +kernel)
      exact ⟨1, c, hc, by omega, by omega⟩
    · obtain ⟨c, hc⟩ := fst_some (x := MfmClock.step (pllHd.working - pllHd.working * pllHd.maxAdjust)
        (pllHd.working + pllHd.working * pllHd.maxAdjust)
        { time := pllHd.period / 2, last := 0, working := pllHd.period, phaseErr := 0, phaseAdj := 0, gate := 0 }
        (((4 : Nat) : Rat) * (1 / 2000000))) (n := 2) (by decide +kernel)
      exact ⟨2, c, hc, by omega, by omega⟩
  obtain ⟨k', c, hs, h1, h2⟩ := hst
  rw [hs] at h
  simp only [Option.bind_eq_bind, Option.bind_some] at h
  cases hr : mfmLoop false (pllHd.working - pllHd.working * pllHd.maxAdjust)
      (pllHd.working + pllHd.working * pllHd.maxAdjust) false c
      (Output.mfm false { stats := { total := ((k : Rat) * (1 / 2000000) :: perfect (1 / 2000000) ks).length } } k'
        ((k : Rat) * (1 / 2000000)) c.time true) (perfect (1 / 2000000) ks) with
  | none => rw [hr] at h; cases h
  | some r =>
    rw [hr] at h
    obtain ⟨l, hl⟩ := mfmLoop_mono _ _ _ _ _ _ _ _ hr
    rw [mfm_bits, flux_cells _ _ h1] at hl
    simp only [Option.bind_some, Option.some.injEq, Prod.mk.injEq] at h
    obtain ⟨rfl, rfl⟩ := h
    refine ⟨?_, rfl, rfl, rfl⟩
    rw [hl]
    exact bits_differ h1 h2 ks l

theorem ed_fm (k : Nat) (hk : 2 ≤ k ∧ k ≤ 4) (ks : List Nat) (Q P : Pll) (o : Output)
    (hQ : Q.period = 1 / 1000000 ∧ Q.maxAdjust = 20 / 100 ∧ Q.phaseGain = 65 / 100)
    (h : Q.decode .fm false (perfect (1 / 2000000) (k :: ks)) = some (P, o)) : o.bits ≠ Spec.cellsOf (k :: ks) := by
  have h : Q.decodeFm ((k : Rat) * (1 / 2000000) :: perfect (1 / 2000000) ks) = some (P, o) := h
  unfold decodeFm at h
  simp only [hQ.1, hQ.2.1, hQ.2.2] at h
  rw [fmLoop] at h
  have hst : ∃ k' c, (FmClock.step (65 / 100) (1 / 1000000 * 2 - 1 / 1000000 * 2 * (20 / 100))
      (1 / 1000000 * 2 + 1 / 1000000 * 2 * (20 / 100))
      { time := -(1 / 1000000 * 2) / 2, last := 0, working := 1 / 1000000 * 2, acc := 0 }
      ((k : Rat) * (1 / 2000000))) = some (k', c) ∧ 1 ≤ k' ∧ k' < k := by
    have : k = 2 ∨ k = 3 ∨ k = 4 := by omega
    rcases this with rfl | rfl | rfl
    · obtain ⟨c, hc⟩ := fst_some (x := FmClock.step (65 / 100) (1 / 1000000 * 2 - 1 / 1000000 * 2 * (20 / 100))
        (1 / 1000000 * 2 + 1 / 1000000 * 2 * (20 / 100))
        { time := -(1 / 1000000 * 2) / 2, last := 0, working := 1 / 1000000 * 2, acc := 0 }
        (((2 : Nat) : Rat) * (1 / 2000000))) (n := 1) (by decide +kernel)
      exact ⟨1, c, hc, by omega, by omega⟩
    · obtain ⟨c, hc⟩ := fst_some (x := FmClock.step (65 / 100) (1 / 1000000 * 2 - 1 / 1000000 * 2 * (20 / 100))
        (1 / 1000000 * 2 + 1 / 1000000 * 2 * (20 / 100))
        { time := -(1 / 1000000 * 2) / 2, last := 0, working := 1 / 1000000 * 2, acc := 0 }
        (((3 : Nat) : Rat) * (1 / 2000000))) (n := 2) (by decide +kernel)
      exact ⟨2, c, hc, by omega, by omega⟩
    · obtain ⟨c, hc⟩ := fst_some (x := FmClock.step (65 / 100) (1 / 1000000 * 2 - 1 / 1000000 * 2 * (20 / 100))
        (1 / 1000000 * 2 + 1 / 1000000 * 2 * (20 / 100))
        { time := -(1 / 1000000 * 2) / 2, last := 0, working := 1 / 1000000 * 2, acc := 0 }
        (((4 : Nat) : Rat) * (1 / 2000000))) (n := 2) (by decide +kernel)
      exact ⟨2, c, hc, by omega, by omega⟩
  obtain ⟨k', c, hs, h1, h2⟩ := hst
  rw [hs] at h
  simp only [Option.bind_eq_bind, Option.bind_some] at h
  cases hr : fmLoop (65 / 100) (1 / 1000000 * 2 - 1 / 1000000 * 2 * (20 / 100))
      (1 / 1000000 * 2 + 1 / 1000000 * 2 * (20 / 100)) false c
      (Output.fm { stats := { total := ((k : Rat) * (1 / 2000000) :: perfect (1 / 2000000) ks).length } } k'
        ((k : Rat) * (1 / 2000000)) c.time true) (perfect (1 / 2000000) ks) with
  | none => rw [hr] at h; cases h
  | some r =>
    rw [hr] at h
    obtain ⟨l, hl⟩ := fmLoop_mono _ _ _ _ _ _ _ _ hr
    rw [fm_bits, flux_cells _ _ h1] at hl
    simp only [Option.bind_some, Option.some.injEq, Prod.mk.injEq] at h
    obtain ⟨rfl, rfl⟩ := h
    rw [hl]
    exact bits_differ h1 h2 ks l

/-- **C74 does not hold as stated:** every extended density track (cells of 0.5 us) of 50000 transitions and more whose
first two percent show short and other intervals is decoded wrongly if there is no hint: the clock found in
the histogram is rejected in favour of the 1 us that the number of transitions suggests. -/
theorem C74_false_no_hint (ks : List Nat) (hk : ∀ k ∈ ks, 2 ≤ k ∧ k ≤ 4) (hn : 50000 ≤ ks.length)
    (hm : Mixed (firstPart ks)) (t : Rat) (ch : Ch) :
    ∃ r, (Rev.ofDeltas ch (perfect (1 / 2000000) ks) t).decode none none = some r ∧ r.bits ≠ Spec.cellsOf ks := by
  have hlen : (Rev.ofDeltas ch (perfect (1 / 2000000) ks) t).deltas.length = ks.length := by
    show (perfect (1 / 2000000) ks).length = _; unfold perfect; rw [List.length_map]
  have hbase : baseClock none none (Rev.ofDeltas ch (perfect (1 / 2000000) ks) t) = 1 / 1000000 := by
    unfold baseClock guessClock
    rw [hlen]
    simp only
    rw [if_neg (by omega), if_pos hn]
    simp only
    generalize guessRpm none _ = R
    cases R <;> simp only [Rpm.adjustClock]
    rw [if_neg (by norm_num)]
  have hclock : clockOf none none (Rev.ofDeltas ch (perfect (1 / 2000000) ks) t) = 1 / 1000000 := by
    unfold clockOf
    rw [hbase]
    have hp := peak_perfect (q := 1 / 2000000) (by norm_num) (by norm_num) (2 / 100) ks hk (by rw [round_part]; exact hm)
    rw [show (Rev.ofDeltas ch (perfect (1 / 2000000) ks) t).deltas = perfect (1 / 2000000) ks from rfl, hp]
    simp only
    rw [if_neg]
    obtain ⟨p1, p2⟩ := peakTime_near (q := 1 / 2000000) (by norm_num)
    have hlt : (peakTime (1 / 2000000) / 2 - 1 / 1000000) / (1 / 1000000) < -(25 / 100) := by
      rw [div_lt_iff₀ (by norm_num)]; linarith
    unfold mag
    rw [if_pos (by linarith)]
    linarith
  cases ks with
  | nil => simp at hn
  | cons k ks =>
    have hk0 := hk k List.mem_cons_self
    unfold Rev.decode
    rw [hclock]
    have hset : Pll.new.setClock (1 / (1 / 1000000)) none = some pllHd := by decide +kernel
    rw [hset]
    simp only [Option.bind_eq_bind, Option.bind_some]
    have hU : Used pllHd := .set (1 / (1 / 1000000)) none .new (fun a h => by cases h) hset
    unfold Rev.decodeDirect
    rw [show (Rev.ofDeltas ch (perfect (1 / 2000000) (k :: ks)) t).deltas = perfect (1 / 2000000) (k :: ks) from rfl]
    obtain ⟨⟨P, o⟩, hd⟩ := C69_always_ends pllHd hU .mfm false (perfect (1 / 2000000) (k :: ks))
    obtain ⟨a1, a2⟩ := ed_mfm k hk0 ks P o hd
    simp only [hd, Option.bind_eq_bind, Option.bind_some]
    by_cases hc : o.markers = [] ∧ o.stats.detectEncoding = .fm
    · rw [if_pos hc]
      obtain ⟨⟨P', f⟩, hf⟩ := C69_always_ends P (.decode hU hd) .fm false (perfect (1 / 2000000) (k :: ks))
      have a3 := ed_fm k hk0 ks P P' f a2 hf
      simp only [hf, Option.bind_some]
      by_cases hfm : f.markers = []
      · rw [if_pos hfm]; exact ⟨_, rfl, a1⟩
      · rw [if_neg hfm]; exact ⟨_, rfl, a3⟩
    · rw [if_neg hc]
      exact ⟨_, rfl, a1⟩

/-- **C74 with a hint:** a clock hint of about 0.5 us makes it right. -/
theorem C74_with_hint_partial (c : Rat) (hc : About (1 / 2000000) c) (ks : List Nat) (hk : ∀ k ∈ ks, 2 ≤ k ∧ k ≤ 4)
    (hl : LooksMfm ks) (hm : Mixed (firstPart ks)) (t : Rat) (rpm : Option Rpm) (ch : Ch) :
    ∃ r, (Rev.ofDeltas ch (perfect (1 / 2000000) ks) t).decode (some c) rpm = some r ∧ r.bits = Spec.cellsOf ks := by
  obtain ⟨r, a, b, _⟩ := C73_hint (1 / 2000000) (by norm_num) (by norm_num) ks hk hl hm t c hc
    (Or.inl (by linarith [hc.1])) rpm ch
  exact ⟨r, a, b⟩

/-- Not vacuous. -/
example : About (1 / 2000000) (1 / 2000000) ∧ Mixed (firstPart ((List.replicate 100 [2, 3, 4]).flatten)) ∧
    LooksMfm ((List.replicate 100 [2, 3, 4]).flatten) :=
  ⟨by unfold About; decide +kernel, by decide +kernel, Or.inl (by decide +kernel)⟩

/-- Not vacuous: there are such tracks of 50002 transitions. -/
example : ∃ ks : List Nat, (∀ k ∈ ks, 2 ≤ k ∧ k ≤ 4) ∧ 50000 ≤ ks.length ∧ Mixed (firstPart ks) := by
  have hl : ∀ n, ((List.replicate n [2, 3, 4]).flatten).length = 3 * n := by
    intro n
    induction n with
    | zero => rfl
    | succ n ih => rw [List.replicate_succ, List.flatten_cons, List.length_append, ih]; simp; omega
  refine ⟨(List.replicate 334 [2, 3, 4]).flatten ++ List.replicate 49000 2, ?_, ?_, ?_⟩
  · intro k hk
    rcases List.mem_append.1 hk with hk | hk
    · obtain ⟨l, hl, hk⟩ := List.mem_flatten.1 hk
      rw [List.eq_of_mem_replicate hl] at hk
      simp at hk
      omega
    · rw [List.eq_of_mem_replicate hk]; omega
  · rw [List.length_append, hl, List.length_replicate]; omega
  · unfold firstPart
    rw [List.length_append, hl, List.length_replicate, List.take_append_of_le_length (by rw [hl]; omega)]
    decide +kernel

end Fox
