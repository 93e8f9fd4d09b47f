import Verif.Proofs.PllRegion
/-
C67: decoding MFM flux recovers the cells.
-/
namespace Fox
open Fox.Spec Fox.Pll

/-! ## C67 -/

theorem fresh_pll {rate : Rat} {P : Pll} (h : Pll.new.setClock rate none = some P) :
    1 < rate ∧ P.period = 1 / rate ∧ P.working = P.period ∧ P.maxAdjust = 20 / 100 := by
  unfold setClock at h
  split at h
  · next hr =>
    cases h
    exact ⟨hr, rfl, rfl, rfl⟩
  · cases h

/-- The numbers of short, medium and long fluxes. -/
structure Counts (s : FluxStats) (ks : List Nat) : Prop where
  total : s.total = ks.length
  short : s.short = times 2 ks
  medium : s.medium = times 3 ks
  long : s.long = times 4 ks
  none : s.tooShort = 0 ∧ s.tooLong = 0 ∧ s.tooSlowBits = 0

theorem countAll_spec : ∀ (l : List (Nat × Rat)) (b : Bool) (s : FluxStats), (∀ x ∈ l, 2 ≤ x.1 ∧ x.1 ≤ 4) →
    (countAll b s l).total = s.total ∧ (countAll b s l).short = s.short + times 2 (l.map Prod.fst) ∧
    (countAll b s l).medium = s.medium + times 3 (l.map Prod.fst) ∧
    (countAll b s l).long = s.long + times 4 (l.map Prod.fst) ∧ (countAll b s l).tooShort = s.tooShort ∧
    (countAll b s l).tooLong = s.tooLong ∧ (countAll b s l).tooSlowBits = s.tooSlowBits := by
  intro l
  induction l with
  | nil => intro b s _; simp [countAll, times]
  | cons x l ih =>
    intro b s h
    obtain ⟨k, d⟩ := x
    have hk := h (k, d) List.mem_cons_self
    obtain ⟨a1, a2, a3, a4, a5, a6, a7⟩ := ih false (countMfm (FluxStats.extremes s b d) k d)
      (fun y hy => h y (List.mem_cons_of_mem _ hy))
    rw [countAll, a1, a2, a3, a4, a5, a6, a7]
    simp only at hk
    rcases (show k = 2 ∨ k = 3 ∨ k = 4 by omega) with rfl | rfl | rfl
    all_goals
      simp [countMfm, FluxStats.extremes, times]
      try omega

theorem decode_zip {q : Rat} {R J} {P : Pll} (hw : P.working = P.period)
    (h : Stable q (P.period - P.period * P.maxAdjust) (P.period + P.period * P.maxAdjust) R J) (en : Bool)
    (hi : ∀ k j, J k j → R (j - k * (P.period - q)) 0 (P.period - q)) (l : List (Nat × Rat))
    (hl : ∀ x ∈ l, (2 ≤ x.1 ∧ x.1 ≤ 4) ∧ J x.1 (x.2 - x.1 * q)) :
    ∃ P' o, P.decode .mfm en (l.map Prod.snd) = some (P', o) ∧ o.bits = cellsOf (l.map Prod.fst) ∧
      Counts o.stats (l.map Prod.fst) := by
  obtain ⟨P', o, h1, h2, h3⟩ := locked_decode P hw h en hi l (fun x hx => ⟨by have := (hl x hx).1; omega, (hl x hx).2⟩)
  obtain ⟨a1, a2, a3, a4, a5, a6, a7⟩ := countAll_spec l true { total := l.length } (fun x hx => (hl x hx).1)
  rw [← h3] at a1 a2 a3 a4 a5 a6 a7
  simp only [Nat.zero_add] at a2 a3 a4
  exact ⟨P', o, h1, h2, ⟨by rw [a1, List.length_map], a2, a3, a4, a5, a6, a7⟩⟩

theorem measured_zip {q tol : Rat} {ks : List Nat} {ds : List Rat} (h : Measured q tol ks ds) :
    ∃ l : List (Nat × Rat), ks = l.map Prod.fst ∧ ds = l.map Prod.snd ∧ ∀ x ∈ l, Near tol x.2 (x.1 * q) := by
  induction h with
  | nil => exact ⟨[], rfl, rfl, fun x hx => by cases hx⟩
  | @cons k d ks ds hn _ ih =>
    obtain ⟨l, rfl, rfl, hl⟩ := ih
    refine ⟨(k, d) :: l, rfl, rfl, fun x hx => ?_⟩
    rcases List.mem_cons.1 hx with rfl | hx
    · exact hn
    · exact hl x hx

/-- **C67.** MFM flux, read from a disk whose cells are up to 3.5 % longer or shorter than the decoder's clock says,
with every single interval off by up to 3.5 % of a cell in any pattern, for any number of transitions, decodes to
exactly the cells that were written, and is counted as what it is. -/
theorem C67_tolerant (rate : Rat) (P : Pll) (hP : Pll.new.setClock rate none = some P) (q : Rat) (hq : 0 < q)
    (hs : Near (35 / 1000 * q) (1 / rate) q) (ks : List Nat) (hk : ∀ k ∈ ks, 2 ≤ k ∧ k ≤ 4) (ds : List Rat)
    (hd : Measured q (35 / 1000 * q) ks ds) (en : Bool) :
    ∃ P' o, P.decode .mfm en ds = some (P', o) ∧ o.bits = cellsOf ks ∧ Counts o.stats ks := by
  obtain ⟨hr, p1, p2, p3⟩ := fresh_pll hP
  obtain ⟨l, rfl, rfl, hl⟩ := measured_zip hd
  rw [← p1] at hs
  obtain ⟨s1, s2⟩ := hs
  refine decode_zip (q := q) (R := Tight (35 / 1000 * q)) (J := fun k j => (2 ≤ k ∧ k ≤ 4) ∧ -(35 / 1000 * q) ≤ j ∧ j ≤ 35 / 1000 * q)
    p2 ?_ en ?_ l ?_
  · rw [p3]
    refine ⟨?_, ?_, ?_⟩
    · rintro e f u ⟨x0, x1, _, _, _, _, _, _, _, x9, x10, _, _, _, _, _, _, _⟩
      exact ⟨by linarith, by linarith, by linarith⟩
    · rintro e f u ⟨x0, x1, _, _, _, _, _, _, _, x9, x10, _, _, _, _, _, _, _⟩
      exact ⟨by linarith, by linarith, by linarith, by linarith⟩
    · intro e f u u' k j h ht hj
      exact h.next ht hj.1 hj.2
  · rintro k j ⟨hk, j1, j2⟩
    have hk : (k : Rat) = 2 ∨ (k : Rat) = 3 ∨ (k : Rat) = 4 := by
      rcases (show k = 2 ∨ k = 3 ∨ k = 4 by omega) with rfl | rfl | rfl <;> simp
    rcases hk with hk | hk | hk <;> rw [hk] <;> constructor <;> linarith
  · intro x hx
    have h1 := hk x.1 (List.mem_map_of_mem hx)
    obtain ⟨a, b⟩ := hl x hx
    exact ⟨h1, h1, by linarith, by linarith⟩

theorem neg_turn {e f u u' : Rat} (h : Turn e f u u') : Turn (-e) (-f) (-u) (-u') ∧ least (-e) (-f) = -least e f := by
  have hm : ∀ x : Rat, mag (-x) = mag x := by
    intro x
    unfold mag
    by_cases h1 : x < 0
    · rw [if_neg (by linarith), if_pos h1]
    · by_cases h2 : x = 0
      · subst h2; simp
      · have : 0 < x := lt_of_le_of_ne (by linarith) (Ne.symm h2)
        rw [if_pos (by linarith), if_neg h1]; linarith
  constructor
  · rcases h with ⟨h, h1 | h1⟩ | ⟨h, h1 | h1⟩
    · exact Or.inl ⟨by linarith, Or.inr ⟨by linarith, by linarith⟩⟩
    · exact Or.inl ⟨by linarith, Or.inl ⟨by linarith, by linarith⟩⟩
    · exact Or.inr ⟨by linarith, Or.inr ⟨by linarith, by linarith⟩⟩
    · exact Or.inr ⟨by linarith, Or.inl ⟨by linarith, by linarith⟩⟩
  · unfold least
    rw [hm, hm]
    split <;> rfl

theorem zip_perfect (q : Rat) (ks : List Nat) : ∃ l : List (Nat × Rat), ks = l.map Prod.fst ∧ perfect q ks = l.map Prod.snd ∧
    ∀ x ∈ l, x.1 ∈ ks ∧ x.2 = x.1 * q := by
  refine ⟨ks.map fun (k : Nat) => (k, (k : Rat) * q), ?_, ?_, ?_⟩
  · rw [List.map_map]; exact (List.map_id _).symm
  · rw [List.map_map]; rfl
  · intro x hx
    obtain ⟨k, hk, rfl⟩ := List.mem_map.1 hx
    exact ⟨hk, rfl⟩

/-- **C67, the wrong speed.** Perfectly spaced MFM flux decodes to exactly its cells for any length, if the
decoder's clock is off by no more than 5.8 % below and 6.25 % above. -/
theorem C67_speed (rate : Rat) (P : Pll) (hP : Pll.new.setClock rate none = some P) (q : Rat) (hq : 0 < q)
    (h1 : (1 - 58 / 1000) * q ≤ 1 / rate) (h2 : 1 / rate ≤ (1 + 1 / 16) * q) (ks : List Nat)
    (hk : ∀ k ∈ ks, 2 ≤ k ∧ k ≤ 4) (en : Bool) :
    ∃ P' o, P.decode .mfm en (perfect q ks) = some (P', o) ∧ o.bits = cellsOf ks ∧ Counts o.stats ks := by
  obtain ⟨hr, p1, p2, p3⟩ := fresh_pll hP
  obtain ⟨l, e1, e2, hl⟩ := zip_perfect q ks
  rw [← p1] at h1 h2
  have hj : ∀ x ∈ l, (2 ≤ x.1 ∧ x.1 ≤ 4) ∧ (2 ≤ x.1 ∧ x.1 ≤ 4) ∧ x.2 - x.1 * q = 0 := by
    intro x hx
    obtain ⟨a, b⟩ := hl x hx
    exact ⟨hk _ a, hk _ a, by rw [b]; linarith⟩
  have three : ∀ k : Nat, 2 ≤ k ∧ k ≤ 4 → (k : Rat) = 2 ∨ (k : Rat) = 3 ∨ (k : Rat) = 4 := by
    intro k h
    rcases (show k = 2 ∨ k = 3 ∨ k = 4 by omega) with rfl | rfl | rfl <;> simp
  rw [e2, e1]
  rcases le_total q P.period with hle | hle
  · refine decode_zip (q := q) (R := Drift (P.period - q)) (J := fun k j => (2 ≤ k ∧ k ≤ 4) ∧ j = 0) p2 ?_ en ?_ l hj
    · rw [p3]
      refine ⟨?_, ?_, ?_⟩
      · rintro e f u ⟨x0, x1, x2, x3, x4, x5, x6, x7, x8, x9, x10, x11, x12, x13, x14, x15⟩
        exact ⟨by linarith, by linarith, by linarith⟩
      · rintro e f u ⟨x0, x1, x2, x3, x4, x5, x6, x7, x8, x9, x10, x11, x12, x13, x14, x15⟩
        exact ⟨by linarith, by linarith, by linarith, by linarith⟩
      · intro e f u u' k j h ht hj
        exact h.next ht hj.1 hj.2
    · rintro k j ⟨hk, rfl⟩
      rcases three k hk with hk | hk | hk <;> rw [hk] <;> constructor <;> linarith
  · refine decode_zip (q := q) (R := fun e f u => Drift (q - P.period) (-e) (-f) (-u))
      (J := fun k j => (2 ≤ k ∧ k ≤ 4) ∧ j = 0) p2 ?_ en ?_ l hj
    · rw [p3]
      refine ⟨?_, ?_, ?_⟩
      · rintro e f u ⟨x0, x1, x2, x3, x4, x5, x6, x7, x8, x9, x10, x11, x12, x13, x14, x15⟩
        exact ⟨by linarith, by linarith, by linarith⟩
      · rintro e f u ⟨x0, x1, x2, x3, x4, x5, x6, x7, x8, x9, x10, x11, x12, x13, x14, x15⟩
        exact ⟨by linarith, by linarith, by linarith, by linarith⟩
      · intro e f u u' k j h ht hj
        have := h.next (neg_turn ht).1 hj.1 hj.2
        rw [(neg_turn ht).2] at this
        rw [hj.2] at this ⊢
        have he : -(e + 0 - 65 / 100 * least e f - ((k : Rat) - 1 / 2) * u' - u / 2) =
          -e + 0 - 65 / 100 * -least e f - ((k : Rat) - 1 / 2) * -u' - -u / 2 := by linarith
        show Drift _ (-(e + 0 - 65 / 100 * least e f - ((k : Rat) - 1 / 2) * u' - u / 2)) _ _
        rw [he]
        exact this
    · rintro k j ⟨hk, rfl⟩
      rcases three k hk with hk | hk | hk <;> rw [hk] <;> constructor <;> linarith

/-- **C67, the right speed.** Perfectly timed flux decodes to exactly its cells, whatever the intervals. -/
theorem C67_exact (rate : Rat) (P : Pll) (hP : Pll.new.setClock rate none = some P) (ks : List Nat)
    (hk : ∀ k ∈ ks, 1 ≤ k) (en : Bool) :
    ∃ P' o, P.decode .mfm en (perfect (1 / rate) ks) = some (P', o) ∧ o.bits = cellsOf ks := by
  obtain ⟨hr, p1, p2, p3⟩ := fresh_pll hP
  obtain ⟨l, e1, e2, hl⟩ := zip_perfect (1 / rate) ks
  have hpos : 0 < P.period := by rw [p1]; exact one_div_pos.2 (by linarith)
  rw [e2, e1]
  obtain ⟨P', o, h1, h2, _⟩ := locked_decode (q := P.period) (R := fun e f u => e = 0 ∧ f = 0 ∧ u = 0) (J := fun _ j => j = 0) P p2
    (by
      rw [p3]
      refine ⟨?_, ?_, ?_⟩
      · rintro e f u ⟨rfl, rfl, rfl⟩; exact ⟨by linarith, by linarith, by linarith⟩
      · rintro e f u ⟨rfl, rfl, rfl⟩; exact ⟨by linarith, by linarith, by linarith, by linarith⟩
      · rintro e f u u' k j ⟨rfl, rfl, rfl⟩ ht rfl
        have : u' = 0 := by rcases ht with ⟨h, _⟩ | ⟨h, _⟩ <;> linarith
        subst this
        simp [least, mag]) en (by rintro k j rfl; simp) l (fun x hx => by
      obtain ⟨a, b⟩ := hl x hx
      exact ⟨hk _ a, by rw [b, p1]; linarith⟩)
  exact ⟨P', o, h1, h2⟩

/-- Not vacuous: a decoder set to 500 kHz, a disk that turns 3 % too slowly, and jitter on every interval. -/
example : ∃ P, Pll.new.setClock 500000 none = some P ∧ ∃ P' o,
    P.decode .mfm false [4 * 103 / 100000000 + 7 / 100000000, 6 * 103 / 100000000 - 7 / 100000000, 8 * 103 / 100000000] =
      some (P', o) ∧ o.bits = [false, true, false, false, true, false, false, false, true] := by
  refine ⟨_, rfl, ?_⟩
  obtain ⟨P', o, h1, h2, _⟩ := C67_tolerant 500000 _ rfl (2 * 103 / 100000000) (by decide +kernel)
    (by unfold Near; decide +kernel) [2, 3, 4] (by decide)
    [4 * 103 / 100000000 + 7 / 100000000, 6 * 103 / 100000000 - 7 / 100000000, 8 * 103 / 100000000]
    (.cons (by unfold Near; decide +kernel) (.cons (by unfold Near; decide +kernel)
      (.cons (by unfold Near; decide +kernel) .nil))) false
  exact ⟨P', o, h1, h2⟩

/-- Not vacuous: a clock 6 % too slow. -/
example : ∃ P, Pll.new.setClock 471698 none = some P ∧ ∃ P' o,
    P.decode .mfm false (perfect (2 / 1000000) [2, 4, 3]) = some (P', o) ∧
      o.bits = [false, true, false, false, false, true, false, false, true] := by
  refine ⟨_, rfl, ?_⟩
  obtain ⟨P', o, h1, h2, _⟩ := C67_speed 471698 _ rfl (2 / 1000000) (by decide +kernel) (by decide +kernel)
    (by decide +kernel) [2, 4, 3] (by decide) false
  exact ⟨P', o, h1, h2⟩

/-- The limits are real: a clock 6.7 % too slow misreads the second of two long intervals. -/
example : ((Pll.new.setClock 468604 none).bind fun P => P.decode .mfm false (perfect (2 / 1000000) [4, 4])).map
    (fun r => r.2.bits) = some [false, false, false, true, false, false, true] := by
  decide +kernel

end Fox
