import Verif.Proofs.PllLock
import Verif.Proofs.Bits
/-
What holds of every decoding, whatever the flux: the register, the markers, the clock's limits.
-/
namespace Fox.Pll
open Fox.Spec

/-! ## The register -/

/-- The register holds the last 64 bits. -/
def RegOk (o : Output) : Prop :=
  ∀ i, i < 64 → o.reg.getLsbD i = if i < o.bits.length then o.bits.getD (o.bits.length - 1 - i) false else false

theorem RegOk.push {o : Output} (h : RegOk o) (b : Bool) : RegOk (o.push b) := by
  intro i hi
  have e : (o.push b).reg.getLsbD i = if i = 0 then b else o.reg.getLsbD (i - 1) := by
    unfold Output.push
    rw [BitVec.getLsbD_or, BitVec.getLsbD_shiftLeft]
    by_cases h0 : i = 0
    · subst h0
      cases b <;> simp
    · have h1 : ¬ i < 1 := by omega
      rw [if_neg h0]
      have : (if b then 1#64 else 0#64).getLsbD i = false := by
        cases b
        · simp
        · simp only [if_true]
          rw [BitVec.getLsbD_one]
          simp [h0]
      rw [this]
      simp [h1, hi]
  have el : (o.push b).bits = o.bits ++ [b] := rfl
  rw [e, el, List.length_append, List.length_singleton]
  by_cases h0 : i = 0
  · subst h0
    rw [if_pos rfl, if_pos (by omega)]
    rw [show o.bits.length + 1 - 1 - 0 = o.bits.length by omega]
    simp
  · rw [if_neg h0, h (i - 1) (by omega)]
    by_cases hl : i - 1 < o.bits.length
    · rw [if_pos hl, if_pos (by omega)]
      rw [show o.bits.length + 1 - 1 - i = o.bits.length - 1 - (i - 1) by omega]
      rw [Fox.getD_append_left _ _ _ _ (by omega)]
    · rw [if_neg hl, if_neg (by omega)]

theorem RegOk.flux {o : Output} (h : RegOk o) (k : Nat) : RegOk (o.flux k) := by
  have : ∀ (l : List Bool) (o : Output), RegOk o → RegOk (l.foldl Output.push o) := by
    intro l
    induction l with
    | nil => intro o h; exact h
    | cons b l ih => intro o h; exact ih _ (h.push b)
  cases k with
  | zero => exact h
  | succ n => exact (this _ _ h).push true

theorem mask_bits (i : Nat) (hi : i < 64) : (0x7FFFFFFFFFFFFFFF#64).getLsbD i = decide (i < 63) := by
  have : ∀ i ∈ List.range 64, (0x7FFFFFFFFFFFFFFF#64).getLsbD i = decide (i < 63) := by decide +kernel
  exact this i (List.mem_range.2 hi)

theorem reg_sync {o : Output} (h : RegOk o) :
    o.reg &&& 0x7FFFFFFFFFFFFFFF#64 = 0x2AAAAAAA44894489#64 ↔ SyncEnds o.bits o.bits.length := by
  have hv : ∀ i, i < 64 → (0x2AAAAAAA44894489#64).getLsbD i = Nat.testBit 0x2AAAAAAA44894489 i := by
    intro i hi
    rw [BitVec.getLsbD_ofNat]; simp [hi]
  constructor
  · intro he
    have hb : ∀ i, i < 63 → o.reg.getLsbD i = Nat.testBit 0x2AAAAAAA44894489 i := by
      intro i hi
      have := congrArg (fun v => v.getLsbD i) he
      simp only [BitVec.getLsbD_and, hv i (by omega), mask_bits i (by omega), hi, decide_true, Bool.and_true] at this
      exact this
    have hlen : 62 ≤ o.bits.length := by
      have := h 61 (by omega)
      rw [hb 61 (by omega)] at this
      by_cases hl : 61 < o.bits.length
      · omega
      · rw [if_neg hl] at this
        exact absurd this (by decide)
    refine ⟨⟨hlen, le_refl _, ?_⟩, ?_⟩
    · intro i hi
      have := h (62 - 1 - i) (by omega)
      rw [hb _ (by omega), if_pos (by omega)] at this
      rw [show o.bits.length - 62 + i = o.bits.length - 1 - (62 - 1 - i) by omega]
      exact this.symm
    · by_cases hl : o.bits.length = 62
      · exact Or.inl hl
      · right
        have := h 62 (by omega)
        rw [hb _ (by omega), if_pos (by omega)] at this
        rw [show o.bits.length - 63 = o.bits.length - 1 - 62 by omega, ← this]
        decide
  · rintro ⟨⟨hlen, _, hi⟩, h62⟩
    apply BitVec.eq_of_getLsbD_eq
    intro i hi64
    rw [BitVec.getLsbD_and, hv i hi64, mask_bits i hi64]
    by_cases h63 : i < 63
    · simp only [h63, decide_true, Bool.and_true]
      rw [h i hi64]
      by_cases h2 : i = 62
      · subst h2
        rcases h62 with h62 | h62
        · rw [if_neg (by omega)]; decide
        · by_cases hl : 62 < o.bits.length
          · rw [if_pos hl, show o.bits.length - 1 - 62 = o.bits.length - 63 by omega, h62]; decide
          · rw [if_neg hl]; decide
      · have := hi (62 - 1 - i) (by omega)
        rw [show o.bits.length - 62 + (62 - 1 - i) = o.bits.length - 1 - i by omega] at this
        rw [if_pos (by omega), this]
        congr 1
        omega
    · have : i = 63 := by omega
      subst this
      simp only [show ¬ (63 < 63) by omega, decide_false, Bool.and_false]
      decide

/-- The marks noted are those there are. -/
structure MarksOk (o : Output) : Prop where
  reg : RegOk o
  sound : ∀ m ∈ o.markers, SyncEnds o.bits (m.2 + 32)
  complete : ∀ n, SyncEnds o.bits n → ∃ m ∈ o.markers, m.2 = n - 32

theorem _root_.Fox.Spec.SyncEnds.prefix {a b : List Bool} {n : Nat} (hn : n ≤ a.length) : SyncEnds (a ++ b) n ↔ SyncEnds a n := by
  have e : ∀ i, i < n → (a ++ b).getD i false = a.getD i false := fun i hi => Fox.getD_append_left _ _ _ _ (by omega)
  unfold SyncEnds EndsWith
  constructor
  · rintro ⟨⟨h1, h2, h3⟩, h4⟩
    refine ⟨⟨h1, hn, fun i hi => by rw [← e _ (by omega)]; exact h3 i hi⟩, ?_⟩
    rcases h4 with h4 | h4
    · exact Or.inl h4
    · exact Or.inr (by rw [← e _ (by omega)]; exact h4)
  · rintro ⟨⟨h1, h2, h3⟩, h4⟩
    refine ⟨⟨h1, by rw [List.length_append]; omega, fun i hi => by rw [e _ (by omega)]; exact h3 i hi⟩, ?_⟩
    rcases h4 with h4 | h4
    · exact Or.inl h4
    · exact Or.inr (by rw [e _ (by omega)]; exact h4)

theorem _root_.Fox.Spec.SyncEnds.last {bits : List Bool} {n : Nat} (h : SyncEnds bits n) : 62 ≤ n ∧ n ≤ bits.length ∧ bits.getD (n - 1) false = true := by
  obtain ⟨⟨h1, h2, h3⟩, _⟩ := h
  have := h3 61 (by omega)
  rw [show n - 62 + 61 = n - 1 by omega] at this
  exact ⟨h1, h2, by rw [this]; decide⟩

theorem MarksOk.mfm {o : Output} (h : MarksOk o) (en : Bool) (k : Nat) (d t : Rat) (b : Bool) : MarksOk (o.mfm en k d t b) := by
  obtain ⟨hr, hs, hc⟩ := h
  have core : ∀ (o : Output) (S : FluxStats) (T : List FluxTransition), RegOk o →
      (∀ m ∈ o.markers, SyncEnds o.bits (m.2 + 32)) → (∀ n, SyncEnds o.bits n → ∃ m ∈ o.markers, m.2 = n - 32) →
      MarksOk (let o1 := Output.flux { o with stats := S, transitions := T } k
        if o1.reg &&& 0x7FFFFFFFFFFFFFFF#64 = 0x2AAAAAAA44894489#64 then
          { o1 with markers := o1.markers ++ [(t, o1.bits.length - 32)] } else o1) := by
    intro o S T hr hs hc
    have hr1 : RegOk (Output.flux { o with stats := S, transitions := T } k) :=
      RegOk.flux (o := { o with stats := S, transitions := T }) hr k
    have hm1 : (Output.flux { o with stats := S, transitions := T } k).markers = o.markers := (flux_rest _ _).2.1
    have hb1 : (Output.flux { o with stats := S, transitions := T } k).bits =
        o.bits ++ (if k = 0 then [] else List.replicate (k - 1) false ++ [true]) := by
      by_cases hk : k = 0
      · subst hk; rw [if_pos rfl, List.append_nil]; rfl
      · rw [if_neg hk, flux_cells _ _ (by omega)]
    generalize Output.flux { o with stats := S, transitions := T } k = o1 at hr1 hm1 hb1 ⊢
    have hold : ∀ n, SyncEnds o1.bits n → n ≠ o1.bits.length → SyncEnds o.bits n := by
      intro n hn hne
      obtain ⟨a1, a2, a3⟩ := hn.last
      by_cases hle : n ≤ o.bits.length
      · rw [hb1] at hn; exact (SyncEnds.prefix hle).1 hn
      · exfalso
        rw [hb1] at a2 a3 hne
        by_cases hk : k = 0
        · rw [if_pos hk, List.append_nil] at a2; omega
        · rw [if_neg hk] at a2 a3 hne
          simp only [List.length_append, List.length_replicate, List.length_singleton] at a2 hne
          rw [Fox.getD_append_right _ _ _ _ (by omega), Fox.getD_append_left _ _ _ _ (by simp; omega)] at a3
          rw [List.getD_eq_getElem?_getD, List.getElem?_replicate] at a3
          rw [if_pos (by omega)] at a3
          exact absurd a3 (by decide)
    have hnew : ∀ n, SyncEnds o.bits n → SyncEnds o1.bits n := by
      intro n hn
      rw [hb1]
      exact (SyncEnds.prefix hn.last.2.1).2 hn
    simp only
    split
    · next he =>
      have hh := (reg_sync hr1).1 he
      refine ⟨hr1, ?_, ?_⟩
      · intro m hm
        rcases List.mem_append.1 hm with hm | hm
        · rw [hm1] at hm
          exact hnew _ (hs m hm)
        · rw [List.mem_singleton.1 hm]
          show SyncEnds o1.bits (o1.bits.length - 32 + 32)
          rw [show o1.bits.length - 32 + 32 = o1.bits.length by have := hh.last; omega]
          exact hh
      · intro n hn
        by_cases hne : n = o1.bits.length
        · exact ⟨_, List.mem_append_right _ (List.mem_singleton.2 rfl), by rw [hne]⟩
        · obtain ⟨m, hm, e⟩ := hc n (hold n hn hne)
          exact ⟨m, List.mem_append_left _ (by rw [hm1]; exact hm), e⟩
    · next he =>
      refine ⟨hr1, ?_, ?_⟩
      · intro m hm
        rw [hm1] at hm
        exact hnew _ (hs m hm)
      · intro n hn
        by_cases hne : n = o1.bits.length
        · exact absurd ((reg_sync hr1).2 (by rw [← hne]; exact hn)) he
        · obtain ⟨m, hm, e⟩ := hc n (hold n hn hne)
          exact ⟨m, by rw [hm1]; exact hm, e⟩
  unfold Output.mfm
  exact core o _ _ hr hs hc

/-- Anything that holds at the start and survives a flux holds at the end. -/
theorem mfmLoop_inv {en : Bool} {lo hi : Rat} (I : Output → Prop)
    (hI : ∀ o k d t b, I o → I (o.mfm en k d t b)) : ∀ (ds : List Rat) (b : Bool) (c : MfmClock) (o : Output) (c' o'),
    mfmLoop en lo hi b c o ds = some (c', o') → I o → I o' := by
  intro ds
  induction ds with
  | nil => intro b c o c' o' h ho; cases h; exact ho
  | cons d ds ih =>
    intro b c o c' o' h ho
    rw [mfmLoop] at h
    cases hs : c.step lo hi d with
    | none => rw [hs] at h; cases h
    | some r =>
      rw [hs] at h
      exact ih false _ _ c' o' h (hI _ _ _ _ _ ho)

theorem decodeMfm_inv {P P' : Pll} {en : Bool} {ds : List Rat} {o : Output} (h : P.decodeMfm en ds = some (P', o))
    (I : Output → Prop) (h0 : I { stats := { total := ds.length } }) (hI : ∀ o k d t b, I o → I (o.mfm en k d t b)) : I o := by
  unfold decodeMfm at h
  cases hl : mfmLoop en (P.working - P.working * P.maxAdjust) (P.working + P.working * P.maxAdjust) true
    { time := P.period / 2, last := 0, working := P.period, phaseErr := 0, phaseAdj := 0, gate := 0 }
    { stats := { total := ds.length } } ds with
  | none => simp only [hl] at h; cases h
  | some r =>
    simp only [hl] at h
    cases h
    exact mfmLoop_inv I hI _ _ _ _ _ _ hl h0

theorem marks_empty (s : FluxStats) : MarksOk { stats := s } := by
  refine ⟨?_, ?_, ?_⟩
  · intro i _; simp
  · intro m hm; cases hm
  · rintro n ⟨⟨h1, h2, _⟩, _⟩
    have : n ≤ 0 := h2
    omega

/-! ## Every decoding ends -/

/-- A decoder in working order. -/
structure Sane (P : Pll) : Prop where
  rate : 0 < P.defaultRate ∧ 0 < P.rate
  period : 0 < P.period
  working : 0 < P.working
  adjust : 0 ≤ P.maxAdjust ∧ P.maxAdjust < 1

theorem tick_total {w target t : Rat} (hw : 0 < w) : ∃ r, tick w target t = some r := by
  unfold tick
  split
  · exact ⟨_, rfl⟩
  · exact ⟨_, rfl⟩

theorem clamp_total {x lo hi : Rat} (h : lo ≤ hi) : ∃ y, clamp x lo hi = some y ∧ lo ≤ y ∧ y ≤ hi := by
  unfold clamp
  rw [if_neg (by linarith)]
  split
  · exact ⟨_, rfl, le_refl _, h⟩
  · split
    · exact ⟨_, rfl, h, le_refl _⟩
    · exact ⟨_, rfl, by linarith, by linarith⟩

theorem mfm_step_total {lo hi : Rat} (h : lo ≤ hi) (c : MfmClock) (hc : 0 < c.working) (d : Rat) :
    ∃ k c', c.step lo hi d = some (k, c') ∧ lo ≤ c'.working ∧ c'.working ≤ hi := by
  unfold MfmClock.step
  obtain ⟨⟨k, t⟩, hr⟩ := tick_total (target := c.last + d) (t := c.time + c.phaseAdj) hc
  simp only [hr, Option.bind_eq_bind, Option.bind_some]
  obtain ⟨y, hy, h1, h2⟩ := clamp_total (x := c.working +
    (if gateStep c.gate (d - (t - (c.last + d) + d - c.working / 2)) > 1 ∨
        gateStep c.gate (d - (t - (c.last + d) + d - c.working / 2)) < -1 then
      5 / 100 * (d - (t - (c.last + d) + d - c.working / 2)) else 0)) h
  rw [hy]
  exact ⟨k, _, rfl, h1, h2⟩

theorem mfmLoop_total {en : Bool} {lo hi : Rat} (h : lo ≤ hi) (hlo : 0 < lo) : ∀ (ds : List Rat) (b : Bool) (c : MfmClock)
    (o : Output), 0 < c.working → ∃ c' o', mfmLoop en lo hi b c o ds = some (c', o') ∧ 0 < c'.working ∧
      (ds ≠ [] ∨ (lo ≤ c.working ∧ c.working ≤ hi) → lo ≤ c'.working ∧ c'.working ≤ hi) := by
  intro ds
  induction ds with
  | nil => intro b c o hc; exact ⟨c, o, rfl, hc, fun h => h.resolve_left (fun h => h rfl)⟩
  | cons d ds ih =>
    intro b c o hc
    obtain ⟨k, c1, h1, h2, h3⟩ := mfm_step_total h c hc d
    obtain ⟨c', o', g1, g2, g3⟩ := ih false c1 (o.mfm en k d c1.time b) (by linarith)
    refine ⟨c', o', ?_, g2, fun _ => g3 (Or.inr ⟨h2, h3⟩)⟩
    rw [mfmLoop]
    simp only [h1, Option.bind_eq_bind, Option.bind_some]
    exact g1

theorem limits_of {w a : Rat} (hw : 0 < w) (ha : 0 ≤ a ∧ a < 1) : w - w * a ≤ w + w * a ∧ 0 < w - w * a ∧
    w - w * a ≤ w ∧ w ≤ w + w * a := by
  have h1 : 0 ≤ w * a := mul_nonneg (le_of_lt hw) ha.1
  have h2 : 0 < w * (1 - a) := mul_pos hw (by linarith)
  rw [mul_sub, mul_one] at h2
  exact ⟨by linarith, h2, by linarith, by linarith⟩

theorem decodeMfm_total {P : Pll} (h : Sane P) (en : Bool) (ds : List Rat) : ∃ P' o, P.decodeMfm en ds = some (P', o) ∧
    Sane P' ∧ (P.working = P.period → P.period * (1 - P.maxAdjust) ≤ P'.working ∧ P'.working ≤ P.period * (1 + P.maxAdjust)) ∧
    P' = { P with working := P'.working } := by
  obtain ⟨l1, l2, l3, l4⟩ := limits_of h.working h.adjust
  obtain ⟨c, o, h1, h2, h3⟩ := mfmLoop_total (en := en) l1 l2 ds true
    { time := P.period / 2, last := 0, working := P.period, phaseErr := 0, phaseAdj := 0, gate := 0 }
    { stats := { total := ds.length } } h.period
  refine ⟨{ P with working := c.working }, o, ?_, ⟨h.rate, h.period, h2, h.adjust⟩, ?_, rfl⟩
  · unfold decodeMfm
    simp only [h1]
    rfl
  · intro he
    rw [he] at h3 l3 l4
    have := h3 (Or.inr ⟨l3, l4⟩)
    rw [mul_sub, mul_add, mul_one]
    exact this

theorem fm_step_total {g lo hi : Rat} (h : lo ≤ hi) (c : FmClock) (hc : 0 < c.working) (d : Rat) :
    ∃ k c', c.step g lo hi d = some (k, c') ∧ lo ≤ c'.working ∧ c'.working ≤ hi := by
  unfold FmClock.step
  obtain ⟨⟨k, t⟩, hr⟩ := tick_total (target := c.last + d) (t := c.time + c.acc) hc
  simp only [hr, Option.bind_eq_bind, Option.bind_some]
  obtain ⟨y, hy, h1, h2⟩ := clamp_total (x := c.working + g * (c.last + d - (c.last + k * c.working)) / c.working) h
  rw [hy]
  exact ⟨k, _, rfl, h1, h2⟩

theorem fmLoop_total {g lo hi : Rat} (h : lo ≤ hi) (hlo : 0 < lo) : ∀ (ds : List Rat) (b : Bool) (c : FmClock)
    (o : Output), lo ≤ c.working → c.working ≤ hi →
    ∃ c' o', fmLoop g lo hi b c o ds = some (c', o') ∧ lo ≤ c'.working ∧ c'.working ≤ hi := by
  intro ds
  induction ds with
  | nil => intro b c o h1 h2; exact ⟨c, o, rfl, h1, h2⟩
  | cons d ds ih =>
    intro b c o hc _
    obtain ⟨k, c1, h1, h2, h3⟩ := fm_step_total (g := g) h c (by linarith) d
    obtain ⟨c', o', g1, g2⟩ := ih false c1 (o.fm k d c1.time b) h2 h3
    refine ⟨c', o', ?_, g2⟩
    rw [fmLoop]
    simp only [h1, Option.bind_eq_bind, Option.bind_some]
    exact g1

theorem decodeFm_total {P : Pll} (h : Sane P) (ds : List Rat) : ∃ P' o, P.decodeFm ds = some (P', o) ∧ Sane P' ∧
    (2 * P.period * (1 - P.maxAdjust) ≤ P'.working ∧ P'.working ≤ 2 * P.period * (1 + P.maxAdjust)) ∧
    P' = { P with working := P'.working } := by
  have hp := h.period
  obtain ⟨l1, l2, l3, l4⟩ := limits_of (w := P.period * 2) (by linarith) h.adjust
  obtain ⟨c, o, h1, h2, h3⟩ := fmLoop_total (g := P.phaseGain) l1 l2 ds true
    { time := -(P.period * 2) / 2, last := 0, working := P.period * 2, acc := 0 }
    { stats := { total := ds.length } } l3 l4
  refine ⟨{ P with working := c.working }, o, ?_, ⟨h.rate, h.period, by simp only; linarith, h.adjust⟩, ?_, rfl⟩
  · unfold decodeFm
    simp only [h1]
    rfl
  · rw [mul_sub, mul_add, mul_one, mul_comm 2]
    exact ⟨h2, h3⟩

end Fox.Pll
