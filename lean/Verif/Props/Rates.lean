import Verif.Model.Rates
import Mathlib.Tactic.Linarith
import Mathlib.Tactic.Ring
import Mathlib.Algebra.Order.Field.Rat
import Mathlib.Algebra.Order.Field.Basic
import Mathlib.Algebra.Order.Field.Power
/-
C134: data rates as numbers.  C135: densities, cells and clocks.  C136: rotation rates and times.
-/
namespace Fox
open Rates

theorem pow2_eq (k : Int) : pow2 k = (2 : Rat) ^ k := by
  cases k with
  | ofNat n => simp [pow2]
  | negSucc n => simp [pow2, zpow_negSucc]

theorem pow2_pos (k : Int) : 0 < pow2 k := by rw [pow2_eq]; exact zpow_pos (by norm_num) k

theorem pow2_sub (a b : Nat) : pow2 ((a : Int) - b) = ((2 ^ a : Nat) : Rat) / ((2 ^ b : Nat) : Rat) := by
  rw [pow2_eq, zpow_sub₀ (by norm_num)]
  simp

theorem pow2_pred (k : Int) : pow2 (k - 1) = pow2 k / 2 := by
  rw [pow2_eq, pow2_eq, zpow_sub₀ (by norm_num)]
  simp

theorem lead_le (q : Rat) (h : 0 < q) : pow2 (lead q) ≤ q := by
  unfold lead
  simp only
  split
  · assumption
  · have hn : 0 < q.num := Rat.num_pos.2 h
    have hn' : q.num.natAbs ≠ 0 := by omega
    have e : q = (q.num.natAbs : Rat) / (q.den : Rat) := by
      have : ((q.num.natAbs : Int) : Rat) = (q.num : Rat) := by
        congr 1; omega
      conv => lhs; rw [← Rat.num_div_den q]
      rw [← this]; rfl
    have h1 := Nat.log2_self_le hn'
    have h2 : q.den < 2 ^ (q.den.log2 + 1) := Nat.lt_log2_self
    rw [pow2_pred, pow2_sub]
    have hd : (0 : Rat) < (q.den : Rat) := by exact_mod_cast q.den_pos
    have hb : (0 : Rat) < ((2 ^ q.den.log2 : Nat) : Rat) := by exact_mod_cast Nat.pow_pos (by norm_num)
    conv => rhs; rw [e]
    rw [div_div, div_le_div_iff₀ (by linarith) hd]
    have h1' : ((2 ^ q.num.natAbs.log2 : Nat) : Rat) ≤ (q.num.natAbs : Rat) := by exact_mod_cast h1
    have h2' : (q.den : Rat) ≤ ((2 ^ q.den.log2 : Nat) : Rat) * 2 := by
      rw [Nat.pow_succ] at h2
      exact_mod_cast h2.le
    exact mul_le_mul h1' h2' hd.le (by positivity)

theorem roundEven_near (x : Rat) : |(roundEven x : Rat) - x| ≤ 1 / 2 := by
  have h1 := Rat.floor_le x
  have h2 := Rat.lt_floor_add_one x
  push_cast at h2
  unfold roundEven
  simp only
  split
  · rw [abs_le]; constructor <;> push_cast <;> linarith
  · split
    · rw [abs_le]; constructor <;> push_cast <;> linarith
    · split
      · rw [abs_le]; constructor <;> push_cast <;> linarith
      · rw [abs_le]; constructor <;> push_cast <;> linarith

/-- The error of an `f64`. -/
theorem fl_near (q : Rat) (h : 0 < q) : |fl q - q| ≤ q / 2 ^ 53 := by
  unfold fl
  rw [if_neg (ne_of_gt h), if_pos h]
  have hl := lead_le q h
  have hp := pow2_pos (lead q - 52)
  have e : pow2 (lead q - 52) = pow2 (lead q) / 2 ^ 52 := by
    rw [pow2_eq, pow2_eq, zpow_sub₀ (by norm_num)]
    norm_cast
  have hr := roundEven_near (q / pow2 (lead q - 52))
  have : pow2 (lead q - 52) * (roundEven (q / pow2 (lead q - 52)) : Rat) - q =
      pow2 (lead q - 52) * ((roundEven (q / pow2 (lead q - 52)) : Rat) - q / pow2 (lead q - 52)) := by
    rw [mul_sub, mul_div_cancel₀ _ hp.ne']
  rw [this, abs_mul, abs_of_pos hp]
  calc _ ≤ pow2 (lead q - 52) * (1 / 2) := mul_le_mul_of_nonneg_left hr hp.le
    _ ≤ q / 2 ^ 53 := by rw [e]; norm_num; linarith

theorem asU32_near (x : Rat) (r : Nat) (hr : 0 < r) (hm : r < 2 ^ 31) (h1 : (r : Rat) - 1 < x) (h2 : x < (r : Rat) + 1) :
    asU32 x = r ∨ asU32 x + 1 = r := by
  have a : (r : Int) - 1 ≤ x.floor := Rat.le_floor_iff.2 (by push_cast; exact h1.le)
  have b : x.floor < (r : Int) + 1 := Rat.floor_lt_iff.2 (by push_cast; exact h2)
  unfold asU32
  omega

/-- The nearest number to `b * fl (r / b)` is within 1 of `r`. -/
theorem fl_mul_div (r b : Nat) (hr : 0 < r) (hm : r < 2 ^ 31) (hb : 0 < b) :
    |fl ((b : Rat) * fl ((r : Rat) / b)) - r| < 1 := by
  have hr' : (0 : Rat) < r := by exact_mod_cast hr
  have hm' : (r : Rat) < 2147483648 := by exact_mod_cast (show r < 2147483648 by omega)
  have hb' : (0 : Rat) < b := by exact_mod_cast hb
  have h1 := fl_near ((r : Rat) / b) (div_pos hr' hb')
  generalize fl ((r : Rat) / b) = x at h1 ⊢
  have e : (b : Rat) * (r / b) = r := by rw [mul_comm]; exact div_mul_cancel₀ _ hb'.ne'
  have h2 : |(b : Rat) * x - r| ≤ r / 2 ^ 53 := by
    have : (b : Rat) * x - r = b * (x - r / b) := by rw [mul_sub, e]
    rw [this, abs_mul, abs_of_pos hb']
    calc _ ≤ (b : Rat) * (r / b / 2 ^ 53) := mul_le_mul_of_nonneg_left h1 hb'.le
      _ = r / 2 ^ 53 := by rw [← mul_div_assoc, e]
  generalize (b : Rat) * x = y at h2 ⊢
  rw [abs_le] at h2
  norm_num at h2
  have hy : 0 < y := by linarith
  have h3 := fl_near y hy
  rw [abs_le] at h3
  norm_num at h3
  rw [abs_lt]
  constructor <;> linarith

/-- **C134 (partial).** A data rate read as a `TrackDataRate` and turned into a number again is the same, or one less.  Missing: it is not
always the same (`C134_false_one_less`). -/
theorem C134_back_partial (r : Nat) : (Rate.ofU32 r).toU32 = r ∨ (Rate.ofU32 r).toU32 + 1 = r := by
  have go : ∀ b : Nat, 0 < b → 0 < r → r < 2 ^ 31 → asU32 (fl ((b : Rat) * fl ((r : Rat) / b))) = r ∨
      asU32 (fl ((b : Rat) * fl ((r : Rat) / b))) + 1 = r := by
    intro b hb h0 h1
    have := fl_mul_div r b h0 h1 hb
    rw [abs_lt] at this
    exact asU32_near _ r h0 h1 (by linarith) (by linarith)
  unfold Rate.ofU32
  split
  · exact go 125000 (by omega) (by omega) (by omega)
  · split
    · exact go 250000 (by omega) (by omega) (by omega)
    · split
      · exact go 300000 (by omega) (by omega) (by omega)
      · split
        · exact go 500000 (by omega) (by omega) (by omega)
        · split
          · exact go 1000000 (by omega) (by omega) (by omega)
          · exact .inl rfl

/-- **C134 is false of the code.** Of rates of each class the number comes back one less: the quotient is rounded down, and the product
with it is cut. -/
theorem C134_false_one_less : ∀ r ∈ [125014, 250001, 300026, 500002, 1000001], (Rate.ofU32 r).toU32 + 1 = r := by decide +kernel

/-- The class of a rate. -/
def rateClass : Rate → Option Class
  | .other _ => none
  | .std c _ => some c

/-- **C134.** A rate with a factor within 8 % of 1, turned into a number, is read as a rate of the same class, with nearly the same
factor. -/
theorem C134_class (c : Class) (f : Rat) (h1 : 92 / 100 ≤ f) (h2 : f ≤ 108 / 100) :
    ∃ f', Rate.ofU32 (Rate.std c f).toU32 = .std c f' ∧ |f' - f| ≤ 2 / c.bps := by
  have hb : (0 : Rat) < c.bps := by cases c <;> norm_num [Class.bps]
  have hb' : (c.bps : Rat) ≤ 1000000 := by cases c <;> norm_num [Class.bps]
  have h3 := fl_near (c.bps * f) (mul_pos hb (by linarith))
  have lo : (c.bps : Rat) * (92 / 100) ≤ c.bps * f := mul_le_mul_of_nonneg_left h1 hb.le
  have hi : (c.bps : Rat) * f ≤ c.bps * (108 / 100) := mul_le_mul_of_nonneg_left h2 hb.le
  show ∃ f', Rate.ofU32 (asU32 (fl (c.bps * f))) = .std c f' ∧ _
  generalize hy : (c.bps : Rat) * f = y at h3 lo hi
  generalize fl y = x at h3
  rw [abs_le] at h3
  norm_num at h3
  have a := Rat.floor_le x
  have b := Rat.lt_floor_add_one x
  push_cast at b
  generalize hn : x.floor = n at a b
  -- the number
  have nlo : (c.bps : Rat) * (92 / 100) - 2 < n := by linarith
  have nhi : (n : Rat) < c.bps * (108 / 100) + 1 := by linarith
  have hnn : ∃ m : Nat, n = m := ⟨n.toNat, by
    have : (-1 : Rat) < n := by
      have : (125000 : Rat) ≤ c.bps := by cases c <;> norm_num [Class.bps]
      linarith
    have : (-1 : Int) < n := by exact_mod_cast this
    omega⟩
  obtain ⟨m, rfl⟩ := hnn
  push_cast at nlo nhi a b
  have hm : asU32 x = m := by
    have : (m : Rat) < 2147483648 := by linarith
    have : m < 2147483648 := by exact_mod_cast this
    unfold asU32
    rw [hn]
    omega
  rw [hm]
  have near : ∀ b' : Nat, (b' : Rat) = c.bps → |fl ((m : Rat) / b') - f| ≤ 2 / c.bps := by
    intro b' eb
    rw [eb]
    have m0 : (0 : Rat) < m := by
      have : (125000 : Rat) ≤ c.bps := by cases c <;> norm_num [Class.bps]
      linarith
    have h4 := fl_near ((m : Rat) / c.bps) (div_pos m0 hb)
    have ef : f = y / c.bps := by rw [← hy, mul_comm, mul_div_assoc, div_self hb.ne', mul_one]
    rw [ef]
    have m1 : (m : Rat) / c.bps / 2 ^ 53 = m / 2 ^ 53 / c.bps := by rw [div_div, div_div, mul_comm]
    rw [m1] at h4
    have m2 : (m : Rat) / 2 ^ 53 ≤ 1 / 100 := by norm_num; linarith
    have m3 : (m : Rat) / 2 ^ 53 / c.bps ≤ 1 / 100 / c.bps := div_le_div_of_nonneg_right m2 hb.le
    have m4 : (m : Rat) / c.bps - y / c.bps ≤ 101 / 100 / c.bps := by
      rw [← sub_div]; exact div_le_div_of_nonneg_right (by linarith) hb.le
    have m5 : -(101 / 100) / (c.bps : Rat) ≤ (m : Rat) / c.bps - y / c.bps := by
      rw [← sub_div]; exact div_le_div_of_nonneg_right (by linarith) hb.le
    rw [abs_le] at h4 ⊢
    have p1 : (2 : Rat) / c.bps = 1 / 100 / c.bps + 199 / 100 / c.bps := by rw [← add_div]; norm_num
    have p2 : (199 : Rat) / 100 / c.bps = 101 / 100 / c.bps + 98 / 100 / c.bps := by rw [← add_div]; norm_num
    have p3 : (0 : Rat) ≤ 98 / 100 / c.bps := div_nonneg (by norm_num) hb.le
    have p4 : -(101 / 100) / (c.bps : Rat) = -(101 / 100 / c.bps) := by rw [neg_div]
    constructor <;> linarith
  have nlo' : (c.bps : Rat) * 92 < (m + 2) * 100 := by linarith
  have nhi' : (m : Rat) * 100 < c.bps * 108 + 100 := by linarith
  have nlo'' : c.bps * 92 < (m + 2) * 100 := by exact_mod_cast nlo'
  have nhi'' : m * 100 < c.bps * 108 + 100 := by exact_mod_cast nhi'
  unfold Rate.ofU32
  cases c <;> simp only [Class.bps] at nlo'' nhi'' near ⊢
  · rw [if_pos (by omega)]; exact ⟨_, rfl, by exact_mod_cast near 125000 rfl⟩
  · rw [if_neg (by omega), if_pos (by omega)]; exact ⟨_, rfl, by exact_mod_cast near 250000 rfl⟩
  · rw [if_neg (by omega), if_neg (by omega), if_pos (by omega)]; exact ⟨_, rfl, by exact_mod_cast near 300000 rfl⟩
  · rw [if_neg (by omega), if_neg (by omega), if_neg (by omega), if_pos (by omega)]; exact ⟨_, rfl, by exact_mod_cast near 500000 rfl⟩
  · rw [if_neg (by omega), if_neg (by omega), if_neg (by omega), if_neg (by omega), if_pos (by omega)]
    exact ⟨_, rfl, by exact_mod_cast near 1000000 rfl⟩

/-- The rates that are read as a standard rate, from the first on up to the second. -/
def classRange : Class → Nat × Nat
  | .k125 => (93750, 143750)
  | .k250 => (212000, 271000)
  | .k300 => (271000, 345000)
  | .k500 => (425000, 575000)
  | .k1000 => (850000, 1150000)

/-- **C134.** Exactly the rates of a range are read as a standard rate; the rest is read as it is. -/
theorem C134_ranges (r : Nat) : (∀ c, rateClass (Rate.ofU32 r) = some c ↔ (classRange c).1 ≤ r ∧ r < (classRange c).2) ∧
    (rateClass (Rate.ofU32 r) = none → Rate.ofU32 r = .other r) := by
  unfold Rate.ofU32
  constructor
  · intro c
    cases c <;> simp only [classRange] <;> (repeat' split) <;> simp only [rateClass] <;> simp <;> omega
  · repeat' split
    all_goals first | (intro _; rfl) | (intro h; cases h)

/-- **C134.** Rates of 250 and of 300 kbit/s, and all that are not standard, are of double density. -/
theorem C134_double (r : Rate) : r.density = .double ↔ rateClass r = some .k250 ∨ rateClass r = some .k300 ∨ rateClass r = none := by
  cases r with
  | other n => simp [Rate.density, rateClass]
  | std c f => cases c <;> simp [Rate.density, rateClass]

/-- **C134.** A density turned into a data rate, even by way of the number, is the density again. -/
theorem C134_density (d : Density) : d.rate.density = d ∧ (Rate.ofU32 d.rate.toU32).density = d := by
  revert d
  have : ∀ d ∈ [Density.standard, .double, .high, .extended], d.rate.density = d ∧ (Rate.ofU32 d.rate.toU32).density = d := by
    decide +kernel
  intro d
  exact this d (by cases d <;> simp)

example : Rate.ofU32 245000 = .std .k250 (fl (49 / 50)) ∧ (Rate.ofU32 245000).toU32 = 245000 ∧ Rate.ofU32 400000 = .other 400000 := by
  decide +kernel

/-! ## C135: densities -/

/-- **C135.** The number of cells of a density is read as that density, at any rotation rate. -/
theorem C135_cells (d : Density) (r : Option Rpm) : ∃ n, d.cells r = some n ∧ Density.ofCells n = some d := by
  cases d
  · exact ⟨_, rfl, by decide⟩
  · exact ⟨_, rfl, by decide⟩
  · rcases r with _ | r
    · exact ⟨_, rfl, by decide⟩
    · cases r <;> exact ⟨_, rfl, by decide⟩
  · exact ⟨_, rfl, by decide⟩

theorem clock_cases (d : Density) (r : Option Rpm) : d.clock r = d.clock none ∨ d.clock r = 1666 / 1000000000 ∧ d = .double := by
  cases d
  · exact .inl rfl
  · rcases r with _ | r
    · exact .inl rfl
    · cases r <;> first | exact .inl rfl | exact .inr ⟨rfl, rfl⟩
  · exact .inl rfl
  · exact .inl rfl

/-- **C135 (partial).** The base clock of a density is read as that density, at any rotation rate.  Missing: standard density
(`C135_false_standard`). -/
theorem C135_clock_partial (d : Density) (r : Option Rpm) (h : d ≠ .standard) : Density.ofClock (d.clock r) = some d := by
  rcases clock_cases d r with e | ⟨e, rfl⟩
  · rw [e]
    have : ∀ d ∈ [Density.double, .high, .extended], Density.ofClock (d.clock none) = some d := by decide +kernel
    exact this d (by cases d <;> first | exact absurd rfl h | simp)
  · rw [e]; decide +kernel

/-- **C135 is false of the code: standard density.** Its base clock is not read as a density at all. -/
theorem C135_false_standard (r : Option Rpm) : Density.ofClock (Density.standard.clock r) = none := by
  show Density.ofClock (4 / 1000000) = none
  decide +kernel

/-- **C135.** The base clock is half the time of a bit at the data rate of the density, at 300 RPM. -/
theorem C135_rate (d : Density) : ∃ c, d.rate = .std c 1 ∧ d.clock none * (2 * c.bps) = 1 ∧ ∀ f, d.clock (some (.r300 f)) = d.clock none := by
  cases d
  · exact ⟨_, rfl, by decide +kernel, fun _ => rfl⟩
  · exact ⟨_, rfl, by decide +kernel, fun _ => rfl⟩
  · exact ⟨_, rfl, by decide +kernel, fun _ => rfl⟩
  · exact ⟨_, rfl, by decide +kernel, fun _ => rfl⟩

/-- **C135 (partial).** The cells of a turn, each of the base clock, take the time of a turn: exactly at 300 RPM, and up to 1/10000 of a
second for double and high density at 360 RPM.  Missing: the other rates (`C135_false_turn`). -/
theorem C135_turn_partial (d : Density) (f : Rat) :
    (∃ n, d.cells (some (.r300 f)) = some n ∧ n * d.clock (some (.r300 f)) = (Rpm.r300 1).indexTime) ∧
    (d = .double ∨ d = .high → ∃ n, d.cells (some (.r360 f)) = some n ∧ |n * d.clock (some (.r360 f)) - (Rpm.r360 1).indexTime| ≤ 1 / 10000) := by
  constructor
  · cases d
    · exact ⟨50000, rfl, show (50000 : Nat) * (4 / 1000000 : Rat) = _ by decide +kernel⟩
    · exact ⟨100000, rfl, show (100000 : Nat) * (2 / 1000000 : Rat) = _ by decide +kernel⟩
    · exact ⟨200000, rfl, show (200000 : Nat) * (1 / 1000000 : Rat) = _ by decide +kernel⟩
    · exact ⟨400000, rfl, show (400000 : Nat) * (5 / 10000000 : Rat) = _ by decide +kernel⟩
  · rintro (rfl | rfl)
    · refine ⟨100000, rfl, ?_⟩
      show |(100000 : Nat) * (1666 / 1000000000 : Rat) - 60 / (360 * 1)| ≤ 1 / 10000
      rw [abs_le]; norm_num
    · refine ⟨166666, rfl, ?_⟩
      show |(166666 : Nat) * (1 / 1000000 : Rat) - 60 / (360 * 1)| ≤ 1 / 10000
      rw [abs_le]; norm_num

/-- **C135 is false of the code: turns.** Standard and extended density at 360 RPM, and every density at 150 and at 600 RPM, have the
cells and the clock of a turn at 300 RPM. -/
theorem C135_false_turn (f : Rat) :
    (∀ d, d = .standard ∨ d = .extended → ∃ n, Density.cells d (some (.r360 f)) = some n ∧ n * d.clock (some (.r360 f)) = 1 / 5 ∧
      (Rpm.r360 1).indexTime = 1 / 6) ∧
    (∀ d, ∃ n, Density.cells d (some (.r150 f)) = some n ∧ n * d.clock (some (.r150 f)) = 1 / 5 ∧ (Rpm.r150 1).indexTime = 2 / 5) ∧
    (∀ d, ∃ n, Density.cells d (some (.r600 f)) = some n ∧ n * d.clock (some (.r600 f)) = 1 / 5 ∧ (Rpm.r600 1).indexTime = 1 / 10) := by
  refine ⟨?_, ?_, ?_⟩
  · rintro d (rfl | rfl)
    · exact ⟨50000, rfl, show (50000 : Nat) * (4 / 1000000 : Rat) = _ by decide +kernel, by decide +kernel⟩
    · exact ⟨400000, rfl, show (400000 : Nat) * (5 / 10000000 : Rat) = _ by decide +kernel, by decide +kernel⟩
  · intro d
    cases d
    · exact ⟨50000, rfl, show (50000 : Nat) * (4 / 1000000 : Rat) = _ by decide +kernel, by decide +kernel⟩
    · exact ⟨100000, rfl, show (100000 : Nat) * (2 / 1000000 : Rat) = _ by decide +kernel, by decide +kernel⟩
    · exact ⟨200000, rfl, show (200000 : Nat) * (1 / 1000000 : Rat) = _ by decide +kernel, by decide +kernel⟩
    · exact ⟨400000, rfl, show (400000 : Nat) * (5 / 10000000 : Rat) = _ by decide +kernel, by decide +kernel⟩
  · intro d
    cases d
    · exact ⟨50000, rfl, show (50000 : Nat) * (4 / 1000000 : Rat) = _ by decide +kernel, by decide +kernel⟩
    · exact ⟨100000, rfl, show (100000 : Nat) * (2 / 1000000 : Rat) = _ by decide +kernel, by decide +kernel⟩
    · exact ⟨200000, rfl, show (200000 : Nat) * (1 / 1000000 : Rat) = _ by decide +kernel, by decide +kernel⟩
    · exact ⟨400000, rfl, show (400000 : Nat) * (5 / 10000000 : Rat) = _ by decide +kernel, by decide +kernel⟩

/-- **C135 is false of the code: 360 RPM.** The clock of double density at 360 RPM is already that of the faster turn; adjusting it to
360 RPM, as the decoder of flux does with it, makes it faster again. -/
theorem C135_false_twice (f g : Rat) :
    (Rpm.r360 g).adjust (Density.double.clock (some (.r360 f))) = 1666 / 1000000000 * (5 / 6) ∧
    (Rpm.r360 g).adjust (Density.double.clock none) = 2 / 1000000 * (5 / 6) := by
  constructor
  · show (if (15 / 10000000 : Rat) ≤ 1666 / 1000000000 then 1666 / 1000000000 * (300 / 360) else _) = _
    rw [if_pos (by norm_num)]; norm_num
  · show (if (15 / 10000000 : Rat) ≤ 2 / 1000000 then 2 / 1000000 * (300 / 360) else _) = _
    rw [if_pos (by norm_num)]; norm_num

/-! ## C136: rotation rates -/

theorem sixty (v : Rat) (_h : v ≠ 0) : 60 / (60 / v) = v := by
  rw [div_div_eq_mul_div, mul_comm]
  exact mul_div_cancel_right₀ v (by norm_num)

/-- **C136 (partial).** The time of a turn at a rate near 300 or 360 RPM is read as that rate, with the factor; and whatever rate a time is
read as, the time of a turn at that rate is this time.  Missing: other rates (`C136_false_rates`, `C136_false_zoned`), and the times are
seconds, not milliseconds (`C136_false_ms`). -/
theorem C136_time_partial (f : Rat) :
    (270 ≤ 300 * f → 300 * f < 327 → Rpm.ofIndexTime (Rpm.r300 f).indexTime = some (.r300 f)) ∧
    (327 ≤ 360 * f → 360 * f < 414 → Rpm.ofIndexTime (Rpm.r360 f).indexTime = some (.r360 f)) ∧
    ∀ t r, Rpm.ofIndexTime t = some r → r.indexTime = t ∧ r.value = 60 / t := by
  refine ⟨fun h1 h2 => ?_, fun h1 h2 => ?_, fun t r h => ?_⟩
  · have h0 : 300 * f ≠ 0 := by linarith
    unfold Rpm.ofIndexTime Rpm.indexTime Rpm.value
    rw [if_neg (div_ne_zero (by norm_num) h0), sixty _ h0, if_pos ⟨h1, h2⟩]
    rw [mul_div_cancel_left₀ f (by norm_num)]
  · have h0 : 360 * f ≠ 0 := by linarith
    unfold Rpm.ofIndexTime Rpm.indexTime Rpm.value
    rw [if_neg (div_ne_zero (by norm_num) h0), sixty _ h0, if_neg (by linarith [·.2]), if_pos ⟨h1, h2⟩]
    rw [mul_div_cancel_left₀ f (by norm_num)]
  · have key : r.value = 60 / t ∧ t ≠ 0 := by
      unfold Rpm.ofIndexTime at h
      rw [ite_eq_iff] at h
      rcases h with ⟨_, h⟩ | ⟨h0, h⟩
      · cases h
      · rw [ite_eq_iff] at h
        rcases h with ⟨_, h⟩ | ⟨_, h⟩
        · cases h
          exact ⟨by show 300 * (60 / t / 300) = _; exact mul_div_cancel₀ _ (by norm_num), h0⟩
        · rw [ite_eq_iff] at h
          rcases h with ⟨_, h⟩ | ⟨_, h⟩
          · cases h
            exact ⟨by show 360 * (60 / t / 360) = _; exact mul_div_cancel₀ _ (by norm_num), h0⟩
          · cases h
    refine ⟨?_, key.1⟩
    unfold Rpm.indexTime
    rw [key.1]
    exact sixty t key.2

/-- **C136.** A time is read as a rate exactly if it is that of a turn between 270 RPM, included, and 414 RPM, excluded. -/
theorem C136_range (t : Rat) : (∃ r, Rpm.ofIndexTime t = some r) ↔ 60 / 414 < t ∧ t ≤ 60 / 270 := by
  unfold Rpm.ofIndexTime
  constructor
  · rintro ⟨r, h⟩
    have h0 : t ≠ 0 := fun e => by rw [if_pos e] at h; cases h
    rw [if_neg h0] at h
    have hr : 270 ≤ 60 / t ∧ 60 / t < 414 := by
      rw [ite_eq_iff] at h
      rcases h with ⟨c, _⟩ | ⟨_, h⟩
      · exact ⟨c.1, by linarith [c.2]⟩
      · rw [ite_eq_iff] at h
        rcases h with ⟨c, _⟩ | ⟨_, h⟩
        · exact ⟨by linarith [c.1], c.2⟩
        · cases h
    have ht : 0 < t := by
      rcases lt_trichotomy t 0 with hn | e | hp
      · have := div_neg_of_pos_of_neg (show (0 : Rat) < 60 by norm_num) hn
        linarith
      · exact absurd e h0
      · exact hp
    rw [le_div_iff₀ ht, div_lt_iff₀ ht] at hr
    constructor
    · rw [div_lt_iff₀ (by norm_num)]; linarith
    · rw [le_div_iff₀ (by norm_num)]; linarith
  · rintro ⟨h1, h2⟩
    have ht : 0 < t := by linarith
    rw [div_lt_iff₀ (by norm_num)] at h1
    rw [le_div_iff₀ (by norm_num)] at h2
    have a : 270 ≤ 60 / t := by rw [le_div_iff₀ ht]; linarith
    have b : 60 / t < 414 := by rw [div_lt_iff₀ ht]; linarith
    rw [if_neg ht.ne']
    by_cases c : 60 / t < 327
    · exact ⟨_, if_pos ⟨a, c⟩⟩
    · rw [if_neg (fun x => c x.2), if_pos ⟨by linarith, b⟩]; exact ⟨_, rfl⟩

theorem C136_none (v : Rat) (h0 : 0 < v) (h : v < 270 ∨ 414 ≤ v) : Rpm.ofIndexTime (60 / v) = none := by
  cases hr : Rpm.ofIndexTime (60 / v) with
  | none => rfl
  | some r =>
    obtain ⟨a, b⟩ := (C136_range _).1 ⟨r, hr⟩
    rw [div_lt_div_iff₀ (by norm_num) h0] at a
    rw [div_le_div_iff₀ h0 (by norm_num)] at b
    rcases h with h | h <;> linarith

/-- **C136 is false of the code: rates.** The times of turns within 15 % of 150 RPM, or of 600 RPM, are read as no rate. -/
theorem C136_false_rates (f : Rat) (h1 : 85 / 100 ≤ f) (h2 : f ≤ 115 / 100) :
    Rpm.ofIndexTime (Rpm.r150 f).indexTime = none ∧ Rpm.ofIndexTime (Rpm.r600 f).indexTime = none :=
  ⟨C136_none _ (by show 0 < 150 * f; linarith) (.inl (by show 150 * f < 270; linarith)),
    C136_none _ (by show 0 < 600 * f; linarith) (.inr (by show 414 ≤ 600 * f; linarith))⟩

/-- **C136 is false of the code: zones.** The rate of a disk with zones is that of cylinder 0, though the other zones turn faster; and its time
is read as 360 RPM with a factor. -/
theorem C136_false_zoned (z : Zones) :
    (Rpm.zoned z 1).value = z.at 0 ∧ (∀ c, 16 ≤ c → z.at 0 + 35 ≤ z.at c) ∧
    ∃ f, Rpm.ofIndexTime (Rpm.zoned z 1).indexTime = some (.r360 f) := by
  cases z
  · refine ⟨by decide +kernel, fun c h => ?_, (394 : Rat) / 360, by decide +kernel⟩
    show 394 + 35 ≤ if c < 16 then 394 else if c < 32 then 429 else if c < 48 then 472 else if c < 64 then 525 else 590
    split
    · omega
    · split
      · omega
      · split
        · omega
        · split <;> omega
  · refine ⟨by decide +kernel, fun c h => ?_, (402 : Rat) / 360, by decide +kernel⟩
    show 402 + 35 ≤ if c < 16 then 402 else if c < 32 then 438 else if c < 48 then 482 else if c < 64 then 536 else 603
    split
    · omega
    · split
      · omega
      · split
        · omega
        · split <;> omega

/-- **C136 is false of the documentation: milliseconds.** The documentation says the times are in milliseconds.  The milliseconds of a turn,
at any rate from 1 RPM to 60000 RPM, are read as no rate, and `index_time_ms` of 300 RPM is 0.2, not 200. -/
theorem C136_false_ms (v : Rat) (h1 : 1 ≤ v) (h2 : v ≤ 60000) :
    Rpm.ofIndexTime (60000 / v) = none ∧ (Rpm.r300 1).indexTime = 1 / 5 := by
  refine ⟨?_, by decide +kernel⟩
  cases hr : Rpm.ofIndexTime (60000 / v) with
  | none => rfl
  | some r =>
    have b := ((C136_range _).1 ⟨r, hr⟩).2
    rw [div_le_div_iff₀ (by linarith) (by norm_num)] at b
    linarith

/-- **C136.** At its rate exactly, a rotation rate is shown by its name only. -/
theorem C136_text : (Rpm.r300 1).text = "300RPM".toList ∧ (Rpm.r360 1).text = "360RPM".toList ∧ (Rpm.r150 1).text = "150RPM".toList ∧
    (Rpm.r600 1).text = "600RPM".toList ∧ ∀ z f, (Rpm.zoned z f).text = "Zoned RPM".toList ∧ (Rpm.zoned z f).factor = f :=
  ⟨by decide +kernel, by decide +kernel, by decide +kernel, by decide +kernel, fun _ _ => ⟨rfl, rfl⟩⟩

/-- **C136 is false of the code: the text.** Whatever the factor, if it is not 1, a rate is shown with two signs after another, and the
share of 1 for the percentage. -/
theorem C136_false_text (f : Rat) :
    (1 < f → ∃ t, (Rpm.r300 f).text = "300RPM +-".toList ++ t) ∧ (f < 1 → ∃ t, (Rpm.r300 f).text = "300RPM --".toList ++ t) ∧
    (Rpm.r300 (105 / 100)).text = "300RPM +-0.050%".toList ∧ (Rpm.r360 (98 / 100)).text = "360RPM --0.020%".toList ∧
    (Rpm.r150 (105 / 100)).text = "150RPM +-0.050%".toList ∧ (Rpm.r600 (98 / 100)).text = "600RPM --0.020%".toList := by
  refine ⟨fun h => ?_, fun h => ?_, by decide +kernel, by decide +kernel, by decide +kernel, by decide +kernel⟩
  · unfold Rpm.text Rpm.factor
    simp only
    rw [if_neg h.ne', if_pos h]
    unfold fixed3
    simp only
    rw [if_pos (show 1 - f < 0 by linarith)]
    exact ⟨_, rfl⟩
  · unfold Rpm.text Rpm.factor
    simp only
    rw [if_neg h.ne, if_neg (by linarith)]
    unfold fixed3
    simp only
    rw [if_pos (show f - 1 < 0 by linarith)]
    exact ⟨_, rfl⟩

example : Rpm.ofIndexTime (1 / 5) = some (.r300 1) ∧ Rpm.ofIndexTime (1 / 6) = some (.r360 1) ∧ Rpm.ofIndexTime 200 = none := by decide +kernel

end Fox
