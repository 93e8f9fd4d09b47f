import Verif.Model.FluxTrack
import Verif.Spec.Flux
import Mathlib.Tactic.Linarith
import Mathlib.Algebra.Order.Field.Rat
import Mathlib.Algebra.Order.Field.Basic
/-
The buckets of the histogram, and what it finds in flux with few different intervals.
-/
namespace Fox.Flux

/-- A value of 16 and more, its power of two `2 ^ (p + 3)` and its bucket. -/
theorem bucket_form {v : Nat} (hv : 16 ≤ v) : ∃ p o, 1 ≤ p ∧ o < 8 ∧ bucketOf v = 8 * (p + 1) + o ∧
    (8 + o) * 2 ^ p ≤ v ∧ v < (9 + o) * 2 ^ p := by
  have h1 : 2 ^ v.log2 ≤ v := Nat.log2_self_le (by omega)
  have h2 : v < 2 ^ (v.log2 + 1) := Nat.lt_log2_self
  have h4 : 4 ≤ v.log2 := (Nat.le_log2 (by omega)).2 (by omega)
  obtain ⟨p, hp⟩ : ∃ p, v.log2 = p + 3 := ⟨v.log2 - 3, by omega⟩
  have e : (2 : Nat) ^ v.log2 = 8 * 2 ^ p := by rw [hp, Nat.pow_add]; omega
  have e' : (2 : Nat) ^ (v.log2 + 1) = 16 * 2 ^ p := by rw [Nat.pow_succ, e]; omega
  have hP : 0 < 2 ^ p := Nat.two_pow_pos p
  rw [e] at h1
  rw [e'] at h2
  have hd := Nat.div_add_mod (v - 8 * 2 ^ p) (2 ^ p)
  have hm := Nat.mod_lt (v - 8 * 2 ^ p) hP
  have ho : (v - 8 * 2 ^ p) / 2 ^ p < 8 := by
    rw [Nat.div_lt_iff_lt_mul hP]; omega
  refine ⟨p, (v - 8 * 2 ^ p) / 2 ^ p, by omega, ho, ?_, ?_, ?_⟩
  · unfold bucketOf
    rw [if_neg (by omega), e, show v.log2 - 3 = p by omega]
    generalize (v - 8 * 2 ^ p) / 2 ^ p = o
    omega
  · rw [Nat.add_mul, Nat.mul_comm ((v - 8 * 2 ^ p) / 2 ^ p)]; omega
  · rw [Nat.add_mul, Nat.mul_comm ((v - 8 * 2 ^ p) / 2 ^ p)]; omega

/-- Values further apart than a quarter are two buckets apart. -/
theorem bucket_apart {a b : Nat} (ha : 16 ≤ a) (hb : 16 ≤ b) (h : 5 * a ≤ 4 * b) : bucketOf a + 2 ≤ bucketOf b := by
  obtain ⟨p, o, hp, ho, e1, h1, h2⟩ := bucket_form ha
  obtain ⟨p', o', hp', ho', e2, h1', h2'⟩ := bucket_form hb
  rw [e1, e2]
  by_contra hc
  have hP : 0 < 2 ^ p := Nat.two_pow_pos p
  have key : b < (10 + o + (if o = 7 then 1 else 0)) * 2 ^ p := by
    rcases Nat.lt_or_ge p p' with hlt | hge
    · have hpp : p' = p + 1 := by omega
      have hoo : o' = 0 ∧ o = 7 := by omega
      obtain ⟨rfl, rfl⟩ := hoo
      rw [hpp, Nat.pow_succ] at h2'
      rw [if_pos rfl]
      omega
    · rcases Nat.lt_or_ge p' p with hlt | hge'
      · have : 2 ^ (p' + 1) ≤ 2 ^ p := Nat.pow_le_pow_right (by omega) hlt
        rw [Nat.pow_succ] at this
        have h3 : (9 + o') * 2 ^ p' ≤ 16 * 2 ^ p' := Nat.mul_le_mul_right _ (by omega)
        have h4 : 10 * 2 ^ p ≤ (10 + o + (if o = 7 then 1 else 0)) * 2 ^ p := Nat.mul_le_mul_right _ (by omega)
        omega
      · have hpp : p' = p := by omega
        rw [hpp] at h2' h1'
        have : (9 + o') * 2 ^ p ≤ (10 + o + (if o = 7 then 1 else 0)) * 2 ^ p :=
          Nat.mul_le_mul_right _ (by omega)
        omega
  have : o = 0 ∨ o = 1 ∨ o = 2 ∨ o = 3 ∨ o = 4 ∨ o = 5 ∨ o = 6 ∨ o = 7 := by omega
  rcases this with rfl | rfl | rfl | rfl | rfl | rfl | rfl | rfl <;> simp at key <;> omega

/-- The middle of a bucket is near each of its values. -/
theorem bucket_middle {x : Rat} (hx : 512 ≤ x) : ∀ i, i = bucketOf x.floor.toNat →
    (1 - 58 / 1000) * x ≤ (((bucketStart i + bucketEnd i) / 2 : Nat) : Rat) ∧
    (((bucketStart i + bucketEnd i) / 2 : Nat) : Rat) ≤ (1 + 1 / 16) * x := by
  intro i hi
  have hf1 : (x.floor : Rat) ≤ x := Rat.floor_le x
  have hf2 : x < (x.floor : Rat) + 1 := by have := Rat.lt_floor_add_one x; push_cast at this; exact this
  have hf : (512 : Int) ≤ x.floor := Rat.le_floor_iff.2 (by exact_mod_cast hx)
  obtain ⟨v, hv⟩ : ∃ v : Nat, x.floor = v := ⟨x.floor.toNat, by omega⟩
  have hvn : x.floor.toNat = v := by omega
  have hv5 : 512 ≤ v := by omega
  rw [hv] at hf1 hf2
  rw [hvn] at hi
  have c : ((v : Int) : Rat) = (v : Rat) := by norm_cast
  rw [c] at hf1 hf2
  obtain ⟨p, o, hp, ho, e1, h1, h2⟩ := bucket_form (v := v) (by omega)
  have hp6 : 6 ≤ p := by
    by_contra hc
    have : 2 ^ p ≤ 2 ^ 5 := Nat.pow_le_pow_right (by omega) (by omega)
    have h3 : (9 + o) * 2 ^ p ≤ 16 * 2 ^ 5 := Nat.mul_le_mul (by omega) this
    omega
  obtain ⟨r, hr⟩ : ∃ r, p = r + 1 := ⟨p - 1, by omega⟩
  have hH : 32 ≤ 2 ^ r := by
    have : 2 ^ 5 ≤ 2 ^ r := Nat.pow_le_pow_right (by omega) (by omega)
    omega
  have hW : (2 : Nat) ^ p = 2 * 2 ^ r := by rw [hr, Nat.pow_succ]; omega
  have hmed : (bucketStart i + bucketEnd i) / 2 + 1 = (17 + 2 * o) * 2 ^ r := by
    unfold bucketStart bucketEnd
    rw [hi, e1, if_neg (by omega), if_neg (by omega), show (8 * (p + 1) + o) % 8 = o by omega,
      show (8 * (p + 1) + o) / 8 - 1 = p by omega, hW]
    generalize 2 ^ r = H at hH
    have a1 : (8 + o) * (2 * H) = 16 * H + 2 * (o * H) := by
      rw [Nat.add_mul, Nat.mul_left_comm o]; omega
    have a2 : (9 + o) * (2 * H) = 18 * H + 2 * (o * H) := by
      rw [Nat.add_mul, Nat.mul_left_comm o]; omega
    have a3 : (17 + 2 * o) * H = 17 * H + 2 * (o * H) := by
      rw [Nat.add_mul, Nat.mul_assoc]
    rw [a1, a2, a3]
    omega
  rw [hW] at h1 h2
  have h1' : (8 + (o : Rat)) * (2 * (2 ^ r : Nat)) ≤ v := by exact_mod_cast h1
  have h2' : (v : Rat) + 1 ≤ (9 + (o : Rat)) * (2 * (2 ^ r : Nat)) := by
    have : v + 1 ≤ (9 + o) * (2 * 2 ^ r) := h2
    exact_mod_cast this
  have hm' : (((bucketStart i + bucketEnd i) / 2 : Nat) : Rat) + 1 = (17 + 2 * (o : Rat)) * (2 ^ r : Nat) := by
    exact_mod_cast hmed
  have hH' : (32 : Rat) ≤ (2 ^ r : Nat) := by exact_mod_cast hH
  generalize ((2 ^ r : Nat) : Rat) = H at *
  have hoH : 0 ≤ (o : Rat) * H := mul_nonneg (by exact_mod_cast Nat.zero_le o) (by linarith)
  generalize (((bucketStart i + bucketEnd i) / 2 : Nat) : Rat) = m at *
  constructor
  · nlinarith only [h1', h2', hm', hH', hoH, hf1, hf2]
  · nlinarith only [h1', h2', hm', hH', hoH, hf1, hf2]

open Fox.Spec

theorem times_cons (k x : Nat) (ks : List Nat) : times k (x :: ks) = (if x = k then 1 else 0) + times k ks := by
  unfold times
  by_cases h : x = k
  · subst h
    rw [List.filter_cons_of_pos (by simp), if_pos rfl, List.length_cons]; omega
  · rw [List.filter_cons_of_neg (by simpa using h), if_neg h]; omega

/-- The count of a bucket, if short, medium and long intervals have buckets of their own. -/
theorem bucket_count (V : Nat → Nat) (i : Nat) (hV : ∀ k, 2 ≤ k → k ≤ 4 → V k < 16384)
    (h23 : bucketOf (V 2) < bucketOf (V 3)) (h34 : bucketOf (V 3) < bucketOf (V 4)) :
    ∀ ks : List Nat, (∀ k ∈ ks, 2 ≤ k ∧ k ≤ 4) →
    ((ks.map V).filter fun v => v < 16384 && bucketOf v == i).length =
      (if bucketOf (V 2) = i then times 2 ks else 0) + (if bucketOf (V 3) = i then times 3 ks else 0) +
      (if bucketOf (V 4) = i then times 4 ks else 0) := by
  intro ks
  induction ks with
  | nil => intro _; simp [times]
  | cons k ks ih =>
    intro hk
    have ih := ih (fun x hx => hk x (List.mem_cons_of_mem _ hx))
    have hk0 := hk k List.mem_cons_self
    rw [times_cons, times_cons, times_cons, List.map_cons, List.filter_cons]
    have hv := hV k hk0.1 hk0.2
    have hk' : k = 2 ∨ k = 3 ∨ k = 4 := by omega
    by_cases hb : bucketOf (V k) = i
    · rw [if_pos (by simp [hv, hb]), List.length_cons, ih]
      rcases hk' with rfl | rfl | rfl
      · have n3 : ¬ bucketOf (V 3) = i := by omega
        have n4 : ¬ bucketOf (V 4) = i := by omega
        simp only [if_pos hb, if_neg n3, if_neg n4]; simp; omega
      · have n3 : ¬ bucketOf (V 2) = i := by omega
        have n4 : ¬ bucketOf (V 4) = i := by omega
        simp only [if_pos hb, if_neg n3, if_neg n4]; simp; omega
      · have n3 : ¬ bucketOf (V 3) = i := by omega
        have n4 : ¬ bucketOf (V 2) = i := by omega
        simp only [if_pos hb, if_neg n3, if_neg n4]; simp; omega
    · rw [if_neg (by simp [hb]), ih]
      rcases hk' with rfl | rfl | rfl <;> simp [hb]

theorem sum_le (vs : List Nat) (f : Nat → Nat) (P : Nat → Bool) : ∀ n,
    ((List.range n).map fun i => (vs.filter fun v => P v && f v == i).length).sum ≤
      (vs.filter fun v => P v && decide (f v < n)).length := by
  intro n
  induction n with
  | zero => simp
  | succ n ih =>
    rw [List.range_succ, List.map_append, List.sum_append, List.map_cons, List.map_nil, List.sum_cons, List.sum_nil]
    have : (vs.filter fun v => P v && decide (f v < n + 1)).length =
        (vs.filter fun v => P v && decide (f v < n)).length + (vs.filter fun v => P v && f v == n).length := by
      clear ih
      induction vs with
      | nil => rfl
      | cons v vs ih =>
        rw [List.filter_cons, List.filter_cons, List.filter_cons]
        cases P v with
        | false => simpa using ih
        | true =>
          rcases Nat.lt_trichotomy (f v) n with h | h | h
          · rw [if_pos (by simp; omega), if_pos (by simp; omega), if_neg (by simp; omega)]
            simp only [List.length_cons]; omega
          · rw [if_pos (by simp; omega), if_neg (by simp; omega), if_pos (by simp; omega)]
            simp only [List.length_cons]; omega
          · rw [if_neg (by simp; omega), if_neg (by simp; omega), if_neg (by simp; omega)]
            exact ih
    omega

theorem histogram_sum (ds : List Rat) (f : Rat) : (histogram ds f).sum ≤ (ds.take (round (ds.length * f))).length := by
  unfold histogram
  refine Nat.le_trans (sum_le _ bucketOf (fun v => decide (v < 16384)) _) ?_
  refine Nat.le_trans (List.length_filter_le _ _) ?_
  rw [List.length_map]

theorem histogram_getD (ds : List Rat) (f : Rat) (i : Nat) (hi : i < 96) : (histogram ds f).getD i 0 =
    (((ds.take (round (ds.length * f))).map nanos).filter fun v => v < 16384 && bucketOf v == i).length := by
  unfold histogram buckets
  rw [List.getD_eq_getElem?_getD, List.getElem?_map, List.getElem?_range hi]
  rfl

theorem round_le {x : Rat} {n : Nat} (h : x ≤ n) : round x ≤ n := by
  unfold round
  have h1 : (x + 1 / 2).floor ≤ (n : Int) := by
    have : (x + 1 / 2).floor < (n : Int) + 1 := by
      rw [Rat.floor_lt_iff]
      push_cast
      linarith
    omega
  omega

/-- The first two of the buckets that are maxima. -/
theorem maxima_first (h : List Nat) (b c : Nat) (hb : 1 ≤ b) (hbc : b < c) (hc : c ≤ 94)
    (hsum : ∀ i, i = b ∨ i = c → h.sum ≤ 200 * h.getD i 0)
    (hup : ∀ i, i = b ∨ i = c → h.getD (i - 1) 0 ≤ h.getD i 0 ∧ h.getD (i + 1) 0 < h.getD i 0)
    (hlow : ∀ i, i < b → h.getD i 0 = 0) : ∃ x l, maxima h = b :: x :: l := by
  have hP : ∀ i, i = b ∨ i = c → (fun j => if h.getD (j + 1 - 1) 0 ≤ h.getD (j + 1) 0 ∧ h.getD (j + 1 + 1) 0 < h.getD (j + 1) 0 ∧
      round ((h.sum : Rat) * (5 / 1000)) ≤ h.getD (j + 1) 0 then some (j + 1) else none) (i - 1) = some i := by
    intro i hi
    have e : i - 1 + 1 = i := by omega
    simp only
    rw [e, if_pos]
    refine ⟨(hup i hi).1, (hup i hi).2, round_le ?_⟩
    have := hsum i hi
    have h2 : (h.sum : Rat) ≤ 200 * (h.getD i 0 : Rat) := by exact_mod_cast this
    linarith
  have hN : ∀ i, i < b → (fun j => if h.getD (j + 1 - 1) 0 ≤ h.getD (j + 1) 0 ∧ h.getD (j + 1 + 1) 0 < h.getD (j + 1) 0 ∧
      round ((h.sum : Rat) * (5 / 1000)) ≤ h.getD (j + 1) 0 then some (j + 1) else none) (i - 1) = none ∨ i = 0 := by
    intro i hi
    rcases Nat.eq_zero_or_pos i with h0 | h0
    · exact Or.inr h0
    · left
      have e : i - 1 + 1 = i := by omega
      simp only
      rw [e, if_neg]
      rintro ⟨_, h2, _⟩
      rw [hlow i hi] at h2
      omega
  unfold maxima buckets
  have split : List.range (96 - 2) = (List.range (b - 1)) ++ (b - 1) :: ((List.range' b (c - 1 - b)) ++ (c - 1) :: List.range' c (94 - c)) := by
    apply List.ext_getElem?
    intro i
    rcases Nat.lt_or_ge i 94 with h94 | h94
    · rw [List.getElem?_range (by omega)]
      rcases Nat.lt_or_ge i (b - 1) with hi | hi
      · rw [List.getElem?_append_left (by simpa using hi), List.getElem?_range hi]
      · rw [List.getElem?_append_right (by simpa using hi), List.length_range]
        rcases Nat.eq_or_lt_of_le hi with hi | hi
        · rw [← hi]; simp [hi]
        · rw [show i - (b - 1) = (i - b) + 1 by omega, List.getElem?_cons_succ]
          rcases Nat.lt_or_ge i (c - 1) with hj | hj
          · rw [List.getElem?_append_left (by simp; omega), List.getElem?_range' (by omega)]
            simp; omega
          · rw [List.getElem?_append_right (by simp; omega), List.length_range']
            rcases Nat.eq_or_lt_of_le hj with hj | hj
            · rw [show i - b - (c - 1 - b) = 0 by omega]; simp; omega
            · rw [show i - b - (c - 1 - b) = (i - c) + 1 by omega, List.getElem?_cons_succ, List.getElem?_range' (by omega)]
              simp; omega
    · rw [List.getElem?_eq_none (by simpa using h94), List.getElem?_eq_none]
      simp; omega
  rw [split, List.filterMap_append, List.filterMap_cons, List.filterMap_append, List.filterMap_cons]
  have e1 := hP b (Or.inl rfl)
  have e2 := hP c (Or.inr rfl)
  simp only at e1 e2
  simp only [e1, e2]
  have e3 : (List.range (b - 1)).filterMap (fun j => if h.getD (j + 1 - 1) 0 ≤ h.getD (j + 1) 0 ∧ h.getD (j + 1 + 1) 0 < h.getD (j + 1) 0 ∧
      round ((h.sum : Rat) * (5 / 1000)) ≤ h.getD (j + 1) 0 then some (j + 1) else none) = [] := by
    rw [List.filterMap_eq_nil_iff]
    intro j hj
    have := hN (j + 1) (by have := List.mem_range.1 hj; omega)
    rcases this with h' | h'
    · exact h'
    · omega
  rw [e3, List.nil_append]
  generalize List.filterMap _ (List.range' b _) = A
  cases A with
  | nil => exact ⟨_, _, rfl⟩
  | cons a A => exact ⟨_, _, rfl⟩

/-- The middle of the bucket of a short interval. -/
def peakTime (q : Rat) : Rat :=
  (((bucketStart (bucketOf (nanos (2 * q))) + bucketEnd (bucketOf (nanos (2 * q)))) / 2 : Nat) : Rat) / 1000000000

theorem nanos_ge {d : Rat} {n : Nat} (h : (n : Rat) ≤ d * 1000000000) : n ≤ nanos d := by
  unfold nanos
  have : (n : Int) ≤ (d * 1000000000).floor := Rat.le_floor_iff.2 (by exact_mod_cast h)
  omega

theorem nanos_lt {d : Rat} {n : Nat} (h : d * 1000000000 < n) : nanos d < n ∨ n = 0 := by
  unfold nanos
  have : (d * 1000000000).floor < (n : Int) := Rat.floor_lt_iff.2 (by exact_mod_cast h)
  omega

theorem nanos_cast {d : Rat} (h : 0 ≤ d) : (nanos d : Rat) ≤ d * 1000000000 ∧ d * 1000000000 < (nanos d : Rat) + 1 := by
  have h0 : (0 : Int) ≤ (d * 1000000000).floor := Rat.le_floor_iff.2 (by push_cast; linarith)
  have e : ((nanos d : Nat) : Rat) = ((d * 1000000000).floor : Rat) := by
    unfold nanos
    exact_mod_cast congrArg (fun x : Int => (x : Rat)) (Int.toNat_of_nonneg h0)
  rw [e]
  refine ⟨Rat.floor_le _, ?_⟩
  have := Rat.lt_floor_add_one (d * 1000000000)
  push_cast at this
  exact this

/-- The histogram of flux with perfect timing shows where the short intervals are. -/
theorem peak_perfect {q : Rat} (h1 : 256 / 1000000000 ≤ q) (h2 : q ≤ 38 / 10000000) (f : Rat) (ks : List Nat)
    (hk : ∀ k ∈ ks, 2 ≤ k ∧ k ≤ 4) (hm : Mixed (ks.take (round (ks.length * f)))) :
    baseTransitionTime (histogram (perfect q ks) f) = some (peakTime q) := by
  obtain ⟨⟨m1, m2⟩, m3⟩ := hm
  have hlen : (perfect q ks).length = ks.length := by unfold perfect; rw [List.length_map]
  have htake : (perfect q ks).take (round ((perfect q ks).length * f)) = perfect q (ks.take (round (ks.length * f))) := by
    rw [hlen]; unfold perfect; rw [List.map_take]
  have hs' := histogram_sum (perfect q ks) f
  have hg := histogram_getD (perfect q ks) f
  rw [htake] at hs' hg
  have hk' : ∀ k ∈ ks.take (round (ks.length * f)), 2 ≤ k ∧ k ≤ 4 := fun k hx => hk k (List.mem_of_mem_take hx)
  generalize ks.take (round (ks.length * f)) = s at *
  have hs : (histogram (perfect q ks) f).sum ≤ s.length := by
    unfold perfect at hs' ⊢; rw [List.length_map] at hs'; exact hs'
  obtain ⟨V, hV⟩ : ∃ V : Nat → Nat, V = fun (k : Nat) => nanos ((k : Rat) * q) := ⟨_, rfl⟩
  have hmap : (perfect q s).map nanos = s.map V := by rw [hV]; unfold perfect; rw [List.map_map]; rfl
  have c2 := nanos_cast (d := ((2 : Nat) : Rat) * q) (by push_cast; linarith)
  have c3 := nanos_cast (d := ((3 : Nat) : Rat) * q) (by push_cast; linarith)
  have c4 := nanos_cast (d := ((4 : Nat) : Rat) * q) (by push_cast; linarith)
  have e2 : nanos (((2 : Nat) : Rat) * q) = V 2 := by rw [hV]
  have e3 : nanos (((3 : Nat) : Rat) * q) = V 3 := by rw [hV]
  have e4 : nanos (((4 : Nat) : Rat) * q) = V 4 := by rw [hV]
  rw [e2] at c2; rw [e3] at c3; rw [e4] at c4
  push_cast at c2 c3 c4
  have v2 : 512 ≤ V 2 := by
    have : (511 : Rat) < (V 2 : Nat) := by linarith
    have : 511 < V 2 := by exact_mod_cast this
    omega
  have v23 : 5 * V 2 ≤ 4 * V 3 := by
    have : (5 : Rat) * (V 2 : Nat) ≤ 4 * (V 3 : Nat) := by linarith
    exact_mod_cast this
  have v34 : 5 * V 3 ≤ 4 * V 4 := by
    have : (5 : Rat) * (V 3 : Nat) ≤ 4 * (V 4 : Nat) := by linarith
    exact_mod_cast this
  have v4 : V 4 < 15360 := by
    have : ((V 4 : Nat) : Rat) < 15360 := by linarith
    exact_mod_cast this
  have b23 := bucket_apart (a := V 2) (b := V 3) (by omega) (by omega) v23
  have b34 := bucket_apart (a := V 3) (b := V 4) (by omega) (by omega) v34
  have b4 : bucketOf (V 4) ≤ 94 := by
    obtain ⟨p, o, hp, ho, g1, g2, g3⟩ := bucket_form (v := V 4) (by omega)
    rw [g1]
    by_contra hc
    have hp' : 10 ≤ p := by omega
    have : 2 ^ 10 ≤ 2 ^ p := Nat.pow_le_pow_right (by omega) hp'
    rcases Nat.lt_or_ge 10 p with h | h
    · have : 2 ^ 11 ≤ 2 ^ p := Nat.pow_le_pow_right (by omega) h
      have h5 : 8 * 2 ^ 11 ≤ (8 + o) * 2 ^ p := Nat.mul_le_mul (by omega) this
      omega
    · have hpe : p = 10 := by omega
      subst hpe
      have : o = 7 := by omega
      subst this
      omega
  have b2 : 1 ≤ bucketOf (V 2) := by
    obtain ⟨p, o, hp, ho, g1, g2, g3⟩ := bucket_form (v := V 2) (by omega)
    omega
  have count : ∀ i, i < 96 → (histogram (perfect q ks) f).getD i 0 =
      (if bucketOf (V 2) = i then times 2 s else 0) + (if bucketOf (V 3) = i then times 3 s else 0) +
      (if bucketOf (V 4) = i then times 4 s else 0) := by
    intro i hi
    rw [hg i hi, hmap]
    refine bucket_count V i ?_ (by omega) (by omega) s hk'
    intro k k1 k2
    have : k = 2 ∨ k = 3 ∨ k = 4 := by omega
    rcases this with rfl | rfl | rfl <;> omega
  have g2 : (histogram (perfect q ks) f).getD (bucketOf (V 2)) 0 = times 2 s := by
    rw [count _ (by omega), if_pos rfl, if_neg (by omega), if_neg (by omega)]; rfl
  have g3 : (histogram (perfect q ks) f).getD (bucketOf (V 3)) 0 = times 3 s := by
    rw [count _ (by omega), if_neg (by omega), if_pos rfl, if_neg (by omega)]; omega
  have g4 : (histogram (perfect q ks) f).getD (bucketOf (V 4)) 0 = times 4 s := by
    rw [count _ (by omega), if_neg (by omega), if_neg (by omega), if_pos rfl]; omega
  have z : ∀ i, i < 96 → i ≠ bucketOf (V 2) → i ≠ bucketOf (V 3) → i ≠ bucketOf (V 4) →
      (histogram (perfect q ks) f).getD i 0 = 0 := by
    intro i hi n2 n3 n4
    rw [count _ hi, if_neg (Ne.symm n2), if_neg (Ne.symm n3), if_neg (Ne.symm n4)]
  have fin : ∀ c, (c = bucketOf (V 3) ∧ 1 ≤ times 3 s ∧ s.length ≤ 200 * times 3 s) ∨
      (c = bucketOf (V 4) ∧ 1 ≤ times 4 s ∧ s.length ≤ 200 * times 4 s) →
      ∃ x l, maxima (histogram (perfect q ks) f) = bucketOf (V 2) :: x :: l := by
    intro c hc
    refine maxima_first _ (bucketOf (V 2)) c b2 (by omega) (by omega) ?_ ?_ ?_
    · rintro i (rfl | rfl)
      · rw [g2]; omega
      · rcases hc with ⟨rfl, _, h⟩ | ⟨rfl, _, h⟩
        · rw [g3]; omega
        · rw [g4]; omega
    · rintro i (rfl | rfl)
      · rw [z (bucketOf (V 2) - 1) (by omega) (by omega) (by omega) (by omega),
            z (bucketOf (V 2) + 1) (by omega) (by omega) (by omega) (by omega), g2]; omega
      · rcases hc with ⟨rfl, h, _⟩ | ⟨rfl, h, _⟩
        · rw [z (bucketOf (V 3) - 1) (by omega) (by omega) (by omega) (by omega),
            z (bucketOf (V 3) + 1) (by omega) (by omega) (by omega) (by omega), g3]; omega
        · rcases Nat.lt_or_ge (bucketOf (V 4) + 1) 96 with hlt | hge
          · rw [z (bucketOf (V 4) - 1) (by omega) (by omega) (by omega) (by omega),
            z (bucketOf (V 4) + 1) (by omega) (by omega) (by omega) (by omega), g4]; omega
          · omega
    · intro i hi
      exact z i (by omega) (by omega) (by omega) (by omega)
  have : ∃ x l, maxima (histogram (perfect q ks) f) = bucketOf (V 2) :: x :: l := by
    rcases m3 with h | h
    · exact fin _ (Or.inl ⟨rfl, h⟩)
    · exact fin _ (Or.inr ⟨rfl, h⟩)
  obtain ⟨x, l, hx⟩ := this
  unfold baseTransitionTime peakTime
  rw [hx]
  simp only
  rw [show nanos (2 * q) = V 2 by rw [← e2]; norm_num]

theorem peakTime_near {q : Rat} (h1 : 256 / 1000000000 ≤ q) :
    (1 - 58 / 1000) * q ≤ peakTime q / 2 ∧ peakTime q / 2 ≤ (1 + 1 / 16) * q := by
  have := bucket_middle (x := 2 * q * 1000000000) (by linarith) _ rfl
  have e : bucketOf (2 * q * 1000000000).floor.toNat = bucketOf (nanos (2 * q)) := rfl
  rw [e] at this
  unfold peakTime
  generalize (((bucketStart (bucketOf (nanos (2 * q))) + bucketEnd (bucketOf (nanos (2 * q)))) / 2 : Nat) : Rat) = m at *
  constructor
  · linarith [this.1]
  · linarith [this.2]

end Fox.Flux
