import Verif.Proofs.Histogram
import Verif.Props.Pll
/-
The histogram of intervals that are measured with errors: each kind of interval fills one or two buckets.
-/
namespace Fox.Flux
open Fox Fox.Spec

theorem bucket_mono {a b : Nat} (ha : 16 ≤ a) (h : a ≤ b) : bucketOf a ≤ bucketOf b := by
  obtain ⟨p, o, hp, ho, e1, h1, h2⟩ := bucket_form ha
  obtain ⟨p', o', hp', ho', e2, h1', h2'⟩ := bucket_form (Nat.le_trans ha h)
  rw [e1, e2]
  rcases Nat.lt_or_ge p p' with hlt | hge
  · omega
  · rcases Nat.lt_or_ge p' p with hlt | hge'
    · have : 2 ^ (p' + 1) ≤ 2 ^ p := Nat.pow_le_pow_right (by omega) hlt
      rw [Nat.pow_succ] at this
      have h3 : (9 + o') * 2 ^ p' ≤ 16 * 2 ^ p' := Nat.mul_le_mul_right _ (by omega)
      have h4 : 8 * 2 ^ p ≤ (8 + o) * 2 ^ p := Nat.mul_le_mul_right _ (by omega)
      omega
    · have hpp : p' = p := by omega
      rw [hpp] at h2'
      have h5 : (8 + o) * 2 ^ p < (9 + o') * 2 ^ p := by omega
      have := Nat.lt_of_mul_lt_mul_right h5
      omega

theorem bucket_close {a b : Nat} (ha : 16 ≤ a) (h : a ≤ b) (hc : 15 * b < 16 * a) : bucketOf b ≤ bucketOf a + 1 := by
  obtain ⟨p, o, hp, ho, e1, h1, h2⟩ := bucket_form ha
  obtain ⟨p', o', hp', ho', e2, h1', h2'⟩ := bucket_form (Nat.le_trans ha h)
  rw [e1, e2]
  by_contra hn
  have hP : 0 < 2 ^ p := Nat.two_pow_pos p
  have key : (10 + o + (if o = 7 then 1 else 0)) * 2 ^ p ≤ b := by
    rcases Nat.lt_or_ge p p' with hlt | hge
    · have hq : 2 ^ (p + 1) ≤ 2 ^ p' := Nat.pow_le_pow_right (by omega) hlt
      rw [Nat.pow_succ] at hq
      by_cases ho7 : o = 7
      · subst ho7
        rw [if_pos rfl]
        rcases Nat.lt_or_ge (p + 1) p' with h' | h'
        · have hq2 : 2 ^ (p + 2) ≤ 2 ^ p' := Nat.pow_le_pow_right (by omega) h'
          rw [Nat.pow_add] at hq2
          have : 8 * 2 ^ p' ≤ (8 + o') * 2 ^ p' := Nat.mul_le_mul_right _ (by omega)
          omega
        · have : 9 * 2 ^ p' ≤ (8 + o') * 2 ^ p' := Nat.mul_le_mul_right _ (by omega)
          omega
      · rw [if_neg ho7]
        have h3 : 8 * 2 ^ p' ≤ (8 + o') * 2 ^ p' := Nat.mul_le_mul_right _ (by omega)
        have h4 : (10 + o + 0) * 2 ^ p ≤ 16 * 2 ^ p := Nat.mul_le_mul_right _ (by omega)
        omega
    · have hpp : p' = p := by
        rcases Nat.lt_or_ge p' p with hlt | hge'
        · omega
        · omega
      rw [hpp] at h1'
      have : (10 + o + (if o = 7 then 1 else 0)) * 2 ^ p ≤ (8 + o') * 2 ^ p := Nat.mul_le_mul_right _ (by split <;> omega)
      omega
  have : o = 0 ∨ o = 1 ∨ o = 2 ∨ o = 3 ∨ o = 4 ∨ o = 5 ∨ o = 6 ∨ o = 7 := by omega
  rcases this with rfl | rfl | rfl | rfl | rfl | rfl | rfl | rfl <;> simp at key <;> omega

/-! ## Maxima in a cluster of buckets -/

theorem maxima_mem (h : List Nat) (i : Nat) : i ∈ maxima h ↔ (1 ≤ i ∧ i ≤ 94) ∧ h.getD (i - 1) 0 ≤ h.getD i 0 ∧
    h.getD (i + 1) 0 < h.getD i 0 ∧ round ((h.sum : Rat) * (5 / 1000)) ≤ h.getD i 0 := by
  unfold maxima buckets
  rw [List.mem_filterMap]
  constructor
  · rintro ⟨j, hj, hh⟩
    have := List.mem_range.1 hj
    simp only at hh
    split at hh
    · rename_i hc
      cases hh
      exact ⟨by omega, hc⟩
    · cases hh
  · rintro ⟨hi, hc⟩
    refine ⟨i - 1, List.mem_range.2 (by omega), ?_⟩
    have e : i - 1 + 1 = i := by omega
    simp only
    rw [e, if_pos hc]

theorem maxima_sorted (h : List Nat) : (maxima h).Pairwise (· < ·) := by
  unfold maxima
  refine List.Pairwise.filterMap _ ?_ List.pairwise_lt_range
  intro a a' haa b hb b' hb'
  simp only at hb hb'
  split at hb
  · split at hb'
    · cases hb; cases hb'; omega
    · cases hb'
  · cases hb

/-- The last of the highest buckets from `A` to `A + n`. -/
theorem last_highest (g : Nat → Nat) (A : Nat) : ∀ n, ∃ j, A ≤ j ∧ j ≤ A + n ∧ (∀ i, A ≤ i → i ≤ A + n → g i ≤ g j) ∧
    ∀ i, j < i → i ≤ A + n → g i < g j := by
  intro n
  induction n with
  | zero => exact ⟨A, Nat.le_refl _, Nat.le_refl _, fun i h1 h2 => by rw [show i = A by omega], fun i h1 h2 => by omega⟩
  | succ n ih =>
    obtain ⟨j, a, b, c, d⟩ := ih
    by_cases hn : g j ≤ g (A + (n + 1))
    · refine ⟨A + (n + 1), by omega, by omega, ?_, fun i h1 h2 => by omega⟩
      intro i h1 h2
      rcases Nat.lt_or_ge (A + n) i with h | h
      · rw [show i = A + (n + 1) by omega]
      · exact Nat.le_trans (c i h1 h) hn
    · refine ⟨j, a, by omega, ?_, ?_⟩
      · intro i h1 h2
        rcases Nat.lt_or_ge (A + n) i with h | h
        · rw [show i = A + (n + 1) by omega]; omega
        · exact c i h1 h
      · intro i h1 h2
        rcases Nat.lt_or_ge (A + n) i with h | h
        · rw [show i = A + (n + 1) by omega]; omega
        · exact d i h1 h

/-- A cluster of buckets between empty ones, one of which holds half a percent, has a maximum. -/
theorem cluster_max (h : List Nat) (A B i : Nat) (hA : 1 ≤ A) (hB : B ≤ 94) (hi : A ≤ i ∧ i ≤ B)
    (h0 : h.getD (A - 1) 0 = 0) (h1 : h.getD (B + 1) 0 = 0) (hp : 0 < h.getD i 0) (hs : h.sum ≤ 200 * h.getD i 0) :
    ∃ j, A ≤ j ∧ j ≤ B ∧ j ∈ maxima h := by
  obtain ⟨j, a, b, c, d⟩ := last_highest (fun i => h.getD i 0) A (B - A)
  rw [show A + (B - A) = B by omega] at b c d
  have hij : h.getD i 0 ≤ h.getD j 0 := c i hi.1 hi.2
  refine ⟨j, a, b, (maxima_mem h j).2 ⟨by omega, ?_, ?_, ?_⟩⟩
  · rcases Nat.lt_or_ge A j with h' | h'
    · exact c (j - 1) (by omega) (by omega)
    · rw [show j - 1 = A - 1 by omega, h0]; omega
  · rcases Nat.lt_or_ge j B with h' | h'
    · exact d (j + 1) (by omega) (by omega)
    · rw [show j + 1 = B + 1 by omega, h1]; omega
  · apply round_le
    have h2 : (h.sum : Rat) ≤ 200 * (h.getD j 0 : Rat) := by exact_mod_cast (by omega : h.sum ≤ 200 * h.getD j 0)
    linarith

/-- With two clusters and nothing before the first, the first maximum of at least two is in the first cluster. -/
theorem clusters_first (h : List Nat) (A B C D i j : Nat) (hA : 1 ≤ A) (hBC : B < C) (hD : D ≤ 94)
    (hi : A ≤ i ∧ i ≤ B) (hj : C ≤ j ∧ j ≤ D) (hlow : ∀ x, x < A → h.getD x 0 = 0)
    (h1 : h.getD (B + 1) 0 = 0) (h2 : h.getD (C - 1) 0 = 0) (h3 : h.getD (D + 1) 0 = 0)
    (hpi : 0 < h.getD i 0) (hsi : h.sum ≤ 200 * h.getD i 0) (hpj : 0 < h.getD j 0) (hsj : h.sum ≤ 200 * h.getD j 0) :
    ∃ b x l, maxima h = b :: x :: l ∧ A ≤ b ∧ b ≤ B ∧ 0 < h.getD b 0 := by
  obtain ⟨m, m1, m2, m3⟩ := cluster_max h A B i hA (by omega) hi (hlow _ (by omega)) h1 hpi hsi
  obtain ⟨n, n1, n2, n3⟩ := cluster_max h C D j (by omega) hD hj h2 h3 hpj hsj
  have hs := maxima_sorted h
  have hm := maxima_mem h
  match hl : maxima h with
  | [] => rw [hl] at m3; cases m3
  | [b] =>
    rw [hl] at m3 n3
    have e1 := List.mem_singleton.1 m3
    have e2 := List.mem_singleton.1 n3
    omega
  | b :: x :: l =>
    have hb : b ∈ maxima h := by rw [hl]; exact List.mem_cons_self
    have hpos : 0 < h.getD b 0 := by have := (hm b).1 hb; omega
    refine ⟨b, x, l, rfl, ?_, ?_, hpos⟩
    · by_contra hc
      have := hlow b (by omega)
      omega
    · rw [hl] at m3 hs
      rcases List.mem_cons.1 m3 with e | e
      · omega
      · have := List.rel_of_pairwise_cons hs e
        omega

/-! ## Measured intervals -/

theorem nanos_mono {a b : Rat} (h : a ≤ b) : nanos a ≤ nanos b := by
  unfold nanos
  have : (a * 1000000000).floor ≤ (b * 1000000000).floor :=
    Rat.le_floor_iff.2 (le_trans (Rat.floor_le _) (by linarith))
  omega

theorem measured_length {q tol : Rat} {ks : List Nat} {ds : List Rat} (h : Measured q tol ks ds) : ds.length = ks.length := by
  induction h with
  | nil => rfl
  | cons _ _ ih => simp [ih]

theorem measured_take {q tol : Rat} {ks : List Nat} {ds : List Rat} (h : Measured q tol ks ds) (n : Nat) :
    Measured q tol (ks.take n) (ds.take n) := by
  induction h generalizing n with
  | nil => simp; exact .nil
  | cons hn _ ih =>
    cases n with
    | zero => exact .nil
    | succ n => exact .cons hn (ih n)

/-- How many values are in bucket `i`. -/
def fill (vs : List Nat) (i : Nat) : Nat := (vs.filter fun v => v < 16384 && bucketOf v == i).length

theorem fill_cons (v : Nat) (vs : List Nat) (i : Nat) :
    fill (v :: vs) i = (if v < 16384 ∧ bucketOf v = i then 1 else 0) + fill vs i := by
  unfold fill
  by_cases h : v < 16384 ∧ bucketOf v = i
  · rw [List.filter_cons_of_pos (by simp [h.1, h.2]), if_pos h, List.length_cons]; omega
  · rw [List.filter_cons_of_neg (by simpa using h), if_neg h]; omega

theorem fill_pos {vs : List Nat} {i : Nat} (h : 0 < fill vs i) : ∃ v ∈ vs, bucketOf v = i := by
  unfold fill at h
  obtain ⟨v, hv⟩ := List.exists_mem_of_length_pos h
  obtain ⟨h1, h2⟩ := List.mem_filter.1 hv
  simp at h2
  exact ⟨v, h1, h2.2⟩

theorem cluster_fill {q tol : Rat} (k A : Nat) (hb : ∀ d, Near tol d (k * q) → nanos d < 16384 ∧ A ≤ bucketOf (nanos d) ∧
    bucketOf (nanos d) ≤ A + 1) {ks : List Nat} {ds : List Rat} (h : Measured q tol ks ds) :
    times k ks ≤ fill (ds.map nanos) A + fill (ds.map nanos) (A + 1) := by
  induction h with
  | nil => simp [times]
  | @cons x d ks ds hn _ ih =>
    rw [times_cons, List.map_cons, fill_cons, fill_cons]
    by_cases hx : x = k
    · subst hx
      obtain ⟨b1, b2, b3⟩ := hb d hn
      rw [if_pos rfl]
      rcases Nat.lt_or_ge A (bucketOf (nanos d)) with h' | h'
      · have e : bucketOf (nanos d) = A + 1 := by omega
        rw [if_neg (c := nanos d < 16384 ∧ bucketOf (nanos d) = A) (by omega),
          if_pos (c := nanos d < 16384 ∧ bucketOf (nanos d) = A + 1) ⟨b1, e⟩]; omega
      · have e : bucketOf (nanos d) = A := by omega
        rw [if_pos (c := nanos d < 16384 ∧ bucketOf (nanos d) = A) ⟨b1, e⟩]; omega
    · rw [if_neg hx]; omega

theorem fill_from {q tol : Rat} {ks : List Nat} {ds : List Rat} (h : Measured q tol ks ds) {i : Nat}
    (hp : 0 < fill (ds.map nanos) i) : ∃ k d, k ∈ ks ∧ Near tol d (k * q) ∧ bucketOf (nanos d) = i := by
  obtain ⟨v, hv, e⟩ := fill_pos hp
  obtain ⟨d, hd, rfl⟩ := List.mem_map.1 hv
  obtain ⟨l, rfl, rfl, hl⟩ := measured_zip h
  obtain ⟨x, hx, rfl⟩ := List.mem_map.1 hd
  exact ⟨x.1, x.2, List.mem_map_of_mem hx, hl x hx, e⟩

/-- The histogram of measured intervals has at least two maxima, and the first is the bucket of a short interval. -/
theorem peak_measured {q : Rat} (h1 : 256 / 1000000000 ≤ q) (h2 : q ≤ 38 / 10000000) (f : Rat) {ks : List Nat} {ds : List Rat}
    (hd : Measured q (35 / 1000 * q) ks ds) (hk : ∀ k ∈ ks, 2 ≤ k ∧ k ≤ 4)
    (hm : MixedWell (ks.take (round (ks.length * f)))) :
    ∃ v, Near (35 / 1000 * q) v (2 * q) ∧ baseTransitionTime (histogram ds f) =
      some ((((bucketStart (bucketOf (nanos v)) + bucketEnd (bucketOf (nanos v))) / 2 : Nat) : Rat) / 1000000000) := by
  have hlen := measured_length hd
  have hp : Measured q (35 / 1000 * q) (ks.take (round (ks.length * f))) (ds.take (round (ds.length * f))) := by
    rw [hlen]; exact measured_take hd _
  have hkp : ∀ k ∈ ks.take (round (ks.length * f)), 2 ≤ k ∧ k ≤ 4 := fun k hk' => hk k (List.mem_of_mem_take hk')
  have hget : ∀ i, i < 96 → (histogram ds f).getD i 0 = fill ((ds.take (round (ds.length * f))).map nanos) i :=
    fun i hi => histogram_getD ds f i hi
  have hsum : (histogram ds f).sum ≤ (ks.take (round (ks.length * f))).length := by
    have := histogram_sum ds f
    rw [measured_length hp] at this
    exact this
  have hout : (histogram ds f).getD 96 0 = 0 := by
    unfold histogram buckets
    rw [List.getD_eq_getElem?_getD, List.getElem?_eq_none (by simp)]; rfl
  generalize histogram ds f = H at *
  generalize ks.take (round (ks.length * f)) = K at *
  generalize ds.take (round (ds.length * f)) = W at *
  -- the clusters
  have lo : ∀ k : Nat, 2 ≤ k → k ≤ 4 → ∀ d, Near (35 / 1000 * q) d (k * q) →
      (k : Rat) * q - 35 / 1000 * q ≤ d ∧ d ≤ (k : Rat) * q + 35 / 1000 * q := fun k _ _ d h => h
  have ge16 : ∀ d : Rat, 2 * q - 35 / 1000 * q ≤ d → 16 ≤ nanos d := fun d h => nanos_ge (by push_cast; linarith)
  have lt : ∀ d : Rat, d ≤ 4 * q + 35 / 1000 * q → nanos d < 16384 := by
    intro d h
    rcases nanos_lt (d := d) (n := 16384) (by push_cast; linarith) with h | h
    · exact h
    · omega
  have top : ∀ d : Rat, 2 * q - 35 / 1000 * q ≤ d → d ≤ 4 * q + 35 / 1000 * q → bucketOf (nanos d) ≤ 95 := by
    intro d ha hb
    have := bucket_mono (ge16 d ha) (Nat.le_of_lt_succ (lt d hb))
    have e : bucketOf 16383 = 95 := by decide
    omega
  have apart : ∀ a b : Rat, 2 * q - 35 / 1000 * q ≤ a → 13 / 10 * a ≤ b → bucketOf (nanos a) + 2 ≤ bucketOf (nanos b) := by
    intro a b ha hab
    have ha0 : 0 ≤ a := by linarith
    refine bucket_apart (ge16 a ha) (ge16 b (by linarith)) ?_
    obtain ⟨c1, c2⟩ := nanos_cast ha0
    obtain ⟨c3, c4⟩ := nanos_cast (d := b) (by linarith)
    have hx : (5 : Rat) * (nanos a : Nat) ≤ 4 * (nanos b : Nat) := by linarith
    exact_mod_cast hx
  have close : ∀ a b : Rat, 2 * q - 35 / 1000 * q ≤ a → a ≤ b → b ≤ 1036 / 1000 * a → bucketOf (nanos b) ≤ bucketOf (nanos a) + 1 := by
    intro a b ha hab hb
    have ha0 : 0 ≤ a := by linarith
    refine bucket_close (ge16 a ha) (nanos_mono hab) ?_
    obtain ⟨c1, c2⟩ := nanos_cast ha0
    obtain ⟨c3, c4⟩ := nanos_cast (d := b) (by linarith)
    have hx : (15 : Rat) * (nanos b : Nat) < 16 * (nanos a : Nat) := by linarith
    exact_mod_cast hx
  obtain ⟨A, eA⟩ : ∃ A : Nat → Nat, ∀ k, A k = bucketOf (nanos ((k : Rat) * q - 35 / 1000 * q)) := ⟨_, fun _ => rfl⟩
  obtain ⟨B, eB⟩ : ∃ B : Nat → Nat, ∀ k, B k = bucketOf (nanos ((k : Rat) * q + 35 / 1000 * q)) := ⟨_, fun _ => rfl⟩
  have kq : ∀ k : Nat, 2 ≤ k → k ≤ 4 → 2 * q ≤ (k : Rat) * q ∧ (k : Rat) * q ≤ 4 * q := by
    intro k ha hb
    have : k = 2 ∨ k = 3 ∨ k = 4 := by omega
    rcases this with rfl | rfl | rfl <;> push_cast <;> constructor <;> linarith
  have hin : ∀ k : Nat, 2 ≤ k → k ≤ 4 → ∀ d, Near (35 / 1000 * q) d (k * q) →
      nanos d < 16384 ∧ A k ≤ bucketOf (nanos d) ∧ bucketOf (nanos d) ≤ B k := by
    intro k ha hb d hd
    obtain ⟨c1, c2⟩ := kq k ha hb
    obtain ⟨d1, d2⟩ := lo k ha hb d hd
    rw [eA, eB]
    exact ⟨lt d (by linarith), bucket_mono (ge16 _ (by linarith)) (nanos_mono d1),
      bucket_mono (ge16 _ (by linarith)) (nanos_mono d2)⟩
  have hAB : ∀ k : Nat, 2 ≤ k → k ≤ 4 → A k ≤ B k ∧ B k ≤ A k + 1 ∧ B k ≤ 95 ∧ 16 ≤ A k := by
    intro k ha hb
    obtain ⟨c1, c2⟩ := kq k ha hb
    refine ⟨?_, ?_, ?_, ?_⟩
    · rw [eA, eB]; exact bucket_mono (ge16 _ (by linarith)) (nanos_mono (by linarith))
    · rw [eA, eB]; exact close _ _ (by linarith) (by linarith) (by linarith)
    · rw [eB]; exact top _ (by linarith) (by linarith)
    · rw [eA]
      have := bucket_mono (Nat.le_refl 16) (ge16 ((k : Rat) * q - 35 / 1000 * q) (by linarith))
      have e : bucketOf 16 = 16 := by decide
      omega
  have h23 : B 2 + 2 ≤ A 3 := by
    rw [eA, eB]; exact apart _ _ (by push_cast; linarith) (by push_cast; linarith)
  have h34 : B 3 + 2 ≤ A 4 := by
    rw [eA, eB]; exact apart _ _ (by push_cast; linarith) (by push_cast; linarith)
  obtain ⟨x2, y2, z2, w2⟩ := hAB 2 (by omega) (by omega)
  obtain ⟨x3, y3, z3, w3⟩ := hAB 3 (by omega) (by omega)
  obtain ⟨x4, y4, z4, w4⟩ := hAB 4 (by omega) (by omega)
  -- buckets outside are empty
  have hB4 : B 4 ≤ 94 := by
    -- values below 15362 are in bucket 94 or lower
    rw [eB]
    have e : bucketOf 15359 = 94 := by decide
    have hl : nanos (((4 : Nat) : Rat) * q + 35 / 1000 * q) ≤ 15359 := by
      rcases nanos_lt (d := ((4 : Nat) : Rat) * q + 35 / 1000 * q) (n := 15360) (by push_cast; linarith) with h | h
      · omega
      · omega
    have := bucket_mono (ge16 (((4 : Nat) : Rat) * q + 35 / 1000 * q) (by push_cast; linarith)) hl
    omega
  have hzero : ∀ i, i < 97 → (i < A 2 ∨ B 2 < i) → (i < A 3 ∨ B 3 < i) → (i < A 4 ∨ B 4 < i) → H.getD i 0 = 0 := by
    intro i hi c2 c3 c4
    rcases Nat.lt_or_ge i 96 with hi' | hi'
    · rw [hget i hi']
      by_contra hne
      obtain ⟨k, d, hk', hn, e⟩ := fill_from hp (Nat.pos_of_ne_zero hne)
      obtain ⟨a, b⟩ := hkp k hk'
      obtain ⟨_, g1, g2⟩ := hin k a b d hn
      have : k = 2 ∨ k = 3 ∨ k = 4 := by omega
      rcases this with rfl | rfl | rfl <;> omega
    · rw [show i = 96 by omega]; exact hout
  -- a full bucket in each cluster
  have full : ∀ k : Nat, 2 ≤ k → k ≤ 4 → 1 ≤ times k K → K.length ≤ 100 * times k K →
      ∃ i, A k ≤ i ∧ i ≤ B k ∧ 0 < H.getD i 0 ∧ H.sum ≤ 200 * H.getD i 0 := by
    intro k ha hb t1 t2
    have hf := cluster_fill k (A k) (fun d hd => by
      obtain ⟨g0, g1, g2⟩ := hin k ha hb d hd
      have := (hAB k ha hb).2.1
      exact ⟨g0, g1, by omega⟩) hp
    obtain ⟨u1, u2, u3, u4⟩ := hAB k ha hb
    rcases Nat.lt_or_ge (fill (W.map nanos) (A k)) (fill (W.map nanos) (A k + 1)) with hlt | hge
    · have hpos : 0 < fill (W.map nanos) (A k + 1) := by omega
      have hle : A k + 1 ≤ B k := by
        by_contra hc
        obtain ⟨k', d, hk', hn, e⟩ := fill_from hp hpos
        obtain ⟨a, b⟩ := hkp k' hk'
        obtain ⟨_, g1, g2⟩ := hin k' a b d hn
        have c1 : k = 2 ∨ k = 3 ∨ k = 4 := by omega
        have c2 : k' = 2 ∨ k' = 3 ∨ k' = 4 := by omega
        rcases c1 with rfl | rfl | rfl <;> rcases c2 with rfl | rfl | rfl <;> omega
      refine ⟨A k + 1, by omega, hle, ?_, ?_⟩ <;> rw [hget _ (by omega)] <;> omega
    · refine ⟨A k, by omega, u1, ?_, ?_⟩ <;> rw [hget _ (by omega)] <;> omega
  obtain ⟨⟨m1, m2⟩, m3⟩ := hm
  obtain ⟨i, i1, i2, i3, i4⟩ := full 2 (by omega) (by omega) m1 m2
  have main : ∃ b x l, maxima H = b :: x :: l ∧ A 2 ≤ b ∧ b ≤ B 2 ∧ 0 < H.getD b 0 := by
    rcases m3 with ⟨n1, n2⟩ | ⟨n1, n2⟩
    · obtain ⟨j, j1, j2, j3, j4⟩ := full 3 (by omega) (by omega) n1 n2
      exact clusters_first H (A 2) (B 2) (A 3) (B 3) i j (by omega) (by omega) (by omega) ⟨i1, i2⟩ ⟨j1, j2⟩
        (fun x hx => hzero x (by omega) (by omega) (by omega) (by omega))
        (hzero _ (by omega) (by omega) (by omega) (by omega))
        (hzero _ (by omega) (by omega) (by omega) (by omega))
        (hzero _ (by omega) (by omega) (by omega) (by omega)) i3 i4 j3 j4
    · obtain ⟨j, j1, j2, j3, j4⟩ := full 4 (by omega) (by omega) n1 n2
      exact clusters_first H (A 2) (B 2) (A 4) (B 4) i j (by omega) (by omega) (by omega) ⟨i1, i2⟩ ⟨j1, j2⟩
        (fun x hx => hzero x (by omega) (by omega) (by omega) (by omega))
        (hzero _ (by omega) (by omega) (by omega) (by omega))
        (hzero _ (by omega) (by omega) (by omega) (by omega))
        (hzero _ (by omega) (by omega) (by omega) (by omega)) i3 i4 j3 j4
  obtain ⟨b, x, l, hl, b1, b2, b3⟩ := main
  rw [hget b (by omega)] at b3
  obtain ⟨k, d, hk', hn, e⟩ := fill_from hp b3
  obtain ⟨a, c⟩ := hkp k hk'
  obtain ⟨_, g1, g2⟩ := hin k a c d hn
  have : k = 2 ∨ k = 3 ∨ k = 4 := by omega
  have hk2 : k = 2 := by rcases this with rfl | rfl | rfl <;> omega
  subst hk2
  refine ⟨d, by have := hn; push_cast at this; exact this, ?_⟩
  rw [e]
  unfold baseTransitionTime
  rw [hl]

end Fox.Flux
