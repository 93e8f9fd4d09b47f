import Verif.Proofs.LzhufTree
/-
`rebuild_huff` keeps the tree well formed and brings the root below the limit.
-/
namespace Fox
namespace Lzhuf

theorem foldlM_range_inv {σ} (f : σ → Nat → Except Err σ) (I : Nat → σ → Prop) (n : Nat)
    (hstep : ∀ i st, i < n → I i st → ∃ st', f st i = .ok st' ∧ I (i + 1) st') :
    ∀ st, I 0 st → ∃ st', (List.range n).foldlM f st = .ok st' ∧ I n st' := by
  induction n with
  | zero => intro st h; exact ⟨st, rfl, h⟩
  | succ n ih =>
    intro st h
    obtain ⟨st1, h1, h2⟩ := ih (fun i st hi => hstep i st (by omega)) st h
    obtain ⟨st2, h3, h4⟩ := hstep n st1 (by omega) h2
    refine ⟨st2, ?_, h4⟩
    rw [List.range_succ, List.foldlM_append, h1]
    show (List.foldlM f st1 [n]) = _
    rw [List.foldlM_cons, h3]; rfl

theorem sumTo_eq_sum (f : Nat → Nat) (n : Nat) : sumTo f n = ((List.range n).map f).sum := by
  induction n with
  | zero => rfl
  | succ n ih => rw [List.range_succ, List.map_append, List.sum_append, ← ih]; simp [sumTo]

theorem map_range_nodup (f : Nat → Nat) (j : Nat) (hinj : ∀ p q, p < j → q < j → f p = f q → p = q) :
    ((List.range j).map f).Nodup := by
  induction j with
  | zero => simp
  | succ j ih =>
    rw [List.range_succ, List.map_append, List.nodup_append]
    refine ⟨ih (fun p q hp hq => hinj p q (by omega) (by omega)), by simp, ?_⟩
    intro a ha b hb e
    simp only [List.mem_map, List.mem_range] at ha
    obtain ⟨p, hp, rfl⟩ := ha
    simp only [List.map_cons, List.map_nil, List.mem_singleton] at hb
    have := hinj p j (by omega) (by omega) (by omega)
    omega

/-- A bijection between two initial segments. -/
theorem perm_range (f : Nat → Nat) (j n : Nat) (hinj : ∀ p q, p < j → q < j → f p = f q → p = q)
    (hto : ∀ p, p < j → f p < n) (hsurj : ∀ s, s < n → ∃ p, p < j ∧ f p = s) :
    ((List.range j).map f).Perm (List.range n) := by
  rw [List.perm_ext_iff_of_nodup (map_range_nodup f j hinj) List.nodup_range]
  intro a
  simp only [List.mem_map, List.mem_range]
  constructor
  · rintro ⟨p, hp, rfl⟩; exact hto p hp
  · intro h; obtain ⟨p, hp, e⟩ := hsurj a h; exact ⟨p, hp, e⟩

/-- What the first loop of the rebuild has done after `i` nodes. -/
structure Packed (t : Tree) (i : Nat) (st : Nat × List Nat × List Nat) : Prop where
  ji : st.1 ≤ i
  lf : st.2.1.length = 2 * t.n
  ls : st.2.2.length = t.count
  freq : ∀ x, i ≤ x → st.2.1.getD x 0 = t.F x
  son : ∀ x, i ≤ x → st.2.2.getD x 0 = t.S x
  leaf : ∀ p, p < st.1 → t.count ≤ st.2.2.getD p 0 ∧ st.2.2.getD p 0 < t.count + t.n ∧
    st.2.1.getD p 0 = (t.F (t.Y (st.2.2.getD p 0 - t.count)) + 1) / 2 ∧
    t.Y (st.2.2.getD p 0 - t.count) < i
  ord : ∀ p q, p < q → q < st.1 → t.Y (st.2.2.getD p 0 - t.count) < t.Y (st.2.2.getD q 0 - t.count)
  all : ∀ s, s < t.n → t.Y s < i → ∃ p, p < st.1 ∧ st.2.2.getD p 0 = t.count + s

theorem packLeaf_spec (t : Tree) (h : Inv t none) (i : Nat) (st : Nat × List Nat × List Nat) (hi : i < t.count)
    (hp : Packed t i st) : ∃ st', packLeaf t.count st i = .ok st' ∧ Packed t (i + 1) st' := by
  have hn := h.n2
  have hcount : t.count = 2 * t.n - 1 := rfl
  have hls := hp.ls
  have hlf := hp.lf
  have hji := hp.ji
  obtain ⟨j, freq, son⟩ := st
  replace hls : son.length = t.count := hls
  replace hlf : freq.length = 2 * t.n := hlf
  replace hji : j ≤ i := hji
  unfold packLeaf
  rw [rd_ok _ _ (show i < son.length by omega)]
  show ∃ st', (if son.getD i 0 ≥ t.count then _ else _) = _ ∧ _
  rw [hp.son i (Nat.le_refl _)]
  by_cases hg : t.S i ≥ t.count
  · rw [if_pos hg]
    have hl := h.leaf i hi hg
    show ∃ st', (rd freq i >>= _) = _ ∧ _
    rw [rd_ok _ _ (by omega), hp.freq i (Nat.le_refl _)]
    show ∃ st', (wr freq j ((t.F i + 1) / 2) >>= _) = _ ∧ _
    rw [wr_ok _ _ _ (by omega)]
    show ∃ st', (wr son j (t.S i) >>= _) = _ ∧ _
    rw [wr_ok _ _ _ (by omega)]
    refine ⟨_, rfl, ?_⟩
    have hF : ∀ x, (freq.set j ((t.F i + 1) / 2)).getD x 0 = if j = x then (t.F i + 1) / 2 else freq.getD x 0 :=
      fun x => getD_set _ _ _ _ _ (by omega)
    have hS : ∀ x, (son.set j (t.S i)).getD x 0 = if j = x then t.S i else son.getD x 0 :=
      fun x => getD_set _ _ _ _ _ (by omega)
    refine ⟨by show j + 1 ≤ i + 1; omega, by simpa using hlf, by simpa using hls, ?_, ?_, ?_, ?_, ?_⟩
    · intro x hx
      show (freq.set j _).getD x 0 = _
      rw [hF, if_neg (by omega)]; exact hp.freq x (by omega)
    · intro x hx
      show (son.set j _).getD x 0 = _
      rw [hS, if_neg (by omega)]; exact hp.son x (by omega)
    · intro p hpj
      replace hpj : p < j + 1 := hpj
      show t.count ≤ (son.set j _).getD p 0 ∧ (son.set j _).getD p 0 < _ ∧ (freq.set j _).getD p 0 = _ ∧ _
      simp only [hS, hF]
      by_cases e : j = p
      · simp only [if_pos e, hl.2]; exact ⟨hg, hl.1, trivial, by omega⟩
      · have := hp.leaf p (show p < j by omega)
        simp only [if_neg e]
        exact ⟨this.1, this.2.1, this.2.2.1, by have := this.2.2.2; show _ < i + 1; exact Nat.lt_succ_of_lt this⟩
    · intro p q hpq hq
      replace hq : q < j + 1 := hq
      show t.Y ((son.set j _).getD p 0 - t.count) < t.Y ((son.set j _).getD q 0 - t.count)
      rw [hS, hS, if_neg (by omega)]
      by_cases e : j = q
      · rw [if_pos e, hl.2]; exact (hp.leaf p (show p < j by omega)).2.2.2
      · rw [if_neg e]; exact hp.ord p q hpq (show q < j by omega)
    · intro s hs hy
      show ∃ p, p < j + 1 ∧ (son.set j _).getD p 0 = _
      by_cases e : t.Y s = i
      · have := (h.symb s hs).2
        rw [e] at this
        exact ⟨j, by omega, by rw [hS, if_pos rfl, this]⟩
      · obtain ⟨p, hpj, hpe⟩ := hp.all s hs (by omega)
        replace hpj : p < j := hpj
        exact ⟨p, by omega, by rw [hS, if_neg (by omega)]; exact hpe⟩
  · rw [if_neg hg]
    refine ⟨_, rfl, ?_⟩
    refine ⟨by show j ≤ i + 1; omega, hlf, hls, fun x hx => hp.freq x (by omega), fun x hx => hp.son x (by omega),
      ?_, hp.ord, ?_⟩
    · intro p hpj
      have := hp.leaf p hpj
      exact ⟨this.1, this.2.1, this.2.2.1, Nat.lt_succ_of_lt this.2.2.2⟩
    · intro s hs hy
      apply hp.all s hs
      have : t.Y s ≠ i := by
        intro e
        have := (h.symb s hs).2
        rw [e] at this; omega
      omega

/-- What the second loop of the rebuild keeps; `w` is the weight of a leaf code. -/
structure Joined (n : Nat) (w : Nat → Nat) (total m : Nat) (freq son : List Nat) : Prop where
  lf : freq.length = 2 * n
  ls : son.length = 2 * n - 1
  top : freq.getD (2 * n - 1) 0 = 0xffff
  mono : ∀ i, i + 1 < n + m → freq.getD i 0 ≤ freq.getD (i + 1) 0
  pos : ∀ i, i < n + m → 1 ≤ freq.getD i 0
  kind : ∀ p, p < n + m → (2 * n - 1 ≤ son.getD p 0 ∧ son.getD p 0 < 2 * n - 1 + n ∧ freq.getD p 0 = w (son.getD p 0)) ∨
    (son.getD p 0 < 2 * m ∧ son.getD p 0 % 2 = 0 ∧ son.getD p 0 + 1 < p ∧
      freq.getD (son.getD p 0) 0 + freq.getD (son.getD p 0 + 1) 0 = freq.getD p 0)
  inj : ∀ p q, p < n + m → q < n + m → son.getD p 0 = son.getD q 0 → p = q
  leaves : ∀ s, s < n → ∃ p, p < n + m ∧ son.getD p 0 = 2 * n - 1 + s
  evens : ∀ e, e < m → ∃ p, p < n + m ∧ son.getD p 0 = 2 * e
  sum : sumTo (fun x => freq.getD x 0) (n + m) = sumTo (fun x => freq.getD x 0) (2 * m) + total

theorem Joined.le {n w total m freq son} (h : Joined n w total m freq son) :
    ∀ i j, i ≤ j → j < n + m → freq.getD i 0 ≤ freq.getD j 0 := by
  intro i j hij hj
  induction j with
  | zero => have : i = 0 := by omega
            subst this; exact Nat.le_refl _
  | succ j ih =>
    by_cases e : i = j + 1
    · subst e; exact Nat.le_refl _
    · exact Nat.le_trans (ih (by omega) (by omega)) (h.mono j (by omega))

theorem scanDown_spec (freq : List Nat) (f lo : Nat) (hlo : freq.getD lo 0 ≤ f) :
    ∀ k, lo ≤ k → k < freq.length → ∃ m, scanDown freq f k = .ok m ∧ lo ≤ m ∧ m ≤ k ∧ freq.getD m 0 ≤ f ∧
      ∀ x, m < x → x ≤ k → f < freq.getD x 0 := by
  intro k
  induction k with
  | zero =>
    intro hk hl
    have : lo = 0 := by omega
    subst this
    unfold scanDown
    rw [rd_ok _ _ hl]
    show ∃ m, (if f < freq.getD 0 0 then _ else _) = _ ∧ _
    rw [if_neg (by omega)]
    exact ⟨0, rfl, Nat.le_refl _, Nat.le_refl _, hlo, fun x h1 h2 => by omega⟩
  | succ k ih =>
    intro hk hl
    unfold scanDown
    rw [rd_ok _ _ hl]
    show ∃ m, (if f < freq.getD (k + 1) 0 then _ else _) = _ ∧ _
    by_cases hg : f < freq.getD (k + 1) 0
    · rw [if_pos hg]
      have : lo ≠ k + 1 := by intro e; rw [e] at hlo; omega
      obtain ⟨m, h1, h2, h3, h4, h5⟩ := ih (by omega) (by omega)
      refine ⟨m, h1, h2, by omega, h4, ?_⟩
      intro x hx1 hx2
      by_cases e : x = k + 1
      · rw [e]; exact hg
      · exact h5 x hx1 (by omega)
    · rw [if_neg hg]
      exact ⟨k + 1, rfl, hk, Nat.le_refl _, by omega, fun x h1 h2 => by omega⟩

theorem shiftUp_spec (k : Nat) : ∀ l (v : List Nat), k + l < v.length → ∃ v', shiftUp v k l = .ok v' ∧
    v'.length = v.length ∧ ∀ x, v'.getD x 0 = if k < x ∧ x ≤ k + l then v.getD (x - 1) 0 else v.getD x 0 := by
  intro l
  induction l with
  | zero => intro v _; exact ⟨v, rfl, rfl, fun x => by rw [if_neg (by omega)]⟩
  | succ l ih =>
    intro v hv
    unfold shiftUp
    rw [rd_ok _ _ (by omega)]
    show ∃ v', (wr v (k + l + 1) (v.getD (k + l) 0) >>= _) = _ ∧ _
    rw [wr_ok _ _ _ (by omega)]
    obtain ⟨v', h1, h2, h3⟩ := ih (v.set (k + l + 1) (v.getD (k + l) 0)) (by rw [List.length_set]; omega)
    refine ⟨v', h1, by rw [h2, List.length_set], ?_⟩
    intro x
    rw [h3, getD_set _ _ _ _ _ (by omega), getD_set _ _ _ _ _ (by omega)]
    by_cases e : x = k + l + 1
    · subst e
      rw [if_neg (by omega), if_pos rfl, if_pos (by omega)]; rfl
    · by_cases e2 : k < x ∧ x ≤ k + l
      · rw [if_pos e2, if_neg (by omega), if_pos (by omega)]
      · rw [if_neg e2, if_neg (by omega), if_neg (by omega)]

theorem sumTo_insert (A A' : Nat → Nat) (k f : Nat) (h1 : ∀ x, x < k → A' x = A x) (h2 : A' k = f)
    : ∀ j, k ≤ j → (∀ x, k < x → x ≤ j → A' x = A (x - 1)) → sumTo A' (j + 1) = sumTo A j + f := by
  intro j
  induction j with
  | zero =>
    intro hk _
    have : k = 0 := by omega
    subst this
    simp [sumTo, h2]
  | succ j ih =>
    intro hk h3
    by_cases e : k = j + 1
    · subst e
      rw [sumTo, h2, sumTo_congr A' A _ h1]
    · rw [sumTo, ih (by omega) (fun x a b => h3 x a (by omega)), h3 (j + 1) (by omega) (Nat.le_refl _)]
      simp only [sumTo, Nat.add_sub_cancel]; omega

theorem connect_step (n : Nat) (w : Nat → Nat) (total m : Nat) (freq son : List Nat) (hm : m < n - 1)
    (h : Joined n w total m freq son) (fuel : Nat) :
    ∃ freq' son', connect (2 * n - 1) (fuel + 1) freq son (2 * m) (n + m) =
      connect (2 * n - 1) fuel freq' son' (2 * m + 2) (n + m + 1) ∧ Joined n w total (m + 1) freq' son' := by
  have hlf := h.lf
  have hls := h.ls
  rw [connect, if_pos (by omega), rd_ok _ _ (by omega)]
  show ∃ freq' son', (rd freq (2 * m + 1) >>= _) = _ ∧ _
  rw [rd_ok _ _ (by omega)]
  generalize hf : freq.getD (2 * m) 0 + freq.getD (2 * m + 1) 0 = f
  show ∃ freq' son', (wr freq (n + m) (freq.getD (2 * m) 0 + freq.getD (2 * m + 1) 0) >>= _) = _ ∧ _
  simp only [hf]
  rw [wr_ok _ _ _ (by omega)]
  have hF0 : ∀ x, (freq.set (n + m) f).getD x 0 = if n + m = x then f else freq.getD x 0 :=
    fun x => getD_set _ _ _ _ _ (by omega)
  obtain ⟨k0, hk0, hk1, hk2, hk3, hk4⟩ := scanDown_spec (freq.set (n + m) f) f (2 * m + 1)
    (by rw [hF0, if_neg (by omega)]; omega) (n + m - 1) (by omega) (by rw [List.length_set]; omega)
  show ∃ freq' son', (scanDown (freq.set (n + m) f) f (n + m - 1) >>= _) = _ ∧ _
  rw [hk0]
  generalize hk : k0 + 1 = k
  have ek : k0 = k - 1 := by omega
  subst ek
  show ∃ freq' son', (shiftUp (freq.set (n + m) f) (k - 1 + 1) ((n + m - (k - 1 + 1)) * 2) >>= _) = _ ∧ _
  rw [hk]
  obtain ⟨fr1, hs1, hs2, hs3⟩ := shiftUp_spec k ((n + m - k) * 2) (freq.set (n + m) f)
    (by rw [List.length_set]; omega)
  rw [hs1]
  show ∃ freq' son', (wr fr1 k f >>= _) = _ ∧ _
  rw [List.length_set] at hs2
  rw [wr_ok _ _ _ (by omega)]
  obtain ⟨so1, hp1, hp2, hp3⟩ := shiftUp_spec k ((n + m - k) * 2) son (by omega)
  show ∃ freq' son', (shiftUp son k ((n + m - k) * 2) >>= _) = _ ∧ _
  rw [hp1]
  show ∃ freq' son', (wr so1 k (2 * m) >>= _) = _ ∧ _
  rw [wr_ok _ _ _ (by omega)]
  refine ⟨_, _, rfl, ?_⟩
  have hA : ∀ x, x ≤ n + m → (fr1.set k f).getD x 0 =
      if x < k then freq.getD x 0 else if x = k then f else freq.getD (x - 1) 0 := by
    intro x hx
    rw [getD_set _ _ _ _ _ (by omega)]
    by_cases e : x = k
    · rw [if_pos e.symm, if_neg (by omega), if_pos e]
    · rw [if_neg (fun e2 => e e2.symm), hs3, hF0, hF0]
      by_cases e2 : x < k
      · rw [if_neg (by omega), if_neg (by omega), if_pos e2]
      · rw [if_pos (by omega), if_neg (by omega), if_neg e2, if_neg e]
  have hB : ∀ x, x ≤ n + m → (so1.set k (2 * m)).getD x 0 =
      if x < k then son.getD x 0 else if x = k then 2 * m else son.getD (x - 1) 0 := by
    intro x hx
    rw [getD_set _ _ _ _ _ (by omega)]
    by_cases e : x = k
    · rw [if_pos e.symm, if_neg (by omega), if_pos e]
    · rw [if_neg (fun e2 => e e2.symm), hp3]
      by_cases e2 : x < k
      · rw [if_neg (by omega), if_pos e2]
      · rw [if_pos (by omega), if_neg e2, if_neg e]
  have hkb : 2 * m + 2 ≤ k ∧ k ≤ n + m := by omega
  have hsm : ∀ p, p < n + m → son.getD p 0 ≠ 2 * m := by
    intro p hp e
    rcases h.kind p hp with h1 | h1 <;> omega
  -- where a node of the old list went
  have hmove : ∀ p, p < n + m → ∃ q, q < n + m + 1 ∧ q ≠ k ∧ (so1.set k (2 * m)).getD q 0 = son.getD p 0 := by
    intro p hp
    by_cases e : p < k
    · exact ⟨p, by omega, by omega, by rw [hB p (by omega), if_pos e]⟩
    · exact ⟨p + 1, by omega, by omega, by
        rw [hB (p + 1) (by omega), if_neg (by omega), if_neg (by omega)]; rfl⟩
  refine ⟨by rw [List.length_set]; omega, by rw [List.length_set]; omega, ?_, ?_, ?_, ?_, ?_, ?_, ?_, ?_⟩
  · rw [getD_set _ _ _ _ _ (by omega), if_neg (by omega), hs3, if_neg (by omega), hF0, if_neg (by omega)]
    exact h.top
  · intro i hi
    rw [hA i (by omega), hA (i + 1) (by omega)]
    by_cases e1 : i + 1 < k
    · rw [if_pos (by omega), if_pos e1]; exact h.mono i (by omega)
    · by_cases e2 : i + 1 = k
      · rw [if_pos (by omega), if_neg e1, if_pos e2]
        rw [hF0, if_neg (by omega)] at hk3
        rw [show i = k - 1 by omega]; exact hk3
      · rw [if_neg (by omega), if_neg e1, if_neg e2]
        by_cases e3 : i = k
        · rw [if_pos e3]
          subst e3
          have := hk4 i (by omega) (by omega)
          rw [hF0, if_neg (by omega)] at this
          rw [Nat.add_sub_cancel]; omega
        · rw [if_neg e3]
          have := h.mono (i - 1) (by omega)
          rw [show i - 1 + 1 = i by omega] at this
          rw [Nat.add_sub_cancel]; exact this
  · intro i hi
    rw [hA i (by omega)]
    by_cases e1 : i < k
    · rw [if_pos e1]; exact h.pos i (by omega)
    · rw [if_neg e1]
      by_cases e2 : i = k
      · rw [if_pos e2]
        have := h.pos (2 * m) (by omega)
        omega
      · rw [if_neg e2]; exact h.pos _ (by omega)
  · intro p hp
    have key : ∀ p0, p0 < n + m → p0 ≤ p → (so1.set k (2 * m)).getD p 0 = son.getD p0 0 →
        (fr1.set k f).getD p 0 = freq.getD p0 0 →
        ((2 * n - 1 ≤ (so1.set k (2 * m)).getD p 0 ∧ (so1.set k (2 * m)).getD p 0 < 2 * n - 1 + n ∧
          (fr1.set k f).getD p 0 = w ((so1.set k (2 * m)).getD p 0)) ∨
        ((so1.set k (2 * m)).getD p 0 < 2 * (m + 1) ∧ (so1.set k (2 * m)).getD p 0 % 2 = 0 ∧
          (so1.set k (2 * m)).getD p 0 + 1 < p ∧ (fr1.set k f).getD ((so1.set k (2 * m)).getD p 0) 0 +
          (fr1.set k f).getD ((so1.set k (2 * m)).getD p 0 + 1) 0 = (fr1.set k f).getD p 0)) := by
      intro p0 hp0 hpp e1 e2
      rw [e1, e2]
      rcases h.kind p0 hp0 with h1 | h1
      · left; exact h1
      · right
        rw [hA _ (by omega), hA _ (by omega), if_pos (by omega), if_pos (by omega)]
        exact ⟨by omega, h1.2.1, by omega, h1.2.2.2⟩
    by_cases e1 : p < k
    · exact key p (by omega) (Nat.le_refl _) (by rw [hB p (by omega), if_pos e1]) (by rw [hA p (by omega), if_pos e1])
    · by_cases e2 : p = k
      · right
        rw [hB p (by omega), hA p (by omega), if_neg e1, if_pos e2, if_neg e1, if_pos e2, hA _ (by omega),
          hA _ (by omega), if_pos (by omega), if_pos (by omega)]
        exact ⟨by omega, by omega, by omega, hf⟩
      · exact key (p - 1) (by omega) (by omega) (by rw [hB p (by omega), if_neg e1, if_neg e2])
          (by rw [hA p (by omega), if_neg e1, if_neg e2])
  · intro p q hp hq e
    rw [hB p (by omega), hB q (by omega)] at e
    by_cases p1 : p < k
    · rw [if_pos p1] at e
      by_cases q1 : q < k
      · rw [if_pos q1] at e; exact h.inj p q (by omega) (by omega) e
      · rw [if_neg q1] at e
        by_cases q2 : q = k
        · rw [if_pos q2] at e; exact absurd e (hsm p (by omega))
        · rw [if_neg q2] at e
          have := h.inj p (q - 1) (by omega) (by omega) e
          omega
    · rw [if_neg p1] at e
      by_cases p2 : p = k
      · rw [if_pos p2] at e
        by_cases q1 : q < k
        · rw [if_pos q1] at e; exact absurd e.symm (hsm q (by omega))
        · rw [if_neg q1] at e
          by_cases q2 : q = k
          · omega
          · rw [if_neg q2] at e; exact absurd e.symm (hsm (q - 1) (by omega))
      · rw [if_neg p2] at e
        by_cases q1 : q < k
        · rw [if_pos q1] at e
          have := h.inj (p - 1) q (by omega) (by omega) e
          omega
        · rw [if_neg q1] at e
          by_cases q2 : q = k
          · rw [if_pos q2] at e; exact absurd e (hsm (p - 1) (by omega))
          · rw [if_neg q2] at e
            have := h.inj (p - 1) (q - 1) (by omega) (by omega) e
            omega
  · intro s hs
    obtain ⟨p, hp, e⟩ := h.leaves s hs
    obtain ⟨q, hq, _, e2⟩ := hmove p hp
    exact ⟨q, by omega, by rw [e2, e]⟩
  · intro x hx
    by_cases ex : x = m
    · exact ⟨k, by omega, by rw [hB k (by omega), if_neg (by omega), if_pos rfl, ex]⟩
    · obtain ⟨p, hp, e⟩ := h.evens x (by omega)
      obtain ⟨q, hq, _, e2⟩ := hmove p hp
      exact ⟨q, by omega, by rw [e2, e]⟩
  · have h1 := sumTo_insert (fun x => freq.getD x 0) (fun x => (fr1.set k f).getD x 0) k f
      (fun x hx => by show (fr1.set k f).getD x 0 = _; rw [hA x (by omega), if_pos hx])
      (by show (fr1.set k f).getD k 0 = _; rw [hA k (by omega), if_neg (by omega), if_pos rfl])
      (n + m) (by omega)
      (fun x a b => by show (fr1.set k f).getD x 0 = _; rw [hA x b, if_neg (by omega), if_neg (by omega)])
    have h2 := sumTo_congr (fun x => (fr1.set k f).getD x 0) (fun x => freq.getD x 0) (2 * m + 2)
      (fun x hx => by show (fr1.set k f).getD x 0 = _; rw [hA x (by omega), if_pos (by omega)])
    rw [show n + (m + 1) = n + m + 1 by omega, show 2 * (m + 1) = 2 * m + 2 by omega, h1, h2, h.sum]
    simp only [sumTo]
    omega

theorem connect_spec (n : Nat) (w : Nat → Nat) (total : Nat) : ∀ r m freq son fuel, m + r = n - 1 → r < fuel →
    1 ≤ n → Joined n w total m freq son → ∃ freq' son', connect (2 * n - 1) fuel freq son (2 * m) (n + m) = .ok (freq', son') ∧
      Joined n w total (n - 1) freq' son' := by
  intro r
  induction r with
  | zero =>
    intro m freq son fuel hm hf hn h
    obtain ⟨fuel, rfl⟩ : ∃ g, fuel = g + 1 := ⟨fuel - 1, by omega⟩
    unfold connect
    rw [if_neg (by omega)]
    exact ⟨freq, son, rfl, by rw [← show m = n - 1 by omega]; exact h⟩
  | succ r ih =>
    intro m freq son fuel hm hf hn h
    obtain ⟨fuel, rfl⟩ : ∃ g, fuel = g + 1 := ⟨fuel - 1, by omega⟩
    obtain ⟨f1, s1, h1, h2⟩ := connect_step n w total m freq son (by omega) h fuel
    rw [h1]
    exact ih (m + 1) f1 s1 fuel (by omega) (by omega) hn h2

/-- What the last loop of the rebuild has done after `i` nodes. -/
structure Linked (n : Nat) (son : List Nat) (i : Nat) (ps : List Nat × List Nat) : Prop where
  lp : ps.1.length = 2 * n - 1
  ly : ps.2.length = n
  root : ps.1.getD (2 * n - 2) 0 = 0
  leaf : ∀ p, p < i → 2 * n - 1 ≤ son.getD p 0 → ps.2.getD (son.getD p 0 - (2 * n - 1)) 0 = p
  node : ∀ p, p < i → son.getD p 0 < 2 * n - 1 → ps.1.getD (son.getD p 0) 0 = p ∧ ps.1.getD (son.getD p 0 + 1) 0 = p

theorem rebuild_spec (t : Tree) (h : Inv t none) (hr : t.F t.root = 0x8000) :
    ∃ t', rebuild t = .ok t' ∧ Inv t' none ∧ t'.n = t.n ∧ t'.F t'.root < 0x8000 := by
  have hn := h.n2
  have hsmall := h.small
  have hroot : t.root = 2 * t.n - 2 := rfl
  have hcount : t.count = 2 * t.n - 1 := rfl
  unfold rebuild
  obtain ⟨st, hst, hpk⟩ := foldlM_range_inv (packLeaf t.count) (Packed t) t.count
    (fun i st hi hp => packLeaf_spec t h i st hi hp) (0, t.freq, t.son)
    ⟨Nat.le_refl _, h.lf, h.ls, fun _ _ => rfl, fun _ _ => rfl, fun p hp => absurd hp (Nat.not_lt_zero _),
      fun p q _ hq => absurd hq (Nat.not_lt_zero _), fun s _ hy => absurd hy (Nat.not_lt_zero _)⟩
  rw [hst]
  obtain ⟨j, freq, son⟩ := st
  have hpl : ∀ p, p < j → t.count ≤ son.getD p 0 ∧ son.getD p 0 < t.count + t.n ∧
    freq.getD p 0 = (t.F (t.Y (son.getD p 0 - t.count)) + 1) / 2 ∧
    t.Y (son.getD p 0 - t.count) < t.count := hpk.leaf
  have hpo : ∀ p q, p < q → q < j → t.Y (son.getD p 0 - t.count) < t.Y (son.getD q 0 - t.count) := hpk.ord
  have hpa : ∀ s, s < t.n → t.Y s < t.count → ∃ p, p < j ∧ son.getD p 0 = t.count + s := hpk.all
  have hinj0 : ∀ p q, p < j → q < j → son.getD p 0 = son.getD q 0 → p = q := by
    intro p q hp hq e
    rcases Nat.lt_trichotomy p q with hh | hh | hh
    · have := hpo p q hh hq; rw [e] at this; omega
    · exact hh
    · have := hpo q p hh hp; rw [e] at this; omega
  have hperm := perm_range (fun p => son.getD p 0 - t.count) j t.n
    (fun p q hp hq e => hinj0 p q hp hq (by have := hpl p hp; have := hpl q hq; omega))
    (fun p hp => by have := hpl p hp; omega)
    (fun s hs => by
      obtain ⟨p, hp, e⟩ := hpa s hs (h.symb s hs).1
      exact ⟨p, hp, by show son.getD p 0 - t.count = s; omega⟩)
  have hj : j = t.n := by have := hperm.length_eq; simpa using this
  subst hj
  -- the weights
  let w : Nat → Nat := fun v => (t.F (t.Y (v - t.count)) + 1) / 2
  have hsumw : sumTo (fun x => freq.getD x 0) t.n = sumTo (fun s => (t.F (t.Y s) + 1) / 2) t.n := by
    rw [sumTo_congr _ (fun p => (fun s => (t.F (t.Y s) + 1) / 2) ((fun p => son.getD p 0 - t.count) p)) t.n
      (fun p hp => (hpl p hp).2.2.1), sumTo_eq_sum, sumTo_eq_sum]
    have := (hperm.map (fun s => (t.F (t.Y s) + 1) / 2)).sum_nat
    rw [List.map_map] at this
    exact this
  generalize htot : sumTo (fun s => (t.F (t.Y s) + 1) / 2) t.n = total at hsumw
  have hbound : 2 * total ≤ t.F t.root + t.n := by
    have h1 : t.F t.root = sumTo (fun s => t.F (t.Y s)) t.n := by have := h.total; simpa using this.symm
    rw [h1, ← htot]
    generalize t.n = k
    induction k with
    | zero => simp [sumTo]
    | succ k ih => simp only [sumTo]; omega
  have hJ : Joined t.n w total 0 freq son := by
    refine ⟨hpk.lf, hpk.ls, ?_, ?_, ?_, ?_, ?_, ?_, ?_, ?_⟩
    · have := hpk.freq t.count (Nat.le_refl _)
      rw [h.top] at this; exact this
    · intro i hi
      have a := (hpl i (by omega)).2.2.1
      have b := (hpl (i + 1) (by omega)).2.2
      have c := hpo i (i + 1) (by omega) (by omega)
      have d := h.le _ _ (Nat.le_of_lt c) (by omega)
      rw [a, b.1]; omega
    · intro i hi
      have a := (hpl i (by omega)).2.2
      have b := h.pos _ a.2
      rw [a.1]; omega
    · intro p hp
      have := hpl p (by omega)
      left
      exact ⟨by omega, by omega, this.2.2.1⟩
    · intro p q hp hq e; exact hinj0 p q (by omega) (by omega) e
    · intro s hs
      obtain ⟨p, hp, e⟩ := hpa s hs (h.symb s hs).1
      exact ⟨p, by omega, by omega⟩
    · intro e he; omega
    · show sumTo _ t.n = 0 + total
      rw [hsumw]; omega
  obtain ⟨fr, so, hc, hK⟩ := connect_spec t.n w total (t.n - 1) 0 freq son (t.count + 1) (by omega) (by omega) (by omega) hJ
  show ∃ t', (connect (2 * t.n - 1) (t.count + 1) freq son 0 t.n >>= _) = _ ∧ _
  rw [show connect (2 * t.n - 1) (t.count + 1) freq son 0 t.n = .ok (fr, so) from hc]
  have ej : t.n + (t.n - 1) = 2 * t.n - 1 := by omega
  have hk := hK.kind
  have hki := hK.inj
  have hkl := hK.leaves
  have hke := hK.evens
  have hks := hK.sum
  have hkp := hK.pos
  rw [ej] at hk hki hkl hke hks hkp
  have hkls := hK.ls
  show ∃ t', ((List.range t.count).foldlM (fun (ps : List Nat × List Nat) i => do
    let s ← rd so i
    link t.count ps.1 ps.2 s i) (t.parent, t.symb) >>= _) = _ ∧ _
  obtain ⟨ps, hps, hL⟩ := foldlM_range_inv (fun (ps : List Nat × List Nat) i => do
    let s ← rd so i
    link t.count ps.1 ps.2 s i) (Linked t.n so) t.count (by
      intro i ps hi hl
      have hlp := hl.lp
      have hly := hl.ly
      have hki' := hk i hi
      have r1 : t.count ≤ so.getD i 0 → so.getD i 0 - t.count < ps.2.length := by intro e; omega
      have r2 : so.getD i 0 < t.count → so.getD i 0 + 1 < ps.1.length := by intro e; omega
      show ∃ st', (rd so i >>= fun s => link t.count ps.1 ps.2 s i) = _ ∧ _
      rw [rd_ok _ _ (by omega)]
      show ∃ st', link t.count ps.1 ps.2 (so.getD i 0) i = _ ∧ _
      rw [link_ok _ _ _ _ _ r1 r2]
      refine ⟨_, rfl, ?_⟩
      have hlen := linkP_len t.count ps.1 ps.2 (so.getD i 0) i
      refine ⟨by rw [hlen.1]; exact hlp, by rw [hlen.2]; exact hly, ?_, ?_, ?_⟩
      · rw [linkP_parent _ _ _ _ _ _ r2, if_neg (by omega)]; exact hl.root
      · intro p hp hs
        rw [linkP_symb _ _ _ _ _ _ r1]
        by_cases e : p = i
        · subst e; rw [if_pos ⟨hs, rfl⟩]
        · rw [if_neg]
          · exact hl.leaf p (by omega) hs
          · intro e2
            have := hki p i (by omega) hi (by omega)
            exact e this
      · intro p hp hs
        rw [linkP_parent _ _ _ _ _ _ r2, linkP_parent _ _ _ _ _ _ r2]
        by_cases e : p = i
        · subst e; rw [if_pos ⟨hs, Or.inl rfl⟩, if_pos ⟨hs, Or.inr rfl⟩]; exact ⟨rfl, rfl⟩
        · have h5 := hk p (by omega)
          have hne : so.getD p 0 ≠ so.getD i 0 := fun e2 => e (hki p i (by omega) hi e2)
          rw [if_neg (by omega), if_neg (by omega)]
          exact hl.node p (by omega) hs) (t.parent, t.symb)
    ⟨h.lp, h.ly, h.rootp, fun p hp => absurd hp (Nat.not_lt_zero _), fun p hp => absurd hp (Nat.not_lt_zero _)⟩
  rw [hps]
  refine ⟨_, rfl, ?_, rfl, ?_⟩
  · have htotal : fr.getD (2 * t.n - 2) 0 = total := by
      rw [show 2 * t.n - 1 = (2 * t.n - 2) + 1 by omega, show 2 * (t.n - 1) = 2 * t.n - 2 by omega] at hks
      simp only [sumTo] at hks; omega
    refine ⟨hn, h.small, hK.lf, hL.lp, hK.ls, hL.ly, hK.top, ?_, hkp, ?_, ?_, ?_, ?_, ?_, hL.root,
      (fun c e => by cases e), ?_⟩
    · intro i hi
      replace hi : i < 2 * t.n - 2 := hi
      exact hK.mono i (by omega)
    · show fr.getD (2 * t.n - 2) 0 ≤ _
      rw [htotal]; omega
    · intro s hs
      replace hs : s < t.n := hs
      obtain ⟨p, hp, e⟩ := hkl s hs
      have := hL.leaf p hp (by omega)
      rw [e, show 2 * t.n - 1 + s - (2 * t.n - 1) = s by omega] at this
      show ps.2.getD s 0 < 2 * t.n - 1 ∧ so.getD (ps.2.getD s 0) 0 = 2 * t.n - 1 + s
      rw [this]; exact ⟨hp, e⟩
    · intro i hi hs
      replace hi : i < 2 * t.n - 1 := hi
      replace hs : 2 * t.n - 1 ≤ so.getD i 0 := hs
      have := hk i hi
      refine ⟨by show so.getD i 0 < 2 * t.n - 1 + t.n; omega, hL.leaf i hi hs⟩
    · intro i hi hs
      replace hi : i < 2 * t.n - 1 := hi
      replace hs : so.getD i 0 < 2 * t.n - 1 := hs
      have h5 : so.getD i 0 < 2 * (t.n - 1) ∧ so.getD i 0 % 2 = 0 ∧ so.getD i 0 + 1 < i ∧
          fr.getD (so.getD i 0) 0 + fr.getD (so.getD i 0 + 1) 0 = fr.getD i 0 := by
        rcases hk i hi with h6 | h6
        · omega
        · exact h6
      have h6 := hL.node i hi hs
      exact ⟨h5.2.1, h5.2.2.1, h6.1, h6.2, h5.2.2.2⟩
    · intro i hi
      replace hi : i < 2 * t.n - 2 := hi
      obtain ⟨p, hp, e⟩ := hke (i / 2) (by omega)
      have h6 := hL.node p hp (by omega)
      have hpi : ps.1.getD i 0 = p := by
        rcases Nat.mod_two_eq_zero_or_one i with e2 | e2
        · rw [e, show 2 * (i / 2) = i by omega] at h6; exact h6.1
        · rw [e, show 2 * (i / 2) + 1 = i by omega] at h6; exact h6.2
      show ps.1.getD i 0 < 2 * t.n - 1 ∧ so.getD (ps.1.getD i 0) 0 = i - i % 2
      rw [hpi]; exact ⟨hp, by omega⟩
    · show sumTo (fun s => fr.getD (ps.2.getD s 0) 0) t.n = fr.getD (2 * t.n - 2) 0 + 0
      rw [htotal, ← htot]
      apply sumTo_congr
      intro s hs
      obtain ⟨p, hp, e⟩ := hkl s hs
      have h6 := hL.leaf p hp (by omega)
      rw [e, show 2 * t.n - 1 + s - (2 * t.n - 1) = s by omega] at h6
      show fr.getD (ps.2.getD s 0) 0 = (t.F (t.Y s) + 1) / 2
      rw [h6]
      rcases hk p hp with h7 | h7
      · rw [h7.2.2, e]
        show (t.F (t.Y (2 * t.n - 1 + s - (2 * t.n - 1))) + 1) / 2 = _
        rw [show 2 * t.n - 1 + s - (2 * t.n - 1) = s by omega]
      · omega
  · have htotal : fr.getD (2 * t.n - 2) 0 = total := by
      rw [show 2 * t.n - 1 = (2 * t.n - 2) + 1 by omega, show 2 * (t.n - 1) = 2 * t.n - 2 by omega] at hks
      simp only [sumTo] at hks; omega
    show fr.getD (2 * t.n - 2) 0 < _
    rw [htotal]; omega

theorem update_spec (t : Tree) (h : Inv t none) (s : Nat) (hs : s < t.n) :
    ∃ t', update t s = .ok t' ∧ Inv t' none ∧ t'.n = t.n := by
  have hn := h.n2
  have hroot : t.root = 2 * t.n - 2 := rfl
  have hlf := h.lf
  have key : ∀ t1 : Tree, Inv t1 none → t1.n = t.n → t1.F t1.root < 0x8000 →
      ∃ t', (rd t1.symb s >>= fun c => climb (t1.count + 1) t1 c) = .ok t' ∧ Inv t' none ∧ t'.n = t.n := by
    intro t1 h1 e1 h2
    have hly := h1.ly
    rw [rd_ok _ _ (by omega)]
    have h3 := h1.symb s (by omega)
    obtain ⟨t', a, b, c⟩ := climb_spec (t1.count + 1) t1 none (t1.Y s) h1 h3.1 (Or.inl ⟨rfl, by omega⟩) h2 (by omega)
    exact ⟨t', a, b, by omega⟩
  unfold update
  rw [rd_ok _ _ (by omega)]
  by_cases e : t.F t.root = 0x8000
  · obtain ⟨t1, a, b, c, d⟩ := rebuild_spec t h e
    show ∃ t', (if t.F t.root = 0x8000 then (rebuild t >>= _) else _) = _ ∧ _
    rw [if_pos e, a]
    exact key t1 b c d
  · show ∃ t', (if t.F t.root = 0x8000 then (rebuild t >>= _) else _) = _ ∧ _
    rw [if_neg e]
    exact key t h rfl (by have := h.cap; omega)

end Lzhuf
end Fox
