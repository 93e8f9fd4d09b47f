import Verif.Proofs.LzhufRebuild
/-
The first tree is well formed.
-/
namespace Fox
namespace Lzhuf

/-- After `k` leaves. -/
structure Leaves (n : Nat) (k : Nat) (t : Tree) : Prop where
  hn : t.n = n
  lf : t.freq.length = 2 * n
  lp : t.parent.length = 2 * n - 1
  ls : t.son.length = 2 * n - 1
  ly : t.symb.length = n
  freq : ∀ s, s < k → t.F s = 1
  son : ∀ s, s < k → t.S s = s + (2 * n - 1)
  symb : ∀ s, s < k → t.Y s = s

theorem createLeaf_spec (n k : Nat) (t : Tree) (hk : k < n) (h : Leaves n k t) :
    ∃ t', createLeaf t k = .ok t' ∧ Leaves n (k + 1) t' := by
  have := h.lf
  have := h.ls
  have := h.ly
  unfold createLeaf
  rw [wr_ok _ _ _ (by omega)]
  show ∃ t', (wr t.son k (k + t.count) >>= _) = _ ∧ _
  rw [wr_ok _ _ _ (by omega)]
  show ∃ t', (wr t.symb k k >>= _) = _ ∧ _
  rw [wr_ok _ _ _ (by omega)]
  refine ⟨_, rfl, h.hn, by simpa using h.lf, h.lp, by simpa using h.ls, by simpa using h.ly, ?_, ?_, ?_⟩
  · intro s hs
    show (t.freq.set k 1).getD s 0 = 1
    rw [getD_set _ _ _ _ _ (by omega)]
    split
    · rfl
    · exact h.freq s (by omega)
  · intro s hs
    show (t.son.set k (k + t.count)).getD s 0 = _
    rw [getD_set _ _ _ _ _ (by omega)]
    split
    · next e => show k + (2 * t.n - 1) = _; rw [h.hn, e]
    · exact h.son s (by omega)
  · intro s hs
    show (t.symb.set k k).getD s 0 = _
    rw [getD_set _ _ _ _ _ (by omega)]
    split
    · next e => exact e
    · exact h.symb s (by omega)

/-- After `m` inner nodes. -/
structure Nodes (n m : Nat) (t : Tree) : Prop extends Leaves n n t where
  nfreq : ∀ x, x < m → t.F (n + x) = t.F (2 * x) + t.F (2 * x + 1)
  nson : ∀ x, x < m → t.S (n + x) = 2 * x
  npar : ∀ x, x < m → t.P (2 * x) = n + x ∧ t.P (2 * x + 1) = n + x
  sum : sumTo t.F (n + m) = sumTo t.F (2 * m) + n

theorem createNodes_spec (n : Nat) (hn : 1 ≤ n) : ∀ r m t fuel, m + r = n - 1 → r < fuel → Nodes n m t →
    ∃ t', createNodes fuel t (2 * m) (n + m) = .ok t' ∧ Nodes n (n - 1) t' := by
  intro r
  induction r with
  | zero =>
    intro m t fuel hm hf h
    obtain ⟨fuel, rfl⟩ : ∃ g, fuel = g + 1 := ⟨fuel - 1, by omega⟩
    rw [createNodes, if_neg (by show ¬ n + m ≤ 2 * t.n - 2; rw [h.hn]; omega)]
    exact ⟨t, rfl, by rw [← show m = n - 1 by omega]; exact h⟩
  | succ r ih =>
    intro m t fuel hm hf h
    obtain ⟨fuel, rfl⟩ : ∃ g, fuel = g + 1 := ⟨fuel - 1, by omega⟩
    have hlf := h.lf
    have hls := h.ls
    have hlp := h.lp
    rw [createNodes, if_pos (by show n + m ≤ 2 * t.n - 2; rw [h.hn]; omega), rd_ok _ _ (by omega)]
    show ∃ t', (rd t.freq (2 * m + 1) >>= _) = _ ∧ _
    rw [rd_ok _ _ (by omega)]
    show ∃ t', (wr t.freq (n + m) (t.F (2 * m) + t.F (2 * m + 1)) >>= _) = _ ∧ _
    rw [wr_ok _ _ _ (by omega)]
    show ∃ t', (wr t.son (n + m) (2 * m) >>= _) = _ ∧ _
    rw [wr_ok _ _ _ (by omega)]
    show ∃ t', (wr t.parent (2 * m) (n + m) >>= _) = _ ∧ _
    rw [wr_ok _ _ _ (by omega)]
    show ∃ t', (wr (t.parent.set (2 * m) (n + m)) (2 * m + 1) (n + m) >>= _) = _ ∧ _
    rw [wr_ok _ _ _ (by rw [List.length_set]; omega)]
    apply ih (m + 1) _ fuel (by omega) (by omega)
    have hF : ∀ x, (t.freq.set (n + m) (t.F (2 * m) + t.F (2 * m + 1))).getD x 0 =
        if n + m = x then t.F (2 * m) + t.F (2 * m + 1) else t.F x := fun x => getD_set _ _ _ _ _ (by omega)
    have hS : ∀ x, (t.son.set (n + m) (2 * m)).getD x 0 = if n + m = x then 2 * m else t.S x :=
      fun x => getD_set _ _ _ _ _ (by omega)
    have hP : ∀ x, ((t.parent.set (2 * m) (n + m)).set (2 * m + 1) (n + m)).getD x 0 =
        if 2 * m + 1 = x then n + m else if 2 * m = x then n + m else t.P x := by
      intro x
      rw [getD_set _ _ _ _ _ (by rw [List.length_set]; omega), getD_set _ _ _ _ _ (by omega)]
    refine ⟨⟨h.hn, by simpa using h.lf, by simpa using h.lp, by simpa using h.ls, h.ly, ?_, ?_, h.symb⟩, ?_, ?_, ?_, ?_⟩
    · intro s hs
      show (t.freq.set _ _).getD s 0 = _
      rw [hF, if_neg (by omega)]; exact h.freq s hs
    · intro s hs
      show (t.son.set _ _).getD s 0 = _
      rw [hS, if_neg (by omega)]; exact h.son s hs
    · intro x hx
      show (t.freq.set _ _).getD (n + x) 0 = (t.freq.set _ _).getD (2 * x) 0 + (t.freq.set _ _).getD (2 * x + 1) 0
      rw [hF, hF, hF]
      conv => rhs; rw [if_neg (show ¬ n + m = 2 * x by omega), if_neg (show ¬ n + m = 2 * x + 1 by omega)]
      by_cases e : x = m
      · rw [if_pos (by omega), e]
      · rw [if_neg (by omega)]; exact h.nfreq x (by omega)
    · intro x hx
      show (t.son.set _ _).getD (n + x) 0 = _
      rw [hS]
      by_cases e : x = m
      · rw [if_pos (by omega), e]
      · rw [if_neg (by omega)]; exact h.nson x (by omega)
    · intro x hx
      show ((t.parent.set _ _).set _ _).getD (2 * x) 0 = _ ∧ ((t.parent.set _ _).set _ _).getD (2 * x + 1) 0 = _
      rw [hP, hP]
      by_cases e : x = m
      · rw [if_neg (by omega), if_pos (by omega), if_pos (by omega)]; omega
      · rw [if_neg (by omega), if_neg (by omega), if_neg (by omega), if_neg (by omega)]; exact h.npar x (by omega)
    · show sumTo (fun x => (t.freq.set _ _).getD x 0) (n + (m + 1)) = sumTo (fun x => (t.freq.set _ _).getD x 0) (2 * (m + 1)) + n
      rw [show n + (m + 1) = n + m + 1 by omega, show 2 * (m + 1) = 2 * m + 1 + 1 by omega]
      simp only [sumTo, hF]
      rw [sumTo_congr (fun x => if n + m = x then t.F (2 * m) + t.F (2 * m + 1) else t.F x) t.F (n + m)
        (fun i hi => by rw [if_neg (by omega)]),
        sumTo_congr (fun x => if n + m = x then t.F (2 * m) + t.F (2 * m + 1) else t.F x) t.F (2 * m)
        (fun i hi => by rw [if_neg (by omega)]), h.sum, if_pos trivial, if_neg (by omega), if_neg (by omega)]
      omega

theorem create_spec (n : Nat) (h2 : 2 ≤ n) (hs : n < 0x8000) : ∃ t, create n = .ok t ∧ Inv t none ∧ t.n = n := by
  unfold create
  obtain ⟨t1, h1, hL⟩ := foldlM_range_inv createLeaf (Leaves n) n (fun i st hi hl => createLeaf_spec n i st hi hl)
    { n := n, freq := List.replicate (2 * n) 0, parent := List.replicate (2 * n - 1) 0,
      son := List.replicate (2 * n - 1) 0, symb := List.replicate n 0 }
    ⟨rfl, List.length_replicate, List.length_replicate, List.length_replicate, List.length_replicate,
      fun s hs => absurd hs (Nat.not_lt_zero _), fun s hs => absurd hs (Nat.not_lt_zero _),
      fun s hs => absurd hs (Nat.not_lt_zero _)⟩
  show ∃ t, ((List.range n).foldlM createLeaf _ >>= _) = _ ∧ _
  rw [h1]
  have hN0 : Nodes n 0 t1 := by
    refine ⟨hL, fun x hx => by omega, fun x hx => by omega, fun x hx => by omega, ?_⟩
    show sumTo t1.F n = 0 + n
    have : ∀ k, k ≤ n → sumTo t1.F k = k := by
      intro k
      induction k with
      | zero => intro _; rfl
      | succ k ih => intro hk; rw [sumTo, ih (by omega), hL.freq k (by omega)]
    rw [this n (Nat.le_refl _)]; omega
  obtain ⟨t, hc, hN⟩ := createNodes_spec n (by omega) (n - 1) 0 t1 (n + 1) (by omega) (by omega) hN0
  show ∃ t', (createNodes (n + 1) t1 0 n >>= _) = _ ∧ _
  rw [show createNodes (n + 1) t1 0 n = .ok t from hc]
  have hlf := hN.lf
  have hlp := hN.lp
  have hnn := hN.hn
  have hcount : t.count = 2 * n - 1 := by show 2 * t.n - 1 = _; rw [hnn]
  have hroot : t.root = 2 * n - 2 := by show 2 * t.n - 2 = _; rw [hnn]
  show ∃ t', (wr t.freq t.count 0xffff >>= _) = _ ∧ _
  rw [wr_ok _ _ _ (by omega)]
  show ∃ t', (wr t.parent t.root 0 >>= _) = _ ∧ _
  rw [wr_ok _ _ _ (by omega)]
  refine ⟨_, rfl, ?_, hnn⟩
  have hF : ∀ x, (t.freq.set t.count 0xffff).getD x 0 = if t.count = x then 0xffff else t.F x :=
    fun x => getD_set _ _ _ _ _ (by omega)
  have hP : ∀ x, (t.parent.set t.root 0).getD x 0 = if t.root = x then 0 else t.P x :=
    fun x => getD_set _ _ _ _ _ (by omega)
  have hmono : ∀ k i, i < k → i < 2 * n - 2 → 1 ≤ t.F i ∧ t.F i ≤ t.F (i + 1) := by
    intro k
    induction k with
    | zero => intro i hi; omega
    | succ k ih =>
      intro i hi hi2
      by_cases e : i + 1 < n
      · rw [hN.freq i (by omega), hN.freq (i + 1) e]; omega
      · by_cases e2 : i + 1 = n
        · have a := hN.nfreq 0 (by omega)
          rw [hN.freq i (by omega), e2, show n = n + 0 by omega, a, hN.freq (2 * 0) (by omega), hN.freq (2 * 0 + 1) (by omega)]
          omega
        · have a := hN.nfreq (i - n) (by omega)
          have b := hN.nfreq (i - n + 1) (by omega)
          rw [show n + (i - n) = i by omega] at a
          rw [show n + (i - n + 1) = i + 1 by omega, show 2 * (i - n + 1) = 2 * (i - n) + 1 + 1 by omega] at b
          have c := ih (2 * (i - n)) (by omega) (by omega)
          have d := ih (2 * (i - n) + 1) (by omega) (by omega)
          have f := ih (2 * (i - n) + 1 + 1) (by omega) (by omega)
          rw [a, b]; omega
  have hrootF : t.F (2 * n - 2) = n := by
    have := hN.sum
    rw [show n + (n - 1) = 2 * n - 2 + 1 by omega, show 2 * (n - 1) = 2 * n - 2 by omega] at this
    simp only [sumTo] at this
    omega
  refine ⟨by show 2 ≤ t.n; omega, by show t.n < _; omega, by show (t.freq.set _ _).length = 2 * t.n; rw [List.length_set]; omega,
    by show (t.parent.set _ _).length = t.count; rw [List.length_set]; omega,
    by show t.son.length = t.count; rw [hN.ls]; omega, by show t.symb.length = t.n; rw [hN.ly]; omega, ?_, ?_, ?_, ?_, ?_, ?_, ?_, ?_, ?_, (by intro c e; cases e), ?_⟩
  · show (t.freq.set _ _).getD t.count 0 = _
    rw [hF, if_pos rfl]
  · intro i hi
    replace hi : i < t.root := hi
    show (t.freq.set _ _).getD i 0 ≤ (t.freq.set _ _).getD (i + 1) 0
    rw [hF, hF, if_neg (by omega), if_neg (by omega)]
    exact (hmono (i + 1) i (by omega) (by omega)).2
  · intro i hi
    replace hi : i < t.count := hi
    show 1 ≤ (t.freq.set _ _).getD i 0
    rw [hF, if_neg (by omega)]
    by_cases e : i = 2 * n - 2
    · rw [e, hrootF]; omega
    · exact (hmono (i + 1) i (by omega) (by omega)).1
  · show (t.freq.set _ _).getD t.root 0 ≤ _
    rw [hF, if_neg (by omega), hroot, hrootF]; omega
  · intro s hs
    replace hs : s < t.n := hs
    show t.Y s < t.count ∧ t.S (t.Y s) = t.count + s
    rw [hN.symb s (by omega), hN.son s (by omega)]; omega
  · intro i hi hs
    replace hi : i < t.count := hi
    replace hs : t.count ≤ t.S i := hs
    have hin : i < n := by
      apply Classical.byContradiction
      intro hc
      have := hN.nson (i - n) (by omega)
      rw [show n + (i - n) = i by omega] at this
      omega
    show t.S i < t.count + t.n ∧ t.Y (t.S i - t.count) = i
    rw [hN.son i hin, show i + (2 * n - 1) - t.count = i by omega, hN.symb i hin]; omega
  · intro i hi hs
    replace hi : i < t.count := hi
    replace hs : t.S i < t.count := hs
    have hin : n ≤ i := by
      apply Classical.byContradiction
      intro hc
      have := hN.son i (by omega)
      omega
    have a := hN.nson (i - n) (by omega)
    have b := hN.nfreq (i - n) (by omega)
    have c := hN.npar (i - n) (by omega)
    rw [show n + (i - n) = i by omega] at a b c
    show t.S i % 2 = 0 ∧ t.S i + 1 < i ∧ (t.parent.set _ _).getD (t.S i) 0 = i ∧ (t.parent.set _ _).getD (t.S i + 1) 0 = i ∧
      (t.freq.set _ _).getD (t.S i) 0 + (t.freq.set _ _).getD (t.S i + 1) 0 = (t.freq.set _ _).getD i 0 + 0
    rw [a, hP, hP, hF, hF, hF, if_neg (by omega), if_neg (by omega), if_neg (by omega), if_neg (by omega), if_neg (by omega)]
    omega
  · intro i hi
    replace hi : i < t.root := hi
    have c := hN.npar (i / 2) (by omega)
    have a := hN.nson (i / 2) (by omega)
    have hp : t.P i = n + i / 2 := by
      rcases Nat.mod_two_eq_zero_or_one i with e2 | e2
      · rw [show 2 * (i / 2) = i by omega] at c; exact c.1
      · rw [show 2 * (i / 2) + 1 = i by omega] at c; exact c.2
    show (t.parent.set _ _).getD i 0 < t.count ∧ t.S ((t.parent.set _ _).getD i 0) = i - i % 2
    rw [hP, if_neg (by omega), hp, a]; omega
  · show (t.parent.set _ _).getD t.root 0 = 0
    rw [hP, if_pos rfl]
  · show sumTo (fun s => (t.freq.set _ _).getD (t.Y s) 0) t.n = (t.freq.set _ _).getD t.root 0 + 0
    rw [hF, if_neg (by omega), hroot, hrootF, hnn]
    have : ∀ k, k ≤ n → sumTo (fun s => (t.freq.set t.count 0xffff).getD (t.Y s) 0) k = k := by
      intro k
      induction k with
      | zero => intro _; rfl
      | succ k ih =>
        intro hk
        rw [sumTo, ih (by omega), hN.symb k (by omega), hF, if_neg (by omega), hN.freq k (by omega)]
    rw [this n (Nat.le_refl _)]; rfl

end Lzhuf
end Fox
