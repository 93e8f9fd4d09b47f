import Verif.Proofs.NaturalSort
/-
C50: the natural order of names.
-/
namespace Fox
open Spec NatSort

theorem caseFold_eq (s : List Nat) : caseFold s = s.map lower := rfl

theorem go_eq_full : ∀ (full : Ordering) (as bs : List (List Nat)), go full as bs = .eq → full = .eq
  | full, [], _, h => by unfold go at h; exact h
  | full, _ :: _, [], h => by unfold go at h; exact h
  | full, a :: as, b :: bs, h => by
    unfold go at h
    split at h
    · split at h
      · exact go_eq_full full as bs h
      · next o hne => exact absurd h hne
    · split at h
      · split at h
        · cases h
        · split at h
          · cases h
          · exact go_eq_full full as bs h
      · exact h

theorem go_swap : ∀ (full : Ordering) (as bs : List (List Nat)), go full.swap bs as = (go full as bs).swap
  | full, [], [] => rfl
  | full, [], _ :: _ => rfl
  | full, _ :: _, [] => rfl
  | full, a :: as, b :: bs => by
    unfold go
    by_cases h : (!a.all isDigit && !b.all isDigit) = true
    · rw [if_pos h, if_pos (by rw [Bool.and_comm]; exact h), lexCmp_swap (a.map lower) (b.map lower)]
      rcases lexCmp (a.map lower) (b.map lower) with _ | _ | _
      · rfl
      · exact go_swap full as bs
      · rfl
    · rw [if_neg h, if_neg (by rw [Bool.and_comm]; exact h)]
      rcases number a with _ | x
      · rcases number b with _ | y <;> rfl
      · rcases number b with _ | y
        · rfl
        · simp only
          by_cases h1 : x < y
          · rw [if_pos h1, if_neg (by omega), if_pos h1]; rfl
          · by_cases h2 : y < x
            · rw [if_pos h2, if_neg h1, if_pos h2]; rfl
            · rw [if_neg h1, if_neg h2, if_neg h2, if_neg h1]; exact go_swap full as bs

theorem go_refl : ∀ as : List (List Nat), go .eq as as = .eq
  | [] => rfl
  | a :: as => by
    unfold go
    split
    · rw [lexCmp_self]; exact go_refl as
    · rcases number a with _ | x
      · rfl
      · simp only
        rw [if_neg (by omega), if_neg (by omega)]; exact go_refl as

/-- Swapping the names swaps the answer, for all names. -/
theorem C50_antisymmetric (a b : List Nat) : natural b a = (natural a b).swap := by
  unfold natural
  rw [lexCmp_swap (a.map lower) (b.map lower), go_swap]

theorem runs_lower : ∀ s : List Nat, runs (s.map lower) = (runs s).map (List.map lower)
  | [] => rfl
  | [c] => rfl
  | c :: d :: s => by
    have ih := runs_lower (d :: s)
    obtain ⟨r, rest, e⟩ := runs_cons d s
    rw [e] at ih
    rw [List.map_cons]
    unfold runs
    rw [ih, e]
    simp only [List.map_cons]
    rw [lower_digit, lower_digit]
    split <;> simp only [List.map_cons, List.map_nil]

theorem all_lower (r : List Nat) : (r.map lower).all isDigit = r.all isDigit := by
  induction r with
  | nil => rfl
  | cons c r ih => rw [List.map_cons, List.all_cons, List.all_cons, ih, lower_digit]

theorem number_lower (r : List Nat) : number (r.map lower) = number r := by
  unfold number
  rw [all_lower]
  by_cases h : r.all isDigit = true
  · rw [if_pos h, if_pos h, map_lower_digits h]
  · rw [if_neg h, if_neg h]

theorem lower_lower (c : Nat) : lower (lower c) = lower c := by
  unfold lower
  split
  · rw [if_neg (by omega)]
  · rfl

theorem map_lower_lower (r : List Nat) : (r.map lower).map lower = r.map lower := by
  rw [List.map_map]
  congr 1
  funext c
  exact lower_lower c

theorem go_lower (full : Ordering) : ∀ as bs : List (List Nat),
    go full (as.map (List.map lower)) (bs.map (List.map lower)) = go full as bs
  | [], _ => rfl
  | _ :: _, [] => rfl
  | a :: as, b :: bs => by
    rw [List.map_cons, List.map_cons]
    unfold go
    rw [all_lower, all_lower, number_lower, number_lower, map_lower_lower, map_lower_lower, go_lower full as bs]

/-- Letter case makes no difference. -/
theorem C50_ignores_case (a b a' b' : List Nat) (ha : caseFold a = caseFold a') (hb : caseFold b = caseFold b') :
    natural a b = natural a' b' := by
  have key : ∀ x y, natural x y = natural (x.map lower) (y.map lower) := by
    intro x y
    unfold natural
    rw [runs_lower, runs_lower, go_lower, map_lower_lower, map_lower_lower]
  rw [caseFold_eq, caseFold_eq] at ha hb
  rw [key a b, key a' b', ha, hb]

/-- Two names are equal in the order exactly if they differ at most in letter case, for all names. -/
theorem C50_equal_iff (a b : List Nat) : natural a b = .eq ↔ caseFold a = caseFold b := by
  constructor
  · intro h
    exact lexCmp_eq (go_eq_full _ _ _ h)
  · intro h
    rw [C50_ignores_case a b a a rfl h.symm]
    unfold natural
    rw [lexCmp_self]
    exact go_refl _

/-- **C50 (partial).** The order is transitive on names whose numbers are below 2^32 and have no leading
zeros.  Missing: it is not transitive on all names (`C50_false_zeros`, `C50_false_big`). -/
theorem C50_transitive_partial (a b c : List Nat) (ha : SmallNumbers a ∧ NoLeadingZeros a)
    (hb : SmallNumbers b ∧ NoLeadingZeros b) (hc : SmallNumbers c ∧ NoLeadingZeros c)
    (h1 : natural a b ≠ .gt) (h2 : natural b c ≠ .gt) : natural a c ≠ .gt := by
  rw [natural_key ha.1 ha.2 hb.1 hb.2] at h1
  rw [natural_key hb.1 hb.2 hc.1 hc.2] at h2
  rw [natural_key ha.1 ha.2 hc.1 hc.2]
  exact lexCmp_trans h1 h2

theorem noDigitEnd_runs {p x : List Nat} (hp : NoDigitEnd p) (hx : IsNumber x) : runs (p ++ x) = runs p ++ runs x := by
  apply runs_append
  intro l c d l' e1 e2
  have h1 := hp l c e1
  have h2 := hx.2 d (by rw [e2]; simp)
  rw [← isDigit_false] at h1
  rw [← isDigit_iff] at h2
  rw [h1, h2]; decide

theorem number_noDigitStart_runs {x q : List Nat} (hx : IsNumber x) (hq : NoDigitStart q) :
    runs (x ++ q) = x :: runs q := by
  rw [runs_append, runs_digits x hx.1 (fun c hc => (isDigit_iff c).2 (hx.2 c hc))]
  · rfl
  · intro l c d l' e1 e2
    have h1 := hx.2 c (by rw [e1]; simp)
    have h2 := hq d l' e2
    rw [← isDigit_iff] at h1
    rw [← isDigit_false] at h2
    rw [h1, h2]; decide

theorem runs_around {p x q : List Nat} (hp : NoDigitEnd p) (hx : IsNumber x) (hq : NoDigitStart q) :
    runs (p ++ x ++ q) = runs p ++ x :: runs q := by
  rw [List.append_assoc, ← number_noDigitStart_runs hx hq]
  apply runs_append
  intro l c d l' e1 e2
  have h1 := hp l c e1
  have h2 : Digit d := by
    obtain ⟨hne, hd⟩ := hx
    match x, hne, hd, e2 with
    | d' :: x, _, hd, e2 => rw [List.cons_append] at e2; cases e2; exact hd _ (by simp)
  rw [← isDigit_false] at h1
  rw [← isDigit_iff] at h2
  rw [h1, h2]; decide

theorem go_prefix (full : Ordering) (A B : List (List Nat)) : ∀ rs : List (List Nat),
    (∀ r ∈ rs, r.all isDigit = true → num r < 2 ^ 32) → go full (rs ++ A) (rs ++ B) = go full A B
  | [], _ => rfl
  | r :: rs, h => by
    rw [List.cons_append, List.cons_append]
    conv => lhs; unfold go
    have ih := go_prefix full A B rs (fun r hr => h r (by simp [hr]))
    by_cases hd : r.all isDigit = true
    · rw [if_neg (by simp [hd]), number_some hd (h r (by simp) hd)]
      simp only
      rw [if_neg (by omega), if_neg (by omega), ih]
    · simp only [Bool.not_eq_true] at hd
      rw [if_pos (by rw [hd]; decide), lexCmp_self]
      simp only
      exact ih

/-- **C50.** Numbers are ordered by value: two names that are the same, up to letter case, before a number are
ordered by that number if it differs, whatever follows. -/
theorem C50_numbers (p p' x y q q' : List Nat) (hp : caseFold p = caseFold p') (hpe : NoDigitEnd p)
    (hps : SmallNumbers p) (hx : IsNumber x) (hy : IsNumber y) (hxs : num x < 2 ^ 32) (hys : num y < 2 ^ 32)
    (hq : NoDigitStart q) (hq' : NoDigitStart q') (h : num x < num y) :
    natural (p ++ x ++ q) (p' ++ y ++ q') = .lt ∧ natural (p' ++ y ++ q') (p ++ x ++ q) = .gt := by
  have h1 : natural (p ++ x ++ q) (p' ++ y ++ q') = .lt := by
    rw [C50_ignores_case (p ++ x ++ q) (p' ++ y ++ q') (p ++ x ++ q) (p ++ y ++ q') rfl (by
      rw [caseFold_eq, caseFold_eq] at hp
      simp only [caseFold_eq, List.map_append]
      rw [hp])]
    have dx : x.all isDigit = true := List.all_eq_true.2 fun c hc => (isDigit_iff c).2 (hx.2 c hc)
    have dy : y.all isDigit = true := List.all_eq_true.2 fun c hc => (isDigit_iff c).2 (hy.2 c hc)
    unfold natural
    rw [runs_around hpe hx hq, runs_around hpe hy hq', go_prefix _ _ _ _ (fun r hr hd => hps r (run_numberIn hr hd))]
    unfold go
    rw [if_neg (by simp [dx]), number_some dx hxs, number_some dy hys]
    simp only
    rw [if_pos h]
  exact ⟨h1, by rw [C50_antisymmetric (p ++ x ++ q) (p' ++ y ++ q'), h1]; rfl⟩

/-- **C50 is false of the code: leading zeros.** `1 < 1a < 01b < 1`. -/
theorem C50_false_zeros : natural [49] [49, 97] = .lt ∧ natural [49, 97] [48, 49, 98] = .lt ∧
    natural [48, 49, 98] [49] = .lt := by decide

/-- **C50 is false of the code: large numbers.** `2 < 10 < 15000000000 < 2`. -/
theorem C50_false_big : natural [50] [49, 48] = .lt ∧
    natural [49, 48] [49, 53, 48, 48, 48, 48, 48, 48, 48, 48, 48] = .lt ∧
    natural [49, 53, 48, 48, 48, 48, 48, 48, 48, 48, 48] [50] = .lt := by decide

/-! ### Examples -/

/-- `n` is a number of the name only if it is one of its runs. -/
theorem numberIn_run {s n : List Nat} (h : NumberIn s n) : n ∈ runs s := by
  obtain ⟨p, q, rfl, hp, hq, hn⟩ := h
  rw [runs_around hp hn hq]
  simp

/-- `Disk` meets the hypotheses: `Disk9 < disk10`. -/
example : natural [68, 105, 115, 107, 57] [100, 105, 115, 107, 49, 48] = .lt :=
  (C50_numbers [68, 105, 115, 107] [100, 105, 115, 107] [57] [49, 48] [] [] (by decide)
    (by
      intro l c e
      have : c = 107 := by
        have := congrArg List.getLast? e
        simpa using this.symm
      subst this; unfold Digit; omega)
    (by
      intro n h
      have := numberIn_run h
      have e : runs [68, 105, 115, 107] = [[68, 105, 115, 107]] := by decide
      rw [e, List.mem_singleton] at this
      obtain ⟨_, _, _, _, _, h⟩ := h
      have := h.2 68 (by rw [this]; simp)
      unfold Digit at this
      omega)
    ⟨by decide, by simp [Digit]⟩ ⟨by decide, by simp [Digit]⟩ (by decide) (by decide)
    (by intro c l h; cases h) (by intro c l h; cases h) (by decide)).1

/-- `Disk10b` has small numbers without leading zeros. -/
example : SmallNumbers [68, 105, 115, 107, 49, 48, 98] ∧ NoLeadingZeros [68, 105, 115, 107, 49, 48, 98] := by
  have e : runs [68, 105, 115, 107, 49, 48, 98] = [[68, 105, 115, 107], [49, 48], [98]] := by decide
  have key : ∀ n, NumberIn [68, 105, 115, 107, 49, 48, 98] n → n = [49, 48] := by
    intro n h
    have hm := numberIn_run h
    rw [e] at hm
    simp only [List.mem_cons, List.not_mem_nil, or_false] at hm
    obtain ⟨_, _, _, _, _, h⟩ := h
    rcases hm with rfl | rfl | rfl
    · have := h.2 68 (by simp); unfold Digit at this; omega
    · rfl
    · have := h.2 98 (by simp); unfold Digit at this; omega
  refine ⟨fun n hn => ?_, fun n hn => ?_⟩
  · rw [key n hn]; decide
  · rw [key n hn]; decide

end Fox
