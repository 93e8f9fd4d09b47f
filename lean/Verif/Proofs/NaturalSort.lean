import Verif.Model.NaturalSort
import Verif.Spec.NaturalSort
/-
Lemmas for C50.
-/
namespace Fox
open Spec NatSort

theorem lexCmp_self : ∀ a : List Nat, lexCmp a a = .eq
  | [] => rfl
  | a :: as => by unfold lexCmp; rw [if_neg (by omega), if_neg (by omega)]; exact lexCmp_self as

theorem lexCmp_eq : ∀ {a b : List Nat}, lexCmp a b = .eq → a = b
  | [], [], _ => rfl
  | [], _ :: _, h => by cases h
  | _ :: _, [], h => by cases h
  | a :: as, b :: bs, h => by
    unfold lexCmp at h
    split at h
    · cases h
    · split at h
      · cases h
      · rw [show a = b by omega, lexCmp_eq h]

theorem lexCmp_swap : ∀ a b : List Nat, lexCmp b a = (lexCmp a b).swap
  | [], [] => rfl
  | [], _ :: _ => rfl
  | _ :: _, [] => rfl
  | a :: as, b :: bs => by
    unfold lexCmp
    by_cases h1 : a < b
    · rw [if_pos h1, if_neg (by omega), if_pos h1]; rfl
    · by_cases h2 : b < a
      · rw [if_pos h2, if_neg h1, if_pos h2]; rfl
      · rw [if_neg h1, if_neg h2, if_neg h2, if_neg h1]; exact lexCmp_swap as bs

theorem lexCmp_trans : ∀ {a b c : List Nat}, lexCmp a b ≠ .gt → lexCmp b c ≠ .gt → lexCmp a c ≠ .gt
  | [], _, [], _, _ => by unfold lexCmp; decide
  | [], _, _ :: _, _, _ => by unfold lexCmp; decide
  | _ :: _, [], _, h, _ => absurd rfl h
  | _ :: _, _ :: _, [], _, h => absurd rfl h
  | a :: as, b :: bs, c :: cs, h1, h2 => by
    unfold lexCmp at *
    by_cases x1 : a < b
    · by_cases y1 : b < c
      · rw [if_pos (by omega)]; decide
      · rw [if_neg y1] at h2
        by_cases y2 : c < b
        · rw [if_pos y2] at h2; exact absurd rfl h2
        · rw [if_pos (by omega)]; decide
    · rw [if_neg x1] at h1
      by_cases x2 : b < a
      · rw [if_pos x2] at h1; exact absurd rfl h1
      · rw [if_neg x2] at h1
        by_cases y1 : b < c
        · rw [if_pos (by omega)]; decide
        · rw [if_neg y1] at h2
          by_cases y2 : c < b
          · rw [if_pos y2] at h2; exact absurd rfl h2
          · rw [if_neg y2] at h2
            rw [if_neg (by omega), if_neg (by omega)]
            exact lexCmp_trans h1 h2

theorem lexCmp_prefix : ∀ p a b : List Nat, lexCmp (p ++ a) (p ++ b) = lexCmp a b
  | [], _, _ => rfl
  | x :: p, a, b => by
    rw [List.cons_append, List.cons_append]
    show (if x < x then _ else if x < x then _ else lexCmp (p ++ a) (p ++ b)) = _
    rw [if_neg (by omega), if_neg (by omega)]
    exact lexCmp_prefix p a b

/-! ### Characters -/

theorem lower_digit (c : Nat) : isDigit (lower c) = isDigit c := by
  unfold lower isDigit
  split
  · next h =>
    rw [decide_eq_false (show ¬ c + 32 ≤ 57 by omega), decide_eq_false (show ¬ c ≤ 57 by omega), Bool.and_false,
      Bool.and_false]
  · rfl

theorem lower_of_digit {c : Nat} (h : isDigit c = true) : lower c = c := by
  unfold isDigit at h
  simp only [Bool.and_eq_true, decide_eq_true_eq] at h
  unfold lower
  rw [if_neg (by omega)]

theorem map_lower_digits : ∀ {r : List Nat}, r.all isDigit = true → r.map lower = r
  | [], _ => rfl
  | c :: r, h => by
    rw [List.all_cons, Bool.and_eq_true] at h
    rw [List.map_cons, lower_of_digit h.1, map_lower_digits h.2]

/-! ### Runs -/

theorem runs_cons (c : Nat) (cs : List Nat) : ∃ r rest, runs (c :: cs) = (c :: r) :: rest := by
  unfold runs
  split
  · split
    · exact ⟨_, _, rfl⟩
    · exact ⟨_, _, rfl⟩
  · exact ⟨_, _, rfl⟩

theorem runs_append : ∀ (p x : List Nat), (∀ l c d l', p = l ++ [c] → x = d :: l' → isDigit c ≠ isDigit d) →
    runs (p ++ x) = runs p ++ runs x
  | [], x, _ => rfl
  | [c], [], _ => rfl
  | [c], d :: x, h => by
    obtain ⟨r, rest, e⟩ := runs_cons d x
    show (match runs (d :: x) with
      | (d :: r) :: rest => if isDigit c = isDigit d then (c :: d :: r) :: rest else [c] :: (d :: r) :: rest
      | rest => [c] :: rest) = [c] :: runs (d :: x)
    rw [e]
    simp only
    rw [if_neg (h [] c d x rfl rfl)]
  | c :: c' :: p, x, h => by
    have ih := runs_append (c' :: p) x (by
      intro l e d l' e1 e2
      exact h (c :: l) e d l' (by rw [e1]; rfl) e2)
    obtain ⟨r, rest, e⟩ := runs_cons c' p
    rw [e] at ih
    show (match runs (c' :: p ++ x) with
      | (d :: r) :: rest => if isDigit c = isDigit d then (c :: d :: r) :: rest else [c] :: (d :: r) :: rest
      | rest => [c] :: rest) = (match runs (c' :: p) with
      | (d :: r) :: rest => if isDigit c = isDigit d then (c :: d :: r) :: rest else [c] :: (d :: r) :: rest
      | rest => [c] :: rest) ++ runs x
    rw [ih, e]
    simp only [List.cons_append]
    split <;> rfl

theorem runs_digits : ∀ (x : List Nat), x ≠ [] → (∀ c ∈ x, isDigit c = true) → runs x = [x]
  | [], h, _ => absurd rfl h
  | [c], _, _ => rfl
  | c :: d :: x, _, h => by
    have ih := runs_digits (d :: x) (by simp) (fun y hy => h y (by simp [hy]))
    unfold runs
    rw [ih]
    simp only
    rw [if_pos (by rw [h c (by simp), h d (by simp)])]

theorem runs_flatten : ∀ s : List Nat, (runs s).flatten = s
  | [] => rfl
  | [c] => rfl
  | c :: d :: s => by
    have ih := runs_flatten (d :: s)
    obtain ⟨r, rest, e⟩ := runs_cons d s
    rw [e] at ih
    unfold runs
    rw [e]
    simp only
    split
    · rw [List.flatten_cons, List.cons_append]
      rw [List.flatten_cons] at ih
      rw [ih]
    · rw [List.flatten_cons, ih]; rfl

/-- Runs are not empty, all of one kind, and adjacent ones of different kinds. -/
def Alternating : List (List Nat) → Prop
  | [] => True
  | r :: rest => (∃ c l, r = c :: l ∧ ∀ d ∈ l, isDigit d = isDigit c) ∧
      (∀ c l c' l' rest', r = c :: l → rest = (c' :: l') :: rest' → isDigit c ≠ isDigit c') ∧ Alternating rest

theorem runs_alternating : ∀ s : List Nat, Alternating (runs s)
  | [] => trivial
  | [c] => ⟨⟨c, [], rfl, by simp⟩, by intro _ _ _ _ _ _ h; simp [runs] at h, trivial⟩
  | c :: d :: s => by
    have ih := runs_alternating (d :: s)
    obtain ⟨r, rest, e⟩ := runs_cons d s
    rw [e] at ih
    obtain ⟨⟨d', l, e1, h1⟩, h2, h3⟩ := ih
    cases e1
    unfold runs
    rw [e]
    simp only
    split
    · next hk =>
      refine ⟨⟨c, _, rfl, ?_⟩, ?_, h3⟩
      · intro x hx
        rw [List.mem_cons] at hx
        rcases hx with rfl | hx
        · exact hk.symm
        · rw [h1 x hx, hk]
      · intro c1 l1 c' l' rest' e1 e2
        cases e1
        rw [hk]
        exact h2 _ _ c' l' rest' rfl e2
    · next hk =>
      refine ⟨⟨c, [], rfl, by simp⟩, ?_, ⟨_, _, rfl, h1⟩, h2, h3⟩
      intro c1 l1 c' l' rest' e1 e2
      cases e1
      cases e2
      exact hk

theorem alternating_run : ∀ {rs : List (List Nat)}, Alternating rs → ∀ r ∈ rs,
    r ≠ [] ∧ (r.all isDigit = true ∨ ∀ c ∈ r, isDigit c = false)
  | [], _, _, h => by simp at h
  | r :: rs, ⟨⟨c, l, e, h1⟩, _, h3⟩, r', h => by
    rw [List.mem_cons] at h
    rcases h with rfl | h
    · subst e
      refine ⟨by simp, ?_⟩
      rcases hk : isDigit c with _ | _
      · right
        intro d hd
        rw [List.mem_cons] at hd
        rcases hd with rfl | hd
        · exact hk
        · rw [h1 d hd, hk]
      · left
        rw [List.all_cons, hk, Bool.true_and, List.all_eq_true]
        intro d hd
        rw [h1 d hd, hk]
    · exact alternating_run h3 r' h

theorem alternating_around : ∀ {pre : List (List Nat)} {r : List Nat} {post : List (List Nat)},
    Alternating (pre ++ r :: post) → r.all isDigit = true →
    (∀ l c, pre.flatten = l ++ [c] → isDigit c = false) ∧ (∀ c l, post.flatten = c :: l → isDigit c = false)
  | [], r, post, h, hr => by
    refine ⟨by intro l c h; simp at h, ?_⟩
    intro c l e
    obtain ⟨⟨c0, l0, e0, h0⟩, h2, h3⟩ := h
    match post, h3, e with
    | [], _, e => simp at e
    | r' :: post, ⟨⟨c1, l1, e1, h1⟩, _, _⟩, e =>
      subst e0 e1
      rw [List.flatten_cons, List.cons_append] at e
      cases e
      have := h2 _ _ _ _ _ rfl rfl
      rw [List.all_cons, Bool.and_eq_true] at hr
      rw [hr.1] at this
      simpa using this.symm
  | p :: pre, r, post, h, hr => by
    obtain ⟨⟨c0, l0, e0, h0⟩, h2, h3⟩ := h
    have ih := alternating_around (pre := pre) h3 hr
    refine ⟨?_, ih.2⟩
    intro l c e
    by_cases hp : pre = []
    · subst hp
      subst e0
      rw [List.flatten_cons, List.flatten_nil, List.append_nil] at e
      replace h3 : Alternating (r :: post) := h3
      replace h2 : ∀ (c : Nat) (l : List Nat) (c' : Nat) (l' : List Nat) (rest' : List (List Nat)), c0 :: l0 = c :: l →
        r :: post = (c' :: l') :: rest' → isDigit c ≠ isDigit c' := h2
      obtain ⟨⟨c1, l1, e1, h1⟩, _, _⟩ := h3
      subst e1
      have hk := h2 _ _ _ _ _ rfl rfl
      rw [List.all_cons, Bool.and_eq_true] at hr
      rw [hr.1] at hk
      have hc0 : isDigit c0 = false := by simpa using hk
      have : c ∈ c0 :: l0 := by rw [e]; simp
      rw [List.mem_cons] at this
      rcases this with rfl | hm
      · exact hc0
      · rw [h0 c hm, hc0]
    · have hne : pre.flatten ≠ [] := by
        intro hz
        rw [List.flatten_eq_nil_iff] at hz
        match pre, hp with
        | q :: pre, _ =>
          obtain ⟨⟨c1, l1, e1, _⟩, _, _⟩ := h3
          rw [hz q (by simp)] at e1
          cases e1
      rw [List.flatten_cons] at e
      obtain ⟨l', c', e'⟩ : ∃ l' c', pre.flatten = l' ++ [c'] :=
        ⟨_, _, (List.dropLast_concat_getLast hne).symm⟩
      rw [e', ← List.append_assoc] at e
      have := List.append_inj_right' e rfl
      cases this
      exact ih.1 l' c e'

theorem isDigit_iff (c : Nat) : isDigit c = true ↔ Digit c := by
  unfold isDigit Digit
  simp

theorem isDigit_false (c : Nat) : isDigit c = false ↔ ¬ Digit c := by
  rw [← isDigit_iff]; simp

theorem run_numberIn {s r : List Nat} (h : r ∈ runs s) (hd : r.all isDigit = true) : NumberIn s r := by
  obtain ⟨pre, post, e⟩ := List.append_of_mem h
  have ha := runs_alternating s
  have hf := runs_flatten s
  rw [e] at ha hf
  have h1 := alternating_around ha hd
  have h2 := alternating_run ha r (by simp)
  refine ⟨pre.flatten, post.flatten, ?_, ?_, ?_, h2.1, ?_⟩
  · rw [← hf]; simp
  · intro l c e; rw [← isDigit_false]; exact h1.1 l c e
  · intro c l e; rw [← isDigit_false]; exact h1.2 c l e
  · intro c hc; rw [← isDigit_iff]; exact List.all_eq_true.1 hd c hc

/-! ### Numbers -/

theorem value_num (ds : List Nat) : value ds = num ds := by
  have key : ∀ r : List Nat, value r.reverse = numRev r := by
    intro r
    induction r with
    | nil => rfl
    | cons d r ih =>
      unfold value at ih ⊢
      rw [List.reverse_cons, List.foldl_append, ih]
      simp only [List.foldl_cons, List.foldl_nil, numRev]
      omega
  unfold num
  rw [← key, List.reverse_reverse]

theorem numRev_pos : ∀ X : List Nat, X ≠ [] → (∀ c ∈ X, Digit c) → X.getLast? ≠ some 48 → 0 < numRev X
  | [], h, _, _ => absurd rfl h
  | [d], _, h, h2 => by
    have := h d (by simp)
    unfold Digit at this
    have : d ≠ 48 := by intro e; exact h2 (by rw [e]; rfl)
    unfold numRev
    omega
  | d :: e :: X, _, h, h2 => by
    have := numRev_pos (e :: X) (by simp) (fun c hc => h c (by simp [hc])) (by simpa using h2)
    show 0 < _ + 10 * numRev (e :: X)
    omega

theorem numRev_inj : ∀ X Y : List Nat, (∀ c ∈ X, Digit c) → (∀ c ∈ Y, Digit c) → X.getLast? ≠ some 48 →
    Y.getLast? ≠ some 48 → numRev X = numRev Y → X = Y
  | [], [], _, _, _, _, _ => rfl
  | [], e :: Y, _, h, _, h2, e1 => by
    have := numRev_pos (e :: Y) (by simp) h h2
    rw [← e1] at this
    exact absurd this (by unfold numRev; omega)
  | e :: X, [], h, _, h2, _, e1 => by
    have := numRev_pos (e :: X) (by simp) h h2
    rw [e1] at this
    exact absurd this (by unfold numRev; omega)
  | d :: X, e :: Y, hx, hy, lx, ly, h => by
    have h1 := hx d (by simp)
    have h2 := hy e (by simp)
    unfold Digit at h1 h2
    unfold numRev at h
    have hd : d = e := by omega
    have hr : numRev X = numRev Y := by omega
    have sub : ∀ (c : Nat) (L : List Nat), (c :: L).getLast? ≠ some 48 → L.getLast? ≠ some 48 := by
      intro c L hL
      match L with
      | [] => simp
      | b :: L => simpa using hL
    rw [hd, numRev_inj X Y (fun c hc => hx c (by simp [hc])) (fun c hc => hy c (by simp [hc])) (sub _ _ lx)
      (sub _ _ ly) hr]

theorem num_inj {x y : List Nat} (hx : IsNumber x) (hy : IsNumber y) (zx : x = [48] ∨ x.head? ≠ some 48)
    (zy : y = [48] ∨ y.head? ≠ some 48) (h : num x = num y) : x = y := by
  have mem : ∀ {l : List Nat}, IsNumber l → ∀ c ∈ l.reverse, Digit c := by
    intro l hl c hc; exact hl.2 c (List.mem_reverse.1 hc)
  have last : ∀ {l : List Nat}, l.head? ≠ some 48 → l.reverse.getLast? ≠ some 48 := by
    intro l hl; rw [List.getLast?_reverse]; exact hl
  have zero : num [48] = 0 := rfl
  rcases zx with rfl | zx
  · rcases zy with rfl | zy
    · rfl
    · have := numRev_pos y.reverse (by simp [hy.1]) (mem hy) (last zy)
      unfold num at h zero
      omega
  · rcases zy with rfl | zy
    · have := numRev_pos x.reverse (by simp [hx.1]) (mem hx) (last zx)
      unfold num at h zero
      omega
    · exact List.reverse_inj.1 (numRev_inj _ _ (mem hx) (mem hy) (last zx) (last zy) h)

/-! ### The order as a sort key -/

/-- Room for the numbers between the characters below `0` and those above `9`. -/
def keyChar (c : Nat) : Nat := if c < 48 then c + 1 else c + 2 ^ 32 + 1

/-- The key of a run: a number is one symbol; a text is its characters in lower case and an end mark below
every character. -/
def keyRun (r : List Nat) : List Nat :=
  if r.all isDigit then [48 + num r + 1] else r.map (fun c => keyChar (lower c)) ++ [0]

def sortKey (rs : List (List Nat)) : List Nat := (rs.map keyRun).flatten

theorem key_text : ∀ (a b x y : List Nat), (∀ c ∈ a, isDigit c = false) → (∀ c ∈ b, isDigit c = false) →
    lexCmp (a.map (fun c => keyChar (lower c)) ++ 0 :: x) (b.map (fun c => keyChar (lower c)) ++ 0 :: y) =
      match lexCmp (a.map lower) (b.map lower) with
      | .eq => lexCmp x y
      | o => o
  | [], [], x, y, _, _ => by
    simp only [List.map_nil, List.nil_append]
    show (if 0 < 0 then _ else if 0 < 0 then _ else lexCmp x y) = _
    rw [if_neg (by omega), if_neg (by omega)]
    rfl
  | [], b :: bs, x, y, _, _ => by
    simp only [List.map_nil, List.nil_append, List.map_cons, List.cons_append]
    have : 0 < keyChar (lower b) := by unfold keyChar; split <;> omega
    show (if 0 < keyChar (lower b) then _ else _) = _
    rw [if_pos this]
    rfl
  | a :: as, [], x, y, _, _ => by
    simp only [List.map_nil, List.nil_append, List.map_cons, List.cons_append]
    have : 0 < keyChar (lower a) := by unfold keyChar; split <;> omega
    show (if keyChar (lower a) < 0 then _ else if 0 < keyChar (lower a) then _ else _) = _
    rw [if_neg (by omega), if_pos this]
    rfl
  | a :: as, b :: bs, x, y, ha, hb => by
    have ih := key_text as bs x y (fun c hc => ha c (by simp [hc])) (fun c hc => hb c (by simp [hc]))
    have h1 : isDigit (lower a) = false := by rw [lower_digit]; exact ha a (by simp)
    have h2 : isDigit (lower b) = false := by rw [lower_digit]; exact hb b (by simp)
    rw [isDigit_false] at h1 h2
    unfold Digit at h1 h2
    have hk : ∀ {u v : Nat}, ¬ (48 ≤ u ∧ u ≤ 57) → ¬ (48 ≤ v ∧ v ≤ 57) → (keyChar u < keyChar v ↔ u < v) := by
      intro u v hu hv
      unfold keyChar
      split <;> split <;> omega
    simp only [List.map_cons, List.cons_append]
    show (if keyChar (lower a) < keyChar (lower b) then _ else if keyChar (lower b) < keyChar (lower a) then _ else _) =
      match (if lower a < lower b then Ordering.lt else if lower b < lower a then .gt else lexCmp (as.map lower) (bs.map lower)) with
      | .eq => lexCmp x y
      | o => o
    simp only [hk h1 h2, hk h2 h1]
    split
    · rfl
    · split
      · rfl
      · exact ih

/-- A list of runs with small numbers and no leading zeros. -/
structure GoodRun (r : List Nat) : Prop where
  ne : r ≠ []
  kind : r.all isDigit = true ∨ ∀ c ∈ r, isDigit c = false
  small : r.all isDigit = true → num r < 2 ^ 32
  plain : r.all isDigit = true → r = [48] ∨ r.head? ≠ some 48

theorem not_all_of_text {r : List Nat} (hne : r ≠ []) (h : ∀ c ∈ r, isDigit c = false) : r.all isDigit = false := by
  match r, hne with
  | c :: r, _ => rw [List.all_cons, h c (by simp)]; rfl

theorem number_some {r : List Nat} (hd : r.all isDigit = true) (hs : num r < 2 ^ 32) : number r = some (num r) := by
  unfold number
  rw [if_pos hd, value_num, if_pos hs]

theorem number_none {r : List Nat} (hd : r.all isDigit = false) : number r = none := by
  unfold number
  rw [if_neg (by rw [hd]; decide)]

theorem goodRun_isNumber {r : List Nat} (h : GoodRun r) (hd : r.all isDigit = true) : IsNumber r :=
  ⟨h.ne, fun c hc => (isDigit_iff c).1 (List.all_eq_true.1 hd c hc)⟩

theorem map_lower_append (a b : List Nat) : (a ++ b).map lower = a.map lower ++ b.map lower := List.map_append

theorem go_key : ∀ (as bs : List (List Nat)), (∀ r ∈ as, GoodRun r) → (∀ r ∈ bs, GoodRun r) →
    go (lexCmp (as.flatten.map lower) (bs.flatten.map lower)) as bs = lexCmp (sortKey as) (sortKey bs)
  | [], [], _, _ => rfl
  | [], b :: bs, _, hb => by
    have h := hb b (by simp)
    have h1 : sortKey (b :: bs) ≠ [] := by
      unfold sortKey keyRun
      rw [List.map_cons, List.flatten_cons]
      split <;> simp
    have h2 : (b :: bs).flatten.map lower ≠ [] := by
      rw [List.flatten_cons, map_lower_append]
      simp [h.ne]
    show lexCmp [] _ = lexCmp [] _
    match hh1 : sortKey (b :: bs), hh2 : (b :: bs).flatten.map lower, h1, h2 with
    | _ :: _, _ :: _, _, _ => rfl
  | a :: as, [], ha, _ => by
    have h := ha a (by simp)
    have h1 : sortKey (a :: as) ≠ [] := by
      unfold sortKey keyRun
      rw [List.map_cons, List.flatten_cons]
      split <;> simp
    have h2 : (a :: as).flatten.map lower ≠ [] := by
      rw [List.flatten_cons, map_lower_append]
      simp [h.ne]
    show lexCmp _ [] = lexCmp _ []
    match hh1 : sortKey (a :: as), hh2 : (a :: as).flatten.map lower, h1, h2 with
    | _ :: _, _ :: _, _, _ => rfl
  | a :: as, b :: bs, ha, hb => by
    have ga := ha a (by simp)
    have gb := hb b (by simp)
    have ih := go_key as bs (fun r hr => ha r (by simp [hr])) (fun r hr => hb r (by simp [hr]))
    have ek : ∀ (r : List Nat) (rs : List (List Nat)), sortKey (r :: rs) = keyRun r ++ sortKey rs := by
      intro r rs; unfold sortKey; rw [List.map_cons, List.flatten_cons]
    rw [ek, ek, List.flatten_cons, List.flatten_cons, map_lower_append, map_lower_append]
    unfold go
    rcases ga.kind with da | ta
    · rcases gb.kind with db | tb
      · rw [if_neg (by simp [da]), number_some da (ga.small da), number_some db (gb.small db)]
        simp only
        unfold keyRun
        rw [if_pos da, if_pos db, List.singleton_append, List.singleton_append]
        show _ = if 48 + num a + 1 < 48 + num b + 1 then _ else if 48 + num b + 1 < 48 + num a + 1 then _ else _
        by_cases h1 : num a < num b
        · rw [if_pos h1, if_pos (by omega)]
        · by_cases h2 : num b < num a
          · rw [if_neg h1, if_pos h2, if_neg (by omega), if_pos (by omega)]
          · rw [if_neg h1, if_neg h2, if_neg (by omega), if_neg (by omega)]
            have := num_inj (goodRun_isNumber ga da) (goodRun_isNumber gb db) (ga.plain da) (gb.plain db) (by omega)
            subst this
            rw [lexCmp_prefix]
            exact ih
      · have nb := not_all_of_text gb.ne tb
        rw [if_neg (by simp [da]), number_none nb]
        unfold keyRun
        rw [if_pos da, if_neg (by rw [nb]; decide), number_some da (ga.small da), map_lower_digits da]
        simp only
        match a, b, ga, gb, da, tb with
        | c :: a, d :: b, ga, gb, da, tb =>
          have hs := ga.small da
          rw [List.all_cons, Bool.and_eq_true, isDigit_iff] at da
          have hd : isDigit (lower d) = false := by rw [lower_digit]; exact tb d (by simp)
          rw [isDigit_false] at hd
          have da := da.1
          unfold Digit at da hd
          simp only [List.map_cons, List.cons_append, List.nil_append]
          show (if c < lower d then Ordering.lt else if lower d < c then .gt else _) =
            if 48 + num (c :: a) + 1 < keyChar (lower d) then .lt else if keyChar (lower d) < 48 + num (c :: a) + 1 then .gt else _
          by_cases h1 : lower d < 48
          · rw [if_neg (by omega), if_pos (by omega), if_neg (by unfold keyChar; rw [if_pos h1]; omega),
              if_pos (by unfold keyChar; rw [if_pos h1]; omega)]
          · rw [if_pos (by omega), if_pos (by unfold keyChar; rw [if_neg h1]; omega)]
    · have na := not_all_of_text ga.ne ta
      rcases gb.kind with db | tb
      · rw [if_neg (by rw [db]; simp), number_none na]
        unfold keyRun
        rw [if_pos db, if_neg (by rw [na]; decide), map_lower_digits db]
        simp only
        match a, b, ga, gb, db, ta with
        | d :: a, c :: b, ga, gb, db, ta =>
          have hs := gb.small db
          rw [List.all_cons, Bool.and_eq_true, isDigit_iff] at db
          have hd : isDigit (lower d) = false := by rw [lower_digit]; exact ta d (by simp)
          rw [isDigit_false] at hd
          have db := db.1
          unfold Digit at db hd
          simp only [List.map_cons, List.cons_append, List.nil_append]
          show (if lower d < c then Ordering.lt else if c < lower d then .gt else _) =
            if keyChar (lower d) < 48 + num (c :: b) + 1 then .lt else if 48 + num (c :: b) + 1 < keyChar (lower d) then .gt else _
          by_cases h1 : lower d < 48
          · rw [if_pos (by omega), if_pos (by unfold keyChar; rw [if_pos h1]; omega)]
          · rw [if_neg (by omega), if_pos (by omega), if_neg (by unfold keyChar; rw [if_neg h1]; omega),
              if_pos (by unfold keyChar; rw [if_neg h1]; omega)]
      · have nb := not_all_of_text gb.ne tb
        rw [if_pos (by rw [na, nb]; decide)]
        unfold keyRun
        rw [if_neg (by rw [na]; decide), if_neg (by rw [nb]; decide), List.append_assoc, List.append_assoc,
          List.singleton_append, List.singleton_append, key_text a b _ _ ta tb]
        rcases hc : lexCmp (a.map lower) (b.map lower) with _ | _ | _
        · rfl
        · simp only
          rw [lexCmp_eq hc, lexCmp_prefix]
          exact ih
        · rfl

theorem good_runs {s : List Nat} (h1 : SmallNumbers s) (h2 : NoLeadingZeros s) : ∀ r ∈ runs s, GoodRun r := by
  intro r hr
  obtain ⟨a, b⟩ := alternating_run (runs_alternating s) r hr
  exact ⟨a, b, fun hd => h1 r (run_numberIn hr hd), fun hd => h2 r (run_numberIn hr hd)⟩

theorem natural_key {a b : List Nat} (ha : SmallNumbers a) (ha' : NoLeadingZeros a) (hb : SmallNumbers b)
    (hb' : NoLeadingZeros b) : natural a b = lexCmp (sortKey (runs a)) (sortKey (runs b)) := by
  have := go_key (runs a) (runs b) (good_runs ha ha') (good_runs hb hb')
  rw [runs_flatten, runs_flatten] at this
  exact this

end Fox
