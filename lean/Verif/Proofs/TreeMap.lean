import Verif.Spec.TreeMap

/-! Lemmas about source maps. -/

namespace Fox

variable {α : Type}

/-- Every node but the first has an earlier parent. -/
structure Family.Ok (f : Family α) : Prop where
  pos : 0 < f.all.length
  root : f.parentOf 0 = 0
  early : ∀ i, 0 < i → i < f.all.length → f.parentOf i < i
  here : f.here < f.all.length

theorem Family.Ok.le {f : Family α} (h : f.Ok) (i : Nat) : f.parentOf i ≤ i := by
  by_cases hi : i < f.all.length
  · by_cases h0 : i = 0
    · subst h0; rw [h.root]; exact Nat.le_refl _
    · exact Nat.le_of_lt (h.early i (by omega) hi)
  · unfold Family.parentOf
    rw [List.getElem?_eq_none (by omega)]
    exact Nat.zero_le _

theorem parentOf_append (f : Family α) (e : Nat × String × α) (h : Nat) (i : Nat) :
    (⟨f.all ++ [e], h⟩ : Family α).parentOf i = if i = f.all.length then e.1 else f.parentOf i := by
  unfold Family.parentOf
  by_cases hi : i = f.all.length
  · subst hi
    rw [if_pos rfl, List.getElem?_append_right (Nat.le_refl _), Nat.sub_self]
    rfl
  · rw [if_neg hi]
    by_cases hlt : i < f.all.length
    · rw [List.getElem?_append_left hlt]
    · rw [List.getElem?_eq_none (by rw [List.length_append, List.length_singleton]; omega),
        List.getElem?_eq_none (by omega)]

theorem childrenOf_append (f : Family α) (e : Nat × String × α) (h i : Nat) (he : e.1 < f.all.length) :
    (⟨f.all ++ [e], h⟩ : Family α).childrenOf i =
      f.childrenOf i ++ if i = e.1 then [f.all.length] else [] := by
  unfold Family.childrenOf
  rw [List.length_append, List.length_singleton, List.range_succ, List.filter_append]
  congr 1
  · apply List.filter_congr
    intro j hj
    have := List.mem_range.1 hj
    rw [parentOf_append, if_neg (by omega)]
  · by_cases hi : i = e.1
    · rw [if_pos hi]
      apply List.filter_eq_self.2
      intro j hj
      rw [List.mem_singleton.1 hj, parentOf_append, if_pos rfl]
      simp only [Bool.and_eq_true, decide_eq_true_eq, beq_iff_eq]
      omega
    · rw [if_neg hi]
      apply List.filter_eq_nil_iff.2
      intro j hj
      rw [List.mem_singleton.1 hj, parentOf_append, if_pos rfl]
      simp only [Bool.and_eq_true, decide_eq_true_eq, beq_iff_eq]
      omega

theorem Family.Ok.append {f : Family α} (hf : f.Ok) (e : Nat × String × α) (he : e.1 < f.all.length) :
    (⟨f.all ++ [e], f.all.length⟩ : Family α).Ok := by
  have hl : (f.all ++ [e]).length = f.all.length + 1 := by simp
  refine ⟨by show 0 < (f.all ++ [e]).length; omega, ?_, ?_, by show f.all.length < (f.all ++ [e]).length; omega⟩
  · rw [parentOf_append, if_neg (by have := hf.pos; omega)]; exact hf.root
  · intro i h0 hi
    have hi : i < (f.all ++ [e]).length := hi
    rw [parentOf_append]
    split
    · omega
    · exact hf.early i h0 (by omega)

/-- The array holds the family. -/
structure TreeMap.Shows (t : TreeMap α) (f : Family α) : Prop where
  len : t.nodes.length = f.all.length
  node : ∀ i e, f.all[i]? = some e → t.nodes[i]? = some (TreeNode.mk e.2.1 i e.1 (f.childrenOf i) e.2.2)

theorem addChild_spec {t : TreeMap α} {f : Family α} (h : t.Shows f) (p : Nat) (name : String) (data : α) (hh : Nat) :
    (p < f.all.length → ∃ t', t.addChild p name data = .ok (t', f.all.length) ∧
      t'.Shows ⟨f.all ++ [(p, name, data)], hh⟩) ∧
    (¬ p < f.all.length → t.addChild p name data = .error .panic) := by
  constructor
  · intro hp
    have hg := h.node p f.all[p] (List.getElem?_eq_getElem hp)
    unfold TreeMap.addChild
    rw [hg]
    simp only [h.len]
    refine ⟨_, rfl, ?_, ?_⟩
    · show (t.nodes.set p _ ++ _).length = (f.all ++ _).length
      rw [List.length_append, List.length_set, List.length_append, h.len]
      rfl
    · intro i e he
      have he : (f.all ++ [(p, name, data)])[i]? = some e := he
      show (t.nodes.set p _ ++ _)[i]? = _
      rw [childrenOf_append f (p, name, data) hh i hp]
      by_cases hi : i < f.all.length
      · rw [List.getElem?_append_left hi] at he
        rw [List.getElem?_append_left (by rw [List.length_set, h.len]; exact hi), List.getElem?_set]
        by_cases hip : p = i
        · subst hip
          rw [if_pos rfl, if_pos (by rw [h.len]; exact hi)]
          rw [List.getElem?_eq_getElem hp] at he
          cases he
          simp only [if_pos, h.len]
        · rw [if_neg hip, h.node i e he]
          have : ¬ i = (p, name, data).1 := fun e => hip e.symm
          rw [if_neg this, List.append_nil]
      · have hi' : i = f.all.length := by
          have := (List.getElem?_eq_some_iff.1 he).1
          rw [List.length_append, List.length_singleton] at this
          omega
        subst hi'
        rw [List.getElem?_append_right (Nat.le_refl _), Nat.sub_self] at he
        cases he
        rw [List.getElem?_append_right (by rw [List.length_set, h.len]; exact Nat.le_refl _), List.length_set, h.len,
          Nat.sub_self]
        have hc : f.childrenOf f.all.length = [] := by
          unfold Family.childrenOf
          apply List.filter_eq_nil_iff.2
          intro j hj
          have := List.mem_range.1 hj
          simp only [Bool.and_eq_true, decide_eq_true_eq, beq_iff_eq]
          omega
        have : ¬ f.all.length = (p, name, data).1 := fun e => by
          have e : f.all.length = p := e
          omega
        rw [if_neg this, hc]
        rfl
  · intro hp
    unfold TreeMap.addChild
    rw [List.getElem?_eq_none (by rw [h.len]; omega)]

/-- One operation. -/
theorem tree_step {t : TreeMap α} {f : Family α} (h : t.Shows f) (hf : f.Ok) (op : TreeOp α) :
    match f.step op with
    | none => t.step ⟨f.parentOf f.here, f.here⟩ op = .error .panic
    | some f' => ∃ t', t.step ⟨f.parentOf f.here, f.here⟩ op = .ok (t', ⟨f'.parentOf f'.here, f'.here⟩) ∧
        t'.Shows f' ∧ f'.Ok := by
  have add : ∀ p name data, p < f.all.length → ∃ t',
      (do let (t, i) ← t.addChild p name data; return (t, (⟨p, i⟩ : TreeCursor)) : Except Err _) =
        .ok (t', ⟨(⟨f.all ++ [(p, name, data)], f.all.length⟩ : Family α).parentOf f.all.length, f.all.length⟩) ∧
      t'.Shows ⟨f.all ++ [(p, name, data)], f.all.length⟩ ∧ (⟨f.all ++ [(p, name, data)], f.all.length⟩ : Family α).Ok := by
    intro p name data hp
    obtain ⟨t', h1, h2⟩ := (addChild_spec h p name data f.all.length).1 hp
    refine ⟨t', ?_, h2, hf.append _ hp⟩
    rw [h1, parentOf_append, if_pos rfl]
    rfl
  have hpar : f.parentOf f.here < f.all.length := Nat.lt_of_le_of_lt (hf.le _) hf.here
  cases op with
  | add p name data =>
    simp only [Family.step, TreeMap.step]
    by_cases hp : p < f.all.length
    · rw [if_pos hp]
      exact add p name data hp
    · rw [if_neg hp]
      simp only [(addChild_spec h p name data 0).2 hp]
      rfl
  | last =>
    simp only [Family.step, TreeMap.step]
    have hl : f.all.length - 1 < f.all.length := by have := hf.pos; omega
    have hg := h.node _ _ (List.getElem?_eq_getElem hl)
    refine ⟨t, ?_, ⟨h.len, h.node⟩, ⟨hf.pos, hf.root, hf.early, hl⟩⟩
    unfold TreeMap.lastNode
    rw [h.len, hg]
    show Except.ok (t, _) = Except.ok (t, _)
    congr 3
    show _ = f.parentOf (f.all.length - 1)
    unfold Family.parentOf
    rw [List.getElem?_eq_getElem hl]
  | child name data => exact add f.here name data hf.here
  | sibling name data => exact add (f.parentOf f.here) name data hpar
  | up =>
    simp only [Family.step, TreeMap.step]
    have hg := h.node _ _ (List.getElem?_eq_getElem hpar)
    refine ⟨t, ?_, ⟨h.len, h.node⟩, ⟨hf.pos, hf.root, hf.early, hpar⟩⟩
    unfold TreeMap.node
    rw [hg]
    show Except.ok (t, _) = Except.ok (t, _)
    congr 3
    show _ = f.parentOf (f.parentOf f.here)
    generalize f.parentOf f.here = q at hpar
    unfold Family.parentOf
    rw [List.getElem?_eq_getElem hpar]

theorem tree_run : ∀ (ops : List (TreeOp α)) {t : TreeMap α} {f : Family α}, t.Shows f → f.Ok →
    match f.run ops with
    | none => t.run ⟨f.parentOf f.here, f.here⟩ ops = .error .panic
    | some f' => ∃ t', t.run ⟨f.parentOf f.here, f.here⟩ ops = .ok (t', ⟨f'.parentOf f'.here, f'.here⟩) ∧
        t'.Shows f' ∧ f'.Ok
  | [], t, f, h, hf => ⟨t, rfl, h, hf⟩
  | op :: ops, t, f, h, hf => by
    have hs := tree_step h hf op
    rw [Family.run, TreeMap.run]
    cases ho : f.step op with
    | none =>
      rw [ho] at hs
      have hs : t.step _ op = .error .panic := hs
      simp only [hs]
      rfl
    | some f' =>
      rw [ho] at hs
      obtain ⟨t', h1, h2, h3⟩ := hs
      have := tree_run ops h2 h3
      simp only [h1]
      exact this

/-! ### The walk -/

theorem mem_childrenOf (f : Family α) (i j : Nat) : j ∈ f.childrenOf i ↔ j < f.all.length ∧ i < j ∧ f.parentOf j = i := by
  unfold Family.childrenOf
  rw [List.mem_filter, List.mem_range]
  simp only [Bool.and_eq_true, decide_eq_true_eq, beq_iff_eq]

theorem below_eq (f : Family α) (i d : Nat) :
    f.below i d = (i, d) :: (f.childrenOf i).flatMap fun j => f.below j (d + 1) := by
  rw [Family.below]
  congr 1
  rw [List.flatMap_subtype (g := fun j => f.below j (d + 1)) (by intros; rfl), List.unattach_attach]

/-- The nodes below a node. -/
def Family.under (f : Family α) (i d : Nat) : List Nat := (f.below i d).map Prod.fst

theorem under_eq (f : Family α) (i d : Nat) :
    f.under i d = i :: (f.childrenOf i).flatMap fun j => f.under j (d + 1) := by
  unfold Family.under
  rw [below_eq, List.map_cons, List.map_flatMap]

theorem under_ge (f : Family α) (k : Nat) : ∀ i d, f.all.length - i ≤ k → ∀ x ∈ f.under i d,
    x = i ∨ (i < x ∧ x < f.all.length ∧ f.parentOf x ∈ f.under i d) := by
  induction k with
  | zero =>
    intro i d hk x hx
    rw [under_eq] at hx
    rcases List.mem_cons.1 hx with hx | hx
    · exact Or.inl hx
    · obtain ⟨j, hj, _⟩ := List.mem_flatMap.1 hx
      have := (mem_childrenOf f i j).1 hj
      omega
  | succ k ih =>
    intro i d hk x hx
    rw [under_eq] at hx ⊢
    rcases List.mem_cons.1 hx with hx | hx
    · exact Or.inl hx
    · obtain ⟨j, hj, hx⟩ := List.mem_flatMap.1 hx
      have h1 := (mem_childrenOf f i j).1 hj
      right
      rcases ih j (d + 1) (by omega) x hx with h | ⟨h2, h3, h4⟩
      · subst h
        refine ⟨h1.2.1, h1.1, ?_⟩
        rw [h1.2.2]; exact List.mem_cons_self
      · refine ⟨by omega, h3, ?_⟩
        exact List.mem_cons.2 (Or.inr (List.mem_flatMap.2 ⟨j, hj, h4⟩))

theorem under_mem (f : Family α) {i d x : Nat} (h : x ∈ f.under i d) :
    x = i ∨ (i < x ∧ x < f.all.length ∧ f.parentOf x ∈ f.under i d) := under_ge f _ i d (Nat.le_refl _) x h

theorem under_ge' (f : Family α) {i d x : Nat} (h : x ∈ f.under i d) : i ≤ x := by
  rcases under_mem f h with h | h <;> omega

theorem under_close (f : Family α) (k : Nat) : ∀ i d, f.all.length - i ≤ k → ∀ y ∈ f.under i d, ∀ x, x < f.all.length →
    y < x → f.parentOf x = y → x ∈ f.under i d := by
  induction k with
  | zero =>
    intro i d hk y hy x h1 h2 h3
    have := under_ge' f hy
    omega
  | succ k ih =>
    intro i d hk y hy x h1 h2 h3
    rw [under_eq] at hy ⊢
    rcases List.mem_cons.1 hy with hy | hy
    · subst hy
      refine List.mem_cons.2 (Or.inr (List.mem_flatMap.2 ⟨x, (mem_childrenOf f _ x).2 ⟨h1, h2, h3⟩, ?_⟩))
      rw [under_eq]; exact List.mem_cons_self
    · obtain ⟨j, hj, hy⟩ := List.mem_flatMap.1 hy
      have hj' := (mem_childrenOf f i j).1 hj
      exact List.mem_cons.2 (Or.inr (List.mem_flatMap.2 ⟨j, hj, ih j (d + 1) (by omega) y hy x h1 h2 h3⟩))

/-- Different children have nothing in common below them. -/
theorem under_apart {f : Family α} (hf : f.Ok) {i j j' d d' : Nat} (hj : j ∈ f.childrenOf i) (hj' : j' ∈ f.childrenOf i) (hne : j ≠ j') :
    ∀ x, x ∈ f.under j d → x ∉ f.under j' d' := by
  have a := (mem_childrenOf f i j).1 hj
  have a' := (mem_childrenOf f i j').1 hj'
  intro x
  induction x using Nat.strongRecOn with
  | _ x ih =>
    intro h1 h2
    rcases under_mem f h1 with h | ⟨g1, g2, g3⟩
    · subst h
      rcases under_mem f h2 with h | ⟨k1, k2, k3⟩
      · exact hne h
      · rw [a.2.2] at k3
        have := under_ge' f k3
        omega
    · rcases under_mem f h2 with h | ⟨k1, k2, k3⟩
      · subst h
        rw [a'.2.2] at g3
        have := under_ge' f g3
        omega
      · have hlt : f.parentOf x < x := hf.early x (by omega) g2
        exact ih _ hlt g3 k3

theorem under_all {f : Family α} (hf : f.Ok) (d : Nat) : ∀ x, x ∈ f.under 0 d ↔ x < f.all.length := by
  intro x
  constructor
  · intro h
    rcases under_mem f h with h | h
    · rw [h]; exact hf.pos
    · exact h.2.1
  · induction x using Nat.strongRecOn with
    | _ x ih =>
      intro hx
      by_cases h0 : x = 0
      · subst h0; rw [under_eq]; exact List.mem_cons_self
      · have hp := hf.early x (by omega) hx
        exact under_close f _ 0 d (Nat.le_refl _) _ (ih _ hp (by omega)) x hx hp rfl

theorem childrenOf_nodup (f : Family α) (i : Nat) : (f.childrenOf i).Nodup := by
  unfold Family.childrenOf
  exact List.nodup_range.filter _

theorem flatMap_nodup {β γ : Type} (g : β → List γ) : ∀ l : List β, l.Nodup → (∀ x ∈ l, (g x).Nodup) →
    (∀ x ∈ l, ∀ y ∈ l, x ≠ y → ∀ z, z ∈ g x → z ∉ g y) → (l.flatMap g).Nodup
  | [], _, _, _ => List.nodup_nil
  | a :: l, h, h1, h2 => by
    rw [List.flatMap_cons]
    obtain ⟨ha, hl⟩ := List.nodup_cons.1 h
    rw [List.nodup_append]
    refine ⟨h1 a (by simp), flatMap_nodup g l hl (fun x hx => h1 x (by simp [hx]))
      (fun x hx y hy => h2 x (by simp [hx]) y (by simp [hy])), ?_⟩
    intro z hz w hw e
    subst e
    obtain ⟨y, hy, hw⟩ := List.mem_flatMap.1 hw
    exact h2 a (by simp) y (by simp [hy]) (fun e => ha (e ▸ hy)) z hz hw

theorem under_nodup {f : Family α} (hf : f.Ok) (k : Nat) : ∀ i d, f.all.length - i ≤ k → (f.under i d).Nodup := by
  induction k with
  | zero =>
    intro i d hk
    rw [under_eq]
    have : f.childrenOf i = [] := by
      rw [List.eq_nil_iff_forall_not_mem]
      intro j hj
      have := (mem_childrenOf f i j).1 hj
      omega
    rw [this]
    simp
  | succ k ih =>
    intro i d hk
    rw [under_eq]
    refine List.nodup_cons.2 ⟨?_, ?_⟩
    · intro h
      obtain ⟨j, hj, hx⟩ := List.mem_flatMap.1 h
      have h1 := (mem_childrenOf f i j).1 hj
      have := under_ge' f hx
      omega
    · refine flatMap_nodup _ _ (childrenOf_nodup f i) ?_ ?_
      · intro j hj
        have h1 := (mem_childrenOf f i j).1 hj
        exact ih j (d + 1) (by omega)
      · intro j hj j' hj' hne x hx
        exact under_apart hf hj hj' hne x hx

theorem visit_spec {t : TreeMap α} {f : Family α} (h : t.Shows f) (hf : f.Ok) (k : Nat) : ∀ i d fuel (V : List Nat),
    f.all.length - i ≤ k → i < f.all.length → k < fuel → (∀ x ∈ f.under i d, x ∉ V) →
    ∃ V', t.visit fuel i (2 * d) V = .ok (f.shown (f.below i d), V') ∧ ∀ x, x ∈ V' ↔ x ∈ V ∨ x ∈ f.under i d := by
  induction k with
  | zero => intro i d fuel V h1 h2; omega
  | succ k ih =>
    intro i d fuel V h1 h2 h3 h4
    obtain ⟨fuel, rfl⟩ : ∃ n, fuel = n + 1 := ⟨fuel - 1, by omega⟩
    have hin := h4 i (by rw [under_eq]; exact List.mem_cons_self)
    have hg := h.node i _ (List.getElem?_eq_getElem h2)
    -- the children
    have go : ∀ (l : List Nat), l.Nodup → (∀ j ∈ l, j ∈ f.childrenOf i) → ∀ (W : List Nat),
        (∀ j ∈ l, ∀ x ∈ f.under j (d + 1), x ∉ W) →
        ∃ W', TreeMap.visitAll (fun child => t.visit fuel child (2 * d + 2)) l W = .ok (f.shown (l.flatMap fun j => f.below j (d + 1)), W') ∧
          ∀ x, x ∈ W' ↔ x ∈ W ∨ ∃ j ∈ l, x ∈ f.under j (d + 1) := by
      intro l
      induction l with
      | nil =>
        intro _ _ W _
        exact ⟨W, by rw [TreeMap.visitAll]; rfl, by simp⟩
      | cons j l ihl =>
        intro hnd hc W hW
        obtain ⟨hjl, hnd⟩ := List.nodup_cons.1 hnd
        have hj := (mem_childrenOf f i j).1 (hc j (by simp))
        obtain ⟨W1, g1, g2⟩ := ih j (d + 1) fuel W (by omega) hj.1 (by omega) (hW j (by simp))
        obtain ⟨W2, g3, g4⟩ := ihl hnd (fun x hx => hc x (by simp [hx])) W1 (by
          intro j' hj' x hx hx1
          rcases (g2 x).1 hx1 with h | h
          · exact hW j' (by simp [hj']) x hx h
          · exact under_apart hf (hc j (by simp)) (hc j' (by simp [hj'])) (fun e => hjl (e ▸ hj')) x h hx)
        refine ⟨W2, ?_, ?_⟩
        · rw [show 2 * d + 2 = 2 * (d + 1) by omega] at g3 ⊢
          rw [TreeMap.visitAll, g1]
          simp only [bind, Except.bind, g3]
          show Except.ok (_, W2) = Except.ok (_, W2)
          congr 2
          unfold Family.shown
          rw [List.flatMap_cons, List.filterMap_append]
        · intro x
          rw [g4, g2]
          constructor
          · rintro ((h | h) | ⟨j', hj', h⟩)
            · exact Or.inl h
            · exact Or.inr ⟨j, by simp, h⟩
            · exact Or.inr ⟨j', by simp [hj'], h⟩
          · rintro (h | ⟨j', hj', h⟩)
            · exact Or.inl (Or.inl h)
            · rcases List.mem_cons.1 hj' with e | hj'
              · subst e; exact Or.inl (Or.inr h)
              · exact Or.inr ⟨j', hj', h⟩
    obtain ⟨W, g1, g2⟩ := go (f.childrenOf i) (childrenOf_nodup f i) (fun _ h => h) (i :: V) (by
      intro j hj x hx hm
      have hj' := (mem_childrenOf f i j).1 hj
      rcases List.mem_cons.1 hm with e | hm
      · have := under_ge' f hx; omega
      · exact h4 x (by rw [under_eq]; exact List.mem_cons.2 (Or.inr (List.mem_flatMap.2 ⟨j, hj, hx⟩))) hm)
    refine ⟨W, ?_, ?_⟩
    · rw [TreeMap.visit, if_neg hin, hg]
      simp only [g1]
      show Except.ok (_, W) = Except.ok (_, W)
      congr 2
      rw [below_eq]
      unfold Family.shown
      rw [List.filterMap_cons]
      have : f.dataOf i = some (f.all[i]).2.2 := by
        unfold Family.dataOf
        rw [List.getElem?_eq_getElem h2]; rfl
      rw [this]
      rfl
    · intro x
      rw [g2, under_eq, List.mem_cons, List.mem_cons, List.mem_flatMap]
      grind

theorem walk_spec {t : TreeMap α} {f : Family α} (h : t.Shows f) (hf : f.Ok) :
    t.walk = .ok (f.shown (f.below 0 0)) := by
  obtain ⟨V, h1, _⟩ := visit_spec h hf f.all.length 0 0 (t.nodes.length + 1) [] (by omega) hf.pos (by rw [h.len]; omega)
    (fun _ _ h => by cases h)
  unfold TreeMap.walk
  rw [show 2 * 0 = 0 from rfl] at h1
  rw [h1]
  rfl

end Fox
