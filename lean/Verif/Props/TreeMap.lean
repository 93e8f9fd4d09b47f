import Verif.Proofs.TreeMap

/-! # C64: source maps -/

namespace Fox

variable {α : Type}

theorem start_shows (root : α) : (TreeMap.new root).Shows (Family.start root) ∧ (Family.start root).Ok := by
  refine ⟨⟨rfl, ?_⟩, ⟨by show 0 < 1; omega, rfl, ?_, by show 0 < 1; omega⟩⟩
  · intro i e he
    cases i with
    | zero => cases he; rfl
    | succ i => cases he
  · intro i h0 h1
    have h1 : i < 1 := h1
    omega

/-- **C64.** Whatever is done with a source map, through the map or through cursors, it holds exactly the nodes that
were added, under the numbers of their order, each with its name, its value, its parent and its children in the order
they were added; the cursor is where the history puts it; a walk visits them parents first, children in order.  It
panics exactly if a node is added under a number that is no node's. -/
theorem C64_history (root : α) (ops : List (TreeOp α)) :
    match (Family.start root).run ops with
    | none => (TreeMap.new root).run ⟨0, 0⟩ ops = .error .panic
    | some f => ∃ t c, (TreeMap.new root).run ⟨0, 0⟩ ops = .ok (t, c) ∧ c.current = f.here ∧
        c.parent = f.parentOf f.here ∧
        (∀ i e, f.all[i]? = some e → t.node i = .ok ⟨e.2.1, i, e.1, f.childrenOf i, e.2.2⟩ ∧
          t.children i = f.childrenOf i) ∧
        (∀ i, f.all.length ≤ i → t.node i = .error .panic ∧ t.children i = []) ∧
        t.walk = .ok (f.shown (f.below 0 0)) := by
  have h := tree_run ops (start_shows root).1 (start_shows root).2
  revert h
  cases (Family.start root).run ops with
  | none => exact fun h => h
  | some f =>
    rintro ⟨t, h1, h2, h3⟩
    refine ⟨t, ⟨f.parentOf f.here, f.here⟩, h1, rfl, rfl, ?_, ?_, walk_spec h2 h3⟩
    · intro i e he
      have := h2.node i e he
      exact ⟨by unfold TreeMap.node; rw [this], by unfold TreeMap.children; rw [this]⟩
    · intro i hi
      have : t.nodes[i]? = none := List.getElem?_eq_none (by rw [h2.len]; exact hi)
      exact ⟨by unfold TreeMap.node; rw [this], by unfold TreeMap.children; rw [this]⟩

/-- **C64.** The walk visits every node exactly once. -/
theorem C64_once (root : α) (ops : List (TreeOp α)) (f : Family α) (h : (Family.start root).run ops = some f) :
    ((f.below 0 0).map Prod.fst).Nodup ∧ (∀ i, i ∈ (f.below 0 0).map Prod.fst ↔ i < f.all.length) ∧
      (f.shown (f.below 0 0)).map Prod.fst = (f.below 0 0).map Prod.fst := by
  have h' := tree_run ops (start_shows root).1 (start_shows root).2
  rw [h] at h'
  obtain ⟨t, h1, h2, h3⟩ := h'
  refine ⟨under_nodup h3 _ 0 0 (Nat.le_refl _), under_all h3 0, ?_⟩
  have hall : ∀ p ∈ f.below 0 0, p.1 < f.all.length := fun p hp =>
    (under_all h3 0 p.1).1 (List.mem_map.2 ⟨p, hp, rfl⟩)
  have key : ∀ l : List (Nat × Nat), (∀ p ∈ l, p.1 < f.all.length) → (f.shown l).map Prod.fst = l.map Prod.fst := by
    intro l
    induction l with
    | nil => intro _; rfl
    | cons p l ih =>
      intro hl
      have hp := hl p (by simp)
      have hd : f.dataOf p.1 = some (f.all[p.1]).2.2 := by
        unfold Family.dataOf; rw [List.getElem?_eq_getElem hp]; rfl
      have ih := ih (fun q hq => hl q (by simp [hq]))
      unfold Family.shown at ih ⊢
      rw [List.filterMap_cons, hd]
      show p.1 :: _ = p.1 :: _
      rw [ih]
  exact key _ hall

/-- **C64.** A parser that only uses cursors never panics. -/
theorem C64_cursor_safe (root : α) (ops : List (TreeOp α)) (h : ∀ op ∈ ops, ∀ p n d, op ≠ .add p n d) :
    ∃ r, (TreeMap.new root).run ⟨0, 0⟩ ops = .ok r := by
  have key : ∀ (ops : List (TreeOp α)) (f : Family α), (∀ op ∈ ops, ∀ p n d, op ≠ .add p n d) → ∃ f', f.run ops = some f' := by
    intro ops
    induction ops with
    | nil => exact fun f _ => ⟨f, rfl⟩
    | cons op ops ih =>
      intro f h
      have hs : ∃ f', f.step op = some f' := by
        cases op with
        | add p n d => exact absurd rfl (h _ (by simp) p n d)
        | last => exact ⟨_, rfl⟩
        | child n d => exact ⟨_, rfl⟩
        | sibling n d => exact ⟨_, rfl⟩
        | up => exact ⟨_, rfl⟩
      obtain ⟨f', hs⟩ := hs
      obtain ⟨f'', h2⟩ := ih f' (fun o ho => h o (by simp [ho]))
      exact ⟨f'', by rw [Family.run, hs]; exact h2⟩
  obtain ⟨f, hf⟩ := key ops (Family.start root) h
  have := C64_history root ops
  rw [hf] at this
  obtain ⟨t, c, h1, _⟩ := this
  exact ⟨_, h1⟩

/-- A header with two fields, then a sibling of the header: the second field is visited before the sibling although a
node of it could have been added later. -/
example : ((TreeMap.new 0).run ⟨0, 0⟩ [.child "header" 1, .child "version" 2, .sibling "size" 3, .up, .sibling "track" 4,
      .add 1 "late" 5]).toOption.bind (fun r => r.1.walk.toOption) =
    some [(0, 0, 0), (1, 2, 1), (2, 4, 2), (3, 4, 3), (5, 4, 5), (4, 2, 4)] := by decide +kernel

end Fox
