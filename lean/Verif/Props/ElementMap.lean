import Verif.Model.ElementMap
import Verif.Props.TreeMap
/-
C137: the element map of a track.
-/
namespace Fox
open S34 EMap

/-- What the map should say of an element: a line, and four lines below it.  Nothing of a mark. -/
def SectorLines (e : Inst) : Option (String × (String × Option Nat) × (String × Option Nat) × (String × Option Nat) × (String × Option Nat)) :=
  match e.elem with
  | .header x bad missing => some ("IDAM: " ++ String.ofList (idText x), (if bad then "Address Error" else "Address OK", none),
      (if missing then "No associated DAM" else "Matching DAM", none), ("Start", some (e.start % 2 ^ 32)), ("End", some (e.stop % 2 ^ 32)))
  | .data x bad dataBad deleted => some ((if deleted then "DDAM: " else "DAM: ") ++ String.ofList (idText x),
      (if bad then "Address Error" else "Address OK", none), (if dataBad then "Data Error" else "Data OK", none),
      ("Start", some (e.start % 2 ^ 32)), ("End", some (e.stop % 2 ^ 32)))
  | .marker _ => none

theorem entry_eq (e : Inst) : EMap.entry e = match SectorLines e with
    | none => []
    | some (t, a, b, c, d) => [.add 0 t none, .child a.1 a.2, .sibling b.1 b.2, .sibling c.1 c.2, .sibling d.1 d.2] := by
  unfold EMap.entry SectorLines
  cases e.elem <;> rfl

theorem addChild_at {α : Type} (A B : List (TreeNode α)) (x : TreeNode α) (name : String) (data : α) :
    TreeMap.addChild ⟨A ++ x :: B⟩ A.length name data =
      .ok (⟨A ++ { x with children := x.children ++ [(A ++ x :: B).length] } :: (B ++ [⟨name, (A ++ x :: B).length, A.length, [], data⟩])⟩, (A ++ x :: B).length) := by
  unfold TreeMap.addChild
  have h : (A ++ x :: B)[A.length]? = some x := by rw [List.getElem?_append_right (Nat.le_refl _)]; simp
  simp only [h]
  have hs : (A ++ x :: B).set A.length { x with children := x.children ++ [(A ++ x :: B).length] } =
      A ++ { x with children := x.children ++ [(A ++ x :: B).length] } :: B := by
    rw [List.set_append_right _ _ (Nat.le_refl _)]; simp
  rw [hs, List.append_assoc]
  rfl

/-- The five nodes of an element, the first of them with the number `n`. -/
def fiveNodes (n : Nat) (x : String × (String × Option Nat) × (String × Option Nat) × (String × Option Nat) × (String × Option Nat)) :
    List (TreeNode (Option Nat)) :=
  [⟨x.1, n, 0, [n + 1, n + 2, n + 3, n + 4], none⟩, ⟨x.2.1.1, n + 1, n, [], x.2.1.2⟩, ⟨x.2.2.1.1, n + 2, n, [], x.2.2.1.2⟩,
   ⟨x.2.2.2.1.1, n + 3, n, [], x.2.2.2.1.2⟩, ⟨x.2.2.2.2.1, n + 4, n, [], x.2.2.2.2.2⟩]

theorem run_cons {α : Type} (t t' : TreeMap α) (c c' : TreeCursor) (op : TreeOp α) (ops : List (TreeOp α)) (h : t.step c op = .ok (t', c')) :
    t.run c (op :: ops) = t'.run c' ops := by
  rw [TreeMap.run, h]; rfl

theorem emap_run_append {α : Type} : ∀ (xs ys : List (TreeOp α)) (t : TreeMap α) (c : TreeCursor) (t' : TreeMap α) (c' : TreeCursor),
    t.run c xs = .ok (t', c') → t.run c (xs ++ ys) = t'.run c' ys
  | [], ys, t, c, t', c', h => by cases h; rfl
  | x :: xs, ys, t, c, t', c', h => by
    rw [List.cons_append]
    rw [TreeMap.run] at h ⊢
    cases hs : t.step c x with
    | error e => rw [hs] at h; cases h
    | ok r =>
      rw [hs] at h
      exact emap_run_append xs ys r.1 r.2 t' c' h

theorem run_five (r : TreeNode (Option Nat)) (B : List (TreeNode (Option Nat))) (c : TreeCursor)
    (t : String) (a b e d : String × Option Nat) :
    (TreeMap.mk (r :: B)).run c [.add 0 t none, .child a.1 a.2, .sibling b.1 b.2, .sibling e.1 e.2, .sibling d.1 d.2] =
      .ok (⟨{ r with children := r.children ++ [B.length + 1] } :: (B ++ fiveNodes (B.length + 1) (t, a, b, e, d))⟩, ⟨B.length + 1, B.length + 5⟩) := by
  have s1 := addChild_at [] B r t (none : Option Nat)
  simp only [List.nil_append, List.length_nil, List.length_cons] at s1
  rw [run_cons _ _ _ _ _ _ (show TreeMap.step _ _ _ = .ok (_, ⟨0, B.length + 1⟩) from by rw [TreeMap.step, s1]; rfl)]
  generalize hr : ({ r with children := r.children ++ [B.length + 1] } : TreeNode (Option Nat)) = r'
  have s2 := addChild_at (r' :: B) [] ⟨t, B.length + 1, 0, [], none⟩ a.1 a.2
  simp only [List.length_cons, List.length_append, List.length_nil, List.cons_append, Nat.zero_add, List.nil_append] at s2
  rw [run_cons _ _ _ _ _ _ (show TreeMap.step _ _ _ = .ok (_, ⟨B.length + 1, B.length + 1 + 1⟩) from by rw [TreeMap.step, s2]; rfl)]
  have s3 := addChild_at (r' :: B) [⟨a.1, B.length + 1 + 1, B.length + 1, [], a.2⟩] ⟨t, B.length + 1, 0, [B.length + 1 + 1], none⟩ b.1 b.2
  simp only [List.length_cons, List.length_append, List.length_nil, List.cons_append, Nat.zero_add, List.nil_append] at s3
  rw [run_cons _ _ _ _ _ _ (show TreeMap.step _ _ _ = .ok (_, ⟨B.length + 1, B.length + 2 + 1⟩) from by rw [TreeMap.step, s3]; rfl)]
  have s4 := addChild_at (r' :: B) [⟨a.1, B.length + 1 + 1, B.length + 1, [], a.2⟩, ⟨b.1, B.length + 2 + 1, B.length + 1, [], b.2⟩]
    ⟨t, B.length + 1, 0, [B.length + 1 + 1, B.length + 2 + 1], none⟩ e.1 e.2
  simp only [List.length_cons, List.length_append, List.length_nil, List.cons_append, Nat.zero_add, List.nil_append] at s4
  rw [run_cons _ _ _ _ _ _ (show TreeMap.step _ _ _ = .ok (_, ⟨B.length + 1, B.length + 3 + 1⟩) from by rw [TreeMap.step, s4]; rfl)]
  have s5 := addChild_at (r' :: B) [⟨a.1, B.length + 1 + 1, B.length + 1, [], a.2⟩, ⟨b.1, B.length + 2 + 1, B.length + 1, [], b.2⟩,
    ⟨e.1, B.length + 3 + 1, B.length + 1, [], e.2⟩]
    ⟨t, B.length + 1, 0, [B.length + 1 + 1, B.length + 2 + 1, B.length + 3 + 1], none⟩ d.1 d.2
  simp only [List.length_cons, List.length_append, List.length_nil, List.cons_append, Nat.zero_add, List.nil_append] at s5
  rw [run_cons _ _ _ _ _ _ (show TreeMap.step _ _ _ = .ok (_, ⟨B.length + 1, B.length + 4 + 1⟩) from by rw [TreeMap.step, s5]; rfl)]
  rfl

/-- All the nodes of a map. -/
def allNodes (xs : List (String × (String × Option Nat) × (String × Option Nat) × (String × Option Nat) × (String × Option Nat))) :
    List (TreeNode (Option Nat)) :=
  ⟨"root", 0, 0, (List.range xs.length).map fun k => 1 + 5 * k, none⟩ ::
    (xs.zipIdx.flatMap fun x => fiveNodes (1 + 5 * x.2) x.1)

theorem flat_length (xs : List (String × (String × Option Nat) × (String × Option Nat) × (String × Option Nat) × (String × Option Nat))) :
    ∀ k, ((xs.zipIdx k).flatMap fun x => fiveNodes (1 + 5 * x.2) x.1).length = 5 * xs.length := by
  induction xs with
  | nil => intro k; rfl
  | cons x xs ih =>
    intro k
    rw [List.zipIdx_cons, List.flatMap_cons, List.length_append, ih]
    show 5 + _ = _
    rw [List.length_cons]; omega

theorem allNodes_snoc (xs : List (String × (String × Option Nat) × (String × Option Nat) × (String × Option Nat) × (String × Option Nat)))
    (y : String × (String × Option Nat) × (String × Option Nat) × (String × Option Nat) × (String × Option Nat)) :
    allNodes (xs ++ [y]) = ⟨"root", 0, 0, ((List.range xs.length).map fun k => 1 + 5 * k) ++ [1 + 5 * xs.length], none⟩ ::
      ((xs.zipIdx.flatMap fun x => fiveNodes (1 + 5 * x.2) x.1) ++ fiveNodes (1 + 5 * xs.length) y) := by
  unfold allNodes
  rw [List.length_append, List.length_singleton, List.range_succ, List.map_append, List.zipIdx_append, List.flatMap_append]
  simp

theorem build_run : ∀ (items : List Inst) (xs : List (String × (String × Option Nat) × (String × Option Nat) × (String × Option Nat) × (String × Option Nat)))
    (c : TreeCursor), ∃ c', (TreeMap.mk (allNodes xs)).run c (items.flatMap EMap.entry) = .ok (⟨allNodes (xs ++ items.filterMap SectorLines)⟩, c')
  | [], xs, c => ⟨c, by simp [TreeMap.run]⟩
  | e :: items, xs, c => by
    rw [List.flatMap_cons, entry_eq]
    cases hs : SectorLines e with
    | none =>
      obtain ⟨c', h⟩ := build_run items xs c
      refine ⟨c', ?_⟩
      rw [List.filterMap_cons_none hs]
      exact h
    | some y =>
      obtain ⟨c', h⟩ := build_run items (xs ++ [y]) ⟨1 + 5 * xs.length, 5 + 5 * xs.length⟩
      refine ⟨c', ?_⟩
      rw [List.filterMap_cons_some hs]
      have h5 := run_five ⟨"root", 0, 0, (List.range xs.length).map fun k => 1 + 5 * k, none⟩
        (xs.zipIdx.flatMap fun x => fiveNodes (1 + 5 * x.2) x.1) c y.1 y.2.1 y.2.2.1 y.2.2.2.1 y.2.2.2.2
      rw [flat_length, Nat.add_comm (5 * xs.length) 1, Nat.add_comm (5 * xs.length) 5] at h5
      have e1 : (xs ++ y :: items.filterMap SectorLines) = (xs ++ [y]) ++ items.filterMap SectorLines := by simp
      rw [e1, ← h, allNodes_snoc]
      exact emap_run_append _ _ _ _ _ _ h5

/-- **C137 (partial).** The map of a track of System 34 has, under the root, a node of each sector header and of each sector's data, in the
order of the track, and below it four nodes: whether the address is right, whether the data is there or right, and the two places.  It has
no other nodes, and a walk visits them all.  Missing: tracks of the Amiga (`C137_false_amiga`), and tracks of no schema
(`C137_false_unformatted`). -/
theorem C137_listed_partial (t : Track) (s : Schema) (h : t.schema = some s) :
    ∃ m, EMap.ofTrack t = .ok m ∧ m.nodes.length = 1 + 5 * (t.items.filterMap SectorLines).length ∧
      m.children 0 = ((List.range (t.items.filterMap SectorLines).length).map fun k => 1 + 5 * k) ∧
      (∀ k x, (t.items.filterMap SectorLines)[k]? = some x → ∀ j ≤ 4, ((m.node (1 + 5 * k + j)).toOption.map fun n => (n.name, n.data, n.children)) =
        [(x.1, none, [1 + 5 * k + 1, 1 + 5 * k + 2, 1 + 5 * k + 3, 1 + 5 * k + 4]), (x.2.1.1, x.2.1.2, []), (x.2.2.1.1, x.2.2.1.2, []),
          (x.2.2.2.1.1, x.2.2.2.1.2, []), (x.2.2.2.2.1, x.2.2.2.2.2, [])][j]?) ∧
      ∃ l, m.walk = .ok l ∧ (l.map Prod.fst).Nodup ∧ ∀ i, i ∈ l.map Prod.fst ↔ i < m.nodes.length := by
  obtain ⟨c', hr⟩ := build_run t.items [] ⟨0, 0⟩
  have e0 : TreeMap.mk (allNodes []) = TreeMap.new none := rfl
  rw [e0, List.nil_append] at hr
  generalize hx : t.items.filterMap SectorLines = xs at hr
  refine ⟨⟨allNodes xs⟩, ?_, ?_, rfl, ?_, ?_⟩
  · unfold EMap.ofTrack EMap.build
    rw [h]
    simp only [hr]
  · show (allNodes xs).length = _
    unfold allNodes
    rw [List.length_cons, flat_length]; omega
  · have key : ∀ (xs : List (String × (String × Option Nat) × (String × Option Nat) × (String × Option Nat) × (String × Option Nat))) (k b : Nat) x,
        xs[k]? = some x → ∀ j ≤ 4, ((xs.zipIdx b).flatMap fun x => fiveNodes (1 + 5 * x.2) x.1)[5 * k + j]? = (fiveNodes (1 + 5 * (b + k)) x)[j]? := by
      intro xs
      induction xs with
      | nil => intro k b x hk; cases hk
      | cons y ys ih =>
        intro k b x hk j hj
        rw [List.zipIdx_cons, List.flatMap_cons]
        cases k with
        | zero =>
          cases hk
          rw [List.getElem?_append_left (show 5 * 0 + j < 5 by omega)]
          simp
        | succ k =>
          rw [List.getElem?_append_right (show 5 ≤ 5 * (k + 1) + j by omega)]
          have := ih k (b + 1) x hk j hj
          rw [show 5 * (k + 1) + j - (fiveNodes (1 + 5 * b) y).length = 5 * k + j from by show 5 * (k + 1) + j - 5 = _; omega]
          rw [show b + (k + 1) = b + 1 + k by omega]
          exact this
    intro k x hk j hj
    have h1 := key xs k 0 x hk j hj
    have h2 : (allNodes xs)[1 + 5 * k + j]? = (fiveNodes (1 + 5 * k) x)[j]? := by
      unfold allNodes
      rw [show 1 + 5 * k + j = (5 * k + j) + 1 by omega, List.getElem?_cons_succ, h1, Nat.zero_add]
    unfold TreeMap.node
    simp only [h2]
    match j, hj with
    | 0, _ => rfl
    | 1, _ => rfl
    | 2, _ => rfl
    | 3, _ => rfl
    | 4, _ => rfl
  · have hh := tree_run (t.items.flatMap EMap.entry) (start_shows (none : Option Nat)).1 (start_shows (none : Option Nat)).2
    have hist := C64_history (none : Option Nat) (t.items.flatMap EMap.entry)
    have once := C64_once (none : Option Nat) (t.items.flatMap EMap.entry)
    cases hf : (Family.start (none : Option Nat)).run (t.items.flatMap EMap.entry) with
    | none => rw [hf] at hist; simp only [hr] at hist; cases hist
    | some f =>
      rw [hf] at hist hh
      obtain ⟨t', c, w1, _, _, _, _, w6⟩ := hist
      obtain ⟨t'', v1, v2, v3⟩ := hh
      replace v1 := hr.symm.trans v1
      rw [hr] at w1
      cases w1
      cases v1
      obtain ⟨o1, o2, o3⟩ := once f hf
      refine ⟨_, w6, by rw [o3]; exact o1, fun i => ?_⟩
      rw [o3, o2, v2.len]

/-- **C137 is false of the code: Amiga.** The map of a track of the Amiga has no node but the root, whatever is on the track. -/
theorem C137_false_amiga (items : List Amiga.Inst) : (EMap.buildAmiga items).children 0 = [] ∧ (EMap.buildAmiga items).nodes.length = 1 := by
  have : ∀ t : TreeMap (Option Nat), items.foldl (fun t _ => t) t = t := by
    induction items with
    | nil => intro t; rfl
    | cons x xs ih => intro t; exact ih t
  unfold EMap.buildAmiga
  rw [this]
  exact ⟨rfl, rfl⟩

/-- **C137 is false of the code: unformatted tracks.** The map of a track of no schema has not even a root: asking for the node of the root,
or walking the map, panics. -/
theorem C137_false_unformatted (t : Track) (h : t.schema = none) :
    ∃ m, EMap.ofTrack t = .ok m ∧ m.node 0 = .error .panic ∧ m.walk = .error .panic := by
  refine ⟨⟨[]⟩, ?_, rfl, rfl⟩
  unfold EMap.ofTrack
  rw [h]

/-- A track with a sector: a mark, a header and data. -/
example : ((EMap.build [⟨.marker .idam, 100, 164, none, false⟩, ⟨.header ⟨3, 0, 12, 2⟩ false false, 100, 260, none, false⟩,
      ⟨.data ⟨3, 0, 12, 2⟩ false true true, 1000, 9300, none, false⟩]).toOption.map fun m => m.nodes.map fun n => (n.name, n.parent, n.data)) =
    some [("root", 0, none), ("IDAM: [c: 3 h:0 s: 12 n:2]", 0, none), ("Address OK", 1, none), ("Matching DAM", 1, none), ("Start", 1, some 100),
      ("End", 1, some 260), ("DDAM: [c: 3 h:0 s: 12 n:2]", 0, none), ("Address OK", 6, none), ("Data Error", 6, none), ("Start", 6, some 1000),
      ("End", 6, some 9300)] := by decide +kernel

end Fox
