import Verif.Model.Basic

/-!
# The tree of fields read from an image

`src/tree_map.rs` and the source map that wraps it, `src/source_map.rs`: a tree kept in an array, to which parsers
add nodes through a cursor.  The name-to-index table is written but never read and is not modelled.
-/

namespace Fox

/-- `FoxTreeNode` (src/tree_map.rs:35-41). -/
structure TreeNode (α : Type) where
  name : String
  index : Nat
  parent : Nat
  children : List Nat
  data : α

/-- `FoxTreeMap` (src/tree_map.rs:45-48): its nodes. -/
structure TreeMap (α : Type) where
  nodes : List (TreeNode α)

/-- `FoxTreeCursor` (src/tree_map.rs:251-255), without the reference to the tree. -/
structure TreeCursor where
  parent : Nat
  current : Nat
deriving DecidableEq, Repr

namespace TreeMap

variable {α : Type}

/-- `FoxTreeMap::new` (src/tree_map.rs:51-67). -/
def new (rootData : α) : TreeMap α := ⟨[⟨"root", 0, 0, [], rootData⟩]⟩

/-- `children` (src/tree_map.rs:73-78). -/
def children (t : TreeMap α) (index : Nat) : List Nat :=
  match t.nodes[index]? with
  | none => []
  | some n => n.children

/-- `node` (src/tree_map.rs:80-85). -/
def node (t : TreeMap α) (index : Nat) : Except Err (TreeNode α) :=
  match t.nodes[index]? with
  | none => .error .panic
  | some n => .ok n

/-- `add_child` (src/tree_map.rs:87-101): indexing with a parent that is no node panics. -/
def addChild (t : TreeMap α) (parent : Nat) (name : String) (data : α) : Except Err (TreeMap α × Nat) :=
  match t.nodes[parent]? with
  | none => .error .panic
  | some p =>
    let index := t.nodes.length
    .ok (⟨t.nodes.set parent { p with children := p.children ++ [index] } ++ [⟨name, index, parent, [], data⟩]⟩, index)

/-- `last_node` (src/tree_map.rs:214-217). -/
def lastNode (t : TreeMap α) : Except Err TreeCursor :=
  match t.nodes[t.nodes.length - 1]? with
  | none => .error .panic
  | some n => .ok ⟨n.parent, t.nodes.length - 1⟩

/-- The loop over the children in `for_each_recursive` (src/tree_map.rs:127-129), for the visit of one child. -/
def visitAll (one : Nat → List Nat → Except Err (List (Nat × Nat × α) × List Nat)) :
    List Nat → List Nat → Except Err (List (Nat × Nat × α) × List Nat)
  | [], visited => .ok ([], visited)
  | child :: rest, visited => do
    let (l, visited) ← one child visited
    let (l', visited) ← visitAll one rest visited
    return (l ++ l', visited)

/-- `for_each_recursive` (src/tree_map.rs:112-130), returning the calls made, with the indentation that
`debug_fmt_node_with` (src/tree_map.rs:171-199) gives the same visits, and the visited set.  The first argument bounds
the depth of the recursion; it is never exhausted, since every level adds a node to the visited set. -/
def visit (t : TreeMap α) : Nat → Nat → Nat → List Nat → Except Err (List (Nat × Nat × α) × List Nat)
  | 0, _, _, _ => .error .panic
  | depth + 1, index, indent, visited =>
    if index ∈ visited then .ok ([], visited)
    else
      match t.nodes[index]? with
      | none => .error .panic
      | some node => do
        let (l, visited) ← visitAll (fun child => t.visit depth child (indent + 2)) node.children (index :: visited)
        return ((index, indent, node.data) :: l, visited)

/-- `for_each` (src/tree_map.rs:104-110) and `debug_with` (src/tree_map.rs:163-169): the visits from the root. -/
def walk (t : TreeMap α) : Except Err (List (Nat × Nat × α)) := do
  let (l, _) ← t.visit (t.nodes.length + 1) 0 0 []
  return l

end TreeMap

/-- What a parser does with a source map: `add_child` of the map (src/source_map.rs:429-432), `last_node`
(src/source_map.rs:443-446), and the cursor's `add_child`, `add_sibling` and `up` (src/tree_map.rs:267-287). -/
inductive TreeOp (α : Type)
  | add (parent : Nat) (name : String) (data : α)
  | last
  | child (name : String) (data : α)
  | sibling (name : String) (data : α)
  | up

namespace TreeMap

variable {α : Type}

/-- One operation on the tree and the cursor. -/
def step (t : TreeMap α) (c : TreeCursor) : TreeOp α → Except Err (TreeMap α × TreeCursor)
  | .add parent name data => do
    let (t, i) ← t.addChild parent name data
    return (t, ⟨parent, i⟩)
  | .last => do
    let c ← t.lastNode
    return (t, c)
  | .child name data => do
    let (t, i) ← t.addChild c.current name data
    return (t, ⟨c.current, i⟩)
  | .sibling name data => do
    let (t, i) ← t.addChild c.parent name data
    return (t, ⟨c.parent, i⟩)
  | .up => do
    let p ← t.node c.parent
    return (t, ⟨p.parent, p.index⟩)

/-- A history of operations. -/
def run (t : TreeMap α) (c : TreeCursor) : List (TreeOp α) → Except Err (TreeMap α × TreeCursor)
  | [] => .ok (t, c)
  | op :: ops => do
    let (t, c) ← t.step c op
    t.run c ops

end TreeMap
end Fox
