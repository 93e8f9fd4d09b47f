import Verif.Model.TreeMap

/-!
# What a source map should be

A history of operations is a family tree: a list of nodes in the order of their creation, each with the number of its
parent, which is an earlier node.  A walk visits a node, then everything below its first child, then everything
below its second, and so on.
-/

namespace Fox

/-- The family of a history: who is whose parent, and which node the operator looks at. -/
structure Family (α : Type) where
  /-- Parent, name and value of every node, in the order of creation. -/
  all : List (Nat × String × α)
  /-- The node looked at. -/
  here : Nat

namespace Family

variable {α : Type}

/-- The parent of a node. -/
def parentOf (f : Family α) (i : Nat) : Nat := match f.all[i]? with
  | none => 0
  | some e => e.1

/-- The operations; only adding to a node that does not exist fails. -/
def step (f : Family α) : TreeOp α → Option (Family α)
  | .add parent name data =>
    if parent < f.all.length then some ⟨f.all ++ [(parent, name, data)], f.all.length⟩ else none
  | .last => some { f with here := f.all.length - 1 }
  | .child name data => some ⟨f.all ++ [(f.here, name, data)], f.all.length⟩
  | .sibling name data => some ⟨f.all ++ [(f.parentOf f.here, name, data)], f.all.length⟩
  | .up => some { f with here := f.parentOf f.here }

def run (f : Family α) : List (TreeOp α) → Option (Family α)
  | [] => some f
  | op :: ops => match f.step op with
    | none => none
    | some f => f.run ops

/-- The children of a node, oldest first. -/
def childrenOf (f : Family α) (i : Nat) : List Nat :=
  (List.range f.all.length).filter fun j => decide (i < j) && (f.parentOf j == i)

/-- Everything from node `i` down, each with its depth: the node, then all below its first child, and so on. -/
def below (f : Family α) (i depth : Nat) : List (Nat × Nat) :=
  (i, depth) :: (f.childrenOf i).attach.flatMap fun j => f.below j.1 (depth + 1)
termination_by f.all.length - i
decreasing_by
  have h := j.2
  unfold childrenOf at h
  have h1 := List.mem_filter.1 h
  have h2 := List.mem_range.1 h1.1
  have h3 := Bool.and_eq_true_iff.1 h1.2
  have h4 := of_decide_eq_true h3.1
  omega

/-- The value of a node. -/
def dataOf (f : Family α) (i : Nat) : Option α := (f.all[i]?).map fun e => e.2.2

/-- What a walk shows of each node: its number, an indentation of two for every level, and its value. -/
def shown (f : Family α) (l : List (Nat × Nat)) : List (Nat × Nat × α) :=
  l.filterMap fun p => (f.dataOf p.1).map fun a => (p.1, 2 * p.2, a)

/-- A new map: the root alone. -/
def start (root : α) : Family α := ⟨[(0, "root", root)], 0⟩

end Family
end Fox
