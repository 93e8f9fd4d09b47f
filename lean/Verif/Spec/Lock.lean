/-!
# Specification of a readers/writer lock with refusals

Independent of the model: what a client of the disk lock is promised, in terms of who holds which guard.
-/
namespace Fox.Spec.Lock

/-- What each call ever made holds now, in call order: nothing, or a read guard (`false`) or a write guard
(`true`) with the context it was taken under. -/
abbrev Holders (C : Type) := List (Option (Bool × C))

/-- A client operation: ask for a read or write guard under a context, or drop the guard of call number `k`. -/
inductive Op (C : Type) where
  | read (c : C)
  | write (c : C)
  | drop (k : Nat)

/-- The answer to an operation: a guard, or a refusal naming contexts, or nothing (drop); a panic is an answer
the specification never gives. -/
inductive Ans (C : Type) where
  | granted
  | refused (cs : List C)
  | unit
  | panic

variable {C : Type}

/-- The contexts that hold a write guard. -/
def writers (h : Holders C) : List C :=
  h.filterMap fun o => match o with | some (true, c) => some c | _ => none

/-- All contexts that hold a guard. -/
def anyone (h : Holders C) : List C := h.filterMap fun o => o.map (·.2)

/-- The ideal lock: readers share, a writer excludes everybody, and a refusal names the holders in the way. -/
def apply (h : Holders C) : Op C → Holders C × Ans C
  | .read c => match writers h with
    | [] => (h ++ [some (false, c)], .granted)
    | ws => (h ++ [none], .refused ws)
  | .write c => match anyone h with
    | [] => (h ++ [some (true, c)], .granted)
    | cs => (h ++ [none], .refused cs)
  | .drop k => (h.set k none, .unit)

/-- Two answers say the same: same kind, and a refusal names the same set of contexts. -/
def Ans.Same : Ans C → Ans C → Prop
  | .granted, .granted => True
  | .refused a, .refused b => ∀ c, c ∈ a ↔ c ∈ b
  | .unit, .unit => True
  | _, _ => False

/-- Run a sequential program on the ideal lock. -/
def answers : Holders C → List (Op C) → List (Ans C)
  | _, [] => []
  | h, op :: ops => (apply h op).2 :: answers (apply h op).1 ops

/-- Pointwise agreement of two answer lists. -/
def SameAll : List (Ans C) → List (Ans C) → Prop
  | [], [] => True
  | a :: as, b :: bs => a.Same b ∧ SameAll as bs
  | _, _ => False

end Fox.Spec.Lock
