import Verif.Model.FileTree

/-!
# Where files are

A file or directory is found by going from the root through the directories named, one after the other.
-/

namespace Fox

/-- Going through the directories named by the list leads to this directory. -/
inductive DirAt : List FatEntry → List Name → List FatEntry → Prop
  | here (es) : DirAt es [] es
  | down {es s l m sub cs r} : FatEntry.dir s l m sub ∈ es → DirAt sub cs r → DirAt es (s :: cs) r

mutual

/-- All files from here down in the order of the directories, each with the names that lead to it and its size and
names. -/
def filesOf : List FatEntry → List (List Name × Name × Nat)
  | [] => []
  | e :: es => filesIn e ++ filesOf es

def filesIn : FatEntry → List (List Name × Name × Nat)
  | .dots _ => []
  | .file s l size _ => [([s], l, size)]
  | .dir s _ _ sub => (filesOf sub).map fun f => (s :: f.1, f.2)

end

/-- The names are names: not empty, no slash in them. -/
def GoodName (s : Name) : Prop := s ≠ [] ∧ '/' ∉ s

instance (s : Name) : Decidable (GoodName s) := by unfold GoodName; infer_instance

mutual

/-- All names below are good and no two directories in one place have the same short name. -/
def WellNamed : List FatEntry → Prop
  | [] => True
  | e :: es => WellNamedEntry e ∧ WellNamed es ∧
      ∀ s l m sub, e = .dir s l m sub → ∀ l' m' sub', .dir s l' m' sub' ∉ es

def WellNamedEntry : FatEntry → Prop
  | .dots _ => True
  | .file s _ _ _ => GoodName s
  | .dir s _ _ sub => GoodName s ∧ WellNamed sub

end

/-- The text of a path: the names with slashes between them. -/
def slashed : List Name → Name
  | [] => []
  | [a] => a
  | a :: b :: l => a ++ ['/'] ++ slashed (b :: l)

/-- The path the tree gives to the file at the end of a list of names: with a slash in front in the root directory,
without one below it. -/
def pathText (l : List Name) : Name := if l.length = 1 then '/' :: slashed l else slashed l

/-- What is seen of a file: its path, its long name and its size. -/
def seenFile (e : FileEntry) : Name × Option Name × Nat := (e.path, e.long, e.size)

end Fox
