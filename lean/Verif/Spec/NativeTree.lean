import Verif.Model.NativeTree
import Verif.Spec.FileTree
/-!
# The files of a directory, and a volume that takes all calls
-/
namespace Fox

namespace HostEntry

/-- The name of an entry. -/
def name : HostEntry → Name
  | .file n _ _ => n
  | .dir n _ _ _ => n
  | .other n => n

end HostEntry

mutual

/-- The files from here down, each with the names that lead to it and its data. -/
def hostFiles : List HostEntry → List (List Name × List Byte)
  | [] => []
  | e :: es => hostFilesIn e ++ hostFiles es

def hostFilesIn : HostEntry → List (List Name × List Byte)
  | .file n data _ => [([n], data)]
  | .dir n _ _ sub => (hostFiles sub).map fun f => (n :: f.1, f.2)
  | .other _ => []

end

mutual

/-- The directories from here down, each with the names that lead to it. -/
def hostDirs : List HostEntry → List (List Name)
  | [] => []
  | e :: es => hostDirsIn e ++ hostDirs es

def hostDirsIn : HostEntry → List (List Name)
  | .file _ _ _ => []
  | .dir n _ _ sub => [n] :: (hostDirs sub).map (n :: ·)
  | .other _ => []

end

mutual

/-- How many entries from here down are neither files nor directories. -/
def hostOthers : List HostEntry → Nat
  | [] => 0
  | e :: es => hostOthersIn e + hostOthers es

def hostOthersIn : HostEntry → Nat
  | .file _ _ _ => 0
  | .dir _ _ _ sub => hostOthers sub
  | .other _ => 1

end

mutual

/-- What every directory is whose directories can all be listed: names are not empty, have no slash and are neither `.` nor `..`; no two entries of a directory have the same name. -/
def HostNamed : List HostEntry → Prop
  | [] => True
  | e :: es => HostNamedEntry e ∧ HostNamed es ∧ ∀ e' ∈ es, e'.name ≠ e.name

def HostNamedEntry : HostEntry → Prop
  | .file n _ _ => GoodName n
  | .dir n listed _ sub => GoodName n ∧ n ≠ ['.'] ∧ n ≠ ['.', '.'] ∧ listed = true ∧ HostNamed sub
  | .other _ => True

end

mutual

/-- How many directories from here down are met that cannot be listed. -/
def hostUnlisted : List HostEntry → Nat
  | [] => 0
  | e :: es => hostUnlistedIn e + hostUnlisted es

def hostUnlistedIn : HostEntry → Nat
  | .file _ _ _ => 0
  | .dir n listed _ sub => if n = ['.'] ∨ n = ['.', '.'] then 0 else if listed = true then hostUnlisted sub else 1
  | .other _ => 0

end

/-- A volume of a size without end: its directories and its files. -/
structure Volume where
  dirs : List (List Name)
  files : List (List Name × List Byte)

namespace Volume
open Native FileTree

/-- A new volume: the root directory is there. -/
def new : Volume := ⟨[[]], []⟩

/-- What a call does: a directory or file is made in a directory that is there; data is written to the beginning of a file that is there. -/
def step (v : Volume) : FatCall → Option Volume
  | .mkdir p => if (components p).dropLast ∈ v.dirs then some ⟨v.dirs ++ [components p], v.files⟩ else none
  | .create p => if (components p).dropLast ∈ v.dirs then some ⟨v.dirs, v.files ++ [(components p, [])]⟩ else none
  | .write p d => if components p ∈ v.files.map (·.1) then
      some ⟨v.dirs, v.files.map fun f => if f.1 = components p then (f.1, d ++ f.2.drop d.length) else f⟩ else none

/-- What some calls do. -/
def run (v : Volume) : List FatCall → Option Volume
  | [] => some v
  | c :: cs => match v.step c with
    | none => none
    | some v => run v cs

end Volume
end Fox
