import Verif.Model.FileTree
/-
Model of the tree of files of a directory of the computer (src/file_system/native.rs) and of putting its files in an image
(src/image_builder.rs:308-417).

The file system of the computer is the tree of what `read_dir` gives, where entries that cannot be read are left out (they are skipped,
src/file_system/native.rs:181-184); names are texts, as `to_string_lossy` makes them.  The FAT library is not part of this repository: it takes
or refuses each call, as told by a function of the calls before.
-/
namespace Fox

/-- What `read_dir` gives: files, directories that can be listed or not, and the rest (links, sockets). -/
inductive HostEntry
  | file (name : Name) (data : List Byte) (modified : Option FsDateTime)
  | dir (name : Name) (listed : Bool) (modified : Option FsDateTime) (entries : List HostEntry)
  | other (name : Name)

namespace Native
open FileTree

/-- `full_path` (src/file_system/native.rs:149-154). -/
def fullPath (stack : List Name) (name : Name) : Name := if stack.isEmpty then name else join stack ++ '/' :: name

mutual

/-- The loop over the entries of `build_file_tree_recursive` (src/file_system/native.rs:143-186), with the stack after the push. -/
def buildEntries (stack : List Name) : List HostEntry → Except Err (List FileTreeNode)
  | [] => .ok []
  | e :: es => match buildEntry stack e with
    | .error x => .error x
    | .ok n => match buildEntries stack es with
      | .error x => .error x
      | .ok ns => .ok (n.toList ++ ns)

/-- One entry (src/file_system/native.rs:144-182), with the recursive call for a directory (src/file_system/native.rs:130-142, 188-223): the names `.` and `..`
of directories are left out, a directory that cannot be listed is an error. -/
def buildEntry (stack : List Name) : HostEntry → Except Err (Option FileTreeNode)
  | .file name data modified =>
    .ok (some (.file { isDir := false, short := name, long := some name, size := data.length, path := fullPath stack name, created := none, modified := modified }))
  | .dir name listed modified entries =>
    if name = ['.'] ∨ name = ['.', '.'] then .ok none
    else if !listed then .error .io
    else match buildEntries (stack ++ [name]) entries with
      | .error x => .error x
      | .ok ch => .ok (some (.dir { isDir := true, short := name, long := some name, size := 0, path := if (stack ++ [name]).length < 1 then ['/'] else join (stack ++ [name]), created := none, modified := modified } ch))
  | .other _ => .ok none

end

/-- `build_file_tree` (src/file_system/native.rs:123-128): the root has no entry. -/
def buildRoot (entries : List HostEntry) : Except Err FileTreeNode :=
  match buildEntries [] entries with
  | .error x => .error x
  | .ok ch => .ok (.dir { isDir := true, short := [], long := none, size := 0, path := ['/'], created := none, modified := none } ch)

/-- A call of the FAT library. -/
inductive FatCall
  | mkdir (path : Name)
  | create (path : Name)
  | write (path : Name) (data : List Byte)
  deriving DecidableEq

mutual

/-- The loop of `build_fat` (src/image_builder.rs:381-416) over the children, with the calls made before; the set of visited paths is empty
(src/image_builder.rs:368).  `read` is `fs::read`: the file of a path, that of the directory the program runs in if the path does not start at the root. -/
def buildFat (read : Name → Option (List Byte)) (accept : List FatCall → FatCall → Bool) : List FileTreeNode → List FatCall → List FatCall × Option Err
  | [], done => (done, none)
  | n :: ns, done => match buildFatNode read accept n done with
    | (done, none) => buildFat read accept ns done
    | (done, some e) => (done, some e)

/-- One child (src/image_builder.rs:388-413). -/
def buildFatNode (read : Name → Option (List Byte)) (accept : List FatCall → FatCall → Bool) : FileTreeNode → List FatCall → List FatCall × Option Err
  | .file e, done => match read e.path with
    | none => (done, some .io)
    | some data =>
      if accept done (.create e.path) then
        if accept (done ++ [.create e.path]) (.write e.path data) then (done ++ [.create e.path, .write e.path data], none)
        else (done ++ [.create e.path], some .io)
      else (done, some .io)
  | .dir e ch, done =>
    if e.path ≠ ['/'] then
      if accept done (.mkdir e.path) then buildFat read accept ch (done ++ [.mkdir e.path])
      else (done, some .io)
    else buildFat read accept ch done

end

/-- What `with_filesystem_from_path` and `with_filesystem_from_archive` ask for (src/image_builder.rs:133-176). -/
structure Source where
  fromPath : Option (List HostEntry) := none
  fromArchive : Option (List (Name × List Byte)) := none
  recursive : Bool := false
  mustFit : Bool := false

/-- `with_filesystem_from_path` (src/image_builder.rs:133-148); the path stands for the directory there. -/
def fromPath (entries : List HostEntry) (recursive mustFit : Bool) : Source := { fromPath := some entries, fromArchive := none, recursive, mustFit }

/-- `with_filesystem_from_archive` (src/image_builder.rs:162-176); the path stands for the files of the archive there. -/
def fromArchive (files : List (Name × List Byte)) (recursive mustFit : Bool) : Source := { fromPath := none, fromArchive := some files, recursive, mustFit }

/-- `inject_files_from_path_fat` (src/image_builder.rs:308-379) as called by `build_bitstream` (src/image_builder.rs:260-279) with a FAT12 file system: the calls made on the mounted volume. -/
def inject (s : Source) (read : Name → Option (List Byte)) (accept : List FatCall → FatCall → Bool) : List FatCall × Option Err :=
  match s.fromPath with
  | none => ([], none)
  | some entries => match buildRoot entries with
    | .error e => ([], some e)
    | .ok root => buildFat read accept (children root) []

/-- `str::trim_start_matches` (core): the prefix is taken away as often as it is there.  An empty prefix takes nothing. -/
def trimStart (pre : Name) (s : Name) : Name :=
  if _h : pre ≠ [] ∧ pre.isPrefixOf s then trimStart pre (s.drop pre.length) else s
termination_by s.length
decreasing_by
  have : 0 < pre.length := List.length_pos_iff.2 _h.1
  have : pre.length ≤ s.length := (List.isPrefixOf_iff_prefix.1 _h.2).length_le
  rw [List.length_drop]
  omega

/-- `Path::join` of a directory and a name: the separator is added if it is not there (Unix). -/
def pathJoin (base name : Name) : Name := if base = [] ∨ base.getLast? = some '/' then base ++ name else base ++ '/' :: name

mutual

/-- `list_files_recursive` (src/file_system/native.rs:74-121) of the directory at `base`; the check of visited directories never fails in a tree. -/
def listRecursive (base : Name) : List HostEntry → Except Err (List Name)
  | [] => .ok []
  | e :: es => match listEntry base e with
    | .error x => .error x
    | .ok ns => match listRecursive base es with
      | .error x => .error x
      | .ok ms => .ok (ns ++ ms)

/-- One entry (src/file_system/native.rs:79-118). -/
def listEntry (base : Name) : HostEntry → Except Err (List Name)
  | .file name _ _ => .ok [pathJoin base name]
  | .dir name listed _ entries =>
    if name = ['.'] ∨ name = ['.', '.'] then .ok []
    else if !listed then .error .io
    else listRecursive (pathJoin base name) entries
  | .other _ => .error .unsupported

end

/-- The names `list_files` gives when it is not recursive (src/file_system/native.rs:61-69): the names, without a path. -/
def listFlat : List HostEntry → List Name
  | [] => []
  | .file name _ _ :: es => name :: listFlat es
  | _ :: es => listFlat es

/-- `list_files` (src/file_system/native.rs:50-72). -/
def listFiles (base : Name) (entries : List HostEntry) (recursive : Bool) : Except Err (List Name) :=
  if recursive then listRecursive base entries else .ok (listFlat entries)

/-- `list_files_relative` (src/file_system/native.rs:40-48). -/
def listRelative (base : Name) (entries : List HostEntry) (recursive : Bool) : Except Err (List Name) :=
  match listFiles base entries recursive with
  | .error x => .error x
  | .ok l => .ok (l.map (trimStart base))

end Native
end Fox
