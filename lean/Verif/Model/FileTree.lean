import Verif.Model.DateTime

/-!
# File trees

`src/file_system/file_tree.rs`, and what `src/file_system/fat/fat_fs.rs` builds with it.  The FAT library itself is not
part of this repository: a directory is the list of entries its iterator gives (unreadable entries are dropped by
`flatten` before they are seen here), and reading a file is a function of the path it is asked for.
-/

namespace Fox

/-- A text. -/
abbrev Name := List Char

/-- What the FAT library's directory iterator gives: the `.` and `..` entries, files, and directories with their own
entries. -/
inductive FatEntry
  | dots (name : Name)
  | file (short long : Name) (size : Nat) (modified : FsDateTime)
  | dir (short long : Name) (modified : FsDateTime) (entries : List FatEntry)

/-- `FileEntry` (src/file_system/file_tree.rs:43-52). -/
structure FileEntry where
  isDir : Bool
  short : Name
  long : Option Name
  path : Name
  size : Nat
  created : Option FsDateTime
  modified : Option FsDateTime
deriving DecidableEq

/-- `FileTreeNode` (src/file_system/file_tree.rs:141-145). -/
inductive FileTreeNode
  | file (e : FileEntry)
  | dir (e : FileEntry) (children : List FileTreeNode)

/-- `FileNameType` (src/file_system/file_tree.rs:36-41). -/
inductive NameType
  | short
  | long
deriving DecidableEq

namespace FileTree

/-- `str::split(c)`. -/
def split (c : Char) : Name → List Name
  | [] => [[]]
  | x :: xs =>
    if x = c then [] :: split c xs
    else match split c xs with
      | [] => [[x]]
      | p :: ps => (x :: p) :: ps

/-- The components of a path, `path.split('/').filter(|c| !c.is_empty())` (src/file_system/file_tree.rs:215, 274). -/
def components (path : Name) : List Name := (split '/' path).filter fun c => !c.isEmpty

/-- `[String]::join("/")`. -/
def join : List Name → Name
  | [] => []
  | [a] => a
  | a :: b :: l => a ++ '/' :: join (b :: l)

mutual

/-- The loop over the entries in `build_file_tree_recursive` (src/file_system/fat/fat_fs.rs:230-262), with the path
stack after the push. -/
def buildEntries (stack : List Name) : List FatEntry → List FileTreeNode
  | [] => []
  | e :: es => match buildEntry stack e with
    | none => buildEntries stack es
    | some n => n :: buildEntries stack es

/-- One entry in `build_file_tree_recursive`, with the recursive call for directories
(src/file_system/fat/fat_fs.rs:220-284). -/
def buildEntry (stack : List Name) : FatEntry → Option FileTreeNode
  | .dots _ => none
  | .file short long size modified =>
    some (.file { isDir := false, short, long := some long, size, path := join stack ++ '/' :: short,
                  created := none, modified := some modified })
  | .dir short long modified entries =>
    let stack := stack ++ [short]
    some (.dir { isDir := true, short, long := some long, size := 0,
                 path := if stack.length < 2 then ['/'] else join stack,
                 created := none, modified := some modified }
      (buildEntries stack entries))

end

/-- `build_file_tree_from_root` (src/file_system/fat/fat_fs.rs:209-218): the root has no directory entry. -/
def buildRoot (entries : List FatEntry) : FileTreeNode :=
  .dir { isDir := true, short := [], long := none, path := ['/'], size := 0, created := none, modified := none }
    (buildEntries [] entries)

/-- The entry of a node. -/
def entry : FileTreeNode → FileEntry
  | .file e => e
  | .dir e _ => e

/-- `children` (src/file_system/file_tree.rs:195-200). -/
def children : FileTreeNode → List FileTreeNode
  | .file _ => []
  | .dir _ ch => ch

/-- `path` (src/file_system/file_tree.rs:188-193). -/
def path (n : FileTreeNode) : Name := (entry n).path

mutual

/-- `for_each_file` (src/file_system/file_tree.rs:220-230): the calls made. -/
def forEach (recursive : Bool) : FileTreeNode → List FileEntry
  | .file e => [e]
  | .dir _ ch => if recursive then forEachList ch else []

/-- Its loop over the children. -/
def forEachList : List FileTreeNode → List FileEntry
  | [] => []
  | n :: ns => forEach true n ++ forEachList ns

end

/-- `file_paths` (src/file_system/file_tree.rs:260-270). -/
def filePaths (n : FileTreeNode) (recursive : Bool) : List Name := (forEach recursive n).map (·.path)

/-- `file_names` (src/file_system/file_tree.rs:235-255). -/
def fileNames (n : FileTreeNode) (recursive : Bool) (t : NameType) : List Name :=
  (forEach recursive n).map fun e => match t with
    | .short => e.short
    | .long => e.long.getD e.short

/-- The test of a child in `resolve_node` (src/file_system/file_tree.rs:291-293). -/
def isDirNamed (c : Name) : FileTreeNode → Bool
  | .file _ => false
  | .dir e _ => e.short = c

/-- `resolve_node` (src/file_system/file_tree.rs:279-302). -/
def resolveNode : List Name → FileTreeNode → Option FileTreeNode
  | _, .file _ => none
  | [], .dir e ch => some (.dir e ch)
  | c :: cs, .dir _ ch => match ch.find? (isDirNamed c) with
    | none => none
    | some child => resolveNode cs child

/-- `node` (src/file_system/file_tree.rs:272-276). -/
def node (n : FileTreeNode) (path : Name) : Option FileTreeNode := resolveNode (components path) n

/-- `resolve_dir` (src/file_system/file_tree.rs:305-339). -/
def resolveDir (recursive : Bool) : List Name → FileTreeNode → Option (List FileEntry)
  | _, .file _ => none
  | [], .dir _ ch => some (ch.map entry)
  | c :: cs, .dir _ ch =>
    if recursive then
      match ch.find? (isDirNamed c) with
      | none => none
      | some child => resolveDir true cs child
    else none

/-- `dir` (src/file_system/file_tree.rs:213-217). -/
def dir (n : FileTreeNode) (path : Name) : Option (List FileEntry) := resolveDir false (components path) n

/-- `ext` (src/file_system/file_tree.rs:120-130). -/
def ext (e : FileEntry) : Option Name :=
  let parts := split '.' e.short
  if parts.length > 1 then some (parts.getD (parts.length - 1) []) else none

/-- `trim_start_matches('/')`. -/
def trimSlash : Name → Name
  | [] => []
  | c :: l => if c = '/' then trimSlash l else c :: l

/-- The errors of making an archive. -/
inductive ArchiveErr
  | empty
  | notFound
  | read
deriving DecidableEq

/-- The loop of `node_as_tar` (src/file_system/fat/fat_fs.rs:400-409): the names and contents appended, for what
reading each path gives. -/
def tarLoop (read : Name → Option (List Byte)) : List Name → Except ArchiveErr (List (Name × List Byte))
  | [] => .ok []
  | p :: ps => match read p with
    | none => .error .read
    | some data => do
      let rest ← tarLoop read ps
      return (trimSlash p, data) :: rest

/-- `node_as_tar` (src/file_system/fat/fat_fs.rs:385-414), up to the tar library's own encoding. -/
def nodeAsTar (read : Name → Option (List Byte)) (n : FileTreeNode) (recursive : Bool) :
    Except ArchiveErr (List (Name × List Byte)) :=
  let list := filePaths n recursive
  if list.isEmpty then .error .empty else tarLoop read list

/-- `root_as_archive` (src/file_system/fat/fat_fs.rs:287-297) for a tar file. -/
def rootAsTar (read : Name → Option (List Byte)) (entries : List FatEntry) : Except ArchiveErr (List (Name × List Byte)) :=
  nodeAsTar read (buildRoot entries) true

/-- `path_as_archive` (src/file_system/fat/fat_fs.rs:300-322) for a tar file. -/
def pathAsTar (read : Name → Option (List Byte)) (entries : List FatEntry) (p : Name) (recursive : Bool) :
    Except ArchiveErr (List (Name × List Byte)) :=
  match node (buildRoot entries) p with
  | none => .error .notFound
  | some n => nodeAsTar read n recursive

end FileTree
end Fox
