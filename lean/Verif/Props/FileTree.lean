import Verif.Proofs.FileTree

/-! # C65 and C66: file trees -/

namespace Fox

open FileTree

/-! ## C65 -/

/-- **C65.** The tree of a file system lists every file exactly as often as it is there, in the order of the
directories, with its path, its long name and its size. -/
theorem C65_files (es : List FatEntry) :
    (forEach true (buildRoot es)).map seenFile = (filesOf es).map fun f => (pathText f.1, some f.2.1, f.2.2) := by
  unfold buildRoot
  rw [forEach, if_pos rfl]
  exact files_list [] es

/-- **C65.** The names listed are the names of the files, short or long. -/
theorem C65_names (es : List FatEntry) :
    fileNames (buildRoot es) true .short = (filesOf es).map (fun f => f.1.getLastD []) ∧
    fileNames (buildRoot es) true .long = (filesOf es).map (fun f => f.2.1) := by
  constructor
  · unfold fileNames buildRoot
    rw [forEach, if_pos rfl]
    exact shorts_list [] es
  · have h := congrArg (List.map fun (x : Name × Option Name × Nat) => x.2.1) (C65_files es)
    rw [List.map_map, List.map_map] at h
    have h : (forEach true (buildRoot es)).map (·.long) = (filesOf es).map fun f => some f.2.1 := h
    unfold fileNames
    have key : ∀ (l : List FileEntry) (r : List (List Name × Name × Nat)), l.map (·.long) = r.map (fun f => some f.2.1) →
        l.map (fun e => e.long.getD e.short) = r.map fun f => f.2.1 := by
      intro l
      induction l with
      | nil =>
        intro r hr
        cases r with
        | nil => rfl
        | cons => cases hr
      | cons e l ih =>
        intro r hr
        cases r with
        | nil => cases hr
        | cons f r =>
          rw [List.map_cons, List.map_cons] at hr
          obtain ⟨h1, h2⟩ := List.cons.inj hr
          rw [List.map_cons, List.map_cons, ih r h2, h1]
          rfl
    exact key _ _ h

/-- **C65.** The path of a file leads to it: its components are the names of the directories and of the file. -/
theorem C65_paths (es : List FatEntry) (h : WellNamed es) :
    (filePaths (buildRoot es) true).map components = (filesOf es).map (·.1) := by
  have h1 := congrArg (List.map Prod.fst) (C65_files es)
  rw [List.map_map, List.map_map] at h1
  have h2 : filePaths (buildRoot es) true = (filesOf es).map fun f => pathText f.1 := h1
  rw [h2, List.map_map]
  apply List.map_congr_left
  intro f hf
  exact components_text f.1 (files_good es h f hf)

/-- **C65.** A path is resolved exactly when it leads to a directory, and to that directory: the files below it are
listed with their full paths. -/
theorem C65_node (es : List FatEntry) (h : WellNamed es) (p : Name) :
    match node (buildRoot es) p with
    | none => ∀ sub, ¬ DirAt es (components p) sub
    | some n => ∃ sub, DirAt es (components p) sub ∧
        (forEach true n).map seenFile = (filesOf sub).map fun f => (pathText (components p ++ f.1), some f.2.1, f.2.2) := by
  have := resolve_spec (components p) [] (FileEntry.mk true [] none ['/'] 0 none none) es h
  unfold node buildRoot
  revert this
  cases resolveNode (components p) _ with
  | none => exact fun h => h
  | some n =>
    rintro ⟨e', sub, h1, rfl, _⟩
    refine ⟨sub, h1, ?_⟩
    rw [forEach, if_pos rfl]
    exact files_list (components p) sub

theorem tar_spec (read : Name → Option (List Byte)) (data : List Name → List Byte) : ∀ l : List (List Name),
    (∀ c ∈ l, (∀ s ∈ c, GoodName s) ∧ read (pathText c) = some (data c)) →
    tarLoop read (l.map pathText) = .ok (l.map fun c => (slashed c, data c))
  | [], _ => rfl
  | c :: l, h => by
    obtain ⟨h1, h2⟩ := h c (by simp)
    rw [List.map_cons, tarLoop, h2]
    simp only
    rw [tar_spec read data l (fun c hc => h c (by simp [hc])), trim_text c h1]
    rfl

/-- **C65.** The archive of a file system has every file once, under its path, with its contents, provided files are
read correctly by their paths. -/
theorem C65_archive (es : List FatEntry) (h : WellNamed es) (hne : filesOf es ≠ []) (read : Name → Option (List Byte))
    (data : List Name → List Byte) (hr : ∀ f ∈ filesOf es, read (pathText f.1) = some (data f.1)) :
    rootAsTar read es = .ok ((filesOf es).map fun f => (slashed f.1, data f.1)) := by
  have h1 := congrArg (List.map Prod.fst) (C65_files es)
  rw [List.map_map, List.map_map] at h1
  have h2 : filePaths (buildRoot es) true = (filesOf es).map fun f => pathText f.1 := h1
  unfold rootAsTar nodeAsTar
  rw [h2, if_neg (by simpa using hne)]
  have := tar_spec read data ((filesOf es).map (·.1)) (by
    intro c hc
    obtain ⟨f, hf, rfl⟩ := List.mem_map.1 hc
    exact ⟨files_good es h f hf, hr f hf⟩)
  rw [List.map_map, List.map_map] at this
  exact this

/-- **C65.** The archive of a path has every file below the directory it leads to once, under its full path; a path
that leads nowhere is reported as such. -/
theorem C65_path_archive (es : List FatEntry) (h : WellNamed es) (p : Name) (read : Name → Option (List Byte))
    (data : List Name → List Byte) :
    (∀ sub, DirAt es (components p) sub → filesOf sub ≠ [] →
      (∀ f ∈ filesOf sub, read (pathText (components p ++ f.1)) = some (data (components p ++ f.1))) →
      pathAsTar read es p true =
        .ok ((filesOf sub).map fun f => (slashed (components p ++ f.1), data (components p ++ f.1)))) ∧
    ((∀ sub, ¬ DirAt es (components p) sub) → ∀ r, pathAsTar read es p r = .error .notFound) := by
  have hs := resolve_spec (components p) [] (FileEntry.mk true [] none ['/'] 0 none none) es h
  unfold pathAsTar node buildRoot
  revert hs
  cases resolveNode (components p) _ with
  | none => exact fun hn => ⟨fun sub hd => absurd hd (hn sub), fun _ _ => rfl⟩
  | some n =>
    rintro ⟨e', sub, h1, rfl, _, _, h5⟩
    refine ⟨?_, fun hn => absurd h1 (hn sub)⟩
    intro sub' hd hne hr
    rw [h5 sub' hd] at hne hr ⊢
    have g := congrArg (List.map Prod.fst) (files_list ([] ++ components p) sub)
    rw [List.map_map, List.map_map] at g
    have g : filePaths (.dir e' (buildEntries ([] ++ components p) sub)) true =
        (filesOf sub).map fun f => pathText (components p ++ f.1) := by
      unfold filePaths
      rw [forEach, if_pos rfl]
      exact g
    show nodeAsTar read _ true = _
    unfold nodeAsTar
    rw [g, if_neg (by simpa using hne)]
    have := tar_spec read data ((filesOf sub).map fun f => components p ++ f.1) (by
      intro c hc
      obtain ⟨f, hf, rfl⟩ := List.mem_map.1 hc
      refine ⟨?_, hr f hf⟩
      intro s hm
      rcases List.mem_append.1 hm with hm | hm
      · exact (dirAt_good h1 h).1 s hm
      · exact files_good sub (dirAt_good h1 h).2 f hf s hm)
    rw [List.map_map, List.map_map] at this
    exact this

/-- **C65.** The extension of a name is what follows its last dot. -/
theorem C65_ext (e : FileEntry) (x : Name) :
    ext e = some x ↔ '.' ∉ x ∧ ∃ stem, e.short = stem ++ '.' :: x := by
  have key : ∀ s : Name, ∃ init last, split '.' s = init ++ [last] ∧ '.' ∉ last ∧
      (init = [] → s = last) ∧ (init ≠ [] → ∃ stem, s = stem ++ '.' :: last) := by
    intro s
    induction s with
    | nil => exact ⟨[], [], rfl, by simp, fun _ => rfl, fun h => absurd rfl h⟩
    | cons a s ih =>
      obtain ⟨init, last, h1, h2, h3, h4⟩ := ih
      rw [split, h1]
      by_cases ha : a = '.'
      · rw [if_pos ha]
        refine ⟨[] :: init, last, rfl, h2, (fun h => by cases h), fun _ => ?_⟩
        by_cases hi : init = []
        · exact ⟨[], by rw [h3 hi, ha]; rfl⟩
        · obtain ⟨stem, h5⟩ := h4 hi
          exact ⟨a :: stem, by rw [h5]; rfl⟩
      · rw [if_neg ha]
        cases init with
        | nil =>
          refine ⟨[], a :: last, rfl, ?_, fun _ => by rw [h3 rfl], fun h => absurd rfl h⟩
          intro hm
          rcases List.mem_cons.1 hm with e | hm
          · exact ha e.symm
          · exact h2 hm
        | cons b init =>
          refine ⟨(a :: b) :: init, last, rfl, h2, (fun h => by cases h), fun _ => ?_⟩
          obtain ⟨stem, h5⟩ := h4 (by simp)
          exact ⟨a :: stem, by rw [h5]; rfl⟩
  obtain ⟨init, last, h1, h2, h3, h4⟩ := key e.short
  unfold ext
  rw [h1]
  simp only [List.length_append, List.length_singleton]
  have hlast : (init ++ [last]).getD (init.length + 1 - 1) [] = last := by
    rw [Nat.add_sub_cancel, List.getD_eq_getElem?_getD, List.getElem?_append_right (Nat.le_refl _), Nat.sub_self]
    rfl
  rw [hlast]
  by_cases hi : init = []
  · rw [if_neg (by rw [hi]; simp)]
    constructor
    · intro h; cases h
    · rintro ⟨_, stem, h5⟩
      rw [h3 hi] at h5
      exact absurd (h5 ▸ List.mem_append.2 (Or.inr List.mem_cons_self)) h2
  · rw [if_pos (by have : 0 < init.length := List.length_pos_iff.2 hi
                   omega)]
    obtain ⟨stem, h5⟩ := h4 hi
    constructor
    · intro h
      cases h
      exact ⟨h2, stem, h5⟩
    · rintro ⟨hx, stem', h6⟩
      rw [h5] at h6
      -- the last dot is unique
      have hsp : ∀ (a b : Name) (x : Name), '.' ∉ x → '.' ∉ b → ∀ a', a ++ '.' :: b = a' ++ '.' :: x → b = x := by
        intro a b x hx hb a' he
        have := congrArg List.reverse he
        rw [List.reverse_append, List.reverse_append, List.reverse_cons, List.reverse_cons, List.append_assoc,
          List.append_assoc] at this
        have g : ∀ (u v u' v' : List Char), '.' ∉ u → '.' ∉ v → u ++ '.' :: u' = v ++ '.' :: v' → u = v := by
          intro u
          induction u with
          | nil =>
            intro v u' v' _ hv h
            cases v with
            | nil => rfl
            | cons c v => exact absurd (by rw [(List.cons.inj h).1]; simp) hv
          | cons c u ih =>
            intro v u' v' hu hv h
            cases v with
            | nil => exact absurd (by rw [← (List.cons.inj h).1]; simp) hu
            | cons c' v =>
              obtain ⟨e1, e2⟩ := List.cons.inj h
              rw [e1, ih v u' v' (fun h => hu (by simp [h])) (fun h => hv (by simp [h])) e2]
        have := g b.reverse x.reverse _ _ (by rwa [List.mem_reverse]) (by rwa [List.mem_reverse]) this
        exact List.reverse_inj.1 this
      rw [hsp _ _ _ hx h2 _ h6]

/-- A disk with one file in the root and one in a directory of a directory. -/
def someFiles : List FatEntry :=
  [.file "A.TXT".toList "a.txt".toList 3 ⟨1990, 1, 1, 0, 0, 0, 0⟩,
   .dir "D".toList "d".toList ⟨1990, 1, 1, 0, 0, 0, 0⟩
    [.dots ".".toList, .dots "..".toList,
     .dir "E".toList "e".toList ⟨1990, 1, 1, 0, 0, 0, 0⟩ [.file "B".toList "b".toList 7 ⟨1990, 1, 1, 0, 0, 0, 0⟩]]]

example : WellNamed someFiles := by
  simp [someFiles, WellNamed, WellNamedEntry, GoodName]

example : filePaths (buildRoot someFiles) true = ["/A.TXT".toList, "D/E/B".toList] := by decide +kernel

/-! ## C66 -/

/-- **C66 (partial).** The root directory can be listed, and a directory two levels down or more reports the path that
leads to it.  Missing: any other listing (`C66_false_dir`, `C66_false_flat`) and the path of directories in the root
(`C66_false_path`). -/
theorem C66_partial (es : List FatEntry) (h : WellNamed es) (p : Name) :
    (components p = [] → dir (buildRoot es) p = some ((buildEntries [] es).map entry)) ∧
    (2 ≤ (components p).length → ∀ n, node (buildRoot es) p = some n → components (path n) = components p) := by
  constructor
  · intro hp
    unfold dir buildRoot
    rw [hp, resolveDir]
  · intro hp n hn
    have := resolve_spec (components p) [] (FileEntry.mk true [] none ['/'] 0 none none) es h
    unfold node buildRoot at hn
    rw [hn] at this
    obtain ⟨e', sub, h1, h2, _, h4, _⟩ := this
    have hne : components p ≠ [] := fun e => by rw [e] at hp; cases hp
    have h5 := h4 hne
    rw [h2]
    show components e'.path = _
    rw [h5, List.nil_append, if_neg (by omega)]
    exact components_join _ (dirAt_good h1 h).1

example : components "D/E".toList = ["D".toList, "E".toList] ∧ (node (buildRoot someFiles) "D/E".toList).isSome = true := by
  decide +kernel

/-- **C66 is false of the code.** No directory but the one asked can be listed: `dir` finds nothing at any path that
names a directory. -/
theorem C66_false_dir (n : FileTreeNode) (p : Name) (h : components p ≠ []) : dir n p = none := by
  unfold dir
  cases hc : components p with
  | nil => exact absurd hc h
  | cons c cs =>
    cases n with
    | file e => rfl
    | dir e ch => rw [resolveDir, if_neg (by simp)]

/-- Although the directory is there. -/
example : (node (buildRoot someFiles) "D".toList).isSome = true ∧ dir (buildRoot someFiles) "D".toList = none :=
  ⟨by decide +kernel, C66_false_dir _ _ (by decide +kernel)⟩

/-- **C66 is false of the code.** Without recursion no directory has any files, and every archive of a directory
without its subdirectories fails as empty. -/
theorem C66_false_flat (e : FileEntry) (ch : List FileTreeNode) (t : NameType) (read : Name → Option (List Byte)) :
    filePaths (.dir e ch) false = [] ∧ fileNames (.dir e ch) false t = [] ∧
      nodeAsTar read (.dir e ch) false = .error .empty := by
  refine ⟨rfl, rfl, rfl⟩

/-- **C66 is false of the code.** Every directory in the root reports `/` as its path, which leads to the root. -/
theorem C66_false_path (es : List FatEntry) (h : WellNamed es) (p : Name) (hp : (components p).length = 1)
    (n : FileTreeNode) (hn : node (buildRoot es) p = some n) :
    path n = ['/'] ∧ node (buildRoot es) (path n) = some (buildRoot es) := by
  have := resolve_spec (components p) [] (FileEntry.mk true [] none ['/'] 0 none none) es h
  unfold node buildRoot at hn
  rw [hn] at this
  obtain ⟨e', sub, h1, h2, _, h4, _⟩ := this
  have h5 := h4 (fun e => by rw [e] at hp; cases hp)
  rw [List.nil_append, if_pos (by omega)] at h5
  have h6 : path n = ['/'] := by rw [h2]; exact h5
  refine ⟨h6, ?_⟩
  rw [h6]
  rfl

end Fox
