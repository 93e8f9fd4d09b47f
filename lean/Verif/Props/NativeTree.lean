import Verif.Spec.NativeTree
import Verif.Proofs.FileTree
/-
C145: images built from directories.  C146: lists of the files of a directory.
-/
namespace Fox
open Native FileTree

theorem volume_run_append : ∀ (a b : List FatCall) (v : Volume), v.run (a ++ b) = (v.run a).bind (·.run b)
  | [], _, _ => rfl
  | c :: a, b, v => by
    show (match v.step c with | none => none | some v => v.run (a ++ b)) = (match v.step c with | none => none | some v => v.run a).bind _
    cases v.step c with
    | none => rfl
    | some w => exact volume_run_append a b w

theorem fullPath_join (stack : List Name) (n : Name) : fullPath stack n = join (stack ++ [n]) := by
  unfold fullPath
  cases stack with
  | nil => rfl
  | cons a l => rw [join_snoc _ _ (by simp)]; rfl

theorem join_ne_root {l : List Name} (h : ∀ s ∈ l, GoodName s) : join l ≠ ['/'] := by
  intro e
  have := components_join l h
  rw [e] at this
  have h2 : components ['/'] = [] := by decide
  rw [h2] at this
  subst this
  cases e

/-- Everything is taken. -/
def takeAll : List FatCall → FatCall → Bool := fun _ _ => true

/-- What is read of a file. -/
def readOf (read : Name → Option (List Byte)) (p : List Name) : List Byte := (read (join p)).getD []

theorem step_mkdir {v : Volume} {stack : List Name} {n : Name} (hs : ∀ s ∈ stack ++ [n], GoodName s) (hd : stack ∈ v.dirs) :
    v.step (.mkdir (join (stack ++ [n]))) = some ⟨v.dirs ++ [stack ++ [n]], v.files⟩ := by
  unfold Volume.step
  simp only
  rw [components_join _ hs, List.dropLast_concat, if_pos hd]

theorem step_file {v : Volume} {stack : List Name} {n : Name} (d : List Byte) (hs : ∀ s ∈ stack ++ [n], GoodName s) (hd : stack ∈ v.dirs)
    (hf : ∀ f ∈ v.files, f.1 ≠ stack ++ [n]) :
    v.run [.create (join (stack ++ [n])), .write (join (stack ++ [n])) d] = some ⟨v.dirs, v.files ++ [(stack ++ [n], d)]⟩ := by
  have h1 : v.step (.create (join (stack ++ [n]))) = some ⟨v.dirs, v.files ++ [(stack ++ [n], [])]⟩ := by
    unfold Volume.step
    simp only
    rw [components_join _ hs, List.dropLast_concat, if_pos hd]
  have h2 : (⟨v.dirs, v.files ++ [(stack ++ [n], [])]⟩ : Volume).step (.write (join (stack ++ [n])) d) = some ⟨v.dirs, v.files ++ [(stack ++ [n], d)]⟩ := by
    unfold Volume.step
    simp only
    rw [components_join _ hs]
    rw [if_pos (by simp)]
    congr 2
    rw [List.map_append]
    congr 1
    · conv => rhs; rw [← List.map_id v.files]
      apply List.map_congr_left
      intro f hfm
      rw [if_neg (hf f hfm)]; rfl
    · simp
  unfold Volume.run
  rw [h1]
  unfold Volume.run
  simp only
  rw [h2]
  rfl

/-- No file is at or below a place where an entry will be put. -/
def Free (v : Volume) (stack : List Name) (names : List Name) : Prop := ∀ f ∈ v.files, ∀ n ∈ names, ¬ (stack ++ [n]) <+: f.1

theorem not_prefix {stack x : List Name} {n m : Name} (h : n ≠ m) : ¬ (stack ++ [n]) <+: (stack ++ m :: x) := by
  rw [List.prefix_append_right_inj]
  intro hp
  obtain ⟨t, ht⟩ := hp
  injection ht with h1 _
  exact h h1

theorem free_add {v : Volume} {stack names : List Name} {m : Name} {added : List (List Name × List Byte)} {ds : List (List Name)} (h : Free v stack (m :: names)) (hm : ∀ n ∈ names, n ≠ m)
    (ha : ∀ f ∈ added, ∃ x, f.1 = stack ++ m :: x) : Free ⟨ds, v.files ++ added⟩ stack names := by
  intro f hf n hn
  rcases List.mem_append.1 hf with hf | hf
  · exact h f hf n (List.mem_cons_of_mem _ hn)
  · obtain ⟨x, hx⟩ := ha f hf
    rw [hx]
    exact not_prefix (hm n hn)

mutual

theorem inject_list (read : Name → Option (List Byte)) : ∀ (es : List HostEntry) (stack : List Name), HostNamed es → (∀ s ∈ stack, GoodName s) →
    (∀ f ∈ hostFiles es, (read (join (stack ++ f.1))).isSome) →
    ∃ ns, Native.buildEntries stack es = .ok ns ∧ ∀ (done : List FatCall) (v0 v : Volume), v0.run done = some v → stack ∈ v.dirs → Free v stack (es.map (·.name)) →
      ∃ done', buildFat read takeAll ns done = (done', none) ∧
        v0.run done' = some ⟨v.dirs ++ (hostDirs es).map (stack ++ ·), v.files ++ (hostFiles es).map fun f => (stack ++ f.1, readOf read (stack ++ f.1))⟩
  | [], stack, _, _, _ => by
    refine ⟨[], rfl, fun done v0 v hv _ _ => ⟨done, rfl, ?_⟩⟩
    rw [hv]
    simp [hostDirs, hostFiles]
  | e :: es, stack, hn, hs, hr => by
    obtain ⟨hn1, hn2, hn3⟩ := hn
    obtain ⟨o, ho, h1⟩ := inject_entry read e stack hn1 hs (fun f hf => hr f (by rw [hostFiles]; exact List.mem_append_left _ hf))
    obtain ⟨ns, hns, h2⟩ := inject_list read es stack hn2 hs (fun f hf => hr f (by rw [hostFiles]; exact List.mem_append_right _ hf))
    refine ⟨o.toList ++ ns, by rw [Native.buildEntries, ho]; simp only; rw [hns], ?_⟩
    intro done v0 v hv hd hfree
    obtain ⟨d1, hd1, hrun1⟩ := h1 done v0 v hv hd (fun f hf => hfree f hf e.name (by simp))
    have hfree2 := free_add (ds := v.dirs ++ (hostDirsIn e).map (stack ++ ·)) (added := (hostFilesIn e).map fun f => (stack ++ f.1, readOf read (stack ++ f.1))) (v := v) (stack := stack) (names := es.map (·.name)) (m := e.name) hfree
      (by intro n hn; obtain ⟨e', he', rfl⟩ := List.mem_map.1 hn; exact hn3 e' he')
      (by
        intro f hf
        obtain ⟨g, hg, rfl⟩ := List.mem_map.1 hf
        cases e with
        | file n d m => rw [hostFilesIn] at hg; rw [List.mem_singleton.1 hg]; exact ⟨[], rfl⟩
        | dir n l m sub =>
          rw [hostFilesIn] at hg
          obtain ⟨k, _, rfl⟩ := List.mem_map.1 hg
          exact ⟨k.1, rfl⟩
        | other n => rw [hostFilesIn] at hg; cases hg)
    obtain ⟨d2, hd2, hrun2⟩ := h2 d1 v0 _ hrun1 (List.mem_append_left _ hd) hfree2
    refine ⟨d2, ?_, ?_⟩
    · cases o with
      | none =>
        simp only at hd1
        subst hd1
        exact hd2
      | some n =>
        simp only at hd1
        show buildFat read takeAll (n :: ns) done = _
        rw [buildFat, hd1]
        exact hd2
    · rw [hrun2, hostDirs, hostFiles, List.map_append, List.map_append, List.append_assoc, List.append_assoc]

theorem inject_entry (read : Name → Option (List Byte)) : ∀ (e : HostEntry) (stack : List Name), HostNamedEntry e → (∀ s ∈ stack, GoodName s) →
    (∀ f ∈ hostFilesIn e, (read (join (stack ++ f.1))).isSome) →
    ∃ o, Native.buildEntry stack e = .ok o ∧ ∀ (done : List FatCall) (v0 v : Volume), v0.run done = some v → stack ∈ v.dirs → (∀ f ∈ v.files, ¬ (stack ++ [e.name]) <+: f.1) →
      ∃ done', (match o with | none => done' = done | some n => buildFatNode read takeAll n done = (done', none)) ∧
        v0.run done' = some ⟨v.dirs ++ (hostDirsIn e).map (stack ++ ·), v.files ++ (hostFilesIn e).map fun f => (stack ++ f.1, readOf read (stack ++ f.1))⟩
  | .file n data m, stack, hn, hs, hr => by
    refine ⟨_, by rw [Native.buildEntry], ?_⟩
    intro done v0 v hv hd hfree
    have hg : ∀ s ∈ stack ++ [n], GoodName s := by
      intro s hsm
      rcases List.mem_append.1 hsm with h | h
      · exact hs s h
      · rw [List.mem_singleton.1 h]; exact hn
    have hread := hr ([n], data) (by rw [hostFilesIn]; simp)
    simp only at hread
    cases hd' : read (join (stack ++ [n])) with
    | none => rw [hd'] at hread; cases hread
    | some d =>
      refine ⟨done ++ [.create (join (stack ++ [n])), .write (join (stack ++ [n])) d], ?_, ?_⟩
      · simp only
        rw [buildFatNode]
        simp only
        rw [fullPath_join, hd']
        simp [takeAll]
      · rw [volume_run_append, hv, Option.bind_some, step_file d hg hd (fun f hf e => hfree f hf (by rw [e]; exact List.prefix_refl _)), hostDirsIn, hostFilesIn]
        simp [readOf, hd']
  | .dir n listed m sub, stack, hn, hs, hr => by
    obtain ⟨hgn, hdot, hdots, hl, hsub⟩ := hn
    have hg : ∀ s ∈ stack ++ [n], GoodName s := by
      intro s hsm
      rcases List.mem_append.1 hsm with h | h
      · exact hs s h
      · rw [List.mem_singleton.1 h]; exact hgn
    obtain ⟨ns, hns, h1⟩ := inject_list read sub (stack ++ [n]) hsub hg (by
      intro f hf
      have := hr (n :: f.1, f.2) (by rw [hostFilesIn]; exact List.mem_map.2 ⟨f, hf, rfl⟩)
      simpa using this)
    refine ⟨_, by rw [Native.buildEntry, if_neg (by intro h; rcases h with h | h; exact hdot h; exact hdots h), if_neg (by rw [hl]; simp), hns], ?_⟩
    intro done v0 v hv hd hfree
    have hrun : v0.run (done ++ [.mkdir (join (stack ++ [n]))]) = some ⟨v.dirs ++ [stack ++ [n]], v.files⟩ := by
      rw [volume_run_append, hv, Option.bind_some]
      unfold Volume.run
      rw [step_mkdir hg hd]
      rfl
    obtain ⟨d1, hd1, hrun1⟩ := h1 _ v0 _ hrun (by simp) (by
      intro f hf k _ hp
      exact hfree f hf ((List.prefix_append (stack ++ [n]) [k]).trans hp))
    refine ⟨d1, ?_, ?_⟩
    · simp only
      rw [buildFatNode]
      simp only
      have hlen : ¬ (stack ++ [n]).length < 1 := by simp
      simp only [hlen, if_false]
      rw [if_pos (join_ne_root hg), if_pos (by rfl), hd1]
    · rw [hrun1, hostDirsIn, hostFilesIn]
      simp [Function.comp_def, List.append_assoc]
  | .other n, stack, _, _, _ => by
    refine ⟨none, by rw [Native.buildEntry], ?_⟩
    intro done v0 v hv _ _
    refine ⟨done, rfl, ?_⟩
    rw [hv, hostDirsIn, hostFilesIn]
    simp

end

/-- **C145 (partial).** The calls that put the files of a directory into a volume make exactly its directories and its files, each at its path, if every file can be read by its path in the directory where the program runs;
the data of a file is what is read there.
Missing: that it is the data of the file of the directory (refuted below); that only the files of the directory itself are put there if no others are asked for; that files that do not fit are left out. -/
theorem C145_made_partial (es : List HostEntry) (h : HostNamed es) (read : Name → Option (List Byte)) (recursive mustFit : Bool)
    (hr : ∀ f ∈ hostFiles es, (read (slashed f.1)).isSome) :
    ∃ calls, inject (fromPath es recursive mustFit) read (fun _ _ => true) = (calls, none) ∧
      Volume.new.run calls = some ⟨[] :: hostDirs es, (hostFiles es).map fun f => (f.1, (read (slashed f.1)).getD [])⟩ := by
  obtain ⟨ns, hns, h1⟩ := inject_list read es [] h (by simp) (by intro f hf; rw [List.nil_append, ← slashed_join]; exact hr f hf)
  obtain ⟨d, hd, hrun⟩ := h1 [] Volume.new Volume.new rfl (by simp [Volume.new]) (by intro f hf; cases hf)
  refine ⟨d, ?_, ?_⟩
  · show (match Native.buildRoot es with | .error e => _ | .ok root => _) = _
    unfold Native.buildRoot
    rw [hns]
    exact hd
  · rw [hrun]
    simp [Volume.new, readOf, slashed_join]

/-- **C145.** From the directory itself, the image gets the data of the files. -/
theorem C145_here (es : List HostEntry) (h : HostNamed es) (read : Name → Option (List Byte)) (recursive mustFit : Bool)
    (hr : ∀ f ∈ hostFiles es, read (slashed f.1) = some f.2) :
    ∃ calls, inject (fromPath es recursive mustFit) read (fun _ _ => true) = (calls, none) ∧ Volume.new.run calls = some ⟨[] :: hostDirs es, hostFiles es⟩ := by
  obtain ⟨calls, h1, h2⟩ := C145_made_partial es h read recursive mustFit (fun f hf => by rw [hr f hf]; rfl)
  refine ⟨calls, h1, ?_⟩
  rw [h2]
  congr 2
  conv => rhs; rw [← List.map_id (hostFiles es)]
  apply List.map_congr_left
  intro f hf
  rw [hr f hf]; rfl

mutual

theorem fat_prefix (read : Name → Option (List Byte)) (accept : List FatCall → FatCall → Bool) : ∀ (ns : List FileTreeNode) (done : List FatCall),
    (∃ rest, (buildFat read accept ns done).1 = done ++ rest) ∧
    ((buildFat read accept ns done).2 = none → ∀ e ∈ forEachList ns, (read e.path).isSome ∧ .create e.path ∈ (buildFat read accept ns done).1)
  | [], done => ⟨⟨[], by simp [buildFat]⟩, by intro _ e he; rw [forEachList] at he; cases he⟩
  | n :: ns, done => by
    obtain ⟨⟨r1, h1⟩, h2⟩ := fat_prefix_node read accept n done
    rw [buildFat]
    cases hx : buildFatNode read accept n done with
    | mk d o =>
      rw [hx] at h1 h2
      cases o with
      | some e => exact ⟨⟨r1, h1⟩, by intro h; cases h⟩
      | none =>
        obtain ⟨⟨r2, h3⟩, h4⟩ := fat_prefix read accept ns d
        simp only at h1 ⊢
        refine ⟨⟨r1 ++ r2, by rw [h3, h1, List.append_assoc]⟩, ?_⟩
        intro hno e he
        rw [forEachList] at he
        rcases List.mem_append.1 he with he | he
        · obtain ⟨q1, q2⟩ := h2 rfl e he
          exact ⟨q1, by rw [h3]; exact List.mem_append_left _ q2⟩
        · exact h4 hno e he

theorem fat_prefix_node (read : Name → Option (List Byte)) (accept : List FatCall → FatCall → Bool) : ∀ (n : FileTreeNode) (done : List FatCall),
    (∃ rest, (buildFatNode read accept n done).1 = done ++ rest) ∧
    ((buildFatNode read accept n done).2 = none → ∀ e ∈ forEach true n, (read e.path).isSome ∧ .create e.path ∈ (buildFatNode read accept n done).1)
  | .file e, done => by
    rw [buildFatNode]
    cases hr : read e.path with
    | none => exact ⟨⟨[], by simp⟩, by intro h; cases h⟩
    | some d =>
      simp only
      split
      · split
        · refine ⟨⟨_, rfl⟩, ?_⟩
          intro _ e' he'
          rw [forEach, List.mem_singleton] at he'
          subst he'
          exact ⟨by rw [hr]; rfl, by simp⟩
        · exact ⟨⟨_, rfl⟩, by intro h; cases h⟩
      · exact ⟨⟨[], by simp⟩, by intro h; cases h⟩
  | .dir e ch, done => by
    rw [buildFatNode]
    split
    · split
      · obtain ⟨⟨r, h1⟩, h2⟩ := fat_prefix read accept ch (done ++ [.mkdir e.path])
        refine ⟨⟨.mkdir e.path :: r, by rw [h1]; simp⟩, ?_⟩
        rw [forEach, if_pos rfl]
        exact h2
      · exact ⟨⟨[], by simp⟩, by intro h; cases h⟩
    · rw [forEach, if_pos rfl]
      exact fat_prefix read accept ch done

end

mutual

theorem tree_list : ∀ (es : List HostEntry) (stack : List Name), HostNamed es → ∃ ns, Native.buildEntries stack es = .ok ns ∧
    (forEachList ns).map (fun e => (e.path, e.short, e.size)) = (hostFiles es).map fun f => (join (stack ++ f.1), f.1.getLastD [], f.2.length)
  | [], _, _ => ⟨[], rfl, rfl⟩
  | e :: es, stack, h => by
    obtain ⟨o, ho, h1⟩ := tree_entry e stack h.1
    obtain ⟨ns, hns, h2⟩ := tree_list es stack h.2.1
    refine ⟨o.toList ++ ns, by rw [Native.buildEntries, ho]; simp only; rw [hns], ?_⟩
    rw [hostFiles, List.map_append, ← h1, ← h2]
    cases o with
    | none => rfl
    | some n =>
      show List.map _ (forEachList (n :: ns)) = List.map _ (forEachList [n]) ++ _
      rw [forEachList, forEachList, forEachList, List.append_nil, List.map_append]

theorem tree_entry : ∀ (e : HostEntry) (stack : List Name), HostNamedEntry e → ∃ o, Native.buildEntry stack e = .ok o ∧
    (forEachList o.toList).map (fun e => (e.path, e.short, e.size)) = (hostFilesIn e).map fun f => (join (stack ++ f.1), f.1.getLastD [], f.2.length)
  | .file n d m, stack, _ => by
    refine ⟨_, by rw [Native.buildEntry], ?_⟩
    simp [forEachList, forEach, hostFilesIn, fullPath_join]
  | .dir n l m sub, stack, h => by
    obtain ⟨_, hdot, hdots, hl, hsub⟩ := h
    obtain ⟨ns, hns, h1⟩ := tree_list sub (stack ++ [n]) hsub
    refine ⟨_, by rw [Native.buildEntry, if_neg (by intro h; rcases h with h | h; exact hdot h; exact hdots h), if_neg (by rw [hl]; simp), hns], ?_⟩
    show List.map _ (forEachList [_]) = _
    rw [forEachList, forEachList, List.append_nil, forEach, if_pos rfl, h1, hostFilesIn, List.map_map]
    apply List.map_congr_left
    intro f hf
    have hne : f.1 ≠ [] := hostFiles_ne sub f hf
    obtain ⟨a, t, hat⟩ := List.exists_cons_of_ne_nil hne
    simp [hat]
  | .other n, stack, _ => ⟨none, by rw [Native.buildEntry], by simp [hostFilesIn, forEachList]⟩

theorem hostFiles_ne : ∀ (es : List HostEntry), ∀ f ∈ hostFiles es, f.1 ≠ []
  | [], f, hf => by rw [hostFiles] at hf; cases hf
  | e :: es, f, hf => by
    rw [hostFiles] at hf
    rcases List.mem_append.1 hf with hf | hf
    · cases e with
      | file n d m => rw [hostFilesIn] at hf; rw [List.mem_singleton.1 hf]; simp
      | dir n l m sub => rw [hostFilesIn] at hf; obtain ⟨g, _, rfl⟩ := List.mem_map.1 hf; simp
      | other n => rw [hostFilesIn] at hf; cases hf
    · exact hostFiles_ne es f hf

end

/-- **C145.** The tree of a directory has exactly its files, each once, at its path, with its name and its size. -/
theorem C145_tree (es : List HostEntry) (h : HostNamed es) : ∃ root, Native.buildRoot es = .ok root ∧
    (forEach true root).map (fun e => (e.path, e.short, e.size)) = (hostFiles es).map fun f => (slashed f.1, f.1.getLastD [], f.2.length) := by
  obtain ⟨ns, hns, h1⟩ := tree_list es [] h
  refine ⟨_, by unfold Native.buildRoot; rw [hns], ?_⟩
  rw [forEach, if_pos rfl, h1]
  simp [slashed_join]

/-- A directory with a file and a directory with a file. -/
def sampleDir : List HostEntry := [.file "a".toList [1, 2] none, .dir "d".toList true none [.file "a".toList [3] none], .other "l".toList]

example : HostNamed sampleDir ∧ hostFiles sampleDir = [(["a".toList], [1, 2]), (["d".toList, "a".toList], [3])] ∧ hostDirs sampleDir = [["d".toList]] := by
  refine ⟨?_, rfl, rfl⟩
  unfold sampleDir
  simp only [HostNamed, HostNamedEntry, GoodName, HostEntry.name]
  simp

mutual

theorem hostFiles_good : ∀ (es : List HostEntry), HostNamed es → ∀ f ∈ hostFiles es, ∀ s ∈ f.1, GoodName s
  | [], _, f, hf => by rw [hostFiles] at hf; cases hf
  | e :: es, h, f, hf => by
    rw [hostFiles] at hf
    rcases List.mem_append.1 hf with hf | hf
    · exact hostFilesIn_good e h.1 f hf
    · exact hostFiles_good es h.2.1 f hf

theorem hostFilesIn_good : ∀ (e : HostEntry), HostNamedEntry e → ∀ f ∈ hostFilesIn e, ∀ s ∈ f.1, GoodName s
  | .file n d m, h, f, hf => by
    rw [hostFilesIn] at hf
    rw [List.mem_singleton.1 hf]
    intro s hs
    rw [List.mem_singleton.1 hs]; exact h
  | .dir n l m sub, h, f, hf => by
    rw [hostFilesIn] at hf
    obtain ⟨g, hg, rfl⟩ := List.mem_map.1 hf
    intro s hs
    rcases List.mem_cons.1 hs with rfl | hs
    · exact h.1
    · exact hostFiles_good sub h.2.2.2.2 g hg s hs
  | .other n, _, f, hf => by rw [hostFilesIn] at hf; cases hf

end

theorem slashed_relative {es : List HostEntry} (h : HostNamed es) {f : List Name × List Byte} (hf : f ∈ hostFiles es) : (slashed f.1).head? ≠ some '/' := by
  obtain ⟨a, t, hat⟩ := List.exists_cons_of_ne_nil (hostFiles_ne es f hf)
  have hg : GoodName a := hostFiles_good es h f hf a (by rw [hat]; simp)
  rw [hat]
  obtain ⟨c, a', hc⟩ := List.exists_cons_of_ne_nil hg.1
  have hcs : c ≠ '/' := fun e => hg.2 (by rw [hc, e]; simp)
  cases t with
  | nil => rw [slashed, hc]; simpa using hcs
  | cons b t => rw [slashed, hc]; simpa using hcs

/-- **C145 is false of the code: where the files are.** Files are looked for in the directory where the program runs: where no file has such a path, an image of a directory with files cannot be made. -/
theorem C145_false_place (es : List HostEntry) (h : HostNamed es) (hne : hostFiles es ≠ []) (read : Name → Option (List Byte)) (hr : ∀ p, p.head? ≠ some '/' → read p = none)
    (recursive mustFit : Bool) (accept : List FatCall → FatCall → Bool) : (inject (fromPath es recursive mustFit) read accept).2 ≠ none := by
  obtain ⟨ns, hns, h1⟩ := tree_list es [] h
  have he : inject (fromPath es recursive mustFit) read accept = buildFat read accept ns [] := by
    show (match Native.buildRoot es with | .error e => _ | .ok root => _) = _
    unfold Native.buildRoot
    rw [hns]
    rfl
  rw [he]
  intro hno
  obtain ⟨f, hf⟩ := List.exists_mem_of_ne_nil _ hne
  have : (join ([] ++ f.1), f.1.getLastD [], f.2.length) ∈ (forEachList ns).map (fun e => (e.path, e.short, e.size)) := by
    rw [h1]; exact List.mem_map.2 ⟨f, hf, rfl⟩
  obtain ⟨e, hmem, heq⟩ := List.mem_map.1 this
  have hp : e.path = slashed f.1 := by
    injection heq with h2 _
    rw [h2, List.nil_append, slashed_join]
  have hs := ((fat_prefix read accept ns []).2 hno e hmem).1
  rw [hp, hr _ (slashed_relative h hf)] at hs
  cases hs

/-- **C145 is false of the code: another file.** If the program runs in a directory with files of the same paths, it is their data that is put in the image. -/
theorem C145_false_other (n : Name) (hn : GoodName n) (wanted other : List Byte) (recursive mustFit : Bool) :
    ∃ calls, inject (fromPath [.file n wanted none] recursive mustFit) (fun _ => some other) (fun _ _ => true) = (calls, none) ∧ Volume.new.run calls = some ⟨[[]], [([n], other)]⟩ := by
  obtain ⟨calls, h1, h2⟩ := C145_made_partial [.file n wanted none] (by simp [HostNamed, HostNamedEntry, hn]) (fun _ => some other) recursive mustFit (fun _ _ => rfl)
  exact ⟨calls, h1, by rw [h2]; rfl⟩

/-- **C145 is false of the code: what is asked for.** Whether directories are to be followed and whether all must fit makes no difference, and the files of an archive are never put in an image. -/
theorem C145_false_asked (es : List HostEntry) (files : List (Name × List Byte)) (read : Name → Option (List Byte)) (accept : List FatCall → FatCall → Bool) (r r' f f' : Bool) :
    inject (fromPath es r f) read accept = inject (fromPath es r' f') read accept ∧ inject (fromArchive files r f) read accept = ([], none) ∧
    (fromPath es r f).fromArchive = none ∧ (fromArchive files r f).fromPath = none := ⟨rfl, rfl, rfl, rfl⟩

/-- **C145 is false of the code: what does not fit.** A file that the volume refuses is an error, also if not all have to fit. -/
theorem C145_false_fit (n : Name) (d : List Byte) (recursive : Bool) : inject (fromPath [.file n d none] recursive false) (fun _ => some d) (fun _ _ => false) = ([], some .io) := by
  simp [inject, fromPath, Native.buildRoot, Native.buildEntries, Native.buildEntry, children, buildFat, buildFatNode]

/-- A path that stays: its directory is not in front of what is left when it is taken away. -/
theorem trim_once (base s : Name) (hb : base ≠ []) (h : ¬ base <+: s) : trimStart base (base ++ s) = s := by
  rw [trimStart, dif_pos ⟨hb, List.isPrefixOf_iff_prefix.2 (List.prefix_append _ _)⟩, List.drop_left, trimStart, dif_neg (fun h' => h (List.isPrefixOf_iff_prefix.1 h'.2))]

theorem trim_more (base s : Name) (hb : base ≠ []) : trimStart base (base ++ s) = trimStart base s := by
  rw [trimStart, dif_pos ⟨hb, List.isPrefixOf_iff_prefix.2 (List.prefix_append _ _)⟩, List.drop_left]

theorem pathJoin_plain {base n : Name} (hb : base ≠ []) (hl : base.getLast? ≠ some '/') : pathJoin base n = base ++ '/' :: n := by
  unfold pathJoin
  rw [if_neg (by intro h; rcases h with h | h; exact hb h; exact hl h)]

theorem pathJoin_last {base n : Name} (hg : GoodName n) : (base ++ '/' :: n).getLast? ≠ some '/' := by
  obtain ⟨c, l, hc⟩ := List.exists_cons_of_ne_nil hg.1
  rw [List.getLast?_append, List.getLast?_cons]
  have hne : n.getLast? = some (n.getLast hg.1) := List.getLast?_eq_some_getLast hg.1
  rw [hne]
  simp only [Option.getD_some, Option.some_or]
  intro h
  injection h with h
  exact hg.2 (by rw [← h]; exact List.getLast_mem hg.1)

mutual

theorem list_rec : ∀ (es : List HostEntry) (base : Name), HostNamed es → base ≠ [] → base.getLast? ≠ some '/' →
    (hostOthers es = 0 → listRecursive base es = .ok ((hostFiles es).map fun f => base ++ '/' :: slashed f.1)) ∧ (hostOthers es ≠ 0 → listRecursive base es = .error .unsupported)
  | [], _, _, _, _ => ⟨fun _ => rfl, fun h => absurd rfl h⟩
  | e :: es, base, h, hb, hl => by
    obtain ⟨h1, h2⟩ := list_entry e base h.1 hb hl
    obtain ⟨h3, h4⟩ := list_rec es base h.2.1 hb hl
    constructor
    · intro ho
      rw [hostOthers] at ho
      rw [listRecursive, h1 (by omega)]
      simp only
      rw [h3 (by omega)]
      simp only
      rw [hostFiles, List.map_append]
    · intro ho
      rw [hostOthers] at ho
      rw [listRecursive]
      by_cases he : hostOthersIn e = 0
      · rw [h1 he]
        simp only
        rw [h4 (by omega)]
      · rw [h2 he]

theorem list_entry : ∀ (e : HostEntry) (base : Name), HostNamedEntry e → base ≠ [] → base.getLast? ≠ some '/' →
    (hostOthersIn e = 0 → listEntry base e = .ok ((hostFilesIn e).map fun f => base ++ '/' :: slashed f.1)) ∧ (hostOthersIn e ≠ 0 → listEntry base e = .error .unsupported)
  | .file n d m, base, _, hb, hl => by
    refine ⟨fun _ => ?_, fun h => absurd rfl h⟩
    rw [listEntry, pathJoin_plain hb hl, hostFilesIn]
    rfl
  | .dir n l m sub, base, h, hb, hl => by
    obtain ⟨hg, hdot, hdots, hli, hsub⟩ := h
    obtain ⟨h1, h2⟩ := list_rec sub (base ++ '/' :: n) hsub (by simp) (pathJoin_last hg)
    rw [listEntry, if_neg (by intro h; rcases h with h | h; exact hdot h; exact hdots h), if_neg (by rw [hli]; simp), pathJoin_plain hb hl, hostOthersIn]
    refine ⟨fun h0 => ?_, h2⟩
    rw [h1 h0, hostFilesIn, List.map_map]
    congr 1
    apply List.map_congr_left
    intro f hf
    obtain ⟨a, t, hat⟩ := List.exists_cons_of_ne_nil (hostFiles_ne sub f hf)
    simp [hat, slashed]
  | .other n, base, _, _, _ => ⟨(fun h => by cases h), fun _ => by rw [listEntry]⟩

end

/-- **C146 (partial).** The list of the files of a directory, with those of the directories in it, has each file once at its path from there, with a slash in front, if the path of the directory does not itself begin a path after the slash;
so it is for every path that does not start at the root. If there is anything else than files and directories the list is refused.
Missing: every path of the directory, and lists without the directories in it (refuted below). -/
theorem C146_listed_partial (base : Name) (es : List HostEntry) (h : HostNamed es) (hb : base ≠ []) (hl : base.getLast? ≠ some '/')
    (hp : base.head? ≠ some '/' ∨ ∀ f ∈ hostFiles es, ¬ base <+: '/' :: slashed f.1) :
    (hostOthers es = 0 → listRelative base es true = .ok ((hostFiles es).map fun f => '/' :: slashed f.1)) ∧
    (hostOthers es ≠ 0 → listRelative base es true = .error .unsupported) := by
  obtain ⟨h1, h2⟩ := list_rec es base h hb hl
  constructor
  · intro ho
    unfold listRelative listFiles
    rw [if_pos rfl, h1 ho]
    simp only
    rw [List.map_map]
    congr 1
    apply List.map_congr_left
    intro f hf
    apply trim_once base _ hb
    rcases hp with hp | hp
    · intro hpre
      obtain ⟨c, b, hcb⟩ := List.exists_cons_of_ne_nil hb
      rw [hcb] at hpre hp
      obtain ⟨t, ht⟩ := hpre
      injection ht with ht _
      exact hp (by rw [ht]; rfl)
    · exact hp f hf
  · intro ho
    unfold listRelative listFiles
    rw [if_pos rfl, h2 ho]

example : listRelative "x".toList [.file "a".toList [1] none, .dir "d".toList true none [.file "a".toList [] none]] true = .ok ["/a".toList, "/d/a".toList] :=
  (C146_listed_partial _ _ (by simp [HostNamed, HostNamedEntry, GoodName, HostEntry.name]) (by decide) (by decide) (.inl (by decide))).1 rfl

/-- **C146 is false of the code: names twice.** In a directory at the root of the computer that has a directory of the same name, the files of both are listed at the same paths. -/
theorem C146_false_twice (n x : Name) (hn : GoodName n) (hnx : n ≠ x) (hx : GoodName x) (hd : n ≠ ['.']) (hdd : n ≠ ['.', '.']) (hne : ¬ ('/' :: n) <+: '/' :: x) (d d' : List Byte) :
    listRelative ('/' :: n) [.file x d none, .dir n true none [.file x d' none]] true = .ok ['/' :: x, '/' :: x] := by
  have hb : ('/' :: n) ≠ [] := by simp
  have hl : ('/' :: n).getLast? ≠ some '/' := by have := pathJoin_last (base := []) hn; simpa using this
  have hnamed : HostNamed [.file x d none, .dir n true none [.file x d' none]] := by
    refine ⟨hx, ⟨⟨hn, hd, hdd, rfl, ⟨hx, trivial, by simp⟩⟩, trivial, by simp⟩, ?_⟩
    intro e' he'
    rw [List.mem_singleton.1 he']
    exact hnx
  unfold listRelative listFiles
  rw [if_pos rfl, (list_rec _ _ hnamed hb hl).1 rfl]
  simp only [hostFiles, hostFilesIn, List.append_nil, List.map_cons, List.map_nil, List.cons_append, List.nil_append, slashed]
  have h1 : trimStart ('/' :: n) ('/' :: (n ++ '/' :: x)) = '/' :: x := trim_once ('/' :: n) ('/' :: x) hb hne
  have h2 : trimStart ('/' :: n) ('/' :: n ++ '/' :: (n ++ ['/'] ++ x)) = '/' :: x := by
    rw [trim_more _ _ hb]
    have : '/' :: (n ++ ['/'] ++ x) = '/' :: n ++ '/' :: x := by simp
    rw [this, trim_once _ _ hb hne]
  have h3 : trimStart ('/' :: n) ('/' :: (n ++ '/' :: (n ++ ['/'] ++ x))) = '/' :: x := h2
  rw [h1, h3]

/-- **C146 is false of the code: names cut.** Without the directories in it, the list of a directory has the names of files with the path of the directory taken away, which is not in them: a file is listed without the beginning of its name. -/
theorem C146_false_cut (base x : Name) (d : List Byte) (hb : base ≠ []) (h : ¬ base <+: x) :
    listRelative base [.file (base ++ x) d none] false = .ok [x] := by
  show Except.ok [trimStart base (base ++ x)] = _
  rw [trim_once _ _ hb h]

mutual

theorem unlisted_list : ∀ (es : List HostEntry) (base : List Char) (st : List Name),
    (hostUnlisted es ≠ 0 → Native.buildEntries st es = .error .io ∧ ∃ e, listRecursive base es = .error e) ∧ (hostUnlisted es = 0 → ∃ ns, Native.buildEntries st es = .ok ns)
  | [], _, _ => ⟨fun h => absurd rfl h, fun _ => ⟨[], rfl⟩⟩
  | e :: es, base, st => by
    obtain ⟨h1, h2⟩ := unlisted_entry e base st
    obtain ⟨h3, h4⟩ := unlisted_list es base st
    rw [hostUnlisted, Native.buildEntries, listRecursive]
    by_cases he : hostUnlistedIn e = 0
    · obtain ⟨o, ho⟩ := h2 he
      rw [ho]
      simp only
      constructor
      · intro h
        obtain ⟨q1, x, q2⟩ := h3 (by omega)
        rw [q1, q2]
        refine ⟨rfl, ?_⟩
        cases listEntry base e with
        | error y => exact ⟨y, rfl⟩
        | ok l => exact ⟨x, rfl⟩
      · intro h
        obtain ⟨ns, q⟩ := h4 (by omega)
        rw [q]; exact ⟨_, rfl⟩
    · obtain ⟨q1, x, q2⟩ := h1 he
      rw [q1, q2]
      exact ⟨fun _ => ⟨rfl, x, rfl⟩, fun h => by omega⟩

theorem unlisted_entry : ∀ (e : HostEntry) (base : List Char) (st : List Name),
    (hostUnlistedIn e ≠ 0 → Native.buildEntry st e = .error .io ∧ ∃ x, listEntry base e = .error x) ∧ (hostUnlistedIn e = 0 → ∃ o, Native.buildEntry st e = .ok o)
  | .file _ _ _, _, _ => ⟨fun h => absurd rfl h, fun _ => ⟨_, by rw [Native.buildEntry]⟩⟩
  | .dir n listed m sub, base, st => by
    rw [hostUnlistedIn, Native.buildEntry, listEntry]
    by_cases hd : n = ['.'] ∨ n = ['.', '.']
    · rw [if_pos hd, if_pos hd]
      exact ⟨fun h => absurd rfl h, fun _ => ⟨_, rfl⟩⟩
    · rw [if_neg hd, if_neg hd, if_neg hd]
      cases listed with
      | false => exact ⟨fun _ => ⟨rfl, _, rfl⟩, fun h => by simp at h⟩
      | true =>
        obtain ⟨h1, h2⟩ := unlisted_list sub (pathJoin base n) (st ++ [n])
        simp only [if_true, Bool.not_true, Bool.false_eq_true, if_false]
        constructor
        · intro h
          obtain ⟨q1, q2⟩ := h1 h
          rw [q1]; exact ⟨rfl, q2⟩
        · intro h
          obtain ⟨ns, q⟩ := h2 h
          rw [q]; exact ⟨_, rfl⟩
  | .other _, _, _ => ⟨fun h => absurd rfl h, fun _ => ⟨_, by rw [Native.buildEntry]⟩⟩

end

/-- **C145.** A directory gives a tree exactly if all directories met can be listed; else nothing is put in the image, and there is an error. -/
theorem C145_listed (es : List HostEntry) (read : Name → Option (List Byte)) (accept : List FatCall → FatCall → Bool) (r f : Bool) :
    ((∃ root, Native.buildRoot es = .ok root) ↔ hostUnlisted es = 0) ∧ (hostUnlisted es ≠ 0 → inject (fromPath es r f) read accept = ([], some .io)) := by
  obtain ⟨h1, h2⟩ := unlisted_list es [] []
  have herr : hostUnlisted es ≠ 0 → Native.buildRoot es = .error .io := by
    intro h
    unfold Native.buildRoot
    rw [(h1 h).1]
  refine ⟨⟨?_, ?_⟩, ?_⟩
  · rintro ⟨root, hr⟩
    by_cases h : hostUnlisted es = 0
    · exact h
    · rw [herr h] at hr; cases hr
  · intro h
    obtain ⟨ns, q⟩ := h2 h
    unfold Native.buildRoot
    rw [q]; exact ⟨_, rfl⟩
  · intro h
    show (match Native.buildRoot es with | .error e => _ | .ok root => _) = _
    rw [herr h]

/-- **C146.** A directory that cannot be listed, and is met, is an error. -/
theorem C146_unlisted (base : Name) (es : List HostEntry) (h : hostUnlisted es ≠ 0) : ∃ e, listRelative base es true = .error e := by
  obtain ⟨_, e, q⟩ := (unlisted_list es base []).1 h
  refine ⟨e, ?_⟩
  unfold listRelative listFiles
  rw [if_pos rfl, q]

/-- **C146.** Without the directories in it, exactly the files of the directory itself are listed, by their names, if none of them begins like the path of the directory. -/
theorem C146_flat (base : Name) (es : List HostEntry) (hp : ∀ n ∈ ((hostFiles es).filter fun f => f.1.length = 1).map fun f => f.1.headD [], base ≠ [] → ¬ base <+: n) :
    listRelative base es false = .ok (((hostFiles es).filter fun f => f.1.length = 1).map fun f => f.1.headD []) := by
  have key : ∀ es : List HostEntry, listFlat es = ((hostFiles es).filter fun f => f.1.length = 1).map fun f => f.1.headD [] := by
    intro es
    induction es with
    | nil => rfl
    | cons e es ih =>
      rw [hostFiles, List.filter_append, List.map_append, ← ih]
      cases e with
      | file n d m => rw [listFlat, hostFilesIn]; simp
      | dir n l m sub =>
        rw [listFlat, hostFilesIn]
        have : ((hostFiles sub).map fun f => ((n :: f.1, f.2) : List Name × List Byte)).filter (fun f => f.1.length = 1) = [] := by
          rw [List.filter_eq_nil_iff]
          intro f hf
          obtain ⟨g, hg, rfl⟩ := List.mem_map.1 hf
          have := List.length_pos_iff.2 (hostFiles_ne sub g hg)
          simp only [List.length_cons, decide_eq_true_eq]
          omega
        rw [this]
        · rfl
        · intro _ _ _ h; cases h
      | other n => rw [listFlat, hostFilesIn]; · rfl
                   · intro _ _ _ h; cases h
  unfold listRelative listFiles
  rw [if_neg (by simp), key]
  simp only
  congr 1
  conv => rhs; rw [← List.map_id (((hostFiles es).filter fun f => f.1.length = 1).map fun f => f.1.headD [])]
  apply List.map_congr_left
  intro n hn
  rw [trimStart, dif_neg (fun h => hp n hn h.1 (List.isPrefixOf_iff_prefix.1 h.2))]
  rfl

end Fox
