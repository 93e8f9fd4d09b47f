import Verif.Spec.FileTree

/-! Lemmas about file trees. -/

namespace Fox

open FileTree

theorem split_free (c : Char) : ∀ a : Name, c ∉ a → split c a = [a]
  | [], _ => rfl
  | x :: xs, h => by
    rw [split, if_neg (fun e => h (by simp [e])), split_free c xs (fun h' => h (by simp [h']))]

theorem split_at (c : Char) (b : Name) : ∀ a : Name, c ∉ a → split c (a ++ c :: b) = a :: split c b
  | [], _ => by show split c (c :: b) = _; rw [split, if_pos rfl]
  | x :: xs, h => by
    show split c (x :: (xs ++ c :: b)) = _
    rw [split, if_neg (fun e => h (by simp [e])), split_at c b xs (fun h' => h (by simp [h']))]

theorem slashed_join : ∀ l : List Name, slashed l = join l
  | [] => rfl
  | [_] => rfl
  | a :: b :: l => by
    rw [slashed, join, slashed_join (b :: l), List.append_assoc]
    rfl

theorem join_snoc (l : List Name) (s : Name) (hl : l ≠ []) : join (l ++ [s]) = join l ++ '/' :: s := by
  induction l with
  | nil => exact absurd rfl hl
  | cons a l ih =>
    cases l with
    | nil => rfl
    | cons b l =>
      show join (a :: b :: (l ++ [s])) = _
      have ih : join (b :: (l ++ [s])) = join (b :: l) ++ '/' :: s := ih (by simp)
      rw [join, join, ih, List.append_assoc]
      rfl

theorem isEmpty_good {s : Name} (h : GoodName s) : (!s.isEmpty) = true := by
  cases s with
  | nil => exact absurd rfl h.1
  | cons => rfl

theorem components_join : ∀ l : List Name, (∀ s ∈ l, GoodName s) → components (join l) = l
  | [], _ => rfl
  | [a], h => by
    have ha := h a (by simp)
    unfold components
    rw [join, split_free '/' a ha.2, List.filter_cons, if_pos (isEmpty_good ha)]
    rfl
  | a :: b :: l, h => by
    have ha := h a (by simp)
    have ih := components_join (b :: l) (fun s hs => h s (by simp [List.mem_cons.1 hs]))
    unfold components at ih ⊢
    rw [join, split_at '/' _ a ha.2, List.filter_cons, if_pos (isEmpty_good ha), ih]

theorem components_text (l : List Name) (h : ∀ s ∈ l, GoodName s) : components (pathText l) = l := by
  unfold pathText
  rw [slashed_join]
  split
  · have := components_join l h
    unfold components at this ⊢
    rw [split, if_pos rfl, List.filter_cons]
    exact this
  · exact components_join l h

theorem trim_good {s : Name} (h : GoodName s) (r : Name) : trimSlash (s ++ r) = s ++ r := by
  cases s with
  | nil => exact absurd rfl h.1
  | cons c s =>
    show trimSlash (c :: (s ++ r)) = c :: (s ++ r)
    rw [trimSlash, if_neg (fun e => h.2 (by simp [e]))]

theorem trim_join : ∀ l : List Name, (∀ s ∈ l, GoodName s) → trimSlash (join l) = join l
  | [], _ => rfl
  | [a], h => by
    rw [join]
    have := trim_good (h a (by simp)) []
    rwa [List.append_nil] at this
  | a :: b :: l, h => by rw [join]; exact trim_good (h a (by simp)) _

theorem trim_text (l : List Name) (h : ∀ s ∈ l, GoodName s) : trimSlash (pathText l) = slashed l := by
  unfold pathText
  rw [slashed_join]
  split
  · rw [trimSlash, if_pos rfl]; exact trim_join l h
  · exact trim_join l h

theorem text_snoc (stack : List Name) (s : Name) : join stack ++ '/' :: s = pathText (stack ++ [s]) := by
  unfold pathText
  rw [slashed_join]
  cases stack with
  | nil => rfl
  | cons a l =>
    rw [if_neg (by simp), join_snoc _ _ (by simp)]

/-! ### The files of the built tree -/

mutual

theorem files_list (stack : List Name) : ∀ es : List FatEntry,
    (forEachList (buildEntries stack es)).map seenFile =
      (filesOf es).map fun f => (pathText (stack ++ f.1), some f.2.1, f.2.2)
  | [] => by rw [buildEntries, filesOf]; rfl
  | e :: es => by
    have h1 := files_entry stack e
    have h2 := files_list stack es
    rw [buildEntries, filesOf, List.map_append]
    cases hb : buildEntry stack e with
    | none =>
      rw [hb] at h1
      have h1 : ([] : List (Name × Option Name × Nat)) = _ := h1
      simp only
      rw [h2, ← h1]
      rfl
    | some n =>
      rw [hb] at h1
      have h1 : (forEach true n).map seenFile = _ := h1
      simp only
      rw [forEachList, List.map_append, h1, h2]

theorem files_entry (stack : List Name) : ∀ e : FatEntry,
    (match buildEntry stack e with
      | none => []
      | some n => (forEach true n).map seenFile) =
      (filesIn e).map fun f => (pathText (stack ++ f.1), some f.2.1, f.2.2)
  | .dots _ => by rw [buildEntry, filesIn]; rfl
  | .file s l size m => by
    rw [buildEntry, filesIn]
    simp only
    rw [forEach]
    simp only [List.map_cons, List.map_nil, seenFile]
    rw [text_snoc]
  | .dir s l m sub => by
    have h := files_list (stack ++ [s]) sub
    rw [buildEntry, filesIn]
    simp only
    rw [forEach, if_pos rfl, h, List.map_map]
    apply List.map_congr_left
    intro f _
    simp only [Function.comp, List.append_assoc, List.cons_append, List.nil_append]

end

mutual

theorem files_nonempty : ∀ (es : List FatEntry), ∀ f ∈ filesOf es, f.1 ≠ []
  | [], f, hf => by rw [filesOf] at hf; cases hf
  | e :: es, f, hf => by
    rw [filesOf] at hf
    rcases List.mem_append.1 hf with hf | hf
    · exact files_nonempty_entry e f hf
    · exact files_nonempty es f hf

theorem files_nonempty_entry : ∀ (e : FatEntry), ∀ f ∈ filesIn e, f.1 ≠ []
  | .dots _, f, hf => by rw [filesIn] at hf; cases hf
  | .file s l size m, f, hf => by
    rw [filesIn] at hf
    rw [List.mem_singleton.1 hf]
    exact List.cons_ne_nil _ _
  | .dir s l m sub, f, hf => by
    rw [filesIn] at hf
    obtain ⟨g, _, rfl⟩ := List.mem_map.1 hf
    exact List.cons_ne_nil _ _

end

mutual

theorem shorts_list (stack : List Name) : ∀ es : List FatEntry,
    (forEachList (buildEntries stack es)).map (·.short) = (filesOf es).map fun f => f.1.getLastD []
  | [] => by rw [buildEntries, filesOf]; rfl
  | e :: es => by
    have h1 := shorts_entry stack e
    have h2 := shorts_list stack es
    rw [buildEntries, filesOf, List.map_append]
    cases hb : buildEntry stack e with
    | none =>
      rw [hb] at h1
      have h1 : ([] : List Name) = _ := h1
      simp only
      rw [h2, ← h1]
      rfl
    | some n =>
      rw [hb] at h1
      have h1 : (forEach true n).map (·.short) = _ := h1
      simp only
      rw [forEachList, List.map_append, h1, h2]

theorem shorts_entry (stack : List Name) : ∀ e : FatEntry,
    (match buildEntry stack e with
      | none => []
      | some n => (forEach true n).map (·.short)) = (filesIn e).map fun f => f.1.getLastD []
  | .dots _ => by rw [buildEntry, filesIn]; rfl
  | .file s l size m => by rw [buildEntry, filesIn]; rfl
  | .dir s l m sub => by
    have h := shorts_list (stack ++ [s]) sub
    rw [buildEntry, filesIn]
    simp only
    rw [forEach, if_pos rfl, h, List.map_map]
    apply List.map_congr_left
    intro f hf
    have := files_nonempty sub f hf
    show f.1.getLastD [] = (s :: f.1).getLastD []
    cases hc : f.1 with
    | nil => exact absurd hc this
    | cons a l => rfl

end

/-! ### Names of what is listed -/

mutual

theorem files_good : ∀ es : List FatEntry, WellNamed es → ∀ f ∈ filesOf es, ∀ s ∈ f.1, GoodName s
  | [], _, f, hf => by rw [filesOf] at hf; cases hf
  | e :: es, h, f, hf => by
    rw [WellNamed] at h
    rw [filesOf] at hf
    rcases List.mem_append.1 hf with hf | hf
    · exact files_good_entry e h.1 f hf
    · exact files_good es h.2.1 f hf

theorem files_good_entry : ∀ e : FatEntry, WellNamedEntry e → ∀ f ∈ filesIn e, ∀ s ∈ f.1, GoodName s
  | .dots _, _, f, hf => by rw [filesIn] at hf; cases hf
  | .file s l size m, h, f, hf => by
    rw [WellNamedEntry] at h
    rw [filesIn] at hf
    rw [List.mem_singleton.1 hf]
    intro s' hs'
    rw [List.mem_singleton.1 hs']
    exact h
  | .dir s l m sub, h, f, hf => by
    rw [WellNamedEntry] at h
    rw [filesIn] at hf
    obtain ⟨g, hg, rfl⟩ := List.mem_map.1 hf
    intro s' hs'
    rcases List.mem_cons.1 hs' with e | hs'
    · rw [e]; exact h.1
    · exact files_good sub h.2 g hg s' hs'

end

theorem wellNamed_dir : ∀ (es : List FatEntry) {s l m sub}, WellNamed es → FatEntry.dir s l m sub ∈ es →
    GoodName s ∧ WellNamed sub
  | [], _, _, _, _, _, hm => by cases hm
  | e :: es, s, l, m, sub, h, hm => by
    rw [WellNamed] at h
    rcases List.mem_cons.1 hm with e' | hm
    · subst e'
      have := h.1
      rw [WellNamedEntry] at this
      exact this
    · exact wellNamed_dir es h.2.1 hm

theorem dirAt_good {es : List FatEntry} {cs : List Name} {r : List FatEntry} (h : DirAt es cs r) :
    WellNamed es → (∀ s ∈ cs, GoodName s) ∧ WellNamed r := by
  induction h with
  | here es => exact fun h => ⟨(fun _ hs => by cases hs), h⟩
  | down hm _ ih =>
    intro hw
    obtain ⟨h1, h2⟩ := wellNamed_dir _ hw hm
    obtain ⟨h3, h4⟩ := ih h2
    refine ⟨?_, h4⟩
    intro s hs
    rcases List.mem_cons.1 hs with e | hs
    · rw [e]; exact h1
    · exact h3 s hs

/-! ### Resolving -/

/-- Looking for a directory among the built children. -/
theorem find_dir (stack : List Name) (c : Name) : ∀ es : List FatEntry,
    (∀ x, (buildEntries stack es).find? (isDirNamed c) = some x → ∃ l m sub, FatEntry.dir c l m sub ∈ es ∧
      some x = buildEntry stack (.dir c l m sub)) ∧
    ((buildEntries stack es).find? (isDirNamed c) = none → ∀ l m sub, FatEntry.dir c l m sub ∉ es)
  | [] => by
    rw [buildEntries]
    exact ⟨(fun x h => by cases h), (fun _ _ _ _ h => by cases h)⟩
  | e :: es => by
    obtain ⟨h1, h2⟩ := find_dir stack c es
    have skip : buildEntry stack e = none ∨ (∃ n, buildEntry stack e = some n ∧ isDirNamed c n = false) →
        (∀ l m sub, e ≠ .dir c l m sub) → (∀ x, (buildEntries stack (e :: es)).find? (isDirNamed c) = some x →
          ∃ l m sub, FatEntry.dir c l m sub ∈ e :: es ∧ some x = buildEntry stack (.dir c l m sub)) ∧
        ((buildEntries stack (e :: es)).find? (isDirNamed c) = none → ∀ l m sub, FatEntry.dir c l m sub ∉ e :: es) := by
      intro hs hne
      have heq : (buildEntries stack (e :: es)).find? (isDirNamed c) = (buildEntries stack es).find? (isDirNamed c) := by
        rw [buildEntries]
        rcases hs with hs | ⟨n, hs, hn⟩
        · rw [hs]
        · rw [hs]
          simp only
          rw [List.find?_cons, hn]
      rw [heq]
      refine ⟨fun x hx => ?_, fun hx l m sub hm => ?_⟩
      · obtain ⟨l, m, sub, h3, h4⟩ := h1 x hx
        exact ⟨l, m, sub, List.mem_cons.2 (Or.inr h3), h4⟩
      · rcases List.mem_cons.1 hm with h | h
        · exact hne l m sub h.symm
        · exact h2 hx l m sub h
    cases e with
    | dots n => exact skip (Or.inl (by rw [buildEntry])) (fun _ _ _ h => by cases h)
    | file s l size m => exact skip (Or.inr ⟨_, by rw [buildEntry], rfl⟩) (fun _ _ _ h => by cases h)
    | dir s l m sub =>
      by_cases hs : s = c
      · subst hs
        have heq : ∃ x, buildEntry stack (.dir s l m sub) = some x ∧ isDirNamed s x = true := by
          refine ⟨_, by rw [buildEntry], ?_⟩
          simp [isDirNamed]
        obtain ⟨x, hx1, hx2⟩ := heq
        have hf : (buildEntries stack (.dir s l m sub :: es)).find? (isDirNamed s) = some x := by
          rw [buildEntries, hx1]
          simp only
          rw [List.find?_cons, hx2]
        rw [hf]
        refine ⟨fun y hy => ?_, fun h => by cases h⟩
        cases hy
        exact ⟨l, m, sub, by simp, hx1.symm⟩
      · refine skip (Or.inr ⟨_, by rw [buildEntry], ?_⟩) (fun _ _ _ h => by cases h; exact hs rfl)
        simp [isDirNamed, hs]

theorem wellNamed_unique : ∀ (es : List FatEntry) {s l m sub l' m' sub'}, WellNamed es → FatEntry.dir s l m sub ∈ es →
    FatEntry.dir s l' m' sub' ∈ es → l = l' ∧ m = m' ∧ sub = sub'
  | [], _, _, _, _, _, _, _, _, hm, _ => by cases hm
  | e :: es, s, l, m, sub, l', m', sub', h, h1, h2 => by
    rw [WellNamed] at h
    rcases List.mem_cons.1 h1 with e1 | h1
    · rcases List.mem_cons.1 h2 with e2 | h2
      · rw [← e1] at e2
        cases e2
        exact ⟨rfl, rfl, rfl⟩
      · exact absurd h2 (h.2.2 s l m sub e1.symm l' m' sub')
    · rcases List.mem_cons.1 h2 with e2 | h2
      · exact absurd h1 (h.2.2 s l' m' sub' e2.symm l m sub)
      · exact wellNamed_unique es h.2.1 h1 h2

/-- Resolving finds the directories that are there. -/
theorem resolve_spec : ∀ (cs stack : List Name) (e : FileEntry) (es : List FatEntry), WellNamed es →
    match resolveNode cs (.dir e (buildEntries stack es)) with
    | none => ∀ sub, ¬ DirAt es cs sub
    | some n => ∃ e' sub, DirAt es cs sub ∧ n = .dir e' (buildEntries (stack ++ cs) sub) ∧
        (cs = [] → e' = e) ∧ (cs ≠ [] → e'.path = if (stack ++ cs).length < 2 then ['/'] else join (stack ++ cs)) ∧
        (∀ sub', DirAt es cs sub' → sub' = sub)
  | [], stack, e, es, _ => by
    rw [resolveNode]
    refine ⟨e, es, .here es, by rw [List.append_nil], fun _ => rfl, fun h => absurd rfl h, ?_⟩
    intro sub' h
    cases h
    rfl
  | c :: cs, stack, e, es, hw => by
    rw [resolveNode]
    obtain ⟨h1, h2⟩ := find_dir stack c es
    cases hf : (buildEntries stack es).find? (isDirNamed c) with
    | none =>
      intro sub h
      cases h with
      | down hm _ => exact h2 hf _ _ _ hm
    | some x =>
      obtain ⟨l, m, sub, hm, hx⟩ := h1 x hf
      rw [buildEntry] at hx
      cases hx
      simp only
      obtain ⟨_, hws⟩ := wellNamed_dir _ hw hm
      have ih := resolve_spec cs (stack ++ [c]) (FileEntry.mk true c (some l)
        (if (stack ++ [c]).length < 2 then ['/'] else join (stack ++ [c])) 0 none (some m)) sub hws
      have hstep : ∀ r, DirAt es (c :: cs) r → DirAt sub cs r := by
        intro r h
        cases h with
        | down hm' h' =>
          obtain ⟨_, _, e3⟩ := wellNamed_unique es hw hm hm'
          rw [e3]; exact h'
      revert ih
      cases resolveNode cs (.dir _ (buildEntries (stack ++ [c]) sub)) with
      | none => exact fun ih r h => ih r (hstep r h)
      | some n =>
        rintro ⟨e', r, g1, g2, g3, g4, g5⟩
        refine ⟨e', r, .down hm g1, ?_, fun h => (List.cons_ne_nil _ _ h).elim, ?_, fun r' h => g5 r' (hstep r' h)⟩
        · rw [g2, List.append_assoc]; rfl
        · intro _
          by_cases hc : cs = []
          · rw [g3 hc, hc]
          · rw [g4 hc, List.append_assoc]; rfl

end Fox
