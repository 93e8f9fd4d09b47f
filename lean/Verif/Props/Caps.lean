import Verif.Spec.Caps
import Verif.Props.Analysis
/-
C109: the analysis of a disk.
-/
namespace Fox
open Fox.Spec Fox.Disk

theorem eraseDups_two (l : List Nat) : l.eraseDups.length > 1 ↔ ∃ a ∈ l, ∃ b ∈ l, a ≠ b := by
  cases l with
  | nil => simp
  | cons x rest =>
    rw [List.eraseDups_cons, List.length_cons]
    constructor
    · intro h
      have hne : (List.filter (fun b => !b == x) rest) ≠ [] := by
        intro h0
        rw [h0] at h
        simp at h
      obtain ⟨y, hy⟩ := List.exists_mem_of_ne_nil _ hne
      rw [List.mem_filter] at hy
      refine ⟨x, by simp, y, by simp [hy.1], fun h => ?_⟩
      rw [← h] at hy
      simp at hy
    · rintro ⟨a, ha, b, hb, hab⟩
      have : ∃ y ∈ rest, y ≠ x := by
        by_cases hax : a = x
        · rcases List.mem_cons.1 hb with h | h
          · exact absurd (hax.trans h.symm) hab
          · exact ⟨b, h, fun hbx => hab (hax.trans hbx.symm)⟩
        · rcases List.mem_cons.1 ha with h | h
          · exact absurd h hax
          · exact ⟨a, h, hax⟩
      obtain ⟨y, hy, hyx⟩ := this
      have hm : y ∈ List.filter (fun b => !b == x) rest := by
        rw [List.mem_filter]
        exact ⟨hy, by simpa using hyx⟩
      cases hf : List.filter (fun b => !b == x) rest with
      | nil => rw [hf] at hm; cases hm
      | cons z zs =>
        rw [List.eraseDups_cons]
        simp

theorem commonSize_none (ns : List Nat) : commonSize ns = none ↔ ∃ a ∈ ns, ∃ b ∈ ns, a ≠ b := by
  rw [← eraseDups_two]
  unfold commonSize
  split <;> simp [*]

/-- The analyses of the tracks of the disk that have one. -/
def told (debug : Bool) (pool : List DiskTrack) (l : List Nat) : List TrackAnalysis :=
  l.filterMap fun i => pool[i]?.bind fun t => (t.analysis debug).toOption

theorem tallyAll_fold (debug : Bool) (pool : List DiskTrack) : ∀ (l : List Nat) (a b : Tally),
    tallyAll debug pool l a = .ok b → b = (told debug pool l).foldl tally a
  | [], a, b, h => by cases h; rfl
  | i :: rest, a, b, h => by
    rw [tallyAll] at h
    unfold told
    rw [List.filterMap_cons]
    cases hp : pool[i]? with
    | none => simp only [hp] at h; cases h
    | some t =>
      simp only [hp, Option.bind_some] at h ⊢
      cases ha : t.analysis debug with
      | ok x =>
        simp only [ha] at h
        exact tallyAll_fold debug pool rest _ _ h
      | error e =>
        simp only [ha] at h
        cases e <;> first | (cases h; done) | exact tallyAll_fold debug pool rest _ _ h

theorem tally_all (a : Tally) (x : TrackAnalysis) :
    ((tally a x).all.deletedData = (a.all.deletedData || (decide (x.sectorCt > 0) && x.deletedData))) ∧
    ((tally a x).all.dataError = (a.all.dataError || (decide (x.sectorCt > 0) && x.dataError))) ∧
    ((tally a x).all.addressError = (a.all.addressError || (decide (x.sectorCt > 0) && x.addressError))) ∧
    ((tally a x).all.noDam = (a.all.noDam || (decide (x.sectorCt > 0) && x.noDam))) ∧
    ((tally a x).mixed = (a.mixed || x.sectorSize.isNone)) ∧
    ((tally a x).spt = (if x.sectorCt > 0 then [x.sectorCt] else []) ++ a.spt) ∧
    ((tally a x).all.sectorCt = if x.sectorCt > 0 then x.sectorCt else a.all.sectorCt) := by
  unfold tally TrackAnalysis.join
  by_cases hc : x.sectorCt > 0 <;> cases hs : x.sectorSize <;> simp [hc] <;> split <;> simp

theorem fold_any (p : Tally → Bool) (q : TrackAnalysis → Bool) (h : ∀ a x, p (tally a x) = (p a || q x)) :
    ∀ (l : List TrackAnalysis) (a : Tally), p (l.foldl tally a) = (p a || l.any q)
  | [], a => by simp
  | x :: l, a => by rw [List.foldl_cons, fold_any p q h l, h, List.any_cons, Bool.or_assoc]

theorem fold_spt : ∀ (l : List TrackAnalysis) (a : Tally) (n : Nat),
    n ∈ (l.foldl tally a).spt ↔ n ∈ a.spt ∨ (0 < n ∧ ∃ x ∈ l, x.sectorCt = n)
  | [], a, n => by simp
  | x :: l, a, n => by
    rw [List.foldl_cons, fold_spt l, (tally_all a x).2.2.2.2.2.1]
    by_cases hc : x.sectorCt > 0
    · simp only [if_pos hc, List.mem_append, List.mem_cons, exists_eq_or_imp]
      constructor
      · rintro (((h | h) | h) | h)
        · exact Or.inr ⟨by omega, Or.inl h.symm⟩
        · cases h
        · exact Or.inl h
        · exact Or.inr ⟨h.1, Or.inr h.2⟩
      · rintro (h | ⟨h0, h | h⟩)
        · exact Or.inl (Or.inr h)
        · exact Or.inl (Or.inl (Or.inl h.symm))
        · exact Or.inr ⟨h0, h⟩
    · simp only [if_neg hc, List.nil_append, List.mem_cons, exists_eq_or_imp]
      constructor
      · rintro (h | h)
        · exact Or.inl h
        · exact Or.inr ⟨h.1, Or.inr h.2⟩
      · rintro (h | ⟨h0, h | h⟩)
        · exact Or.inl h
        · omega
        · exact Or.inr ⟨h0, h⟩

/-- The analysis of a track says what is on it. -/
structure Says (t : DiskTrack) (x : TrackAnalysis) : Prop where
  ct : x.sectorCt = (idsOn t).length
  size : x.sectorSize = none ↔ ∃ a ∈ idsOn t, ∃ b ∈ idsOn t, a.n ≠ b.n
  deleted : x.deletedData = true ↔ Marked t .deleted
  dataCrc : x.dataError = true ↔ Marked t .dataCrc
  addressCrc : x.addressError = true ↔ Marked t .addressCrc
  missing : x.noDam = true ↔ Marked t .missing ∧ t.resolution ≠ .metaSector

theorem map_size (l : List Chsn) : commonSize (l.map (·.n)) = none ↔ ∃ a ∈ l, ∃ b ∈ l, a.n ≠ b.n := by
  rw [commonSize_none]
  simp

theorem bit_says (debug : Bool) (t : Track) (x : TrackAnalysis) (h : t.analysis debug = .ok x) :
    x.sectorCt = t.sectorIds.length ∧ (x.sectorSize = none ↔ ∃ a ∈ t.sectorIds, ∃ b ∈ t.sectorIds, a.n ≠ b.n) ∧
    (x.deletedData = true ↔ ∃ y ∈ t.items, bears y.elem .deleted = true) ∧
    (x.dataError = true ↔ ∃ y ∈ t.items, bears y.elem .dataCrc = true) ∧
    (x.addressError = true ↔ ∃ y ∈ t.items, bears y.elem .addressCrc = true) ∧
    (x.noDam = true ↔ ∃ y ∈ t.items, bears y.elem .missing = true) := by
  unfold Track.analysis at h
  cases hm : misnumbered debug 0 (t.sectorIds.map (·.s)) with
  | error e => rw [hm] at h; cases h
  | ok b =>
    rw [hm] at h
    cases h
    refine ⟨rfl, map_size _, ?_, ?_, ?_, ?_⟩ <;>
    · simp only [List.any_eq_true]
      constructor <;>
      · rintro ⟨y, hy, h⟩
        refine ⟨y, hy, ?_⟩
        revert h
        cases y.elem <;> simp [bears]

theorem track_says (debug : Bool) (t : DiskTrack) (x : TrackAnalysis) (h : t.analysis debug = .ok x) : Says t x ∧ Known t := by
  cases t with
  | bit c t =>
    unfold DiskTrack.analysis at h
    cases hs : t.schema with
    | none => simp only [hs] at h; cases h
    | some s =>
      simp only [hs] at h
      obtain ⟨h1, h2, h3, h4, h5, h6⟩ := bit_says debug t x h
      exact ⟨⟨h1, h2, h3, h4, h5, by simpa [DiskTrack.resolution, Marked] using h6⟩, by simp [Known, hs]⟩
  | flux c o =>
    cases o with
    | none => cases h
    | some t =>
      unfold DiskTrack.analysis at h
      cases hs : t.schema with
      | none => simp only [hs] at h; cases h
      | some s =>
        simp only [hs] at h
        obtain ⟨h1, h2, h3, h4, h5, h6⟩ := bit_says debug t x h
        exact ⟨⟨h1, h2, h3, h4, h5, by simpa [DiskTrack.resolution, Marked] using h6⟩, by simp [Known, hs]⟩
  | sect t =>
    replace h : t.analysis debug = .ok x := h
    unfold MetaTrack.analysis at h
    cases hm : misnumbered debug 0 (t.sectors.map (·.id.s)) with
    | error e => rw [hm] at h; cases h
    | ok b =>
      rw [hm] at h
      cases h
      refine ⟨⟨by simp [idsOn], ?_, ?_, ?_, ?_, by simp [DiskTrack.resolution]⟩, True.intro⟩
      · have := map_size (t.sectors.map (·.id))
        rw [List.map_map] at this
        exact this
      all_goals simp [Marked, sectorBears]
  | other c =>
    cases h
    exact ⟨⟨rfl, by simp [idsOn], by simp [Marked], by simp [Marked], by simp [Marked], by simp [Marked]⟩, True.intro⟩

theorem told_iff (debug : Bool) (d : Disk) (x : TrackAnalysis) :
    x ∈ told debug d.pool d.trackIdx ↔ ∃ t, Listed d t ∧ t.analysis debug = .ok x := by
  unfold told
  rw [List.mem_filterMap]
  constructor
  · rintro ⟨i, hi, h⟩
    obtain ⟨t, ht, hx⟩ := Option.bind_eq_some_iff.1 h
    refine ⟨t, ⟨i, (mem_trackIdx d i).1 hi, ht⟩, ?_⟩
    cases ha : t.analysis debug with
    | error e => rw [ha] at hx; cases hx
    | ok y => rw [ha] at hx; cases hx; rfl
  · rintro ⟨t, ⟨i, hi, ht⟩, hx⟩
    exact ⟨i, (mem_trackIdx d i).2 hi, by rw [ht, Option.bind_some, hx]; rfl⟩

theorem tallyAll_fine (debug : Bool) (pool : List DiskTrack) : ∀ (l : List Nat) (a b : Tally),
    tallyAll debug pool l a = .ok b → ∀ i ∈ l, ∀ t, pool[i]? = some t → t.analysis debug ≠ .error .panic
  | [], _, _, _, i, hi, _, _ => by cases hi
  | j :: rest, a, b, h, i, hi, t, ht => by
    rw [tallyAll] at h
    rcases List.mem_cons.1 hi with rfl | hi
    · intro hp
      simp only [ht, hp] at h
      cases h
    · cases hp : pool[j]? with
      | none => simp only [hp] at h; cases h
      | some u =>
        simp only [hp] at h
        cases ha : u.analysis debug with
        | ok x => simp only [ha] at h; exact tallyAll_fine debug pool rest _ _ h i hi t ht
        | error e =>
          simp only [ha] at h
          cases e <;> first | (cases h; done) | exact tallyAll_fine debug pool rest _ _ h i hi t ht

theorem analysis_known (debug : Bool) (t : DiskTrack) (hk : Known t) (hp : t.analysis debug ≠ .error .panic) :
    ∃ x, t.analysis debug = .ok x := by
  have aux : ∀ (l : List Nat) (i : Nat), misnumbered debug i l = .error .panic ∨ ∃ b, misnumbered debug i l = .ok b := by
    intro l
    induction l with
    | nil => intro i; exact Or.inr ⟨false, rfl⟩
    | cons s rest ih =>
      intro i
      rw [misnumbered]
      split
      · exact Or.inl rfl
      · rcases ih (i + 1) with h | ⟨b, h⟩ <;> rw [h]
        · exact Or.inl rfl
        · exact Or.inr ⟨_, rfl⟩
  have bits : ∀ t : Track, t.analysis debug ≠ .error .panic → ∃ x, t.analysis debug = .ok x := by
    intro t hp
    unfold Track.analysis at hp ⊢
    rcases aux (t.sectorIds.map (·.s)) 0 with h | ⟨b, h⟩ <;> rw [h] at hp ⊢
    · exact absurd rfl hp
    · exact ⟨_, rfl⟩
  cases t with
  | bit c t =>
    unfold DiskTrack.analysis at hp ⊢
    cases hs : t.schema with
    | none => exact absurd hs hk
    | some s => simp only [hs] at hp ⊢; exact bits t hp
  | flux c o =>
    cases o with
    | none => exact hk.elim
    | some t =>
      unfold DiskTrack.analysis at hp ⊢
      cases hs : t.schema with
      | none => exact absurd hs hk
      | some s => simp only [hs] at hp ⊢; exact bits t hp
  | sect t =>
    replace hp : t.analysis debug ≠ .error .panic := hp
    show ∃ x, t.analysis debug = .ok x
    unfold MetaTrack.analysis at hp ⊢
    rcases aux (t.sectors.map (·.id.s)) 0 with h | ⟨b, h⟩ <;> rw [h] at hp ⊢
    · exact absurd rfl hp
    · exact ⟨_, rfl⟩
  | other c => exact ⟨_, rfl⟩

theorem contains_bit (r : Caps) (i : Nat) (hi : i < 32) : r.contains (BitVec.twoPow 32 i) = r.getLsbD i := by
  unfold Caps.contains
  rw [BitVec.and_twoPow]
  cases h : r.getLsbD i
  · have : (0#32 : Caps) ≠ BitVec.twoPow 32 i := by
      intro h0
      have := congrArg (fun (b : BitVec 32) => b.getLsbD i) h0
      simp [BitVec.getLsbD_twoPow, hi] at this
    simp [this.symm, this]
  · simp

theorem set_bit (c f : Caps) (on : Bool) (i : Nat) :
    (c.set f on).getLsbD i = if f.getLsbD i then on else c.getLsbD i := by
  unfold Caps.set
  by_cases hi : i < 32
  · cases on
    · simp only [Bool.false_eq_true, if_false, BitVec.getLsbD_and, BitVec.getLsbD_not, hi, decide_true, Bool.true_and]
      cases f.getLsbD i <;> simp
    · simp only [if_true, BitVec.getLsbD_or]
      cases f.getLsbD i <;> simp
  · have e : ∀ b : BitVec 32, b.getLsbD i = false := fun b => BitVec.getLsbD_of_ge b i (by omega)
    rw [e f, e c]
    exact e _

theorem set_outside (c f D : Caps) (on : Bool) (h : f &&& ~~~D = 0#32) : (c.set f on) &&& ~~~D = c &&& ~~~D := by
  apply BitVec.eq_of_getLsbD_eq
  intro i hi
  have := congrArg (fun (b : BitVec 32) => b.getLsbD i) h
  simp only [BitVec.getLsbD_and, BitVec.getLsbD_not, BitVec.getLsbD_zero, hi, decide_true, Bool.true_and] at this
  rw [BitVec.getLsbD_and, BitVec.getLsbD_and, set_bit]
  simp only [BitVec.getLsbD_not, hi, decide_true, Bool.true_and]
  cases hf : f.getLsbD i
  · simp
  · rw [hf] at this
    simp only [Bool.true_and] at this
    rw [this]
    simp

/-- The six flags of `conclude`. -/
theorem flags_set (c : Caps) (b1 b2 b3 b4 b5 b6 : Bool) (r : Caps)
    (hr : r = ((((((c.set .variableSpt b1).set .variableSspt b2).set .dataCrc b3).set .addressCrc b4).set .dataDeleted b5).set .noDam b6)) :
    r.contains .variableSpt = b1 ∧ r.contains .variableSspt = b2 ∧ r.contains .dataCrc = b3 ∧ r.contains .addressCrc = b4 ∧
    r.contains .dataDeleted = b5 ∧ r.contains .noDam = b6 ∧ r &&& ~~~decided = c &&& ~~~decided := by
  have e1 : Caps.variableSpt = BitVec.twoPow 32 0 := by decide
  have e2 : Caps.variableSspt = BitVec.twoPow 32 1 := by decide
  have e3 : Caps.addressCrc = BitVec.twoPow 32 2 := by decide
  have e4 : Caps.dataCrc = BitVec.twoPow 32 3 := by decide
  have e5 : Caps.dataDeleted = BitVec.twoPow 32 4 := by decide
  have e6 : Caps.noDam = BitVec.twoPow 32 14 := by decide
  refine ⟨?_, ?_, ?_, ?_, ?_, ?_, ?_⟩
  · rw [e1, contains_bit _ _ (by decide), hr]; simp only [set_bit]; rfl
  · rw [e2, contains_bit _ _ (by decide), hr]; simp only [set_bit]; rfl
  · rw [e4, contains_bit _ _ (by decide), hr]; simp only [set_bit]; rfl
  · rw [e3, contains_bit _ _ (by decide), hr]; simp only [set_bit]; rfl
  · rw [e5, contains_bit _ _ (by decide), hr]; simp only [set_bit]; rfl
  · rw [e6, contains_bit _ _ (by decide), hr]; simp only [set_bit]; rfl
  · rw [hr, set_outside _ _ _ _ (by decide), set_outside _ _ _ _ (by decide), set_outside _ _ _ _ (by decide),
      set_outside _ _ _ _ (by decide), set_outside _ _ _ _ (by decide), set_outside _ _ _ _ (by decide)]


theorem set_flags_bool {a b : Bool} (h : a = b) (P : Prop) (hb : b = true ↔ P) : a = true ↔ P := by rw [h]; exact hb

/-- What an analysis of a disk is made of. -/
theorem analysis_parts (debug : Bool) (prior : DiskAnalysis) (d : Disk) (a : DiskAnalysis) (h : d.analysis debug prior = .ok a) :
    a = conclude prior ((told debug d.pool d.trackIdx).foldl tally {}) ∧
    (∀ t, Listed d t → Known t → ∃ x, x ∈ told debug d.pool d.trackIdx ∧ Says t x) ∧
    (∀ x ∈ told debug d.pool d.trackIdx, ∃ t, Listed d t ∧ Known t ∧ Says t x) := by
  unfold Disk.analysis at h
  cases ht : tallyAll debug d.pool d.trackIdx {} with
  | error e => rw [ht] at h; cases h
  | ok b =>
    rw [ht] at h
    cases h
    refine ⟨by rw [← tallyAll_fold debug d.pool _ _ _ ht], ?_, ?_⟩
    · rintro t ⟨i, hi, hp⟩ hk
      obtain ⟨x, hx⟩ := analysis_known debug t hk (tallyAll_fine debug d.pool _ _ _ ht i ((mem_trackIdx d i).2 hi) t hp)
      exact ⟨x, (told_iff debug d x).2 ⟨t, ⟨i, hi, hp⟩, hx⟩, (track_says debug t x hx).1⟩
    · intro x hx
      obtain ⟨t, hl, hx⟩ := (told_iff debug d x).1 hx
      exact ⟨t, hl, (track_says debug t x hx).2, (track_says debug t x hx).1⟩

/-- **C109 (partial).** After an analysis (of a disk just loaded, or of one a track of which was just formatted) the required capabilities
say, for every disk: "deleted data", "data CRC" and "address CRC" exactly if some sector is so marked; "variable sectors per track" exactly
if two tracks with sectors have different numbers of them; "variable sector size" exactly if some *track* has sectors of two sizes; "no
data mark" exactly if a sector without data is on a track that is not a mere list of sectors.  The other nine flags stay.
Missing: sizes that differ between tracks (`C109_false_sizes`), sectors without data in lists (`C109_false_missing`), weak bits
(`C109_false_weak`), and changes after the analysis (`C109_false_stale`). -/
theorem C109_caps_partial (debug : Bool) (prior : DiskAnalysis) (d : Disk) (a : DiskAnalysis) (h : d.analysis debug prior = .ok a) :
    (a.caps.contains .dataDeleted = true ↔ OnDisk d .deleted) ∧ (a.caps.contains .dataCrc = true ↔ OnDisk d .dataCrc) ∧
    (a.caps.contains .addressCrc = true ↔ OnDisk d .addressCrc) ∧ (a.caps.contains .variableSpt = true ↔ CountsDiffer d) ∧
    (a.caps.contains .variableSspt = true ↔ SizesDifferOnTrack d) ∧
    (a.caps.contains .noDam = true ↔ ∃ t, Carries d t ∧ Marked t .missing ∧ t.resolution ≠ .metaSector) ∧
    a.caps &&& ~~~decided = prior.caps &&& ~~~decided := by
  obtain ⟨ha, hto, hfrom⟩ := analysis_parts debug prior d a h
  generalize told debug d.pool d.trackIdx = xs at ha hto hfrom
  obtain ⟨f1, f2, f3, f4, f5, f6, f7⟩ := flags_set prior.caps _ _ _ _ _ _ a.caps (by rw [ha]; rfl)
  have any_iff : ∀ (p : TrackAnalysis → Bool) (Q : DiskTrack → Prop), (∀ t x, Says t x → (p x = true ↔ Q t)) →
      (xs.any (fun x => decide (x.sectorCt > 0) && p x) = true ↔ ∃ t, Carries d t ∧ Q t) := by
    intro p Q hpq
    rw [List.any_eq_true]
    constructor
    · rintro ⟨x, hx, hp⟩
      obtain ⟨t, hl, hk, hs⟩ := hfrom x hx
      rw [Bool.and_eq_true, decide_eq_true_iff] at hp
      refine ⟨t, ⟨hl, hk, fun h0 => ?_⟩, (hpq t x hs).1 hp.2⟩
      have := hs.ct
      rw [h0] at this
      simp at this
      omega
    · rintro ⟨t, ⟨hl, hk, hne⟩, hq⟩
      obtain ⟨x, hx, hs⟩ := hto t hl hk
      refine ⟨x, hx, ?_⟩
      rw [Bool.and_eq_true, decide_eq_true_iff]
      exact ⟨by rw [hs.ct]; exact List.length_pos_iff.2 hne, (hpq t x hs).2 hq⟩
  refine ⟨?_, ?_, ?_, ?_, ?_, ?_, f7⟩
  · rw [f5, fold_any (fun a => a.all.deletedData) _ (fun a x => (tally_all a x).1)]
    exact any_iff _ _ fun t x hs => hs.deleted
  · rw [f3, fold_any (fun a => a.all.dataError) _ (fun a x => (tally_all a x).2.1)]
    exact any_iff _ _ fun t x hs => hs.dataCrc
  · rw [f4, fold_any (fun a => a.all.addressError) _ (fun a x => (tally_all a x).2.2.1)]
    exact any_iff _ _ fun t x hs => hs.addressCrc
  · rw [f1]
    generalize hb : xs.foldl tally {} = b
    have hspt := fold_spt xs {}
    rw [hb] at hspt
    have : (∃ m ∈ b.spt, ∃ n ∈ b.spt, m ≠ n) ↔ CountsDiffer d := by
      constructor
      · rintro ⟨m, hm, n, hn, hmn⟩
        rcases (hspt m).1 hm with h | ⟨hm0, x, hx, hxm⟩
        · cases h
        rcases (hspt n).1 hn with h | ⟨hn0, y, hy, hyn⟩
        · cases h
        obtain ⟨t, hl, hk, hs⟩ := hfrom x hx
        obtain ⟨t', hl', hk', hs'⟩ := hfrom y hy
        have h1 := hs.ct
        have h2 := hs'.ct
        exact ⟨t, t', ⟨hl, hk, List.length_pos_iff.1 (by omega)⟩, ⟨hl', hk', List.length_pos_iff.1 (by omega)⟩, by omega⟩
      · rintro ⟨t, t', ⟨hl, hk, hne⟩, ⟨hl', hk', hne'⟩, hd⟩
        obtain ⟨x, hx, hs⟩ := hto t hl hk
        obtain ⟨y, hy, hs'⟩ := hto t' hl' hk'
        have h1 := hs.ct
        have h2 := hs'.ct
        have p1 := List.length_pos_iff.2 hne
        have p2 := List.length_pos_iff.2 hne'
        exact ⟨_, (hspt _).2 (Or.inr ⟨p1, x, hx, h1⟩), _, (hspt _).2 (Or.inr ⟨p2, y, hy, h2⟩), hd⟩
    rw [← this, ← eraseDups_two]
    split <;> simp [*]
  · rw [f2]
    have hmix := fold_any (fun a => a.mixed) _ (fun a x => (tally_all a x).2.2.2.2.1) xs {}
    generalize hb : xs.foldl tally {} = b at hmix ⊢
    replace hmix : b.mixed = xs.any fun x => x.sectorSize.isNone := hmix
    have : xs.any (fun x => x.sectorSize.isNone) = true ↔ SizesDifferOnTrack d := by
      rw [List.any_eq_true]
      constructor
      · rintro ⟨x, hx, hn⟩
        obtain ⟨t, hl, hk, hs⟩ := hfrom x hx
        obtain ⟨i, hi, j, hj, hij⟩ := hs.size.1 (Option.isNone_iff_eq_none.1 hn)
        exact ⟨t, ⟨hl, hk, List.ne_nil_of_mem hi⟩, i, hi, j, hj, hij⟩
      · rintro ⟨t, ⟨hl, hk, _⟩, i, hi, j, hj, hij⟩
        obtain ⟨x, hx, hs⟩ := hto t hl hk
        exact ⟨x, hx, Option.isNone_iff_eq_none.2 (hs.size.2 ⟨i, hi, j, hj, hij⟩)⟩
    rw [← this, ← hmix]
    cases b.mixed <;> simp
  · rw [f6, fold_any (fun a => a.all.noDam) _ (fun a x => (tally_all a x).2.2.2.1)]
    exact any_iff _ _ fun t x hs => hs.missing

theorem fold_ct : ∀ (l : List TrackAnalysis) (a : Tally), ((l.foldl tally a).all.sectorCt = a.all.sectorCt ∧ (l.foldl tally a).spt = a.spt) ∨
    (l.foldl tally a).all.sectorCt ∈ (l.foldl tally a).spt
  | [], a => Or.inl ⟨rfl, rfl⟩
  | x :: l, a => by
    rw [List.foldl_cons]
    rcases fold_ct l (tally a x) with ⟨h, h'⟩ | h
    · rw [h, h', (tally_all a x).2.2.2.2.2.2, (tally_all a x).2.2.2.2.2.1]
      by_cases hc : x.sectorCt > 0
      · right
        simp [hc]
      · left
        simp [hc]
    · exact Or.inr h

/-- The count of a track, if its layout is known. -/
theorem count_known (t : DiskTrack) (n : Nat) : t.analysisCt = some n ↔ Known t ∧ (idsOn t).length = n := by
  cases t with
  | bit c t => cases hs : t.schema <;> simp [DiskTrack.analysisCt, Known, idsOn, hs]
  | sect t => simp [DiskTrack.analysisCt, Known, idsOn]
  | flux c o =>
    cases o with
    | none => simp [DiskTrack.analysisCt, Known]
    | some t => cases hs : t.schema <;> simp [DiskTrack.analysisCt, Known, idsOn, hs]
  | other c => simp [DiskTrack.analysisCt, Known, idsOn]

/-- **C109.** The figure for the sectors per track is the one of C44, and the four yes-no findings are the four flags. -/
theorem C109_findings (debug : Bool) (prior : DiskAnalysis) (d : Disk) (a : DiskAnalysis) (h : d.analysis debug prior = .ok a) :
    CountsAs d a.trackLength ∧ (a.trackLength = none ↔ CountsDiffer d) ∧ (a.deletedData = true ↔ OnDisk d .deleted) ∧
    (a.dataError = true ↔ OnDisk d .dataCrc) ∧ (a.addressError = true ↔ OnDisk d .addressCrc) ∧
    (a.noDam = a.caps.contains .noDam) := by
  obtain ⟨c1, c2, c3, c4, c5, c6, -⟩ := C109_caps_partial debug prior d a h
  obtain ⟨ha, hto, hfrom⟩ := analysis_parts debug prior d a h
  generalize told debug d.pool d.trackIdx = xs at ha hto hfrom
  obtain ⟨f1, f2, f3, f4, f5, f6, f7⟩ := flags_set prior.caps _ _ _ _ _ _ a.caps (by rw [ha]; rfl)
  have hn : a.trackLength = none ↔ CountsDiffer d := by
    rw [← c4, f1, ha]
    exact Option.isNone_iff_eq_none.symm
  refine ⟨?_, hn, ?_, ?_, ?_, ?_⟩
  · have hlen : a.trackLength = if (xs.foldl tally {}).spt.eraseDups.length > 1 then none else some (xs.foldl tally {}).all.sectorCt := by
      rw [ha]; rfl
    have hspt := fold_spt xs {}
    have hct := fold_ct xs {}
    generalize xs.foldl tally {} = b at hlen hspt hct
    by_cases hd : b.spt.eraseDups.length > 1
    · rw [if_pos hd] at hlen
      obtain ⟨t, t', ⟨hl, hk, hne⟩, ⟨hl', hk', hne'⟩, hd⟩ := hn.1 hlen
      rw [hlen]
      exact ⟨t, t', _, _, hl, hl', (count_known t _).2 ⟨hk, rfl⟩, (count_known t' _).2 ⟨hk', rfl⟩, List.length_pos_iff.2 hne,
        List.length_pos_iff.2 hne', hd⟩
    · rw [if_neg hd] at hlen
      have huniq : ∀ t m, Listed d t → t.analysisCt = some m → m = 0 ∨ m ∈ b.spt := by
        intro t m hl hm
        obtain ⟨hk, hm⟩ := (count_known t m).1 hm
        obtain ⟨x, hx, hs⟩ := hto t hl hk
        by_cases h0 : m = 0
        · exact Or.inl h0
        · exact Or.inr ((hspt m).2 (Or.inr ⟨by omega, x, hx, by rw [hs.ct, hm]⟩))
      have hsame : ∀ m ∈ b.spt, m = b.all.sectorCt := by
        intro m hm
        rcases hct with ⟨-, h⟩ | h
        · rw [h] at hm
          cases hm
        · exact Classical.byContradiction fun hne => hd ((eraseDups_two _).2 ⟨m, hm, _, h, hne⟩)
      rw [hlen]
      rcases hct with ⟨h0, h1⟩ | h
      · replace h0 : b.all.sectorCt = 0 := h0
        rw [h0]
        intro t n hl ht
        rcases huniq t n hl ht with h | h
        · exact h
        · rw [h1] at h; cases h
      · obtain ⟨hpos, x, hx, hxc⟩ := ((hspt _).1 h).resolve_left (by simp)
        obtain ⟨t, hl, hk, hs⟩ := hfrom x hx
        cases hc : b.all.sectorCt with
        | zero => omega
        | succ k =>
          refine ⟨⟨t, hl, (count_known t _).2 ⟨hk, ?_⟩⟩, fun t' m hl' hm => ?_⟩
          · rw [← hs.ct, hxc, hc]
          · rcases huniq t' m hl' hm with h | h
            · exact Or.inl h
            · right
              rw [hsame m h, hc]
  · rw [← c1, f5, ha]; rfl
  · rw [← c2, f3, ha]; rfl
  · rw [← c3, f4, ha]; rfl
  · rw [f6, ha]; rfl

/-! ### Where it fails -/

/-- **C109 fails** for sectors of two sizes on two tracks: whenever no single track has two sizes, "variable sector size" is not among the
required capabilities, and a common sector size is given. -/
theorem C109_false_sizes (debug : Bool) (prior : DiskAnalysis) (d : Disk) (a : DiskAnalysis) (h : d.analysis debug prior = .ok a)
    (h1 : ¬ SizesDifferOnTrack d) : a.caps.contains .variableSspt = false ∧ a.sectorSize ≠ none := by
  obtain ⟨-, -, -, -, c5, -, -⟩ := C109_caps_partial debug prior d a h
  have hf : a.caps.contains .variableSspt = false := by
    cases hc : a.caps.contains .variableSspt with
    | false => rfl
    | true => exact absurd (c5.1 hc) h1
  refine ⟨hf, ?_⟩
  obtain ⟨ha, -, -⟩ := analysis_parts debug prior d a h
  generalize told debug d.pool d.trackIdx = xs at ha
  obtain ⟨-, f2, -⟩ := flags_set prior.caps _ _ _ _ _ _ a.caps (by rw [ha]; rfl)
  rw [hf] at f2
  intro h0
  rw [ha] at h0
  replace h0 := Option.isNone_iff_eq_none.2 h0
  replace h0 : Option.isNone (if (xs.foldl tally {}).mixed then none else some (xs.foldl tally {}).last) = true := h0
  rw [h0] at f2
  cases f2

/-- A sector of 0s. -/
def plainSector (c s n : Nat) : MetaSector :=
  { id := ⟨c, 0, s, n⟩, data := List.replicate (128 * 2 ^ n) 0#8, weak := .empty (128 * 2 ^ n), hole := .empty (128 * 2 ^ n) }

/-- Two tracks, one with a sector of 512 bytes and one with a sector of 256. -/
def twoSizes : Disk :=
  { res := { sect := true }, pool := [.sect ⟨⟨0, 0⟩, [plainSector 0 1 2]⟩, .sect ⟨⟨1, 0⟩, [plainSector 1 1 1]⟩], map0 := [0, 1],
    geometry := ⟨2, 1⟩ }

theorem ids_plain (ch : Ch) (c s n : Nat) : idsOn (.sect ⟨ch, [plainSector c s n]⟩) = [⟨c, 0, s, n⟩] := rfl

theorem twoSizes_differ : SizesDiffer twoSizes ∧ ¬ SizesDifferOnTrack twoSizes := by
  refine ⟨⟨.sect ⟨⟨0, 0⟩, [plainSector 0 1 2]⟩, .sect ⟨⟨1, 0⟩, [plainSector 1 1 1]⟩, ⟨⟨0, by decide, rfl⟩, True.intro, ?_⟩,
    ⟨⟨1, by decide, rfl⟩, True.intro, ?_⟩, ⟨0, 0, 1, 2⟩, ?_, ⟨1, 0, 1, 1⟩, ?_, by decide⟩, ?_⟩
  · rw [ids_plain]; exact List.cons_ne_nil _ _
  · rw [ids_plain]; exact List.cons_ne_nil _ _
  · rw [ids_plain]; exact List.mem_singleton.2 rfl
  · rw [ids_plain]; exact List.mem_singleton.2 rfl
  · rintro ⟨t, ⟨⟨i, hi, hp⟩, -, -⟩, x, hx, y, hy, hxy⟩
    replace hi : i ∈ [0, 1] := hi
    rcases List.mem_cons.1 hi with rfl | hi
    · cases (show some (DiskTrack.sect ⟨⟨0, 0⟩, [plainSector 0 1 2]⟩) = some t from hp)
      rw [ids_plain] at hx hy
      rw [List.mem_singleton.1 hx, List.mem_singleton.1 hy] at hxy
      exact hxy rfl
    · rw [List.mem_singleton.1 hi] at hp
      cases (show some (DiskTrack.sect ⟨⟨1, 0⟩, [plainSector 1 1 1]⟩) = some t from hp)
      rw [ids_plain] at hx hy
      rw [List.mem_singleton.1 hx, List.mem_singleton.1 hy] at hxy
      exact hxy rfl

example (debug : Bool) : ∃ a, twoSizes.analysis debug {} = .ok a ∧ a.caps = 0#32 ∧ a.sectorSize = some 1 := by
  cases debug <;> exact ⟨_, rfl, by decide, by decide⟩

/-- **C109 fails** for sectors without data on tracks that are lists of sectors: on a disk of such tracks "no data mark" is never among
the required capabilities. -/
theorem C109_false_missing (debug : Bool) (prior : DiskAnalysis) (d : Disk) (a : DiskAnalysis) (h : d.analysis debug prior = .ok a)
    (hs : ∀ t, Listed d t → t.resolution = .metaSector) : a.caps.contains .noDam = false := by
  obtain ⟨-, -, -, -, -, c6, -⟩ := C109_caps_partial debug prior d a h
  cases hc : a.caps.contains .noDam with
  | false => rfl
  | true =>
    obtain ⟨t, ⟨hl, _⟩, -, hr⟩ := c6.1 hc
    exact absurd (hs t hl) hr

/-- A track with a sector the data of which are missing. -/
def noData : Disk :=
  { res := { sect := true }, pool := [.sect ⟨⟨0, 0⟩, [{ plainSector 0 1 2 with noDam := true }]⟩], map0 := [0], geometry := ⟨1, 1⟩ }

example (debug : Bool) : OnDisk noData .missing ∧ ∃ a, noData.analysis debug {} = .ok a ∧ a.caps = 0#32 := by
  refine ⟨⟨_, ⟨⟨0, by decide, rfl⟩, True.intro, by simp [idsOn]⟩, _, List.mem_singleton.2 rfl, rfl⟩, ?_⟩
  cases debug <;> exact ⟨_, rfl, by decide⟩

/-- **C109 fails** for weak bits: whatever the tracks, the analysis of a fresh image never asks for them. -/
theorem C109_false_weak (debug : Bool) (d : Disk) (a : DiskAnalysis) (h : d.analysis debug {} = .ok a) :
    a.caps.contains .weakBits = false := by
  obtain ⟨-, -, -, -, -, -, c7⟩ := C109_caps_partial debug {} d a h
  have hz : a.caps &&& ~~~decided = 0#32 := by rw [c7]; decide
  rw [show Caps.weakBits = BitVec.twoPow 32 9 by decide, contains_bit _ _ (by decide)]
  have := congrArg (fun (b : BitVec 32) => b.getLsbD 9) hz
  simp only [BitVec.getLsbD_and] at this
  rw [show (~~~decided).getLsbD 9 = true by decide] at this
  simpa using this

/-- **C109 fails** after a write: writing a sector leaves the required capabilities and findings as they were. -/
theorem C109_false_stale (m : Image) (ch : Ch) (q : Query) (off : Option Nat) (buf : List Byte) (deleted debug : Bool) :
    (m.writeSector ch q off buf deleted debug).1.found = m.found := rfl

/-- One good sector. -/
def oneGood : Disk :=
  { res := { sect := true }, pool := [.sect ⟨⟨0, 0⟩, [plainSector 0 1 0]⟩], map0 := [0], geometry := ⟨1, 1⟩ }

set_option maxRecDepth 20000 in
/-- Writing it as deleted data: the disk has deleted data then, and the image says it has not. -/
example : ∃ m r, Image.writeSector ⟨oneGood, {}⟩ ⟨0, 0⟩ ⟨none, none, 1, none⟩ none (List.replicate 128 1#8) true false = (m, .ok r) ∧
    OnDisk m.disk .deleted ∧ m.found.caps = 0#32 := by
  refine ⟨_, _, rfl, ?_, rfl⟩
  exact ⟨_, ⟨⟨0, by decide, rfl⟩, True.intro, by simp [idsOn]⟩, _, List.mem_cons_self, rfl⟩

/-! ### Whether it comes to an end -/

theorem misnumbered_ok (debug : Bool) : ∀ (l : List Nat) (i : Nat), i + l.length ≤ 255 ∨ debug = false → ∃ b, misnumbered debug i l = .ok b
  | [], _, _ => ⟨_, rfl⟩
  | s :: rest, i, h => by
    rw [misnumbered, if_neg (by
      rintro ⟨h1, h2⟩
      rcases h with h | h
      · simp only [List.length_cons] at h; omega
      · rw [h] at h1; cases h1)]
    obtain ⟨b, hb⟩ := misnumbered_ok debug rest (i + 1) (by
      rcases h with h | h
      · left; simp only [List.length_cons] at h; omega
      · exact Or.inr h)
    rw [hb]
    exact ⟨_, rfl⟩

theorem misnumbered_panic : ∀ (l : List Nat) (i : Nat), i ≤ 255 → 255 < i + l.length → misnumbered true i l = .error .panic
  | [], i, h, h' => by simp at h'; omega
  | s :: rest, i, h, h' => by
    rw [misnumbered]
    by_cases hi : i = 255
    · rw [if_pos ⟨rfl, by omega⟩]
    · rw [if_neg (by rintro ⟨_, h2⟩; omega), misnumbered_panic rest (i + 1) (by omega) (by simp only [List.length_cons] at h'; omega)]
      rfl

theorem analysis_fine (debug : Bool) (t : DiskTrack) (h : (idsOn t).length ≤ 255 ∨ debug = false) : t.analysis debug ≠ .error .panic := by
  have bits : ∀ t : Track, (t.sectorIds.length ≤ 255 ∨ debug = false) → t.analysis debug ≠ .error .panic := by
    intro t h
    unfold Track.analysis
    obtain ⟨b, hb⟩ := misnumbered_ok debug (t.sectorIds.map (·.s)) 0 (by simpa using h)
    rw [hb]
    exact fun h => by cases h
  cases t with
  | bit c t =>
    unfold DiskTrack.analysis
    cases hs : t.schema with
    | none => simp only [hs]; exact fun h => by cases h
    | some s => simp only [hs]; exact bits t h
  | flux c o =>
    cases o with
    | none => exact fun h => by cases h
    | some t =>
      unfold DiskTrack.analysis
      cases hs : t.schema with
      | none => simp only [hs]; exact fun h => by cases h
      | some s => simp only [hs]; exact bits t h
  | sect t =>
    show t.analysis debug ≠ .error .panic
    unfold MetaTrack.analysis
    obtain ⟨b, hb⟩ := misnumbered_ok debug (t.sectors.map (·.id.s)) 0 (by simpa [idsOn] using h)
    rw [hb]
    exact fun h => by cases h
  | other c => exact fun h => by cases h

/-- **C109 (partial).** On every disk the tables of which name existing tracks the analysis succeeds, if no track has more than 255 sectors
or overflow is not checked.  Missing: `C109_false_many`. -/
theorem C109_total_partial (debug : Bool) (prior : DiskAnalysis) (d : Disk) (hl : ∀ i ∈ d.map0 ++ d.map1, i < d.pool.length)
    (h : debug = false ∨ ∀ t, Listed d t → (idsOn t).length ≤ 255) : ∃ a, d.analysis debug prior = .ok a := by
  have key : ∀ (l : List Nat) (b : Tally), (∀ i ∈ l, i ∈ d.map0 ++ d.map1) → ∃ r, tallyAll debug d.pool l b = .ok r := by
    intro l
    induction l with
    | nil => intro b _; exact ⟨b, rfl⟩
    | cons i rest ih =>
      intro b hm
      have hi := hl i (hm i (by simp))
      rw [tallyAll]
      have hp := List.getElem?_eq_getElem hi
      have hf := analysis_fine debug (d.pool[i]) (h.symm.imp (fun h => h _ ⟨i, hm i (by simp), hp⟩) id)
      simp only [hp]
      cases ha : (d.pool[i]).analysis debug with
      | ok x => exact ih _ fun j hj => hm j (by simp [hj])
      | error e =>
        cases e <;> first | exact absurd ha hf | exact ih _ fun j hj => hm j (by simp [hj])
  obtain ⟨r, hr⟩ := key d.trackIdx {} fun i hi => (mem_trackIdx d i).1 hi
  unfold Disk.analysis
  rw [hr]
  exact ⟨_, rfl⟩

/-- **C109 fails** for tracks with 256 sectors or more: if overflow is checked, the analysis of any disk with such a list of sectors
panics. -/
theorem C109_false_many (prior : DiskAnalysis) (d : Disk) (t : MetaTrack) (ht : Listed d (.sect t)) (h : 256 ≤ t.sectors.length) :
    ∀ a, d.analysis true prior ≠ .ok a := by
  intro a ha
  unfold Disk.analysis at ha
  cases hb : tallyAll true d.pool d.trackIdx {} with
  | error e => rw [hb] at ha; cases ha
  | ok b =>
    obtain ⟨i, hi, hp⟩ := ht
    refine tallyAll_fine true d.pool _ _ _ hb i ((mem_trackIdx d i).2 hi) _ hp ?_
    show t.analysis true = .error .panic
    unfold MetaTrack.analysis
    rw [misnumbered_panic _ 0 (by omega) (by simpa using by omega)]
    rfl

example : Listed { pool := [.sect ⟨⟨0, 0⟩, List.replicate 256 (plainSector 0 1 0)⟩], map0 := [0] }
    (.sect ⟨⟨0, 0⟩, List.replicate 256 (plainSector 0 1 0)⟩) := ⟨0, by decide, rfl⟩

theorem postLoad_tracks (H : List Byte → Nat) (nz : Noise) (d d' : Disk) (h : d.postLoad H nz = .ok d') :
    d'.pool = (d.normalize H nz).pool ∧ d'.map0 = (d.normalize H nz).map0 ∧ d'.map1 = (d.normalize H nz).map1 ∧
    d'.res = (d.normalize H nz).res := by
  unfold Disk.postLoad at h
  generalize d.normalize H nz = N at h
  have fin : ∀ x : Disk, (Disk.examineBoot.finish x).pool = x.pool ∧ (Disk.examineBoot.finish x).map0 = x.map0 ∧
      (Disk.examineBoot.finish x).map1 = x.map1 ∧ (Disk.examineBoot.finish x).res = x.res := by
    intro x
    obtain ⟨s, e, -⟩ := finish_keeps x
    rw [e]
    exact ⟨rfl, rfl, rfl, rfl⟩
  generalize hA : N.analyze = A at h
  have hA' : A.pool = N.pool ∧ A.map0 = N.map0 ∧ A.map1 = N.map1 ∧ A.res = N.res := by rw [← hA]; exact ⟨rfl, rfl, rfl, rfl⟩
  unfold Disk.examineBoot at h
  split at h
  · cases h
  · cases h
    obtain ⟨f1, f2, f3, f4⟩ := fin A
    rw [f1, f2, f3, f4]
    exact hA'
  · split at h
    · cases h
      obtain ⟨f1, f2, f3, f4⟩ := fin A
      rw [f1, f2, f3, f4]
      exact hA'
    · next b _ =>
      cases h
      obtain ⟨f1, f2, f3, f4⟩ := fin { A with boot := some b }
      rw [f1, f2, f3, f4]
      exact hA'

/-- **C109.** Loading and formatting leave the analysis of the disk as it is then. -/
theorem C109_after_load (debug : Bool) (H : List Byte → Nat) (nz : Noise) (m m' : Image) (h : m.postLoad debug H nz = .ok m') :
    m'.disk.analysis debug m.found = .ok m'.found := by
  unfold Image.postLoad at h
  cases ha : (m.disk.normalize H nz).analysis debug m.found with
  | error e => simp only [ha] at h; cases h
  | ok a =>
    simp only [ha] at h
    cases hp : m.disk.postLoad H nz with
    | error e => simp only [hp] at h; cases h
    | ok d =>
      simp only [hp] at h
      cases h
      show d.analysis debug m.found = .ok a
      rw [← ha]
      have := postLoad_tracks H nz m.disk d hp
      unfold Disk.analysis Disk.trackIdx
      rw [this.1, this.2.1, this.2.2.1]

theorem C109_after_format (debug : Bool) (m m' : Image) (nz : Noise) (ch : Ch) (ids : List Chsn) (pat : List Byte) (gap3 : Nat)
    (h : m.formatTrack debug nz ch ids pat gap3 = .ok (m', .ok ())) : m'.disk.analysis debug m.found = .ok m'.found := by
  unfold Image.formatTrack at h
  split at h
  · cases h
  · next d _ =>
    cases ha : d.analysis debug m.found with
    | error e => rw [ha] at h; cases h
    | ok a => rw [ha] at h; cases h; exact ha

end Fox
