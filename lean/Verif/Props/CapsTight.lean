import Verif.Props.CapsExt
/-
More about C109, C110, C112 and C113.
-/
namespace Fox
open Spec Disk Detect

theorem size_of_track (debug : Bool) (t : DiskTrack) (x : TrackAnalysis) (h : t.analysis debug = .ok x) :
    x.sectorSize = commonSize ((idsOn t).map (·.n)) := by
  have bits : ∀ t : Track, t.analysis debug = .ok x → x.sectorSize = commonSize (t.sectorIds.map (·.n)) := by
    intro t h
    unfold Track.analysis at h
    cases hm : misnumbered debug 0 (t.sectorIds.map (·.s)) with
    | error e => rw [hm] at h; cases h
    | ok b => rw [hm] at h; cases h; rfl
  cases t with
  | bit c t =>
    unfold DiskTrack.analysis at h
    cases hs : t.schema with
    | none => simp only [hs] at h; cases h
    | some s => simp only [hs] at h; exact bits t h
  | flux c o =>
    cases o with
    | none => cases h
    | some t =>
      unfold DiskTrack.analysis at h
      cases hs : t.schema with
      | none => simp only [hs] at h; cases h
      | some s => simp only [hs] at h; exact bits t h
  | sect t =>
    replace h : t.analysis debug = .ok x := h
    unfold MetaTrack.analysis at h
    cases hm : misnumbered debug 0 (t.sectors.map (·.id.s)) with
    | error e => rw [hm] at h; cases h
    | ok b =>
      rw [hm] at h
      cases h
      show _ = commonSize ((t.sectors.map (·.id)).map (·.n))
      rw [List.map_map]
      rfl
  | other c => cases h; rfl

theorem commonSize_same (k : Nat) (l : List Nat) (h : ∀ n ∈ l, n = k) : commonSize l = some (if l = [] then 0 else k) := by
  cases hl : l with
  | nil => rfl
  | cons a rest =>
    rw [← hl]
    have hne : l ≠ [] := by simp [hl]
    have hn : commonSize l ≠ none := by
      intro h0
      obtain ⟨a, ha, b, hb, hab⟩ := (commonSize_none l).1 h0
      exact hab (by rw [h a ha, h b hb])
    unfold commonSize at hn ⊢
    split
    · next h1 => rw [if_pos h1] at hn; exact absurd rfl hn
    · rw [List.getLast?_eq_some_getLast hne, Option.getD_some]
      rw [h _ (List.getLast_mem hne)]

theorem tally_last (k : Nat) : ∀ (l : List TrackAnalysis) (a : Tally),
    (∀ x ∈ l, x.sectorSize = some 0 ∨ x.sectorSize = some k) → (a.last = k ∨ ∃ x ∈ l, x.sectorSize = some k) → (k = 0 → a.last = 0) →
    (l.foldl tally a).last = k
  | [], a, _, h, _ => by
    rcases h with h | ⟨x, hx, -⟩
    · exact h
    · cases hx
  | x :: l, a, hl, h, h0 => by
    have step : ∀ n, x.sectorSize = some n → (tally a x).last = if n > 0 then n else a.last := by
      intro n hn
      unfold tally
      simp only [hn]
      by_cases hp : n > 0 <;> by_cases hc : x.sectorCt > 0 <;> simp [hp, hc]
    rw [List.foldl_cons]
    refine tally_last k l _ (fun y hy => hl y (by simp [hy])) ?_ ?_
    · rcases hl x (by simp) with hx | hx
      · rw [step 0 hx, if_neg (by omega)]
        rcases h with h | ⟨y, hy, hyk⟩
        · exact Or.inl h
        · rcases List.mem_cons.1 hy with rfl | hy
          · rw [hx] at hyk
            injection hyk with hk
            exact Or.inl (by rw [h0 hk.symm, hk])
          · exact Or.inr ⟨y, hy, hyk⟩
      · refine Or.inl ?_
        rw [step k hx]
        split
        · rfl
        · rw [h0 (by omega)]; omega
    · intro hk
      subst hk
      rcases hl x (by simp) with hx | hx <;> rw [step 0 hx, if_neg (by omega)] <;> exact h0 rfl

/-- **C109, the sector size.** If all sectors of a disk have the same size, the analysis gives it, wherever empty tracks may be. -/
theorem C109_size (debug : Bool) (prior : DiskAnalysis) (d : Disk) (a : DiskAnalysis) (h : d.analysis debug prior = .ok a) (k : Nat)
    (hk : ∀ t, Carries d t → ∀ c ∈ idsOn t, c.n = k) (he : ∃ t, Carries d t) : a.sectorSize = some k := by
  obtain ⟨ha, hto, hfrom⟩ := analysis_parts debug prior d a h
  have hone : ∀ x ∈ told debug d.pool d.trackIdx, x.sectorSize = some 0 ∨ x.sectorSize = some k := by
    intro x hx
    obtain ⟨t, hl, hx⟩ := (told_iff debug d x).1 hx
    have hkn := (track_says debug t x hx).2
    rw [size_of_track debug t x hx, commonSize_same k]
    · split
      · exact Or.inl rfl
      · exact Or.inr rfl
    · intro n hn
      obtain ⟨c, hc, rfl⟩ := List.mem_map.1 hn
      exact hk t ⟨hl, hkn, fun h0 => by rw [h0] at hc; cases hc⟩ c hc
  have hsome : ∃ x ∈ told debug d.pool d.trackIdx, x.sectorSize = some k := by
    obtain ⟨t, hl, hkn, hne⟩ := he
    have ht : ∃ x, x ∈ told debug d.pool d.trackIdx ∧ t.analysis debug = .ok x := by
      unfold Disk.analysis at h
      cases ht : tallyAll debug d.pool d.trackIdx {} with
      | error e => rw [ht] at h; cases h
      | ok b =>
        obtain ⟨i, hi, hp⟩ := hl
        obtain ⟨x, hx⟩ := analysis_known debug t hkn (tallyAll_fine debug d.pool _ _ _ ht i ((mem_trackIdx d i).2 hi) t hp)
        exact ⟨x, (told_iff debug d x).2 ⟨t, ⟨i, hi, hp⟩, hx⟩, hx⟩
    obtain ⟨x, hm, hx⟩ := ht
    refine ⟨x, hm, ?_⟩
    rw [size_of_track debug t x hx, commonSize_same k _ fun n hn => by
      obtain ⟨c, hc, rfl⟩ := List.mem_map.1 hn
      exact hk t ⟨hl, hkn, hne⟩ c hc]
    rw [if_neg (by simpa using hne)]
  have hmix : ((told debug d.pool d.trackIdx).foldl tally {}).mixed = false := by
    rw [fold_any (·.mixed) (fun x => x.sectorSize.isNone) (fun a x => (tally_all a x).2.2.2.2.1)]
    rw [Bool.or_eq_false_iff]
    refine ⟨rfl, List.any_eq_false.2 fun x hx => ?_⟩
    rcases hone x hx with h | h <;> simp [h]
  rw [ha]
  show (if ((told debug d.pool d.trackIdx).foldl tally {}).mixed then none else some ((told debug d.pool d.trackIdx).foldl tally {}).last) = some k
  rw [hmix, if_neg (by simp), tally_last k _ _ hone (Or.inr hsome) (fun _ => rfl)]

/-- An empty track behind one with a sector of 512 bytes. -/
def emptyBehind : Disk :=
  { res := { sect := true }, pool := [.sect ⟨⟨0, 0⟩, [plainSector 0 1 2]⟩, .sect ⟨⟨1, 0⟩, []⟩], map0 := [0, 1], geometry := ⟨2, 1⟩ }

example (debug : Bool) : ∃ a, emptyBehind.analysis debug {} = .ok a ∧ a.sectorSize = some 2 := by
  cases debug <;> exact ⟨_, rfl, by decide⟩

/-- The formats that tell of no capabilities. -/
def Bare (f : Format) : Prop := f = .raw ∨ f = .imd ∨ f = .psi ∨ f = .mfm ∨ f = .td0 ∨ f = .hfe

/-- **C110, which formats.** Of an image that requires only what an analysis may decide about, and something of it, exactly the formats are
listed that store cells or flux, except HFE and MFM. -/
theorem C110_which (m : Image) (h0 : m.found.caps ≠ 0#32) (h : m.found.caps &&& ~~~decided = 0#32) :
    (∀ f e, (f, e) ∈ Format.compatible m false ↔ e = f.extensions ∧ ¬ Bare f) := by
  intro f e
  rw [(C110_listed m).1 f e, and_congr_right_iff]
  rintro -
  generalize m.found.caps = c at h h0
  have hsub : ∀ i, c.getLsbD i = true → decided.getLsbD i = true := by
    intro i hi
    by_cases hlt : i < 32
    · have := congrArg (fun (b : BitVec 32) => b.getLsbD i) h
      simp only [BitVec.getLsbD_and, BitVec.getLsbD_not, BitVec.getLsbD_zero, hlt, decide_true, Bool.true_and, hi] at this
      simpa using this
    · rw [BitVec.getLsbD_of_ge c i (by omega)] at hi
      cases hi
  have hd : ∀ f : Format, ¬ Bare f → Covers f.caps decided := by
    intro f hf
    rw [← contains_iff]
    unfold Bare at hf
    cases f <;> first | (simp at hf; done) | decide
  constructor
  · intro hc hb
    have : f.caps = 0#32 := by rcases hb with rfl | rfl | rfl | rfl | rfl | rfl <;> rfl
    rw [this] at hc
    apply h0
    apply BitVec.eq_of_getLsbD_eq
    intro i _
    cases hi : c.getLsbD i with
    | false => simp
    | true => exact absurd (hc i hi) (by simp)
  · intro hf i hi
    exact hd f hf i (hsub i hi)

example : ∃ m : Image, m.found.caps ≠ 0#32 ∧ m.found.caps &&& ~~~decided = 0#32 ∧ m.found.caps.contains .noDam = true ∧
    m.found.caps.contains .variableSpt = true := ⟨{ found := { caps := .noDam ||| .variableSpt } }, by decide, by decide, by decide, by decide⟩

/-- **C110, weak bits and comments**: the formats that are listed if they are required — 86F, whose files do hold weak bits, and IMD, PSI and
TeleDisk, whose files do hold comments, are not. -/
theorem C110_false_weak (m : Image) (h : m.found.caps = .weakBits ∨ m.found.caps = .comment ∨ m.found.caps = (.weakBits ||| .comment)) :
    ∀ f e, (f, e) ∈ Format.compatible m false ↔ e = f.extensions ∧ (f = .pri ∨ f = .pfi ∨ f = .mfi ∨ f = .ipf ∨ f = .moof ∨ f = .woz) := by
  intro f e
  rw [(C110_listed m).1 f e, and_congr_right_iff]
  rintro -
  rw [← contains_iff]
  rcases h with h | h | h <;> rw [h] <;> cases f <;> decide

/-- **C112.** The supported extensions come in alphabetical order, so none twice. -/
theorem C112_sorted : Format.supported.Pairwise fun a b => a < b := by decide +kernel

/-- **C113, the builder.** A writer made with a format and a path writes what saving gives to that path, if it succeeds; made with a format and
a writer, it hands it to the writer; the last format and path given count. -/
theorem C113_builder {Path : Type} (e : Format.Extras) (m : Image) (f f' : Format) (p p' : Path)
    (store : Path → List Byte → (Path → Option (List Byte)) → (Path → Option (List Byte)) × Except Err Unit) (hst : Stores store)
    (files : Path → Option (List Byte)) :
    (∀ w : Writer Path, w = (({} : Writer Path).withFormat f).withPath p ∨ w = (({} : Writer Path).withPath p).withFormat f ∨
        w = (((({} : Writer Path).withFormat f').withPath p').withPath p).withFormat f →
      (w.write e m store files).2 = .ok () → ∃ bs, Format.save e f m = .ok bs ∧ (w.write e m store files).1.files p = some bs) ∧
    (∀ w : Writer Path, w = (({} : Writer Path).withFormat f).withWriter ∨ w = (({} : Writer Path).withWriter).withFormat f →
      (w.write e m store files).2 = .ok () → ∃ bs, Format.save e f m = .ok bs ∧ (w.write e m store files).1.received = some bs ∧
        (w.write e m store files).1.files = files) := by
  constructor
  · rintro w (rfl | rfl | rfl) h <;>
    · obtain ⟨-, -, h3, -⟩ := C113_write_partial _ e m store hst files
      obtain ⟨bs, h1, h2, -⟩ := h3 f p rfl rfl rfl h
      exact ⟨bs, h1, h2⟩
  · rintro w (rfl | rfl) h <;>
    · obtain ⟨-, -, -, h4⟩ := C113_write_partial _ e m store hst files
      obtain ⟨bs, h1, h2⟩ := h4 f rfl rfl h
      exact ⟨bs, h1, h2, C113_false_both _ rfl e m store files⟩

end Fox
