import Verif.Proofs.RawRound
import Verif.Props.ReadTrack
/-
Loading an Amiga sector image as sector-list tracks.
-/
namespace Fox
open Fox.Spec Fox.S34

/-- The sectors `load_as_metasector` stores for track `j`. -/
def adfSectors (g : Layout) (file : List Byte) (j : Nat) : List MetaSector :=
  (List.range g.s).map fun s => MetaTrack.newSector
    { id := ⟨j / g.h, j % g.h, s + g.sOff, g.n⟩, data := slice file ((j * g.s + s) * g.size) g.size }

/-- A track as the sector loader leaves it. -/
def LoadedSect (g : Layout) (file : List Byte) (j : Nat) (x : DiskTrack) : Prop :=
  ∃ t, x = .sect t ∧ t.ch = chOf g j ∧ t.sectors = adfSectors g file j

theorem addSectors_range (file : List Byte) (sz : Nat) (f : Nat → Chsn) : ∀ (n k : Nat) (t : MetaTrack),
    (k + n) * sz ≤ file.length →
    Raw.addSectors sz ((List.range' k n).map f) (file.drop (k * sz)) t =
      .ok { t with sectors := t.sectors ++ (List.range' k n).map fun i =>
        MetaTrack.newSector { id := f i, data := slice file (i * sz) sz } }
  | 0, k, t, _ => by simp [Raw.addSectors]
  | n + 1, k, t, h => by
    rw [List.range'_succ, List.map_cons, Raw.addSectors]
    have h2 : (k + 1) * sz ≤ (k + (n + 1)) * sz := Nat.mul_le_mul_right _ (by omega)
    rw [Nat.succ_mul] at h2
    rw [if_neg (by rw [List.length_drop]; omega)]
    unfold MetaTrack.addSector
    simp only [Bool.false_and, Bool.false_eq_true, if_false]
    rw [List.drop_drop, show k * sz + sz = (k + 1) * sz by rw [Nat.succ_mul],
      addSectors_range file sz f n (k + 1) _ (by rw [show k + 1 + n = k + (n + 1) by omega]; exact h)]
    simp only [List.map_cons, List.append_assoc, List.singleton_append]
    rfl

theorem addSectors_track (g : Layout) (file : List Byte) (k : Nat) (t : MetaTrack)
    (hl : (k + 1) * (g.s * g.size) ≤ file.length) :
    Raw.addSectors g.size (Raw.trackIds g (chOf g k)) (file.drop (k * (g.s * g.size))) t =
      .ok { t with sectors := t.sectors ++ adfSectors g file k } := by
  unfold Raw.trackIds adfSectors
  have h := addSectors_range (file.drop (k * (g.s * g.size))) g.size
    (fun s => ⟨(chOf g k).c, (chOf g k).h, s + g.sOff, g.n⟩) g.s 0 t
    (by rw [List.length_drop, Nat.zero_add]; rw [Nat.succ_mul] at hl; omega)
  rw [Nat.zero_mul, List.drop_zero] at h
  rw [List.range_eq_range', h]
  have e : ∀ s, slice (file.drop (k * (g.s * g.size))) (s * g.size) g.size =
      slice file ((k * g.s + s) * g.size) g.size := by
    intro s
    unfold slice
    rw [List.drop_drop, Nat.add_mul, Nat.mul_assoc]
  simp only [e]
  rfl

theorem metaTurn_spec (f : StdFormat) (file : List Byte) (k : Nat) (d : Disk)
    (hk : k < f.layout.c * f.layout.h) (hl : (k + 1) * (f.layout.s * f.layout.size) ≤ file.length)
    (h : Built f.layout (LoadedSect f.layout file) (ResSet.insert {} .metaSector) k d) :
    ∃ d', Raw.metaStep f (chOf f.layout k) (file.drop (k * (f.layout.s * f.layout.size))) d = .ok d' ∧
      Built f.layout (LoadedSect f.layout file) (ResSet.insert {} .metaSector) (k + 1) d' := by
  have hg : f.layout.h = 1 ∨ f.layout.h = 2 := by cases f <;> decide
  have hlt : k % f.layout.h < 2 := by rcases hg with hg | hg <;> rw [hg] <;> omega
  have hadd : d.addMeta (chOf f.layout k) =
      (d.pushTrack (k % f.layout.h) (.sect { ch := chOf f.layout k }), .ok k) := by
    unfold Disk.addMeta
    have hrej : d.rejects .metaSector = false := by
      unfold Disk.rejects; rw [h.res]; rw [h.single]; rfl
    have hins : d.res.insert .metaSector = d.res := by rw [h.res]; rfl
    simp only [hrej, hins]
    rw [h.len]
    simp [chOf]
    omega
  unfold Raw.metaStep
  simp only [hadd]
  rw [show k = d.pool.length from h.len.symm, pushTrack_last]
  simp only
  rw [h.len, addSectors_track _ _ _ _ hl]
  simp only
  refine ⟨_, rfl, ?_⟩
  rw [show k = d.pool.length from h.len.symm, pushTrack_set, h.len]
  exact h.push hg _ ⟨_, rfl, rfl, by simp⟩

theorem metaLoop_spec (f : StdFormat) (file : List Byte)
    (hl : f.layout.c * f.layout.h * (f.layout.s * f.layout.size) ≤ file.length) :
    ∀ (n k : Nat) (d : Disk), k + n = f.layout.c * f.layout.h →
      Built f.layout (LoadedSect f.layout file) (ResSet.insert {} .metaSector) k d →
      ∃ d', Raw.metaLoop f ((List.range' k n).map (chOf f.layout))
          (file.drop (k * (f.layout.s * f.layout.size))) d = .ok d' ∧
        Built f.layout (LoadedSect f.layout file) (ResSet.insert {} .metaSector) (f.layout.c * f.layout.h) d'
  | 0, k, d, hk, h => ⟨d, rfl, by rw [← hk]; exact h⟩
  | n + 1, k, d, hk, h => by
    have hle : (k + 1) * (f.layout.s * f.layout.size) ≤ f.layout.c * f.layout.h * (f.layout.s * f.layout.size) :=
      Nat.mul_le_mul_right _ (by omega)
    obtain ⟨d', h1, h2⟩ := metaTurn_spec f file k d (by omega) (by omega) h
    obtain ⟨d'', h3, h4⟩ := metaLoop_spec f file hl n (k + 1) d' (by omega) h2
    refine ⟨d'', ?_, h4⟩
    rw [List.range'_succ, List.map_cons, Raw.metaLoop, h1]
    simp only
    rw [List.drop_drop]
    rw [show k * (f.layout.s * f.layout.size) + f.layout.s * f.layout.size =
      (k + 1) * (f.layout.s * f.layout.size) by rw [Nat.succ_mul]]
    exact h3

/-- The layout of an 880K Amiga disk. -/
abbrev adf : Layout := StdFormat.amiga880.layout

/-- What `load_image` builds from an Amiga image. -/
theorem loadAdf_spec (nz : Noise) (file : List Byte) (hl : file.length = 901120) :
    ∃ d, Raw.loadImage nz file = .ok d ∧ d.geometry = adf.ch ∧
      Built adf (LoadedSect adf file) (ResSet.insert {} .metaSector) (adf.c * adf.h) d := by
  have hfac : adf.c * adf.h * (adf.s * adf.size) = file.length := by rw [hl]; decide
  obtain ⟨d, h1, h2⟩ := metaLoop_spec .amiga880 file (Nat.le_of_eq hfac) (adf.c * adf.h) 0
    (({ } : Disk).setResolution .metaSector) (Nat.zero_add _) (by
      refine ⟨rfl, ?_, ?_, ?_, rfl, rfl, rfl⟩
      · intro h hh
        have : (0 + (adf.h - 1 - h)) / adf.h = 0 := by
          rw [Nat.div_eq_zero_iff]; omega
        rw [this]
        unfold Disk.headMap; split <;> rfl
      · intro h _ _; unfold Disk.headMap; split <;> rfl
      · intro j hj; omega)
  refine ⟨{ d with geometry := adf.ch }, ?_, rfl, ?_⟩
  · unfold Raw.loadImage
    rw [hl]
    have hsz : StdFormat.ofSize 901120 = some .amiga880 := by decide
    rw [hsz]
    simp only
    rw [if_neg (by decide), if_neg (by decide), if_neg (by decide)]
    unfold Raw.loadMeta
    rw [trackOrder_eq _ (by decide) (by decide), List.range_eq_range']
    rw [Nat.zero_mul, List.drop_zero] at h1
    rw [h1]
  · exact ⟨h2.len, h2.map, h2.map', h2.tracks, h2.res, h2.single, h2.boot⟩

theorem adfSectors_sound (file : List Byte) (j : Nat) (hj : j < 160) (hl : file.length = 901120) (ch : Ch) :
    MetaTrack.Sound ⟨ch, adfSectors adf file j⟩ := by
  intro s hs
  obtain ⟨i, hi, rfl⟩ := List.mem_map.1 hs
  have hi := List.mem_range.1 hi
  have hi : i < 11 := hi
  refine ⟨rfl, fun b hb => (List.mem_replicate.1 hb).2, fun b hb => (List.mem_replicate.1 hb).2, ?_⟩
  show (slice file ((j * 11 + i) * 512) 512).length = nSize adf.n
  rw [layout_nSize]
  show _ = 512
  apply slice_length
  omega

theorem LoadedSect.holds {file : List Byte} {j : Nat} {x : DiskTrack} (h : LoadedSect adf file j x)
    (hj : j < 160) (hl : file.length = 901120) : Holds x (imgTrack adf file j) := by
  obtain ⟨t, rfl, hch, hs⟩ := h
  have hm : imgTrack adf file j = t.sectors.map fun s => (s.id, s.data) := by
    rw [hs]; unfold adfSectors imgTrack; rw [List.map_map]; rfl
  rw [hm]
  refine Holds.sect ?_ ?_
  · have := adfSectors_sound file j hj hl t.ch
    rw [← hs] at this
    exact this
  · intro s hmem
    rw [hs] at hmem
    obtain ⟨i, _, rfl⟩ := List.mem_map.1 hmem
    exact ⟨rfl, rfl, rfl⟩

theorem LoadedSect.count {file : List Byte} {j : Nat} {x : DiskTrack} (h : LoadedSect adf file j x) :
    x.sectorCt = 11 ∧ x.analysisCt = some 11 := by
  obtain ⟨t, rfl, hch, hs⟩ := h
  have : t.sectors.length = 11 := by rw [hs]; unfold adfSectors; rw [List.length_map, List.length_range]; rfl
  exact ⟨this, congrArg some this⟩

theorem flatMap_consec (file : List Byte) (o sz : Nat) : ∀ n : Nat,
    (List.range n).flatMap (fun s => slice file ((o + s) * sz) sz) = slice file (o * sz) (n * sz)
  | 0 => by simp [slice]
  | n + 1 => by
    rw [List.range_succ, List.flatMap_append, flatMap_consec file o sz n]
    simp only [List.flatMap_cons, List.flatMap_nil, List.append_nil]
    unfold slice
    rw [Nat.succ_mul, List.take_add, List.drop_drop, Nat.add_mul]

theorem LoadedSect.hash {file : List Byte} {j : Nat} {x : DiskTrack} (h : LoadedSect adf file j x)
    (hj : j < 160) (hl : file.length = 901120) (H : List Byte → Nat) (nz : Noise) :
    x.hash H nz = H (slice file (j * 5632) 5632) := by
  obtain ⟨t, rfl, hch, hs⟩ := h
  have hsound : t.Sound := by
    have := adfSectors_sound file j hj hl t.ch
    rw [← hs] at this
    exact this
  obtain ⟨r, r1, r2, _⟩ := C36_metasector t hsound (fun _ => nz.byte) 0xFF (by decide)
  unfold DiskTrack.hash
  simp only [r1]
  rw [r2]
  congr 1
  have hlen : t.sectors.length = 11 := by rw [hs]; unfold adfSectors; rw [List.length_map, List.length_range]; rfl
  rw [List.take_of_length_le (by omega), hs]
  unfold adfSectors
  rw [List.flatMap_map]
  have := flatMap_consec file (j * 11) 512 11
  rw [Nat.mul_assoc] at this
  exact this

/-! ### Post-processing -/

theorem adf_map0 {P : Nat → DiskTrack → Prop} {r : ResSet} {d : Disk} (h : Built adf P r (adf.c * adf.h) d) :
    d.map0 = (List.range 80).map fun c => c * 2 + 0 := h.headLen (Or.inr rfl) 0 (by decide)

theorem adf_pairs : Disk.pairs ((List.range 80).map fun c => c * 2 + 0) =
    (List.range 40).map fun i => (2 * i * 2, (2 * i + 1) * 2) := by decide

theorem adf_track {file : List Byte} {r : ResSet} {d : Disk}
    (h : Built adf (LoadedSect adf file) r (adf.c * adf.h) d) (j : Nat) (hj : j < 160) :
    ∃ t, d.pool[j]? = some t ∧ LoadedSect adf file j t := h.tracks j hj

theorem adf_emptyOdd {file : List Byte} {r : ResSet} {d : Disk}
    (h : Built adf (LoadedSect adf file) r (adf.c * adf.h) d) : d.emptyOdd 0 = 0 := by
  unfold Disk.emptyOdd
  rw [List.length_eq_zero_iff, List.filter_eq_nil_iff]
  intro p hp
  have hm : d.headMap 0 = d.map0 := rfl
  rw [hm, adf_map0 h, adf_pairs] at hp
  obtain ⟨i, hi, rfl⟩ := List.mem_map.1 hp
  have hi := List.mem_range.1 hi
  obtain ⟨t, k1, k2⟩ := adf_track h ((2 * i + 1) * 2) (by omega)
  simp only [k1]
  cases d.pool[2 * i * 2]? with
  | none => simp
  | some a => simp [k2.count.1]

theorem adf_duplicate {file : List Byte} {r : ResSet} {d : Disk}
    (h : Built adf (LoadedSect adf file) r (adf.c * adf.h) d) (hl : file.length = 901120)
    (H : List Byte → Nat) (nz : Noise) :
    d.duplicateOdd H nz 0 ≥ 40 ↔
      ∀ i, i < 40 → H (adfTrack file (2 * i) 0) = H (adfTrack file (2 * i + 1) 0) := by
  unfold Disk.duplicateOdd
  have hm : d.headMap 0 = d.map0 := rfl
  rw [hm, adf_map0 h, adf_pairs]
  have hval : ∀ i, i < 40 → ((match d.pool[2 * i * 2]?, d.pool[(2 * i + 1) * 2]? with
      | some a, some b => decide (a.sectorCt > 0) && a.hash H nz == b.hash H nz
      | _, _ => false) = true ↔ H (adfTrack file (2 * i) 0) = H (adfTrack file (2 * i + 1) 0)) := by
    intro i hi
    obtain ⟨t, k1, k2⟩ := adf_track h (2 * i * 2) (by omega)
    obtain ⟨t', k1', k2'⟩ := adf_track h ((2 * i + 1) * 2) (by omega)
    simp only [k1, k1', k2.count.1, k2.hash (by omega) hl, k2'.hash (by omega) hl]
    simp [adfTrack]
  constructor
  · intro hge i hi
    refine (hval i hi).1 ?_
    refine Classical.byContradiction fun hn => ?_
    have : ∀ (p : Nat × Nat → Bool), p (2 * i * 2, (2 * i + 1) * 2) ≠ true →
        (((List.range 40).map fun i => (2 * i * 2, (2 * i + 1) * 2)).filter p).length < 40 := by
      intro p hp
      have h1 := (List.length_filter_lt_length_iff_exists (p := p)
        (l := (List.range 40).map fun i => (2 * i * 2, (2 * i + 1) * 2))).2
        ⟨_, List.mem_map.2 ⟨i, List.mem_range.2 hi, rfl⟩, hp⟩
      simpa using h1
    exact Nat.lt_irrefl _ (Nat.lt_of_lt_of_le (this _ hn) hge)
  · intro hall
    rw [List.filter_eq_self.2]
    · simp
    · intro p hp
      obtain ⟨i, hi, rfl⟩ := List.mem_map.1 hp
      have hi := List.mem_range.1 hi
      exact (hval i hi).2 (hall i hi)

/-- The disk after the odd cylinders were dropped. -/
def halved (d : Disk) : Disk := { d.removeOdd with geometry := ⟨d.removeOdd.map0.length % 65536, d.removeOdd.geometry.h⟩ }.remap

theorem adf_normalize {file : List Byte} {r : ResSet} {d : Disk}
    (h : Built adf (LoadedSect adf file) r (adf.c * adf.h) d) (hl : file.length = 901120)
    (H : List Byte → Nat) (nz : Noise) :
    (¬ (∀ i, i < 40 → H (adfTrack file (2 * i) 0) = H (adfTrack file (2 * i + 1) 0)) → d.normalize H nz = d) ∧
    ((∀ i, i < 40 → H (adfTrack file (2 * i) 0) = H (adfTrack file (2 * i + 1) 0)) → d.normalize H nz = halved d) := by
  have h1 : ¬ (d.trackIdx.length > 50 ∧ d.emptyOdd 0 ≥ Disk.normCyl d.trackIdx.length / 2) := by
    rintro ⟨a, b⟩
    rw [adf_emptyOdd h] at b
    unfold Disk.normCyl at b
    split at b
    · omega
    · split at b <;> omega
  have hlen : d.map0.length = 80 := by rw [adf_map0 h]; simp
  have hn : Disk.normCyl 80 / 2 = 40 := by decide
  unfold Disk.normalize
  simp only
  rw [if_neg h1, hlen, hn]
  constructor
  · intro hall
    rw [if_neg]
    rintro ⟨_, b⟩
    exact hall ((adf_duplicate h hl H nz).1 b)
  · intro hall
    rw [if_pos ⟨by decide, (adf_duplicate h hl H nz).2 hall⟩]
    rfl

/-! ### Renumbering -/

theorem remapHead_spec : ∀ (l : List Nat) (c : Nat) (pool : List DiskTrack) (i : Nat) (t : DiskTrack),
    pool[i]? = some t → ∃ ch, (Disk.remapHead c l pool)[i]? = some (t.setCh ch)
  | [], c, pool, i, t, h => ⟨t.ch, by rw [Disk.remapHead, h]; cases t <;> rfl⟩
  | j :: l, c, pool, i, t, h => by
    rw [Disk.remapHead]
    cases hj : pool[j]? with
    | none => exact remapHead_spec l (c + 1) pool i t h
    | some t' =>
      simp only
      by_cases hij : j = i
      · subst hij
        rw [h] at hj
        cases hj
        have hlt : j < pool.length := by
          rcases Nat.lt_or_ge j pool.length with hlt | hge
          · exact hlt
          · rw [List.getElem?_eq_none hge] at h; cases h
        obtain ⟨ch, hc⟩ := remapHead_spec l (c + 1) (pool.set j (t.setCh ⟨c, t.ch.h⟩)) j (t.setCh ⟨c, t.ch.h⟩)
          (by rw [List.getElem?_set, if_pos rfl, if_pos hlt])
        exact ⟨ch, by rw [hc]; cases t <;> rfl⟩
      · exact remapHead_spec l (c + 1) _ i t (by rw [List.getElem?_set, if_neg hij]; exact h)

theorem remapHead_len : ∀ (l : List Nat) (c : Nat) (pool : List DiskTrack),
    (Disk.remapHead c l pool).length = pool.length
  | [], _, _ => rfl
  | j :: l, c, pool => by
    rw [Disk.remapHead, remapHead_len l]
    cases pool[j]? <;> simp

theorem setCh_keeps (t : DiskTrack) (ch : Ch) : (t.setCh ch).analysisCt = t.analysisCt ∧
    ∀ nz q n o sc db, (t.setCh ch).readSector nz q n o sc db = t.readSector nz q n o sc db := by
  cases t with
  | flux c t => cases t <;> exact ⟨rfl, fun _ _ _ _ _ _ => rfl⟩
  | _ => exact ⟨rfl, fun _ _ _ _ _ _ => rfl⟩

/-- Boot sector examination of a disk whose first track is the image's first track. -/
theorem adf_boot {file : List Byte} (hl : file.length = 901120) (nz : Noise) (d : Disk) (t : DiskTrack) (ch : Ch)
    (rest : List Nat) (hm : d.map0 = 0 :: rest) (hp : d.pool[0]? = some (t.setCh ch)) (ht : LoadedSect adf file 0 t) :
    ∃ b s, d.examineBoot nz = .ok { d with boot := some b, standardFormat := s } ∧
      b.standardFormat = bootFormat (file.drop 512) := by
  have hin : InLayout adf ⟨0, 0, 1⟩ := by decide
  obtain ⟨m, l1, l2⟩ := imgDisk_lookup adf file ⟨0, 0, 1⟩ hin
  have hmm : m = imgTrack adf file 0 := by
    have l1 : imgDisk adf file ⟨0, 0⟩ = some m := l1
    unfold imgDisk at l1
    rw [if_pos (by decide)] at l1
    exact (Option.some.inj l1).symm
  subst hmm
  obtain ⟨r, r1, r2, r3⟩ := (ht.holds (by omega) hl).read nz ⟨some 0, some 0, 1, some 2⟩ none (Or.inl rfl) true
  rw [layout_n] at l2
  have l2 : SectorMap.lookup ⟨some 0, some 0, 1, some 2⟩ (imgTrack adf file 0) = _ := l2
  obtain ⟨_, _, r4, r5, _⟩ := r3 _ l2
  have hz : lbaOf adf ⟨0, 0, 1⟩ = 1 := by decide
  have hboot : d.readBoot nz = .ok (slice file 512 512) := by
    unfold Disk.readBoot
    simp only [hm, hp, (setCh_keeps t ch).2, r1]
    rw [if_neg (by omega), r5, hz]
    rfl
  have hsl : slice file 512 512 = slice (file.drop 512) 0 512 := by
    unfold slice; rw [List.drop_zero]
  have hlen : (slice (file.drop 512) 0 512).length = 512 := slice_length (by rw [List.length_drop]; omega)
  rw [hsl] at hboot
  obtain ⟨b, hb, hbf⟩ : ∃ b, BootSector.new (slice (file.drop 512) 0 512) = some b ∧
      b.standardFormat = bootFormat (file.drop 512) := by
    unfold BootSector.new
    rw [if_neg (by omega)]
    refine ⟨_, rfl, ?_⟩
    unfold BootSector.standardFormat bootFormat
    show (Bpb2.read (slice (file.drop 512) 0 512) bpbOffset).format = _
    rw [read_slice]
  have hfin : ∀ x : Disk, ∃ s, Disk.examineBoot.finish x = { x with standardFormat := s } := by
    intro x
    unfold Disk.examineBoot.finish
    split
    · exact ⟨_, rfl⟩
    · exact ⟨x.standardFormat, rfl⟩
  obtain ⟨s, hs⟩ := hfin { d with boot := some b }
  refine ⟨b, s, ?_, hbf⟩
  unfold Disk.examineBoot
  rw [hboot]
  simp only [hb, hs]

/-- The disk loaded from a doubled image. -/
theorem adf_load_half {file : List Byte} (hl : file.length = 901120) (H : List Byte → Nat) (nz : Noise)
    (hd : ∀ i, i < 40 → H (adfTrack file (2 * i) 0) = H (adfTrack file (2 * i + 1) 0)) :
    ∃ d, Raw.load H nz file = .ok d ∧ d.map0.length = 40 ∧ d.map1.length = 40 ∧
      d.closestFormat true = bootFormat (file.drop 512) := by
  obtain ⟨d0, h1, hgeo, h2⟩ := loadAdf_spec nz file hl
  obtain ⟨t, k1, k2⟩ := adf_track h2 0 (by omega)
  have hm0 : (halved d0).map0 = Disk.evens d0.map0 := rfl
  have hm1 : (halved d0).map1 = Disk.evens d0.map1 := rfl
  have hm1' : d0.map1 = (List.range 80).map fun c => c * 2 + 1 := h2.headLen (Or.inr rfl) 1 (by decide)
  have hev : (halved d0).map0 = 0 :: ((List.range' 1 39).map fun c => c * 4) := by
    rw [hm0, adf_map0 h2]; decide
  have hodd : (halved d0).map1.length = 40 := by
    rw [hm1, hm1']; decide
  have hlen : (halved d0).map0.length = 40 := by rw [hev]; simp
  have hpool : ∀ (i : Nat) (t : DiskTrack), d0.pool[i]? = some t →
      ∃ ch, (halved d0).pool[i]? = some (t.setCh ch) := by
    intro i t hi
    show ∃ ch, (Disk.remapHead 0 (Disk.evens d0.map1) (Disk.remapHead 0 (Disk.evens d0.map0) d0.pool))[i]? = _
    obtain ⟨c1, e1⟩ := remapHead_spec (Disk.evens d0.map0) 0 d0.pool i t hi
    obtain ⟨c2, e2⟩ := remapHead_spec (Disk.evens d0.map1) 0 _ i _ e1
    exact ⟨c2, by rw [e2]; cases t <;> rfl⟩
  have hplen : (halved d0).pool.length = 160 := by
    show (Disk.remapHead 0 _ (Disk.remapHead 0 _ d0.pool)).length = _
    rw [remapHead_len, remapHead_len, h2.len]; decide
  obtain ⟨ch, kc⟩ := hpool 0 t k1
  have han := analyze_all (halved d0) 11 (by omega) (by
      intro x hx
      obtain ⟨j, hj, rfl⟩ := List.getElem_of_mem hx
      obtain ⟨y, y1, y2⟩ := adf_track h2 j (by omega)
      obtain ⟨c, e⟩ := hpool j y y1
      rw [List.getElem?_eq_getElem hj] at e
      rw [Option.some.inj e, (setCh_keeps y c).1, y2.count.2])
    ⟨0, by rw [hev]; simp, by omega⟩
  obtain ⟨b, s, b1, b2⟩ := adf_boot hl nz { halved d0 with spt := some 11 } t ch _ hev kc k2
  refine ⟨{ halved d0 with spt := some 11, boot := some b, standardFormat := s }, ?_, hlen, hodd, ?_⟩
  · unfold Raw.load
    rw [h1]
    simp only
    unfold Disk.postLoad
    rw [(adf_normalize h2 hl H nz).2 hd, han, b1]
  · unfold Disk.closestFormat
    have hg : (halved d0).geometry.h = 2 := by
      show d0.geometry.h = 2
      rw [hgeo]; rfl
    have hcons : ((some 11).bind fun spt => (StdFormat.normalizedTrackCt (halved d0).map0.length).bind fun c =>
        StdFormat.ofChs ⟨c, (halved d0).geometry.h, spt % 256⟩) = none := by
      rw [hlen, hg]; decide
    simp only [hcons, Option.bind_some, b2]
    cases bootFormat (file.drop 512) with
    | none => rfl
    | some g => rfl

theorem ite_ne_of {α : Type} {p : Prop} [Decidable p] {a b x : α} (h1 : a ≠ x) (h2 : b ≠ x) :
    (if p then a else b) ≠ x := by split <;> assumption

theorem bootFormat_pc (file : List Byte) : bootFormat file ≠ some .amiga880 := by
  unfold bootFormat
  generalize Bpb2.read file bpbOffset = b
  unfold Bpb2.format
  repeat (refine ite_ne_of (by decide) ?_)
  decide

/-! ### Histories on a sector-list disk -/

/-- A sector-list track holding a map, each sector number at most once. -/
def SectHolds (t : MetaTrack) (m : SectorMap) : Prop :=
  t.Sound ∧ (∀ s ∈ t.sectors, s.deletedMark = false ∧ s.dataError = false ∧ s.addressError = false) ∧
  (t.sectors.map (·.id.s)).Nodup ∧ m = t.sectors.map fun s => (s.id, s.data)

theorem agrees_s {q : Query} {x : Chsn} (h : agrees q x = true) : q.s = x.s := by
  unfold agrees at h
  simp at h
  exact h.1.1.1

theorem filter_unique (q : Query) : ∀ l : List MetaSector, (l.map (·.id.s)).Nodup →
    (∃ a s b, l = a ++ s :: b ∧ (l.filter fun x => q.matchesB x.id) = [s] ∧ agrees q s.id = true ∧
      (∀ x ∈ a ++ b, agrees q x.id = false)) ∨ (∀ x ∈ l, agrees q x.id = false)
  | [], _ => Or.inr (by simp)
  | x :: l, h => by
    rw [List.map_cons, List.nodup_cons] at h
    by_cases hx : agrees q x.id = true
    · left
      have hrest : ∀ y ∈ l, agrees q y.id = false := by
        intro y hy
        refine Bool.eq_false_iff.2 fun hy' => h.1 ?_
        rw [← agrees_s hx, agrees_s hy']
        exact List.mem_map_of_mem hy
      refine ⟨[], x, l, rfl, ?_, hx, by simpa using hrest⟩
      rw [List.filter_cons, if_pos (by rw [matchesB_eq]; exact hx), List.filter_eq_nil_iff.2]
      intro y hy
      rw [matchesB_eq, hrest y hy]; simp
    · have hx := Bool.eq_false_iff.2 hx
      rcases filter_unique q l h.2 with ⟨a, s, b, h1, h2, h3, h4⟩ | h1
      · left
        refine ⟨x :: a, s, b, by rw [h1]; rfl, ?_, h3, ?_⟩
        · rw [List.filter_cons, if_neg (by rw [matchesB_eq, hx]; simp)]; exact h2
        · intro y hy
          rcases List.mem_cons.1 hy with rfl | hy
          · exact hx
          · exact h4 y hy
      · right
        intro y hy
        rcases List.mem_cons.1 hy with rfl | hy
        · exact hx
        · exact h1 y hy

theorem lookup_app (q : Query) (d : List Byte) (id : Chsn) (hid : agrees q id = true) (b : SectorMap) :
    ∀ a : SectorMap, (∀ x ∈ a, agrees q x.1 = false) →
      SectorMap.lookup q (a ++ (id, d) :: b) = some d ∧
      ∀ buf, SectorMap.update q buf (a ++ (id, d) :: b) = a ++ (id, buf) :: b
  | [], _ => by
    refine ⟨?_, fun buf => ?_⟩
    · rw [List.nil_append, SectorMap.lookup, if_pos hid]
    · rw [List.nil_append, SectorMap.update, if_pos hid]; rfl
  | x :: a, h => by
    have hx := h x (by simp)
    obtain ⟨h1, h2⟩ := lookup_app q d id hid b a (fun y hy => h y (by simp [hy]))
    refine ⟨?_, fun buf => ?_⟩
    · rw [List.cons_append, SectorMap.lookup, if_neg (by rw [hx]; simp), h1]
    · rw [List.cons_append, SectorMap.update, if_neg (by rw [hx]; simp), h2]; rfl

theorem lookup_absent (q : Query) : ∀ m : SectorMap, (∀ x ∈ m, agrees q x.1 = false) → SectorMap.lookup q m = none
  | [], _ => rfl
  | x :: m, h => by
    rw [SectorMap.lookup, if_neg (by rw [h x (by simp)]; simp), lookup_absent q m fun y hy => h y (by simp [hy])]

theorem SectHolds.write {t : MetaTrack} {m : SectorMap} (h : SectHolds t m) (q : Query) (buf d : List Byte)
    (hd : m.lookup q = some d) :
    if buf.length ≠ d.length then t.writeSector q buf false = .error .parameter
    else ∃ r t', t.writeSector q buf false = .ok (r, t') ∧ r.notFound = false ∧ r.addressCrcError = false ∧
      r.noDam = false ∧ SectHolds t' (m.update q buf) := by
  obtain ⟨h1, h2, h3, rfl⟩ := h
  rcases filter_unique q t.sectors h3 with ⟨a, s, b, e1, e2, e3, e4⟩ | hno
  · have hm : t.matching q = [s] := e2
    have hmap : (t.sectors.map fun s => (s.id, s.data)) =
        (a.map fun s => (s.id, s.data)) ++ (s.id, s.data) :: b.map fun s => (s.id, s.data) := by
      rw [e1]; simp
    have ha : ∀ x ∈ a.map fun s => (s.id, s.data), agrees q x.1 = false := by
      intro x hx
      obtain ⟨y, hy, rfl⟩ := List.mem_map.1 hx
      exact e4 y (by simp [hy])
    obtain ⟨l1, l2⟩ := lookup_app q s.data s.id e3 (b.map fun s => (s.id, s.data)) _ ha
    rw [hmap, l1] at hd
    cases hd
    have hs : s ∈ t.sectors := by rw [e1]; simp
    obtain ⟨s1, s2, s3, s4⟩ := h1 s hs
    obtain ⟨f1, f2, f3⟩ := h2 s hs
    unfold MetaTrack.writeSector
    simp only [hm]
    by_cases hlen : buf.length ≠ s.data.length
    · rw [if_pos hlen, if_pos (by rw [← s4]; exact fun e => hlen e.symm)]
    · rw [if_neg hlen, if_neg (by rw [← s4]; intro h; exact hlen fun e => h e.symm)]
      simp only [s1, f3, Bool.or_self, Bool.false_eq_true, if_false]
      rw [if_neg (by intro h; exact hlen fun e => h e.symm)]
      refine ⟨_, _, rfl, rfl, rfl, rfl, ?_⟩
      have hupd : ∀ l : List MetaSector, (∀ x ∈ l, agrees q x.id = false) →
          l.map (fun x => if q.matchesB x.id = true then { x with data := buf, deletedMark := false } else x) = l := by
        intro l hl
        conv_rhs => rw [← List.map_id l]
        apply List.map_congr_left
        intro x hx
        rw [matchesB_eq, hl x hx]; rfl
      have hnew : t.sectors.map (fun x => if q.matchesB x.id = true then
          { x with data := buf, deletedMark := false } else x) =
          a ++ { s with data := buf, deletedMark := false } :: b := by
        rw [e1, List.map_append, List.map_cons, hupd a (fun x hx => e4 x (by simp [hx])),
          hupd b (fun x hx => e4 x (by simp [hx])), matchesB_eq, if_pos e3]
      refine ⟨?_, ?_, ?_, ?_⟩
      · intro x hx
        have hx : x ∈ t.sectors.map (fun x => if q.matchesB x.id = true then
          { x with data := buf, deletedMark := false } else x) := hx
        rw [hnew] at hx
        rcases List.mem_append.1 hx with hx | hx
        · exact h1 x (by rw [e1]; simp [hx])
        · rcases List.mem_cons.1 hx with rfl | hx
          · refine ⟨s1, s2, s3, ?_⟩
            show buf.length = s.id.size
            rw [← s4]; exact Classical.byContradiction hlen
          · exact h1 x (by rw [e1]; simp [hx])
      · intro x hx
        have hx : x ∈ t.sectors.map (fun x => if q.matchesB x.id = true then
          { x with data := buf, deletedMark := false } else x) := hx
        rw [hnew] at hx
        rcases List.mem_append.1 hx with hx | hx
        · exact h2 x (by rw [e1]; simp [hx])
        · rcases List.mem_cons.1 hx with rfl | hx
          · exact ⟨rfl, f2, f3⟩
          · exact h2 x (by rw [e1]; simp [hx])
      · show ((t.sectors.map (fun x => if q.matchesB x.id = true then
          { x with data := buf, deletedMark := false } else x)).map (·.id.s)).Nodup
        rw [hnew]
        rw [e1] at h3
        simpa using h3
      · show _ = (t.sectors.map (fun x => if q.matchesB x.id = true then
          { x with data := buf, deletedMark := false } else x)).map _
        rw [hnew, hmap, l2]
        simp
  · rw [lookup_absent q _ (by
      intro x hx
      obtain ⟨y, hy, rfl⟩ := List.mem_map.1 hx
      exact hno y hy)] at hd
    cases hd

/-- A disk of sector-list tracks holding a map. -/
structure SectDisk (d : Disk) (M : DiskMap) : Prop where
  rel : DiskRel false d M
  sect : ∀ (ch : Ch) (i : Nat), ch.h < 2 → (d.headMap ch.h)[ch.c]? = some i →
    ∃ t m, d.pool[i]? = some (.sect t) ∧ M ch = some m ∧ SectHolds t m

theorem SectHolds.holds {t : MetaTrack} {m : SectorMap} (h : SectHolds t m) : Holds (.sect t) m := by
  obtain ⟨h1, h2, _, rfl⟩ := h
  exact Holds.sect h1 h2

theorem SectDisk.step {d : Disk} {M : DiskMap} (h : SectDisk d M) (op : SectorOp) (hop : Hits M op) :
    SectDisk (basicStep d op).1 (M.step op).1 ∧ (basicStep d op).2 = (M.step op).2 := by
  cases op with
  | read nz ch q =>
    simp only [basicStep, DiskMap.step, h.rel.readBasic nz ch q]
    cases M ch with
    | none => exact ⟨h, rfl⟩
    | some m =>
      simp only
      cases m.lookup q with
      | none => exact ⟨h, rfl⟩
      | some l => exact ⟨h, rfl⟩
  | write ch q buf =>
    simp only [basicStep, DiskMap.step, Disk.writeBasic, Disk.writeSector]
    rcases h.rel.seek ch with ⟨h1, h2⟩ | ⟨i, t, m, h1, h2, h3, h4, h5, h6, h7⟩
    · simp only [h1, h2]; exact ⟨h, rfl⟩
    · simp only [h4, h7]
      obtain ⟨t0, m0, k1, k2, k3⟩ := h.sect ch i h2 h1
      rw [h3] at k1
      rw [h4] at k2
      cases k1
      cases k2
      have hsome := hop m h4
      cases hl : m.lookup q with
      | none => rw [hl] at hsome; cases hsome
      | some l =>
        have hw := k3.write q buf l hl
        by_cases hlen : buf.length ≠ l.length
        · rw [if_pos hlen] at hw
          simp only [DiskTrack.writeSector, hw, Except.map, if_pos hlen]
          exact ⟨h, rfl⟩
        · rw [if_neg hlen] at hw
          obtain ⟨r, t', g1, g2, g3, g4, g5⟩ := hw
          simp only [DiskTrack.writeSector, g1, Except.map, if_neg hlen, g2, g3, g4, Bool.or_self,
            Bool.false_eq_true, if_false]
          refine ⟨⟨h.rel.update h2 h1 g5.holds (fun h => by cases h), ?_⟩, rfl⟩
          intro c j hc hj
          have hj : (d.headMap c.h)[c.c]? = some j := hj
          obtain ⟨tc, mc, p1, p2, p3⟩ := h.sect c j hc hj
          by_cases hcc : c = ch
          · subst hcc
            rw [h1] at hj
            cases hj
            have hlt : i < d.pool.length := by
              rcases Nat.lt_or_ge i d.pool.length with hlt | hge
              · exact hlt
              · rw [List.getElem?_eq_none hge] at p1; cases p1
            exact ⟨t', _, by simp [hlt], by simp, g5⟩
          · have hij : i ≠ j := by
              rintro rfl
              exact hcc (h.rel.apart c ch i hc h2 hj h1)
            exact ⟨tc, mc, by simp only [List.getElem?_set, if_neg hij]; exact p1,
              by simp only [if_neg hcc]; exact p2, p3⟩

theorem lookup_update_isSome (q q' : Query) (buf : List Byte) : ∀ m : SectorMap,
    (SectorMap.lookup q' (m.update q buf)).isSome = (m.lookup q').isSome
  | [] => rfl
  | e :: m => by
    rw [SectorMap.update]
    by_cases h : agrees q e.1 = true
    · rw [if_pos h, SectorMap.lookup, SectorMap.lookup]
      by_cases h' : agrees q' e.1 = true
      · rw [if_pos h', if_pos h']; rfl
      · rw [if_neg h', if_neg h']
    · rw [if_neg h, SectorMap.lookup, SectorMap.lookup]
      by_cases h' : agrees q' e.1 = true
      · rw [if_pos h', if_pos h']
      · rw [if_neg h', if_neg h']; exact lookup_update_isSome q q' buf m

theorem hits_step {M : DiskMap} (op op' : SectorOp) (h : Hits M op') : Hits (M.step op).1 op' := by
  cases op' with
  | read => trivial
  | write ch q buf =>
    cases op with
    | read nz c q' =>
      simp only [DiskMap.step]
      cases M c with
      | none => exact h
      | some m => simp only; cases m.lookup q' <;> exact h
    | write c q' b =>
      simp only [DiskMap.step]
      cases hm : M c with
      | none => exact h
      | some m =>
        simp only
        cases m.lookup q' with
        | none => exact h
        | some l =>
          simp only
          split
          · exact h
          · intro m' hm'
            simp only at hm'
            split at hm'
            · rename_i hcc
              subst hcc
              cases hm'
              rw [lookup_update_isSome]
              exact h m hm
            · exact h m' hm'

theorem SectDisk.run : ∀ (ops : List SectorOp) {d : Disk} {M : DiskMap}, SectDisk d M →
    (∀ op ∈ ops, Hits M op) → basicRun d ops = M.run ops
  | [], _, _, _, _ => rfl
  | op :: ops, d, M, h, hh => by
    obtain ⟨h1, h2⟩ := h.step op (hh op (by simp))
    rw [basicRun, DiskMap.run, h2, SectDisk.run ops h1 fun o ho => hits_step op o (hh o (by simp [ho]))]

theorem LoadedSect.sectHolds {file : List Byte} {j : Nat} {x : DiskTrack} (h : LoadedSect adf file j x)
    (hj : j < 160) (hl : file.length = 901120) : ∃ t, x = .sect t ∧ SectHolds t (imgTrack adf file j) := by
  obtain ⟨t, rfl, hch, hs⟩ := h
  refine ⟨t, rfl, ?_, ?_, ?_, ?_⟩
  · have := adfSectors_sound file j hj hl t.ch
    rw [← hs] at this
    exact this
  · intro s hmem
    rw [hs] at hmem
    obtain ⟨i, _, rfl⟩ := List.mem_map.1 hmem
    exact ⟨rfl, rfl, rfl⟩
  · rw [hs]
    unfold adfSectors
    rw [List.map_map]
    show ((List.range 11).map fun s => s + 0).Nodup
    decide
  · rw [hs]; unfold adfSectors imgTrack; rw [List.map_map]; rfl

/-- The disk loaded from an image that is not doubled. -/
theorem adf_load_whole {file : List Byte} (hl : file.length = 901120) (H : List Byte → Nat) (nz : Noise)
    (hd : ¬ ∀ i, i < 40 → H (adfTrack file (2 * i) 0) = H (adfTrack file (2 * i + 1) 0)) :
    ∃ d, Raw.load H nz file = .ok d ∧ SectDisk d (imgDisk adf file) ∧
      d.closestFormat true = some ((bootFormat (file.drop 512)).getD .amiga880) := by
  obtain ⟨d0, h1, hgeo, h2⟩ := loadAdf_spec nz file hl
  obtain ⟨t, k1, k2⟩ := adf_track h2 0 (by omega)
  have hm : d0.map0 = 0 :: ((List.range' 1 79).map fun c => c * 2 + 0) := by
    rw [adf_map0 h2, List.range_eq_range', List.range'_succ]; rfl
  have hrel : DiskRel false d0 (imgDisk adf file) :=
    h2.relOf false (Or.inr rfl) fun j t hj ht => ⟨ht.holds hj hl, fun h => by cases h⟩
  have hsect : ∀ (ch : Ch) (i : Nat), ch.h < 2 → (d0.headMap ch.h)[ch.c]? = some i →
      ∃ t m, d0.pool[i]? = some (.sect t) ∧ imgDisk adf file ch = some m ∧ SectHolds t m := by
    intro ch i hh hi
    rw [h2.headLen (Or.inr rfl) ch.h hh] at hi
    have hi : ((List.range 80).map fun c => c * 2 + ch.h)[ch.c]? = some i := hi
    have hc : ch.c < 80 := by
      rcases Nat.lt_or_ge ch.c 80 with h1 | h1
      · exact h1
      · rw [List.getElem?_eq_none (by rw [List.length_map, List.length_range]; exact h1)] at hi; cases hi
    rw [List.getElem?_map, List.getElem?_range hc] at hi
    have hi : ch.c * 2 + ch.h = i := by simpa using hi
    obtain ⟨x, y1, y2⟩ := adf_track h2 i (by omega)
    obtain ⟨t, rfl, z⟩ := y2.sectHolds (by omega) hl
    refine ⟨t, _, y1, ?_, z⟩
    unfold imgDisk
    rw [if_pos ⟨hc, hh⟩]
    show some (imgTrack adf file (ch.c * 2 + ch.h)) = _
    rw [hi]
  have han := h2.analyzeOf (Or.inr rfl) (by decide) (by decide) (fun j t ht => ht.count.2)
  obtain ⟨b, s, b1, b2⟩ := adf_boot hl nz { d0 with spt := some adf.s } t t.ch _ hm
    (by show d0.pool[0]? = _; rw [k1]; cases t <;> rfl) k2
  refine ⟨{ d0 with spt := some adf.s, boot := some b, standardFormat := s }, ?_,
    ⟨⟨hrel.bad, hrel.gone, hrel.held, hrel.apart⟩, hsect⟩, ?_⟩
  · unfold Raw.load
    rw [h1]
    simp only
    unfold Disk.postLoad
    rw [(adf_normalize h2 hl H nz).1 hd, han, b1]
  · unfold Disk.closestFormat
    have hlen : d0.map0.length = 80 := by rw [adf_map0 h2]; simp
    have hcons : ((some adf.s).bind fun spt => (StdFormat.normalizedTrackCt d0.map0.length).bind fun c =>
        StdFormat.ofChs ⟨c, d0.geometry.h, spt % 256⟩) = some .amiga880 := by
      rw [hlen, hgeo]; rfl
    simp only [hcons, Option.bind_some, b2]
    cases bootFormat (file.drop 512) with
    | none => rfl
    | some g =>
      by_cases hg : g = .amiga880
      · subst hg; rfl
      · simp [hg]

end Fox
