import Verif.Proofs.RawLoad
import Verif.Spec.Raw
/-
Loading a raw PC image: post-processing, and saving it again.
-/
namespace Fox
open Fox.Spec Fox.S34

/-- A raw image as a disk of sectors. -/
def imgDisk (g : Layout) (file : List Byte) : DiskMap := fun ch =>
  if ch.c < g.c ∧ ch.h < g.h then some (imgTrack g file (ch.c * g.h + ch.h)) else none

/-! ### The packed cells determine the cells -/

theorem packed_inj (a b : List Bool) (hl : a.length = b.length)
    (h : DiskTrack.packed a = DiskTrack.packed b) : a = b := by
  apply ext_getD a b false hl
  intro i hi
  have hi' : i / 8 < (a.length + 7) / 8 := by omega
  have hb : ∀ (l : List Bool), i < l.length → ((DiskTrack.packed l).getD (i / 8) 0).getMsbD (i % 8) = l.getD i false := by
    intro l hl
    unfold DiskTrack.packed
    rw [getD_map_range _ _ _ _ (by omega), byteOfBits_getMsbD _ _ (by omega)]
    congr 1; omega
  rw [← hb a hi, ← hb b (by omega), h]

/-- Two tracks with equal cells have the same sector ids at the same places. -/
theorem same_cells {N N' : Nat} {t t' : Track} {iam iam' : Option Nat} {x x' : Sec} {l l' : List Sec}
    (h : Rel N t iam (x :: l)) (h' : Rel N' t' iam' (x' :: l')) (hio : x.io = x'.io)
    (he : t.data.bits.bits = t'.data.bits.bits) : x.id = x'.id := by
  obtain ⟨B, hs⟩ := h.ok.stream
  obtain ⟨B', hs'⟩ := h'.ok.stream
  have hlen : B.length = B'.length := by
    have h1 := hs.cells.len
    have h2 := hs'.cells.len
    rw [he] at h1
    omega
  have hd : ∀ j, j < 8 * B.length → dat B j = dat B' j := by
    intro j hj
    rw [← hs.cells.data j hj, ← hs'.cells.data j (by omega), he]
  have hB : B = B' := by
    apply ext_getD B B' 0 hlen
    intro i hi
    apply BitVec.eq_of_getMsbD_eq
    intro k hk
    rw [← dat_byte B i k hk, ← dat_byte B' i k hk]
    exact hd _ (by omega)
  have h1 := (hs.secOk x (by simp)).header
  have h2 := (hs'.secOk x' (by simp)).header
  rw [hB, hio] at h1
  rw [h1] at h2
  have k1 := (hs.secOk x (by simp)).idOk
  have k2 := (hs'.secOk x' (by simp)).idOk
  obtain ⟨a1, a2, a3, a4⟩ := k1
  obtain ⟨b1, b2, b3, b4⟩ := k2
  unfold withCrc idBytes at h2
  simp only [markBytes, List.cons_append, List.nil_append, List.cons.injEq, true_and] at h2
  obtain ⟨e1, e2, e3, e4, _⟩ := h2
  have cast : ∀ m n : Nat, m < 256 → n < 256 → BitVec.ofNat 8 m = BitVec.ofNat 8 n → m = n := by
    intro m n hm hn e
    rw [← ofNat_toNat_byte m hm, ← ofNat_toNat_byte n hn, e]
  have := cast _ _ a1 b1 e1
  have := cast _ _ a2 b2 e2
  have := cast _ _ a3 b3 e3
  have := cast _ _ a4 b4 e4
  cases hx : x.id; cases hx' : x'.id
  simp_all

/-! ### Lookup -/

theorem lookup_map {α : Type} (f : α → Chsn) (g : α → List Byte) (a : α) : ∀ l : List α, a ∈ l →
    (∀ b ∈ l, f b = f a → b = a) →
    SectorMap.lookup (.ofChsn (f a)) (l.map fun x => (f x, g x)) = some (g a)
  | b :: l, ha, hinj => by
    rw [List.map_cons, SectorMap.lookup]
    by_cases hb : f b = f a
    · have := hinj b (by simp) hb
      subst this
      rw [if_pos ((agrees_ofChsn _ _).2 rfl)]
    · rw [if_neg (fun h => hb ((agrees_ofChsn _ _).1 h).symm)]
      rcases List.mem_cons.1 ha with rfl | ha
      · exact absurd rfl hb
      · exact lookup_map f g a l ha (fun c hc => hinj c (by simp [hc]))

theorem imgDisk_lookup (g : Layout) (file : List Byte) (x : Chs) (hx : InLayout g x) :
    ∃ m, imgDisk g file ⟨x.c, x.h⟩ = some m ∧
      m.lookup (.ofChsn ⟨x.c, x.h, x.s, g.n⟩) = some (slice file (lbaOf g x * g.size) g.size) := by
  obtain ⟨h1, h2, h3, h4⟩ := hx
  refine ⟨_, if_pos ⟨h1, h2⟩, ?_⟩
  unfold imgTrack
  have e1 : (x.c * g.h + x.h) / g.h = x.c := by
    rw [Nat.mul_comm, Nat.mul_add_div (by omega), Nat.div_eq_of_lt h2, Nat.add_zero]
  have e2 : (x.c * g.h + x.h) % g.h = x.h := by
    rw [Nat.mul_comm, Nat.mul_add_mod, Nat.mod_eq_of_lt h2]
  show SectorMap.lookup _ (List.map (fun s => (Chsn.mk ((x.c * g.h + x.h) / g.h) ((x.c * g.h + x.h) % g.h)
    (s + g.sOff) g.n, _)) _) = _
  rw [e1, e2]
  have := lookup_map (fun s => Chsn.mk x.c x.h (s + g.sOff) g.n)
    (fun s => slice file (((x.c * g.h + x.h) * g.s + s) * g.size) g.size) (x.s - g.sOff) (List.range g.s)
    (by rw [List.mem_range]; omega) (by
      intro b _ hb
      have hb' : b + g.sOff = x.s - g.sOff + g.sOff := congrArg Chsn.s hb
      omega)
  rw [show x.s - g.sOff + g.sOff = x.s by omega] at this
  rw [this]
  congr 3
  unfold lbaOf
  rw [Nat.add_mul, Nat.mul_assoc]

/-! ### The loaded disk holds the image -/

theorem LoadedBit.holds {f : StdFormat} {file : List Byte} {j : Nat} {x : DiskTrack} (h : LoadedBit f file j x)
    (hj : j < f.layout.c * f.layout.h) (hl : file.length = f.diskSize) :
    Holds x (imgTrack f.layout file j) ∧ ∃ t, x = .bit (chOf f.layout j) t := by
  obtain ⟨t, rfl, hr, _⟩ := h
  refine ⟨?_, t, rfl⟩
  have hh := Holds.bit (ch := chOf f.layout j) hr
  unfold formatted at hh
  rw [fresh_eq] at hh
  have hg : f.layout.h = 1 ∨ f.layout.h = 2 := by cases f <;> decide
  have hcc : f.layout.c ≤ 80 := by cases f <;> decide
  rw [fresh_track f.layout file j (layout_nSize f)] at hh
  · exact hh
  · rcases hg with hg | hg <;> rw [hg] at hj ⊢ <;> omega
  · have h1 : (j + 1) * (f.layout.s * f.layout.size) ≤
        f.layout.c * f.layout.h * (f.layout.s * f.layout.size) := Nat.mul_le_mul_right _ hj
    have h2 : f.layout.c * f.layout.h * (f.layout.s * f.layout.size) = f.diskSize := by
      cases f <;> decide
    omega

theorem Built.headLen {g : Layout} {P : Nat → DiskTrack → Prop} {r : ResSet} {d : Disk}
    (h : Built g P r (g.c * g.h) d) (hg : g.h = 1 ∨ g.h = 2) (a : Nat) (ha : a < g.h) :
    d.headMap a = (List.range g.c).map fun c => c * g.h + a := by
  rw [h.map a ha]
  congr 2
  rcases hg with hg | hg <;> rw [hg] at ha ⊢ <;> omega

theorem Built.relOf {g : Layout} {P : Nat → DiskTrack → Prop} {file : List Byte} {r : ResSet} {d : Disk} (bo : Bool)
    (h : Built g P r (g.c * g.h) d) (hg : g.h = 1 ∨ g.h = 2)
    (hP : ∀ j t, j < g.c * g.h → P j t → Holds t (imgTrack g file j) ∧ (bo = true → ∃ c x, t = .bit c x)) :
    DiskRel bo d (imgDisk g file) := by
  refine ⟨?_, ?_, ?_, ?_⟩
  · intro ch hh
    unfold imgDisk
    rw [if_neg]
    rcases hg with hg | hg <;> rw [hg] <;> omega
  · intro ch hh hn
    unfold imgDisk
    rw [if_neg]
    rintro ⟨h1, h2⟩
    rw [h.headLen hg _ h2] at hn
    simp at hn
    omega
  · intro ch i hh hi
    rcases Nat.lt_or_ge ch.h g.h with h2 | h2
    · rw [h.headLen hg _ h2] at hi
      have hc : ch.c < g.c := by
        rcases Nat.lt_or_ge ch.c g.c with h1 | h1
        · exact h1
        · rw [List.getElem?_eq_none (by simpa using h1)] at hi; cases hi
      rw [List.getElem?_map, List.getElem?_range hc] at hi
      have hi : ch.c * g.h + ch.h = i := by simpa using hi
      have hlt : i < g.c * g.h := by
        rw [← hi]
        rcases hg with hg | hg <;> rw [hg] at h2 ⊢ <;> omega
      obtain ⟨t, k1, k2⟩ := h.tracks i hlt
      obtain ⟨k3, k4⟩ := hP i t hlt k2
      exact ⟨t, _, k1, by unfold imgDisk; rw [if_pos ⟨hc, h2⟩, hi], k3, k4⟩
    · rw [h.map' _ hh h2] at hi
      simp at hi
  · intro a b i ha hb hia hib
    have dec : ∀ ch : Ch, ch.h < 2 → (d.headMap ch.h)[ch.c]? = some i →
        ch.h < g.h ∧ ch.c * g.h + ch.h = i := by
      intro ch hh hi
      rcases Nat.lt_or_ge ch.h g.h with h2 | h2
      · rw [h.headLen hg _ h2] at hi
        have hc : ch.c < g.c := by
          rcases Nat.lt_or_ge ch.c g.c with h1 | h1
          · exact h1
          · rw [List.getElem?_eq_none (by simpa using h1)] at hi; cases hi
        rw [List.getElem?_map, List.getElem?_range hc] at hi
        exact ⟨h2, by simpa using hi⟩
      · rw [h.map' _ hh h2] at hi
        simp at hi
    obtain ⟨a1, a2⟩ := dec a ha hia
    obtain ⟨b1, b2⟩ := dec b hb hib
    have : a.c = b.c ∧ a.h = b.h := by
      rcases hg with hg | hg <;> rw [hg] at a1 a2 b1 b2 <;> omega
    cases a; cases b
    simp at this
    rw [this.1, this.2]

theorem Built.rel {f : StdFormat} {file : List Byte} {r : ResSet} {d : Disk}
    (h : Built f.layout (LoadedBit f file) r (f.layout.c * f.layout.h) d) (hl : file.length = f.diskSize) :
    DiskRel true d (imgDisk f.layout file) := by
  refine h.relOf true (by cases f <;> decide) fun j t hj ht => ?_
  obtain ⟨h1, t', h2⟩ := ht.holds hj hl
  exact ⟨h1, fun _ => ⟨_, t', h2⟩⟩

/-! ### Post-processing -/

theorem pairs_length : ∀ l : List Nat, (Disk.pairs l).length = l.length / 2
  | [] => rfl
  | [_] => by simp [Disk.pairs]
  | a :: b :: l => by
    rw [Disk.pairs, List.length_cons, pairs_length l]
    simp only [List.length_cons]
    omega

theorem pairs_mem : ∀ (l : List Nat) (p : Nat × Nat), p ∈ Disk.pairs l → p.1 ∈ l ∧ p.2 ∈ l
  | a :: b :: l, p, h => by
    rw [Disk.pairs] at h
    rcases List.mem_cons.1 h with rfl | h
    · simp
    · have := pairs_mem l p h
      simp [this.1, this.2]

theorem LoadedBit.count {f : StdFormat} {file : List Byte} {j : Nat} {x : DiskTrack} (h : LoadedBit f file j x) :
    x.sectorCt = f.layout.s ∧ x.analysisCt = some f.layout.s := by
  obtain ⟨t, rfl, hr, _⟩ := h
  obtain ⟨c1, _, _⟩ := hr.ok.catalogue
  have : t.sectorIds.length = f.layout.s := by
    rw [c1]; unfold formatted; rw [layout_ids]; unfold Raw.trackIds; simp
  refine ⟨this, ?_⟩
  show t.schema.map _ = _
  rw [hr.ok.schema]
  show some t.sectorIds.length = _
  rw [this]

theorem mem_of_getElem? {α : Type} {l : List α} {i : Nat} {x : α} (h : l[i]? = some x) : x ∈ l := by
  exact List.mem_of_getElem? h

theorem Built.normalize {f : StdFormat} {file : List Byte} {r : ResSet} {d : Disk} (hf : f.isPc = true)
    (h : Built f.layout (LoadedBit f file) r (f.layout.c * f.layout.h) d)
    (H : List Byte → Nat) (nz : Noise) (hH : NoCollision H d) : d.normalize H nz = d := by
  have hg : f.layout.h = 1 ∨ f.layout.h = 2 := by cases f <;> decide
  have hs : 0 < f.layout.s := by cases f <;> decide
  have hc : f.layout.c = 40 ∨ f.layout.c = 80 := by cases f <;> decide
  have hmap : d.headMap 0 = (List.range f.layout.c).map fun c => c * f.layout.h + 0 :=
    h.headLen hg 0 (by rcases hg with hg | hg <;> omega)
  have hmem : ∀ i ∈ d.headMap 0, ∃ t, d.pool[i]? = some t ∧ LoadedBit f file i t := by
    intro i hi
    rw [hmap] at hi
    obtain ⟨c, hc1, rfl⟩ := List.mem_map.1 hi
    have hc1 := List.mem_range.1 hc1
    exact h.tracks _ (by rcases hg with hg | hg <;> rw [hg] <;> omega)
  have hlen : d.map0.length = f.layout.c := by
    have : d.map0 = d.headMap 0 := rfl
    rw [this, hmap]; simp
  unfold Disk.normalize
  simp only
  have h1 : ¬ (d.trackIdx.length > 50 ∧ d.emptyOdd 0 ≥ Disk.normCyl d.trackIdx.length / 2) := by
    rintro ⟨a, b⟩
    have hz : d.emptyOdd 0 = 0 := by
      unfold Disk.emptyOdd
      rw [List.length_eq_zero_iff, List.filter_eq_nil_iff]
      intro p hp
      obtain ⟨_, p2⟩ := pairs_mem _ p hp
      obtain ⟨t, k1, k2⟩ := hmem _ p2
      rw [k1]
      cases d.pool[p.1]? with
      | none => simp
      | some a => simp [k2.count.1]; omega
    rw [hz] at b
    unfold Disk.normCyl at b
    split at b
    · omega
    · split at b <;> omega
  rw [if_neg h1]
  have h2 : ¬ (d.map0.length > 50 ∧ d.duplicateOdd H nz 0 ≥ Disk.normCyl d.map0.length / 2) := by
    rintro ⟨a, b⟩
    rw [hlen] at a b
    have h80 : f.layout.c = 80 := by omega
    rw [h80] at b
    have b : d.duplicateOdd H nz 0 ≥ 40 := b
    have hp : (Disk.pairs (d.headMap 0)).length = 40 := by
      rw [pairs_length, hmap, List.length_map, List.length_range, h80]
    have hfirst : (0 * f.layout.h + 0, 1 * f.layout.h + 0) ∈ Disk.pairs (d.headMap 0) := by
      rw [hmap, h80]
      rw [show List.range 80 = 0 :: 1 :: List.range' 2 78 by
        rw [List.range_eq_range', List.range'_succ, List.range'_succ]]
      rw [List.map_cons, List.map_cons, Disk.pairs]
      exact List.mem_cons_self
    have hlt : d.duplicateOdd H nz 0 < (Disk.pairs (d.headMap 0)).length := by
      unfold Disk.duplicateOdd
      rw [List.length_filter_lt_length_iff_exists]
      refine ⟨_, hfirst, ?_⟩
      obtain ⟨q1, q2⟩ := pairs_mem _ _ hfirst
      obtain ⟨t1, u1, v1⟩ := hmem _ q1
      obtain ⟨t2, u2, v2⟩ := hmem _ q2
      simp only [u1, u2]
      obtain ⟨t, rfl, hr, _⟩ := v1
      obtain ⟨t', rfl, hr', _⟩ := v2
      intro hand
      rw [Bool.and_eq_true, beq_iff_eq] at hand
      have heq := hH _ _ _ _ (List.mem_of_getElem? u1) (List.mem_of_getElem? u2) hand.2
      have hcells : t.data.bits.bits.length = t'.data.bits.bits.length := by
        obtain ⟨B, hs1⟩ := hr.ok.stream
        obtain ⟨B', hs2⟩ := hr'.ok.stream
        have l1 := hs1.cells.len
        have l2 := hs2.cells.len
        have m1 := hr.len
        have m2 := hr'.len
        unfold Mfm.len BitRing.len at m1 m2
        omega
      have hbits := packed_inj _ _ hcells heq
      obtain ⟨n, hn⟩ : ∃ n, f.layout.s = n + 1 := ⟨f.layout.s - 1, by omega⟩
      have shape : ∀ j, ∃ x l, formatted .ibm (trackSlice f.layout file j) f.gap3
          (Raw.trackIds f.layout (chOf f.layout j)) = x :: l ∧ x.io = preBytes .ibm + 12 ∧
          x.id = onDisk ⟨j / f.layout.h, j % f.layout.h, 0 + f.layout.sOff, f.layout.n⟩ := by
        intro j
        unfold formatted Raw.trackIds
        rw [hn, List.range_eq_range', List.range'_succ, List.map_cons, layout]
        exact ⟨_, _, rfl, rfl, rfl⟩
      obtain ⟨x, l, e1, e2, e3⟩ := shape (0 * f.layout.h + 0)
      obtain ⟨x', l', e1', e2', e3'⟩ := shape (1 * f.layout.h + 0)
      rw [e1] at hr
      rw [e1'] at hr'
      have hid := same_cells hr hr' (by rw [e2, e2']) hbits
      rw [e3, e3'] at hid
      have hcyl := congrArg Chsn.c hid
      have hcyl : (0 * f.layout.h + 0) / f.layout.h % 256 = (1 * f.layout.h + 0) / f.layout.h % 256 := hcyl
      rcases hg with hg | hg <;> rw [hg] at hcyl <;> omega
    omega
  rw [if_neg h2]

/-- The sector count found when all tracks have the same. -/
theorem analyze_all (d : Disk) (n : Nat) (hn : 0 < n) (hall : ∀ t ∈ d.pool, t.analysisCt = some n)
    (h0 : ∃ i ∈ d.map0, i < d.pool.length) : d.analyze = { d with spt := some n } := by
  have hval : ∀ m ∈ d.sptList, m = n := by
    intro m hm
    unfold Disk.sptList at hm
    rw [List.mem_filterMap] at hm
    obtain ⟨i, _, hi⟩ := hm
    cases hp : d.pool[i]? with
    | none => rw [hp] at hi; cases hi
    | some t =>
      rw [hp] at hi
      simp only [hall t (List.mem_of_getElem? hp), gt_iff_lt, if_pos hn, Option.some.injEq] at hi
      exact hi.symm
  have hne : d.sptList ≠ [] := by
    obtain ⟨i, hi, hlt⟩ := h0
    obtain ⟨c, hc, rfl⟩ := List.getElem_of_mem hi
    have hmem : n ∈ d.sptList := by
      unfold Disk.sptList
      rw [List.mem_filterMap]
      refine ⟨d.map0[c], ?_, ?_⟩
      · unfold Disk.trackIdx
        rw [List.mem_flatMap]
        refine ⟨c, ?_, ?_⟩
        · rw [List.mem_range]; omega
        · simp [List.getElem?_eq_getElem hc]
      · rw [List.getElem?_eq_getElem hlt]
        simp only [hall _ (List.getElem_mem hlt), gt_iff_lt, if_pos hn]
    intro he; rw [he] at hmem; cases hmem
  unfold Disk.analyze
  cases hl : d.sptList with
  | nil => exact absurd hl hne
  | cons m rest =>
    have hm : n = m := (hval m (by rw [hl]; simp)).symm
    have hrest : rest.all (· == m) = true := by
      rw [List.all_eq_true]
      intro k hk
      rw [beq_iff_eq, ← hm]
      exact hval k (by rw [hl]; simp [hk])
    simp only [hm, hrest, if_true]

theorem Built.analyzeOf {g : Layout} {P : Nat → DiskTrack → Prop} {r : ResSet} {d : Disk}
    (h : Built g P r (g.c * g.h) d) (hg : g.h = 1 ∨ g.h = 2) (hc : 0 < g.c) (hs : 0 < g.s)
    (hP : ∀ j t, P j t → t.analysisCt = some g.s) :
    d.analyze = { d with spt := some g.s } := by
  apply analyze_all d g.s hs
  · intro t ht
    obtain ⟨j, hj, rfl⟩ := List.getElem_of_mem ht
    obtain ⟨t', k1, k2⟩ := h.tracks j (by rw [← h.len]; exact hj)
    rw [List.getElem?_eq_getElem hj] at k1
    cases k1
    exact hP j _ k2
  · have hmap : d.map0 = (List.range g.c).map fun c => c * g.h + 0 :=
      h.headLen hg 0 (by rcases hg with hg | hg <;> omega)
    refine ⟨0, ?_, ?_⟩
    · rw [hmap]
      exact List.mem_map.2 ⟨0, by rw [List.mem_range]; exact hc, by omega⟩
    · rw [h.len]
      rcases hg with hg | hg <;> rw [hg] <;> omega

theorem Built.analyze {f : StdFormat} {file : List Byte} {r : ResSet} {d : Disk}
    (h : Built f.layout (LoadedBit f file) r (f.layout.c * f.layout.h) d) :
    d.analyze = { d with spt := some f.layout.s } :=
  h.analyzeOf (by cases f <;> decide) (by cases f <;> decide) (by cases f <;> decide) fun _ _ ht => ht.count.2

theorem read_slice (file : List Byte) :
    Bpb2.read (slice file 0 512) bpbOffset = Bpb2.read file bpbOffset := by
  have hg : ∀ i, i < 512 → (slice file 0 512).getD i 0 = file.getD i 0 := by
    intro i hi
    rw [slice_getD _ _ _ _ hi, Nat.zero_add]
  unfold Bpb2.read rdLe16 bpbOffset
  rw [hg _ (by omega), hg _ (by omega), hg _ (by omega), hg _ (by omega), hg _ (by omega), hg _ (by omega),
    hg _ (by omega), hg _ (by omega), hg _ (by omega), hg _ (by omega), hg _ (by omega), hg _ (by omega),
    hg _ (by omega)]

/-- The disk `DiskImage::load` gives for a PC image, up to the boot sector fields. -/
theorem load_spec' (f : StdFormat) (hf : f.isPc = true) (nz : Noise) (H : List Byte → Nat) (file : List Byte)
    (hl : file.length = f.diskSize) :
    ∃ d0, Raw.loadImage nz file = .ok d0 ∧ (NoCollision H d0 →
      ∃ d, Raw.load H nz file = .ok d ∧ DiskRel true d (imgDisk f.layout file) ∧ d.pool = d0.pool ∧
        d.map0.length = f.layout.c ∧ d.geometry = f.layout.ch ∧ d.spt = some f.layout.s ∧
        d.boot.bind (·.standardFormat) = bootFormat file ∧ d.map0 = d0.map0 ∧ d.map1 = d0.map1 ∧
        d.res = d0.res) := by
  obtain ⟨d0, h1, hgeo, h2⟩ := loadImage_spec f hf nz file hl
  refine ⟨d0, h1, ?_⟩
  intro hH
  have hg : f.layout.h = 1 ∨ f.layout.h = 2 := by cases f <;> decide
  have hmap : d0.map0 = (List.range f.layout.c).map fun c => c * f.layout.h + 0 :=
    h2.headLen hg 0 (by rcases hg with hg | hg <;> omega)
  have hrel := h2.rel hl
  have hsz : 512 ≤ file.length := by rw [hl]; cases f <;> decide
  -- the boot sector
  have hboot : ({ d0 with spt := some f.layout.s } : Disk).readBoot nz = .ok (slice file 0 512) := by
    unfold Disk.readBoot
    obtain ⟨n, hn⟩ : ∃ n, f.layout.c = n + 1 := ⟨f.layout.c - 1, by cases f <;> decide⟩
    have hm0 : d0.map0 = 0 :: ((List.range n).map Nat.succ).map fun c => c * f.layout.h + 0 := by
      rw [hmap, hn, List.range_succ_eq_map, List.map_cons]; simp
    simp only [hm0]
    obtain ⟨t, m, k1, k2, k3, _⟩ := hrel.held ⟨0, 0⟩ 0 (by decide) (by
      show (d0.map0)[0]? = some 0
      rw [hm0]; rfl)
    simp only [k1]
    have hin : InLayout f.layout ⟨0, 0, 1⟩ := by cases f <;> decide
    obtain ⟨m', l1, l2⟩ := imgDisk_lookup f.layout file ⟨0, 0, 1⟩ hin
    have hmm : m' = m := by
      have l1 : imgDisk f.layout file ⟨0, 0⟩ = some m' := l1
      rw [k2] at l1
      exact (Option.some.inj l1).symm
    subst hmm
    obtain ⟨r, r1, r2, r3⟩ := k3.read nz ⟨some 0, some 0, 1, some 2⟩ none (Or.inl rfl) true
    rw [layout_n] at l2
    have l2 : SectorMap.lookup ⟨some 0, some 0, 1, some 2⟩ m' = _ := l2
    obtain ⟨_, _, r4, r5, _⟩ := r3 _ l2
    rw [r1]
    simp only
    rw [if_neg (by omega), r5]
    have hz : lbaOf f.layout ⟨0, 0, 1⟩ = 0 := by
      cases f <;> first | decide | exact absurd hf (by decide)
    rw [hz, (C31_sizes f f).2.2.2, Nat.zero_mul]
  have hlen : (slice file 0 512).length = 512 := slice_length (by omega)
  obtain ⟨b, hb, hbf⟩ : ∃ b, BootSector.new (slice file 0 512) = some b ∧
      b.standardFormat = bootFormat file := by
    unfold BootSector.new
    rw [if_neg (by omega)]
    refine ⟨_, rfl, ?_⟩
    unfold BootSector.standardFormat bootFormat
    show (Bpb2.read (slice file 0 512) bpbOffset).format = _
    rw [read_slice file]
  have hload : Raw.load H nz file =
      .ok (Disk.examineBoot.finish { d0 with spt := some f.layout.s, boot := some b }) := by
    unfold Raw.load
    rw [h1]
    simp only
    unfold Disk.postLoad
    rw [h2.normalize hf H nz hH, h2.analyze]
    unfold Disk.examineBoot
    rw [hboot]
    simp only [hb]
  refine ⟨_, hload, ?_⟩
  have hfin : ∀ x : Disk, ∃ s, Disk.examineBoot.finish x = { x with standardFormat := s } := by
    intro x
    unfold Disk.examineBoot.finish
    split
    · exact ⟨_, rfl⟩
    · exact ⟨x.standardFormat, rfl⟩
  obtain ⟨s, hs⟩ := hfin { d0 with spt := some f.layout.s, boot := some b }
  rw [hs]
  refine ⟨⟨hrel.bad, hrel.gone, hrel.held, hrel.apart⟩, rfl, ?_, hgeo, rfl, ?_, rfl, rfl, rfl⟩
  · show d0.map0.length = _
    rw [hmap]; simp
  · show b.standardFormat = _
    exact hbf

theorem load_spec (f : StdFormat) (hf : f.isPc = true) (nz : Noise) (H : List Byte → Nat) (file : List Byte)
    (hl : file.length = f.diskSize) :
    ∃ d0, Raw.loadImage nz file = .ok d0 ∧ (NoCollision H d0 →
      ∃ d, Raw.load H nz file = .ok d ∧ DiskRel true d (imgDisk f.layout file) ∧ d.pool = d0.pool ∧
        d.map0.length = f.layout.c ∧ d.geometry = f.layout.ch ∧ d.spt = some f.layout.s ∧
        d.boot.bind (·.standardFormat) = bootFormat file) := by
  obtain ⟨d0, h1, h2⟩ := load_spec' f hf nz H file hl
  refine ⟨d0, h1, fun hH => ?_⟩
  obtain ⟨d, k1, k2, k3, k4, k5, k6, k7, _⟩ := h2 hH
  exact ⟨d, k1, k2, k3, k4, k5, k6, k7⟩

/-- The format `save_image` chooses. -/
theorem closest_spec (f : StdFormat) (hf : f.isPc = true) (d : Disk) (bf : Option StdFormat)
    (h1 : d.map0.length = f.layout.c) (h2 : d.geometry = f.layout.ch) (h3 : d.spt = some f.layout.s)
    (h4 : d.boot.bind (·.standardFormat) = bf) : d.closestFormat true = some (bf.getD f) := by
  unfold Disk.closestFormat
  have hcons : (d.spt.bind fun spt => (StdFormat.normalizedTrackCt d.map0.length).bind fun c =>
      StdFormat.ofChs ⟨c, d.geometry.h, spt % 256⟩) = some f := by
    rw [h1, h2, h3]
    cases f <;> first | rfl | exact absurd hf (by decide)
  simp only [hcons, h4]
  cases bf with
  | none => rfl
  | some g =>
    by_cases hfg : g = f
    · subst hfg; simp
    · simp [hfg]

/-! ### Saving -/

theorem fit_length (n : Nat) (l : List Byte) : (Raw.fit n l).length = n := by
  unfold Raw.fit
  simp only [List.length_append, List.length_take, List.length_replicate]
  omega

theorem fit_self (n : Nat) (l : List Byte) (h : l.length = n) : Raw.fit n l = l := by
  unfold Raw.fit
  rw [List.take_of_length_le (by omega), h, Nat.sub_self]
  simp

theorem saveLoop_length (nz : Noise) (n : Nat) (d : Disk) : ∀ (xs : List Chs) (out : List Byte),
    Raw.saveLoop nz n d xs = .ok out → out.length = xs.length * nSize n
  | [], out, h => by
    unfold Raw.saveLoop at h
    cases h; simp
  | x :: xs, out, h => by
    unfold Raw.saveLoop at h
    split at h
    · cases h
    · cases h
    · split at h
      · cases h
      · rename_i out' ho
        cases h
        rw [List.length_append, fit_length, saveLoop_length nz n d xs out' ho, List.length_cons, Nat.succ_mul]
        omega

theorem saveLoop_ok (nz : Noise) (n : Nat) (d : Disk) (F : Chs → List Byte) : ∀ (xs : List Chs),
    (∀ x ∈ xs, d.readBasic nz ⟨x.c, x.h⟩ (.ofChsn ⟨x.c, x.h, x.s, n⟩) none = .ok (F x) ∧
      (F x).length = nSize n) → Raw.saveLoop nz n d xs = .ok (xs.flatMap F)
  | [], _ => rfl
  | x :: xs, h => by
    obtain ⟨h1, h2⟩ := h x (by simp)
    unfold Raw.saveLoop
    rw [h1]
    simp only
    rw [saveLoop_ok nz n d F xs (fun y hy => h y (by simp [hy]))]
    simp only
    rw [fit_self _ _ h2, List.flatMap_cons]

theorem flatMap_slices (file : List Byte) (sz : Nat) : ∀ n : Nat,
    (List.range n).flatMap (fun k => slice file (k * sz) sz) = file.take (n * sz)
  | 0 => by simp
  | n + 1 => by
    rw [List.range_succ, List.flatMap_append, flatMap_slices file sz n]
    simp only [List.flatMap_cons, List.flatMap_nil, List.append_nil]
    unfold slice
    rw [Nat.succ_mul, List.take_add]

theorem flatMap_lba (g : Layout) (file : List Byte) (xs : List Chs)
    (h : ∀ k (hk : k < xs.length), lbaOf g xs[k] = k) :
    xs.flatMap (fun x => slice file (lbaOf g x * g.size) g.size) = file.take (xs.length * g.size) := by
  rw [← flatMap_slices]
  have : xs.map (lbaOf g) = List.range xs.length := by
    apply List.ext_getElem
    · simp
    · intro k h1 h2
      simp only [List.getElem_map, List.getElem_range]
      exact h k (by simpa using h1)
  rw [← this, List.flatMap_map]

/-- What is saved has the size of the chosen format. -/
theorem save_length (nz : Noise) (d : Disk) (g : StdFormat) (hc : d.closestFormat true = some g) (out : List Byte)
    (ho : Raw.save nz d = .ok out) : out.length = g.diskSize := by
  obtain ⟨xs, i1, i2, i3, _⟩ := C13_chs_iter g.layout (by cases g <;> decide) (by cases g <;> decide)
  have i1 : g.layout.iterTake (g.layout.totalSectors + 1) none = .ok (xs, true) := i1
  unfold Raw.save at ho
  rw [hc] at ho
  simp only [i1] at ho
  rw [saveLoop_length _ _ _ _ _ ho, layout_nSize, i2, (C31_sizes g g).1]
  rfl

theorem save_spec (f : StdFormat) (nz : Noise) (d : Disk) (file : List Byte)
    (hl : file.length = f.diskSize) {bo : Bool} (hrel : DiskRel bo d (imgDisk f.layout file)) (g : StdFormat)
    (hc : d.closestFormat true = some g) :
    (g = f → Raw.save nz d = .ok file) ∧
    (∀ out, Raw.save nz d = .ok out → out.length = g.diskSize) := by
  obtain ⟨xs, i1, i2, i3, _⟩ := C13_chs_iter g.layout (by cases g <;> decide) (by cases g <;> decide)
  have i1 : g.layout.iterTake (g.layout.totalSectors + 1) none = .ok (xs, true) := i1
  have hsz := (C31_sizes g g).2.2.2
  constructor
  · rintro rfl
    unfold Raw.save
    rw [hc]
    simp only [i1]
    rw [saveLoop_ok nz _ d (fun x => slice file (lbaOf g.layout x * g.layout.size) g.layout.size)]
    · rw [flatMap_lba _ _ _ (fun k hk => by rw [← toLba_eq]; exact (i3 k hk).2), i2]
      rw [List.take_of_length_le]
      rw [hl, (C31_sizes g g).1]
      unfold sectorCount
      exact Nat.le_refl _
    · intro x hx
      obtain ⟨k, hk, rfl⟩ := List.getElem_of_mem hx
      obtain ⟨m, m1, m2⟩ := imgDisk_lookup g.layout file xs[k] (i3 k hk).1
      rw [hrel.readBasic, m1]
      simp only [m2]
      refine ⟨trivial, ?_⟩
      rw [layout_nSize]
      apply slice_length
      have hlt := lbaOf_lt (i3 k hk).1
      have h1 : (lbaOf g.layout xs[k] + 1) * g.layout.size ≤ sectorCount g.layout * g.layout.size :=
        Nat.mul_le_mul_right _ hlt
      rw [hl, (C31_sizes g g).1]
      rw [Nat.succ_mul] at h1
      exact h1
  · exact save_length nz d g hc

end Fox
