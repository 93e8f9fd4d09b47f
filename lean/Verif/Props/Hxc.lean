import Verif.Proofs.Hxc
import Verif.Props.Hfe
/-
C57: HxC MFM images.
-/
namespace Fox
open Spec Hxc

theorem short_load (debug : Bool) (rnd : Nat → Bool) (f : List Byte) (hs : f.length < 19) :
    Hxc.load debug rnd {} f = .ok ({}, { trackRates := [], rate := rateOf 0 }) := by
  unfold Hxc.load header
  rw [if_neg (by omega)]
  rfl

/-- **C57.** Which files are accepted: the well-formed ones, and every file too short to hold a header. -/
theorem C57_accepts (debug : Bool) (rnd : Nat → Bool) (f : List Byte) :
    (∃ r, Hxc.load debug rnd {} f = .ok r) ↔ f.length < 19 ∨ HxcFile.WellFormed debug f := by
  constructor
  · rintro ⟨r, h⟩
    by_cases hs : f.length < 19
    · exact .inl hs
    · exact .inr (wellFormed_of_ok (by omega) h)
  · rintro (h | h)
    · exact ⟨_, short_load debug rnd f h⟩
    · exact ⟨_, Hxc.load_ok h rnd⟩

/-- **C57.** What a well-formed file becomes, whatever the order of its table: track `c` of a side is the `c`-th of that
side in the table, with its cells, and addressed as the table says, the cylinder cut to 8 bits. -/
theorem C57_by_order (debug : Bool) (rnd : Nat → Bool) (f : List Byte) (h : HxcFile.WellFormed debug f) :
    ∃ d i, Hxc.load debug rnd {} f = .ok (d, i) ∧ d.geometry = ⟨HxcFile.cylinders f, HxcFile.sides f⟩ ∧
      ∀ c hd, hd < 2 →
        cellsAt d ⟨c, hd⟩ = (((HxcFile.tracks f).filter fun x => x.1.h = hd)[c]?).map
          fun x => ((⟨x.1.c % 256, x.1.h⟩ : Ch), x.2.1) := by
  refine ⟨_, _, Hxc.load_ok h rnd, rfl, ?_⟩
  intro c hd hh
  have e := (cells_by_order (rnd := rnd) (detect := false) (added_good h) hh c).1
  have hg : cellsAt { pushAll {} ((added f).map (·.made debug rnd false)) with
        geometry := ⟨HxcFile.cylinders f, HxcFile.sides f⟩ } ⟨c, hd⟩ =
      cellsAt (pushAll {} ((added f).map (·.made debug rnd false))) ⟨c, hd⟩ := rfl
  rw [hg, e]
  have a := added_cells h
  have l : (((added f).filter fun x => x.ch.h = hd)[c]?).map (fun x => (x.ch, cellsOf x.data x.cells)) =
      ((((added f).map fun x => (x.ch, cellsOf x.data x.cells, maskOf false (cellsOf x.data x.cells))).filter
        fun x => x.1.h = hd)[c]?).map (fun x => (x.1, x.2.1)) := by
    rw [List.filter_map, List.getElem?_map, Option.map_map]
    rfl
  rw [l, a, List.filter_map, List.getElem?_map, Option.map_map]
  rfl

theorem added_chs (f : List Byte) : (added f).map BitEntry.ch =
    (HxcFile.tracks f).map fun x => (⟨x.1.c % 256, x.1.h⟩ : Ch) := by
  unfold added HxcFile.tracks
  rw [List.map_map, List.map_map]
  apply List.map_congr_left
  intro i _
  simp only [Function.comp]
  rw [← ent_place]; rfl

/-- Cutting the cylinder changes nothing when it fits. -/
theorem cut_fits {ts : List CellTrack} (hc : ∀ x ∈ ts, x.1.c < 256) :
    (ts.map fun x => ((⟨x.1.c % 256, x.1.h⟩ : Ch), x.2.1, x.2.2)) = ts := by
  conv => rhs; rw [← List.map_id ts]
  apply List.map_congr_left
  rintro ⟨⟨c, h⟩, x⟩ hx
  have : c < 256 := hc _ hx
  simp [Nat.mod_eq_of_lt this]

theorem added_ordered57 {f : List Byte} (ho : InOrder (HxcFile.tracks f)) (hc : ∀ x ∈ HxcFile.tracks f, x.1.c < 256) :
    OrderedChs ((added f).map BitEntry.ch) := by
  rw [added_chs]
  have e : ((HxcFile.tracks f).map fun x => (⟨x.1.c % 256, x.1.h⟩ : Ch)) = (HxcFile.tracks f).map (·.1) := by
    apply List.map_congr_left
    rintro ⟨⟨c, h⟩, x⟩ hx
    have : c < 256 := hc _ hx
    simp [Nat.mod_eq_of_lt this]
  rw [e]
  exact (inOrder_chs _).1 ho

/-- **C57 (partial).** Loading a well-formed file yields exactly its tracks, each at its place with its cells, none weak,
provided the table lists the tracks of each side in order from cylinder 0 on, none left out and none above 255.
Missing: other tables (`C57_false_order`, `C57_false_cylinder`). -/
theorem C57_load_partial (debug : Bool) (rnd : Nat → Bool) (f : List Byte) (h : HxcFile.WellFormed debug f)
    (ho : InOrder (HxcFile.tracks f)) (hc : ∀ x ∈ HxcFile.tracks f, x.1.c < 256) :
    ∃ d i, Hxc.load debug rnd {} f = .ok (d, i) ∧ HasCells d (HxcFile.tracks f) ∧
      d.geometry = ⟨HxcFile.cylinders f, HxcFile.sides f⟩ := by
  refine ⟨_, _, Hxc.load_ok h rnd, hasCells_geometry ?_, rfl⟩
  have := hasCells_addAll (rnd := rnd) (detect := false) (added_ordered57 ho hc) (added_good h)
  rw [added_cells h, cut_fits hc] at this
  exact this

/-- **C57.** Sectors survive: take any PC sector image, use it in any way, and describe the cells of the outcome in an HxC
MFM file.  The loaded file then answers every further history of sector reads and writes as the image itself would have. -/
theorem C57_sectors (f : StdFormat) (hf : f.isPc = true) (file : List Byte) (hl : file.length = f.diskSize)
    (H : List Byte → Nat) (nz : Noise) (ops ops' : List SectorOp) (debug : Bool) (rnd : Nat → Bool) :
    ∃ d0, Raw.loadImage nz file = .ok d0 ∧ (NoCollision H d0 → ∃ d, Raw.load H nz file = .ok d ∧
      basicRun d ops = DiskMap.run (imgDisk f.layout file) ops ∧
      ∀ g, HxcFile.WellFormed debug g → InOrder (HxcFile.tracks g) → (∀ x ∈ HxcFile.tracks g, x.1.c < 256) →
        Describes (HxcFile.tracks g) (afterOps d ops) →
        ∃ d' i, Hxc.load debug rnd {} g = .ok (d', i) ∧
          basicRun d' ops' = DiskMap.run (mapAfter (imgDisk f.layout file) ops) ops') := by
  obtain ⟨d0, h1, hx⟩ := pc_used f hf file hl H nz ops
  refine ⟨d0, h1, fun hH => ?_⟩
  obtain ⟨d, k1, k2, k3, k4, k5, k6⟩ := hx hH
  refine ⟨d, k1, k2, ?_⟩
  intro g hg ho hc hD
  refine ⟨_, _, Hxc.load_ok hg rnd, ?_⟩
  rw [← cut_fits hc, ← added_cells hg] at hD
  refine (rel_geometry (bits_rel' (rnd := rnd) k3 k4 (added_ordered57 ho hc) (added_good hg) hD ?_)).run ops'
  intro x _ b hb
  exact List.eq_of_mem_replicate hb

theorem divmod_ordered (S : Nat) (hS : S = 1 ∨ S = 2) (C : Nat) :
    OrderedChs ((List.range (C * S)).map fun i => (⟨i / S, i % S⟩ : Ch)) := by
  have e : ((List.range (C * S)).map fun i => (⟨i / S, i % S⟩ : Ch)) = Hfe.cyls S C := by
    induction C with
    | zero => simp [Hfe.cyls]
    | succ C ih =>
      have he : Hfe.cyls S (C + 1) = Hfe.cyls S C ++ if S > 1 then [⟨C, 0⟩, ⟨C, 1⟩] else [⟨C, 0⟩] := by
        unfold Hfe.cyls
        rw [List.range_succ, List.flatMap_append]; simp
      rw [he, ← ih, Nat.succ_mul, List.range_add, List.map_append, List.map_map]
      congr 1
      rcases hS with rfl | rfl
      · simp only [Nat.mul_one, Nat.div_one, Nat.mod_one]; simp
      · have : List.range 2 = [0, 1] := rfl
        rw [this]
        simp only [List.map_cons, List.map_nil, Function.comp]
        rw [if_pos (by omega)]
        rw [show (C * 2 + 0) / 2 = C by omega, show (C * 2 + 0) % 2 = 0 by omega, show (C * 2 + 1) / 2 = C by omega,
          show (C * 2 + 1) % 2 = 1 by omega]
  rw [e]
  exact (Hfe.cyls_ordered S C).1

/-- **C57.** Such files exist, for every PC format: for every image and every history there is an HxC MFM file which, loaded,
answers as the image would have. -/
theorem C57_describable (f : StdFormat) (hf : f.isPc = true) (file : List Byte)
    (hl : file.length = f.diskSize) (H : List Byte → Nat) (nz : Noise) (ops : List SectorOp) :
    ∃ d0, Raw.loadImage nz file = .ok d0 ∧ (NoCollision H d0 → ∃ d g, Raw.load H nz file = .ok d ∧
      HxcFile.WellFormed true g ∧ InOrder (HxcFile.tracks g) ∧ (∀ x ∈ HxcFile.tracks g, x.1.c < 256) ∧
      Describes (HxcFile.tracks g) (afterOps d ops)) := by
  obtain ⟨d0, h1, hx⟩ := pc_used f hf file hl H nz ops
  refine ⟨d0, h1, fun hH => ?_⟩
  obtain ⟨d, k1, k2, k3, k4, k5, k6⟩ := hx hH
  have hn : 16 * ((f.bitcellCt + 15) / 16) = 8 * (2 * ((f.bitcellCt + 15) / 16)) := by omega
  rw [hn] at k5
  have hS : f.layout.h = 1 ∨ f.layout.h = 2 := by cases f <;> decide
  have hC : f.layout.c ≤ 256 := by cases f <;> decide
  obtain ⟨i1, i2, i3⟩ := Hxc.image_spec f.layout.c f.layout.h (2 * ((f.bitcellCt + 15) / 16))
    (cellsFn (afterOps d ops) (8 * (2 * ((f.bitcellCt + 15) / 16)))) hC hS
    (by cases f <;> decide) (by cases f <;> decide)
    (by
      intro c h hc hH
      unfold cellsFn
      obtain ⟨ch, t, t1, t2⟩ := k5.at (by omega) hH hc
      rw [(cellsAt_of (by omega) t1).1]; exact t2)
  have hS0 : 0 < f.layout.h := by omega
  generalize hg : Hxc.image f.layout.c f.layout.h (2 * ((f.bitcellCt + 15) / 16))
    (cellsFn (afterOps d ops) (8 * (2 * ((f.bitcellCt + 15) / 16)))) = g at *
  have hmem : ∀ x, x ∈ HxcFile.tracks g ↔ ∃ c h, c < f.layout.c ∧ h < f.layout.h ∧
      x = (⟨c, h⟩, cellsFn (afterOps d ops) (8 * (2 * ((f.bitcellCt + 15) / 16))) c h,
        solid (cellsFn (afterOps d ops) (8 * (2 * ((f.bitcellCt + 15) / 16))) c h)) := by
    intro x
    unfold HxcFile.tracks
    rw [List.mem_map]
    constructor
    · rintro ⟨i, hi, rfl⟩
      rw [List.mem_range, i2] at hi
      refine ⟨i / f.layout.h, i % f.layout.h, by rw [Nat.div_lt_iff_lt_mul hS0]; exact hi, Nat.mod_lt _ hS0, ?_⟩
      rw [(i3 i hi).1, (i3 i hi).2]
    · rintro ⟨c, h, hc, hh, rfl⟩
      have hi : c * f.layout.h + h < f.layout.c * f.layout.h := by
        have : (c + 1) * f.layout.h ≤ f.layout.c * f.layout.h := Nat.mul_le_mul_right _ hc
        rw [Nat.succ_mul] at this
        omega
      refine ⟨c * f.layout.h + h, by rw [List.mem_range, i2]; exact hi, ?_⟩
      have e1 : (c * f.layout.h + h) / f.layout.h = c := by
        rw [Nat.mul_comm, Nat.mul_add_div hS0, Nat.div_eq_of_lt hh, Nat.add_zero]
      have e2 : (c * f.layout.h + h) % f.layout.h = h := by
        rw [Nat.mul_comm, Nat.mul_add_mod, Nat.mod_eq_of_lt hh]
      rw [(i3 _ hi).1, (i3 _ hi).2, e1, e2]
  refine ⟨d, g, k1, i1, ?_, ?_, ⟨?_, ?_⟩⟩
  · rw [inOrder_chs]
    have e : (HxcFile.tracks g).map (·.1) = (List.range (f.layout.c * f.layout.h)).map
        fun i => (⟨i / f.layout.h, i % f.layout.h⟩ : Ch) := by
      unfold HxcFile.tracks
      rw [List.map_map, i2]
      apply List.map_congr_left
      intro i hi
      exact (i3 i (List.mem_range.1 hi)).1
    rw [e]
    exact divmod_ordered _ hS _
  · intro x hx
    obtain ⟨c, h, hc, _, rfl⟩ := (hmem x).1 hx
    show c < 256
    omega
  · intro ch a cells hch
    obtain ⟨hh, t, t1, t2⟩ := cellsAt_some hch
    have hpos : ch.h < f.layout.h ∧ ch.c < f.layout.c := by
      apply Classical.byContradiction
      intro hno
      rw [k5.none hh hno] at t1
      cases t1
    exact ⟨_, (hmem _).2 ⟨ch.c, ch.h, hpos.2, hpos.1, rfl⟩, rfl⟩
  · intro x hx
    obtain ⟨c, h, hc, hH, rfl⟩ := (hmem x).1 hx
    obtain ⟨a, t, t1, t2⟩ := k5.at (by omega) hH hc
    refine ⟨a, ?_⟩
    have e := (cellsAt_of (show h < 2 by omega) t1).1
    show cellsAt (afterOps d ops) ⟨c, h⟩ = some (a, cellsFn _ _ c h)
    unfold cellsFn
    rw [e]

/-! ### What is false -/

/-- **C57 is false of the code: not an image at all.** Every file shorter than the header, whatever is in it, is loaded
without complaint as a disk without tracks. -/
theorem C57_false_short (debug : Bool) (rnd : Nat → Bool) (f : List Byte) (h : f.length < 19) :
    ∃ d i, Hxc.load debug rnd {} f = .ok (d, i) ∧ d.geometry = ⟨0, 0⟩ ∧ ∀ ch t, d.track ch ≠ .ok (some t) := by
  refine ⟨_, _, short_load debug rnd f h, rfl, ?_⟩
  rintro ⟨c, h⟩ t
  unfold Disk.track
  rcases h with _ | _ | h <;> simp

/-- A file with an advanced table: `list` gives, for each track, cylinder, side, number of cells and one byte of cells; its
cells are that byte's. -/
def tinyFile (cyls rate : Byte) (list : List (Nat × Byte)) : List Byte :=
  signature ++ [0#8, cyls, 0#8, 1#8, 44#8, 1#8, rate, 0#8, 128#8, 19#8, 0#8, 0#8, 0#8] ++
  (list.zipIdx.flatMap fun x => [BitVec.ofNat 8 x.1.1, BitVec.ofNat 8 (x.1.1 / 256), 0#8, 44#8, 1#8, rate, 0#8, 8#8, 0#8, 0#8,
    0#8, BitVec.ofNat 8 (19 + 15 * list.length + x.2), 0#8, 0#8, 0#8]) ++ list.map (·.2)

/-- Two tracks, that of cylinder 1 first. -/
def swappedFile : List Byte := tinyFile 2#8 250#8 [(1, 0xF0#8), (0, 0x0F#8)]

/-- One track, of cylinder 256. -/
def farFile : List Byte := tinyFile 1#8 250#8 [(256, 0xF0#8)]

instance (checked : Bool) (f : List Byte) : Decidable (HxcFile.WellFormed checked f) :=
  decidable_of_iff ((19 ≤ f.length ∧ f.take 6 = [0x48#8, 0x58#8, 0x43#8, 0x4D#8, 0x46#8, 0x4D#8]) ∧
      (HxcFile.count f = 0 ∨ HxcFile.entry f (HxcFile.count f) ≤ f.length) ∧
      (∀ i, i < HxcFile.count f → (HxcFile.place f i).h < 2) ∧
      (∀ i, i < HxcFile.count f → HxcFile.ncells f i = 0 ∨ HxcFile.start f i + (HxcFile.ncells f i + 7) / 8 ≤ f.length) ∧
      (HxcFile.advanced f = false → ∀ i, i < HxcFile.count f → (if checked then 32 else 8) ≤ HxcFile.ncells f i))
    ⟨fun ⟨h1, h2, h3, h4, h5⟩ => ⟨h1, h2, h3, h4, h5⟩, fun h => ⟨h.header, h.table, h.side, h.inside, h.long⟩⟩

/-- **C57 is false of the code: order.** In a well-formed file whose table lists cylinder 1 before cylinder 0 the loaded disk
has the cells of the one at the place of the other. -/
theorem C57_false_order (debug : Bool) (rnd : Nat → Bool) : HxcFile.WellFormed debug swappedFile ∧
    HxcFile.tracks swappedFile = [(⟨1, 0⟩, byteBits 0xF0#8, solid (byteBits 0xF0#8)), (⟨0, 0⟩, byteBits 0x0F#8, solid (byteBits 0x0F#8))] ∧
    ∃ d i, Hxc.load debug rnd {} swappedFile = .ok (d, i) ∧ cellsAt d ⟨0, 0⟩ = some (⟨1, 0⟩, byteBits 0xF0#8) ∧
      cellsAt d ⟨1, 0⟩ = some (⟨0, 0⟩, byteBits 0x0F#8) := by
  have h : HxcFile.WellFormed debug swappedFile := by cases debug <;> decide +kernel
  have ht : HxcFile.tracks swappedFile = [(⟨1, 0⟩, byteBits 0xF0#8, solid (byteBits 0xF0#8)),
    (⟨0, 0⟩, byteBits 0x0F#8, solid (byteBits 0x0F#8))] := by decide +kernel
  obtain ⟨d, i, h1, _, h3⟩ := C57_by_order debug rnd _ h
  rw [ht] at h3
  exact ⟨h, ht, d, i, h1, h3 0 0 (by omega), h3 1 0 (by omega)⟩

/-- **C57 is false of the code: far cylinders.** The table can hold cylinders above 255; the loaded track says it is of a
cylinder 256 below, and lies at place 0. -/
theorem C57_false_cylinder (debug : Bool) (rnd : Nat → Bool) : HxcFile.WellFormed debug farFile ∧
    HxcFile.tracks farFile = [(⟨256, 0⟩, byteBits 0xF0#8, solid (byteBits 0xF0#8))] ∧
    ∃ d i, Hxc.load debug rnd {} farFile = .ok (d, i) ∧ cellsAt d ⟨0, 0⟩ = some (⟨0, 0⟩, byteBits 0xF0#8) ∧
      cellsAt d ⟨256, 0⟩ = none := by
  have h : HxcFile.WellFormed debug farFile := by cases debug <;> decide +kernel
  have ht : HxcFile.tracks farFile = [(⟨256, 0⟩, byteBits 0xF0#8, solid (byteBits 0xF0#8))] := by decide +kernel
  obtain ⟨d, i, h1, _, h3⟩ := C57_by_order debug rnd _ h
  rw [ht] at h3
  exact ⟨h, ht, d, i, h1, h3 0 0 (by omega), h3 256 0 (by omega)⟩

/-- **C57 is false of the code: the data rate.** As in HFE files: of a plain file of 250 kbit/s every track is taken to be of
a rate ten times too low, which is none of the known ones; only the disk as a whole gets the right one. -/
theorem C57_false_rate (debug : Bool) (rnd : Nat → Bool) (f : List Byte) (h : HxcFile.WellFormed debug f)
    (ha : HxcFile.advanced f = false) (hr : HxcFile.word f 12 = 250) :
    ∃ d i, Hxc.load debug rnd {} f = .ok (d, i) ∧ i.rate = .r250 ∧
      i.trackRates = List.replicate (HxcFile.count f) .nonstandard := by
  refine ⟨_, _, Hxc.load_ok h rnd, ?_, ?_⟩
  · simp only [hr]; decide
  · simp only
    have e : ∀ i, rateOf ((ent f i).bitRate * 100) = .nonstandard := by
      intro i
      have : (ent f i).bitRate = 250 := by
        unfold ent entryAt
        rw [ha, if_neg (Bool.false_ne_true)]
        exact hr
      rw [this]; decide
    simp only [e, List.map_const', List.length_range]

/-- **C57.** The rate of the disk is the header's. -/
theorem C57_info (debug : Bool) (rnd : Nat → Bool) (f : List Byte) (h : HxcFile.WellFormed debug f) :
    ∃ d i, Hxc.load debug rnd {} f = .ok (d, i) ∧ rateKbps (HxcFile.word f 12) i.rate :=
  ⟨_, _, Hxc.load_ok h rnd, rateOf_kbps _⟩

/-- An image in order meets the hypotheses of `C57_load_partial`. -/
example : HxcFile.WellFormed true (tinyFile 2#8 250#8 [(0, 0x0F#8), (1, 0xF0#8)]) ∧
    (HxcFile.tracks (tinyFile 2#8 250#8 [(0, 0x0F#8), (1, 0xF0#8)])).map (·.1) = [⟨0, 0⟩, ⟨1, 0⟩] := by decide +kernel

end Fox
