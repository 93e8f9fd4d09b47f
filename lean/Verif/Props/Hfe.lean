import Verif.Proofs.Hfe
import Verif.Proofs.BitDisk
import Verif.Props.F86
/-
C56: HFE images.
-/
namespace Fox
open Spec Hfe

theorem hasCells_geometry {d : Disk} {g : Ch} {ts : List CellTrack} (h : HasCells d ts) : HasCells { d with geometry := g } ts := h

theorem rel_geometry {d : Disk} {g : Ch} {M : DiskMap} (h : DiskRel true d M) : DiskRel true { d with geometry := g } M :=
  ⟨h.bad, h.gone, h.held, h.apart⟩

/-- **C56.** Which files are accepted: exactly the well-formed ones. -/
theorem C56_accepts (debug : Bool) (rnd : Nat → Bool) (f : List Byte) :
    (∃ r, Hfe.load debug rnd {} f = .ok r) ↔ HfeFile.WellFormed debug f :=
  ⟨fun ⟨_, h⟩ => wellFormed_of_ok h, fun h => ⟨_, load_ok h rnd⟩⟩

/-- **C56.** What a well-formed file becomes: the tracks of the table, each at its place, with the cells found where the
loader looks for them, none of them weak; no others; the geometry of the header. -/
theorem C56_found (debug : Bool) (rnd : Nat → Bool) (f : List Byte) (h : HfeFile.WellFormed debug f) :
    ∃ d i, Hfe.load debug rnd {} f = .ok (d, i) ∧ HasCells d (HfeFile.foundTracks f) ∧
      d.geometry = ⟨HfeFile.cylinders f, HfeFile.sides f⟩ := by
  refine ⟨_, _, load_ok h rnd, hasCells_geometry ?_, rfl⟩
  have := hasCells_addAll (rnd := rnd) (detect := false) (added_ordered f) (added_good h)
  rw [added_cells] at this
  exact this

/-- **C56 (partial).** Loading a well-formed HFE file yields exactly its tracks, with exactly the cells the format gives
them, provided the file has one side, or the length of every cylinder is a whole number of blocks.
Missing: two-sided files with partial blocks, whose side 1 is misread (`C56_false_tail`). -/
theorem C56_load_partial (debug : Bool) (rnd : Nat → Bool) (f : List Byte) (h : HfeFile.WellFormed debug f)
    (hb : HfeFile.sides f ≤ 1 ∨ ∀ c, c < HfeFile.cylinders f → HfeFile.len f c % 512 = 0) :
    ∃ d i, Hfe.load debug rnd {} f = .ok (d, i) ∧ HasCells d (HfeFile.tracks f) ∧
      d.geometry = ⟨HfeFile.cylinders f, HfeFile.sides f⟩ := by
  obtain ⟨d, i, h1, h2, h3⟩ := C56_found debug rnd f h
  refine ⟨d, i, h1, ?_, h3⟩
  have : HfeFile.foundTracks f = HfeFile.tracks f := by
    unfold HfeFile.foundTracks HfeFile.tracks
    apply List.map_congr_left
    intro ch hch
    have hm : ∃ c, c < HfeFile.cylinders f ∧ (ch = ⟨c, 0⟩ ∨ ch = ⟨c, 1⟩ ∧ HfeFile.sides f > 1) := by
      unfold HfeFile.places at hch
      obtain ⟨c, hc, hx⟩ := List.mem_flatMap.1 hch
      refine ⟨c, List.mem_range.1 hc, ?_⟩
      split at hx
      · rename_i hs
        simp only [List.mem_cons, List.not_mem_nil, or_false] at hx
        rcases hx with hx | hx
        · exact .inl hx
        · exact .inr ⟨hx, hs⟩
      · simp only [List.mem_singleton] at hx
        exact .inl hx
    obtain ⟨c, hc, hh⟩ := hm
    unfold HfeFile.track
    rw [found_eq f ch.c ch.h]
    rcases hh with rfl | ⟨rfl, hs⟩
    · exact .inl rfl
    · rcases hb with hb | hb
      · omega
      · exact .inr (hb c hc)
  rw [this] at h2
  exact h2

/-- **C56.** Side 0 is always right, and side 1 up to its last whole block. -/
theorem C56_prefix (debug : Bool) (rnd : Nat → Bool) (f : List Byte) (h : HfeFile.WellFormed debug f) (c hd : Nat)
    (hc : c < HfeFile.cylinders f) (hh : hd = 0 ∨ hd = 1 ∧ HfeFile.sides f > 1) :
    ∃ d i cells, Hfe.load debug rnd {} f = .ok (d, i) ∧ cellsAt d ⟨c, hd⟩ = some (⟨c, hd⟩, cells) ∧
      (hd = 0 → cells = HfeFile.cells f c 0) ∧
      cells.take (2048 * (HfeFile.len f c / 512)) = (HfeFile.cells f c hd).take (2048 * (HfeFile.len f c / 512)) ∧
      cells.length = (HfeFile.cells f c hd).length := by
  obtain ⟨d, i, h1, h2, _⟩ := C56_found debug rnd f h
  have hm : (⟨c, hd⟩ : Ch) ∈ HfeFile.places f := by
    unfold HfeFile.places
    refine List.mem_flatMap.2 ⟨c, List.mem_range.2 hc, ?_⟩
    rcases hh with rfl | ⟨rfl, hs⟩
    · split <;> simp
    · rw [if_pos hs]; simp
  have := (h2.1 _ _ _ (List.mem_map.2 ⟨_, hm, rfl⟩)).1
  refine ⟨d, i, _, h1, this, ?_, ?_, ?_⟩
  · rintro rfl; exact found_eq f c 0 (.inl rfl)
  · show (HfeFile.found f c hd).take _ = _
    unfold HfeFile.found HfeFile.cells
    rw [← List.map_take, ← List.map_take, List.take_range]
    apply List.map_congr_left
    intro j hj
    rw [List.mem_range] at hj
    have : HfeFile.foundAt f c hd (j / 8) = HfeFile.place f c hd (j / 8) := by
      unfold HfeFile.foundAt HfeFile.place
      rw [if_pos (by omega)]
    rw [this]
  · show (HfeFile.found f c hd).length = _
    unfold HfeFile.found HfeFile.cells
    simp

/-- **C56.** Sectors survive: take any PC sector image, use it in any way, and describe the cells of the outcome in an HFE
file (as the loader reads it).  The loaded file then answers every further history of sector reads and writes as the image
itself would have. -/
theorem C56_sectors (f : StdFormat) (hf : f.isPc = true) (file : List Byte) (hl : file.length = f.diskSize)
    (H : List Byte → Nat) (nz : Noise) (ops ops' : List SectorOp) (debug : Bool) (rnd : Nat → Bool) :
    ∃ d0, Raw.loadImage nz file = .ok d0 ∧ (NoCollision H d0 → ∃ d, Raw.load H nz file = .ok d ∧
      basicRun d ops = DiskMap.run (imgDisk f.layout file) ops ∧
      ∀ g, HfeFile.WellFormed debug g → Describes (HfeFile.foundTracks g) (afterOps d ops) →
        ∃ d' i, Hfe.load debug rnd {} g = .ok (d', i) ∧
          basicRun d' ops' = DiskMap.run (mapAfter (imgDisk f.layout file) ops) ops') := by
  obtain ⟨d0, h1, hx⟩ := pc_used f hf file hl H nz ops
  refine ⟨d0, h1, fun hH => ?_⟩
  obtain ⟨d, k1, k2, k3, k4, k5, k6⟩ := hx hH
  refine ⟨d, k1, k2, ?_⟩
  intro g hg hD
  refine ⟨_, _, load_ok hg rnd, ?_⟩
  rw [← added_cells] at hD
  refine (rel_geometry (bits_rel' (rnd := rnd) k3 k4 (added_ordered g) (added_good hg) hD ?_)).run ops'
  intro x _ b hb
  exact List.eq_of_mem_replicate hb

/-- The tracks of a disk. -/
def cellsFn (d : Disk) (N : Nat) (c h : Nat) : List Bool :=
  match cellsAt d ⟨c, h⟩ with
  | some x => x.2
  | none => List.replicate N false

/-- **C56.** Such files exist, for every PC format but 2.88M (whose tracks are too long for the format's 16-bit length): for
every image and every history there is an HFE file which, loaded, answers as the image would have. -/
theorem C56_describable (f : StdFormat) (hf : f.isPc = true) (h28 : f ≠ .pc2880) (file : List Byte)
    (hl : file.length = f.diskSize) (H : List Byte → Nat) (nz : Noise) (ops : List SectorOp) :
    ∃ d0, Raw.loadImage nz file = .ok d0 ∧ (NoCollision H d0 → ∃ d g, Raw.load H nz file = .ok d ∧
      HfeFile.WellFormed true g ∧ Describes (HfeFile.foundTracks g) (afterOps d ops) ∧
      HfeFile.cylinders g = f.layout.c ∧ HfeFile.sides g = f.layout.h) := by
  obtain ⟨d0, h1, hx⟩ := pc_used f hf file hl H nz ops
  refine ⟨d0, h1, fun hH => ?_⟩
  obtain ⟨d, k1, k2, k3, k4, k5, k6⟩ := hx hH
  have hn : 16 * ((f.bitcellCt + 15) / 16) = 8 * (2 * ((f.bitcellCt + 15) / 16)) := by omega
  rw [hn] at k5
  obtain ⟨i1, i2, i3, i4⟩ := image_spec f.layout.c f.layout.h (2 * ((f.bitcellCt + 15) / 16))
    (cellsFn (afterOps d ops) (8 * (2 * ((f.bitcellCt + 15) / 16)))) (by cases f <;> decide) (by cases f <;> decide)
    (by cases f <;> decide) (by revert h28; cases f <;> decide) (by revert h28; cases f <;> decide)
    (by
      intro c h hc hh
      unfold cellsFn
      by_cases hH : h < f.layout.h
      · obtain ⟨ch, t, t1, t2⟩ := k5.at hh hH hc
        rw [(cellsAt_of hh t1).1]; exact t2
      · rw [(cellsAt_none (ch := ⟨c, h⟩) fun hh => k5.none hh (by show ¬ (h < _ ∧ _); omega)).1]
        simp)
  refine ⟨d, _, k1, i1, ⟨?_, ?_⟩, i2, i3⟩
  · intro ch a cells hch
    obtain ⟨hh, t, t1, t2⟩ := cellsAt_some hch
    have hpos : ch.h < f.layout.h ∧ ch.c < f.layout.c := by
      apply Classical.byContradiction
      intro hno
      rw [k5.none hh hno] at t1
      cases t1
    refine ⟨_, List.mem_map.2 ⟨ch, ?_, rfl⟩, rfl⟩
    unfold HfeFile.places
    rw [i2, i3]
    refine List.mem_flatMap.2 ⟨ch.c, List.mem_range.2 hpos.2, ?_⟩
    obtain ⟨c, h⟩ := ch
    have hpos : h < f.layout.h ∧ c < f.layout.c := hpos
    rcases (show h = 0 ∨ h = 1 by have : h < 2 := hh; omega) with rfl | rfl
    · split <;> simp
    · rw [if_pos (by omega)]; simp
  · intro x hx
    obtain ⟨ch, hch, rfl⟩ := List.mem_map.1 hx
    unfold HfeFile.places at hch
    rw [i2, i3] at hch
    obtain ⟨c, hc, hx⟩ := List.mem_flatMap.1 hch
    rw [List.mem_range] at hc
    have hch2 : ∃ h, ch = ⟨c, h⟩ ∧ h < 2 ∧ h < f.layout.h := by
      split at hx
      · rename_i hs
        simp only [List.mem_cons, List.not_mem_nil, or_false] at hx
        rcases hx with rfl | rfl
        · exact ⟨0, rfl, by omega, by omega⟩
        · exact ⟨1, rfl, by omega, by omega⟩
      · simp only [List.mem_singleton] at hx
        have : 0 < f.layout.h := by cases f <;> decide
        exact ⟨0, hx, by omega, this⟩
    obtain ⟨h, rfl, hh, hH⟩ := hch2
    obtain ⟨a, t, t1, t2⟩ := k5.at hh hH hc
    refine ⟨a, ?_⟩
    have e := (cellsAt_of hh t1).1
    show cellsAt (afterOps d ops) ⟨c, h⟩ = some (a, HfeFile.found _ c h)
    rw [i4 c h hc hh, e]
    unfold cellsFn
    rw [e]

/-! ### What is false -/

/-- A small file: one cylinder, two sides of four bytes each; side 0 holds `0F`, side 1 holds `F0` at its place. -/
def tailFile : List Byte :=
  (List.range 1536).map fun p =>
    if p < 512 then headByte 1 2 p else if p = 512 then 2#8 else if p = 514 then 8#8
    else if 1024 ≤ p ∧ p < 1028 then 0x0F#8 else if 1280 ≤ p ∧ p < 1284 then 0xF0#8 else 0#8

/-- The bytes of the small file. -/
theorem tail_get (p : Nat) (h : p < 1536) : tailFile.getD p 0#8 =
    if p < 512 then headByte 1 2 p else if p = 512 then 2#8 else if p = 514 then 8#8
    else if 1024 ≤ p ∧ p < 1028 then 0x0F#8 else if 1280 ≤ p ∧ p < 1284 then 0xF0#8 else 0#8 := by
  unfold tailFile
  rw [List.getD_eq_getElem?_getD, List.getElem?_map, List.getElem?_range h]; rfl

theorem tail_numbers : HfeFile.cylinders tailFile = 1 ∧ HfeFile.sides tailFile = 2 ∧ HfeFile.table tailFile = 512 ∧
    HfeFile.start tailFile 0 = 1024 ∧ HfeFile.len tailFile 0 = 8 := by
  have ht : HfeFile.table tailFile = 512 := by
    unfold HfeFile.table HfeFile.word HfeFile.byte
    rw [tail_get 18 (by omega), tail_get (18 + 1) (by omega)]; rfl
  refine ⟨?_, ?_, ht, ?_, ?_⟩
  · unfold HfeFile.cylinders HfeFile.byte; rw [tail_get 9 (by omega)]; rfl
  · unfold HfeFile.sides HfeFile.byte; rw [tail_get 10 (by omega)]; rfl
  · unfold HfeFile.start HfeFile.word HfeFile.byte
    rw [ht, tail_get (512 + 4 * 0) (by omega), tail_get (512 + 4 * 0 + 1) (by omega)]; rfl
  · unfold HfeFile.len HfeFile.word HfeFile.byte
    rw [ht, tail_get (512 + 4 * 0 + 2) (by omega), tail_get (512 + 4 * 0 + 2 + 1) (by omega)]; rfl

theorem tail_wellFormed (debug : Bool) : HfeFile.WellFormed debug tailFile := by
  obtain ⟨h1, h2, h3, h4, h5⟩ := tail_numbers
  have hl : tailFile.length = 1536 := by unfold tailFile; rw [List.length_map, List.length_range]
  have h0 : ∀ c, c < HfeFile.cylinders tailFile → c = 0 := by intro c hc; omega
  refine ⟨⟨by omega, ?_⟩, .inr (by omega), ?_, ?_, ?_, ?_⟩
  · have : tailFile.take 8 = (List.range 8).map fun p => headByte 1 2 p := by
      unfold tailFile
      rw [← List.map_take, List.take_range, Nat.min_eq_left (by omega)]
      apply List.map_congr_left
      intro p hp
      rw [List.mem_range] at hp
      rw [if_pos (by omega)]
    rw [this]; rfl
  · intro c hc; rw [h0 c hc, h5]
  · intro c hc; rw [h0 c hc, h5]; cases debug <;> decide
  · intro c hc; rw [h0 c hc, h4, h5, hl]; omega
  · intro _ c hc; omega

/-- **C56 is false of the code: partial blocks.** A well-formed two-sided file whose side 1 is not what the loader makes of
it: the bytes `F0` lie at the place of side 1, but the loaded track has zeros. -/
theorem C56_false_tail (debug : Bool) (rnd : Nat → Bool) : HfeFile.WellFormed debug tailFile ∧
    ∃ d i, Hfe.load debug rnd {} tailFile = .ok (d, i) ∧
      HfeFile.cells tailFile 0 1 = (List.range 32).map (fun j => decide (4 ≤ j % 8)) ∧
      cellsAt d ⟨0, 1⟩ = some (⟨0, 1⟩, List.replicate 32 false) := by
  obtain ⟨h1, h2, h3, h4, h5⟩ := tail_numbers
  refine ⟨tail_wellFormed debug, ?_⟩
  obtain ⟨d, i, g1, g2, _⟩ := C56_found debug rnd tailFile (tail_wellFormed debug)
  refine ⟨d, i, g1, ?_, ?_⟩
  · unfold HfeFile.cells
    rw [h5]
    apply List.map_congr_left
    intro j hj
    rw [List.mem_range] at hj
    have : HfeFile.place tailFile 0 1 (j / 8) = 1280 + j / 8 := by unfold HfeFile.place; rw [h4]; omega
    rw [this, tail_get _ (by omega), if_neg (by omega), if_neg (by omega), if_neg (by omega), if_neg (by omega),
      if_pos (by omega)]
    have h8 : j % 8 < 8 := by omega
    generalize j % 8 = k at h8 ⊢
    revert k; decide
  · have hm : (⟨0, 1⟩ : Ch) ∈ HfeFile.places tailFile := by
      unfold HfeFile.places; rw [h1, h2]; decide
    have := (g2.1 _ _ _ (List.mem_map.2 ⟨_, hm, rfl⟩)).1
    have hx : HfeFile.found tailFile 0 1 = List.replicate 32 false := ?_
    · rw [this]
      show some ((⟨0, 1⟩ : Ch), HfeFile.found tailFile 0 1) = _
      rw [hx]
    have e : List.replicate 32 false = (List.range 32).map (fun _ => false) := by decide
    rw [e]
    unfold HfeFile.found
    rw [h5]
    apply List.map_congr_left
    intro j hj
    rw [List.mem_range] at hj
    have : HfeFile.foundAt tailFile 0 1 (j / 8) = 1028 + j / 8 := by
      unfold HfeFile.foundAt; rw [h4, h5, if_neg (by omega)]; omega
    rw [this, tail_get _ (by omega), if_neg (by omega), if_neg (by omega), if_neg (by omega), if_neg (by omega),
      if_neg (by omega)]
    simp

/-- **C56 is false of the code: order.** With overflow checks, a file whose tracks do not lie in the order of the table is
never loaded, wherever its data lies. -/
theorem C56_false_order (rnd : Nat → Bool) (f : List Byte) (c : Nat) (hc : c + 1 < HfeFile.cylinders f)
    (h : HfeFile.start f (c + 1) < HfeFile.start f c) : ¬ ∃ r, Hfe.load true rnd {} f = .ok r := by
  rw [C56_accepts]
  intro hw
  have := hw.ascending rfl c hc
  omega

/-- **C56 is false of the code: unformatted tracks.** A file with an empty track (as emulators write for unformatted
cylinders) is never loaded, with or without overflow checks. -/
theorem C56_false_empty (debug : Bool) (rnd : Nat → Bool) (f : List Byte) (c : Nat) (hc : c < HfeFile.cylinders f)
    (h : HfeFile.len f c = 0) : ¬ ∃ r, Hfe.load debug rnd {} f = .ok r := by
  rw [C56_accepts]
  intro hw
  have := hw.long c hc
  rw [h] at this
  split at this <;> omega

/-- **C56 is false of the code: the encoding.** The byte that says how the tracks are encoded (FM or MFM) is never looked
at: changing it changes nothing. -/
theorem C56_false_encoding (debug : Bool) (rnd : Nat → Bool) (f : List Byte) (x : Byte) (h : HfeFile.WellFormed debug f)
    (h512 : 512 ≤ HfeFile.table f) (hst : ∀ c, c < HfeFile.cylinders f → 512 ≤ HfeFile.start f c) :
    Hfe.load debug rnd {} (f.set 11 x) = Hfe.load debug rnd {} f := by
  have hg : ∀ p, p ≠ 11 → (f.set 11 x).getD p 0#8 = f.getD p 0#8 := by
    intro p hp
    rw [List.getD_eq_getElem?_getD, List.getD_eq_getElem?_getD, List.getElem?_set_ne (by omega)]
  have hb : ∀ p, p ≠ 11 → HfeFile.byte (f.set 11 x) p = HfeFile.byte f p := by
    intro p hp; unfold HfeFile.byte; rw [hg p hp]
  have hw : ∀ p, p ≠ 11 → p + 1 ≠ 11 → HfeFile.word (f.set 11 x) p = HfeFile.word f p := by
    intro p h1 h2; unfold HfeFile.word; rw [hb p h1, hb _ h2]
  have e1 : HfeFile.cylinders (f.set 11 x) = HfeFile.cylinders f := hb 9 (by omega)
  have e2 : HfeFile.sides (f.set 11 x) = HfeFile.sides f := hb 10 (by omega)
  have e3 : HfeFile.table (f.set 11 x) = HfeFile.table f := by
    unfold HfeFile.table; rw [hw 18 (by omega) (by omega)]
  have e4 : ∀ c, HfeFile.start (f.set 11 x) c = HfeFile.start f c := by
    intro c; unfold HfeFile.start; rw [e3, hw _ (by omega) (by omega)]
  have e5 : ∀ c, HfeFile.len (f.set 11 x) c = HfeFile.len f c := by
    intro c; unfold HfeFile.len; rw [e3, hw _ (by omega) (by omega)]
  have hlen : (f.set 11 x).length = f.length := List.length_set
  have ht : (f.set 11 x).take 8 = f.take 8 := by
    rw [List.take_set_of_le (by omega)]
  have hw' : HfeFile.WellFormed debug (f.set 11 x) := by
    refine ⟨⟨by rw [hlen]; exact h.header.1, by rw [ht]; exact h.header.2⟩, by rw [e1, e3, hlen]; exact h.table, ?_, ?_, ?_, ?_⟩
    · intro c hc; rw [e1] at hc; rw [e5]; exact h.even c hc
    · intro c hc; rw [e1] at hc; rw [e5]; exact h.long c hc
    · intro c hc; rw [e1] at hc; rw [e4, e5, hlen]; exact h.inside c hc
    · intro hd c hc; rw [e1] at hc; rw [e4, e4]; exact h.ascending hd c hc
  have ea : added (f.set 11 x) = added f := by
    unfold added
    rw [e1, e2]
    apply flatMap_congr_mem
    intro c hc
    have hc := List.mem_range.1 hc
    have w : ∀ p, 12 ≤ p → le16At (f.set 11 x) p = le16At f p := fun p hp => hw p (by omega) (by omega)
    rw [e3, w _ (by omega), w _ (by omega)]
    have hh : ∀ s, half (f.set 11 x) (512 * le16At f (HfeFile.table f + 4 * c)) (le16At f (HfeFile.table f + 4 * c + 2)) s =
        half f (512 * le16At f (HfeFile.table f + 4 * c)) (le16At f (HfeFile.table f + 4 * c + 2)) s := by
      intro s
      unfold half
      apply List.map_congr_left
      intro k _
      apply hg
      have : 512 ≤ 512 * le16At f (HfeFile.table f + 4 * c) := hst c hc
      unfold readPlace
      omega
    unfold pair
    rw [hh 0, hh 1]
  rw [load_ok h rnd, load_ok hw' rnd, ea, e1, e2]
  have u : ∀ p, p ≠ 11 → u8At (f.set 11 x) p = u8At f p := hb
  have w12 : le16At (f.set 11 x) 12 = le16At f 12 := hw 12 (by omega) (by omega)
  rw [u 16 (by omega), u 20 (by omega), w12]

/-- **C56 is false of the code: the data rate.** The header gives the rate in kbit/s.  The tracks of a file of 250 kbit/s
(or 300, or 500) are taken to be of a rate ten times too low, which is none of the known ones; only the disk as a whole gets
the right one. -/
theorem C56_false_rate (debug : Bool) (rnd : Nat → Bool) (f : List Byte) (h : HfeFile.WellFormed debug f)
    (hr : HfeFile.word f 12 = 250) :
    ∃ d i, Hfe.load debug rnd {} f = .ok (d, i) ∧ i.rate = .r250 ∧ i.trackRate = .nonstandard := by
  refine ⟨_, _, load_ok h rnd, ?_, ?_⟩ <;>
    (have e : le16At f 12 = 250 := hr
     simp only [e]
     decide)

/-- The rate a number of kbit/s stands for. -/
def rateKbps (k : Nat) (r : F86.Rate) : Prop :=
  (r = .r125 ↔ 94 ≤ k ∧ k ≤ 143) ∧ (r = .r250 ↔ 212 ≤ k ∧ k ≤ 270) ∧ (r = .r300 ↔ 271 ≤ k ∧ k ≤ 344) ∧
  (r = .r500 ↔ 425 ≤ k ∧ k ≤ 574) ∧ (r = .r1000 ↔ 850 ≤ k ∧ k ≤ 1149)

theorem rateOf_kbps (k : Nat) : rateKbps k (rateOf (k * 1000)) := by
  unfold rateKbps rateOf
  split
  · simp; omega
  split
  · simp; omega
  split
  · simp; omega
  split
  · simp; omega
  split
  · simp; omega
  · simp; omega

/-- **C56.** What is said about the disk: it is write-protected exactly if byte 20 is zero, its rate is the header's, and its
density is high for the interface modes 1, 3, 5 and 13, extended for mode 8, double otherwise. -/
theorem C56_info (debug : Bool) (rnd : Nat → Bool) (f : List Byte) (h : HfeFile.WellFormed debug f) :
    ∃ d i, Hfe.load debug rnd {} f = .ok (d, i) ∧ (i.writeProtect = true ↔ HfeFile.byte f 20 = 0) ∧
      rateKbps (HfeFile.word f 12) i.rate ∧
      (i.density = .high ↔ HfeFile.byte f 16 ∈ [1, 3, 5, 13]) ∧ (i.density = .extended ↔ HfeFile.byte f 16 = 8) := by
  refine ⟨_, _, load_ok h rnd, ?_, rateOf_kbps _, ?_, ?_⟩
  · simp only [beq_iff_eq]
    exact Iff.rfl
  · show Hfe.density (HfeFile.byte f 16) = .high ↔ _
    unfold Hfe.density
    split
    · rename_i h; simpa using h
    · rename_i h
      split
      · rename_i h8; simp [h8]
      · simpa using h
  · show Hfe.density (HfeFile.byte f 16) = .extended ↔ _
    unfold Hfe.density
    split
    · rename_i h; simp; omega
    · split
      · rename_i h8; simp [h8]
      · rename_i h8; simp [h8]

/-- The small file meets the hypotheses. -/
example : HfeFile.WellFormed true tailFile ∧ 512 ≤ HfeFile.table tailFile ∧ HfeFile.start tailFile 0 = 1024 := by
  obtain ⟨_, _, h3, h4, _⟩ := tail_numbers
  exact ⟨tail_wellFormed true, by omega, h4⟩

end Fox
