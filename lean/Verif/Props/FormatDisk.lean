import Verif.Proofs.FormatDisk
import Verif.Props.Raw
/-
C59: formatting a disk.  C60: a refused format.  C61: the geometry of a formatted image.
C62: replacing the boot sector's parameter block.
-/
namespace Fox
open Fox.Spec Fox.S34

/-! ## C59 -/

/-- **C59.** Formatting an image that can hold bitstream tracks, with any boot sector template of at least 512
bytes, gives exactly the fresh disk of the format: every later history of sector reads and writes shows what the
map of zero sectors with the patched boot sector shows. -/
theorem C59_format (f : StdFormat) (hf : f.isPc = true) (nz : Noise) (d : Disk) (template : List Byte)
    (ht : 512 ≤ template.length) (hs : d.res.sect = false) (hb : d.res.bit = true ∨ d.res.isEmpty = true) :
    ∃ d' boot, d.format nz f .bitStream .fat12 (some template) none = (d', .ok ()) ∧
      IsBoot f template none boot ∧ ∀ ops, basicRun d' ops = (freshDisk f boot).run ops := by
  obtain ⟨buf, m1, m2, m3⟩ := makeBoot_spec f hf (some template) none (fun b h => by cases h; exact ht)
    (fun c h => by cases h)
  obtain ⟨d', h1, h2, _⟩ := format_spec f hf nz d _ _ hs hb buf m1 m2.len
  exact ⟨d', buf, h1, m2, (fresh_rel h2).run⟩

theorem default_tag (i : Nat) (hi : i < 8) : defaultBoot.getD (0x147 + i) 0 = creatorTag.getD i 0 := by
  have : ∀ i ∈ List.range 8, defaultBoot.getD (0x147 + i) 0 = creatorTag.getD i 0 := by decide +kernel
  exact this i (List.mem_range.2 hi)

/-- **C59, with the library's own boot sector** and any creator's name. -/
theorem C59_default_boot (f : StdFormat) (hf : f.isPc = true) (nz : Noise) (d : Disk)
    (creator : Option (List Byte)) (hc : ∀ c, creator = some c → c.length = 8)
    (hs : d.res.sect = false) (hb : d.res.bit = true ∨ d.res.isEmpty = true) :
    ∃ d' boot, d.format nz f .bitStream .fat12 none creator = (d', .ok ()) ∧
      IsBoot f defaultBoot creator boot ∧ ∀ ops, basicRun d' ops = (freshDisk f boot).run ops := by
  obtain ⟨buf, m1, m2, m3⟩ := makeBoot_spec f hf none creator (fun b h => by cases h)
    (fun c h => ⟨hc c h, default_tag⟩)
  obtain ⟨d', h1, h2, _⟩ := format_spec f hf nz d _ _ hs hb buf m1 m2.len
  exact ⟨d', buf, h1, m2, (fresh_rel h2).run⟩

/-- **C59, the signature.** A disk formatted with the library's own boot sector, whatever its format and the
creator's name, carries the two bytes 55 AA at the end of its boot sector. -/
theorem C59_signature (f : StdFormat) (hf : f.isPc = true) (nz : Noise) (d : Disk)
    (creator : Option (List Byte)) (hc : ∀ c, creator = some c → c.length = 8)
    (hs : d.res.sect = false) (hb : d.res.bit = true ∨ d.res.isEmpty = true) :
    ∃ d' boot, d.format nz f .bitStream .fat12 none creator = (d', .ok ()) ∧
      boot.length = 512 ∧ boot.getD 510 0 = 0x55 ∧ boot.getD 511 0 = 0xAA ∧
      ∀ ops, basicRun d' ops = (freshDisk f boot).run ops := by
  obtain ⟨d', boot, h1, h2, h3⟩ := C59_default_boot f hf nz d creator hc hs hb
  refine ⟨d', boot, h1, h2.len, ?_, ?_, h3⟩
  · rw [h2.rest 510 (by omega) (by omega) (fun _ => by omega)]; decide +kernel
  · rw [h2.rest 511 (by omega) (by omega) (fun _ => by omega)]; decide +kernel

theorem grid_blank (f : StdFormat) : ∃ d, Disk.addEmpties f .bitStream (Raw.trackOrder f.layout)
      ((Disk.create f).setResolution .bitStream) = (d, .ok ()) ∧ Grid (EmptyOk f) (perHead f) d ∧
      d.geometry = f.layout.ch ∧ d.res = ResSet.insert {} .bitStream := by
  obtain ⟨d, h1, h2, h3, h4⟩ := addEmpties_spec f (Raw.trackOrder f.layout) (0, 0) (perHead f)
    ((Disk.create f).setResolution .bitStream) (grid_empty _ _ rfl rfl rfl) (trackOrder_seq f) rfl rfl
  refine ⟨d, h1, h2, h3.geometry, ?_⟩
  rw [h4]
  split <;> rfl

/-- **C59, through the image builder.** A formatted image of any PC format, for any creator's name of any length
(cut or padded to 8 bytes), is built; it is the fresh disk, and saved as a sector image it is the boot sector
followed by zeros.  Hypothesis: the track hash does not collide on this image's own tracks. -/
theorem C59_build (f : StdFormat) (hf : f.isPc = true) (tag : List Byte) (H : List Byte → Nat) (nz nz' : Noise) :
    ∃ d0 boot, IsBoot f defaultBoot (some (tag.take 8 ++ List.replicate (8 - tag.length) 0x20)) boot ∧
      (NoCollision H d0 → ∃ d,
        ((((({ } : Builder).withFormat f).withResolution .bitStream).withFs .fat12).withCreator tag).build H nz = .ok d ∧
        (∀ ops, basicRun d ops = (freshDisk f boot).run ops) ∧
        Raw.save nz' d = .ok (boot ++ List.replicate (f.diskSize - 512) 0)) := by
  obtain ⟨buf, m1, m2, m3⟩ := makeBoot_spec f hf none (some (tag.take 8 ++ List.replicate (8 - tag.length) 0x20))
    (fun b h => by cases h) (fun c h => ⟨by
      cases h
      simp only [List.length_append, List.length_take, List.length_replicate]; omega, default_tag⟩)
  obtain ⟨e, a1, a2, a3, a4⟩ := grid_blank f
  obtain ⟨d0, h1, h2, h3, h4, h5⟩ := format_spec f hf nz e none _ (by rw [a4]; rfl) (by rw [a4]; exact Or.inl rfl)
    buf m1 m2.len
  refine ⟨d0, buf, m2, fun hH => ?_⟩
  obtain ⟨d, p1, p2, p3, p4, p5, p6, p7, p8, p9⟩ := postLoad_fresh h2 m2.len H nz hH
  refine ⟨d, ?_, (fresh_rel p2).run, ?_⟩
  · simp only [Builder.withCreator, Builder.withFs, Builder.withResolution, Builder.withFormat, Builder.build,
      Builder.buildBit, a1, h1, p1]
    rw [if_neg]
    rw [p2.len0]
    exact fun h => h rfl
  · have hc := closest_spec f hf d (bootFormat buf) p2.len0 (by rw [p6, h3.geometry]; exact a3) p7 p8
    rw [m3] at hc
    have hrel := fresh_rel p2
    rw [freshDisk_img f hf buf m2.len] at hrel
    refine (save_spec f nz' d _ ?_ hrel _ hc).1 rfl
    rw [List.length_append, List.length_replicate, m2.len]
    have : 512 ≤ f.diskSize := by cases f <;> decide
    omega

/-- A collision-free hash exists, so the builder's hypothesis can be met: a 1.44M disk by "me". -/
example (nz : Noise) : ∃ boot d, IsBoot .pc1440 defaultBoot (some [0x6D, 0x65, 0x20, 0x20, 0x20, 0x20, 0x20, 0x20]) boot ∧
    ((((({ } : Builder).withFormat .pc1440).withResolution .bitStream).withFs .fat12).withCreator [0x6D, 0x65]).build
      numeral nz = .ok d := by
  obtain ⟨d0, boot, h1, h2⟩ := C59_build .pc1440 rfl [0x6D, 0x65] numeral nz nz
  obtain ⟨d, h3, _⟩ := h2 (fun _ _ _ _ _ _ he => numeral_inj _ _ he)
  exact ⟨boot, d, h1, h3⟩

/-- **C59, an image without a file system.** It is built, and has exactly the tracks of its format. -/
theorem C59_build_blank (f : StdFormat) (H : List Byte → Nat) (nz : Noise) :
    ∃ d, ((({ } : Builder).withFormat f).withResolution .bitStream).build H nz = .ok d ∧
      ∀ c h, h < 2 → ((∃ i, (d.headMap h)[c]? = some i) ↔ c < f.layout.c ∧ h < f.layout.h) := by
  obtain ⟨e, a1, a2, a3, a4⟩ := grid_blank f
  refine ⟨e, ?_, ?_⟩
  · simp only [Builder.withResolution, Builder.withFormat, Builder.build, Builder.buildBit, a1]
    rw [if_neg]
    rw [a2.len0]
    exact fun h => h rfl
  · intro c h hh
    have hl : f.layout.h = 1 ∨ f.layout.h = 2 := by cases f <;> decide
    have : (∃ i, (e.headMap h)[c]? = some i) ↔ c < (e.headMap h).length := by
      constructor
      · rintro ⟨i, hi⟩; exact (List.getElem?_eq_some_iff.1 hi).1
      · intro hc; exact ⟨_, List.getElem?_eq_getElem hc⟩
    rw [this]
    by_cases h0 : h = 0
    · subst h0
      show c < e.map0.length ↔ _
      rw [a2.len0]
      show c < f.layout.c ↔ _
      omega
    · have : h = 1 := by omega
      subst this
      show c < e.map1.length ↔ _
      rw [a2.len1]
      show (c < if f.layout.h = 2 then f.layout.c else 0) ↔ _
      split <;> omega

/-! ## C60 -/

/-- **C60 (partial).** A format for an unsupported file system is refused and the image is as it was.  Missing:
every other refusal, which empties the image first (`C60_false_erased`). -/
theorem C60_other_fs_partial (d : Disk) (nz : Noise) (f : StdFormat) (r : Resolution) (boot creator : Option (List Byte)) :
    d.format nz f r .fat16 boot creator = (d, .error .unsupported) := rfl

/-- **C60 is false of the code.** Whatever the image holds, a format that is refused because the boot sector
template is too short, because the template is not the library's own and a creator is named, or because the
format has no FAT parameter block, leaves the image without any track. -/
theorem C60_false_erased (d : Disk) (nz : Noise) (f : StdFormat) (r : Resolution) (boot creator : Option (List Byte))
    (h : (∃ b, boot = some b ∧ b.length < 512) ∨ f.isPc = false ∨
      (f.isPc = true ∧ (∃ b, boot = some b ∧ 512 ≤ b.length ∧ b.getD 0x147 0 ≠ 0x66) ∧ creator ≠ none)) :
    ∃ d' e, d.format nz f r .fat12 boot creator = (d', .error e) ∧ d'.pool = [] ∧ d'.map0 = [] ∧ d'.map1 = [] := by
  have key : ∀ e, Disk.makeBoot f boot creator = .error e →
      ∃ d' e, d.format nz f r .fat12 boot creator = (d', .error e) ∧ d'.pool = [] ∧ d'.map0 = [] ∧ d'.map1 = [] := by
    intro e he
    refine ⟨d.reset, e, ?_, rfl, rfl, rfl⟩
    unfold Disk.format
    rw [if_neg (by simp)]
    simp only [he]
  rcases h with ⟨b, rfl, hb⟩ | hf | ⟨hf, ⟨b, rfl, hb, hne⟩, hc⟩
  · apply key .io
    unfold Disk.makeBoot BootSector.new
    rw [Option.getD_some, if_pos hb]
  · unfold Disk.makeBoot at key
    cases hn : BootSector.new (boot.getD defaultBoot) with
    | none => rw [hn] at key; exact key _ rfl
    | some b =>
      rw [hn] at key
      apply key .unsupported
      have : b.updateBpb f = none := by
        unfold BootSector.updateBpb
        cases f <;> first | rfl | exact absurd hf (by decide)
      simp only [this]
  · obtain ⟨c, rfl⟩ := Option.ne_none_iff_exists'.1 hc
    apply key .incompatible
    obtain ⟨b2, b3, p1, p2, p3, _⟩ := bpb_bytes f hf
    unfold Disk.makeBoot BootSector.new
    rw [Option.getD_some, if_neg (by omega)]
    simp only [BootSector.updateBpb, p1, p2, BootSector.setCreator]
    rw [if_neg]
    intro htag
    have h0 := congrArg (fun l : List Byte => l.getD 0 0) htag
    have hlen : (b.take 512).length = 512 := by rw [List.length_take]; omega
    have hget := putAt_getD (b.take 512) (b2.bytes ++ b3.bytes) bpbOffset 0x147 (by rw [hlen, p3]; decide)
    rw [if_neg (by rw [p3]; decide)] at hget
    apply hne
    have h0 : (((putAt (b.take 512) bpbOffset (b2.bytes ++ b3.bytes)).drop 0x147).take 8).getD 0 0 = 0x66 := h0
    simp only [List.getD_eq_getElem?_getD] at h0 hget ⊢
    rw [List.getElem?_take_of_lt (by decide), List.getElem?_drop] at h0
    rw [show 0x147 + 0 = 0x147 from rfl] at h0
    rw [hget, List.getElem?_take_of_lt (by decide)] at h0
    exact h0

/-- **C60 is false of the code.** An image loaded at flux resolution cannot be formatted at bitstream resolution:
the format is refused, and every track is gone. -/
theorem C60_false_flux (f : StdFormat) (hf : f.isPc = true) (d : Disk) (nz : Noise) (hb : d.res = ResSet.insert {} .fluxStream) :
    ∃ d', d.format nz f .bitStream .fat12 none none = (d', .error .incompatible) ∧ d'.pool = [] ∧
      d'.map0 = [] ∧ d'.map1 = [] := by
  obtain ⟨buf, m1, _⟩ := makeBoot_spec f hf none none (fun b h => by cases h) (fun c h => by cases h)
  obtain ⟨ch, rest, hl⟩ : ∃ ch rest, Disk.headMajor f.layout = ch :: rest := by
    cases f <;> exact ⟨_, _, rfl⟩
  have hh : ¬ ch.h ≥ 2 := by
    have : ch ∈ Disk.headMajor f.layout := by rw [hl]; exact List.mem_cons_self
    have := ((headMajor_mem f ch).1 this).2
    have : f.layout.h ≤ 2 := by cases f <;> decide
    omega
  refine ⟨d.reset, ?_, rfl, rfl, rfl⟩
  unfold Disk.format
  rw [if_neg (by simp)]
  simp only [m1, hl]
  rw [Disk.addEmpties, Disk.addEmpty, if_neg hh]
  have hrej : d.reset.rejects .bitStream = true := by
    show (!(false : Bool) && !d.res.isEmpty && !d.res.has .bitStream) = true
    rw [hb]; rfl
  simp only [hrej, if_true]

/-- An image with a track, of a flux disk, is such an image. -/
example : ∃ d : Disk, d.res = ResSet.insert {} .fluxStream ∧ d.pool ≠ [] :=
  ⟨{ res := ResSet.insert {} .fluxStream, pool := [.flux ⟨0, 0⟩ none], map0 := [0] }, rfl, by simp⟩

/-! ## C61 -/

/-- **C61 (partial).** An image formatted in the number of cylinders and heads it was created for is saved as a
sector image of the format: the boot sector followed by zeros.  Missing: images created for another geometry,
whose geometry the format does not change (`C61_false_geometry`). -/
theorem C61_saves_partial (f : StdFormat) (hf : f.isPc = true) (nz nz' : Noise) (d : Disk) (template : List Byte)
    (ht : 512 ≤ template.length) (hs : d.res.sect = false) (hb : d.res.bit = true ∨ d.res.isEmpty = true)
    (hg : d.geometry = f.layout.ch) :
    ∃ d' boot, d.format nz f .bitStream .fat12 (some template) none = (d', .ok ()) ∧
      IsBoot f template none boot ∧ Raw.save nz' d' = .ok (boot ++ List.replicate (f.diskSize - 512) 0) := by
  obtain ⟨buf, m1, m2, m3⟩ := makeBoot_spec f hf (some template) none (fun b h => by cases h; exact ht)
    (fun c h => by cases h)
  obtain ⟨d', h1, h2, h3, h4, h5⟩ := format_spec f hf nz d _ _ hs hb buf m1 m2.len
  refine ⟨d', buf, h1, m2, ?_⟩
  have hc := closest_spec f hf d' none h2.len0 (by rw [h3.geometry]; exact hg) h5 (by rw [h3.boot]; rfl)
  have hrel := fresh_rel h2
  rw [freshDisk_img f hf buf m2.len] at hrel
  refine (save_spec f nz' d' _ ?_ hrel _ hc).1 rfl
  rw [List.length_append, List.length_replicate, m2.len]
  have : 512 ≤ f.diskSize := by cases f <;> decide
  omega

/-- **C61 is false of the code.** An image created as a single-sided 160K disk and formatted as a double-sided
320K disk has two sides (it reads as one), but it is saved as a 160K image: the second side is lost. -/
theorem C61_false_geometry (nz nz' : Noise) :
    ∃ d boot, (Disk.create .pc160).format nz .pc320 .bitStream .fat12 none none = (d, .ok ()) ∧
      (∀ ops, basicRun d ops = (freshDisk .pc320 boot).run ops) ∧
      ∀ out, Raw.save nz' d = .ok out → out.length = 163840 := by
  obtain ⟨buf, m1, m2, m3⟩ := makeBoot_spec .pc320 rfl none none (fun b h => by cases h) (fun c h => by cases h)
  obtain ⟨d', h1, h2, h3, h4, h5⟩ := format_spec .pc320 rfl nz (Disk.create .pc160) none none rfl (Or.inr rfl) buf m1 m2.len
  refine ⟨d', buf, h1, (fresh_rel h2).run, ?_⟩
  have hc : d'.closestFormat true = some .pc160 := by
    unfold Disk.closestFormat
    have e1 : d'.boot = none := h3.boot
    have e2 : d'.geometry = ⟨40, 1⟩ := h3.geometry
    have e3 : d'.map0.length = 40 := h2.len0
    rw [e1, e2, e3, h5]
    rfl
  intro out ho
  exact save_length nz' d' .pc160 hc out ho

/-! ## C62 -/

/-- The shape of a map: its ids and the lengths of the contents. -/
def shapeOf (m : SectorMap) : List (Chsn × Nat) := m.map fun e => (e.1, e.2.length)

theorem update_shape (q : Query) (buf : List Byte) : ∀ (m : SectorMap) (l : List Byte), m.lookup q = some l →
    buf.length = l.length → shapeOf (m.update q buf) = shapeOf m
  | [], _, h, _ => by cases h
  | e :: m, l, h, hl => by
    rw [SectorMap.lookup] at h
    rw [SectorMap.update]
    by_cases ha : agrees q e.1 = true
    · rw [if_pos ha] at h
      cases h
      rw [if_pos ha]
      show (e.1, buf.length) :: shapeOf m = (e.1, e.2.length) :: shapeOf m
      rw [hl]
    · rw [if_neg ha] at h
      rw [if_neg ha]
      show (e.1, e.2.length) :: shapeOf _ = (e.1, e.2.length) :: shapeOf m
      rw [update_shape q buf m l h hl]

theorem step_shape (M : DiskMap) (op : SectorOp) (ch : Ch) : ((M.step op).1 ch).map shapeOf = (M ch).map shapeOf := by
  cases op with
  | read nz c q =>
    rw [DiskMap.step]
    cases hm : M c with
    | none => simp only [hm]
    | some m => simp only [hm]; cases m.lookup q <;> rfl
  | write c q buf =>
    rw [DiskMap.step]
    cases hm : M c with
    | none => simp only [hm]
    | some m =>
      simp only [hm]
      cases hl : m.lookup q with
      | none => simp only [hl]
      | some l =>
        simp only [hl]
        by_cases hb : buf.length ≠ l.length
        · rw [if_pos hb]
        · rw [if_neg hb]
          show (if ch = c then some _ else M ch).map shapeOf = _
          by_cases hc : ch = c
          · subst hc
            rw [if_pos rfl, hm]
            show some _ = some _
            rw [update_shape q buf m l hl (by omega)]
          · rw [if_neg hc]

theorem mapAfter_shape (ch : Ch) : ∀ (ops : List SectorOp) (M : DiskMap), (mapAfter M ops ch).map shapeOf = (M ch).map shapeOf
  | [], _ => rfl
  | op :: ops, M => by rw [mapAfter, mapAfter_shape ch ops, step_shape]

theorem lookup_shape (q : Query) : ∀ (m m' : SectorMap) (l : List Byte), shapeOf m = shapeOf m' → m.lookup q = some l →
    ∃ l', m'.lookup q = some l' ∧ l'.length = l.length
  | [], _, _, _, h => by cases h
  | e :: m, [], _, hs, _ => by cases hs
  | e :: m, e' :: m', l, hs, h => by
    have hs : (e.1, e.2.length) :: shapeOf m = (e'.1, e'.2.length) :: shapeOf m' := hs
    obtain ⟨h1, h2⟩ := List.cons.inj hs
    obtain ⟨h3, h4⟩ := Prod.mk.inj h1
    rw [SectorMap.lookup] at h ⊢
    rw [← h3]
    by_cases ha : agrees q e.1 = true
    · rw [if_pos ha] at h ⊢
      cases h
      exact ⟨_, rfl, h4.symm⟩
    · rw [if_neg ha] at h ⊢
      exact lookup_shape q m m' l h2 h

theorem update_boot_core (f g : StdFormat) (hf : f.isPc = true) (hg : g.isPc = true) (file : List Byte)
    (hl : file.length = f.diskSize) (H : List Byte → Nat) (nz : Noise) (ops : List SectorOp) :
    ∃ d0, Raw.loadImage nz file = .ok d0 ∧ (NoCollision H d0 → ∃ d e' old new, Raw.load H nz file = .ok d ∧
      (afterOps d ops).readBasic nz ⟨0, 0⟩ ⟨some 0, some 0, 1, some 2⟩ none = .ok old ∧
      (afterOps d ops).updateBoot nz g = (e', .ok ()) ∧ IsBoot g old none new ∧
      e'.boot = BootSector.new new ∧ ∀ more, basicRun e' more =
        basicRun (basicStep (afterOps d ops) (.write ⟨0, 0⟩ ⟨some 0, some 0, 1, some 2⟩ new)).1 more) := by
  obtain ⟨d0, h0, h⟩ := load_spec f hf nz H file hl
  refine ⟨d0, h0, fun hH => ?_⟩
  obtain ⟨d, h1, h2, _⟩ := h hH
  have hrel := h2.after ops
  obtain ⟨m0, l1, l2⟩ := imgDisk_lookup f.layout file ⟨0, 0, 1⟩ (by
    cases f <;> first | decide | exact absurd hf (by decide))
  have l1 : imgDisk f.layout file ⟨0, 0⟩ = some m0 := l1
  rw [layout_n] at l2
  have l2 : SectorMap.lookup ⟨some 0, some 0, 1, some 2⟩ m0 = _ := l2
  have hlen0 : (slice file (lbaOf f.layout ⟨0, 0, 1⟩ * f.layout.size) f.layout.size).length = 512 := by
    rw [(C31_sizes f f).2.2.2]
    apply slice_length
    have hz : lbaOf f.layout ⟨0, 0, 1⟩ = 0 := by
      cases f <;> first | decide | exact absurd hf (by decide)
    rw [hz, hl]
    cases f <;> decide
  have hsh := mapAfter_shape ⟨0, 0⟩ ops (imgDisk f.layout file)
  rw [l1] at hsh
  obtain ⟨m, hm, hsm⟩ := Option.map_eq_some_iff.1 hsh
  obtain ⟨old, o1, o2⟩ := lookup_shape _ m0 m _ hsm.symm l2
  rw [hlen0] at o2
  refine ⟨d, ?_⟩
  generalize afterOps d ops = e at hrel ⊢
  generalize mapAfter (imgDisk f.layout file) ops = M at hrel hm
  -- the new boot sector
  obtain ⟨b2, b3, p1, p2, p3, _⟩ := bpb_bytes g hg
  obtain ⟨new, q1, q2, _⟩ := makeBoot_spec g hg (some old) none (fun b h => by cases h; omega) (fun c h => by cases h)
  have hnew : new = putAt old bpbOffset (b2.bytes ++ b3.bytes) := by
    unfold Disk.makeBoot BootSector.new at q1
    rw [Option.getD_some, if_neg (by omega)] at q1
    simp only [BootSector.updateBpb, p1, p2] at q1
    cases q1
    rw [List.take_of_length_le (by omega)]
  -- the track
  rcases hrel.seek ⟨0, 0⟩ with ⟨k, _⟩ | ⟨i, t, m', k1, k2, k3, k4, k5, k6, k7⟩
  · rw [hm] at k; cases k
  rw [hm] at k4
  cases k4
  obtain ⟨c, x, rfl⟩ := k6 rfl
  have hread : e.readBoot nz = .ok old := by
    unfold Disk.readBoot
    have k1 : e.map0[0]? = some i := k1
    cases hm0 : e.map0 with
    | nil => rw [hm0] at k1; cases k1
    | cons j rest =>
      rw [hm0] at k1
      cases k1
      simp only [k3]
      obtain ⟨r, r1, r2, r3⟩ := k5.read nz ⟨some 0, some 0, 1, some 2⟩ none (Or.inl rfl) true
      obtain ⟨_, _, r4, r5, _⟩ := r3 _ o1
      rw [r1]
      simp only
      rw [if_neg (by omega), r5]
  have hw := k5.write ⟨some 0, some 0, 1, some 2⟩ new
  rw [o1] at hw
  have hw : if new.length ≠ old.length then _ else _ := hw
  rw [if_neg (by rw [q2.len, o2]; exact fun h => h rfl)] at hw
  obtain ⟨t', w1, w2⟩ := hw
  have hupd := hrel.update k2 k1 w2 (fun _ => ⟨c, t', rfl⟩)
  refine ⟨{ { e with boot := (some { (⟨Bpb2.read old bpbOffset, Bpb3.read old (bpbOffset + 13), old.drop (old.length - 2), old.take 512⟩ : BootSector) with
      bpb2 := b2, bpb3 := b3, buf := putAt (old.take 512) bpbOffset (b2.bytes ++ b3.bytes) }) } with pool := e.pool.set i (.bit c t') },
    old, new, h1, ?_, ?_, q2, ?_, ?_⟩
  · rw [hrel.readBasic, hm]
    simp only [o1]
  · unfold Disk.updateBoot
    rw [hread]
    simp only
    unfold BootSector.new
    rw [if_neg (by omega)]
    simp only [p1, p2]
    unfold Disk.writeBoot Disk.writeSector
    have hseek : ∀ b, ({ e with boot := b } : Disk).seek ⟨0, 0⟩ = e.seek ⟨0, 0⟩ := fun _ => rfl
    rw [hseek, k7]
    simp only [DiskTrack.writeSector, ← hnew, w1, Except.map]
  · show some _ = BootSector.new new
    have hl21 : (b2.bytes ++ b3.bytes).length = 21 := p3
    obtain ⟨c1, c2⟩ := C35_bpb_bytes b2 b3 old bpbOffset (by rw [o2]; decide)
    have hnl : new.length = 512 := q2.len
    unfold BootSector.new
    rw [if_neg (by omega), Option.some.injEq, List.take_of_length_le (by omega : old.length ≤ 512),
      List.take_of_length_le (by omega : new.length ≤ 512), hnl, o2]
    have hd : new.drop (512 - 2) = old.drop (512 - 2) := by
      rw [hnew]
      unfold putAt
      have h32 : (old.take bpbOffset ++ (b2.bytes ++ b3.bytes)).length = 32 := by
        rw [List.length_append, List.length_take, hl21, o2]; rfl
      rw [List.drop_append, h32, List.drop_of_length_le (by rw [h32]; omega), List.nil_append, List.drop_drop, hl21]
      rfl
    rw [hd, hnew, c1, c2]
  · intro more
    have hb : (basicStep e (.write ⟨0, 0⟩ ⟨some 0, some 0, 1, some 2⟩ new)).1 = { e with pool := e.pool.set i (.bit c t') } := by
      simp only [basicStep, Disk.writeBasic, Disk.writeSector, k7, DiskTrack.writeSector, w1, Except.map, Bool.or_self,
        Bool.false_eq_true, if_false]
    rw [hb, hupd.run more]
    exact DiskRel.run more ⟨hupd.bad, hupd.gone, hupd.held, hupd.apart⟩

/-- **C62.** On every loaded PC image, after any history of reads and writes, replacing the boot sector's
parameter block by that of a PC format succeeds, and is exactly: read the boot sector, change bytes 11 to 31 so
that they describe the format, write it back.  Nothing else on the disk changes. -/
theorem C62_update_boot (f g : StdFormat) (hf : f.isPc = true) (hg : g.isPc = true) (file : List Byte)
    (hl : file.length = f.diskSize) (H : List Byte → Nat) (nz : Noise) (ops : List SectorOp) :
    ∃ d0, Raw.loadImage nz file = .ok d0 ∧ (NoCollision H d0 → ∃ d e' old new, Raw.load H nz file = .ok d ∧
      (afterOps d ops).readBasic nz ⟨0, 0⟩ ⟨some 0, some 0, 1, some 2⟩ none = .ok old ∧
      (afterOps d ops).updateBoot nz g = (e', .ok ()) ∧ IsBoot g old none new ∧
      ∀ more, basicRun e' more =
        basicRun (basicStep (afterOps d ops) (.write ⟨0, 0⟩ ⟨some 0, some 0, 1, some 2⟩ new)).1 more) := by
  obtain ⟨d0, h0, h⟩ := update_boot_core f g hf hg file hl H nz ops
  refine ⟨d0, h0, fun hH => ?_⟩
  obtain ⟨d, e', old, new, a, b, c, e, _, k⟩ := h hH
  exact ⟨d, e', old, new, a, b, c, e, k⟩

end Fox
