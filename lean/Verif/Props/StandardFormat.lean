import Verif.Model.StandardFormat
import Verif.Spec.Format
import Verif.Props.Track
/-
C31 (format tables), C32 (every standard format fits its track), C35 (boot sector parameters).
-/
namespace Fox
open Fox.S34 Fox.Spec StdFormat

/-! ## C31 -/

theorem StdFormat.mem_all (f : StdFormat) : f ∈ StdFormat.all := by cases f <;> decide

/-- **C31.** The declared disk size is sectors × bytes per sector, distinct formats have distinct sizes and
distinct geometries. -/
theorem C31_sizes (f g : StdFormat) :
    f.diskSize = f.layout.c * f.layout.h * f.layout.s * f.layout.size ∧
    (f.diskSize = g.diskSize → f = g) ∧ (f.chs = g.chs → f = g) ∧
    f.layout.size = 512 := by
  cases f <;> cases g <;> decide

/-- **C31 (partial).** Looking a format up by size or by geometry is exact, for all sizes and geometries:
the answer is `f` precisely for `f`'s own size/geometry, except that the 1760K Amiga format is never
recognised.  Missing: that format (refuted below). -/
theorem C31_lookup_partial (f : StdFormat) (hf : f ≠ .amiga1760) :
    (∀ size, StdFormat.ofSize size = some f ↔ size = f.diskSize) ∧
    (∀ x, StdFormat.ofChs x = some f ↔ x = f.chs) := by
  constructor
  · intro size
    unfold StdFormat.ofSize
    constructor
    · intro h
      repeat' split at h
      all_goals first
        | (have := Option.some.inj h; subst this; assumption)
        | exact absurd h (by simp)
    · rintro rfl
      cases f <;> first | decide | exact absurd rfl hf
  · intro x
    unfold StdFormat.ofChs
    constructor
    · intro h
      repeat' split at h
      all_goals first
        | (have := Option.some.inj h; subst this; assumption)
        | exact absurd h (by simp)
    · rintro rfl
      cases f <;> first | decide | exact absurd rfl hf

/-- **C31 is false of the code** for one format: the 1760K Amiga format is recognised by no size and by no
geometry, not even its own. -/
theorem C31_false_amiga1760 : (∀ size, StdFormat.ofSize size ≠ some .amiga1760) ∧
    (∀ x, StdFormat.ofChs x ≠ some .amiga1760) := by
  constructor
  · intro size h
    unfold StdFormat.ofSize at h
    repeat' split at h
    all_goals exact absurd h (by decide)
  · intro x h
    unfold StdFormat.ofChs at h
    repeat' split at h
    all_goals exact absurd h (by decide)

/-- **C31.** Printing a format parameter and parsing it back gives the format; every listed parameter string
parses to the format it is listed with; the `pc_` prefix is optional. -/
theorem C31_params (f : StdFormat) : StdFormat.ofParam f.toParam.toList = some f ∧
    (∀ p ∈ StdFormat.paramList, StdFormat.ofParam p.1.toList = some p.2) ∧
    (f.isPc = true → StdFormat.ofParam (f.toParam.toList.drop 3) = some f) := by
  cases f <;> decide

/-- **C31, finding.** The list of parameters offered to users omits one supported format. -/
theorem C31_false_param_list : ¬ ∀ f : StdFormat, (f.toParam, f) ∈ StdFormat.paramList := by
  intro h
  exact absurd (h .amiga1760) (by decide)

/-! ## C32 -/

/-- The ids a standard format puts on track `(c, h)`: what the raw image loader and `DiskImage::format`
request (src/file_parsers/raw.rs:208-215, src/diskimage.rs:1345-1348), for the PC formats. -/
def stdIds (f : StdFormat) (c h : Nat) : List Chsn :=
  (List.range f.layout.s).map fun i => ⟨c, h, f.layout.sOff + i, f.layout.n⟩

theorem stdIds_bytes (f : StdFormat) (std : Standard) (gap3 c h : Nat) :
    trackBytes std gap3 (stdIds f c h) =
      preBytes std + f.layout.s * (12 + 10 + std.gap2 + 12 + (6 + nSize f.layout.n) + gap3) := by
  unfold trackBytes stdIds
  congr 1
  rw [List.map_map]
  generalize f.layout.s = k
  induction k with
  | zero => simp
  | succ k ih =>
    rw [List.range_succ, List.map_append, List.sum_append, ih, Nat.succ_mul]
    simp [sectorBytes, Chsn.size]

/-- **C32.** For every PC format, every track position, and both gap standards the library uses, the whole
formatted layout — including the last gap — is not longer than the track. -/
theorem C32_fits (f : StdFormat) (hf : f.isPc = true) (c h : Nat) (std : Standard) (hs : std ≠ .perpendicular) :
    trackBytes std f.gap3 (stdIds f c h) ≤ f.bitcellCt / 16 ∧ Fits std f.gap3 (stdIds f c h) f.bitcellCt := by
  have hn : nSize f.layout.n = 512 := by
    have h1 : f.layout.n = 2 := by
      have : f.layout.size = 512 := (C31_sizes f f).2.2.2
      unfold Layout.n; rw [this]
      rw [bytesToN, if_pos (by decide), bytesToN, if_pos (by decide), bytesToN, if_neg (by decide)]
    rw [h1]; decide
  unfold Fits
  rw [stdIds_bytes, hn]
  cases std
  · cases f <;> first | decide | exact absurd hf (by decide)
  · exact absurd rfl hs
  · cases f <;> first | decide | exact absurd hf (by decide)

/-- **C32, consequence.** Formatting an empty track of any PC format as the library does — any cylinder up to
255, any head, any fill — makes exactly that format's sectors discoverable. -/
theorem C32_format_standard (f : StdFormat) (hf : f.isPc = true) (c h : Nat) (hc : c < 256) (hh : h < 256)
    (std : Standard) (hs : std ≠ .perpendicular) (rnd : Nat → Bool) (pat : List Byte) (hp : pat ≠ []) :
    ∃ t, Track.emptyTrack f.bitcellCt = .ok t ∧
      ∃ t', ({ t with schema := some .system34 } : Track).format rnd std (stdIds f c h) pat f.gap3 = .ok t' ∧
        t'.sectorIds = stdIds f c h ∧ t'.validSectorIds = stdIds f c h := by
  obtain ⟨t, h1, h2, h3⟩ := emptyTrack_formattable f.bitcellCt
  refine ⟨t, h1, ?_⟩
  have hwf : ∀ x ∈ stdIds f c h, x.WF ∧ x.c < 256 := by
    intro x hx
    obtain ⟨i, hi, rfl⟩ := List.mem_map.1 hx
    have hi' := List.mem_range.1 hi
    have hn : f.layout.n = 2 := by
      have : f.layout.size = 512 := (C31_sizes f f).2.2.2
      unfold Layout.n; rw [this]
      rw [bytesToN, if_pos (by decide), bytesToN, if_pos (by decide), bytesToN, if_neg (by decide)]
    have hb : f.layout.sOff + f.layout.s < 256 := by cases f <;> decide
    refine ⟨⟨?_, ?_, ?_, ?_⟩, hc⟩
    · show c < 65536; omega
    · exact hh
    · show f.layout.sOff + i < 256; omega
    · show f.layout.n < 256; rw [hn]; decide
  obtain ⟨t', g1, _, g2, g3, _⟩ := C05_format_discoverable _ h3 rnd std (stdIds f c h) hwf pat hp f.gap3
    (show Fits _ _ _ t.data.len by rw [h2]; exact (C32_fits f hf c h std hs).2)
  exact ⟨t', g1, g2, g3⟩

example : StdFormat.pc1440.isPc = true ∧ (stdIds .pc1440 79 1).length = 18 ∧
    trackBytes .ibm 0x6C (stdIds .pc1440 79 1) = 12368 := by
  refine ⟨rfl, by simp [stdIds, StdFormat.layout], ?_⟩
  rw [stdIds_bytes]
  have : nSize StdFormat.pc1440.layout.n = 512 := by
    unfold Layout.n StdFormat.layout
    simp only
    rw [bytesToN, if_pos (by decide), bytesToN, if_pos (by decide), bytesToN, if_neg (by decide)]
    decide
  rw [this]; decide

/-! ## C35 -/

/-- Number of data clusters a BPB promises: what is left after boot sector(s), FATs and root directory. -/
def clusters (b : Bpb2) : Nat :=
  (b.totalSectors.toNat - b.reservedSectors.toNat - b.numberOfFats.toNat * b.sectorsPerFat.toNat -
    b.rootEntries.toNat * 32 / b.bytesPerSector.toNat) / b.sectorsPerCluster.toNat

/-- Number of 12-bit entries one FAT can hold. -/
def fatEntries (b : Bpb2) : Nat := b.sectorsPerFat.toNat * b.bytesPerSector.toNat * 2 / 3

theorem rd_le16 (x : BitVec 16) : x.extractLsb' 8 8 ++ x.extractLsb' 0 8 = x := by
  apply BitVec.eq_of_getLsbD_eq
  intro i hi
  rw [BitVec.getLsbD_append]
  simp only [BitVec.getLsbD_extractLsb']
  by_cases h1 : i < 8
  · simp [h1]
  · simp [h1, show i - 8 < 8 by omega, show 8 + (i - 8) = i by omega]

theorem rd_le32 (x : BitVec 32) : x.extractLsb' 24 8 ++ x.extractLsb' 16 8 ++ x.extractLsb' 8 8 ++
    x.extractLsb' 0 8 = x := by
  apply BitVec.eq_of_getLsbD_eq
  intro i hi
  rw [BitVec.getLsbD_append, BitVec.getLsbD_append, BitVec.getLsbD_append]
  simp only [BitVec.getLsbD_extractLsb']
  by_cases h1 : i < 8
  · simp [h1]
  · by_cases h2 : i - 8 < 8
    · simp [h1, h2, show 8 + (i - 8) = i by omega]
    · by_cases h3 : i - 8 - 8 < 8
      · simp [h1, h2, h3, show 16 + (i - 8 - 8) = i by omega]
      · simp [h1, h2, h3, show i - 8 - 8 - 8 < 8 by omega, show 24 + (i - 8 - 8 - 8) = i by omega]

theorem putAt_getD (buf bs : List Byte) (o k : Nat) (h : o + bs.length ≤ buf.length) :
    (putAt buf o bs).getD k 0 = if o ≤ k ∧ k < o + bs.length then bs.getD (k - o) 0 else buf.getD k 0 := by
  unfold putAt
  simp only [List.getD_eq_getElem?_getD]
  by_cases h1 : k < o
  · rw [List.append_assoc, List.getElem?_append_left (by simp; omega), List.getElem?_take, if_pos h1,
      if_neg (by omega)]
  · by_cases h2 : k < o + bs.length
    · rw [List.append_assoc, List.getElem?_append_right (by simp; omega),
        List.getElem?_append_left (by simp; omega), if_pos ⟨by omega, h2⟩]
      congr 2; simp; omega
    · rw [List.getElem?_append_right (by simp; omega), List.getElem?_drop, if_neg (by omega)]
      congr 2; simp; omega

theorem putAt_length (buf bs : List Byte) (o : Nat) (h : o + bs.length ≤ buf.length) :
    (putAt buf o bs).length = buf.length := by
  unfold putAt; simp; omega

/-- **C35.** Serialised boot parameters read back as themselves, at any place in any buffer. -/
theorem C35_bpb_bytes (b2 : Bpb2) (b3 : Bpb3) (buf : List Byte) (o : Nat) (h : o + 21 ≤ buf.length) :
    Bpb2.read (putAt buf o (b2.bytes ++ b3.bytes)) o = b2 ∧
    Bpb3.read (putAt buf o (b2.bytes ++ b3.bytes)) (o + 13) = b3 := by
  have hl : (b2.bytes ++ b3.bytes).length = 21 := by
    simp [Bpb2.bytes, Bpb3.bytes, le16, le32]
  have hg : ∀ k, k < 21 → (putAt buf o (b2.bytes ++ b3.bytes)).getD (o + k) 0 =
      (b2.bytes ++ b3.bytes).getD k 0 := by
    intro k hk
    rw [putAt_getD _ _ _ _ (by rw [hl]; exact h), if_pos (by rw [hl]; omega)]
    congr 1; omega
  have h0 := hg 0 (by omega)
  rw [Nat.add_zero] at h0
  constructor
  · unfold Bpb2.read rdLe16
    simp only [Nat.add_assoc]
    rw [h0, hg _ (by omega), hg _ (by omega), hg _ (by omega), hg _ (by omega), hg _ (by omega), hg _ (by omega),
      hg _ (by omega), hg _ (by omega), hg _ (by omega), hg _ (by omega), hg _ (by omega), hg _ (by omega)]
    simp [Bpb2.bytes, le16, rd_le16]
  · unfold Bpb3.read rdLe16 rdLe32
    simp only [Nat.add_assoc]
    rw [hg _ (by omega), hg _ (by omega), hg _ (by omega), hg _ (by omega), hg _ (by omega), hg _ (by omega),
      hg _ (by omega), hg _ (by omega)]
    simp [Bpb2.bytes, Bpb3.bytes, le16, le32, rd_le16, rd_le32]

/-- **C35.** Patching any boot sector of at least 512 bytes for a PC format: it succeeds, changes only the 21
parameter bytes, and a reader of the patched sector recognises exactly that format. -/
theorem C35_boot_sector_round_trip (b : List Byte) (hb : 512 ≤ b.length) (f : StdFormat) (hf : f.isPc = true) :
    ∃ s s', BootSector.new b = some s ∧ s.updateBpb f = some s' ∧ s'.buf.length = 512 ∧
      (∀ k, k < 11 ∨ 32 ≤ k → s'.buf.getD k 0 = (b.take 512).getD k 0) ∧
      ∃ r, BootSector.new s'.buf = some r ∧ r.standardFormat = some f ∧ r.bpb2.isValid = true ∧
        r.bpb2 = s'.bpb2 ∧ r.bpb3 = s'.bpb3 := by
  have hex : ∃ b2 b3, Bpb2.ofFormat f = some b2 ∧ Bpb3.ofFormat f = some b3 ∧ b2.format = some f ∧
      b2.isValid = true := by
    cases f <;> first | exact absurd hf (by decide) | exact ⟨_, _, rfl, rfl, by decide, by decide⟩
  obtain ⟨b2, b3, e2, e3, hfm, hv⟩ := hex
  have hl : (b2.bytes ++ b3.bytes).length = 21 := by simp [Bpb2.bytes, Bpb3.bytes, le16, le32]
  have ht : (b.take 512).length = 512 := by simp; omega
  refine ⟨_, _, by unfold BootSector.new; rw [if_neg (by omega)], by unfold BootSector.updateBpb; rw [e2, e3],
    ?_, ?_, ?_⟩
  · show (putAt (b.take 512) bpbOffset _).length = 512
    rw [putAt_length _ _ _ (by rw [hl, ht]; decide), ht]
  · intro k hk
    show (putAt (b.take 512) bpbOffset _).getD k 0 = _
    rw [putAt_getD _ _ _ _ (by rw [hl, ht]; decide), if_neg (by rw [hl]; unfold bpbOffset; omega)]
  · obtain ⟨r2, r3⟩ := C35_bpb_bytes b2 b3 (b.take 512) bpbOffset (by rw [ht]; decide)
    refine ⟨_, by unfold BootSector.new; rw [if_neg (by
      show ¬ (putAt (b.take 512) bpbOffset _).length < 512
      rw [putAt_length _ _ _ (by rw [hl, ht]; decide), ht]; omega)], ?_, ?_, r2, r3⟩
    · show (Bpb2.read _ _).format = _
      rw [r2]; exact hfm
    · show (Bpb2.read _ _).isValid = _
      rw [r2]; exact hv

/-- **C35.** The parameters agree with the format's geometry. -/
theorem C35_bpb_geometry (f : StdFormat) (b2 : Bpb2) (b3 : Bpb3) (h2 : Bpb2.ofFormat f = some b2)
    (h3 : Bpb3.ofFormat f = some b3) :
    b2.totalSectors.toNat = f.layout.c * f.layout.h * f.layout.s ∧ b2.bytesPerSector.toNat = f.layout.size ∧
    b3.sectorsPerTrack.toNat = f.layout.s ∧ b3.numberOfHeads.toNat = f.layout.h := by
  cases f <;> simp only [Bpb2.ofFormat, Bpb3.ofFormat, Option.some.injEq, reduceCtorEq] at h2 h3 <;>
    (subst h2; subst h3; decide)

/-- **C35 (partial).** The FAT the parameters describe can address every cluster they promise, for every
format but 2.88M.  Missing: 2.88M (refuted below). -/
theorem C35_fat_size_partial (f : StdFormat) (hf : f ≠ .pc2880) (b2 : Bpb2) (h2 : Bpb2.ofFormat f = some b2) :
    clusters b2 + 2 ≤ fatEntries b2 := by
  cases f <;> simp only [Bpb2.ofFormat, Option.some.injEq, reduceCtorEq] at h2 <;>
    first
    | exact absurd rfl hf
    | (subst h2; decide)

/-- **C35 is false of the code** for the 2.88M format: its parameters promise 5726 clusters but a FAT with
room for 3072 entries. -/
theorem C35_false_fat_size_2880 : ∃ b2, Bpb2.ofFormat .pc2880 = some b2 ∧ clusters b2 = 5726 ∧
    fatEntries b2 = 3072 := ⟨_, rfl, by decide, by decide⟩

/-- **C35, finding.** The 180K format is given the media descriptor of the 160K format (`FE`), although the
same library reads `FC` as 180K. -/
theorem C35_false_media_180 : ∃ b a, Bpb2.ofFormat .pc180 = some b ∧ Bpb2.ofFormat .pc160 = some a ∧
    b.mediaDescriptor = a.mediaDescriptor ∧
    ({ b with totalSectors := 0 } : Bpb2).format = some .pc160 := ⟨_, _, rfl, rfl, by decide, by decide⟩

/-- **C35.** Setting the creator string changes exactly its eight bytes, and is refused on any boot sector
that does not carry the library's tag. -/
theorem C35_creator (s : BootSector) (c : List Byte) (hc : c.length = 8) (hb : s.buf.length = 512) :
    (s.setCreator c = none ↔ (s.buf.drop 0x147).take 8 ≠ creatorTag) ∧
    ∀ s', s.setCreator c = some s' → s'.bpb2 = s.bpb2 ∧ s'.bpb3 = s.bpb3 ∧ s'.buf.length = 512 ∧
      ∀ k, s'.buf.getD k 0 = if 0x147 ≤ k ∧ k < 0x14F then c.getD (k - 0x147) 0 else s.buf.getD k 0 := by
  unfold BootSector.setCreator
  by_cases h : (s.buf.drop 0x147).take 8 = creatorTag
  · rw [if_pos h]
    refine ⟨by simp [h], ?_⟩
    intro s' hs
    have := Option.some.inj hs
    subst this
    refine ⟨rfl, rfl, ?_, ?_⟩
    · show (putAt s.buf _ c).length = 512
      rw [putAt_length _ _ _ (by omega), hb]
    · intro k
      show (putAt s.buf _ c).getD k 0 = _
      rw [putAt_getD _ _ _ _ (by omega), hc]
  · rw [if_neg h]
    exact ⟨by simp [h], by intro s' hs; exact absurd hs (by simp)⟩

/-- A 512-byte sector of `E5` bytes, patched for 1.44M, is recognised as 1.44M. -/
example : ∃ s s' r, BootSector.new (List.replicate 512 0xE5) = some s ∧ s.updateBpb .pc1440 = some s' ∧
    BootSector.new s'.buf = some r ∧ r.standardFormat = some .pc1440 := by
  obtain ⟨s, s', h1, h2, _, _, r, h3, h4, _⟩ :=
    C35_boot_sector_round_trip (List.replicate 512 0xE5) (by rw [List.length_replicate]; exact Nat.le_refl _) .pc1440 rfl
  exact ⟨s, s', r, h1, h2, h3, h4⟩

end Fox
