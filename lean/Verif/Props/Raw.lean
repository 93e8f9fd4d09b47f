import Verif.Proofs.RawRound
/-
C16: raw image load and save.  C37: a disk is a map from positions and ids to contents.
-/
namespace Fox
open Fox.Spec Fox.S34

/-! ## C16 -/

/-- **C16 (partial).** Every file of a PC format's size, whatever its contents, loads as a bitstream disk;
saving it again gives the same bytes exactly when the boot sector names no format or the image's own.
Hypothesis: the track hash does not collide on this image's own tracks.  Missing: images whose boot sector
names another format, which are not preserved (`C16_false_other_boot_sector`). -/
theorem C16_round_trip_partial (f : StdFormat) (hf : f.isPc = true) (file : List Byte)
    (hl : file.length = f.diskSize) (H : List Byte → Nat) (nz nz' : Noise) :
    ∃ d0, Raw.loadImage nz file = .ok d0 ∧ (NoCollision H d0 → ∃ d, Raw.load H nz file = .ok d ∧
      (Raw.save nz' d = .ok file ↔ bootFormat file = none ∨ bootFormat file = some f)) := by
  obtain ⟨d0, h0, h⟩ := load_spec f hf nz H file hl
  refine ⟨d0, h0, fun hH => ?_⟩
  obtain ⟨d, h1, h2, _, h3, h4, h5, h6⟩ := h hH
  refine ⟨d, h1, ?_⟩
  have hc := closest_spec f hf d _ h3 h4 h5 h6
  obtain ⟨s1, s2⟩ := save_spec f nz' d file hl h2 _ hc
  constructor
  · intro hs
    have hlen := s2 file hs
    rw [hl] at hlen
    have hfg := (C31_sizes f _).2.1 hlen
    cases hb : bootFormat file with
    | none => exact Or.inl rfl
    | some g =>
      rw [hb] at hfg
      exact Or.inr (by rw [hfg]; rfl)
  · intro hb
    apply s1
    rcases hb with hb | hb <;> rw [hb] <;> rfl

/-- **C16.** The loaded disk exposes exactly the file's sectors: reading cylinder, head and sector of the
layout returns the bytes of the file at that sector's place. -/
theorem C16_sectors (f : StdFormat) (hf : f.isPc = true) (file : List Byte) (hl : file.length = f.diskSize)
    (H : List Byte → Nat) (nz nz' : Noise) :
    ∃ d0, Raw.loadImage nz file = .ok d0 ∧ (NoCollision H d0 → ∃ d, Raw.load H nz file = .ok d ∧
      ∀ x, InLayout f.layout x → d.readBasic nz' ⟨x.c, x.h⟩ (.ofChsn ⟨x.c, x.h, x.s, 2⟩) none =
        .ok (fileSector file 512 (lbaOf f.layout x))) := by
  obtain ⟨d0, h0, h⟩ := load_spec f hf nz H file hl
  refine ⟨d0, h0, fun hH => ?_⟩
  obtain ⟨d, h1, h2, _⟩ := h hH
  refine ⟨d, h1, ?_⟩
  intro x hx
  obtain ⟨m, m1, m2⟩ := imgDisk_lookup f.layout file x hx
  rw [layout_n] at m2
  rw [h2.readBasic, m1]
  simp only [m2, (C31_sizes f f).2.2.2]
  rfl

theorem bootFormat_zero (file : List Byte) (h1 : file.getD 19 0 = 0) (h2 : file.getD 20 0 = 0)
    (h3 : file.getD 21 0 = 0) : bootFormat file = none := by
  unfold bootFormat Bpb2.read rdLe16 bpbOffset Bpb2.format
  simp only [Nat.reduceAdd, h1, h2, h3]
  decide

/-- **C16, in plain terms.** An image whose boot sector leaves the sector count and media descriptor zero
survives load and save unchanged. -/
theorem C16_blank_boot_sector_partial (f : StdFormat) (hf : f.isPc = true) (file : List Byte)
    (hl : file.length = f.diskSize) (h1 : file.getD 19 0 = 0) (h2 : file.getD 20 0 = 0)
    (h3 : file.getD 21 0 = 0) (H : List Byte → Nat) (nz nz' : Noise) :
    ∃ d0, Raw.loadImage nz file = .ok d0 ∧ (NoCollision H d0 → ∃ d, Raw.load H nz file = .ok d ∧
      Raw.save nz' d = .ok file) := by
  obtain ⟨d0, h0, h⟩ := C16_round_trip_partial f hf file hl H nz nz'
  refine ⟨d0, h0, fun hH => ?_⟩
  obtain ⟨d, a, b⟩ := h hH
  exact ⟨d, a, b.2 (Or.inl (bootFormat_zero file h1 h2 h3))⟩

theorem getD_replicate_byte (n k : Nat) (b : Byte) (h : k < n) : (List.replicate n b).getD k 0 = b := by
  rw [List.getD_eq_getElem?_getD, List.getElem?_replicate, if_pos h]; rfl

theorem boot_replicate (n : Nat) (hn : 512 ≤ n) (b : Byte) :
    bootFormat (List.replicate n b) = (Bpb2.mk (b ++ b) b (b ++ b) b (b ++ b) (b ++ b) b (b ++ b)).format := by
  unfold bootFormat Bpb2.read rdLe16 bpbOffset
  simp only [Nat.reduceAdd]
  rw [getD_replicate_byte n 11 b (by omega), getD_replicate_byte n 12 b (by omega), getD_replicate_byte n 13 b (by omega),
    getD_replicate_byte n 14 b (by omega), getD_replicate_byte n 15 b (by omega), getD_replicate_byte n 16 b (by omega),
    getD_replicate_byte n 17 b (by omega), getD_replicate_byte n 18 b (by omega), getD_replicate_byte n 19 b (by omega),
    getD_replicate_byte n 20 b (by omega), getD_replicate_byte n 21 b (by omega), getD_replicate_byte n 22 b (by omega),
    getD_replicate_byte n 23 b (by omega)]

/-- **C16 is false of the code.** A 1.44M image filled with `FF` bytes (an erased disk) loads, but its boot
sector is read as naming the 320K format, and what is saved — whatever the random source and a collision-free
hash — is not the file: it has 327,680 bytes or there is an error. -/
theorem C16_false_other_boot_sector (H : List Byte → Nat) (nz nz' : Noise) :
    let file := List.replicate 1474560 (0xFF#8)
    ∃ d0, Raw.loadImage nz file = .ok d0 ∧ (NoCollision H d0 → ∃ d, Raw.load H nz file = .ok d ∧
      Raw.save nz' d ≠ .ok file ∧ ∀ out, Raw.save nz' d = .ok out → out.length = 327680) := by
  intro file
  have hl : file.length = StdFormat.pc1440.diskSize := List.length_replicate
  have hb : bootFormat file = some .pc320 := by
    show bootFormat (List.replicate 1474560 (0xFF#8)) = _
    generalize hn : (1474560 : Nat) = n
    rw [boot_replicate n (by omega)]
    decide
  obtain ⟨d0, h0, h⟩ := load_spec .pc1440 rfl nz H file hl
  refine ⟨d0, h0, fun hH => ?_⟩
  obtain ⟨d, h1, h2, _, h3, h4, h5, h6⟩ := h hH
  have hc := closest_spec .pc1440 rfl d _ h3 h4 h5 h6
  rw [hb] at hc
  obtain ⟨_, s2⟩ := save_spec .pc1440 nz' d file hl h2 .pc320 hc
  refine ⟨d, h1, ?_, s2⟩
  intro hs
  have := s2 file hs
  rw [hl] at this
  exact absurd this (by decide)

/-! ### The hypotheses can be met -/

/-- A collision-free hash. -/
def numeral : List Byte → Nat
  | [] => 0
  | b :: l => numeral l * 256 + b.toNat + 1

theorem numeral_inj : ∀ a b : List Byte, numeral a = numeral b → a = b
  | [], [], _ => rfl
  | [], _ :: _, h => by simp [numeral] at h
  | _ :: _, [], h => by simp [numeral] at h
  | x :: a, y :: b, h => by
    simp only [numeral] at h
    have hx := x.isLt
    have hy := y.isLt
    have h1 : numeral a = numeral b := by omega
    have h2 : x.toNat = y.toNat := by omega
    rw [numeral_inj a b h1, BitVec.eq_of_toNat_eq h2]

/-- A 360K image of zeros: the hypotheses hold and the round trip happens. -/
example (nz : Noise) : ∃ d, Raw.load numeral nz (List.replicate 368640 (0#8)) = .ok d ∧
    Raw.save nz d = .ok (List.replicate 368640 (0#8)) := by
  obtain ⟨d0, _, h⟩ := C16_blank_boot_sector_partial .pc360 rfl (List.replicate 368640 (0#8))
    List.length_replicate (getD_replicate_byte _ _ _ (by omega)) (getD_replicate_byte _ _ _ (by omega))
    (getD_replicate_byte _ _ _ (by omega)) numeral nz nz
  exact h (fun _ _ _ _ _ _ he => numeral_inj _ _ he)

/-! ## C37 -/

/-- **C37.** After loading any PC image, every history of basic sector reads and writes — any positions, any
queries, any buffers — shows the user exactly what the map from positions and sector ids to contents shows:
reads return the last bytes written to that sector (or the file's), writes with the wrong size or to missing
sectors or tracks are refused and change nothing. -/
theorem C37_loaded_disk_is_map (f : StdFormat) (hf : f.isPc = true) (file : List Byte)
    (hl : file.length = f.diskSize) (H : List Byte → Nat) (nz : Noise) (ops : List SectorOp) :
    ∃ d0, Raw.loadImage nz file = .ok d0 ∧ (NoCollision H d0 → ∃ d, Raw.load H nz file = .ok d ∧
      basicRun d ops = DiskMap.run (fun ch => if ch.c < f.layout.c ∧ ch.h < f.layout.h then
        some ((List.range f.layout.s).map fun s => (⟨ch.c, ch.h, s + f.layout.sOff, 2⟩,
          fileSector file 512 ((ch.c * f.layout.h + ch.h) * f.layout.s + s))) else none) ops) := by
  obtain ⟨d0, h0, h⟩ := load_spec f hf nz H file hl
  refine ⟨d0, h0, fun hH => ?_⟩
  obtain ⟨d, h1, h2, _⟩ := h hH
  refine ⟨d, h1, ?_⟩
  have he : imgDisk f.layout file = (fun ch => if ch.c < f.layout.c ∧ ch.h < f.layout.h then
        some ((List.range f.layout.s).map fun s => (⟨ch.c, ch.h, s + f.layout.sOff, 2⟩,
          fileSector file 512 ((ch.c * f.layout.h + ch.h) * f.layout.s + s))) else none) := by
    funext ch
    unfold imgDisk
    by_cases hc : ch.c < f.layout.c ∧ ch.h < f.layout.h
    · rw [if_pos hc, if_pos hc]
      unfold imgTrack
      have e1 : (ch.c * f.layout.h + ch.h) / f.layout.h = ch.c := by
        rw [Nat.mul_comm, Nat.mul_add_div (by omega), Nat.div_eq_of_lt hc.2, Nat.add_zero]
      have e2 : (ch.c * f.layout.h + ch.h) % f.layout.h = ch.h := by
        rw [Nat.mul_comm, Nat.mul_add_mod, Nat.mod_eq_of_lt hc.2]
      rw [e1, e2, layout_n, (C31_sizes f f).2.2.2]
      rfl
    · rw [if_neg hc, if_neg hc]
  rw [← he]
  exact h2.run ops

end Fox
