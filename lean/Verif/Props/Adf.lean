import Verif.Proofs.Adf
import Verif.Props.Raw
/-
C43: Amiga sector images (ADF, 880K).
-/
namespace Fox
open Fox.Spec Fox.S34

/-- The image as a map from positions and ids to contents. -/
def adfMap (file : List Byte) : DiskMap := fun ch =>
  if ch.c < 80 ∧ ch.h < 2 then
    some ((List.range 11).map fun s => (⟨ch.c, ch.h, s, 2⟩, fileSector file 512 ((ch.c * 2 + ch.h) * 11 + s)))
  else none

theorem adfMap_eq (file : List Byte) : imgDisk adf file = adfMap file := by
  funext ch
  unfold imgDisk adfMap
  by_cases hc : ch.c < 80 ∧ ch.h < 2
  · rw [if_pos hc, if_pos (show ch.c < adf.c ∧ ch.h < adf.h from hc)]
    unfold imgTrack
    show some (List.map (fun s => (Chsn.mk ((ch.c * 2 + ch.h) / 2) ((ch.c * 2 + ch.h) % 2) (s + 0) adf.n,
      slice file (((ch.c * 2 + ch.h) * 11 + s) * 512) 512)) (List.range 11)) = _
    rw [layout_n, show (ch.c * 2 + ch.h) / 2 = ch.c by omega, show (ch.c * 2 + ch.h) % 2 = ch.h by omega]
    rfl
  · rw [if_neg hc, if_neg (show ¬ (ch.c < adf.c ∧ ch.h < adf.h) from hc)]

/-- Under a collision-free hash, "all pairs have equal hashes" is "the image is doubled". -/
theorem doubled_iff {H : List Byte → Nat} {file : List Byte} (hH : AdfNoCollision H file) :
    (∀ i, i < 40 → H (adfTrack file (2 * i) 0) = H (adfTrack file (2 * i + 1) 0)) ↔ Doubled file :=
  ⟨fun h i hi => hH _ _ (by omega) (by omega) (h i hi), fun h i hi => by rw [h i hi]⟩

/-- **C43 (partial).** Every 901,120-byte image, whatever its contents, loads; saving it again gives the same
bytes exactly when the odd cylinders do not all repeat the even ones on head 0 and the second sector of the
file does not look like a PC boot sector.  Hypothesis: the track hash does not collide on this image's own
tracks.  Missing: the other images, which are not preserved (`C43_false_blank`, `C43_false_pc_lookalike`). -/
theorem C43_round_trip_partial (file : List Byte) (hl : file.length = 901120) (H : List Byte → Nat)
    (hH : AdfNoCollision H file) (nz nz' : Noise) :
    ∃ d, Raw.load H nz file = .ok d ∧
      (Raw.save nz' d = .ok file ↔ ¬ Doubled file ∧ bootFormat (file.drop 512) = none) := by
  by_cases hd : Doubled file
  · obtain ⟨d, h1, _, _, h4⟩ := adf_load_half hl H nz ((doubled_iff hH).2 hd)
    refine ⟨d, h1, fun hs => ?_, fun h => absurd hd h.1⟩
    cases hb : bootFormat (file.drop 512) with
    | none =>
      rw [hb] at h4
      unfold Raw.save at hs
      rw [h4] at hs
      cases hs
    | some g =>
      rw [hb] at h4
      have := save_length nz' d g h4 file hs
      rw [hl] at this
      have hg := (C31_sizes .amiga880 g).2.1 this
      rw [← hg] at hb
      exact absurd hb (bootFormat_pc _)
  · obtain ⟨d, h1, h2, h3⟩ := adf_load_whole hl H nz (fun h => hd ((doubled_iff hH).1 h))
    refine ⟨d, h1, ?_⟩
    obtain ⟨s1, s2⟩ := save_spec .amiga880 nz' d file hl h2.rel _ h3
    constructor
    · intro hs
      refine ⟨hd, ?_⟩
      have hlen := s2 file hs
      rw [hl] at hlen
      have hg := (C31_sizes .amiga880 _).2.1 hlen
      cases hb : bootFormat (file.drop 512) with
      | none => rfl
      | some g =>
        rw [hb] at hg
        exact absurd (hb.trans (congrArg some hg.symm)) (bootFormat_pc _)
    · rintro ⟨_, hb⟩
      apply s1
      rw [hb]; rfl

/-- **C43 (partial).** After loading an image that is not doubled, every history of basic sector reads and
writes in which writes name existing sectors shows exactly what the map from positions and sector numbers
0 to 10 to the file's bytes shows.  Missing: writes to missing sectors, which are reported as done
(`C22_false_missing_write`), and doubled images. -/
theorem C43_loaded_disk_is_map_partial (file : List Byte) (hl : file.length = 901120) (H : List Byte → Nat)
    (hH : AdfNoCollision H file) (nz : Noise) (hd : ¬ Doubled file) (ops : List SectorOp)
    (hops : ∀ op ∈ ops, Hits (adfMap file) op) :
    ∃ d, Raw.load H nz file = .ok d ∧ basicRun d ops = DiskMap.run (adfMap file) ops := by
  obtain ⟨d, h1, h2, _⟩ := adf_load_whole hl H nz (fun h => hd ((doubled_iff hH).1 h))
  rw [adfMap_eq] at h2
  exact ⟨d, h1, h2.run ops hops⟩

/-- **C43 is false of the code: blank disks.** An image of which every byte is the same — a blank Amiga disk —
loads as a disk of half the cylinders: reading any sector of cylinder 40 or above is a seek error, and unless
its bytes look like a PC boot sector it cannot be saved at all. -/
theorem C43_false_blank (b : Byte) (H : List Byte → Nat) (nz nz' : Noise) :
    ∃ d, Raw.load H nz (List.replicate 901120 b) = .ok d ∧
      (∀ c h q, 40 ≤ c → d.readBasic nz' ⟨c, h⟩ q none = .error .seek) ∧
      Raw.save nz' d ≠ .ok (List.replicate 901120 b) ∧
      (b = 0 → Raw.save nz' d = .error .unsupported) := by
  have hl : (List.replicate 901120 b).length = 901120 := List.length_replicate
  have hsl : ∀ o n, o + n ≤ 901120 → slice (List.replicate 901120 b) o n = List.replicate n b := by
    intro o n h
    unfold slice
    rw [List.drop_replicate, List.take_replicate]
    congr 1; omega
  have hd : Doubled (List.replicate 901120 b) := by
    intro i hi
    unfold adfTrack
    rw [hsl _ _ (by omega), hsl _ _ (by omega)]
  obtain ⟨d, h1, h2, h3, h4⟩ := adf_load_half hl H nz (fun i hi => by rw [hd i hi])
  refine ⟨d, h1, ?_, ?_, ?_⟩
  · intro c h q hc
    unfold Disk.readBasic Disk.seek
    by_cases hh : h > 1
    · rw [if_pos hh]
    · rw [if_neg hh]
      have : (d.headMap h)[c]? = none := by
        unfold Disk.headMap
        split
        · exact List.getElem?_eq_none (by show _ ≤ c; omega)
        · exact List.getElem?_eq_none (by show _ ≤ c; omega)
      simp only [this]
  · intro hs
    cases hb : bootFormat ((List.replicate 901120 b).drop 512) with
    | none =>
      rw [hb] at h4
      unfold Raw.save at hs
      rw [h4] at hs
      cases hs
    | some g =>
      rw [hb] at h4
      have := save_length nz' d g h4 _ hs
      rw [hl] at this
      have hg := (C31_sizes .amiga880 g).2.1 this
      rw [← hg] at hb
      exact absurd hb (bootFormat_pc _)
  · rintro rfl
    have hb : bootFormat ((List.replicate 901120 (0 : Byte)).drop 512) = none := by
      rw [List.drop_replicate]
      apply bootFormat_zero <;> exact getD_replicate_byte _ _ _ (by omega)
    rw [hb] at h4
    unfold Raw.save
    rw [h4]

/-- **C43 is false of the code: the wrong boot block.** If bytes 19, 20 of the file's *second* sector read as a
PC total sector count — say 1440 — the image is saved as that PC format: never the same file. -/
theorem C43_false_pc_lookalike (file : List Byte) (hl : file.length = 901120) (g : StdFormat)
    (hb : bootFormat (file.drop 512) = some g) (H : List Byte → Nat) (nz nz' : Noise) :
    ∃ d, Raw.load H nz file = .ok d ∧ ∀ out, Raw.save nz' d = .ok out → out.length = g.diskSize ∧ out ≠ file := by
  have hfin : ∀ d : Disk, d.closestFormat true = some g →
      ∀ out, Raw.save nz' d = .ok out → out.length = g.diskSize ∧ out ≠ file := by
    intro d hc out ho
    have h1 := save_length nz' d g hc out ho
    refine ⟨h1, ?_⟩
    rintro rfl
    rw [hl] at h1
    have hg := (C31_sizes .amiga880 g).2.1 h1
    rw [← hg] at hb
    exact bootFormat_pc _ hb
  by_cases hd : ∀ i, i < 40 → H (adfTrack file (2 * i) 0) = H (adfTrack file (2 * i + 1) 0)
  · obtain ⟨d, h1, _, _, h4⟩ := adf_load_half hl H nz hd
    exact ⟨d, h1, hfin d (by rw [h4, hb])⟩
  · obtain ⟨d, h1, _, h3⟩ := adf_load_whole hl H nz hd
    exact ⟨d, h1, hfin d (by rw [h3, hb]; rfl)⟩

/-! ### The hypotheses can be met -/

theorem doubled_getD (file : List Byte) (h : Doubled file) : file.getD 0 0 = file.getD (11263 + 1) 0 := by
  have h0 : slice file 0 5632 = slice file 11264 5632 := h 0 (by omega)
  have h1 := congrArg (fun l => l.getD 0 0) h0
  simp only [slice_getD _ _ _ _ (show 0 < 5632 by omega)] at h1
  exact h1

/-- An image that is not doubled and has no PC boot sector survives: zeros with a single one at the start. -/
example (nz : Noise) : ∃ d, Raw.load numeral nz (1#8 :: List.replicate 901119 (0#8)) = .ok d ∧
    Raw.save nz d = .ok (1#8 :: List.replicate 901119 (0#8)) := by
  obtain ⟨d, h1, h2⟩ := C43_round_trip_partial (1#8 :: List.replicate 901119 (0#8))
    (by rw [List.length_cons, List.length_replicate]) numeral (fun _ _ _ _ h => numeral_inj _ _ h) nz nz
  refine ⟨d, h1, h2.2 ⟨?_, ?_⟩⟩
  · intro hd
    have h0 := doubled_getD _ hd
    have hget : ∀ n, 11263 < n → ((1#8 :: List.replicate n (0#8)).getD 0 0 =
        (1#8 :: List.replicate n (0#8)).getD (11263 + 1) 0) → False := by
      intro n hn h
      rw [List.getD_cons_zero, List.getD_cons_succ, getD_replicate_byte _ _ _ hn] at h
      exact absurd h (by decide)
    exact hget _ (by omega) h0
  · have hdrop : ∀ n, (1#8 :: List.replicate n (0#8)).drop 512 = List.replicate (n - 511) 0#8 := by
      intro n; rw [List.drop_succ_cons, List.drop_replicate]
    rw [hdrop]
    apply bootFormat_zero <;> exact getD_replicate_byte _ _ _ (by omega)

/-- A write that hits: sector 3 of cylinder 5. -/
example (file : List Byte) (buf : List Byte) : Hits (adfMap file) (.write ⟨5, 1⟩ (.ofChsn ⟨5, 1, 3, 2⟩) buf) := by
  intro m hm
  unfold adfMap at hm
  rw [if_pos (by decide)] at hm
  cases hm
  rw [show List.range 11 = [0, 1, 2, 3, 4, 5, 6, 7, 8, 9, 10] by decide]
  rfl

end Fox
