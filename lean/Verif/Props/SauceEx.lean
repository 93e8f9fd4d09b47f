import Verif.Props.SauceMake
import Verif.Props.IpfRead
/-
MOOF and WOZ files: examples, what is not checked, and files that describe given disks.
-/
namespace Fox
open Spec Flux
open SauceFile (Drive Tables)
namespace SauceMake

theorem byte_replicate {a : Byte} {n s : Nat} (h : s < n) : ScpFile.byte (List.replicate n a) s = a.toNat := by
  unfold ScpFile.byte
  rw [List.getD_eq_getElem?_getD, List.getElem?_replicate, if_pos h]
  rfl

theorem slot_lt {v : Drive} (hv : v.sides ≤ 2) {ch : Ch} (hp : v.Place ch) : v.slot ch < 160 := by
  obtain ⟨p1, p2⟩ := hp
  unfold Drive.cylinders at p1
  unfold Drive.slot
  split
  · rename_i h; rw [if_pos h] at p1; exact p1
  · rename_i h; rw [if_neg h] at p1; omega

theorem entry_bits {m : List Byte} {x : Option (List Byte)} {s e : Nat} (h : ScpFile.byte m s = e) (he : e ≠ 255) :
    SauceFile.entry m x s = .bits e := by
  unfold SauceFile.entry
  rw [h, if_pos he]

theorem entry_flux {m x : List Byte} {s e : Nat} (h : ScpFile.byte m s = 255) (hx : ScpFile.byte x s = e) (he : e ≠ 255) :
    SauceFile.entry m (some x) s = .flux e := by
  unfold SauceFile.entry
  rw [h, if_neg (by simp)]
  simp only
  rw [hx, if_pos he]

theorem entry_empty {m : List Byte} {s : Nat} (h : ScpFile.byte m s = 255) : SauceFile.entry m none s = .empty := by
  unfold SauceFile.entry
  rw [h, if_neg (by simp)]

/-- The map that gives each place its own track. -/
def fullMap : List Byte := (List.range 160).map (BitVec.ofNat 8)

theorem fullMap_at {s : Nat} (h : s < 160) : ScpFile.byte fullMap s = s := by
  unfold ScpFile.byte fullMap
  rw [List.getD_eq_getElem?_getD, List.getElem?_map, List.getElem?_range h]
  show (BitVec.ofNat 8 s).toNat = s
  rw [BitVec.toNat_ofNat]; omega

/-- There are tracks with given cells, of whole blocks. -/
theorem tracks_exist (cells : Nat → List Bool) (n k : Nat) (hk : n ≤ 4096 * k) (hn : n < 2 ^ 32) (hk0 : 0 < k) : ∀ N,
    (∀ j < N, (cells j).length = n) →
    ∃ bs : List (List Byte × Nat), bs.length = N ∧ blocks bs = N * k ∧ (∀ x ∈ bs, x.1.length = 512 * k ∧ x.2 = n) ∧
      ∀ j < N, ∃ b, bs[j]? = some (b, n) ∧ (bitsOf b).take n = cells j
  | 0, _ => ⟨[], rfl, by simp [blocks], fun x hx => by simp at hx, fun j hj => by omega⟩
  | N + 1, hc => by
    obtain ⟨bs, h1, h2, h3, h4⟩ := tracks_exist cells n k hk hn hk0 N (fun j hj => hc j (by omega))
    obtain ⟨b, b1, b2⟩ := bytes_exist (512 * k) (cells N ++ List.replicate (4096 * k - n) false) (by
      rw [List.length_append, List.length_replicate, hc N (by omega)]; omega)
    refine ⟨bs ++ [(b, n)], by rw [List.length_append, h1]; rfl, ?_, ?_, ?_⟩
    · unfold blocks at h2 ⊢
      rw [List.map_append, List.sum_append, h2, Nat.add_mul]
      show _ + (b.length / 512 + 0) = _
      rw [b1]; omega
    · intro x hx
      rcases List.mem_append.1 hx with hx | hx
      · exact h3 x hx
      · rw [List.mem_singleton.1 hx]; exact ⟨b1, rfl⟩
    · intro j hj
      by_cases hjN : j < N
      · obtain ⟨b', q1, q2⟩ := h4 j hjN
        exact ⟨b', by rw [List.getElem?_append_left (by omega)]; exact q1, q2⟩
      · obtain rfl : j = N := by omega
        refine ⟨b, by rw [List.getElem?_append_right (by omega), h1, Nat.sub_self]; rfl, ?_⟩
        rw [b2]
        exact List.take_left' (hc j (by omega))

end SauceMake
open SauceMake

/-- **C108.** Such MOOFs exist, for every PC format of 80 cylinders and two sides: for every image and every history there is a MOOF which,
loaded, answers as the image would have. -/
theorem C108_describable (g : StdFormat) (hg : g.isPc = true) (hgeo : g.layout.c = 80 ∧ g.layout.h = 2) (image : List Byte)
    (hl : image.length = g.diskSize) (H : List Byte → Nat) (nz : Noise) (ops : List SectorOp) :
    ∃ d0, Raw.loadImage nz image = .ok d0 ∧ (NoCollision H d0 → ∃ d f cs v T, Raw.load H nz image = .ok d ∧
      SauceFile.Moof f cs v T ∧ v.mfm = true ∧ (∀ ch, v.Place ch → ∃ e, SauceFile.entry T.map T.fluxMap (v.slot ch) = .bits e) ∧
      Describes (sauceTracks f T v) (afterOps d ops)) := by
  obtain ⟨d0, h1, hx⟩ := pc_used g hg image hl H nz ops
  refine ⟨d0, h1, fun hH => ?_⟩
  obtain ⟨d, k1, k2, k3, k4, k5, k6⟩ := hx hH
  have hct : 16 * ((g.bitcellCt + 15) / 16) ≤ 4096 * 400 := by cases g <;> decide
  generalize hN : 16 * ((g.bitcellCt + 15) / 16) = N at k5 hct
  have hlen : ∀ j < 160, (cellsFn (afterOps d ops) N (j / 2) (j % 2)).length = N := by
    intro j hj
    unfold cellsFn
    obtain ⟨ch, t, t1, t2⟩ := k5.at (show j % 2 < 2 by omega) (show j % 2 < g.layout.h by omega) (show j / 2 < g.layout.c by omega)
    rw [(cellsAt_of (by omega) t1).1]; exact t2
  obtain ⟨bs, b1, b2, b3, b4⟩ := tracks_exist (fun j => cellsFn (afterOps d ops) N (j / 2) (j % 2)) N 400 hct (by omega) (by decide) 160 hlen
  have hb : Fine bs := ⟨by omega, fun x hx => ⟨by rw [(b3 x hx).1], by rw [(b3 x hx).2]; omega⟩, by omega⟩
  have hslot : ∀ ch, (⟨2, true, false⟩ : Drive).Place ch → SauceFile.entry fullMap none ((⟨2, true, false⟩ : Drive).slot ch) =
      .bits ((⟨2, true, false⟩ : Drive).slot ch) := by
    intro ch hp
    have hs := slot_lt (v := ⟨2, true, false⟩) (by decide) hp
    exact entry_bits (fullMap_at hs) (by omega)
  have hf : MapsFine fullMap none bs false ⟨2, true, false⟩ := by
    intro ch hp
    have hs := slot_lt (v := ⟨2, true, false⟩) (by decide) hp
    constructor
    · intro e he
      rw [hslot ch hp] at he
      cases he
      obtain ⟨b, q1, q2⟩ := b4 _ hs
      have q3 := (b3 _ (List.mem_of_getElem? q1)).1
      replace q3 : b.length = 512 * 400 := q3
      refine ⟨b, N, q1, ?_, by omega⟩
      intro h0
      rw [h0] at q3
      cases q3
    · intro e he
      rw [hslot ch hp] at he
      cases he
  have hM := file_moof (check := [0xFF#8, 0x0A#8, 0x0D#8, 0x0A#8]) (m := fullMap) (type := 3#8) (protect := 0#8) (fluxBlock := 0#8) (largest := 0#8)
    (v := ⟨2, true, false⟩) rfl rfl (by unfold fullMap; rw [List.length_map, List.length_range]) hb (x := none) (fun y h => by cases h) hf
  refine ⟨d, _, _, _, _, k1, hM, rfl, fun ch hp => ⟨_, hslot ch hp⟩, ?_⟩
  generalize hfile : file SauceFile.moof [0xFF#8, 0x0A#8, 0x0D#8, 0x0A#8] (moofInfo 3#8 0#8 0#8 0#8) fullMap bs none = f
  have hcells : ∀ c h, c < 80 → h < 2 → SauceFile.cells f (trks bs) (2 * c + h) = cellsFn (afterOps d ops) N c h := by
    intro c h hc hh
    obtain ⟨b, q1, q2⟩ := b4 (2 * c + h) (by omega)
    obtain ⟨t1, t2, t3, t4, t5⟩ := file_track (magic := SauceFile.moof) (check := [0xFF#8, 0x0A#8, 0x0D#8, 0x0A#8])
      (i := moofInfo 3#8 0#8 0#8 0#8) (m := fullMap) rfl rfl rfl (by unfold fullMap; rw [List.length_map, List.length_range]) hb none q1
    rw [hfile] at t4 t5
    have q3 := (b3 _ (List.mem_of_getElem? q1)).1
    replace q3 : b.length = 512 * 400 := q3
    rw [← sauce_cells t4 (by rw [t2, t3]; omega), t3, t5, q2]
    show cellsFn _ _ ((2 * c + h) / 2) ((2 * c + h) % 2) = _
    rw [show (2 * c + h) / 2 = c by omega, show (2 * c + h) % 2 = h by omega]
  have hmem : ∀ y, y ∈ sauceTracks f ⟨fullMap, trks bs, none, false⟩ ⟨2, true, false⟩ ↔ ∃ c h, c < 80 ∧ h < 2 ∧
      y = (⟨c, h⟩, cellsFn (afterOps d ops) N c h, solid (cellsFn (afterOps d ops) N c h)) := by
    intro y
    unfold sauceTracks
    rw [List.mem_map]
    have hval : ∀ c h, c < 80 → h < 2 → SauceFile.cells f (trks bs) (ScpFile.byte fullMap (2 * c + h)) = cellsFn (afterOps d ops) N c h := by
      intro c h hc hh
      rw [fullMap_at (by omega), hcells c h hc hh]
    constructor
    · rintro ⟨j, hj, rfl⟩
      have hj' : j < 160 := List.mem_range.1 hj
      refine ⟨j / 2, j % 2, by omega, by omega, ?_⟩
      have := hval (j / 2) (j % 2) (by omega) (by omega)
      show ((⟨j / 2, j % 2⟩ : Ch), SauceFile.cells f (trks bs) (ScpFile.byte fullMap (2 * (j / 2) + j % 2)),
        solid (SauceFile.cells f (trks bs) (ScpFile.byte fullMap (2 * (j / 2) + j % 2)))) = _
      rw [this]
    · rintro ⟨c, h, hc, hh, rfl⟩
      refine ⟨2 * c + h, List.mem_range.2 (show 2 * c + h < 160 by omega), ?_⟩
      have := hval c h hc hh
      show ((⟨(2 * c + h) / 2, (2 * c + h) % 2⟩ : Ch), SauceFile.cells f (trks bs) (ScpFile.byte fullMap (2 * ((2 * c + h) / 2) + (2 * c + h) % 2)),
        solid (SauceFile.cells f (trks bs) (ScpFile.byte fullMap (2 * ((2 * c + h) / 2) + (2 * c + h) % 2)))) = _
      rw [show (2 * c + h) / 2 = c by omega, show (2 * c + h) % 2 = h by omega, this]
  refine ⟨?_, ?_⟩
  · intro ch a cells hch
    obtain ⟨hh, t, t1, t2⟩ := cellsAt_some hch
    have hpos : ch.h < g.layout.h ∧ ch.c < g.layout.c := by
      apply Classical.byContradiction
      intro hno
      rw [k5.none hh hno] at t1
      cases t1
    exact ⟨_, (hmem _).2 ⟨ch.c, ch.h, by omega, by omega, rfl⟩, rfl⟩
  · intro y hy
    obtain ⟨c, h, hc, hH, rfl⟩ := (hmem y).1 hy
    obtain ⟨a, t, t1, t2⟩ := k5.at (show h < 2 by omega) (show h < g.layout.h by omega) (show c < g.layout.c by omega)
    refine ⟨a, ?_⟩
    have e := (cellsAt_of (show h < 2 by omega) t1).1
    show cellsAt (afterOps d ops) ⟨c, h⟩ = some (a, cellsFn _ _ c h)
    unfold cellsFn
    rw [e]

/-- **C103 fails** for the four bytes after the magic number: whatever they are, a well-formed MOOF without tracks in its first block is
loaded, as if they were what they should be. -/
theorem C103_false_check (debug : Bool) (rnd : Nat → Bool) (fm : FmCodec) (f g : List Byte) (cs : List SauceFile.Chunk) (v : Drive) (T : Tables)
    (h : SauceFile.Moof f cs v T) (hn : T.NoHoles v) (hfm : Sauce.FmFine fm f T v)
    (hfirst : ∀ ch, v.Place ch → ∀ e, SauceFile.entry T.map T.fluxMap (v.slot ch) = .bits e ∨ SauceFile.entry T.map T.fluxMap (v.slot ch) = .flux e →
      512 ≤ SauceFile.start T.table e)
    (h4 : g.take 4 = f.take 4) (h8 : g.drop 8 = f.drop 8) (hl : g.length = f.length) :
    ∃ r, Sauce.load .moof debug rnd fm {} f = .ok r ∧ Sauce.load .moof debug rnd fm {} g = .ok r := by
  have hdata : ∀ e, 512 ≤ SauceFile.start T.table e → SauceFile.data g T.table e = SauceFile.data f T.table e := by
    intro e he
    unfold SauceFile.data
    rw [show SauceFile.start T.table e = 8 + (SauceFile.start T.table e - 8) by omega, ← List.drop_drop, ← List.drop_drop, h8]
  have h12 : g.drop 12 = f.drop 12 := by
    rw [show 12 = 8 + 4 by rfl, ← List.drop_drop, ← List.drop_drop, h8]
  have hd : ∀ i, ScpFile.byte g (8 + i) = ScpFile.byte f (8 + i) := by
    intro i
    have := congrArg (fun l : List Byte => l.getD i 0#8) h8
    simp only [List.getD_eq_getElem?_getD, List.getElem?_drop] at this
    unfold ScpFile.byte
    rw [List.getD_eq_getElem?_getD, List.getD_eq_getElem?_getD, this]
  have hdw : ScpFile.dword g 8 = ScpFile.dword f 8 := by
    unfold ScpFile.dword ScpFile.word
    rw [hd 0, hd 1, hd 2, hd 3]
  have hM : SauceFile.Moof g cs v T := by
    refine ⟨⟨by rw [hl]; exact h.file.long, by rw [h4]; exact h.file.magic, ?_, by rw [h12]; exact h.file.chunks, h.file.sizes⟩,
      h.info, h.versions, ⟨h.tables.map, h.tables.table, h.tables.fluxMap, h.tables.sizes, ?_⟩⟩
    · rw [h12, hdw]; exact h.file.crc
    · intro ch hp
      have := h.tables.good ch hp
      exact ⟨by rw [hl]; exact this.bits, by rw [hl]; exact this.flux⟩
  have hfm' : Sauce.FmFine fm g T v := by
    intro ch hp e he
    rw [hdata e (hfirst ch hp e (Or.inr he))]
    exact hfm ch hp e he
  obtain ⟨i, i1, i2⟩ := Sauce.load_moof h debug rnd fm hfm hn
  obtain ⟨j, j1, j2⟩ := Sauce.load_moof hM debug rnd fm hfm' hn
  rw [i1] at j1
  cases j1
  refine ⟨_, i2, ?_⟩
  rw [j2]
  obtain ⟨i0, _, q0, _⟩ := h.info
  have hS := moof_sides q0
  have hmade : (List.range (v.cylinders * v.sides)).map (fun a => Sauce.made debug rnd fm g T v 0 ⟨a / v.sides, a % v.sides⟩) =
      (List.range (v.cylinders * v.sides)).map (fun a => Sauce.made debug rnd fm f T v 0 ⟨a / v.sides, a % v.sides⟩) := by
    apply List.map_congr_left
    intro a ha
    have hS0 : 0 < v.sides := by omega
    have hp : v.Place ⟨a / v.sides, a % v.sides⟩ :=
      ⟨(Nat.div_lt_iff_lt_mul hS0).2 (List.mem_range.1 ha), Nat.mod_lt _ hS0⟩
    unfold Sauce.made
    cases he : SauceFile.entry T.map T.fluxMap (v.slot ⟨a / v.sides, a % v.sides⟩) with
    | bits e => simp only; rw [hdata e (hfirst _ hp e (Or.inl he))]
    | flux e => simp only; rw [hdata e (hfirst _ hp e (Or.inr he))]
    | empty => rfl
  unfold Sauce.loaded
  rw [hmade]

/-! Examples. -/

namespace SauceMake

/-- One track. -/
def one : List (List Byte × Nat) := [(List.replicate 512 0xA5#8, 4095)]

theorem one_fine : Fine one := by
  refine ⟨by decide +kernel, fun x hx => ?_, by decide +kernel⟩
  rw [List.mem_singleton.1 hx]
  exact ⟨by rw [List.length_replicate], by decide +kernel⟩

/-- The track at every place. -/
def everywhere : List Byte := List.replicate 160 0#8

/-- The track at every place but the second cylinder. -/
def gapMap : List Byte := List.replicate 2 0#8 ++ (List.replicate 2 255#8 ++ List.replicate 156 0#8)

theorem one_entry {m : List Byte} (hm : ∀ s ∈ List.range 160, ScpFile.byte m s = 0 ∨ ScpFile.byte m s = 255) {v : Drive} (hv : v.sides ≤ 2) (ann : Bool) :
    MapsFine m none one ann v := by
  intro ch hp
  have hs := slot_lt hv hp
  rcases hm _ (List.mem_range.2 hs) with h | h
  · constructor
    · intro e he
      rw [entry_bits h (by omega)] at he
      cases he
      exact ⟨_, _, rfl, by decide +kernel, by decide +kernel⟩
    · intro e he
      rw [entry_bits h (by omega)] at he
      cases he
  · constructor
    · intro e he; rw [entry_empty h] at he; cases he
    · intro e he; rw [entry_empty h] at he; cases he

theorem no_flux {fm : FmCodec} {f : List Byte} {T : Tables} {v : Drive} (h : T.fluxMap = none) : Sauce.FmFine fm f T v := by
  intro ch hp e he
  exfalso
  unfold SauceFile.entry at he
  rw [h] at he
  split at he <;> cases he

/-- A MOOF of a disk of the given type with this track at every place. -/
def moofOne (type : Byte) (m : List Byte) : List Byte :=
  file SauceFile.moof [0xFF#8, 0x0A#8, 0x0D#8, 0x0A#8] (moofInfo type 1#8 0#8 0#8) m one none

theorem moofOne_moof {type : Byte} {v : Drive} (hv : SauceFile.moofDrive (moofInfo type 1#8 0#8 0#8) = some v) (h2 : v.sides ≤ 2) {m : List Byte}
    (hl : m.length = 160) (hm : ∀ s ∈ List.range 160, ScpFile.byte m s = 0 ∨ ScpFile.byte m s = 255) :
    SauceFile.Moof (moofOne type m) (chunks (moofInfo type 1#8 0#8 0#8) m one none) v ⟨m, trks one, none, false⟩ :=
  file_moof hv rfl hl one_fine (fun y h => by cases h) (one_entry hm h2 _)

/-- A WOZ likewise. -/
def wozOne (type sides : Byte) (m : List Byte) : List Byte :=
  file SauceFile.woz2 [0xFF#8, 0x0A#8, 0x0D#8, 0x0A#8] (wozInfo type 0#8 sides 0#8 0#8) m one none

theorem wozOne_woz {type sides : Byte} {v : Drive} (hv : SauceFile.wozDrive (wozInfo type 0#8 sides 0#8 0#8) = some v) (h2 : v.sides ≤ 2) {m : List Byte}
    (hl : m.length = 160) (hm : ∀ s ∈ List.range 160, ScpFile.byte m s = 0 ∨ ScpFile.byte m s = 255) :
    SauceFile.Woz (wozOne type sides m) (chunks (wozInfo type 0#8 sides 0#8 0#8) m one none) v ⟨m, trks one, none, false⟩ :=
  file_woz hv rfl hl one_fine (fun y h => by cases h) (one_entry hm h2 _)

theorem one_cells {f : List Byte} (h : SauceFile.start (trks one) 0 + 512 ≤ f.length) (hd : SauceFile.data f (trks one) 0 = List.replicate 512 0xA5#8)
    (h2 : SauceFile.size (trks one) 0 = 512) (h3 : SauceFile.count (trks one) 0 = 4095) :
    SauceFile.cells f (trks one) 0 = (bitsOf (List.replicate 512 0xA5#8)).take 4095 := by
  rw [← sauce_cells (by rw [h2]; exact h) (by rw [h2, h3]; decide), hd, h3]

/-- The theorems apply to these files: the MFM disk of a Macintosh, write protected. -/
example (debug : Bool) (rnd : Nat → Bool) (fm : FmCodec) :
    ∃ d, Sauce.load .moof debug rnd fm {} (moofOne 3#8 everywhere) = .ok (d, true) ∧ d.geometry = ⟨80, 2⟩ ∧
      ∃ t, d.track ⟨79, 1⟩ = .ok (some (.bit ⟨79, 1⟩ t)) ∧ t.data.bits.bits = (bitsOf (List.replicate 512 0xA5#8)).take 4095 := by
  have hM := moofOne_moof (type := 3#8) (v := ⟨2, true, false⟩) (m := everywhere) rfl (by decide +kernel) (by decide +kernel) (by decide +kernel)
  have hent : ∀ ch, (⟨2, true, false⟩ : Drive).Place ch → SauceFile.entry everywhere none ((⟨2, true, false⟩ : Drive).slot ch) = .bits 0 := fun ch hp =>
    entry_bits (byte_replicate (slot_lt (v := ⟨2, true, false⟩) (by decide +kernel) hp)) (by decide +kernel)
  obtain ⟨d, w, i, h1, h2, h3, h4⟩ := C104_tracks_partial debug rnd fm _ _ _ _ hM (Or.inr (Or.inr fun ch hp => by
    show SauceFile.entry everywhere none _ ≠ _
    rw [hent ch hp]; intro h; cases h)) (no_flux rfl)
  have hi : i = moofInfo 3#8 1#8 0#8 0#8 := by
    have : SauceFile.part (chunks (moofInfo 3#8 1#8 0#8 0#8) everywhere one none) SauceFile.info = some (moofInfo 3#8 1#8 0#8 0#8) := rfl
    rw [this] at h3; cases h3; rfl
  subst hi
  obtain rfl : w = true := h4.2 (by decide +kernel)
  refine ⟨d, h1, h2.geometry, ?_⟩
  have hp : (⟨2, true, false⟩ : Drive).Place ⟨79, 1⟩ := ⟨by decide +kernel, by decide +kernel⟩
  obtain ⟨t, t1, t2, _⟩ := h2.bits ⟨79, 1⟩ hp 0 (hent _ hp)
  refine ⟨t, t1, ?_⟩
  rw [t2]
  obtain ⟨s1, s2, s3, s4, s5⟩ := file_track (magic := SauceFile.moof) (check := [0xFF#8, 0x0A#8, 0x0D#8, 0x0A#8])
    (i := moofInfo 3#8 1#8 0#8 0#8) (m := everywhere) rfl rfl rfl (by decide +kernel) one_fine none (j := 0) rfl
  exact one_cells (by rw [s2, List.length_replicate] at s4; exact s4) s5 (by rw [s2, List.length_replicate]) s3

/-- Disks with a gap: on a 3.5" disk, the second cylinder has the third one's track. -/
example (debug : Bool) (rnd : Nat → Bool) (fm : FmCodec) :
    ∃ d w, Sauce.load .moof debug rnd fm {} (moofOne 1#8 gapMap) = .ok (d, w) ∧ ∃ c t, 1 < c ∧ d.track ⟨1, 0⟩ = .ok (some (.bit ⟨c, 0⟩ t)) := by
  have hM := moofOne_moof (type := 1#8) (v := ⟨1, false, false⟩) (m := gapMap) rfl (by decide +kernel) (by decide +kernel) (by decide +kernel)
  obtain ⟨d, w, h1, _, h2⟩ := C104_false_hole debug rnd fm _ _ _ _ .moof (Or.inl ⟨rfl, hM⟩) rfl rfl 0 1 2 (by decide +kernel) (by decide +kernel) (by decide +kernel)
    (by decide +kernel) (by decide +kernel) (by
      intro c hc
      obtain rfl : c = 0 := by omega
      decide +kernel)
  exact ⟨d, w, h1, h2⟩

example (debug : Bool) (rnd : Nat → Bool) (fm : FmCodec) :
    ∃ d w, Sauce.load .woz debug rnd fm {} (wozOne 2#8 2#8 gapMap) = .ok (d, w) ∧ ∃ c t, 1 < c ∧ d.track ⟨1, 1⟩ = .ok (some (.bit ⟨c, 1⟩ t)) := by
  have hM := wozOne_woz (type := 2#8) (sides := 2#8) (v := ⟨2, false, false⟩) (m := gapMap) rfl (by decide +kernel) (by decide +kernel) (by decide +kernel)
  obtain ⟨d, w, h1, _, h2⟩ := C105_false_hole debug rnd fm _ _ _ _ hM rfl rfl 1 1 2 (by decide +kernel) (by decide +kernel) (by decide +kernel)
    (by decide +kernel) (by decide +kernel) (by
      intro c hc
      obtain rfl : c = 0 := by omega
      decide +kernel)
  exact ⟨d, w, h1, h2⟩

/-- On a 5.25" disk the gaps have empty tracks. -/
example (debug : Bool) (rnd : Nat → Bool) (fm : FmCodec) :
    ∃ d w, Sauce.load .woz debug rnd fm {} (wozOne 1#8 1#8 gapMap) = .ok (d, w) ∧ d.geometry = ⟨160, 1⟩ ∧
      (∃ t, d.track ⟨4, 0⟩ = .ok (some (.bit ⟨4, 0⟩ t)) ∧ t.data.bits.bits.length = 4095) ∧
      ∃ x, d.track ⟨3, 0⟩ = .ok (some x) ∧ x.sectorCt = 0 := by
  have hM := wozOne_woz (type := 1#8) (sides := 1#8) (v := ⟨1, false, true⟩) (m := gapMap) rfl (by decide +kernel) (by decide +kernel) (by decide +kernel)
  obtain ⟨d, w, i, h1, h2, _⟩ := C105_tracks_partial debug rnd fm _ _ _ _ hM (Or.inl rfl) (no_flux rfl)
  refine ⟨d, w, h1, h2.geometry, ?_, ?_⟩
  · obtain ⟨t, t1, t2, _⟩ := h2.bits ⟨4, 0⟩ ⟨by decide +kernel, by decide +kernel⟩ 0 (by decide +kernel)
    refine ⟨t, t1, ?_⟩
    rw [t2]
    unfold SauceFile.cells
    rw [List.length_map, List.length_range]
    decide +kernel
  · obtain ⟨x, x1, _, _, x2⟩ := h2.empty ⟨3, 0⟩ ⟨by decide +kernel, by decide +kernel⟩ (by decide +kernel)
    exact ⟨x, x1, x2⟩

/-- Damaging the file, but not the four bytes after the magic number, is noticed; damaging these is not. -/
example (debug : Bool) (rnd : Nat → Bool) (fm : FmCodec) (check : List Byte) (hc : check.length = 4) :
    ∃ r, Sauce.load .moof debug rnd fm {} (moofOne 3#8 everywhere) = .ok r ∧
      Sauce.load .moof debug rnd fm {} (file SauceFile.moof check (moofInfo 3#8 1#8 0#8 0#8) everywhere one none) = .ok r := by
  have hM := moofOne_moof (type := 3#8) (v := ⟨2, true, false⟩) (m := everywhere) rfl (by decide +kernel) (by decide +kernel) (by decide +kernel)
  have hent : ∀ ch, (⟨2, true, false⟩ : Drive).Place ch → SauceFile.entry everywhere none ((⟨2, true, false⟩ : Drive).slot ch) = .bits 0 := fun ch hp =>
    entry_bits (byte_replicate (slot_lt (v := ⟨2, true, false⟩) (by decide +kernel) hp)) (by decide +kernel)
  refine C103_false_check debug rnd fm _ _ _ _ _ hM (Or.inr (Or.inr fun ch hp => by
    show SauceFile.entry everywhere none _ ≠ _
    rw [hent ch hp]; intro h; cases h)) (no_flux rfl) ?_ ?_ ?_ ?_
  · intro ch hp e he
    have : SauceFile.entry everywhere none ((⟨2, true, false⟩ : Drive).slot ch) = .bits 0 := hent ch hp
    have he0 : e = 0 := by
      rcases he with he | he
      · exact (by rw [show SauceFile.entry everywhere none ((⟨2, true, false⟩ : Drive).slot ch) = .bits e from he] at this; cases this; rfl)
      · rw [show SauceFile.entry everywhere none ((⟨2, true, false⟩ : Drive).slot ch) = .flux e from he] at this; cases this
    rw [he0]
    have := (file_track (magic := SauceFile.moof) (check := [0xFF#8, 0x0A#8, 0x0D#8, 0x0A#8])
      (i := moofInfo 3#8 1#8 0#8 0#8) (m := everywhere) rfl rfl rfl (by decide +kernel) one_fine none (j := 0) rfl).1
    show 512 ≤ SauceFile.start (trks one) 0
    omega
  · rfl
  · unfold moofOne file sauceFile
    rw [← List.append_assoc, ← List.append_assoc SauceFile.moof]
    rw [List.drop_left' (by rw [List.length_append, hc]; rfl), List.drop_left' (by rfl)]
  · unfold moofOne file sauceFile
    simp only [List.length_append, hc, List.length_cons, List.length_nil]

/-! A flux track without blocks. -/

/-- A MOOF of an MFM disk, each place with a flux track that has no blocks. -/
def zeroFile : List Byte :=
  file SauceFile.moof [0xFF#8, 0x0A#8, 0x0D#8, 0x0A#8] (moofInfo 3#8 0#8 1#8 1#8) (List.replicate 160 255#8) [([], 0)] (some (List.replicate 160 0#8))

theorem zeroFile_consists : SauceFile.Consists SauceFile.moof zeroFile
    (chunks (moofInfo 3#8 0#8 1#8 1#8) (List.replicate 160 255#8) [([], 0)] (some (List.replicate 160 0#8))) :=
  file_consists rfl rfl rfl (by decide +kernel) ⟨by decide, fun x hx => by rw [List.mem_singleton.1 hx]; exact ⟨rfl, by decide⟩, by decide⟩
    (fun y h => by cases h; decide +kernel)

theorem dword_le32 (f : List Byte) (i : Nat) : ScpFile.dword f i = le32At f i := rfl

theorem consists_crc {magic f : List Byte} {cs : List SauceFile.Chunk} (hf : SauceFile.Consists magic f cs) :
    (Sauce.crc32 (f.drop 12) 0#32).toNat = le32At f 8 := by
  have h := hf.crc
  rw [C97_is_crc32, ← Sauce.crc32_eq] at h
  rw [h, BitVec.toNat_ofNat, Nat.mod_eq_of_lt (dword_lt _ _), dword_le32]

theorem zeroFile_chunks : Sauce.chunks .moof zeroFile (zeroFile.length + 1) 12 {} =
    .ok ⟨some ⟨1, 3, false, 0, 1, 1⟩, some 88, some 256, some 1544⟩ := by
  have h : (Sauce.chunks .moof zeroFile (zeroFile.length + 1) 12 {}).toOption = some ⟨some ⟨1, 3, false, 0, 1, 1⟩, some 88, some 256, some 1544⟩ := by
    decide +kernel
  generalize Sauce.chunks .moof zeroFile (zeroFile.length + 1) 12 {} = x at h
  cases x with
  | error e => cases h
  | ok y => cases h; rfl

theorem zeroFile_slot (debug : Bool) (rnd : Nat → Bool) (fm : FmCodec) (d : Disk) (ch : Ch) :
    Sauce.addSlot debug rnd fm zeroFile ⟨⟨160, 2⟩, .mfm, 0, false, 88, 256, some 1544⟩ 0 d ch = .error .panic := by
  unfold Sauce.addSlot
  rw [if_neg (show ¬ u8At zeroFile (88 + 0) ≠ 255 by decide +kernel)]
  simp only
  rw [if_pos (show u8At zeroFile (1544 + 0) < 160 by decide +kernel)]
  unfold Sauce.addTimes
  have h : readAt zeroFile (Sauce.trkAt zeroFile 256 (u8At zeroFile (1544 + 0))).start (Sauce.trkAt zeroFile 256 (u8At zeroFile (1544 + 0))).bytes = .ok [] := by
    have h : (readAt zeroFile (Sauce.trkAt zeroFile 256 (u8At zeroFile (1544 + 0))).start
        (Sauce.trkAt zeroFile 256 (u8At zeroFile (1544 + 0))).bytes).toOption = some [] := by decide +kernel
    generalize readAt zeroFile _ _ = x at h
    cases x with
    | error e => cases h
    | ok y => cases h; rfl
  rw [h]
  rfl

end SauceMake

/-- **C107 fails** for flux tracks without blocks: this file of chunks that are all as they should be, but for that, makes the loader
panic. -/
theorem C107_false_blocks (debug : Bool) (rnd : Nat → Bool) (fm : FmCodec) :
    Sauce.load .moof debug rnd fm {} zeroFile = .error .panic := by
  have hl : 12 ≤ zeroFile.length := zeroFile_consists.long
  have hm : zeroFile.take 4 = Sauce.Kind.magic .moof := zeroFile_consists.magic
  have hc := consists_crc zeroFile_consists
  have hk := zeroFile_chunks
  have hu : u8At zeroFile (88 + 0) = 255 := by decide +kernel
  have hs := zeroFile_slot debug rnd fm
  generalize zeroFile = f at *
  unfold Sauce.load
  rw [if_neg (fun h => h.2 hm), if_neg (fun h => h.2 hc), if_pos hl, hk]
  show Sauce.finish debug rnd fm f ⟨⟨160, 2⟩, .mfm, 0, false, 88, 256, some 1544⟩ (Sauce.pairSlots 2) 2 false _ = _
  have hp : Sauce.pairSlots 2 = 0 :: (Sauce.pairSlots 2).tail := by decide +kernel
  rw [hp]
  unfold Sauce.finish
  rw [Sauce.tracks]
  simp only
  rw [if_neg (fun h => h.1 hu)]
  rw [show Ch.iterNext ⟨160, 2⟩ none = some ⟨0, 0⟩ by decide +kernel]
  simp only
  rw [hs]

/-- Whether the name of a chunk stands anywhere in a file. -/
def stands (id : List Byte) : List Byte → Bool
  | [] => false
  | b :: l => (b :: l).take 4 = id || stands id l

theorem not_stands {id : List Byte} (hid : id ≠ []) : ∀ (f : List Byte), stands id f = false → ∀ q, (f.drop q).take 4 ≠ id
  | [], _, q => by rw [List.drop_nil]; exact fun h => hid h.symm
  | b :: l, h, q => by
    rw [stands, Bool.or_eq_false_iff] at h
    cases q with
    | zero => exact of_decide_eq_false h.1
    | succ q => exact not_stands hid l h.2 q

set_option maxRecDepth 20000 in
theorem moofOne_stands : stands SauceFile.flux (moofOne 3#8 everywhere) = false := by decide +kernel

/-- The hypotheses of `C107_no_panic_partial` are met, for an FM codec that copes with everything, by files without a FLUX chunk. -/
example (debug : Bool) (rnd : Nat → Bool) : Sauce.load .moof debug rnd (fun _ => .ok (Sauce.gcrTrack [] 0)) {} (moofOne 3#8 everywhere) ≠ .error .panic := by
  apply C107_no_panic_partial
  · intro o q s _ hq
    exact absurd hq (not_stands (by decide) _ moofOne_stands q)
  · intro ch ts r _ r' _ _
    exact ⟨_, rfl⟩

/-! A file of flux tracks. -/

namespace SauceMake

/-- Times of 4 and 6 microseconds in turn. -/
def alternate (n : Nat) : List Byte := (List.replicate n [32#8, 48#8]).flatten

theorem alternate_spells (n z : Nat) : SauceFile.Spells (alternate n ++ List.replicate z 0#8) (List.replicate n [32, 48]).flatten := by
  refine ⟨z, ?_⟩
  congr 1
  induction n with
  | zero => rfl
  | succ n ih =>
    unfold alternate at ih ⊢
    rw [List.replicate_succ, List.flatten_cons, List.replicate_succ, List.flatten_cons, List.flatMap_append, ih]
    rfl

theorem alternate_length (n : Nat) : (alternate n).length = 2 * n := by
  unfold alternate
  induction n with
  | zero => rfl
  | succ n ih => rw [List.replicate_succ, List.flatten_cons, List.length_append, ih]; show 2 + _ = _; omega

theorem alternate_captures : Captures (byTurns 20000) (SauceFile.seconds (List.replicate 20000 [32, 48]).flatten) (1 / 5) := by
  have h : SauceFile.seconds (List.replicate 20000 [32, 48]).flatten = MfiFile.seconds (List.replicate 20000 [4000, 6000]).flatten := by
    generalize 20000 = n
    induction n with
    | zero => rfl
    | succ n ih =>
      unfold SauceFile.seconds MfiFile.seconds at ih ⊢
      rw [List.replicate_succ, List.flatten_cons, List.replicate_succ, List.flatten_cons, List.map_append, List.map_append, ih]
      congr 1
      simp only [List.map_cons, List.map_nil]
      norm_num
  rw [h]
  have := mfi_at300
  rw [mfiData_times (by decide) (by decide)] at this
  exact this

/-- The bytes of that track, in whole blocks. -/
def fluxData : List Byte := alternate 20000 ++ List.replicate 448 0#8

theorem fluxData_length : fluxData.length = 40448 := by
  unfold fluxData
  rw [List.length_append, alternate_length, List.length_replicate]

theorem flux_fine : Fine [(fluxData, 0)] := by
  refine ⟨by decide, fun x hx => ?_, ?_⟩
  · rw [List.mem_singleton.1 hx]
    exact ⟨by rw [fluxData_length], by decide⟩
  · unfold blocks
    rw [List.map_cons, fluxData_length]
    decide

/-- A MOOF of an MFM disk, with this flux track at every place. -/
def fluxFile : List Byte :=
  file SauceFile.moof [0xFF#8, 0x0A#8, 0x0D#8, 0x0A#8] (moofInfo 3#8 0#8 1#8 1#8) (List.replicate 160 255#8) [(fluxData, 0)]
    (some (List.replicate 160 0#8))

theorem flux_entry {ch : Ch} (hp : (⟨2, true, false⟩ : Drive).Place ch) :
    SauceFile.entry (List.replicate 160 255#8) (some (List.replicate 160 0#8)) ((⟨2, true, false⟩ : Drive).slot ch) = .flux 0 :=
  entry_flux (byte_replicate (slot_lt (v := ⟨2, true, false⟩) (by decide) hp)) (byte_replicate (slot_lt (v := ⟨2, true, false⟩) (by decide) hp)) (by decide)

theorem fluxFile_moof : SauceFile.Moof fluxFile
    (chunks (moofInfo 3#8 0#8 1#8 1#8) (List.replicate 160 255#8) [(fluxData, 0)] (some (List.replicate 160 0#8))) ⟨2, true, false⟩
    ⟨List.replicate 160 255#8, trks [(fluxData, 0)], some (List.replicate 160 0#8), true⟩ := by
  refine file_moof rfl rfl (by rw [List.length_replicate]) flux_fine (fun y h => by cases h; rw [List.length_replicate]) ?_
  intro ch hp
  rw [flux_entry hp]
  constructor
  · intro e he; cases he
  · intro e he
    cases he
    refine ⟨fluxData, 0, rfl, ?_, rfl⟩
    intro h0
    have := fluxData_length
    rw [h0] at this
    cases this

theorem fluxFile_data : SauceFile.data fluxFile (trks [(fluxData, 0)]) 0 = fluxData :=
  (file_track rfl rfl rfl (by rw [List.length_replicate]) flux_fine _ (j := 0) rfl).2.2.2.2

theorem flux_255 (n : Nat) : ∀ m ∈ (List.replicate n [32, 48]).flatten, m % 255 ≠ 0 := by
  intro m hm
  obtain ⟨l, hl, hm⟩ := List.mem_flatten.1 hm
  rw [List.eq_of_mem_replicate hl] at hm
  simp only [List.mem_cons, List.not_mem_nil, or_false] at hm
  rcases hm with rfl | rfl <;> decide

/-- It is loaded, and each track has the cells of these intervals. -/
theorem fluxFile_loaded (debug : Bool) (rnd : Nat → Bool) (fm : FmCodec) :
    ∃ d w, Sauce.load .moof debug rnd fm {} fluxFile = .ok (d, w) ∧
      KryoSet.fluxCells d ⟨79, 1⟩ = some (Spec.cellsOf (byTurns 20000)) := by
  have hfm : Sauce.FmFine fm fluxFile ⟨List.replicate 160 255#8, trks [(fluxData, 0)], some (List.replicate 160 0#8), true⟩ ⟨2, true, false⟩ := by
    intro ch hp e he
    replace he : SauceFile.entry (List.replicate 160 255#8) (some (List.replicate 160 0#8)) ((⟨2, true, false⟩ : Drive).slot ch) = .flux e := he
    rw [flux_entry hp] at he
    cases he
    show Flux.FmFine fm none none [Rev.ofDeltas ch (Sauce.times (SauceFile.data fluxFile (trks [(fluxData, 0)]) 0)) (1 / 5)]
    rw [fluxFile_data, show Sauce.times fluxData = _ from sauce_times (alternate_spells 20000 448) (flux_255 _)]
    obtain ⟨r, r1, _, r3⟩ := C73_measured _ _ _ alternate_captures ch
    intro x hx r' hd he
    obtain rfl := List.mem_singleton.1 hx
    rw [r1] at hd
    cases hd
    rw [r3] at he
    cases he
  obtain ⟨d, w, h1, h2⟩ := C106_cells_partial debug rnd fm _ _ _ _ .moof (Or.inl ⟨rfl, fluxFile_moof⟩) (Or.inr (Or.inl (by simp))) hfm
  have hp : (⟨2, true, false⟩ : Drive).Place ⟨79, 1⟩ := ⟨by decide, by decide⟩
  refine ⟨d, w, h1, h2 ⟨79, 1⟩ hp 0 (flux_entry hp) _ _ ?_ (flux_255 20000) alternate_captures⟩
  show SauceFile.Spells (SauceFile.data fluxFile (trks [(fluxData, 0)]) 0) _
  rw [fluxFile_data]
  exact alternate_spells 20000 448

end SauceMake

end Fox
