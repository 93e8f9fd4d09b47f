import Verif.Proofs.PriRound
import Verif.Spec.Pri
/-
C47: PRI images.
-/
namespace Fox
open Spec OddEven S34 Pce

theorem track_eq (d : Disk) {ch : Ch} (hh : ch.h < 2) : d.track ch = .ok (at? d ch.h ch.c) := by
  unfold Disk.track at?
  rw [if_neg (by omega)]

theorem Spec.Savable.pri {d : Disk} (h : Savable d) : PriDisk d := by
  refine ⟨h.inPlace, h.res, ?_, h.some, h.small⟩
  intro a c x ha hx
  obtain ⟨i, i1, i2⟩ := at?_headMap hx
  obtain ⟨y, y1, y2⟩ := h.inPlace a c i ha i1
  rw [i2] at y1; cases y1
  obtain ⟨ch, t, rfl, t1, t2⟩ := h.fits ⟨c, a⟩ x ha (by rw [track_eq d ha]; exact congrArg _ hx)
  have y2 : ch = ⟨c, a⟩ := y2
  have hmx : maxChunk = 1048576 := rfl
  have hlt : c < (d.headMap a).length := (List.getElem?_eq_some_iff.1 i1).1
  have hsm := h.small
  refine ⟨ch, t, rfl, ?_, by rw [y2]; exact ha, by omega, ?_⟩
  · rw [y2]
    show c < 65536
    rcases (by omega : a = 0 ∨ a = 1) with rfl | rfl <;> omega
  · intro hany
    obtain ⟨b, hb, hb'⟩ := List.any_eq_true.1 hany
    have hb' : b = true := hb'
    subst hb'
    have := t2 hb
    omega

theorem at?_loaded {d d' : Disk} (hd : Bounded d) (hb : Bounded d') {rnd : Nat → Bool}
    (hs : ∀ h, h < 2 → side d' h = (side d h).map (priConv rnd)) {h : Nat} (hh : h < 2) (c : Nat) :
    at? d' h c = (at? d h c).map (priConv rnd) := by
  rw [← side_get d' hb hh, hs h hh, List.getElem?_map, side_get d hd hh]

theorem priConv_bit (rnd : Nat → Bool) (ch : Ch) (t : Track) : ∃ t', priConv rnd (.bit ch t) = .bit ch t' ∧
    t'.data.bits.bits = t.data.bits.bits ∧
    t'.data.weakMask.bits = shiftMask t.data.bits.bits.length t.data.weakMask.bits := by
  obtain ⟨t', o1, o2, o3⟩ := ofData_cells rnd t.data.bits.bits
  refine ⟨_, by unfold priConv; simp only [o1]; rfl, ?_, rfl⟩
  show t'.data.bits.bits = _
  rw [o2]; rfl

/-- **C47 (partial).** An image PRI can hold, with or without a comment of at most 1000 bytes, saves, and
the file loads: every position has the same address and the same cells as before, and the geometry counts
the cylinders and sides in use.  Missing: weak cells, which come back shifted (`C47_weak_shifted`,
`C47_false_weak`), and data rates, which are lost (`C47_false_rates`). -/
theorem C47_round_trip_partial (d : Disk) (hd : Savable d) (rate : DiskTrack → BitVec 32)
    (comment : Option (List Byte)) (hc : ∀ t, comment = some t → t.length ≤ 1000)
    (alt : BitVec 32 → BitVec 32 → BitVec 32) (rnd : Nat → Bool) :
    ∃ bs d' rs, Pri.save rate comment d = .ok bs ∧ Pri.load alt rnd {} bs = .ok (d', rs) ∧
      (∀ ch, cellsAt d' ch = cellsAt d ch) ∧ d'.res = d.res ∧
      d'.geometry.c = max (d.headMap 0).length (d.headMap 1).length ∧
      d'.geometry.h = (if 0 < (d.headMap 0).length then 1 else 0) + (if 0 < (d.headMap 1).length then 1 else 0) := by
  obtain ⟨bs, d', rs, h1, h2, h3, h4, _, _, h7, h8, _⟩ := pri_load hd.pri rate comment hc alt rnd
  refine ⟨bs, d', rs, h1, h2, fun ch => ?_, by rw [h7, hd.res], by rw [h8], by rw [h8]⟩
  by_cases hh : ch.h < 2
  · unfold cellsAt
    rw [track_eq d hh, track_eq d' hh, at?_loaded hd.inPlace.bounded h3 h4 hh]
    rcases hx : at? d ch.h ch.c with _ | x
    · rfl
    · obtain ⟨c, t, rfl, _⟩ := hd.fits ch x hh (by rw [track_eq d hh, hx])
      obtain ⟨t', e1, e2, _⟩ := priConv_bit rnd c t
      simp only [Option.map_some, e1, e2]
  · unfold cellsAt Disk.track
    rw [if_pos (by omega), if_pos (by omega)]

/-- **C47, finding.** What becomes of weak cells: after saving and loading, cell `i` of a track is weak
exactly when `i > 0` and cell `i - 1` was weak before.  (The first weak position is written one too high.) -/
theorem C47_weak_shifted (d : Disk) (hd : Savable d) (rate : DiskTrack → BitVec 32)
    (comment : Option (List Byte)) (hc : ∀ t, comment = some t → t.length ≤ 1000)
    (alt : BitVec 32 → BitVec 32 → BitVec 32) (rnd : Nat → Bool) :
    ∃ bs d' rs, Pri.save rate comment d = .ok bs ∧ Pri.load alt rnd {} bs = .ok (d', rs) ∧
      ∀ ch c cells mask, cellsAt d ch = some (c, cells) → weakAt d ch = some mask →
        ∃ mask', weakAt d' ch = some mask' ∧ mask'.length = cells.length ∧
          ∀ i, i < cells.length → (mask'.getD i false = true ↔ 0 < i ∧ mask.getD (i - 1) false = true) := by
  obtain ⟨bs, d', rs, h1, h2, h3, h4, _⟩ := pri_load hd.pri rate comment hc alt rnd
  refine ⟨bs, d', rs, h1, h2, ?_⟩
  intro ch c cells mask e1 e2
  by_cases hh : ch.h < 2
  · unfold cellsAt at e1
    unfold weakAt at e2 ⊢
    rw [track_eq d hh] at e1 e2
    rw [track_eq d' hh, at?_loaded hd.inPlace.bounded h3 h4 hh]
    rcases hx : at? d ch.h ch.c with _ | x
    · rw [hx] at e1; cases e1
    · rw [hx] at e1 e2
      obtain ⟨c', t, rfl, _⟩ := hd.fits ch x hh (by rw [track_eq d hh, hx])
      cases e1
      cases e2
      obtain ⟨t', k1, _, k3⟩ := priConv_bit rnd c t
      simp only [Option.map_some, k1, k3]
      refine ⟨_, rfl, by simp [shiftMask], fun i hi => ?_⟩
      unfold shiftMask
      rw [getD_map_range _ _ _ _ hi]
      simp
  · unfold cellsAt Disk.track at e1
    rw [if_pos (by omega)] at e1
    cases e1

/-- **C47 is false of the code: data rates.** Whatever the tracks' data rates are, all tracks of the loaded
image have rate 0: the loader takes the rate from the alternate-clock chunk only, which is never written. -/
theorem C47_false_rates (d : Disk) (hd : Savable d) (rate : DiskTrack → BitVec 32)
    (comment : Option (List Byte)) (hc : ∀ t, comment = some t → t.length ≤ 1000)
    (alt : BitVec 32 → BitVec 32 → BitVec 32) (rnd : Nat → Bool) :
    ∃ bs d' rs, Pri.save rate comment d = .ok bs ∧ Pri.load alt rnd {} bs = .ok (d', rs) ∧
      rs.length = (d.headMap 0).length + (d.headMap 1).length ∧ ∀ r ∈ rs, r = 0#32 := by
  obtain ⟨bs, d', rs, h1, h2, _, _, _, _, _, _, h9⟩ := pri_load hd.pri rate comment hc alt rnd
  refine ⟨bs, d', rs, h1, h2, by rw [h9]; simp, ?_⟩
  intro r hr
  rw [h9] at hr
  exact (List.mem_replicate.1 hr).2

/-- **C47.** Converting a PC sector image to PRI loses nothing: load any file of a PC format's size, apply
any history of basic sector reads and writes, save as PRI, load the PRI file, apply any further history: all
the outcomes are those of the map from positions and ids to the file's bytes.  Hypothesis: the track hash
does not collide on the image's own tracks. -/
theorem C47_sectors_survive (f : StdFormat) (hf : f.isPc = true) (file : List Byte)
    (hl : file.length = f.diskSize) (H : List Byte → Nat) (nz : Noise) (ops ops' : List SectorOp)
    (rate : DiskTrack → BitVec 32) (alt : BitVec 32 → BitVec 32 → BitVec 32) (rnd : Nat → Bool) :
    ∃ d0, Raw.loadImage nz file = .ok d0 ∧ (NoCollision H d0 → ∃ d bs d' rs,
      Raw.load H nz file = .ok d ∧ Pri.save rate none (afterOps d ops) = .ok bs ∧
      Pri.load alt rnd {} bs = .ok (d', rs) ∧
      basicRun d ops ++ basicRun d' ops' = DiskMap.run (imgDisk f.layout file) (ops ++ ops')) := by
  obtain ⟨d0, h1, h2⟩ := load_spec' f hf nz H file hl
  refine ⟨d0, h1, fun hH => ?_⟩
  obtain ⟨d, k1, k2, k3, _, _, _, _, k8, k9, k10⟩ := h2 hH
  obtain ⟨d0', i1, _, i3⟩ := loadImage_spec f hf nz file hl
  rw [h1] at i1; cases i1
  obtain ⟨p1, p2⟩ := built_pri i3 k3 k8 k9 k10
  have hne : NonEmpty (imgDisk f.layout file) := by
    intro ch m hm
    unfold imgDisk at hm
    split at hm
    · cases hm
      unfold imgTrack
      have hs : 0 < f.layout.s := by cases f <;> decide
      intro e
      have := congrArg List.length e
      simp at this
      omega
    · cases hm
  obtain ⟨bs, d', rs, h1, h2, h3, h4, h5, h6, _⟩ := pri_load (p1.after ops) rate none (by simp) alt rnd
  have hrel := pri_rel (p1.after ops) (k2.after ops) (hne.after ops) (p2.after ops) h3 h4 h5 h6
  exact ⟨d, bs, d', rs, k1, h1, h2, by rw [k2.run ops, hrel.run ops', run_append]⟩

/-- **C47 is false of the code: images without tracks.** An empty bitstream image saves as a valid file that
cannot be loaded: the loader unwraps the missing data rate. -/
theorem C47_false_empty (rate : DiskTrack → BitVec 32) (alt : BitVec 32 → BitVec 32 → BitVec 32) (rnd : Nat → Bool) :
    ∃ bs, Pri.save rate none { res := { bit := true } } = .ok bs ∧ Pri.load alt rnd {} bs = .error .panic := by
  refine ⟨_, rfl, ?_⟩
  have := load_chunks alt rnd {} [0#8, 0#8, 0#8, 0#8] (by decide) (by decide) [] (by simp)
  exact this

/-- **C47 is false of the code: comments.** An image whose comment is longer than 1000 bytes cannot be saved:
the writer panics.  (A shorter one is written and dropped by the loader.) -/
theorem C47_false_comment (d : Disk) (hd : d.res = { bit := true }) (rate : DiskTrack → BitVec 32) (t : List Byte)
    (ht : 1000 < t.length) : Pri.save rate (some t) d = .error .panic := by
  unfold Pri.save
  rw [if_neg (by rw [hd]; simp)]
  simp only [if_pos ht]

/-- An image with other tracks than bitstreams is refused. -/
theorem C47_refused (d : Disk) (hd : d.res ≠ { bit := true }) (rate : DiskTrack → BitVec 32) (c : Option (List Byte)) :
    Pri.save rate c d = .error .unsupported := by
  unfold Pri.save
  rw [if_pos hd]


/-- The loop on a cut file. -/
theorem loop_cut (alt : BitVec 32 → BitVec 32 → BitVec 32) (rnd : Nat → Bool) :
    ∀ (cs : List Chunk) (f : Nat) (st : Pri.State) (c : Chunk) (k : Nat),
      (∀ x ∈ c :: cs, x.id ≠ idEnd ∧ x.data.length ≤ maxChunk) → (∃ st', runChunks alt rnd st (c :: cs) = .ok st') →
      k < f → k < (cs.flatMap writeChunk ++ footer).length →
      Pri.loop alt rnd f ((cs.flatMap writeChunk ++ footer).take k) st c = .error .io
  | cs, 0, st, c, k, _, _, hf, _ => by omega
  | [], f + 1, st, c, k, h, hr, hf, hk => by
    obtain ⟨st', hr⟩ := hr
    unfold runChunks at hr
    unfold Pri.loop
    rw [if_neg (h c (by simp)).1]
    rcases hstep : Pri.step alt rnd st c with e | st1
    · rw [hstep] at hr; cases hr
    · simp only [List.flatMap_nil, List.nil_append] at hk ⊢
      rw [C46_footer] at hk ⊢
      rw [C46_truncated maxChunk ⟨idEnd, []⟩ (by simp) (by simp) k hk]
  | x :: cs, f + 1, st, c, k, h, hr, hf, hk => by
    obtain ⟨st', hr⟩ := hr
    unfold runChunks at hr
    unfold Pri.loop
    rw [if_neg (h c (by simp)).1]
    rcases hstep : Pri.step alt rnd st c with e | st1
    · rw [hstep] at hr; cases hr
    · rw [hstep] at hr
      simp only at hr ⊢
      have hx := h x (by simp)
      have hmx : maxChunk = 1048576 := rfl
      rw [List.flatMap_cons, List.append_assoc] at hk ⊢
      by_cases hlt : k < (writeChunk x).length
      · rw [List.take_append_of_le_length (by omega), C46_truncated maxChunk x hx.2 (by omega) k hlt]
      · rw [List.take_append, List.take_of_length_le (by omega), C46_round_trip maxChunk x _ hx.2 (by omega)]
        simp only
        have := writeChunk_long x
        exact loop_cut alt rnd cs f st1 x _ (fun y hy => h y (by
          rw [List.mem_cons] at hy ⊢; right; rw [List.mem_cons]; exact hy)) ⟨st', hr⟩ (by omega)
          (by rw [List.length_append] at hk ⊢; rw [List.length_append] at hk; omega)

theorem runChunks_of_load {alt : BitVec 32 → BitVec 32 → BitVec 32} {rnd : Nat → Bool} {d : Disk} {cs : List Chunk}
    (h : ∀ c ∈ cs, c.id ≠ idEnd ∧ c.data.length ≤ maxChunk) {r : Disk × List (BitVec 32)}
    (hr : Pri.load alt rnd d (((⟨idPri, [0#8, 0#8, 0#8, 0#8]⟩ : Chunk) :: cs).flatMap writeChunk ++ footer) = .ok r) :
    ∃ st, runChunks alt rnd { disk := d } cs = .ok st := by
  rw [load_chunks alt rnd d _ (by decide) (by decide) cs h] at hr
  rcases hx : runChunks alt rnd { disk := d } cs with e | st
  · rw [hx] at hr; cases hr
  · exact ⟨st, rfl⟩

/-- The chunks of any saved file. -/
theorem save_chunks {d : Disk} (hd : PriDisk d) (rate : DiskTrack → BitVec 32) (comment : Option (List Byte))
    (hc : ∀ t, comment = some t → t.length ≤ 1000) {bs : List Byte} (hs : Pri.save rate comment d = .ok bs) :
    ∃ cs, bs = ((⟨idPri, [0#8, 0#8, 0#8, 0#8]⟩ : Chunk) :: cs).flatMap writeChunk ++ footer ∧
      ∀ c ∈ cs, c.id ≠ idEnd ∧ c.data.length ≤ maxChunk := by
  have hmx : maxChunk = 1048576 := rfl
  have hfit : ∀ x ∈ d.trackList, PriTrack x := fun x hx => by
    rw [trackList_from] at hx
    obtain ⟨h, c, hh, hat⟩ := mem_tracksFrom d x _ _ hx
    exact hd.fits h c x hh hat
  have hplaced : PlacedFrom 0 0 d.trackList := by
    have := tracksFrom_placed hd.inPlace (max d.map0.length d.map1.length) 0
    rw [trackList_from]; simpa using this
  obtain ⟨cs, st', r1, r2, _⟩ := run_tracks (fun _ _ => 0) (fun _ => false) rate d.trackList
    { disk := {} } hfit (Or.inl rfl) hplaced
  unfold Pri.save at hs
  rw [if_neg (by rw [hd.res]; simp)] at hs
  cases comment with
  | none =>
    simp only [Pri.saveChunks, r1] at hs
    cases hs
    exact ⟨cs, rfl, r2⟩
  | some t =>
    have ht := hc t rfl
    simp only [Pri.saveChunks, r1] at hs
    rw [if_neg (by omega)] at hs
    cases hs
    refine ⟨(⟨idText, t⟩ : Chunk) :: cs, rfl, ?_⟩
    intro c hcm
    rw [List.mem_cons] at hcm
    rcases hcm with rfl | hcm
    · exact ⟨show idText ≠ idEnd by decide, show t.length ≤ maxChunk by omega⟩
    · exact r2 c hcm

/-- **C47.** A saved file cut short anywhere is refused with an IO error: no prefix of it loads. -/
theorem C47_truncated (d : Disk) (hd : Savable d) (rate : DiskTrack → BitVec 32)
    (comment : Option (List Byte)) (hc : ∀ t, comment = some t → t.length ≤ 1000)
    (alt : BitVec 32 → BitVec 32 → BitVec 32) (rnd : Nat → Bool) :
    ∃ bs, Pri.save rate comment d = .ok bs ∧ ∀ k, k < bs.length → Pri.load alt rnd {} (bs.take k) = .error .io := by
  obtain ⟨bs, d', rs, h1, h2, _⟩ := pri_load hd.pri rate comment hc alt rnd
  refine ⟨bs, h1, ?_⟩
  obtain ⟨cs, rfl, c2⟩ := save_chunks hd.pri rate comment hc h1
  obtain ⟨st, hst⟩ := runChunks_of_load c2 h2
  intro k hk
  unfold Pri.load
  rw [List.flatMap_cons, List.append_assoc] at hk ⊢
  by_cases hlt : k < (writeChunk ⟨idPri, [0#8, 0#8, 0#8, 0#8]⟩).length
  · rw [List.take_append_of_le_length (by omega), C46_truncated maxChunk _ (by decide) (by decide) k hlt]
  · rw [List.take_append, List.take_of_length_le (by omega), C46_round_trip maxChunk _ _ (by decide) (by decide)]
    simp only
    rw [if_neg (by simp), if_neg (by decide)]
    have h16 := writeChunk_long ⟨idPri, [0#8, 0#8, 0#8, 0#8]⟩
    rw [loop_cut alt rnd cs _ _ _ _ (by
      intro x hx
      rw [List.mem_cons] at hx
      rcases hx with rfl | hx
      · exact ⟨show idPri ≠ idEnd by decide, show (4 : Nat) ≤ maxChunk by decide⟩
      · exact c2 x hx) ⟨st, hst⟩ (by
        rw [List.length_append, List.length_take, List.length_append] at *; omega) (by
        rw [List.length_append] at hk ⊢; rw [List.length_append] at hk; omega)]

/-- A disk of one track of 64 cells, two of them weak. -/
def weakDisk : Disk :=
  { res := { bit := true }, map0 := [0],
    pool := [.bit ⟨0, 0⟩ { data := { bits := .ofBits (List.replicate 64 true), clockMap := .ofBits (List.replicate 64 true), weakMask := .ofBits (true :: true :: List.replicate 62 false) } }] }

theorem weakDisk_savable : Savable weakDisk := by
  have hmap : ∀ h c i, h < 2 → (weakDisk.headMap h)[c]? = some i → h = 0 ∧ c = 0 ∧ i = 0 := by
    intro h c i hh hi
    rcases (by omega : h = 0 ∨ h = 1) with rfl | rfl
    · have hi : ([0] : List Nat)[c]? = some i := hi
      rcases c with _ | c
      · simp at hi; exact ⟨rfl, rfl, hi.symm⟩
      · simp at hi
    · have hi : ([] : List Nat)[c]? = some i := hi
      simp at hi
  refine ⟨?_, rfl, ?_, Or.inl (by decide), by decide⟩
  · intro h c i hh hi
    obtain ⟨rfl, rfl, rfl⟩ := hmap h c i hh hi
    exact ⟨_, rfl, rfl⟩
  · intro ch x hh hx
    rw [track_eq _ hh] at hx
    obtain ⟨i, i1, i2⟩ := at?_headMap (Except.ok.inj hx)
    obtain ⟨_, _, rfl⟩ := hmap _ _ _ hh i1
    cases i2
    exact ⟨_, _, rfl, by decide, fun _ => by decide⟩

/-- **C47 is false of the code: weak cells.** A disk whose first two cells are weak comes back with cells 1 and
2 weak instead. -/
theorem C47_false_weak (rate : DiskTrack → BitVec 32) (alt : BitVec 32 → BitVec 32 → BitVec 32) (rnd : Nat → Bool) :
    ∃ d bs d' rs m m', Savable d ∧ Pri.save rate none d = .ok bs ∧ Pri.load alt rnd {} bs = .ok (d', rs) ∧
      weakAt d ⟨0, 0⟩ = some m ∧ weakAt d' ⟨0, 0⟩ = some m' ∧
      m.getD 0 false = true ∧ m.getD 2 false = false ∧ m'.getD 0 false = false ∧ m'.getD 2 false = true := by
  obtain ⟨bs, d', rs, h1, h2, h3⟩ := C47_weak_shifted weakDisk weakDisk_savable rate none (by simp) alt rnd
  obtain ⟨m', e1, _, e3⟩ := h3 ⟨0, 0⟩ _ _ _ rfl rfl
  refine ⟨weakDisk, bs, d', rs, _, m', weakDisk_savable, h1, h2, rfl, e1, by decide, by decide, ?_, ?_⟩
  · have := e3 0 (by decide)
    simpa using this
  · exact (e3 2 (by decide)).2 ⟨by decide, by decide⟩

/-- **C47 is false of the code: hostile files.** A well-formed file whose track header names head 2 and which
then carries weak cells makes the loader panic. -/
theorem C47_false_head (alt : BitVec 32 → BitVec 32 → BitVec 32) (rnd : Nat → Bool) :
    ∃ bs, Pri.load alt rnd {} bs = .error .panic ∧
      bs = ([⟨idPri, [0, 0, 0, 0]⟩, ⟨idTrak, Pri.trackHeader ⟨0, 2⟩ 0 0⟩, ⟨idWeak, []⟩] : List Chunk).flatMap writeChunk ++ footer := by
  refine ⟨_, ?_, rfl⟩
  have := load_chunks alt rnd {} [0#8, 0#8, 0#8, 0#8] (by decide) (by decide)
    [⟨idTrak, Pri.trackHeader ⟨0, 2⟩ 0 0⟩, ⟨idWeak, []⟩] (by decide)
  refine this.trans ?_
  rfl

end Fox
