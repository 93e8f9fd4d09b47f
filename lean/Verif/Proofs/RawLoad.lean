import Verif.Model.Raw
import Verif.Proofs.ScanCursor
import Verif.Proofs.DiskMap
import Verif.Props.Chs
import Verif.Props.StandardFormat
/-
Loading a raw sector image: what the loops build.
-/
namespace Fox
open Fox.Spec Fox.S34

/-- Track `j` of a layout in the order of the loaders. -/
def chOf (g : Layout) (j : Nat) : Ch := ⟨j / g.h, j % g.h⟩

/-- The bytes of track `j` in a raw image. -/
def trackSlice (g : Layout) (file : List Byte) (j : Nat) : List Byte :=
  slice file (j * (g.s * g.size)) (g.s * g.size)

/-- The sectors of track `j` of a raw image. -/
def imgTrack (g : Layout) (file : List Byte) (j : Nat) : SectorMap :=
  (List.range g.s).map fun s =>
    (⟨j / g.h, j % g.h, s + g.sOff, g.n⟩, slice file ((j * g.s + s) * g.size) g.size)

/-! ### Order of the tracks -/

theorem trackOrder_eq (g : Layout) (hc : 0 < g.c) (hh : 0 < g.h) :
    Raw.trackOrder g = (List.range (g.c * g.h)).map (chOf g) := by
  obtain ⟨xs, h1, h2, h3⟩ := C13_ch_iter g.ch hc hh
  unfold Raw.trackOrder
  have h1' : Ch.iterTake g.ch (g.c * g.h + 1) none = (xs, true) := h1
  rw [h1']
  apply List.ext_getElem
  · rw [h2]; simp [Layout.ch]
  · intro k hk hk2
    obtain ⟨a, b, c⟩ := h3 k hk
    simp only [List.getElem_map, List.getElem_range, chOf]
    have a : xs[k].h < g.h := b
    have c : xs[k].c * g.h + xs[k].h = k := c
    have key : ∀ c h : Nat, h < g.h → c * g.h + h = k → k / g.h = c ∧ k % g.h = h := by
      rintro c h hlt rfl
      constructor
      · rw [Nat.mul_comm, Nat.mul_add_div hh, Nat.div_eq_of_lt hlt, Nat.add_zero]
      · rw [Nat.mul_comm, Nat.mul_add_mod, Nat.mod_eq_of_lt hlt]
    obtain ⟨e1, e2⟩ := key _ _ a c
    rw [e1, e2]

/-! ### Tables of a disk under construction -/

/-- The first `k` tracks of the layout have been added, track `j` satisfying `P j`. -/
structure Built (g : Layout) (P : Nat → DiskTrack → Prop) (r : ResSet) (k : Nat) (d : Disk) : Prop where
  len : d.pool.length = k
  map : ∀ h, h < g.h → d.headMap h = (List.range ((k + (g.h - 1 - h)) / g.h)).map fun c => c * g.h + h
  map' : ∀ h, h < 2 → g.h ≤ h → d.headMap h = []
  tracks : ∀ j, j < k → ∃ t, d.pool[j]? = some t ∧ P j t
  res : d.res = r
  single : d.multires = false
  boot : d.boot = none

theorem Built.push {g : Layout} {P : Nat → DiskTrack → Prop} {r : ResSet} {k : Nat} {d : Disk}
    (h : Built g P r k d) (hg : g.h = 1 ∨ g.h = 2) (t : DiskTrack) (ht : P k t) :
    Built g P r (k + 1) (d.pushTrack (k % g.h) t) := by
  have hpool : ∀ h, (d.pushTrack h t).pool = d.pool ++ [t] := by
    intro h; unfold Disk.pushTrack Disk.pushMap; split <;> rfl
  have hmap : ∀ h h', (h < 2) → (h' < 2) → (d.pushTrack h t).headMap h' =
      if h' = h then d.headMap h' ++ [k] else d.headMap h' := by
    intro a b ha hb
    rw [← h.len]
    unfold Disk.pushTrack Disk.pushMap Disk.headMap
    obtain rfl | rfl : a = 0 ∨ a = 1 := by omega
    all_goals (obtain rfl | rfl : b = 0 ∨ b = 1 := by omega)
    all_goals rfl
  have hlt : k % g.h < 2 := by rcases hg with hg | hg <;> rw [hg] <;> omega
  refine ⟨by rw [hpool, List.length_append, h.len]; rfl, ?_, ?_, ?_, ?_, ?_, ?_⟩
  · intro a ha
    have ha2 : a < 2 := by rcases hg with hg | hg <;> omega
    rw [hmap _ _ hlt ha2, h.map a ha]
    have hk : (k + 1 + (g.h - 1 - a)) / g.h = (k + (g.h - 1 - a)) / g.h + (if a = k % g.h then 1 else 0) := by
      rcases hg with hg | hg <;> rw [hg] at ha ⊢
      · have : a = 0 := by omega
        subst this; rw [if_pos (by omega)]; omega
      · split <;> omega
    rw [hk]
    by_cases hak : a = k % g.h
    · rw [if_pos hak, if_pos hak, List.range_succ, List.map_append]
      congr 1
      show [k] = [(k + (g.h - 1 - a)) / g.h * g.h + a]
      congr 1
      rcases hg with hg | hg <;> rw [hg] at ha hak ⊢ <;> omega
    · rw [if_neg hak, if_neg hak, Nat.add_zero]
  · intro a ha hga
    rw [hmap _ _ hlt ha, if_neg (by rcases hg with hg | hg <;> rw [hg] at hga ⊢ <;> omega), h.map' a ha hga]
  · intro j hj
    rw [hpool]
    rcases Nat.lt_or_ge j k with hjk | hjk
    · obtain ⟨x, h1, h2⟩ := h.tracks j hjk
      exact ⟨x, by rw [List.getElem?_append_left (by rw [h.len]; exact hjk)]; exact h1, h2⟩
    · have : j = k := by omega
      subst this
      exact ⟨t, by rw [List.getElem?_append_right (by rw [h.len]), h.len]; simp, ht⟩
  · rw [← h.res]; unfold Disk.pushTrack Disk.pushMap; split <;> rfl
  · rw [← h.single]; unfold Disk.pushTrack Disk.pushMap; split <;> rfl
  · rw [← h.boot]; unfold Disk.pushTrack Disk.pushMap; split <;> rfl

theorem Built.next {g : Layout} {P : Nat → DiskTrack → Prop} {r : ResSet} {k : Nat} {d : Disk}
    (h : Built g P r k d) (hg : g.h = 1 ∨ g.h = 2) : (d.headMap (k % g.h)).length = k / g.h := by
  rw [h.map _ (by rcases hg with hg | hg <;> rw [hg] <;> omega), List.length_map, List.length_range]
  rcases hg with hg | hg <;> rw [hg] <;> omega

/-- Replacing the track just added. -/
theorem pushTrack_set (d : Disk) (h : Nat) (t t' : DiskTrack) :
    ({ d.pushTrack h t with pool := (d.pushTrack h t).pool.set d.pool.length t' } : Disk) = d.pushTrack h t' := by
  have hset : (d.pool ++ [t]).set d.pool.length t' = d.pool ++ [t'] := by
    rw [List.set_append_right _ _ (Nat.le_refl _)]; simp
  unfold Disk.pushTrack Disk.pushMap
  split <;> simp only [hset]

theorem pushTrack_last (d : Disk) (h : Nat) (t : DiskTrack) : (d.pushTrack h t).pool[d.pool.length]? = some t := by
  unfold Disk.pushTrack Disk.pushMap
  split <;> simp

/-! ### A fresh bitstream track -/

theorem new_formattable (bits : List Bool) :
    ∃ data, Mfm.new bits none none = .ok data ∧ data.len = bits.length ∧
      Formattable { data := data, schema := some .system34 } := by
  unfold Mfm.new
  simp only [List.length_replicate, Option.getD_none, Nat.lt_irrefl, if_false]
  refine ⟨_, rfl, rfl, ⟨Or.inr ?_, rfl, ⟨rfl, rfl, ?_⟩, rfl⟩⟩
  · intro b hb
    exact (List.mem_replicate.1 hb).2
  · show 16 * ((bits.length + 15) / 16) ≤ (List.replicate _ _).length + 15
    rw [List.length_replicate]
    show 16 * ((bits.length + 15) / 16) ≤ bits.length + 15
    omega

theorem emptyBit_ok (ch : Ch) (cells : Nat) (b : Bool) :
    ∃ t, Disk.emptyBit ch .mfm cells (some b) = .ok (.bit ch t) ∧ t.data.len = cells ∧ Formattable t := by
  obtain ⟨data, h1, h2, h3⟩ := new_formattable ((List.range cells).map fun i => i % 2 == b.toNat)
  refine ⟨{ data := data, schema := some .system34 }, ?_, by rw [h2]; simp, h3⟩
  unfold Disk.emptyBit
  simp only [h1]
  rfl

/-! ### The fill pattern is the track's data -/

theorem slice_slice (l : List Byte) (a n b k : Nat) (h : b + k ≤ n) :
    slice (slice l a n) b k = slice l (a + b) k := by
  unfold slice
  rw [List.drop_take, List.take_take, List.drop_drop, Nat.min_eq_left (by omega)]

theorem fresh_range (pat : List Byte) (f : Nat → Chsn) (sz : Nat) (hsz : ∀ i, (f i).size = sz)
    (hd : ∀ i, onDisk (f i) = f i) : ∀ (n k : Nat), (k + n) * sz ≤ pat.length →
    SectorMap.fresh pat (k * sz) ((List.range' k n).map f) =
      (List.range' k n).map fun i => (f i, slice pat (i * sz) sz)
  | 0, _, _ => rfl
  | n + 1, k, h => by
    rw [List.range'_succ, List.map_cons, SectorMap.fresh, hsz, hd, List.map_cons]
    have e : k * sz + sz = (k + 1) * sz := by rw [Nat.succ_mul]
    have h2 : (k + 1) * sz ≤ (k + (n + 1)) * sz := Nat.mul_le_mul_right _ (by omega)
    rw [e, fresh_range pat f sz hsz hd n (k + 1) (by rw [show k + 1 + n = k + (n + 1) by omega]; exact h),
      fillBytes_slice _ _ _ (by omega)]
    rfl

theorem fresh_track (g : Layout) (file : List Byte) (j : Nat) (hn : nSize g.n = g.size)
    (hc : j / g.h < 256) (hl : (j + 1) * (g.s * g.size) ≤ file.length) :
    SectorMap.fresh (trackSlice g file j) 0 (Raw.trackIds g (chOf g j)) = imgTrack g file j := by
  unfold Raw.trackIds imgTrack
  have hlen : (trackSlice g file j).length = g.s * g.size := by
    unfold trackSlice
    apply slice_length
    rw [Nat.succ_mul] at hl
    exact hl
  have h := fresh_range (trackSlice g file j) (fun s => ⟨(chOf g j).c, (chOf g j).h, s + g.sOff, g.n⟩) g.size
    (fun i => hn) (fun i => onDisk_eq hc) g.s 0 (by rw [hlen, Nat.zero_add])
  rw [Nat.zero_mul] at h
  rw [List.range_eq_range', h]
  apply List.map_congr_left
  intro s hs
  have hs' : s < g.s := by
    have := List.mem_range'.1 hs
    omega
  have h2 : (s + 1) * g.size ≤ g.s * g.size := Nat.mul_le_mul_right _ hs'
  show (_, _) = (_, _)
  congr 1
  unfold trackSlice
  rw [slice_slice _ _ _ _ _ (by rw [Nat.succ_mul] at h2; exact h2)]
  congr 1
  rw [Nat.add_mul, Nat.mul_assoc]

/-! ### The bitstream loader -/

/-- A track as the bitstream loader leaves it. -/
def LoadedBit (f : StdFormat) (file : List Byte) (j : Nat) (x : DiskTrack) : Prop :=
  ∃ t, x = .bit (chOf f.layout j) t ∧
    Rel f.bitcellCt t (iamOf .ibm) (formatted .ibm (trackSlice f.layout file j) f.gap3
      (Raw.trackIds f.layout (chOf f.layout j))) ∧
    (∀ b ∈ t.data.weakMask.bits, b = false) ∧
    (t.data.weakMask.bits.length + 7) / 8 = (t.data.bits.bits.length + 7) / 8

theorem trackIds_eq (f : StdFormat) (ch : Ch) : Raw.trackIds f.layout ch = stdIds f ch.c ch.h := by
  unfold Raw.trackIds stdIds
  apply List.map_congr_left
  intro s _
  rw [Nat.add_comm]

theorem layout_n (f : StdFormat) : f.layout.n = 2 := by
  have : f.layout.size = 512 := (C31_sizes f f).2.2.2
  unfold Layout.n; rw [this]
  rw [bytesToN, if_pos (by decide), bytesToN, if_pos (by decide), bytesToN, if_neg (by decide)]

theorem layout_nSize (f : StdFormat) : nSize f.layout.n = f.layout.size := by
  rw [layout_n, (C31_sizes f f).2.2.2]; decide

theorem stdIds_wf (f : StdFormat) (c h : Nat) (hc : c < 256) (hh : h < 256) :
    ∀ x ∈ stdIds f c h, x.WF := by
  intro x hx
  obtain ⟨i, hi, rfl⟩ := List.mem_map.1 hx
  have hi' := List.mem_range.1 hi
  have hb : f.layout.sOff + f.layout.s < 256 := by cases f <;> decide
  refine ⟨?_, ?_, ?_, ?_⟩
  · show c < 65536; omega
  · exact hh
  · show f.layout.sOff + i < 256; omega
  · show f.layout.n < 256; rw [layout_n]; decide

theorem round16 (n : Nat) : (16 * ((n + 15) / 16) + 15) / 16 = (n + 15) / 16 := by omega

theorem bitStep_spec (f : StdFormat) (hf : f.isPc = true) (nz : Noise) (file : List Byte) (k : Nat) (d : Disk)
    (hk : k < f.layout.c * f.layout.h) (hl : (k + 1) * (f.layout.s * f.layout.size) ≤ file.length)
    (h : Built f.layout (LoadedBit f file) (ResSet.insert {} .bitStream) k d) :
    ∃ d', Raw.bitStep f nz (chOf f.layout k) (file.drop (k * (f.layout.s * f.layout.size))) d = .ok d' ∧
      Built f.layout (LoadedBit f file) (ResSet.insert {} .bitStream) (k + 1) d' := by
  have hg : f.layout.h = 1 ∨ f.layout.h = 2 := by cases f <;> decide
  have hcc : f.layout.c ≤ 80 := by cases f <;> decide
  have hsz : 0 < f.layout.s * f.layout.size := by cases f <;> decide
  have hlt : k % f.layout.h < 2 := by rcases hg with hg | hg <;> rw [hg] <;> omega
  have hck : k / f.layout.h < 256 := by
    rcases hg with hg | hg <;> rw [hg] at hk ⊢ <;> omega
  obtain ⟨t, e1, e2, e3⟩ := emptyBit_ok (chOf f.layout k) f.bitcellCt false
  have hadd : d.addEmpty (chOf f.layout k) .mfm (some .bitStream) f.bitcellCt (some false) =
      (d.pushTrack (k % f.layout.h) (.bit (chOf f.layout k) t), .ok k) := by
    unfold Disk.addEmpty
    have hrej : d.rejects .bitStream = false := by
      unfold Disk.rejects; rw [h.res]; rw [h.single]; rfl
    have hins : d.res.insert .bitStream = d.res := by rw [h.res]; rfl
    have hmin : d.res.min = some .bitStream := by rw [h.res]; rfl
    rw [if_neg (show ¬ (chOf f.layout k).h ≥ 2 from by show ¬ k % f.layout.h ≥ 2; omega)]
    simp only [hrej, Bool.false_eq_true, if_false, hins, hmin]
    rw [if_neg (by
      show ¬ (d.headMap (k % f.layout.h)).length ≠ k / f.layout.h
      rw [h.next hg]; omega), e1]
    simp only
    rw [h.len]
    rfl
  unfold Raw.bitStep
  simp only [hadd]
  have hdl : ¬ (file.drop (k * (f.layout.s * f.layout.size))).length < f.layout.s * f.layout.size := by
    rw [List.length_drop]; rw [Nat.succ_mul] at hl; omega
  rw [if_neg hdl, show k = d.pool.length from h.len.symm, pushTrack_last]
  simp only
  rw [h.len]
  have hpat : (file.drop (k * (f.layout.s * f.layout.size))).take (f.layout.s * f.layout.size) =
      trackSlice f.layout file k := rfl
  rw [hpat]
  have hplen : (trackSlice f.layout file k).length = f.layout.s * f.layout.size := by
    unfold trackSlice; apply slice_length; rw [Nat.succ_mul] at hl; exact hl
  have hp : trackSlice f.layout file k ≠ [] := by
    intro h0
    have h1 : (trackSlice f.layout file k).length = 0 := by rw [h0]; rfl
    omega
  have hfit : Fits .ibm f.gap3 (Raw.trackIds f.layout (chOf f.layout k)) t.data.len := by
    rw [e2, trackIds_eq]; exact (C32_fits f hf _ _ .ibm (by decide)).2
  have hwf : ∀ x ∈ Raw.trackIds f.layout (chOf f.layout k), x.WF := by
    rw [trackIds_eq]; exact stdIds_wf f _ _ hck (by show k % f.layout.h < 256; omega)
  obtain ⟨t', g1, g2, g3⟩ := format_trackOk t nz.bit .ibm _ _ f.gap3 hp e3 hwf hfit
  simp only [DiskTrack.format, g1, Except.map]
  refine ⟨_, rfl, ?_⟩
  rw [show k = d.pool.length from h.len.symm, pushTrack_set, h.len]
  refine h.push hg _ ⟨t', rfl, ⟨g2, ?_, ?_⟩, by rw [format_weakMask g1]; exact emptyBit_clear e1, ?_⟩
  · intro x hx
    obtain ⟨a, b, c, _⟩ := layout_del .ibm _ f.gap3 _ _ _ x hx
    exact ⟨a, b, c⟩
  · rw [g3, e2]; exact round16 _
  · rw [format_weakMask g1, emptyBit_mask e1, show t'.data.bits.bits.length = t'.data.len from rfl, g3, e2]
    cases f <;> decide

theorem bitLoop_spec (f : StdFormat) (hf : f.isPc = true) (nz : Noise) (file : List Byte)
    (hl : f.layout.c * f.layout.h * (f.layout.s * f.layout.size) ≤ file.length) :
    ∀ (n k : Nat) (d : Disk), k + n = f.layout.c * f.layout.h →
      Built f.layout (LoadedBit f file) (ResSet.insert {} .bitStream) k d →
      ∃ d', Raw.bitLoop f nz ((List.range' k n).map (chOf f.layout))
          (file.drop (k * (f.layout.s * f.layout.size))) d = .ok d' ∧
        Built f.layout (LoadedBit f file) (ResSet.insert {} .bitStream) (f.layout.c * f.layout.h) d'
  | 0, k, d, hk, h => ⟨d, rfl, by rw [← hk]; exact h⟩
  | n + 1, k, d, hk, h => by
    have hle : (k + 1) * (f.layout.s * f.layout.size) ≤ f.layout.c * f.layout.h * (f.layout.s * f.layout.size) :=
      Nat.mul_le_mul_right _ (by omega)
    obtain ⟨d', h1, h2⟩ := bitStep_spec f hf nz file k d (by omega) (by omega) h
    obtain ⟨d'', h3, h4⟩ := bitLoop_spec f hf nz file hl n (k + 1) d' (by omega) h2
    refine ⟨d'', ?_, h4⟩
    rw [List.range'_succ, List.map_cons, Raw.bitLoop, h1]
    simp only
    rw [List.drop_drop]
    rw [show k * (f.layout.s * f.layout.size) + f.layout.s * f.layout.size =
      (k + 1) * (f.layout.s * f.layout.size) by rw [Nat.succ_mul]]
    exact h3

theorem ofSize_pc (f : StdFormat) (hf : f.isPc = true) : StdFormat.ofSize f.diskSize = some f := by
  cases f <;> first | rfl | exact absurd hf (by decide)

/-- What `load_image` builds from a PC image. -/
theorem loadImage_spec (f : StdFormat) (hf : f.isPc = true) (nz : Noise) (file : List Byte)
    (hl : file.length = f.diskSize) :
    ∃ d, Raw.loadImage nz file = .ok d ∧ d.geometry = f.layout.ch ∧
      Built f.layout (LoadedBit f file) (ResSet.insert {} .bitStream) (f.layout.c * f.layout.h) d := by
  have hfac : f.layout.c * f.layout.h * (f.layout.s * f.layout.size) = file.length := by
    rw [hl]; cases f <;> decide
  obtain ⟨d, h1, h2⟩ := bitLoop_spec f hf nz file (Nat.le_of_eq hfac) (f.layout.c * f.layout.h) 0
    (({ } : Disk).setResolution .bitStream) (by omega) (by
      refine ⟨rfl, ?_, ?_, ?_, rfl, rfl, rfl⟩
      · intro h hh
        have : (0 + (f.layout.h - 1 - h)) / f.layout.h = 0 := by
          rw [Nat.div_eq_zero_iff]; omega
        rw [this]
        unfold Disk.headMap; split <;> rfl
      · intro h _ _; unfold Disk.headMap; split <;> rfl
      · intro j hj; omega)
  refine ⟨{ d with geometry := f.layout.ch }, ?_, rfl, ?_⟩
  · unfold Raw.loadImage
    rw [hl, ofSize_pc f hf]
    simp only
    have hdiv : ¬ f.layout.c * f.layout.h ≠ f.diskSize / (f.layout.s * f.layout.size) := by
      cases f <;> decide
    have hmod : ¬ f.diskSize % (f.layout.s * f.layout.size) ≠ 0 := by cases f <;> decide
    rw [if_neg hdiv, if_neg hmod, if_pos hf]
    unfold Raw.loadBit
    rw [trackOrder_eq _ (by cases f <;> decide) (by cases f <;> decide), List.range_eq_range']
    rw [Nat.zero_mul, List.drop_zero] at h1
    rw [h1]
  · exact ⟨h2.len, h2.map, h2.map', h2.tracks, h2.res, h2.single, h2.boot⟩



end Fox
