import Verif.Proofs.F86Sect
import Verif.Proofs.F86Cut
import Verif.Props.Pri
import Verif.Spec.F86
/-
C52: 86F images.
-/
namespace Fox
open Spec OddEven S34

theorem Spec.Describable.meta86 {m : F86.Meta} (h : Describable m) : Meta86 m := by
  refine ⟨h.density, ?_, h.encoding⟩
  rcases h.rate with e | e | e | e <;> rw [e] <;> decide

theorem Spec.Held86.fitAt {d : Disk} (hd : Held86 d) {h c : Nat} (hh : h < 2) (hc : c < d.geometry.c) : FitAt d h c := by
  obtain ⟨x, x1, x2⟩ := hd.inPlace.at? hh (by rw [hd.full h hh]; exact hc)
  obtain ⟨ch, t, rfl, t1, t2⟩ := hd.fits ⟨c, h⟩ x hh (by rw [track_eq d hh]; exact congrArg _ x1)
  exact ⟨ch, t, x1, ⟨t1, t2⟩⟩

theorem Spec.Savable86.disk86 {d : Disk} (hd : Savable86 d) : Disk86 d :=
  ⟨hd.res, hd.sides, Nat.le_of_eq (hd.full 0 (by omega)).symm, Nat.le_of_eq (hd.full 1 (by omega)).symm, hd.cyls.1,
    hd.cyls.2, fun _ _ hh hc => hd.fitAt hh hc⟩

theorem cellsAt_of {d : Disk} {h c : Nat} (hh : h < 2) {ch : Ch} {t : Track} (ha : at? d h c = some (.bit ch t)) :
    cellsAt d ⟨c, h⟩ = some (ch, t.data.bits.bits) ∧ weakAt d ⟨c, h⟩ = some t.data.weakMask.bits := by
  unfold cellsAt weakAt
  rw [track_eq d hh]
  have : at? d (⟨c, h⟩ : Ch).h (⟨c, h⟩ : Ch).c = some (.bit ch t) := ha
  rw [this]
  exact ⟨rfl, rfl⟩

theorem cellsAt_none {d : Disk} {ch : Ch} (ha : ch.h < 2 → at? d ch.h ch.c = none) :
    cellsAt d ch = none ∧ weakAt d ch = none := by
  unfold cellsAt weakAt
  by_cases hh : ch.h < 2
  · rw [track_eq d hh, ha hh]; exact ⟨rfl, rfl⟩
  · unfold Disk.track; rw [if_pos (by omega)]; exact ⟨rfl, rfl⟩

/-- The loaded tracks of a position. -/
theorem loaded_at {m : F86.Meta} {d : Disk} (hd : Savable86 d) (rnd : Nat → Bool) {d' : Disk}
    (h4 : ∀ h c, h < 2 → at? d' h c = if c < copies86 d * d.geometry.c then
      some (conv86 m rnd ⟨c, h⟩ (ent86 d h (c / copies86 d))) else none) (ch : Ch) :
    (cellsAt d ⟨ch.c / copies d, ch.h⟩ = none → cellsAt d' ch = none) ∧
    (∀ a cells mask, cellsAt d ⟨ch.c / copies d, ch.h⟩ = some (a, cells) → weakAt d ⟨ch.c / copies d, ch.h⟩ = some mask →
      ∃ t t', Fit86 t ∧ t.data.bits.bits = cells ∧ t.data.weakMask.bits = mask ∧
        load86 m rnd ⟨ch.c / copies d, ch.h⟩ t = .ok t' ∧ cellsAt d' ch = some (ch, t'.data.bits.bits) ∧
        weakAt d' ch = some t'.data.weakMask.bits) := by
  have hD := hd.disk86
  have hcp : copies86 d = copies d := rfl
  by_cases hh : ch.h < 2
  · by_cases hc : ch.c < copies86 d * d.geometry.c
    · have hlt : ch.c / copies86 d < d.geometry.c := Nat.div_lt_of_lt_mul hc
      obtain ⟨a, t, a1, a2⟩ := hD.fits ch.h _ hh hlt
      obtain ⟨k1, k2⟩ := cellsAt_of hh a1
      rw [hcp] at k1 k2
      obtain ⟨t', l1, _⟩ := load86_ok (m := m) (src := ⟨ch.c / copies d, ch.h⟩) a2 rnd
      have hent : ent86 d ch.h (ch.c / copies86 d) = (⟨ch.c / copies d, ch.h⟩, t) := by
        unfold ent86; rw [a1]; rfl
      have h4' := h4 ch.h ch.c hh
      rw [if_pos hc, hent] at h4'
      have hcv : conv86 m rnd ⟨ch.c, ch.h⟩ (⟨ch.c / copies d, ch.h⟩, t) = .bit ch t' := by
        unfold conv86; simp only [l1]
      rw [hcv] at h4'
      obtain ⟨j1, j2⟩ := cellsAt_of hh h4'
      refine ⟨fun e => (by rw [k1] at e; cases e), ?_⟩
      intro a' cells mask e1 e2
      rw [k1] at e1; rw [k2] at e2
      cases e1; cases e2
      exact ⟨t, t', a2, rfl, rfl, l1, j1, j2⟩
    · have h4' := h4 ch.h ch.c hh
      rw [if_neg hc] at h4'
      refine ⟨fun _ => (cellsAt_none fun _ => h4').1, ?_⟩
      intro a cells mask e1 _
      have : cellsAt d ⟨ch.c / copies d, ch.h⟩ = none := by
        apply (cellsAt_none _).1
        intro _
        apply at?_none
        rw [hd.full ch.h hh]
        show d.geometry.c ≤ ch.c / copies d
        rw [← hcp, Nat.le_div_iff_mul_le (by unfold copies86; split <;> omega), Nat.mul_comm]
        omega
      rw [this] at e1; cases e1
  · refine ⟨fun _ => (cellsAt_none fun h => absurd h hh).1, ?_⟩
    intro a cells mask e1 _
    rw [(cellsAt_none (d := d) (ch := ⟨ch.c / copies d, ch.h⟩) fun h => absurd h hh).1] at e1
    cases e1

/-- **C52 (partial).** An image 86F can hold, with a density, rate and encoding it knows and without the PROLOK
flag, saves and the file loads: when it has at least 80 cylinders, every position has a track exactly when it
had one, at its own address and with as many cells; each cell is what it was, except that a weak cell is 1 (its
value has no meaning); if the track is an even number of bytes long, exactly the cells that were weak are weak;
density, write protection, geometry and the speed (300 rpm unless it was 360) are kept.
Missing: images of fewer than 80 cylinders, which come back doubled (`C52_doubled`), weak cells of tracks of an odd
number of bytes (`C52_weak_odd`), the data rate (`C52_false_rate`), extended density (`C52_false_extended`), one-sided
images (`C52_false_one_sided`), images without tracks (`C52_false_empty`). -/
theorem C52_round_trip_partial (d : Disk) (hd : Savable86 d) (h80 : 80 ≤ d.geometry.c) (m : F86.Meta) (hm : Describable m)
    (hpro : m.prolok = false) (debug : Bool) (bitLen : Encoding → F86.Rate → F86.Rpm → Nat × Bool → Int → Nat)
    (rnd : Nat → Bool) :
    ∃ bs d' m', F86.save m d = .ok bs ∧ F86.load debug bitLen rnd {} bs = .ok (d', m') ∧
      (∀ ch, cellsAt d ch = none → cellsAt d' ch = none) ∧
      (∀ ch a cells mask, cellsAt d ch = some (a, cells) → weakAt d ch = some mask →
        ∃ cells' mask', cellsAt d' ch = some (ch, cells') ∧ weakAt d' ch = some mask' ∧ cells'.length = cells.length ∧
          (∀ i, i < cells.length → cells'.getD i false = (cells.getD i false || mask.getD i false)) ∧
          ((cells.length + 7) / 8 % 2 = 0 → ∀ i, i < cells.length → mask'.getD i false = mask.getD i false)) ∧
      d'.geometry = d.geometry ∧ d'.res = d.res ∧ m'.density = m.density ∧ m'.encoding = m.encoding ∧
      m'.writeProtect = some (m.writeProtect == some true) ∧
      m'.rpm = some (if m.rpm = some .r360 then .r360 else .r300) := by
  obtain ⟨bs, d', h1, h2, _, h4, _, _, h7, h8⟩ := f86_load hm.meta86 hd.disk86 debug bitLen rnd
  have hcp : copies86 d = 1 := by unfold copies86; rw [if_neg (by omega)]
  have hc1 : copies d = 1 := hcp
  refine ⟨bs, d', _, h1, h2, ?_, ?_, ?_, by rw [h7, hd.res], rfl, hm.encoding.symm, rfl, rfl⟩
  · intro ch hn
    have := (loaded_at (m := m) hd rnd h4 ch).1
    rw [hc1, Nat.div_one] at this
    exact this hn
  · intro ch a cells mask e1 e2
    have := (loaded_at (m := m) hd rnd h4 ch).2
    rw [hc1, Nat.div_one] at this
    obtain ⟨t, t', f, rfl, rfl, l1, l2, l3⟩ := this a cells mask e1 e2
    obtain ⟨t'', q1, q2, q3⟩ := load86_ok (m := m) (src := ch) f rnd
    rw [l1] at q1; cases q1
    have hlen : t'.data.bits.bits.length = t.data.bits.bits.length := by
      rw [q2, List.length_take, bitsOf_length, take86_length]; omega
    have hcell : ∀ i, i < t.data.bits.bits.length → t'.data.bits.bits.getD i false =
        (t.data.bits.bits.getD i false || t.data.weakMask.bits.getD i false) := by
      intro i hi
      rw [q2, cells86 m ch f i hi, if_neg (by rw [hpro]; simp)]
    refine ⟨_, _, l2, l3, hlen, hcell, ?_⟩
    intro hev i hi
    have hw := weakBit86 m ch f i hi
    rw [if_pos hev, ← q2, hcell i hi] at hw
    rw [q3]
    split
    · rw [hw]
      cases t.data.weakMask.bits.getD i false <;> simp
    · rename_i hany
      have hz : (bitsOf (mask86 m ch t)).getD i false = false := by
        rw [bitsOf_getD]
        unfold dat
        have : (mask86 m ch t).getD (i / 8) 0 = 0#8 := by
          rw [List.getD_eq_getElem?_getD]
          rcases hx : (mask86 m ch t)[i / 8]? with _ | x
          · rfl
          · have hmem := List.mem_of_getElem? hx
            have : ¬ (mask86 m ch t).any (· ≠ 0#8) = true := hany
            rw [List.any_eq_true] at this
            show x = 0#8
            apply Classical.byContradiction
            intro hne
            exact this ⟨x, hmem, by simpa using hne⟩
        rw [this]; simp
      rw [hz] at hw
      have hr : (List.replicate t.data.bits.bits.length false).getD i false = false := by
        rw [List.getD_eq_getElem?_getD, List.getElem?_replicate]
        split <;> rfl
      rw [hr]
      cases hmk : t.data.weakMask.bits.getD i false
      · rfl
      · rw [hmk] at hw; simp at hw
  · rw [h8, hcp, Nat.one_mul, ← hd.sides]

/-- **C52, finding.** What becomes of images of fewer than 80 cylinders: each cylinder is written twice and the
loader does not undo it.  The loaded image has twice the cylinders, and position (c, h) has as many cells as (c/2, h)
had, with the same values where no cell was weak. -/
theorem C52_doubled (d : Disk) (hd : Savable86 d) (h80 : d.geometry.c < 80) (m : F86.Meta) (hm : Describable m)
    (hpro : m.prolok = false) (debug : Bool) (bitLen : Encoding → F86.Rate → F86.Rpm → Nat × Bool → Int → Nat)
    (rnd : Nat → Bool) :
    ∃ bs d' m', F86.save m d = .ok bs ∧ F86.load debug bitLen rnd {} bs = .ok (d', m') ∧
      (∀ ch a cells mask, cellsAt d ⟨ch.c / 2, ch.h⟩ = some (a, cells) → weakAt d ⟨ch.c / 2, ch.h⟩ = some mask →
        ∃ cells', cellsAt d' ch = some (ch, cells') ∧ cells'.length = cells.length ∧
          (∀ i, i < cells.length → cells'.getD i false = (cells.getD i false || mask.getD i false))) ∧
      d'.geometry.c = 2 * d.geometry.c ∧ d.geometry.c < d'.geometry.c := by
  obtain ⟨bs, d', h1, h2, _, h4, _, _, h7, h8⟩ := f86_load hm.meta86 hd.disk86 debug bitLen rnd
  have hcp : copies86 d = 2 := by unfold copies86; rw [if_pos h80]
  have hc1 : copies d = 2 := hcp
  have hpos := hd.cyls.1
  have hg : d'.geometry.c = 2 * d.geometry.c := by rw [h8, hcp]
  refine ⟨bs, d', _, h1, h2, ?_, hg, by omega⟩
  intro ch a cells mask e1 e2
  have := (loaded_at (m := m) hd rnd h4 ch).2
  rw [hc1] at this
  obtain ⟨t, t', f, rfl, rfl, l1, l2, l3⟩ := this a cells mask e1 e2
  obtain ⟨t'', q1, q2, q3⟩ := load86_ok (m := m) (src := ⟨ch.c / 2, ch.h⟩) f rnd
  rw [l1] at q1; cases q1
  refine ⟨_, l2, by rw [q2, List.length_take, bitsOf_length, take86_length]; omega, ?_⟩
  intro i hi
  rw [q2, cells86 m _ f i hi, if_neg (by rw [hpro]; simp)]

/-- **C52, finding.** What becomes of the weak cells of a track of an odd number of bytes (the padding byte is taken for
the start of the mask): cell `i` of the loaded track is weak exactly when the cell eight before it was weak and the cell
itself was set or weak. -/
theorem C52_weak_odd (d : Disk) (hd : Savable86 d) (m : F86.Meta) (hm : Describable m)
    (hpro : m.prolok = false) (debug : Bool) (bitLen : Encoding → F86.Rate → F86.Rpm → Nat × Bool → Int → Nat)
    (rnd : Nat → Bool) :
    ∃ bs d' m', F86.save m d = .ok bs ∧ F86.load debug bitLen rnd {} bs = .ok (d', m') ∧
      ∀ ch a cells mask, cellsAt d ⟨ch.c / copies d, ch.h⟩ = some (a, cells) → weakAt d ⟨ch.c / copies d, ch.h⟩ = some mask →
        (cells.length + 7) / 8 % 2 = 1 →
        ∃ mask', weakAt d' ch = some mask' ∧ ∀ i, i < cells.length →
          (mask'.getD i false = true ↔ 8 ≤ i ∧ mask.getD (i - 8) false = true ∧
            (cells.getD i false = true ∨ mask.getD i false = true)) := by
  obtain ⟨bs, d', h1, h2, _, h4, _, _, h7, h8⟩ := f86_load hm.meta86 hd.disk86 debug bitLen rnd
  refine ⟨bs, d', _, h1, h2, ?_⟩
  intro ch a cells mask e1 e2 hodd
  obtain ⟨t, t', f, rfl, rfl, l1, l2, l3⟩ := (loaded_at (m := m) hd rnd h4 ch).2 a cells mask e1 e2
  obtain ⟨t'', q1, q2, q3⟩ := load86_ok (m := m) (src := ⟨ch.c / copies d, ch.h⟩) f rnd
  rw [l1] at q1; cases q1
  refine ⟨_, l3, ?_⟩
  intro i hi
  have hw := weakBit86 m ⟨ch.c / copies d, ch.h⟩ f i hi
  rw [if_neg (by omega), cells86 m _ f i hi, if_neg (by rw [hpro]; simp)] at hw
  have hm' : t'.data.weakMask.bits.getD i false = (bitsOf (mask86 m ⟨ch.c / copies d, ch.h⟩ t)).getD i false := by
    rw [q3]
    split
    · rfl
    · rename_i hany
      have hz : (bitsOf (mask86 m ⟨ch.c / copies d, ch.h⟩ t)).getD i false = false := by
        rw [bitsOf_getD]
        unfold dat
        have : (mask86 m ⟨ch.c / copies d, ch.h⟩ t).getD (i / 8) 0 = 0#8 := by
          rw [List.getD_eq_getElem?_getD]
          rcases hx : (mask86 m ⟨ch.c / copies d, ch.h⟩ t)[i / 8]? with _ | x
          · rfl
          · have hmem := List.mem_of_getElem? hx
            have : ¬ (mask86 m ⟨ch.c / copies d, ch.h⟩ t).any (· ≠ 0#8) = true := hany
            rw [List.any_eq_true] at this
            show x = 0#8
            apply Classical.byContradiction
            intro hne
            exact this ⟨x, hmem, by simpa using hne⟩
        rw [this]; simp
      rw [hz, List.getD_eq_getElem?_getD, List.getElem?_replicate]
      split <;> rfl
  rw [hm', hw]
  simp [Bool.and_assoc, and_assoc]

/-- **C52 is false of the code: data rates.** The descriptor of a loaded 86F image says 250 kbps whatever the image said
that was saved. -/
theorem C52_false_rate (d : Disk) (hd : Savable86 d) (m : F86.Meta) (hm : Describable m) (hr : m.rate ≠ .r250)
    (debug : Bool) (bitLen : Encoding → F86.Rate → F86.Rpm → Nat × Bool → Int → Nat) (rnd : Nat → Bool) :
    ∃ bs d' m', F86.save m d = .ok bs ∧ F86.load debug bitLen rnd {} bs = .ok (d', m') ∧
      m'.rate = .r250 ∧ m'.rate ≠ m.rate := by
  obtain ⟨bs, d', h1, h2, _⟩ := f86_load hm.meta86 hd.disk86 debug bitLen rnd
  exact ⟨bs, d', _, h1, h2, rfl, fun e => hr e.symm⟩

/-- **C52 is false of the code: one-sided images.** An image with cylinders in its geometry and no tracks on the second
side is never saved. -/
theorem C52_false_one_sided (d : Disk) (m : F86.Meta) (hc : 0 < d.geometry.c) (h1 : d.headMap 1 = []) :
    F86.save m d = .error .unsupported := by
  have h1 : d.map1 = [] := h1
  unfold F86.save
  split
  · rfl
  · simp only
    split
    · rfl
    · split
      · rfl
      · rw [if_pos (by right; rw [h1]; exact hc)]

/-- An image with other tracks than bitstreams is refused. -/
theorem C52_refused (d : Disk) (hd : d.res ≠ { bit := true }) (m : F86.Meta) : F86.save m d = .error .unsupported := by
  unfold F86.save
  rw [if_pos hd]

/-- So is every image to which a sector track was added, whatever else it holds. -/
theorem C52_refused_sectors (d d' : Disk) (ch : Ch) (i : Nat) (h : d.addMeta ch = (d', .ok i)) (m : F86.Meta) :
    F86.save m d' = .error .unsupported := by
  apply C52_refused
  intro e
  have hs : d'.res.sect = true := by
    unfold Disk.addMeta at h
    split at h
    · cases h
    · split at h
      · cases h
      · injection h with h _
        subst h
        unfold Disk.pushTrack Disk.pushMap
        split <;> rfl
  rw [e] at hs
  cases hs

/-- **C52 is false of the code: extended density.** Every file saved from an image of extended density is refused by the
loader. -/
theorem C52_false_extended (d : Disk) (m : F86.Meta) (hx : m.density = .extended) (bs : List Byte)
    (hs : F86.save m d = .ok bs) (debug : Bool) (bitLen : Encoding → F86.Rate → F86.Rpm → Nat × Bool → Int → Nat)
    (rnd : Nat → Bool) (d0 : Disk) : F86.load debug bitLen rnd d0 bs = .error .unsupported := by
  unfold F86.save at hs
  split at hs
  · cases hs
  · rw [hx] at hs
    simp only [F86.densityFlag] at hs
    split at hs
    · cases hs
    · split at hs
      · cases hs
      · split at hs
        · cases hs
        · split at hs
          · cases hs
          · have hs := Except.ok.inj hs
            rw [← hs]
            unfold F86.load
            simp only [F86.le2, List.cons_append, List.nil_append]
            rw [if_pos]
            generalize hf : (if d.hasWeakBits = true then 1 else 0) = a
            generalize hg : (if d.geometry.h = 2 then 8 else 0) = b
            generalize hw : (if m.writeProtect = some true then 16 else 0) = c
            have ha : a = 0 ∨ a = 1 := by rw [← hf]; split <;> simp
            have hb : b = 0 ∨ b = 8 := by rw [← hg]; split <;> simp
            have hc : c = 0 ∨ c = 16 := by rw [← hw]; split <;> simp
            simp only [BitVec.toNat_ofNat]
            omega

/-- **C52 is false of the code: images without tracks.** A bitstream image of no cylinders saves, and loading the file
panics (in a build with overflow checks). -/
theorem C52_false_empty (bitLen : Encoding → F86.Rate → F86.Rpm → Nat × Bool → Int → Nat) (rnd : Nat → Bool) :
    ∃ bs, F86.save {} { res := { bit := true }, geometry := ⟨0, 2⟩ } = .ok bs ∧
      F86.load true bitLen rnd {} bs = .error .panic := by
  refine ⟨_, rfl, ?_⟩
  rfl

/-- **C52, finding.** The loader does not look at the file's name and version: any six bytes will do (in a build with
overflow checks; without them a table may also point into the name). -/
theorem C52_name_ignored (a b : List Byte) (ha : a.length = 6) (hb : b.length = 6) (f : List Byte)
    (bitLen : Encoding → F86.Rate → F86.Rpm → Nat × Bool → Int → Nat) (rnd : Nat → Bool) (d : Disk) :
    F86.load true bitLen rnd d (a ++ f) = F86.load true bitLen rnd d (b ++ f) :=
  load_name a b ha hb f bitLen rnd d

/-- **C52 (truncation).** If the last track of the image has an even number of bytes, no proper prefix of the saved file
loads.  (With an odd number the file may lose its last two bytes unnoticed.) -/
theorem C52_truncated (d : Disk) (hd : Savable86 d) (m : F86.Meta) (hm : Describable m) (debug : Bool)
    (bitLen : Encoding → F86.Rate → F86.Rpm → Nat × Bool → Int → Nat) (rnd : Nat → Bool) (d0 : Disk)
    (a : Ch) (cells : List Bool) (hl : cellsAt d ⟨d.geometry.c - 1, 1⟩ = some (a, cells))
    (heven : (cells.length + 7) / 8 % 2 = 0) :
    ∃ bs, F86.save m d = .ok bs ∧ ∀ n, n < bs.length → ∃ e, F86.load debug bitLen rnd d0 (bs.take n) = .error e := by
  have hD := hd.disk86
  refine ⟨_, save86 hm.meta86 hD, fun n hn => ?_⟩
  obtain ⟨E, hE⟩ := flat_last hD
  have hpos := hd.cyls.1
  obtain ⟨ch, t, h1, h2⟩ := hD.fits 1 (d.geometry.c - 1) (by omega) (by omega)
  have := (cellsAt_of (by omega) h1).1
  rw [hl] at this
  cases this
  refine load_cut hD hE ?_ debug bitLen rnd d0 n hn
  unfold ent86
  rw [h1]
  exact heven

/-- **C52.** Converting a two-sided PC sector image to 86F loses nothing but the cylinder numbers of images with fewer
than 80 cylinders: load any file of the format's size, apply any history of basic sector reads and writes, save as 86F
(with any descriptor the loader takes), load the 86F file, apply any further history.  The outcomes are those of the map
from positions and ids to the file's bytes, then those of that map with each cylinder in as many copies as the file has.
Hypothesis: the track hash does not collide on the image's own tracks. -/
theorem C52_sectors_survive (f : StdFormat) (hf : f.isPc = true) (h2 : f.layout.h = 2) (file : List Byte)
    (hl : file.length = f.diskSize) (H : List Byte → Nat) (nz : Noise) (ops ops' : List SectorOp)
    (m : F86.Meta) (hm : Describable m) (debug : Bool)
    (bitLen : Encoding → F86.Rate → F86.Rpm → Nat × Bool → Int → Nat) (rnd : Nat → Bool) :
    ∃ d0, Raw.loadImage nz file = .ok d0 ∧ (NoCollision H d0 → ∃ d bs d' m',
      Raw.load H nz file = .ok d ∧ F86.save m (afterOps d ops) = .ok bs ∧
      F86.load debug bitLen rnd {} bs = .ok (d', m') ∧
      basicRun d ops = DiskMap.run (imgDisk f.layout file) ops ∧
      basicRun d' ops' = DiskMap.run (fun ch => mapAfter (imgDisk f.layout file) ops
        ⟨ch.c / (if f.layout.c < 80 then 2 else 1), ch.h⟩) ops') := by
  obtain ⟨d0, h1, hx⟩ := load_spec' f hf nz H file hl
  refine ⟨d0, h1, fun hH => ?_⟩
  obtain ⟨d, k1, k2, k3, _, k5, _, _, k8, k9, k10⟩ := hx hH
  obtain ⟨d0', i1, _, i3⟩ := loadImage_spec f hf nz file hl
  rw [h1] at i1; cases i1
  have hsol := built_86 h2 i3 k3 k8 k9 k10 k5
  obtain ⟨_, p2⟩ := built_pri i3 k3 k8 k9 k10
  have hne : NonEmpty (imgDisk f.layout file) := by
    intro ch m hm
    unfold imgDisk at hm
    split at hm
    · cases hm
      unfold imgTrack
      have hs : 0 < f.layout.s := by cases f <;> decide
      intro e
      have := congrArg List.length e
      simp at this
      omega
    · cases hm
  obtain ⟨s1, s2⟩ := hsol.after ops
  obtain ⟨bs, d', q1, q2, q3, q4, q5, q6, _⟩ := f86_load hm.meta86 s1.base debug bitLen rnd
  have hrel := f86_rel s1.base s1.full (k2.after ops) (hne.after ops) (p2.after ops) q3 q4 q5 q6
  have hc : copies86 (afterOps d ops) = if f.layout.c < 80 then 2 else 1 := by
    unfold copies86
    rw [s2, k5]; rfl
  rw [hc] at hrel
  exact ⟨d, bs, d', _, k1, q1, q2, k2.run ops, hrel.run ops'⟩

/-- **C52 is false of the code: one-sided PC images.** A 160K or 180K sector image loads and can be used, but is refused by
the 86F writer whatever has been done to it. -/
theorem C52_false_pc_one_sided (f : StdFormat) (hf : f.isPc = true) (h1 : f.layout.h = 1) (file : List Byte)
    (hl : file.length = f.diskSize) (H : List Byte → Nat) (nz : Noise) (m : F86.Meta) :
    ∃ d0, Raw.loadImage nz file = .ok d0 ∧ (NoCollision H d0 → ∃ d, Raw.load H nz file = .ok d ∧
      F86.save m d = .error .unsupported) := by
  obtain ⟨d0, g1, hx⟩ := load_spec' f hf nz H file hl
  refine ⟨d0, g1, fun hH => ?_⟩
  obtain ⟨d, k1, k2, k3, _, k5, _, _, k8, k9, k10⟩ := hx hH
  obtain ⟨d0', i1, _, i3⟩ := loadImage_spec f hf nz file hl
  rw [g1] at i1; cases i1
  refine ⟨d, k1, C52_false_one_sided d m ?_ ?_⟩
  · rw [k5]; show 0 < f.layout.c; cases f <;> decide
  · show d.map1 = []
    rw [k9]; exact i3.map' 1 (by omega) (by omega)

/-- **C52 is false of the code: more than 256 cylinders.** An image with more cylinders than the table has slots is saved
without complaint; the loaded image has 256. -/
theorem C52_false_large (d : Disk) (hd : Held86 d) (hn : 256 < d.geometry.c) (m : F86.Meta) (hm : Describable m) (debug : Bool)
    (bitLen : Encoding → F86.Rate → F86.Rpm → Nat × Bool → Int → Nat) (rnd : Nat → Bool) :
    ∃ bs d' m', F86.save m d = .ok bs ∧ F86.load debug bitLen rnd {} bs = .ok (d', m') ∧ d'.geometry.c = 256 ∧
      (∀ ch : Ch, 256 ≤ ch.c → cellsAt d' ch = none) ∧ ∃ a cells, cellsAt d ⟨256, 0⟩ = some (a, cells) := by
  have h0 : d.map0.length = d.geometry.c := hd.full 0 (by omega)
  have h1 : d.map1.length = d.geometry.c := hd.full 1 (by omega)
  have hgeo : d.geometry = ⟨d.geometry.c, 2⟩ := by rw [← hd.sides]
  generalize hnc : d.geometry.c = n at hn h0 h1 hgeo
  have hD' : Disk86 { d with geometry := ⟨256, 2⟩ } := by
    refine ⟨hd.res, rfl, by show 256 ≤ d.map0.length; omega, by show 256 ≤ d.map1.length; omega, by show 0 < 256; omega,
      Nat.le_refl _, ?_⟩
    intro h c hh hc
    have hc : c < 256 := hc
    exact hd.fitAt hh (by omega)
  obtain ⟨bs, d', q1, q2, q3, q4, q5, q6, q7, q8⟩ := f86_load hm.meta86 hD' debug bitLen rnd
  have hcp : copies86 { d with geometry := ⟨256, 2⟩ } = 1 := by
    unfold copies86; rw [if_neg (show ¬ 256 < 80 by omega)]
  refine ⟨bs, d', _, ?_, q2, by rw [q8, hcp]; show 1 * 256 = 256; omega, ?_, ?_⟩
  · rw [← q1]
    have hloop : ∀ (sf db : Bool) (tf k c h copy pos : Nat), F86.saveLoop m sf db tf d k c h copy pos =
        F86.saveLoop m sf db tf { d with geometry := ⟨256, 2⟩ } k c h copy pos := by
      intro sf db tf k
      induction k with
      | zero => intros; rfl
      | succ k ih =>
        intro c h copy pos
        conv => lhs; unfold F86.saveLoop
        conv => rhs; unfold F86.saveLoop
        simp only [ih, hd.sides]
        rfl
    have hw : ({ d with geometry := ⟨256, 2⟩ } : Disk).hasWeakBits = d.hasWeakBits := rfl
    unfold F86.save
    simp only [hloop, hgeo, hw, h0, h1]
    simp only [Nat.lt_irrefl, or_self, if_false, show ¬ (n < 256) by omega, show ¬ n < 80 by omega, decide_false,
      Bool.false_eq_true, show ¬ (256 < 80) by omega, show min (256 * 2) (n * 2) = min (256 * 2) (256 * 2) by omega]
  · intro ch hc
    apply (cellsAt_none _).1
    intro hh
    rw [q4 ch.h ch.c hh, hcp, if_neg (by show ¬ ch.c < 1 * 256; omega)]
  · obtain ⟨a, t, k1, _⟩ := hd.fitAt (h := 0) (c := 256) (by omega) (by omega)
    exact ⟨_, _, (cellsAt_of (by omega) k1).1⟩

/-! ### Examples -/

/-- A two-sided image of `n` cylinders, each track 64 cells of which the third is weak. -/
def sample86 (n : Nat) : Disk where
  pool := (List.range (2 * n)).map fun i => .bit ⟨i / 2, i % 2⟩ { data := { bits := .ofBits (List.replicate 64 true), clockMap := .ofBits [], weakMask := .ofBits (false :: false :: true :: List.replicate 61 false) } }
  map0 := (List.range n).map fun c => 2 * c
  map1 := (List.range n).map fun c => 2 * c + 1
  res := { bit := true }
  geometry := ⟨n, 2⟩

theorem sample86_held (n : Nat) : Held86 (sample86 n) := by
  have hmap : ∀ a, a < 2 → (sample86 n).headMap a = (List.range n).map fun c => 2 * c + a := by
    intro a ha
    rcases (show a = 0 ∨ a = 1 by omega) with rfl | rfl <;> rfl
  have hget : ∀ (a c i : Nat), a < 2 → ((sample86 n).headMap a)[c]? = some i → i = 2 * c + a ∧ c < n := by
    intro a c i ha hi
    rw [hmap a ha, List.getElem?_map] at hi
    by_cases hc : c < n
    · rw [List.getElem?_range hc] at hi
      exact ⟨(Option.some.inj hi).symm, hc⟩
    · rw [List.getElem?_eq_none (by simpa using hc)] at hi; cases hi
  have hpool : ∀ i, i < 2 * n → (sample86 n).pool[i]? = some (.bit ⟨i / 2, i % 2⟩ { data := { bits := .ofBits (List.replicate 64 true), clockMap := .ofBits [], weakMask := .ofBits (false :: false :: true :: List.replicate 61 false) } }) := by
    intro i hi
    unfold sample86
    simp only
    rw [List.getElem?_map, List.getElem?_range hi]; rfl
  refine ⟨?_, rfl, rfl, ?_, ?_⟩
  · intro a c i ha hi
    obtain ⟨rfl, hc⟩ := hget a c i ha hi
    refine ⟨_, hpool _ (by omega), ?_⟩
    show (⟨(2 * c + a) / 2, (2 * c + a) % 2⟩ : Ch) = ⟨c, a⟩
    congr 1 <;> omega
  · intro a ha
    rw [hmap a ha]; simp [sample86]
  · intro ch x hh hx
    rw [track_eq _ hh] at hx
    have hx := Except.ok.inj hx
    obtain ⟨i, i1, i2⟩ := at?_headMap hx
    obtain ⟨rfl, hc⟩ := hget _ _ _ hh i1
    rw [hpool _ (by omega)] at i2
    have i2 := Option.some.inj i2
    exact ⟨_, _, i2.symm, by decide, by decide⟩

theorem sample86_savable (n : Nat) (h0 : 0 < n) (h : n ≤ 256) : Savable86 (sample86 n) := ⟨sample86_held n, h0, h⟩

/-- The hypotheses of the round trip are met: 80 cylinders with weak cells, high density. -/
example : Savable86 (sample86 80) ∧ 80 ≤ (sample86 80).geometry.c ∧
    Describable { density := .high, rate := .r500, encoding := .mfm, rpm := some .r300 } ∧
    ∃ a cells, cellsAt (sample86 80) ⟨79, 1⟩ = some (a, cells) ∧ (cells.length + 7) / 8 % 2 = 0 :=
  ⟨sample86_savable 80 (by decide) (by decide), by decide, ⟨.inr rfl, .inr (.inr (.inl rfl)), rfl⟩,
    _, _, rfl, by decide⟩

/-- And those of the doubled images. -/
example : Savable86 (sample86 40) ∧ (sample86 40).geometry.c < 80 :=
  ⟨sample86_savable 40 (by decide) (by decide), by decide⟩

/-- And those of the images that are too large. -/
example : Held86 (sample86 300) ∧ 256 < (sample86 300).geometry.c := ⟨sample86_held 300, by decide⟩

end Fox
