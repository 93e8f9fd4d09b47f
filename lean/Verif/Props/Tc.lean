import Verif.Proofs.Tc
import Verif.Props.Hxc
/-
C58: TransCopy images.
-/
namespace Fox
open Spec Tc

/-- A formatted track has no run of seven zeros, so no cell of it is taken to be weak. -/
theorem cells_not_weak {f : List Bool} {B : List Byte} {ms : List (S34.Marker × Nat)} {bnd : List Nat}
    (h : CellsOk f B ms bnd) : TcFile.weak f = solid f := by
  unfold TcFile.weak solid
  rw [List.eq_replicate_iff]
  refine ⟨by simp, ?_⟩
  intro b hb
  obtain ⟨i, hi, rfl⟩ := List.mem_map.1 hb
  rw [List.mem_range] at hi
  rw [decide_eq_false_iff_not]
  rintro ⟨h6, hz⟩
  have hlen := h.len
  have z : ∀ x, i - 6 ≤ x → x ≤ i → f.getD x false = false := by
    intro x h1 h2
    have := hz (i - x) (by rw [List.mem_range]; omega)
    rw [show i - (i - x) = x by omega, getD_eq_getElem' _ _ (by omega)] at this
    rw [getD_eq_getElem' _ _ (by omega)]
    exact this
  obtain ⟨p, hp1, hp2⟩ : ∃ p, 0 < p ∧ (2 * p = i - 6 + 2 ∨ 2 * p = i - 6 + 1) :=
    ⟨(i - 6 + 2) / 2, by omega, by omega⟩
  have d0 : dat B (p - 1) = false := by rw [← h.data _ (by omega)]; exact z _ (by omega) (by omega)
  have d1 : dat B p = false := by rw [← h.data _ (by omega)]; exact z _ (by omega) (by omega)
  have d2 : dat B (p + 1) = false := by rw [← h.data _ (by omega)]; exact z _ (by omega) (by omega)
  have k1 := h.clock p hp1 (by omega) (z _ (by omega) (by omega)) d0 d1
  have k2 := h.clock (p + 1) (by omega) (by omega) (z _ (by omega) (by omega)) d1 d2
  rcases k1 with ⟨m, o, j, m1, m2, m3⟩ | ⟨b, b1, b2⟩
  · rcases k2 with ⟨m', o', j', n1, n2, n3⟩ | ⟨b, b1, b2⟩
    · have hm : m = .iam := by
        apply Classical.byContradiction
        intro hm
        rw [if_neg hm] at m3
        split at n3 <;> omega
      subst hm
      rw [if_pos rfl] at m3
      have hm' : m' ≠ .iam := by rintro rfl; rw [if_pos rfl] at n3; omega
      rw [if_neg hm'] at n3
      have e1 := (h.mark _ _ m1).2 (16 * j + 3) (by omega)
      have e2 := (h.mark _ _ n1).2 (16 * j' + 3) (by omega)
      rw [show 16 * o + (16 * j + 3) = 16 * o' + (16 * j' + 3) by omega, e2] at e1
      rcases (show j = 0 ∨ j = 1 ∨ j = 2 by omega) with rfl | rfl | rfl <;>
        rcases (show j' = 0 ∨ j' = 1 ∨ j' = 2 by omega) with rfl | rfl | rfl <;>
        (cases m' <;> first | exact hm' rfl | (revert e1; decide))
    · split at m3 <;> omega
  · rcases k2 with ⟨m', o', j', n1, n2, n3⟩ | ⟨b, b1, b2⟩
    · split at n3 <;> omega
    · omega

theorem held_not_weak {d : Disk} {M : DiskMap} (hd : DiskRel true d M) {ch a : Ch} {cells : List Bool}
    (h : cellsAt d ch = some (a, cells)) : TcFile.weak cells = solid cells := by
  obtain ⟨hh, t, t1, t2⟩ := cellsAt_some h
  obtain ⟨i, i1, i2⟩ := at?_headMap t1
  obtain ⟨x, m, k1, k2, k3, k4⟩ := hd.held ch i hh i1
  rw [i2] at k1
  cases k1
  cases k3 with
  | @bit N ch t iam secs hr =>
    obtain ⟨B, hs⟩ := hr.ok.stream
    rw [← t2]
    exact cells_not_weak hs.cells

/-- **C58.** Which files are accepted: exactly the well-formed ones, and with trace messages on only those with two tracks or
more. -/
theorem C58_accepts (debug trace : Bool) (rnd : Nat → Bool) (f : List Byte) :
    (∃ r, Tc.load debug trace rnd {} f = .ok r) ↔ ∃ n, TcFile.WellFormed debug f n ∧ (trace = true → 2 ≤ n) :=
  ⟨fun ⟨_, h⟩ => wellFormed_of_ok h, fun ⟨_, h, ht⟩ => ⟨_, Tc.load_ok h trace ht rnd⟩⟩

theorem tc_ordered {debug : Bool} {f : List Byte} {n : Nat} (h : TcFile.WellFormed debug f n) :
    OrderedChs ((added f (n / 2 * 2)).map BitEntry.ch) := by
  have e : (added f (n / 2 * 2)).map BitEntry.ch =
      (List.range (n / 2 * 2 / TcFile.sides f * TcFile.sides f)).map fun i => (⟨i / TcFile.sides f, i % TcFile.sides f⟩ : Ch) := by
    have : n / 2 * 2 / TcFile.sides f * TcFile.sides f = n / 2 * 2 := by
      rcases h.sides with e | e <;> rw [e] <;> omega
    rw [this]
    unfold added
    rw [List.map_map]; rfl
  rw [e]
  exact divmod_ordered _ h.sides _

/-- **C58.** What a well-formed file with `n` tracks becomes: its tracks up to the last pair, sides alternating, with the cells
of the file, those weak that are a zero after six zeros; no others. -/
theorem C58_found (debug trace : Bool) (rnd : Nat → Bool) (f : List Byte) (n : Nat) (h : TcFile.WellFormed debug f n)
    (ht : trace = true → 2 ≤ n) :
    ∃ d i, Tc.load debug trace rnd {} f = .ok (d, i) ∧ HasCells d (TcFile.tracks f (n / 2 * 2)) ∧
      d.geometry = ⟨n / 2 * 2 / TcFile.sides f, TcFile.sides f⟩ := by
  refine ⟨_, _, Tc.load_ok h trace ht rnd, hasCells_geometry ?_, rfl⟩
  have := hasCells_addAll (rnd := rnd) (detect := true) (tc_ordered h) (Tc.added_good h)
  rw [Tc.added_cells h] at this
  exact this

/-- **C58 (partial).** Loading a well-formed file with an even number of tracks yields exactly these, at their places, with
their cells and weak cells.
Missing: an odd number of tracks, the last of which is lost (`C58_false_odd`). -/
theorem C58_load_partial (debug trace : Bool) (rnd : Nat → Bool) (f : List Byte) (n : Nat) (h : TcFile.WellFormed debug f n)
    (ht : trace = true → 2 ≤ n) (he : n % 2 = 0) :
    ∃ d i, Tc.load debug trace rnd {} f = .ok (d, i) ∧ HasCells d (TcFile.tracks f n) ∧
      d.geometry = ⟨n / TcFile.sides f, TcFile.sides f⟩ := by
  have := C58_found debug trace rnd f n h ht
  rw [show n / 2 * 2 = n by omega] at this
  exact this

/-- **C58.** Sectors survive: take any PC sector image, use it in any way, and describe the cells of the outcome in a TransCopy
file.  No cell is then mistaken for a weak one, and the loaded file answers every further history of sector reads and
writes as the image itself would have. -/
theorem C58_sectors (f : StdFormat) (hf : f.isPc = true) (file : List Byte) (hl : file.length = f.diskSize)
    (H : List Byte → Nat) (nz : Noise) (ops ops' : List SectorOp) (debug trace : Bool) (rnd : Nat → Bool) :
    ∃ d0, Raw.loadImage nz file = .ok d0 ∧ (NoCollision H d0 → ∃ d, Raw.load H nz file = .ok d ∧
      basicRun d ops = DiskMap.run (imgDisk f.layout file) ops ∧
      ∀ g n, TcFile.WellFormed debug g n → n % 2 = 0 → 0 < n → Describes (TcFile.tracks g n) (afterOps d ops) →
        ∃ d' i, Tc.load debug trace rnd {} g = .ok (d', i) ∧
          (∀ ch w, weakAt d' ch = some w → ∀ b ∈ w, b = false) ∧
          basicRun d' ops' = DiskMap.run (mapAfter (imgDisk f.layout file) ops) ops') := by
  obtain ⟨d0, h1, hx⟩ := pc_used f hf file hl H nz ops
  refine ⟨d0, h1, fun hH => ?_⟩
  obtain ⟨d, k1, k2, k3, k4, k5, k6⟩ := hx hH
  refine ⟨d, k1, k2, ?_⟩
  intro g n hg he hpos hD
  have hn : n / 2 * 2 = n := by omega
  have hweak : ∀ x ∈ TcFile.tracks g n, ∀ b ∈ x.2.2, b = false := by
    intro x hx b hb
    obtain ⟨a, ha⟩ := hD.2 x hx
    have hw := held_not_weak k3 ha
    obtain ⟨i, _, rfl⟩ := List.mem_map.1 hx
    replace hw : TcFile.weak (TcFile.cells g i) = solid (TcFile.cells g i) := hw
    replace hb : b ∈ TcFile.weak (TcFile.cells g i) := hb
    rw [hw] at hb
    exact List.eq_of_mem_replicate hb
  obtain ⟨d', i, l1, l2, _⟩ := C58_load_partial debug trace rnd g n hg (by omega) he
  refine ⟨d', i, l1, ?_, ?_⟩
  · intro ch w hw b hb
    by_cases hm : ∃ x ∈ TcFile.tracks g n, x.1 = ch
    · obtain ⟨⟨c, cells, weak⟩, hx, rfl⟩ := hm
      have := (l2.1 _ _ _ hx).2
      simp only at hw
      rw [this] at hw
      cases hw
      exact hweak _ hx b hb
    · exfalso
      have := l2.2 ch (fun x hx hc => hm ⟨x, hx, hc⟩)
      unfold weakAt at hw
      rcases ht : d'.track ch with e | o
      · rw [ht] at hw; cases hw
      · rcases o with _ | t
        · rw [ht] at hw; cases hw
        · exact this t ht
  · have e := Tc.load_ok hg trace (by omega) rnd
    rw [l1] at e
    cases e
    have hD' := hD
    have hw' := hweak
    rw [← hn, ← Tc.added_cells hg] at hD' hw'
    refine (rel_geometry (bits_rel' (rnd := rnd) k3 k4 (tc_ordered hg) (Tc.added_good hg) hD' ?_)).run ops'
    intro x hx b hb
    exact hw' _ (List.mem_map.2 ⟨x, hx, rfl⟩) b hb

/-- **C58.** Such files exist, for every PC format: for every image and every history there is a TransCopy file which, loaded,
answers as the image would have. -/
theorem C58_describable (f : StdFormat) (hf : f.isPc = true) (file : List Byte)
    (hl : file.length = f.diskSize) (H : List Byte → Nat) (nz : Noise) (ops : List SectorOp) :
    ∃ d0, Raw.loadImage nz file = .ok d0 ∧ (NoCollision H d0 → ∃ d g n, Raw.load H nz file = .ok d ∧
      TcFile.WellFormed true g n ∧ n % 2 = 0 ∧ 0 < n ∧ Describes (TcFile.tracks g n) (afterOps d ops)) := by
  obtain ⟨d0, h1, hx⟩ := pc_used f hf file hl H nz ops
  refine ⟨d0, h1, fun hH => ?_⟩
  obtain ⟨d, k1, k2, k3, k4, k5, k6⟩ := hx hH
  have hn : 16 * ((f.bitcellCt + 15) / 16) = 8 * (2 * ((f.bitcellCt + 15) / 16)) := by omega
  rw [hn] at k5
  have hS : f.layout.h = 1 ∨ f.layout.h = 2 := by cases f <;> decide
  have hS0 : 0 < f.layout.h := by omega
  obtain ⟨i1, i2, i3⟩ := Tc.image_spec (f.layout.c * f.layout.h) f.layout.h (2 * ((f.bitcellCt + 15) / 16))
    (cellsFn (afterOps d ops) (8 * (2 * ((f.bitcellCt + 15) / 16)))) (by cases f <;> decide) hS
    (by cases f <;> decide) (by cases f <;> decide) (by cases f <;> decide) (by cases f <;> decide)
    (by
      intro i hi
      unfold cellsFn
      have hH := Nat.mod_lt i hS0
      obtain ⟨ch, t, t1, t2⟩ := k5.at (h := i % f.layout.h) (c := i / f.layout.h) (by omega) hH
        (by rw [Nat.div_lt_iff_lt_mul hS0]; exact hi)
      rw [(cellsAt_of (by omega) t1).1]; exact t2)
  generalize hg : Tc.image (f.layout.c * f.layout.h) f.layout.h (2 * ((f.bitcellCt + 15) / 16))
    (cellsFn (afterOps d ops) (8 * (2 * ((f.bitcellCt + 15) / 16)))) = g at *
  refine ⟨d, g, f.layout.c * f.layout.h, k1, i1, by cases f <;> decide, by cases f <;> decide, ⟨?_, ?_⟩⟩
  · intro ch a cells hch
    obtain ⟨hh, t, t1, t2⟩ := cellsAt_some hch
    have hpos : ch.h < f.layout.h ∧ ch.c < f.layout.c := by
      apply Classical.byContradiction
      intro hno
      rw [k5.none hh hno] at t1
      cases t1
    have hi : ch.c * f.layout.h + ch.h < f.layout.c * f.layout.h := by
      have : (ch.c + 1) * f.layout.h ≤ f.layout.c * f.layout.h := Nat.mul_le_mul_right _ hpos.2
      rw [Nat.succ_mul] at this
      omega
    refine ⟨_, List.mem_map.2 ⟨ch.c * f.layout.h + ch.h, List.mem_range.2 hi, rfl⟩, ?_⟩
    have e1 : (ch.c * f.layout.h + ch.h) / f.layout.h = ch.c := by
      rw [Nat.mul_comm, Nat.mul_add_div hS0, Nat.div_eq_of_lt hpos.1, Nat.add_zero]
    have e2 : (ch.c * f.layout.h + ch.h) % f.layout.h = ch.h := by
      rw [Nat.mul_comm, Nat.mul_add_mod, Nat.mod_eq_of_lt hpos.1]
    show (⟨_, _⟩ : Ch) = ch
    rw [i2, e1, e2]
  · intro x hx
    obtain ⟨i, hi, rfl⟩ := List.mem_map.1 hx
    rw [List.mem_range] at hi
    have hH := Nat.mod_lt i hS0
    obtain ⟨a, t, t1, t2⟩ := k5.at (h := i % f.layout.h) (c := i / f.layout.h) (by omega) hH
      (by rw [Nat.div_lt_iff_lt_mul hS0]; exact hi)
    refine ⟨a, ?_⟩
    have e := (cellsAt_of (show i % f.layout.h < 2 by omega) t1).1
    show cellsAt (afterOps d ops) ⟨i / TcFile.sides g, i % TcFile.sides g⟩ = some (a, TcFile.cells g i)
    rw [i3 i hi, i2]
    unfold cellsFn
    rw [e]

/-! ### What is false -/

/-- **C58 is false of the code: odd numbers of tracks.** In every well-formed file with an odd number of tracks the last one
is lost, though all four tables give it. -/
theorem C58_false_odd (debug trace : Bool) (rnd : Nat → Bool) (f : List Byte) (n : Nat) (h : TcFile.WellFormed debug f n)
    (ht : trace = true → 2 ≤ n) (ho : n % 2 = 1) :
    ∃ d i, Tc.load debug trace rnd {} f = .ok (d, i) ∧
      ∀ t, d.track ⟨(n - 1) / TcFile.sides f, (n - 1) % TcFile.sides f⟩ ≠ .ok (some t) := by
  obtain ⟨d, i, h1, h2, _⟩ := C58_found debug trace rnd f n h ht
  refine ⟨d, i, h1, h2.2 _ ?_⟩
  intro x hx
  obtain ⟨k, hk, rfl⟩ := List.mem_map.1 hx
  rw [List.mem_range] at hk
  intro e
  have e1 : k / TcFile.sides f = (n - 1) / TcFile.sides f := congrArg Ch.c e
  have e2 : k % TcFile.sides f = (n - 1) % TcFile.sides f := congrArg Ch.h e
  have := Nat.div_add_mod k (TcFile.sides f)
  rw [e1, e2, Nat.div_add_mod] at this
  omega

/-- **C58 is false of the code: a size of 3333h.** A file with a track of 13107 bytes, among tracks whose other entries are in
use, is never loaded: the size is taken for the end of the table. -/
theorem C58_false_size (debug trace : Bool) (rnd : Nat → Bool) (f : List Byte) (i : Nat) (hi : i < 256)
    (hs : TcFile.size f i = 13107) (hu : ∀ j, j ≤ i → TcFile.skew f j ≠ 0x1111) :
    ¬ ∃ r, Tc.load debug trace rnd {} f = .ok r := by
  rw [C58_accepts]
  rintro ⟨n, hw, _⟩
  rcases Nat.lt_or_ge i n with h | h
  · exact (hw.count.2.1 i h).2.2.1 hs
  · exact hu n h (hw.count.2.2 (by omega)).1

/-- **C58 is false of the code: panics.** With trace messages on, a file without tracks makes the loader panic, where it is
loaded otherwise. -/
theorem C58_false_trace (debug : Bool) (rnd : Nat → Bool) (f : List Byte) (h : TcFile.WellFormed debug f 0) :
    Tc.load debug true rnd {} f = .error .panic ∧ ∃ r, Tc.load debug false rnd {} f = .ok r := by
  refine ⟨?_, (C58_accepts debug false rnd f).2 ⟨0, h, fun e => by cases e⟩⟩
  rw [Tc.load_pre debug true rnd {} f 0 ⟨h.long, h.header, h.type, h.first, h.step, h.count⟩]
  unfold Tc.loadTracks
  simp only [Nat.zero_div, Nat.zero_mul, List.take_zero, Tc.check]
  rfl

/-- **C58 is false of the code: the data rate.** A double-density disk read at 360 revolutions is said to be of 500 kbit/s, as
a high-density one. -/
theorem C58_false_rate (debug : Bool) (rnd : Nat → Bool) (f : List Byte) (n : Nat) (h : TcFile.WellFormed debug f n)
    (hr : TcFile.byte f 256 = 3) : ∃ d i, Tc.load debug false rnd {} f = .ok (d, i) ∧ i.rate = .r500 := by
  refine ⟨_, _, Tc.load_ok h false (fun e => by cases e) rnd, ?_⟩
  rw [hr]; rfl

/-- **C58.** The rate and the speed the disk type stands for, type 3 apart. -/
theorem C58_info (debug : Bool) (rnd : Nat → Bool) (f : List Byte) (n : Nat) (h : TcFile.WellFormed debug f n) :
    ∃ d i, Tc.load debug false rnd {} f = .ok (d, i) ∧ (TcFile.byte f 256 = 2 → i = ⟨.r500, .rpm300⟩) ∧
      (TcFile.byte f 256 = 7 ∨ TcFile.byte f 256 = 0xFF → i = ⟨.r250, .rpm300⟩) ∧
      (TcFile.byte f 256 = 3 → i.rpm = .rpm360) := by
  refine ⟨_, _, Tc.load_ok h false (fun e => by cases e) rnd, ?_, ?_, ?_⟩
  · intro e; rw [e]; rfl
  · rintro (e | e) <;> rw [e] <;> rfl
  · intro e; rw [e]; rfl

/-- Files as in the hypotheses exist, with any number of tracks. -/
example : TcFile.WellFormed true (Tc.image 0 1 4 fun _ _ => []) 0 ∧
    TcFile.WellFormed true (Tc.image 3 2 4 fun _ _ => List.replicate 32 true) 3 :=
  ⟨(Tc.image_spec 0 1 4 _ (by decide) (by decide) (by decide) (by decide) (by decide) (by decide)
      (fun i hi => by omega)).1,
    (Tc.image_spec 3 2 4 _ (by decide) (by decide) (by decide) (by decide) (by decide) (by decide)
      (fun i hi => by simp)).1⟩

/-- Tables as in `C58_false_size`. -/
example : TcFile.size (List.replicate 1285 0#8 ++ [0x33#8, 0x33#8]) 0 = 13107 ∧
    ∀ j, j ≤ 0 → TcFile.skew (List.replicate 1285 0#8 ++ [0x33#8, 0x33#8]) j ≠ 0x1111 := by decide +kernel

end Fox
