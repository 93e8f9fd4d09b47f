import Verif.Proofs.BitLoad
import Verif.Props.F86
/-
Disks whose tracks all lie at the places of a geometry and have the same number of cells, and files that describe them.
-/
namespace Fox
open Spec

/-- `C` cylinders, `H` sides, tracks of `N` cells. -/
structure Uniform (d : Disk) (C H N : Nat) : Prop where
  bnd : Bounded d
  map : ∀ h, h < 2 → (d.headMap h).length = if h < H then C else 0
  all : ∀ h c x, h < 2 → at? d h c = some x → ∃ ch t, x = .bit ch t ∧ t.data.bits.bits.length = N

theorem Uniform.step {d : Disk} {C H N : Nat} (hd : Uniform d C H N) (op : SectorOp) : Uniform (basicStep d op).1 C H N := by
  cases op with
  | read nz ch q => exact hd
  | write ch q buf =>
    have hfit := writeBasic_fits (fun x => ∃ ch t, x = .bit ch t ∧ t.data.bits.bits.length = N) ch q none buf
      (fun x x' r hx hw => by
        obtain ⟨ch, t, rfl, hf⟩ := hx
        unfold DiskTrack.writeSector at hw
        simp only at hw
        rcases hr : t.writeSector q none buf false false with e | ⟨r', t'⟩
        · rw [hr] at hw; cases hw
        · rw [hr] at hw
          cases hw
          exact ⟨ch, t', rfl, by rw [(writeSector_keeps hr).1, hf]⟩) hd.all
    show Uniform (d.writeBasic ch q none buf).1 C H N
    rcases writeBasic_cases (d := d) ch q none buf with e | ⟨i, t, r, t', hh, hm, hp, hw, e⟩
    · rw [e]; exact hd
    · rw [e] at hfit ⊢
      refine ⟨?_, hd.map, hfit⟩
      intro h hh' k hk
      have := hd.bnd h hh' k hk
      show k < (d.pool.set i t').length
      rw [List.length_set]; exact this

theorem Uniform.after {C H N : Nat} : ∀ (ops : List SectorOp) {d : Disk}, Uniform d C H N → Uniform (afterOps d ops) C H N
  | [], _, h => h
  | op :: ops, _, h => Uniform.after ops (h.step op)

/-- The track at a place of the geometry. -/
theorem Uniform.at {d : Disk} {C H N : Nat} (hd : Uniform d C H N) {h c : Nat} (hh : h < 2) (hH : h < H) (hc : c < C) :
    ∃ ch t, at? d h c = some (.bit ch t) ∧ t.data.bits.bits.length = N := by
  have hlen := hd.map h hh
  rw [if_pos hH] at hlen
  obtain ⟨x, x1, x2⟩ := side_some hd.bnd hh (List.getElem?_eq_getElem (l := d.headMap h) (i := c) (by omega))
  rw [side_get _ hd.bnd hh] at x2
  obtain ⟨ch, t, rfl, f⟩ := hd.all h c x hh x2
  exact ⟨ch, t, x2, f⟩

theorem Uniform.none {d : Disk} {C H N : Nat} (hd : Uniform d C H N) {h c : Nat} (hh : h < 2) (hn : ¬ (h < H ∧ c < C)) :
    at? d h c = .none := by
  apply at?_none
  rw [hd.map h hh]
  split <;> omega

/-- A disk loaded from a PC sector image. -/
theorem built_uniform {f : StdFormat} {file : List Byte} {d0 d : Disk}
    (h : Built f.layout (LoadedBit f file) (ResSet.insert {} .bitStream) (f.layout.c * f.layout.h) d0)
    (hp : d.pool = d0.pool) (h0 : d.map0 = d0.map0) (h1 : d.map1 = d0.map1) :
    Uniform d f.layout.c f.layout.h (16 * ((f.bitcellCt + 15) / 16)) := by
  have hg : f.layout.h = 1 ∨ f.layout.h = 2 := by cases f <;> decide
  have hmap : ∀ a, d.headMap a = d0.headMap a := by
    intro a; unfold Disk.headMap; rw [h0, h1]
  have hget : ∀ (a c i : Nat), a < 2 → (d.headMap a)[c]? = some i →
      ∃ x, d.pool[i]? = some x ∧ LoadedBit f file i x := by
    intro a c i ha hi
    rw [hmap] at hi
    by_cases hlt : a < f.layout.h
    · rw [h.headLen hg a hlt, List.getElem?_map] at hi
      by_cases hcc : c < f.layout.c
      · rw [List.getElem?_range hcc] at hi
        have hi : some (c * f.layout.h + a) = some i := hi
        cases hi
        have hj : c * f.layout.h + a < f.layout.c * f.layout.h := by
          have : (c + 1) * f.layout.h ≤ f.layout.c * f.layout.h := Nat.mul_le_mul_right _ hcc
          rw [Nat.succ_mul] at this; omega
        obtain ⟨x, x1, x2⟩ := h.tracks _ hj
        exact ⟨x, by rw [hp]; exact x1, x2⟩
      · rw [List.getElem?_eq_none (by simpa using hcc)] at hi; cases hi
    · rw [h.map' a ha (by omega)] at hi; simp at hi
  refine ⟨?_, ?_, ?_⟩
  · intro a ha i hi
    obtain ⟨c, hc'⟩ := List.getElem?_of_mem hi
    obtain ⟨x, x1, _⟩ := hget a c i ha hc'
    exact (List.getElem?_eq_some_iff.1 x1).1
  · intro a ha
    rw [hmap]
    by_cases hlt : a < f.layout.h
    · rw [h.headLen hg a hlt, if_pos hlt]; simp
    · rw [h.map' a ha (by omega), if_neg hlt]; rfl
  · intro a c x ha hx
    obtain ⟨i, i1, i2⟩ := at?_headMap hx
    obtain ⟨y, y1, ⟨t, rfl, t2, t3, t4⟩⟩ := hget a c i ha i1
    rw [i2] at y1; cases y1
    obtain ⟨B, hs⟩ := t2.ok.stream
    have e1 := hs.cells.len
    have e2 : (t.data.bits.bits.length + 15) / 16 = (f.bitcellCt + 15) / 16 := t2.len
    exact ⟨_, t, rfl, by omega⟩

theorem imgDisk_nonempty (f : StdFormat) (file : List Byte) : NonEmpty (imgDisk f.layout file) := by
  intro ch m hm
  unfold imgDisk at hm
  split at hm
  · cases hm
    unfold imgTrack
    have hs : 0 < f.layout.s := by cases f <;> decide
    intro e
    have := congrArg List.length e
    simp at this
    omega
  · cases hm

/-- A PC sector image, loaded and used. -/
theorem pc_used (f : StdFormat) (hf : f.isPc = true) (file : List Byte) (hl : file.length = f.diskSize) (H : List Byte → Nat)
    (nz : Noise) (ops : List SectorOp) :
    ∃ d0, Raw.loadImage nz file = .ok d0 ∧ (NoCollision H d0 → ∃ d, Raw.load H nz file = .ok d ∧
      basicRun d ops = DiskMap.run (imgDisk f.layout file) ops ∧
      DiskRel true (afterOps d ops) (mapAfter (imgDisk f.layout file) ops) ∧
      NonEmpty (mapAfter (imgDisk f.layout file) ops) ∧
      Uniform (afterOps d ops) f.layout.c f.layout.h (16 * ((f.bitcellCt + 15) / 16)) ∧ AllSolid (afterOps d ops)) := by
  obtain ⟨d0, h1, hx⟩ := load_spec' f hf nz H file hl
  refine ⟨d0, h1, fun hH => ?_⟩
  obtain ⟨d, k1, k2, k3, _, k5, _, _, k8, k9, k10⟩ := hx hH
  obtain ⟨d0', i1, _, i3⟩ := loadImage_spec f hf nz file hl
  rw [h1] at i1; cases i1
  obtain ⟨_, p2⟩ := built_pri i3 k3 k8 k9 k10
  exact ⟨d, k1, k2.run ops, k2.after ops, (imgDisk_nonempty f file).after ops,
    (built_uniform i3 k3 k8 k9).after ops, p2.after ops⟩

theorem cellsAt_some {d : Disk} {ch a : Ch} {cells : List Bool} (h : cellsAt d ch = some (a, cells)) :
    ch.h < 2 ∧ ∃ t, at? d ch.h ch.c = some (.bit a t) ∧ t.data.bits.bits = cells := by
  unfold cellsAt Disk.track at h
  by_cases hh : ch.h ≥ 2
  · rw [if_pos hh] at h; cases h
  · rw [if_neg hh] at h
    refine ⟨by omega, ?_⟩
    unfold at?
    rcases hx : ((d.headMap ch.h)[ch.c]?.bind fun i => d.pool[i]?) with _ | x
    · rw [hx] at h; cases h
    · rw [hx] at h
      cases x <;> simp only [Option.some.injEq, Prod.mk.injEq] at h
      · obtain ⟨rfl, rfl⟩ := h
        exact ⟨_, rfl, rfl⟩
      all_goals cases h

theorem bits_rel' {debug : Bool} {rnd : Nat → Bool} {detect : Bool} {d : Disk} {M : DiskMap} (hM : DiskRel true d M)
    (hne : ∀ ch m, M ch = some m → m ≠ []) {xs : List BitEntry} (ho : OrderedChs (xs.map BitEntry.ch))
    (hg : ∀ x ∈ xs, x.Good debug)
    (hD : Describes (xs.map fun x => (x.ch, cellsOf x.data x.cells, maskOf detect (cellsOf x.data x.cells))) d)
    (hm : ∀ x ∈ xs, ∀ b ∈ maskOf detect (cellsOf x.data x.cells), b = false) :
    DiskRel true (pushAll {} (xs.map (·.made debug rnd detect))) M := by
  apply bits_rel hM hne ho hg
  · intro ch c t h hh
    have : cellsAt d ch = some (c, t.data.bits.bits) := by
      unfold cellsAt Disk.track
      rw [if_neg (by omega)]
      unfold at? at h
      rw [h]
    obtain ⟨x, hx, he⟩ := hD.1 _ _ _ this
    obtain ⟨y, hy, rfl⟩ := List.mem_map.1 hx
    exact ⟨y, hy, he⟩
  · intro x hx
    obtain ⟨a, ha⟩ := hD.2 _ (List.mem_map_of_mem hx)
    obtain ⟨_, t, t1, t2⟩ := cellsAt_some ha
    exact ⟨a, t, t1, t2.symm, hm x hx⟩

/-- Whatever the order of the tracks, each is found at the next free place of its side. -/
theorem cells_by_order {debug : Bool} {rnd : Nat → Bool} {detect : Bool} {xs : List BitEntry} (hg : ∀ x ∈ xs, x.Good debug)
    {h : Nat} (hh : h < 2) (c : Nat) :
    cellsAt (pushAll {} (xs.map (·.made debug rnd detect))) ⟨c, h⟩ =
      ((xs.filter fun x => x.ch.h = h)[c]?).map (fun x => (x.ch, cellsOf x.data x.cells)) ∧
    weakAt (pushAll {} (xs.map (·.made debug rnd detect))) ⟨c, h⟩ =
      ((xs.filter fun x => x.ch.h = h)[c]?).map (fun x => maskOf detect (cellsOf x.data x.cells)) := by
  obtain ⟨h1, h2, _, _⟩ := pushAll_spec (xs.map (·.made debug rnd detect)) {} empty_bounded (by
    intro x hx
    obtain ⟨y, hy, rfl⟩ := List.mem_map.1 hx
    rw [BitEntry.made_ch]; exact (hg y hy).1)
  have hs : at? (pushAll {} (xs.map (·.made debug rnd detect))) h c =
      ((xs.filter fun x => x.ch.h = h)[c]?).map (·.made debug rnd detect) := by
    rw [← side_get _ h1 hh, h2 _ hh, empty_side, List.nil_append, List.filter_map, List.getElem?_map]
    congr 3
    funext x
    simp only [Function.comp, BitEntry.made_ch]
  generalize hx : (xs.filter fun x => x.ch.h = h)[c]? = o at hs ⊢
  cases o with
  | none => exact cellsAt_none (ch := ⟨c, h⟩) fun _ => hs
  | some x =>
    have hm : x ∈ xs := (List.mem_filter.1 (List.mem_of_getElem? hx)).1
    obtain ⟨t, t1, t2, t3, t4⟩ := (hg x hm).made rnd detect
    rw [Option.map_some, t2] at hs
    obtain ⟨k1, k2⟩ := cellsAt_of hh hs
    rw [k1, k2, t3, t4]
    exact ⟨rfl, rfl⟩

end Fox
