import Verif.Proofs.F86File
import Verif.Proofs.PriRound
/-
Sectors through 86F files.
-/
namespace Fox
open Spec OddEven S34

theorem packed_clear {L : List Bool} (h : L.any id = false) : ∀ b ∈ DiskTrack.packed L, b = 0#8 := by
  have hz : ∀ j, L.getD j false = false := by
    intro j
    rw [List.getD_eq_getElem?_getD]
    rcases hx : L[j]? with _ | x
    · rfl
    · have hm := List.mem_of_getElem? hx
      have := (List.any_eq_false.1 h) x hm
      simpa using this
  intro b hb
  unfold DiskTrack.packed at hb
  obtain ⟨i, _, rfl⟩ := List.mem_map.1 hb
  have : ((List.range 8).map fun k => L.getD (8 * i + k) false) = (List.range 8).map fun _ => false := by
    apply List.map_congr_left; intro k _; exact hz _
  rw [this]; decide

theorem weak86_clear {t : Track} (h : t.data.weakMask.bits.any id = false) : ∀ b ∈ weak86 t, b = 0#8 := by
  intro b hb
  unfold weak86 at hb
  rcases List.mem_append.1 hb with hb | hb
  · exact packed_clear h b hb
  · unfold pad86 at hb
    split at hb
    · simpa using hb
    · simp at hb

theorem orBytes_clear : ∀ a b : List Byte, (∀ x ∈ b, x = 0#8) → F86.orBytes a b = a
  | [], _, _ => by simp [F86.orBytes]
  | a :: as, [], _ => by simp [F86.orBytes]
  | a :: as, b :: bs, h => by
    unfold F86.orBytes
    rw [h b (by simp), orBytes_clear as bs fun x hx => h x (by simp [hx])]
    simp

theorem clearBytes_clear : ∀ a b : List Byte, (∀ x ∈ b, x = 0#8) → F86.clearBytes a b = a
  | [], _, _ => by simp [F86.clearBytes]
  | a :: as, [], _ => by simp [F86.clearBytes]
  | a :: as, b :: bs, h => by
    unfold F86.clearBytes
    rw [h b (by simp), clearBytes_clear as bs fun x hx => h x (by simp [hx])]
    congr 1
    have : ~~~(0#8) = BitVec.allOnes 8 := by decide
    rw [this, BitVec.and_allOnes]

theorem data86_solid (m : F86.Meta) (src : Ch) {t : Track} (h : t.data.weakMask.bits.any id = false) :
    data86 m src t = DiskTrack.packed t.data.bits.bits ++ pad86 t := by
  unfold data86
  split
  · rw [clearBytes_clear _ _ (weak86_clear h)]
  · rw [orBytes_clear _ _ (weak86_clear h)]

theorem zipAnd_clear : ∀ a b : List Byte, (∀ x ∈ a, x = 0#8) → ∀ x ∈ List.zipWith (· &&& ·) a b, x = 0#8
  | [], _, _ => by simp
  | a :: as, [], _ => by simp
  | a :: as, b :: bs, h => by
    intro x hx
    rw [List.zipWith_cons_cons] at hx
    rcases List.mem_cons.1 hx with rfl | hx
    · rw [h a (by simp)]; simp
    · exact zipAnd_clear as bs (fun x hx => h x (by simp [hx])) x hx

theorem mask86_solid (m : F86.Meta) (src : Ch) {t : Track} (h : t.data.weakMask.bits.any id = false) :
    (mask86 m src t).any (· ≠ 0#8) = false := by
  rw [List.any_eq_false]
  intro x hx
  unfold mask86 at hx
  simp only at hx
  have : x = 0#8 := by
    refine zipAnd_clear _ _ ?_ x hx
    intro y hy
    have hy := List.mem_of_mem_take hy
    rw [data86_solid m src h, List.append_assoc, List.drop_append_of_le_length (by rw [packed_length]),
      List.drop_of_length_le (by rw [packed_length]), List.nil_append] at hy
    rcases List.mem_append.1 hy with hy | hy
    · unfold pad86 at hy
      split at hy
      · simpa using hy
      · simp at hy
    · exact weak86_clear h y hy
  simp [this]

theorem load86_solid (m : F86.Meta) (rnd : Nat → Bool) (src : Ch) {t : Track} (h : t.data.weakMask.bits.any id = false) :
    load86 m rnd src t = Track.ofData rnd (DiskTrack.packed t.data.bits.bits) t.data.bits.bits.length := by
  unfold load86
  rw [mask86_solid m src h, if_neg (by simp), ofStream_none, data86_solid m src h,
    List.take_append_of_le_length (by rw [packed_length]), List.take_of_length_le (by rw [packed_length])]

theorem conv86_holds (mt : F86.Meta) {ch : Ch} {t : Track} {m : SectorMap} (h : Holds (.bit ch t) m) (hne : m ≠ [])
    (hw : WeakFree (.bit ch t)) (rnd : Nat → Bool) (dst src : Ch) :
    Holds (conv86 mt rnd dst (src, t)) m ∧ ∃ c t', conv86 mt rnd dst (src, t) = .bit c t' := by
  cases h with
  | @bit N ch t iam secs hr =>
    have hms : marksOf iam secs ≠ [] := by
      intro e
      apply hne
      cases secs with
      | nil => rfl
      | cons s secs =>
        exfalso
        unfold marksOf at e
        simp at e
    obtain ⟨t', o1, o2⟩ := ofData_trackOk hr.ok hms rnd
    rw [map_rescanned hr.clean] at o2
    obtain ⟨t'', p1, p2, p3⟩ := ofData_cells rnd t.data.bits.bits
    rw [o1] at p1; cases p1
    replace hw : t.data.weakMask.bits.any id = false := hw
    have : conv86 mt rnd dst (src, t) = .bit dst t' := by
      unfold conv86
      simp only [load86_solid mt rnd src hw, o1]
    rw [this]
    refine ⟨Holds.bit (N := N) ⟨o2, hr.clean, ?_⟩, _, _, rfl⟩
    have hlen : t'.data.len = t.data.len := by
      unfold Mfm.len; rw [p2]; rfl
    rw [hlen]; exact hr.len

/-- Positions of distinct list entries are distinct. -/
theorem apart_of_nodup {d' : Disk} (hn : (d'.map0 ++ d'.map1).Nodup) (a b : Ch) (i : Nat) (ha : a.h < 2) (hb' : b.h < 2)
    (hia : (d'.headMap a.h)[a.c]? = some i) (hib : (d'.headMap b.h)[b.c]? = some i) : a = b := by
  have key : ∀ (l1 l2 : List Nat), (l1 ++ l2).Nodup → ∀ (c c' i : Nat), l1[c]? = some i → l2[c']? = some i → False := by
    intro l1 l2 hnd c c' i h1 h2
    have := (List.nodup_append.1 hnd).2.2 i (List.mem_of_getElem? h1) i (List.mem_of_getElem? h2)
    exact this rfl
  have inj : ∀ (l : List Nat), l.Nodup → ∀ (c c' i : Nat), l[c]? = some i → l[c']? = some i → c = c' := by
    intro l hnd c c' i h1 h2
    obtain ⟨q1, q2⟩ := List.getElem?_eq_some_iff.1 h1
    obtain ⟨q3, q4⟩ := List.getElem?_eq_some_iff.1 h2
    have hpw := List.pairwise_iff_getElem.1 hnd
    rcases Nat.lt_trichotomy c c' with h | h | h
    · exact absurd (q2.trans q4.symm) (hpw c c' q1 q3 h)
    · exact h
    · exact absurd (q4.trans q2.symm) (hpw c' c q3 q1 h)
  have n0 := (List.nodup_append.1 hn).1
  have n1 := (List.nodup_append.1 hn).2.1
  obtain ⟨ac, ah⟩ := a
  obtain ⟨bc, bh⟩ := b
  rcases (show ah = 0 ∨ ah = 1 by have : ah < 2 := ha; omega) with rfl | rfl <;>
    rcases (show bh = 0 ∨ bh = 1 by have : bh < 2 := hb'; omega) with rfl | rfl
  · have e := inj d'.map0 n0 ac bc i hia hib; rw [e]
  · exact (key _ _ hn _ _ _ hia hib).elim
  · exact (key _ _ hn _ _ _ hib hia).elim
  · have e := inj d'.map1 n1 ac bc i hia hib; rw [e]

/-- The sectors of a disk survive saving and loading, at the cylinders the file gives them. -/
theorem f86_rel {mt : F86.Meta} {d : Disk} {M : DiskMap} (hd : Disk86 d)
    (hdl : ∀ h, h < 2 → (d.headMap h).length = d.geometry.c) (hM : DiskRel true d M)
    (hne : ∀ ch m, M ch = some m → m ≠ []) (hw : AllSolid d)
    {rnd : Nat → Bool} {d' : Disk} (hb : Bounded d')
    (h4 : ∀ h c, h < 2 → at? d' h c = if c < copies86 d * d.geometry.c then
      some (conv86 mt rnd ⟨c, h⟩ (ent86 d h (c / copies86 d))) else none)
    (hl : ∀ h, h < 2 → (d'.headMap h).length = copies86 d * d.geometry.c) (hn : (d'.map0 ++ d'.map1).Nodup) :
    DiskRel true d' (fun ch => M ⟨ch.c / copies86 d, ch.h⟩) := by
  have hcp : 0 < copies86 d := by unfold copies86; split <;> omega
  refine ⟨fun ch hh => hM.bad _ hh, ?_, ?_, fun a b i ha hb' => apart_of_nodup hn a b i ha hb'⟩
  · intro ch hh hg
    apply hM.gone ⟨ch.c / copies86 d, ch.h⟩ hh
    rw [List.getElem?_eq_none_iff] at hg ⊢
    rw [hl ch.h hh] at hg
    show (d.headMap ch.h).length ≤ ch.c / copies86 d
    rw [hdl ch.h hh, Nat.le_div_iff_mul_le hcp, Nat.mul_comm]; exact hg
  · intro ch i hh hi
    have hc : ch.c < copies86 d * d.geometry.c := by
      rw [← hl ch.h hh]; exact (List.getElem?_eq_some_iff.1 hi).1
    obtain ⟨y, y1, y2⟩ := side_some hb hh hi
    rw [side_get d' hb hh, h4 ch.h ch.c hh, if_pos hc] at y2
    have hlt : ch.c / copies86 d < d.geometry.c := Nat.div_lt_of_lt_mul hc
    obtain ⟨a, t, a1, a2⟩ := hd.fits ch.h _ hh hlt
    have hent : ent86 d ch.h (ch.c / copies86 d) = (⟨ch.c / copies86 d, ch.h⟩, t) := by
      unfold ent86; rw [a1]
    rw [hent] at y2
    obtain ⟨j, j1, j2⟩ := at?_headMap a1
    obtain ⟨x, m, k1, k2, k3, k4⟩ := hM.held ⟨ch.c / copies86 d, ch.h⟩ j hh j1
    rw [j2] at k1
    cases k1
    obtain ⟨p1, p2⟩ := conv86_holds mt k3 (hne _ _ k2) (hw _ _ _ hh a1) rnd ⟨ch.c, ch.h⟩ ⟨ch.c / copies86 d, ch.h⟩
    have e := Option.some.inj y2
    rw [e] at p1 p2
    exact ⟨y, m, y1, k2, p1, fun _ => p2⟩

/-! ### Histories -/

theorem fit86_write {x x' : DiskTrack} {q : Query} {o : Option Nat} {buf : List Byte} {del dbg : Bool}
    {r : WriteResult} (hx : ∃ ch t, x = .bit ch t ∧ Fit86 t) (h : x.writeSector q o buf del dbg = .ok (r, x')) :
    ∃ ch t, x' = .bit ch t ∧ Fit86 t := by
  obtain ⟨ch, t, rfl, hf⟩ := hx
  unfold DiskTrack.writeSector at h
  simp only at h
  rcases hr : t.writeSector q o buf del dbg with e | ⟨r', t'⟩
  · rw [hr] at h; cases h
  · rw [hr] at h
    cases h
    obtain ⟨k1, k2⟩ := writeSector_keeps hr
    exact ⟨ch, t', rfl, ⟨by rw [k1]; exact hf.cells, by rw [k1, k2]; exact hf.mask⟩⟩

/-- An 86F image whose positions all hold tracks. -/
structure Solid86 (d : Disk) : Prop where
  base : Disk86 d
  bnd : Bounded d
  full : ∀ h, h < 2 → (d.headMap h).length = d.geometry.c
  all : ∀ h c x, h < 2 → at? d h c = some x → ∃ ch t, x = .bit ch t ∧ Fit86 t

theorem Solid86.step {d : Disk} (hd : Solid86 d) (op : SectorOp) :
    Solid86 (basicStep d op).1 ∧ (basicStep d op).1.geometry = d.geometry := by
  cases op with
  | read nz ch q => exact ⟨hd, rfl⟩
  | write ch q buf =>
    have hfit := writeBasic_fits (fun x => ∃ ch t, x = .bit ch t ∧ Fit86 t) ch q none buf
      (fun x x' r hx hw => fit86_write hx hw) hd.all
    show Solid86 (d.writeBasic ch q none buf).1 ∧ (d.writeBasic ch q none buf).1.geometry = d.geometry
    rcases writeBasic_cases (d := d) ch q none buf with e | ⟨i, t, r, t', hh, hm, hp, hw, e⟩
    · rw [e]; exact ⟨hd, rfl⟩
    · rw [e] at hfit ⊢
      have hb : Bounded { d with pool := d.pool.set i t' } := by
        intro h hh' k hk
        have := hd.bnd h hh' k hk
        show k < (d.pool.set i t').length
        rw [List.length_set]; exact this
      refine ⟨⟨⟨hd.base.res, hd.base.sides, hd.base.len0, hd.base.len1, hd.base.pos, hd.base.small, ?_⟩, hb, hd.full, hfit⟩, rfl⟩
      intro h c hh' hc
      have hc : c < d.geometry.c := hc
      have hlen : c < (({ d with pool := d.pool.set i t' } : Disk).headMap h).length := by
        show c < (d.headMap h).length
        rcases (show h = 0 ∨ h = 1 by omega) with rfl | rfl
        · have := hd.base.len0; show c < d.map0.length; omega
        · have := hd.base.len1; show c < d.map1.length; omega
      obtain ⟨x, x1, x2⟩ := side_some hb hh' (List.getElem?_eq_getElem hlen)
      rw [side_get _ hb hh'] at x2
      obtain ⟨ch', t'', rfl, f⟩ := hfit h c x hh' x2
      exact ⟨ch', t'', x2, f⟩

theorem Solid86.after : ∀ (ops : List SectorOp) {d : Disk}, Solid86 d →
    Solid86 (afterOps d ops) ∧ (afterOps d ops).geometry = d.geometry
  | [], _, h => ⟨h, rfl⟩
  | op :: ops, _, h => by
    obtain ⟨h1, h2⟩ := h.step op
    obtain ⟨h3, h4⟩ := Solid86.after ops h1
    exact ⟨h3, h4.trans h2⟩

/-- A disk loaded from a two-sided PC sector image fits the 86F format. -/
theorem built_86 {f : StdFormat} {file : List Byte} {d0 d : Disk} (h2 : f.layout.h = 2)
    (h : Built f.layout (LoadedBit f file) (ResSet.insert {} .bitStream) (f.layout.c * f.layout.h) d0)
    (hp : d.pool = d0.pool) (h0 : d.map0 = d0.map0) (h1 : d.map1 = d0.map1) (hr : d.res = d0.res)
    (hgeo : d.geometry = f.layout.ch) : Solid86 d := by
  have hg : f.layout.h = 1 ∨ f.layout.h = 2 := .inr h2
  have hc : 0 < f.layout.c ∧ f.layout.c ≤ 80 := by cases f <;> decide
  have hcell : (f.bitcellCt + 15) / 16 < 60000 := by cases f <;> decide
  have hmap : ∀ a, d.headMap a = d0.headMap a := by
    intro a; unfold Disk.headMap; rw [h0, h1]
  have hml : ∀ a, a < 2 → d.headMap a = (List.range f.layout.c).map fun c => c * f.layout.h + a := by
    intro a ha; rw [hmap, h.headLen hg a (by omega)]
  have hget : ∀ (a c i : Nat), a < 2 → (d.headMap a)[c]? = some i →
      ∃ x, d.pool[i]? = some x ∧ LoadedBit f file i x := by
    intro a c i ha hi
    rw [hml a ha, List.getElem?_map] at hi
    by_cases hcc : c < f.layout.c
    · rw [List.getElem?_range hcc] at hi
      have hi : some (c * f.layout.h + a) = some i := hi
      cases hi
      have hj : c * f.layout.h + a < f.layout.c * f.layout.h := by
        have : (c + 1) * f.layout.h ≤ f.layout.c * f.layout.h := Nat.mul_le_mul_right _ hcc
        rw [Nat.succ_mul] at this; omega
      obtain ⟨x, x1, x2⟩ := h.tracks _ hj
      exact ⟨x, by rw [hp]; exact x1, x2⟩
    · rw [List.getElem?_eq_none (by simpa using hcc)] at hi; cases hi
  have hbnd : Bounded d := by
    intro a ha i hi
    obtain ⟨c, hc'⟩ := List.getElem?_of_mem hi
    obtain ⟨x, x1, _⟩ := hget a c i ha hc'
    exact (List.getElem?_eq_some_iff.1 x1).1
  have hall : ∀ a c x, a < 2 → at? d a c = some x → ∃ ch t, x = .bit ch t ∧ Fit86 t := by
    intro a c x ha hx
    obtain ⟨i, i1, i2⟩ := at?_headMap hx
    obtain ⟨y, y1, ⟨t, rfl, t2, t3, t4⟩⟩ := hget a c i ha i1
    rw [i2] at y1; cases y1
    have hl := t2.len
    have : t.data.bits.bits.length = t.data.len := rfl
    exact ⟨_, t, rfl, ⟨by omega, t4⟩⟩
  have hlen : ∀ a, a < 2 → (d.headMap a).length = f.layout.c := by
    intro a ha; rw [hml a ha]; simp
  have hgc : d.geometry.c = f.layout.c := by rw [hgeo]; rfl
  have hgh : d.geometry.h = 2 := by rw [hgeo]; exact h2
  refine ⟨⟨by rw [hr, h.res]; rfl, hgh, ?_, ?_, by omega, by omega, ?_⟩, hbnd, fun a ha => by rw [hgc]; exact hlen a ha, hall⟩
  · rw [hgc]; exact Nat.le_of_eq (hlen 0 (by omega)).symm
  · rw [hgc]; exact Nat.le_of_eq (hlen 1 (by omega)).symm
  · intro a c ha hc'
    have hlt : c < (d.headMap a).length := by rw [hlen a ha, ← hgc]; exact hc'
    obtain ⟨x, x1, x2⟩ := side_some hbnd ha (List.getElem?_eq_getElem hlt)
    rw [side_get _ hbnd ha] at x2
    obtain ⟨ch', t'', rfl, f⟩ := hall a c x ha x2
    exact ⟨ch', t'', x2, f⟩

end Fox
