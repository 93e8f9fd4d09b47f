import Verif.Proofs.PriDisk
import Verif.Proofs.RawRound
/-
A PRI file carries the sectors of a disk.
-/
namespace Fox
open Spec OddEven S34 Pce

theorem setMany_len (bs : List Bool) : ∀ (r : BitRing) (off : Nat), (r.setMany off bs).bits.length = r.bits.length := by
  induction bs with
  | nil => intro r off; rfl
  | cons b bs ih =>
    intro r off
    show ((r.set off b).setMany (off + 1) bs).bits.length = _
    rw [ih]
    unfold BitRing.set
    split <;> simp

theorem encodeElement_keeps (s : Mfm) (x : Inst) (buf : List Byte) :
    (encodeElement s x buf).1.bits.bits.length = s.bits.bits.length ∧ (encodeElement s x buf).1.weakMask = s.weakMask := by
  unfold encodeElement
  split
  · exact ⟨rfl, rfl⟩
  · simp only [Mfm.writeEncodedBuf, setMany_len, and_self]
  · simp only [Mfm.writeEncodedBuf, setMany_len, and_self]

theorem writeSector_keeps {t : Track} {q : Query} {o : Option Nat} {buf : List Byte} {del dbg : Bool}
    {r : WriteResult} {t' : Track} (h : t.writeSector q o buf del dbg = .ok (r, t')) :
    t'.data.bits.bits.length = t.data.bits.bits.length ∧ t'.data.weakMask = t.data.weakMask := by
  unfold Track.writeSector at h
  split at h
  · cases h
  · split at h
    · cases h; exact ⟨rfl, rfl⟩
    · split at h
      · cases h; exact ⟨rfl, rfl⟩
      · simp only at h
        split at h
        · cases h; exact ⟨rfl, rfl⟩
        · split at h
          · cases h
          · split at h
            · cases h
            · split at h
              · cases h
              · cases h
                exact encodeElement_keeps _ _ _

theorem PriTrack.write {x x' : DiskTrack} {q : Query} {o : Option Nat} {buf : List Byte} {del dbg : Bool}
    {r : WriteResult} (hx : PriTrack x) (h : x.writeSector q o buf del dbg = .ok (r, x')) :
    PriTrack x' ∧ x'.ch = x.ch := by
  obtain ⟨ch, t, rfl, hc, hh, hl, hw⟩ := hx
  unfold DiskTrack.writeSector at h
  simp only at h
  rcases hr : t.writeSector q o buf del dbg with e | ⟨r', t'⟩
  · rw [hr] at h; cases h
  · rw [hr] at h
    cases h
    obtain ⟨k1, k2⟩ := writeSector_keeps hr
    exact ⟨⟨ch, t', rfl, hc, hh, by rw [k1]; exact hl, by rw [k2]; exact hw⟩, rfl⟩

/-- No bit of the track is marked weak. -/
def WeakFree : DiskTrack → Prop
  | .bit _ t => t.data.weakMask.bits.any id = false
  | _ => True

theorem WeakFree.write {x x' : DiskTrack} {q : Query} {o : Option Nat} {buf : List Byte} {del dbg : Bool}
    {r : WriteResult} (hx : WeakFree x) (h : x.writeSector q o buf del dbg = .ok (r, x')) : WeakFree x' := by
  cases x with
  | bit ch t =>
    unfold DiskTrack.writeSector at h
    simp only at h
    rcases hr : t.writeSector q o buf del dbg with e | ⟨r', t'⟩
    · rw [hr] at h; cases h
    · rw [hr] at h
      cases h
      obtain ⟨k1, k2⟩ := writeSector_keeps hr
      show t'.data.weakMask.bits.any id = false
      rw [k2]; exact hx
  | sect t =>
    unfold DiskTrack.writeSector at h
    simp only at h
    rcases hr : t.writeSector q buf del with e | ⟨r', t'⟩
    · rw [hr] at h; cases h
    · rw [hr] at h; cases h; trivial
  | flux c o =>
    cases o with
    | none => cases h
    | some t =>
      unfold DiskTrack.writeSector at h
      simp only at h
      rcases hr : t.writeSector q _ buf del dbg with e | ⟨r', t'⟩
      · rw [hr] at h; cases h
      · rw [hr] at h; cases h; trivial
  | other c => cases h

/-- No listed track has weak bits. -/
def AllSolid (d : Disk) : Prop := ∀ h c x, h < 2 → at? d h c = some x → WeakFree x

theorem at?_headMap {d : Disk} {h c : Nat} {x : DiskTrack} (ha : at? d h c = some x) :
    ∃ i, (d.headMap h)[c]? = some i ∧ d.pool[i]? = some x := by
  unfold at? at ha
  rcases hi : (d.headMap h)[c]? with _ | i
  · rw [hi] at ha; cases ha
  · rw [hi] at ha; exact ⟨i, rfl, ha⟩

/-- What a write changes: nothing, or one listed track. -/
theorem writeBasic_cases {d : Disk} (ch : Ch) (q : Query) (o : Option Nat) (buf : List Byte) :
    (d.writeBasic ch q o buf).1 = d ∨ ∃ i t r t', ch.h < 2 ∧ (d.headMap ch.h)[ch.c]? = some i ∧ d.pool[i]? = some t ∧
      t.writeSector q o buf false false = .ok (r, t') ∧ (d.writeBasic ch q o buf).1 = { d with pool := d.pool.set i t' } := by
  have key : (d.writeSector ch q o buf false false).1 = d ∨ ∃ i t r t', ch.h < 2 ∧ (d.headMap ch.h)[ch.c]? = some i ∧ d.pool[i]? = some t ∧
      t.writeSector q o buf false false = .ok (r, t') ∧
      (d.writeSector ch q o buf false false).1 = { d with pool := d.pool.set i t' } := by
    unfold Disk.writeSector
    rcases hs : d.seek ch with e | ⟨i, t⟩
    · exact .inl rfl
    · rcases hw : t.writeSector q o buf false false with e | ⟨r, t'⟩
      · left; simp only [hw]
      · simp only [hw]
        unfold Disk.seek at hs
        split at hs
        · cases hs
        · rename_i hh
          rcases hm : (d.headMap ch.h)[ch.c]? with _ | j
          · rw [hm] at hs; cases hs
          · rw [hm] at hs
            simp only at hs
            rcases hp : d.pool[j]? with _ | y
            · rw [hp] at hs; cases hs
            · rw [hp] at hs
              cases hs
              exact .inr ⟨i, t, r, t', by omega, rfl, hp, hw, rfl⟩
  unfold Disk.writeBasic
  rcases hw : d.writeSector ch q o buf false false with ⟨d', e | r⟩
  · rw [hw] at key; exact key
  · rw [hw] at key
    simp only
    split <;> exact key

theorem writeBasic_fits (P : DiskTrack → Prop) {d : Disk} (ch : Ch) (q : Query) (o : Option Nat) (buf : List Byte)
    (hP : ∀ x x' r, P x → x.writeSector q o buf false false = .ok (r, x') → P x')
    (h : ∀ h c x, h < 2 → at? d h c = some x → P x) :
    ∀ h c x, h < 2 → at? (d.writeBasic ch q o buf).1 h c = some x → P x := by
  rcases writeBasic_cases (d := d) ch q o buf with e | ⟨i, t, r, t', hh, hm, hp, hw, e⟩
  · rw [e]; exact h
  · rw [e]
    have hlt : i < d.pool.length := (List.getElem?_eq_some_iff.1 hp).1
    intro h' c x hh' hx
    obtain ⟨k, k1, k2⟩ := at?_headMap hx
    by_cases e : i = k
    · subst e
      have k2 : (d.pool.set i t')[i]? = _ := k2
      rw [List.getElem?_set, if_pos rfl, if_pos hlt] at k2
      cases k2
      exact hP t _ r (h ch.h ch.c t hh (by unfold at?; rw [hm]; exact hp)) hw
    · have k2 : (d.pool.set i t')[k]? = _ := k2
      rw [List.getElem?_set, if_neg e] at k2
      exact h h' c x hh' (by unfold at?; rw [show (d.headMap h')[c]? = Option.some k from k1]; exact k2)

theorem PriDisk.writeBasic {d : Disk} (hd : PriDisk d) (ch : Ch) (q : Query) (o : Option Nat) (buf : List Byte) :
    PriDisk (d.writeBasic ch q o buf).1 := by
  have hfit := writeBasic_fits PriTrack ch q o buf (fun x x' r hx hw => (hx.write hw).1) hd.fits
  rcases writeBasic_cases (d := d) ch q o buf with e | ⟨i, t, r, t', hh, hm, hp, hw, e⟩
  · rw [e]; exact hd
  · rw [e] at hfit ⊢
    have hlt : i < d.pool.length := (List.getElem?_eq_some_iff.1 hp).1
    refine ⟨?_, hd.res, hfit, hd.some, hd.small⟩
    intro h c k hh' hk
    obtain ⟨z, z1, z2⟩ := hd.inPlace h c k hh' hk
    by_cases e : i = k
    · subst e
      rw [hp] at z1; cases z1
      have p2 := (PriTrack.write (hd.fits ch.h ch.c t hh (by unfold at?; rw [hm]; exact hp)) hw).2
      exact ⟨t', by show (d.pool.set i t')[i]? = _; simp [hlt], p2.trans z2⟩
    · exact ⟨z, by show (d.pool.set i t')[k]? = _; rw [List.getElem?_set, if_neg e]; exact z1, z2⟩

theorem PriDisk.step {d : Disk} (hd : PriDisk d) (op : SectorOp) : PriDisk (basicStep d op).1 := by
  cases op with
  | read nz ch q => exact hd
  | write ch q buf => exact hd.writeBasic ch q none buf

/-- The disk after a history. -/
def afterOps : Disk → List SectorOp → Disk
  | d, [] => d
  | d, op :: ops => afterOps (basicStep d op).1 ops

theorem AllSolid.step {d : Disk} (hd : AllSolid d) (op : SectorOp) : AllSolid (basicStep d op).1 := by
  cases op with
  | read nz ch q => exact hd
  | write ch q buf => exact writeBasic_fits WeakFree ch q none buf (fun x x' r hx hw => hx.write hw) hd

theorem AllSolid.after : ∀ (ops : List SectorOp) {d : Disk}, AllSolid d → AllSolid (afterOps d ops)
  | [], _, h => h
  | op :: ops, _, h => AllSolid.after ops (h.step op)

theorem PriDisk.after : ∀ (ops : List SectorOp) {d : Disk}, PriDisk d → PriDisk (afterOps d ops)
  | [], _, h => h
  | op :: ops, _, h => PriDisk.after ops (h.step op)

/-- The map after a history. -/
def mapAfter : DiskMap → List SectorOp → DiskMap
  | M, [] => M
  | M, op :: ops => mapAfter (M.step op).1 ops

theorem DiskRel.after : ∀ (ops : List SectorOp) {d : Disk} {M : DiskMap}, DiskRel true d M →
    DiskRel true (afterOps d ops) (mapAfter M ops)
  | [], _, _, h => h
  | op :: ops, _, _, h => DiskRel.after ops (h.step op).1

theorem run_append : ∀ (a b : List SectorOp) (M : DiskMap), M.run (a ++ b) = M.run a ++ (mapAfter M a).run b
  | [], _, _ => rfl
  | op :: a, b, M => by
    show (M.step op).2 :: DiskMap.run (M.step op).1 (a ++ b) = _
    rw [run_append a b]; rfl

theorem priConv_holds {x : DiskTrack} {m : SectorMap} (hx : ∃ c t, x = .bit c t) (h : Holds x m) (hne : m ≠ []) (hw : WeakFree x)
    (rnd : Nat → Bool) : Holds (priConv rnd x) m ∧ ∃ c t, priConv rnd x = .bit c t := by
  obtain ⟨c, t, rfl⟩ := hx
  cases h with
  | @bit N ch t iam secs hr =>
    have hms : marksOf iam secs ≠ [] := by
      intro e
      apply hne
      cases secs with
      | nil => rfl
      | cons s secs =>
        exfalso
        unfold marksOf at e
        simp at e
    obtain ⟨t', o1, o2⟩ := ofData_trackOk hr.ok hms rnd
    rw [map_rescanned hr.clean] at o2
    obtain ⟨t'', p1, p2, p3⟩ := ofData_cells rnd t.data.bits.bits
    rw [o1] at p1; cases p1
    replace hw : t.data.weakMask.bits.any id = false := hw
    have : priConv rnd (.bit c t) = .bit c t' := by
      unfold priConv
      simp only [o1]
      rw [shiftMask_clear _ _ hw]
      have e3 : t'.data.weakMask = { t'.data.weakMask with bits := List.replicate t.data.bits.bits.length false } := by
        rw [p3]; rfl
      rw [← e3]
    rw [this]
    refine ⟨Holds.bit (N := N) ⟨o2, hr.clean, ?_⟩, _, _, rfl⟩
    have hlen : t'.data.len = t.data.len := by
      unfold Mfm.len; rw [p2]; rfl
    rw [hlen]; exact hr.len


theorem side_some {d : Disk} (hb : Bounded d) {h c : Nat} (hh : h < 2) {i : Nat} (hi : (d.headMap h)[c]? = some i) :
    ∃ x, d.pool[i]? = some x ∧ (side d h)[c]? = some x := by
  have hlt := hb h hh i (List.mem_of_getElem? hi)
  refine ⟨d.pool[i], List.getElem?_eq_getElem hlt, ?_⟩
  rw [side_get d hb hh]
  unfold at?
  rw [hi]
  exact List.getElem?_eq_getElem hlt

/-- The sectors of a disk survive saving and loading. -/
theorem pri_rel {d : Disk} {M : DiskMap} (hd : PriDisk d) (hM : DiskRel true d M)
    (hne : ∀ ch m, M ch = some m → m ≠ []) (hw : AllSolid d)
    {rnd : Nat → Bool} {d' : Disk} (hb : Bounded d') (hs : ∀ h, h < 2 → side d' h = (side d h).map (priConv rnd))
    (hl : ∀ h, h < 2 → (d'.headMap h).length = (d.headMap h).length) (hn : (d'.map0 ++ d'.map1).Nodup) :
    DiskRel true d' M := by
  refine ⟨hM.bad, ?_, ?_, ?_⟩
  · intro ch hh hg
    apply hM.gone ch hh
    rw [List.getElem?_eq_none_iff] at hg ⊢
    rw [← hl ch.h hh]; exact hg
  · intro ch i hh hi
    obtain ⟨y, y1, y2⟩ := side_some hb hh hi
    rw [hs ch.h hh, List.getElem?_map] at y2
    rcases hx : (side d ch.h)[ch.c]? with _ | x
    · rw [hx] at y2; cases y2
    · rw [hx] at y2
      have y2 : some (priConv rnd x) = some y := y2
      rw [side_get d hd.inPlace.bounded hh] at hx
      obtain ⟨j, j1, j2⟩ := at?_headMap hx
      obtain ⟨t, m, k1, k2, k3, k4⟩ := hM.held ch j hh j1
      rw [j2] at k1
      have k1 : x = t := Option.some.inj k1
      subst k1
      obtain ⟨p1, p2⟩ := priConv_holds (k4 rfl) k3 (hne _ _ k2) (hw _ _ _ hh hx) rnd
      have : y = priConv rnd x := (Option.some.inj y2).symm
      subst this
      exact ⟨_, m, y1, k2, p1, fun _ => p2⟩
  · intro a b i ha hb' hia hib
    have key : ∀ (l1 l2 : List Nat), (l1 ++ l2).Nodup → ∀ (c c' i : Nat), l1[c]? = some i → l2[c']? = some i → False := by
      intro l1 l2 hnd c c' i h1 h2
      have := (List.nodup_append.1 hnd).2.2 i (List.mem_of_getElem? h1) i (List.mem_of_getElem? h2)
      exact this rfl
    have inj : ∀ (l : List Nat), l.Nodup → ∀ (c c' i : Nat), l[c]? = some i → l[c']? = some i → c = c' := by
      intro l hnd c c' i h1 h2
      obtain ⟨q1, q2⟩ := List.getElem?_eq_some_iff.1 h1
      obtain ⟨q3, q4⟩ := List.getElem?_eq_some_iff.1 h2
      have hpw := List.pairwise_iff_getElem.1 hnd
      rcases Nat.lt_trichotomy c c' with h | h | h
      · exact absurd (q2.trans q4.symm) (hpw c c' q1 q3 h)
      · exact h
      · exact absurd (q4.trans q2.symm) (hpw c' c q3 q1 h)
    have n0 := (List.nodup_append.1 hn).1
    have n1 := (List.nodup_append.1 hn).2.1
    obtain ⟨ac, ah⟩ := a
    obtain ⟨bc, bh⟩ := b
    rcases (show ah = 0 ∨ ah = 1 by have : ah < 2 := ha; omega) with rfl | rfl <;>
      rcases (show bh = 0 ∨ bh = 1 by have : bh < 2 := hb'; omega) with rfl | rfl
    · have e := inj d'.map0 n0 ac bc i hia hib; rw [e]
    · exact (key _ _ hn _ _ _ hia hib).elim
    · exact (key _ _ hn _ _ _ hib hia).elim
    · have e := inj d'.map1 n1 ac bc i hia hib; rw [e]

/-- Every track of the map has a sector. -/
def NonEmpty (M : DiskMap) : Prop := ∀ ch m, M ch = some m → m ≠ []

theorem update_nonempty (q : Query) (buf : List Byte) : ∀ m : SectorMap, m ≠ [] → m.update q buf ≠ []
  | [], h => absurd rfl h
  | e :: m, _ => by unfold SectorMap.update; split <;> simp

theorem NonEmpty.step {M : DiskMap} (h : NonEmpty M) (op : SectorOp) : NonEmpty (M.step op).1 := by
  cases op with
  | read nz ch q =>
    unfold DiskMap.step
    simp only
    split
    · exact h
    · split <;> exact h
  | write ch q buf =>
    unfold DiskMap.step
    simp only
    split
    · exact h
    · rename_i m hm
      split
      · exact h
      · split
        · exact h
        · intro ch' m' hm'
          simp only at hm'
          split at hm'
          · cases hm'; exact update_nonempty q buf m (h ch m hm)
          · exact h ch' m' hm'

theorem NonEmpty.after : ∀ (ops : List SectorOp) {M : DiskMap}, NonEmpty M → NonEmpty (mapAfter M ops)
  | [], _, h => h
  | op :: ops, _, h => NonEmpty.after ops (h.step op)

/-- A disk loaded from a PC sector image fits the PRI format. -/
theorem built_pri {f : StdFormat} {file : List Byte} {d0 d : Disk}
    (h : Built f.layout (LoadedBit f file) (ResSet.insert {} .bitStream) (f.layout.c * f.layout.h) d0)
    (hp : d.pool = d0.pool) (h0 : d.map0 = d0.map0) (h1 : d.map1 = d0.map1) (hr : d.res = d0.res) :
    PriDisk d ∧ AllSolid d := by
  have hg : f.layout.h = 1 ∨ f.layout.h = 2 := by cases f <;> decide
  have hc : 0 < f.layout.c ∧ f.layout.c ≤ 80 := by cases f <;> decide
  have hcell : (f.bitcellCt + 15) / 16 < 60000 := by cases f <;> decide
  have hmap : ∀ a, d.headMap a = d0.headMap a := by
    intro a; unfold Disk.headMap; rw [h0, h1]
  have hget : ∀ a c i, a < 2 → (d.headMap a)[c]? = some i →
      ∃ x, d.pool[i]? = some x ∧ LoadedBit f file i x ∧ chOf f.layout i = ⟨c, a⟩ ∧ c < f.layout.c := by
    intro a c i ha hi
    rw [hmap] at hi
    by_cases hlt : a < f.layout.h
    · rw [h.headLen hg a hlt, List.getElem?_map] at hi
      by_cases hcc : c < f.layout.c
      · rw [List.getElem?_range hcc] at hi
        have hi : some (c * f.layout.h + a) = some i := hi
        cases hi
        have hj : c * f.layout.h + a < f.layout.c * f.layout.h := by
          have : (c + 1) * f.layout.h ≤ f.layout.c * f.layout.h := Nat.mul_le_mul_right _ hcc
          rw [Nat.succ_mul] at this; omega
        obtain ⟨x, x1, x2⟩ := h.tracks _ hj
        refine ⟨x, by rw [hp]; exact x1, x2, ?_, hcc⟩
        unfold chOf
        rcases hg with e | e <;> rw [e] at hlt ⊢ <;> congr 1 <;> omega
      · rw [List.getElem?_eq_none (by simpa using hcc)] at hi; cases hi
    · rw [h.map' a ha (by omega)] at hi; simp at hi
  have hfit : ∀ a c x, a < 2 → at? d a c = some x → PriTrack x ∧ WeakFree x := by
    intro a c x ha hx
    obtain ⟨i, i1, i2⟩ := at?_headMap hx
    obtain ⟨y, y1, ⟨t, rfl, t2, t3, _⟩, y3, y4⟩ := hget a c i ha i1
    rw [i2] at y1; cases y1
    have hl := t2.len
    have hmx : maxChunk = 1048576 := rfl
    have hweak : t.data.weakMask.bits.any id = false := by
      rw [List.any_eq_false]; intro b hb; rw [t3 b hb]; decide
    refine ⟨⟨_, t, rfl, ?_, ?_, ?_, ?_⟩, hweak⟩
    · rw [y3]; show c < 65536; omega
    · rw [y3]; exact ha
    · have : t.data.bits.bits.length = t.data.len := rfl
      omega
    · intro h; rw [hweak] at h; cases h
  have hlen : ∀ a, a < 2 → (d.headMap a).length = if a < f.layout.h then f.layout.c else 0 := by
    intro a ha
    rw [hmap]
    by_cases hlt : a < f.layout.h
    · rw [h.headLen hg a hlt, if_pos hlt]; simp
    · rw [h.map' a ha (by omega), if_neg hlt]; rfl
  refine ⟨⟨?_, ?_, fun a c x ha hx => (hfit a c x ha hx).1, ?_, ?_⟩, fun a c x ha hx => (hfit a c x ha hx).2⟩
  · intro a c i ha hi
    obtain ⟨y, y1, ⟨t, rfl, _⟩, y3, _⟩ := hget a c i ha hi
    exact ⟨_, y1, y3⟩
  · rw [hr, h.res]; rfl
  · left; rw [hlen 0 (by omega), if_pos (by omega)]; exact hc.1
  · rw [hlen 0 (by omega), hlen 1 (by omega)]
    split <;> split <;> omega

end Fox
