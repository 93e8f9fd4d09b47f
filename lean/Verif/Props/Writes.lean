import Verif.Spec.Writes
import Verif.Props.Deleted
/-
C121: the write counter.
-/
namespace Fox
open S34 Spec

theorem countStep_disk (c : Counted) (op : DiskOp) : (countStep c op).disk = diskStep c.disk op := by
  cases op <;> rfl

theorem countAfter_disk : ∀ (ops : List DiskOp) (c : Counted), (countAfter c ops).disk = diskAfter c.disk ops
  | [], _ => rfl
  | op :: ops, c => by
    show (countAfter (countStep c op) ops).disk = _
    rw [countAfter_disk ops, countStep_disk]; rfl

theorem bump_le {α : Type} (w : Nat) (r : Except Err α) : w ≤ Counted.bump w r := by
  cases r <;> unfold Counted.bump <;> simp only <;> omega

theorem countStep_le (c : Counted) (op : DiskOp) (h : op ≠ .reset) : c.writes ≤ (countStep c op).writes := by
  cases op with
  | reset => exact absurd rfl h
  | addBit ch made => exact bump_le _ _
  | addMeta ch => exact bump_le _ _
  | addFlux ch made => exact bump_le _ _
  | addEmpty ch enc res cells clock => exact Nat.le_refl _
  | write ch q off buf del dbg =>
    have key : ∀ (b : Bool) (r : Except Err WriteResult), c.writes ≤ if b = true then Counted.bump c.writes r else c.writes := by
      intro b r
      cases b
      · exact Nat.le_refl _
      · exact bump_le _ _
    exact key _ _
  | format nz ch ids pat gap3 => exact Nat.le_refl _
  | normalize H nz => exact Nat.le_refl _
  | removeEmpty => exact Nat.le_refl _

theorem bump_same {α : Type} {w : Nat} {r : Except Err α} (h : Counted.bump w r = w) : ∃ e, r = .error e := by
  cases r with
  | ok a => unfold Counted.bump at h; simp only at h; omega
  | error e => exact ⟨e, rfl⟩

theorem same_refl (d : Disk) : SameTracks d d := ⟨rfl, rfl, rfl⟩

theorem same_trans {a b c : Disk} (h : SameTracks a b) (g : SameTracks b c) : SameTracks a c :=
  ⟨h.1.trans g.1, h.2.1.trans g.2.1, h.2.2.trans g.2.2⟩

theorem addBit_error (d : Disk) (ch : Ch) (made : Except Err Track) (e : Err) (h : (d.addBit ch made).2 = .error e) :
    SameTracks (d.addBit ch made).1 d := by
  unfold Disk.addBit at h ⊢
  split at h
  · rw [if_pos (by assumption)]; exact same_refl _
  · rw [if_neg (by assumption)]
    split at h
    · rw [if_pos (by assumption)]; exact same_refl _
    · rw [if_neg (by assumption)]
      cases made with
      | error e => exact ⟨rfl, rfl, rfl⟩
      | ok t => simp only at h; cases h

theorem addFlux_error (d : Disk) (ch : Ch) (made : Except Err (Option Track)) (e : Err) (h : (d.addFlux ch made).2 = .error e) :
    SameTracks (d.addFlux ch made).1 d := by
  unfold Disk.addFlux at h ⊢
  split at h
  · rw [if_pos (by assumption)]; exact same_refl _
  · rw [if_neg (by assumption)]
    split at h
    · rw [if_pos (by assumption)]; exact same_refl _
    · rw [if_neg (by assumption)]
      cases made with
      | error e => exact ⟨rfl, rfl, rfl⟩
      | ok t => simp only at h; cases h

theorem addMeta_error (d : Disk) (ch : Ch) (e : Err) (h : (d.addMeta ch).2 = .error e) : SameTracks (d.addMeta ch).1 d := by
  unfold Disk.addMeta at h ⊢
  split at h
  · rw [if_pos (by assumption)]; exact same_refl _
  · rw [if_neg (by assumption)]
    split at h
    · rw [if_pos (by assumption)]; exact same_refl _
    · simp only at h; cases h

/-- A write to a list of sectors that is not counted leaves it alone. -/
theorem metaWrite_same {t t' : MetaTrack} {q : Query} {buf : List Byte} {del : Bool} {r : WriteResult}
    (hr : Counted.reaches t q buf = false) (h : t.writeSector q buf del = .ok (r, t')) : t' = t := by
  unfold Counted.reaches at hr
  unfold MetaTrack.writeSector at h
  split at hr
  · next s hs =>
    simp only [hs] at h
    rw [if_pos (by simpa using hr)] at h
    cases h
  · next hne =>
    cases hm : t.matching q with
    | nil =>
      simp only [hm] at h
      injection h with h
      exact (Prod.ext_iff.1 h).2.symm
    | cons s rest =>
      cases rest with
      | nil => exact absurd hm (hne s)
      | cons s' rest => simp only [hm] at h; cases h

theorem step_same (c : Counted) (op : DiskOp) (ht : Tracked c.disk op) (h : (countStep c op).writes = c.writes) :
    SameTracks (diskStep c.disk op) c.disk := by
  cases op with
  | addBit ch made => obtain ⟨e, he⟩ := bump_same (show Counted.bump c.writes _ = _ from h); exact addBit_error _ _ _ e he
  | addMeta ch => obtain ⟨e, he⟩ := bump_same (show Counted.bump c.writes _ = _ from h); exact addMeta_error _ _ e he
  | addFlux ch made => obtain ⟨e, he⟩ := bump_same (show Counted.bump c.writes _ = _ from h); exact addFlux_error _ _ _ e he
  | addEmpty => exact ht.elim
  | format => exact ht.elim
  | normalize => exact ht.elim
  | removeEmpty => exact ht.elim
  | reset => exact ht.elim
  | write ch q off buf del dbg =>
    show SameTracks (c.disk.writeSector ch q off buf del dbg).1 c.disk
    have h' : (Counted.writeSector c ch q off buf del dbg).1.writes = c.writes := h
    unfold Counted.writeSector at h'
    simp only at h'
    cases hs : c.disk.seek ch with
    | error e =>
      unfold Disk.writeSector; simp only [hs]; exact same_refl _
    | ok it =>
      obtain ⟨i, t⟩ := it
      obtain ⟨m, rfl⟩ := ht i t hs
      simp only [hs] at h'
      unfold Disk.writeSector at h' ⊢
      simp only [hs] at h' ⊢
      cases hw : (DiskTrack.sect m).writeSector q off buf del dbg with
      | error e => exact same_refl _
      | ok rt =>
        obtain ⟨r, t'⟩ := rt
        simp only [hw] at h' ⊢
        have hno : Counted.reaches m q buf = false := by
          cases hq : Counted.reaches m q buf with
          | false => rfl
          | true =>
            rw [hq, if_pos rfl] at h'
            unfold Counted.bump at h'; simp only at h'; omega
        cases hm : m.writeSector q buf del with
        | error e => unfold DiskTrack.writeSector at hw; simp only [hm, Except.map] at hw; cases hw
        | ok x =>
          unfold DiskTrack.writeSector at hw
          simp only [hm, Except.map] at hw
          injection hw with hw
          have ht' : t' = .sect x.2 := (Prod.ext_iff.1 hw).2.symm
          have := metaWrite_same hno (r := x.1) (t' := x.2) hm
          subst ht'
          rw [this]
          refine ⟨?_, rfl, rfl⟩
          show c.disk.pool.set i (.sect m) = c.disk.pool
          unfold Disk.seek at hs
          split at hs
          · cases hs
          · split at hs
            · cases hs
            · next j _ =>
              split at hs
              · cases hs
              · next u hp =>
                injection hs with hs
                have hj : j = i := (Prod.ext_iff.1 hs).1
                have hu : u = .sect m := (Prod.ext_iff.1 hs).2
                subst hj; subst hu
                apply List.ext_getElem? 
                intro k
                rw [List.getElem?_set]
                by_cases e : j = k
                · subst e
                  rw [if_pos rfl, hp]
                  rw [if_pos (List.getElem?_eq_some_iff.1 hp).1]
                · rw [if_neg e]

theorem count_le : ∀ (ops : List DiskOp) (c : Counted), AllTracked c.disk ops → c.writes ≤ (countAfter c ops).writes
  | [], c, _ => Nat.le_refl _
  | op :: ops, c, h => by
    refine Nat.le_trans (countStep_le c op ?_) (count_le ops _ ?_)
    · rintro rfl; exact h.1
    · rw [countStep_disk]; exact h.2

/-- **C121 (partial).** The counter and the changes of an image.  Adding a track of given data counts one if it is added, and none if it is refused;
only `reset_image` lowers the counter; and over every history that adds such tracks and writes sectors of sector lists, a counter that is what it was
tells that the image holds the same tracks in the same places.  Missing: writes to tracks of cells and of flux, formatting, empty tracks and
the removal of tracks, which are not counted (refuted below). -/
theorem C121_partial (c : Counted) :
    (∀ ops, AllTracked c.disk ops → (countAfter c ops).writes = c.writes → SameTracks (countAfter c ops).disk c.disk) ∧
    (∀ op, op ≠ .reset → c.writes ≤ (countStep c op).writes) ∧
    (∀ op, (∃ ch m, op = .addBit ch m) ∨ (∃ ch, op = .addMeta ch) ∨ (∃ ch m, op = .addFlux ch m) →
      (countStep c op).writes = c.writes + (if diskErr c.disk op = none then 1 else 0)) := by
  refine ⟨?_, countStep_le c, ?_⟩
  · intro ops
    induction ops generalizing c with
    | nil => intro _ _; exact same_refl _
    | cons op ops ih =>
      intro ht hw
      have hw' : (countAfter (countStep c op) ops).writes = c.writes := hw
      have ht2 : AllTracked (countStep c op).disk ops := by rw [countStep_disk]; exact ht.2
      have h1 := count_le ops (countStep c op) ht2
      have h0 : c.writes ≤ (countStep c op).writes := countStep_le c op (by rintro rfl; exact ht.1)
      have hs := step_same c op ht.1 (by omega)
      have := ih (countStep c op) ht2 (by omega)
      refine same_trans this ?_
      rw [countStep_disk]; exact hs
  · have key : ∀ (r : Except Err Nat) (w : Nat), Counted.bump w r = w + (if diskErr.errOf r = none then 1 else 0) := by
      intro r w
      cases r with
      | ok a => rw [if_pos (show diskErr.errOf (.ok a : Except Err Nat) = none from rfl)]; rfl
      | error e => rw [if_neg (show ¬ diskErr.errOf (.error e : Except Err Nat) = none by intro h; cases h)]; rfl
    rintro op (⟨ch, m, rfl⟩ | ⟨ch, rfl⟩ | ⟨ch, m, rfl⟩)
    · exact key _ _
    · exact key _ _
    · exact key _ _

/-- A history the theorem speaks of. -/
example : AllTracked {} [.addMeta ⟨0, 0⟩, .write ⟨0, 0⟩ (.ofChsn ⟨0, 0, 1, 2⟩) none [] false false, .addMeta ⟨1, 0⟩] := by
  refine ⟨trivial, ?_, trivial, trivial⟩
  intro i t h
  refine ⟨{ ch := ⟨0, 0⟩ }, ?_⟩
  have hs : (diskStep {} (.addMeta ⟨0, 0⟩)).seek ⟨0, 0⟩ = .ok (0, .sect { ch := ⟨0, 0⟩ }) := rfl
  rw [hs] at h
  injection h with h
  exact (Prod.ext_iff.1 h).2.symm

/-- A sector that is there. -/
def wSec : MetaSector := { id := ⟨0, 0, 1, 0⟩, data := List.replicate 128 0#8, weak := ⟨false, []⟩, hole := ⟨false, []⟩ }

/-- A counted write, and one counted in vain. -/
def wDisk (s : MetaSector) : Disk := { pool := [.sect { ch := ⟨0, 0⟩, sectors := [s] }], map0 := [0] }

set_option maxRecDepth 20000 in
theorem wWrite (w : Nat) : (Counted.writeSector ⟨wDisk wSec, w⟩ ⟨0, 0⟩ (.ofChsn ⟨0, 0, 1, 0⟩) none (List.replicate 128 1#8) false false).1 =
    ⟨wDisk { wSec with data := List.replicate 128 1#8 }, w + 1⟩ := by rfl

set_option maxRecDepth 20000 in
/-- **C121 fails** the other way: a write that is refused because the sector has no data mark is counted. -/
theorem C121_false_refused (w : Nat) : ∃ (d : Disk) (q : Query) (buf : List Byte) (r : WriteResult),
    (Counted.writeSector ⟨d, w⟩ ⟨0, 0⟩ q none buf false false).2 = .ok r ∧ r.noDam = true ∧
    (Counted.writeSector ⟨d, w⟩ ⟨0, 0⟩ q none buf false false).1 = ⟨d, w + 1⟩ :=
  ⟨wDisk { wSec with noDam := true }, .ofChsn ⟨0, 0, 1, 0⟩, List.replicate 128 1#8, { noDam := true }, rfl, rfl, rfl⟩

/-- **C121 fails** for tracks of cells: the data of a sector change and the counter does not. -/
theorem C121_false_cells : ∃ (d : Disk) (q : Query) (buf : List Byte), ∀ w nz,
    ((Counted.writeSector ⟨d, w⟩ ⟨0, 0⟩ q none buf true false).2 = .ok {}) ∧
    ((Counted.writeSector ⟨d, w⟩ ⟨0, 0⟩ q none buf true false).1.writes = w) ∧
    (∃ r, d.readSector nz ⟨0, 0⟩ q none none .dataOnly false = .ok r ∧ r.bytes ≠ buf) ∧
    (∃ r, (Counted.writeSector ⟨d, w⟩ ⟨0, 0⟩ q none buf true false).1.disk.readSector nz ⟨0, 0⟩ q none none .dataOnly false = .ok r ∧
      r.bytes = buf) := by
  obtain ⟨t, ht, hd, hq, hl⟩ := exDeleted_ok
  have hno : ∀ y ∈ ([] : List Sec), agrees (.ofChsn ⟨0, 0, 1, 0⟩) y.id = false := by intro y hy; cases hy
  obtain ⟨t', hw, hr⟩ := C09_partial ht (.ofChsn ⟨0, 0, 1, 0⟩) hno hq (List.replicate 128 1#8) (by rw [hl]; rfl) false
  rw [hd] at hw
  have hr0 := fun rnd => ht.readSector rnd (.ofChsn ⟨0, 0, 1, 0⟩) none (a := []) (by intro y hy; cases hy)
    (x := exDeleted) ((hit_none _ _).2 hq) false
  refine ⟨{ pool := [.bit ⟨0, 0⟩ t], map0 := [0] }, .ofChsn ⟨0, 0, 1, 0⟩, List.replicate 128 1#8, ?_⟩
  intro w nz
  have hseek : ∀ u : DiskTrack, (({ pool := [u], map0 := [0] } : Disk).seek ⟨0, 0⟩) = .ok (0, u) := fun _ => rfl
  have hstep : (Counted.writeSector ⟨{ pool := [.bit ⟨0, 0⟩ t], map0 := [0] }, w⟩ ⟨0, 0⟩ (.ofChsn ⟨0, 0, 1, 0⟩) none
      (List.replicate 128 1#8) true false) = (⟨{ pool := [.bit ⟨0, 0⟩ t'], map0 := [0] }, w⟩, .ok {}) := by
    unfold Counted.writeSector Disk.writeSector
    simp only [hseek]
    unfold DiskTrack.writeSector
    simp only [hw, Except.map]
    rfl
  rw [hstep]
  refine ⟨rfl, rfl, ⟨_, (show _ = _ by unfold Disk.readSector; simp only [hseek]; exact hr0 nz.bit), ?_⟩, ?_⟩
  · rw [readOk_bytes]
    intro h
    have := congrArg List.head? h
    revert this
    decide
  · obtain ⟨r, h1, h2, _⟩ := hr nz.bit
    refine ⟨r, ?_, h2⟩
    unfold Disk.readSector
    simp only [hseek]
    exact h1

/-- **C121 fails** for formatting, whatever it does. -/
theorem C121_false_format (c : Counted) (nz : Noise) (ch : Ch) (ids : List Chsn) (pat : List Byte) (gap3 : Nat) :
    (c.formatTrack nz ch ids pat gap3).1.writes = c.writes := rfl

/-- **C121.** A write to a list of sectors counts one if exactly one sector agrees with the query and the write is not an error, and none otherwise. -/
theorem C121_writes (c : Counted) (ch : Ch) (q : Query) (off : Option Nat) (buf : List Byte) (del dbg : Bool) (i : Nat) (t : MetaTrack)
    (hs : c.disk.seek ch = .ok (i, .sect t)) :
    ((t.sectors.filter fun s => agrees q s.id).length = 1 ∧ (∃ r, (c.writeSector ch q off buf del dbg).2 = .ok r) →
      (c.writeSector ch q off buf del dbg).1.writes = c.writes + 1) ∧
    (¬ ((t.sectors.filter fun s => agrees q s.id).length = 1 ∧ (∃ r, (c.writeSector ch q off buf del dbg).2 = .ok r)) →
      (c.writeSector ch q off buf del dbg).1.writes = c.writes) := by
  have hm : t.matching q = t.sectors.filter fun s => agrees q s.id := by
    unfold MetaTrack.matching
    congr 1
    funext s
    exact matchesB_agrees q s.id
  rw [← hm]
  unfold Counted.writeSector Disk.writeSector
  simp only [hs]
  unfold DiskTrack.writeSector
  cases hl : t.matching q with
  | nil =>
    have : Counted.reaches t q buf = false := by unfold Counted.reaches; rw [hl]
    rw [this]
    exact ⟨fun h => by simp at h, fun _ => rfl⟩
  | cons s rest =>
    cases rest with
    | cons s' rest =>
      have : Counted.reaches t q buf = false := by unfold Counted.reaches; rw [hl]
      rw [this]
      exact ⟨fun h => by simp at h, fun _ => rfl⟩
    | nil =>
      have hr : Counted.reaches t q buf = (s.id.size == buf.length) := by unfold Counted.reaches; rw [hl]
      rw [hr]
      simp only
      cases hw : t.writeSector q buf del with
      | error e =>
        simp only [Except.map]
        refine ⟨?_, fun _ => ?_⟩
        · rintro ⟨_, r, h⟩; cases h
        · split <;> rfl
      | ok x =>
        have : s.id.size = buf.length := by
          unfold MetaTrack.writeSector at hw
          simp only [hl] at hw
          by_cases h : s.id.size = buf.length
          · exact h
          · rw [if_pos h] at hw; cases hw
        simp only [Except.map]
        refine ⟨fun _ => ?_, fun h => absurd ⟨rfl, _, rfl⟩ h⟩
        rw [if_pos (by simp [this])]
        rfl

/-- **C121 fails** over resets: a new image counts from zero, and the same count comes back for other tracks. -/
theorem C121_false_again (c : Counted) : (countStep c .reset).writes = 0 ∧ ∃ ops ops',
    (countAfter ⟨{}, 0⟩ ops).writes = 1 ∧ (countAfter ⟨{}, 0⟩ (ops ++ ops')).writes = 1 ∧
    (countAfter ⟨{}, 0⟩ ops).disk.map0.length = 1 ∧ (countAfter ⟨{}, 0⟩ (ops ++ ops')).disk.map0.length = 0 ∧
    (countAfter ⟨{}, 0⟩ (ops ++ ops')).disk.map1.length = 1 :=
  ⟨rfl, [.addMeta ⟨0, 0⟩], [.reset, .addMeta ⟨0, 1⟩], rfl, rfl, rfl, rfl, rfl⟩

/-- **C121 fails** for empty tracks, and for resetting, which may bring the old count back. -/
theorem C121_false_reset : ∃ ops, (countAfter ⟨{}, 0⟩ ops).writes = 0 ∧ (countAfter ⟨{}, 0⟩ ops).disk.pool.length = 1 ∧
    (countAfter ⟨{}, 0⟩ (ops ++ [.reset])).writes = 0 ∧ (countAfter ⟨{}, 0⟩ (ops ++ [.reset])).disk.pool = [] :=
  ⟨[.addEmpty ⟨0, 0⟩ .mfm (some .metaSector) 0 none], rfl, rfl, rfl, rfl⟩

/-- After loading the counter is 1, whatever was added. -/
theorem C121_loaded (c c' : Counted) (H : List Byte → Nat) (nz : Noise) (h : c.postLoad H nz = .ok c') : c'.writes = 1 := by
  unfold Counted.postLoad at h
  cases hp : c.disk.postLoad H nz with
  | error e => rw [hp] at h; cases h
  | ok d => rw [hp] at h; injection h with h; rw [← h]

end Fox
