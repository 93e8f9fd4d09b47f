import Verif.Spec.DiskMap
import Verif.Props.MetaSector
/-
Refinement of the disk model to `DiskMap`.
-/
namespace Fox
open Fox.Spec Fox.S34

theorem Spec.TrackOk.readSector_n {t : Track} {iam : Option Nat} {a : List Sec} {x : Sec} {b : List Sec}
    (h : TrackOk t iam (a ++ x :: b)) (rnd : Nat → Bool) (q : Query) (n : Option Nat) (hn : n = none ∨ n = q.n)
    (ha : ∀ y ∈ a, ¬ Hit q ((none : Option Nat).getD 0) y) (hx : Hit q ((none : Option Nat).getD 0) x)
    (debug : Bool) :
    t.readSector rnd q n none .dataOnly debug = .ok (readOk x) := by
  rw [← h.readSector rnd q none ha hx debug]
  rcases hn with rfl | rfl
  · rfl
  cases hq : q.n with
  | none => rfl
  | some k =>
    have hxk : x.id.n = k := by
      have := (hit_none q x).1 hx
      unfold agrees at this
      rw [hq] at this
      simp at this
      exact this.2.symm
    obtain ⟨B, hs⟩ := h.stream
    obtain ⟨lo, _, _, hpl⟩ := hs.placed
    obtain ⟨_, hp2, _⟩ := placed_mem hpl (show x ∈ a ++ x :: b by simp)
    unfold Track.readSector
    rw [h.schema, h.items, findSector_iam, findLoop_first q _ x b hx (by omega) a ha _ {} rfl]
    simp only [Chsn.size, hxk]

/-- A track holds the sectors of a map: a bitstream track whose cells carry them, or a sound sector list. -/
inductive Holds : DiskTrack → SectorMap → Prop
  | bit {N : Nat} {ch : Ch} {t : Track} {iam : Option Nat} {secs : List Sec} :
      Rel N t iam secs → Holds (.bit ch t) (toMap secs)
  | sect {t : MetaTrack} : t.Sound →
      (∀ s ∈ t.sectors, s.deletedMark = false ∧ s.dataError = false ∧ s.addressError = false) →
      Holds (.sect t) (t.sectors.map fun s => (s.id, s.data))

theorem lookup_meta (q : Query) : ∀ l : List MetaSector,
    SectorMap.lookup q (l.map fun s => (s.id, s.data)) = ((l.filter fun s => q.matchesB s.id).head?).map (·.data)
  | [] => rfl
  | s :: l => by
    rw [List.map_cons, SectorMap.lookup, lookup_meta q l, List.filter_cons, matchesB_eq]
    by_cases h : agrees q s.id = true
    · rw [if_pos h, if_pos h]; rfl
    · rw [if_neg h, if_neg h]

/-- What reading shows. -/
theorem Holds.read {x : DiskTrack} {m : SectorMap} (h : Holds x m) (nz : Noise) (q : Query) (n : Option Nat)
    (hn : n = none ∨ n = q.n) (debug : Bool) :
    ∃ r, x.readSector nz q n none .dataOnly debug = .ok r ∧ r.notFound = (m.lookup q).isNone ∧
      ∀ d, m.lookup q = some d → r.addressCrcError = false ∧ r.noDam = false ∧
        r.dataRange.2 ≤ r.readBuf.length ∧ r.bytes = d ∧ r.dataCrcError = false ∧ r.deletedMark = false := by
  cases h with
  | @bit N ch t iam secs hr =>
    rcases lookup_cases q secs with ⟨h1, h2⟩ | ⟨a, y, b, rfl, h2, h3, h4, h5⟩
    · refine ⟨_, hr.ok.readSector_none nz.bit q n none .dataOnly h2 debug, by rw [h1]; rfl, ?_⟩
      intro d hd; rw [h1] at hd; cases hd
    · refine ⟨_, hr.ok.readSector_n nz.bit q n hn h2 h3 debug, by rw [h4]; rfl, ?_⟩
      intro d hd
      rw [h4] at hd
      cases hd
      obtain ⟨c1, c2, _⟩ := hr.clean y (by simp)
      refine ⟨rfl, rfl, ?_, readOk_bytes y, c2, c1⟩
      show 4 + y.data.length ≤ (markBytes _ ++ y.data ++ be16 _).length
      simp only [List.length_append, markBytes_length]
      omega
  | @sect t hs hf =>
    rw [lookup_meta]
    show ∃ r, t.readSector nz.byte q .dataOnly = .ok r ∧ _
    have hml : (t.sectors.filter fun s => q.matchesB s.id) = t.matching q := rfl
    rw [hml]
    unfold MetaTrack.readSector
    cases hm : t.matching q with
    | nil => exact ⟨_, rfl, rfl, by intro d hd; cases hd⟩
    | cons s rest =>
      have hmem : s ∈ t.sectors := (List.mem_filter.1 (by rw [← MetaTrack.matching, hm]; simp)).1
      obtain ⟨g1, g2, g3, g4⟩ := hs s hmem
      obtain ⟨f1, f2, f3⟩ := hf s hmem
      simp only [MetaSector.readData, g1, Bool.false_eq_true, if_false, applyMasks_zero _ _ _ _ _ g2 g3]
      refine ⟨_, rfl, rfl, ?_⟩
      intro d hd
      cases hd
      exact ⟨f3, rfl, Nat.le_refl _, by simp [ReadResult.bytes], f2, f1⟩

/-- What writing does, on a bitstream track. -/
theorem Holds.write {ch : Ch} {t : Track} {m : SectorMap} (h : Holds (.bit ch t) m) (q : Query) (buf : List Byte) :
    match m.lookup q with
    | none => ∃ r, t.writeSector q none buf false false = .ok (r, t) ∧ r.notFound = true
    | some d => if buf.length ≠ d.length then t.writeSector q none buf false false = .error .parameter
      else ∃ t', t.writeSector q none buf false false = .ok ({}, t') ∧ Holds (.bit ch t') (m.update q buf) := by
  cases h with
  | @bit N ch t iam secs hr =>
    rcases lookup_cases q secs with ⟨h1, h2⟩ | ⟨a, y, b, rfl, h2, h3, h4, h5⟩
    · rw [h1]
      exact ⟨_, hr.ok.writeSector_none q none h2 buf false false, rfl⟩
    · rw [h4]
      have hdel := (hr.clean y (by simp)).1
      show if _ then _ else _
      by_cases hl : buf.length ≠ y.data.length
      · rw [if_pos hl]
        exact hr.ok.writeSector_refused q none h2 h3 false false buf (Or.inl hl)
      · rw [if_neg hl]
        have hl : buf.length = y.data.length := by omega
        obtain ⟨t', hw, hok, hlen⟩ := hr.ok.writeSector q none h2 h3 false buf hl
        rw [hdel] at hw
        refine ⟨t', hw, ?_⟩
        have h6 : SectorMap.update q buf (toMap (a ++ y :: b)) = toMap (a ++ y.written buf :: b) :=
          h5 (y.written buf) rfl
        rw [h6]
        refine .bit (N := N) ⟨hok, ?_, by rw [hlen]; exact hr.len⟩
        intro z hz
        rcases List.mem_append.1 hz with hz | hz
        · exact hr.clean z (by simp [hz])
        · rcases List.mem_cons.1 hz with rfl | hz
          · exact clean_written hdel buf
          · exact hr.clean z (by simp [hz])

/-- The disk refines the map; `bitOnly` when every listed track is a bitstream. -/
structure DiskRel (bitOnly : Bool) (d : Disk) (M : DiskMap) : Prop where
  bad : ∀ ch : Ch, 2 ≤ ch.h → M ch = none
  gone : ∀ ch : Ch, ch.h < 2 → (d.headMap ch.h)[ch.c]? = none → M ch = none
  held : ∀ (ch : Ch) (i : Nat), ch.h < 2 → (d.headMap ch.h)[ch.c]? = some i →
    ∃ t m, d.pool[i]? = some t ∧ M ch = some m ∧ Holds t m ∧ (bitOnly = true → ∃ c x, t = .bit c x)
  apart : ∀ (a b : Ch) (i : Nat), a.h < 2 → b.h < 2 → (d.headMap a.h)[a.c]? = some i →
    (d.headMap b.h)[b.c]? = some i → a = b

theorem DiskRel.seek {bo : Bool} {d : Disk} {M : DiskMap} (h : DiskRel bo d M) (ch : Ch) :
    (M ch = none ∧ d.seek ch = .error .seek) ∨
    ∃ i t m, (d.headMap ch.h)[ch.c]? = some i ∧ ch.h < 2 ∧ d.pool[i]? = some t ∧ M ch = some m ∧ Holds t m ∧
      (bo = true → ∃ c x, t = .bit c x) ∧ d.seek ch = .ok (i, t) := by
  unfold Disk.seek
  by_cases hh : ch.h > 1
  · rw [if_pos hh]; exact Or.inl ⟨h.bad ch (by omega), rfl⟩
  · rw [if_neg hh]
    have hh : ch.h < 2 := by omega
    cases hm : (d.headMap ch.h)[ch.c]? with
    | none => exact Or.inl ⟨h.gone ch hh hm, rfl⟩
    | some i =>
      obtain ⟨t, m, h1, h2, h3, h4⟩ := h.held ch i hh hm
      exact Or.inr ⟨i, t, m, rfl, hh, h1, h2, h3, h4, by simp only [h1]⟩

theorem DiskRel.readBasic {bo : Bool} {d : Disk} {M : DiskMap} (h : DiskRel bo d M) (nz : Noise) (ch : Ch)
    (q : Query) : d.readBasic nz ch q none = match M ch with
      | none => .error .seek
      | some m => match m.lookup q with
        | none => .error .idError
        | some l => .ok l := by
  unfold Disk.readBasic
  rcases h.seek ch with ⟨h1, h2⟩ | ⟨i, t, m, _, _, _, h4, h5, _, h7⟩
  · rw [h1, h2]
  · rw [h4, h7]
    obtain ⟨r, g1, g2, g3⟩ := h5.read nz q q.n (Or.inr rfl) false
    simp only [g1, g2]
    cases hl : m.lookup q with
    | none => rfl
    | some l =>
      obtain ⟨k1, k2, k3, k4, _⟩ := g3 l hl
      simp only [k1, k2, k4, Option.isNone_some, Bool.or_self, Bool.false_eq_true, if_false]
      rw [if_neg (by omega)]

theorem headMap_pool (d : Disk) (p : List DiskTrack) (h : Nat) :
    ({ d with pool := p } : Disk).headMap h = d.headMap h := rfl

theorem DiskRel.update {bo : Bool} {d : Disk} {M : DiskMap} (h : DiskRel bo d M) {ch : Ch} {i : Nat} {t' : DiskTrack}
    {m' : SectorMap} (hh : ch.h < 2) (hi : (d.headMap ch.h)[ch.c]? = some i) (ht : Holds t' m')
    (hb : bo = true → ∃ c x, t' = .bit c x) :
    DiskRel bo { d with pool := d.pool.set i t' } (fun c => if c = ch then some m' else M c) := by
  refine ⟨?_, ?_, ?_, ?_⟩
  · intro c hc
    have : c ≠ ch := by rintro rfl; omega
    simp only [if_neg this]; exact h.bad c hc
  · intro c hc hn
    rw [headMap_pool] at hn
    have : c ≠ ch := by rintro rfl; rw [hi] at hn; cases hn
    simp only [if_neg this]; exact h.gone c hc hn
  · intro c j hc hj
    rw [headMap_pool] at hj
    obtain ⟨t, m, h1, h2, h3, h4⟩ := h.held c j hc hj
    by_cases hcc : c = ch
    · subst hcc
      rw [hi] at hj
      cases hj
      have hlt : i < d.pool.length := by
        rcases Nat.lt_or_ge i d.pool.length with hlt | hge
        · exact hlt
        · rw [List.getElem?_eq_none hge] at h1; cases h1
      exact ⟨t', m', by simp [hlt], by simp, ht, hb⟩
    · have hij : i ≠ j := by
        rintro rfl
        exact hcc (h.apart c ch i hc hh hj hi)
      exact ⟨t, m, by simp only [List.getElem?_set, if_neg hij]; exact h1, by simp only [if_neg hcc]; exact h2, h3, h4⟩
  · intro a b j ha hb hja hjb
    exact h.apart a b j ha hb hja hjb

theorem DiskRel.step {d : Disk} {M : DiskMap} (h : DiskRel true d M) (op : SectorOp) :
    DiskRel true (basicStep d op).1 (M.step op).1 ∧ (basicStep d op).2 = (M.step op).2 := by
  cases op with
  | read nz ch q =>
    simp only [basicStep, DiskMap.step, h.readBasic nz ch q]
    cases M ch with
    | none => exact ⟨h, rfl⟩
    | some m =>
      simp only
      cases m.lookup q with
      | none => exact ⟨h, rfl⟩
      | some l => exact ⟨h, rfl⟩
  | write ch q buf =>
    simp only [basicStep, DiskMap.step, Disk.writeBasic, Disk.writeSector]
    rcases h.seek ch with ⟨h1, h2⟩ | ⟨i, t, m, h1, h2, h3, h4, h5, h6, h7⟩
    · simp only [h1, h2]; exact ⟨h, rfl⟩
    · simp only [h4, h7]
      obtain ⟨c, x, rfl⟩ := h6 rfl
      have hw := h5.write q buf
      cases hl : m.lookup q with
      | none =>
        rw [hl] at hw
        obtain ⟨r, g1, g2⟩ := hw
        simp only [DiskTrack.writeSector, g1, Except.map, g2, Bool.true_or, if_true]
        refine ⟨?_, rfl⟩
        have : d.pool.set i (.bit c x) = d.pool := by
          apply List.ext_getElem?
          intro k
          rw [List.getElem?_set]
          by_cases hk : i = k
          · subst hk; rw [if_pos rfl]; split
            · exact h3.symm
            · rename_i hlt; rw [List.getElem?_eq_none (by omega)]
          · rw [if_neg hk]
        rw [this]
        exact h
      | some l =>
        rw [hl] at hw
        simp only at hw ⊢
        by_cases hlen : buf.length ≠ l.length
        · rw [if_pos hlen] at hw
          simp only [DiskTrack.writeSector, hw, Except.map, if_pos hlen]
          exact ⟨h, rfl⟩
        · rw [if_neg hlen] at hw
          obtain ⟨t', g1, g2⟩ := hw
          simp only [DiskTrack.writeSector, g1, Except.map, if_neg hlen, Bool.or_self, Bool.false_eq_true, if_false]
          exact ⟨h.update h2 h1 g2 (fun _ => ⟨c, t', rfl⟩), rfl⟩

theorem DiskRel.run : ∀ (ops : List SectorOp) {d : Disk} {M : DiskMap}, DiskRel true d M →
    basicRun d ops = M.run ops
  | [], _, _, _ => rfl
  | op :: ops, d, M, h => by
    obtain ⟨h1, h2⟩ := h.step op
    rw [basicRun, DiskMap.run, h2, DiskRel.run ops h1]

end Fox
