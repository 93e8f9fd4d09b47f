import Verif.Spec.Psi
import Verif.Proofs.PriDisk
import Verif.Proofs.Adf
/-
Disks built track by track from lists of sectors.
-/
namespace Fox
open Spec

/-- The positions of the tracks of side `h`. -/
def idxs (l : List Ch) (h : Nat) : List Nat := (List.range l.length).filter fun i => (l[i]?.map (·.h)) == some h

theorem snocInd {α : Type} {p : List α → Prop} (h0 : p []) (h1 : ∀ l x, p l → p (l ++ [x])) (l : List α) : p l := by
  have : ∀ (l : List α), p l.reverse := by
    intro l
    induction l with
    | nil => exact h0
    | cons x l ih => rw [List.reverse_cons]; exact h1 _ _ ih
  rw [← List.reverse_reverse l]
  exact this _

theorem idxs_snoc (l : List Ch) (x : Ch) (h : Nat) :
    idxs (l ++ [x]) h = idxs l h ++ if x.h = h then [l.length] else [] := by
  unfold idxs
  rw [List.length_append, List.length_singleton, List.range_succ, List.filter_append]
  congr 1
  · apply List.filter_congr
    intro i hi
    rw [List.getElem?_append_left (List.mem_range.1 hi)]
  · by_cases e : x.h = h <;> simp [e]

theorem idxs_length : ∀ (l : List Ch) (h : Nat), (idxs l h).length = (l.filter fun y => y.h == h).length := by
  intro l h
  induction l using snocInd with
  | h0 => rfl
  | h1 l x ih =>
    rw [idxs_snoc, List.length_append, ih, List.filter_append, List.length_append]
    congr 1
    by_cases e : x.h = h <;> simp [e]

/-- Each position is the next free one of its side. -/
def OrderedChs (l : List Ch) : Prop :=
  ∀ (i : Nat) ch, l[i]? = some ch → ch.h < 2 ∧ ch.c = ((l.take i).filter fun y => y.h == ch.h).length

theorem OrderedChs.init {l : List Ch} {x : Ch} (h : OrderedChs (l ++ [x])) : OrderedChs l := by
  intro i ch hi
  have hlt : i < l.length := (List.getElem?_eq_some_iff.1 hi).1
  have := h i ch (by rw [List.getElem?_append_left hlt]; exact hi)
  rw [List.take_append_of_le_length (by omega)] at this
  exact this

theorem OrderedChs.last {l : List Ch} {x : Ch} (h : OrderedChs (l ++ [x])) :
    x.h < 2 ∧ x.c = (idxs l x.h).length := by
  have := h l.length x (by simp)
  rw [List.take_left] at this
  rw [idxs_length]
  exact this

theorem idxs_get {l : List Ch} (hl : OrderedChs l) (ch : Ch) (i : Nat) :
    (idxs l ch.h)[ch.c]? = some i ↔ l[i]? = some ch := by
  induction l using snocInd generalizing i with
  | h0 => simp [idxs]
  | h1 l x ih =>
    have ih := ih hl.init
    obtain ⟨h1, h2⟩ := hl.last
    rw [idxs_snoc]
    by_cases hi : i < l.length
    · rw [List.getElem?_append_left hi, ← ih]
      by_cases e : x.h = ch.h
      · rw [if_pos e]
        by_cases hc : ch.c < (idxs l ch.h).length
        · rw [List.getElem?_append_left hc]
        · rw [List.getElem?_append_right (by omega), List.getElem?_eq_none (l := idxs l ch.h) (by omega)]
          constructor
          · intro h
            have h := List.getElem?_eq_some_iff.1 h
            obtain ⟨a, b⟩ := h
            simp only [List.length_singleton] at a
            have : [l.length][ch.c - (idxs l ch.h).length] = l.length := by
              simp
            omega
          · intro h; cases h
      · rw [if_neg e, List.append_nil]
    · by_cases hi' : i = l.length
      · subst hi'
        simp only [List.getElem?_append_right (Nat.le_refl _), Nat.sub_self, List.getElem?_cons_zero, Option.some.injEq]
        constructor
        · intro h
          by_cases hc : ch.c < (idxs l ch.h).length
          · rw [List.getElem?_append_left hc] at h
            have := (ih l.length).1 h
            rw [List.getElem?_eq_none (Nat.le_refl _)] at this
            cases this
          · rw [List.getElem?_append_right (by omega)] at h
            by_cases e : x.h = ch.h
            · rw [if_pos e] at h
              obtain ⟨a, _⟩ := List.getElem?_eq_some_iff.1 h
              simp only [List.length_singleton] at a
              have hx : x.c = ch.c := by rw [h2, e]; omega
              cases x; cases ch; simp only at hx e; rw [hx, e]
            · rw [if_neg e] at h; simp at h
        · rintro rfl
          rw [if_pos rfl, h2, List.getElem?_append_right (Nat.le_refl _)]
          simp
      · rw [List.getElem?_eq_none (l := l ++ [x]) (by simp; omega)]
        constructor
        · intro h
          have hm := List.mem_of_getElem? h
          rw [List.mem_append] at hm
          rcases hm with hm | hm
          · have := List.mem_range.1 (List.mem_filter.1 hm).1
            omega
          · split at hm <;> simp at hm
            omega
        · intro h; cases h

theorem OrderedChs.nodup {l : List Ch} (hl : OrderedChs l) : l.Nodup := by
  rw [List.nodup_iff_pairwise_ne, List.pairwise_iff_getElem]
  intro i j hi hj hij heq
  have e1 := (idxs_get hl l[i] i).2 (List.getElem?_eq_getElem hi)
  have e2 := (idxs_get hl l[i] j).2 (by rw [heq]; exact List.getElem?_eq_getElem hj)
  rw [e1] at e2
  simp only [Option.some.injEq] at e2
  omega

theorem inOrder_chs {α : Type} (ts : List (Ch × α)) : InOrder ts ↔ OrderedChs (ts.map (·.1)) := by
  have hf : ∀ i (ch : Ch), ((ts.take i).filter fun y => y.1.h == ch.h).length =
      (((ts.map (·.1)).take i).filter fun y => y.h == ch.h).length := by
    intro i ch
    rw [← List.map_take, List.filter_map, List.length_map]
    rfl
  unfold InOrder OrderedChs
  constructor
  · intro h i ch hi
    rw [List.getElem?_map] at hi
    rcases hx : ts[i]? with _ | x
    · rw [hx] at hi; simp at hi
    · rw [hx] at hi
      simp only [Option.map_some, Option.some.injEq] at hi
      subst hi
      rw [← hf]
      exact h i x.1 x.2 hx
  · intro h i ch x hi
    rw [hf]
    exact h i ch (by rw [List.getElem?_map, hi]; rfl)

/-- A track of sectors. -/
def sectTrack (x : Ch × List MetaSector) : DiskTrack := .sect { ch := x.1, sectors := x.2 }

/-- A disk made of these tracks, added in this order. -/
structure BuiltSect (d : Disk) (ts : List (Ch × List MetaSector)) : Prop where
  pool : d.pool = ts.map sectTrack
  maps : ∀ h, h < 2 → d.headMap h = idxs (ts.map (·.1)) h
  res : d.res = {} ∨ d.res = { sect := true }

theorem BuiltSect.empty : BuiltSect {} [] := ⟨rfl, by intro h _; unfold Disk.headMap; split <;> rfl, .inl rfl⟩

theorem mpush_headMap (d : Disk) (h : Nat) (t : DiskTrack) (hh : h < 2) (a : Nat) (ha : a < 2) :
    (d.pushTrack h t).headMap a = d.headMap a ++ if h = a then [d.pool.length] else [] := by
  unfold Disk.pushTrack Disk.pushMap Disk.headMap
  rcases (by omega : h = 0 ∨ h = 1) with rfl | rfl <;> rcases (by omega : a = 0 ∨ a = 1) with rfl | rfl <;> simp

theorem mpush_pool (d : Disk) (h : Nat) (t : DiskTrack) : (d.pushTrack h t).pool = d.pool ++ [t] := by
  unfold Disk.pushTrack Disk.pushMap; split <;> rfl

theorem mpush_res (d : Disk) (h : Nat) (t : DiskTrack) : (d.pushTrack h t).res = d.res := by
  unfold Disk.pushTrack Disk.pushMap; split <;> rfl

theorem BuiltSect.addMeta {d : Disk} {ts : List (Ch × List MetaSector)} (h : BuiltSect d ts) (ch : Ch)
    (hh : ch.h < 2) : ∃ d', d.addMeta ch = (d', .ok ts.length) ∧ BuiltSect d' (ts ++ [(ch, [])]) := by
  have hrej : d.rejects .metaSector = false := by
    unfold Disk.rejects
    rcases h.res with e | e <;> rw [e] <;> cases d.multires <;> rfl
  unfold Disk.addMeta
  rw [if_neg (by omega), if_neg (by rw [hrej]; decide)]
  refine ⟨_, Prod.ext rfl (congrArg Except.ok ?_), ?_, ?_, ?_⟩
  · show d.pool.length = _
    rw [h.pool, List.length_map]
  · rw [mpush_pool, List.map_append, ← h.pool]; rfl
  · intro a ha
    rw [mpush_headMap _ _ _ hh _ ha, List.map_append, List.map_singleton, idxs_snoc, ← h.maps a ha,
      List.length_map]
    show d.headMap a ++ (if ch.h = a then [d.pool.length] else []) = _
    rw [h.pool, List.length_map]
  · right
    rw [mpush_res]
    rcases h.res with e | e <;> simp only [e] <;> rfl

/-- Replacing the sectors of the last track. -/
theorem BuiltSect.setLast {d : Disk} {pre : List (Ch × List MetaSector)} {ch : Ch} {ss ss' : List MetaSector}
    (h : BuiltSect d (pre ++ [(ch, ss)])) :
    BuiltSect { d with pool := d.pool.set pre.length (.sect { ch := ch, sectors := ss' }) } (pre ++ [(ch, ss')]) := by
  refine ⟨?_, ?_, h.res⟩
  · show d.pool.set _ _ = _
    rw [h.pool, List.map_append, List.map_append, List.set_append_right _ _ (by simp)]
    simp [sectTrack]
  · intro a ha
    have := h.maps a ha
    rw [List.map_append, List.map_singleton] at this ⊢
    exact this

theorem BuiltSect.last {d : Disk} {pre : List (Ch × List MetaSector)} {ch : Ch} {ss : List MetaSector}
    (h : BuiltSect d (pre ++ [(ch, ss)])) : d.pool[pre.length]? = some (.sect { ch := ch, sectors := ss }) := by
  rw [h.pool, List.map_append, List.getElem?_append_right (by simp)]
  simp [sectTrack]

theorem BuiltSect.hasTracks {d : Disk} {ts : List (Ch × List MetaSector)} (h : BuiltSect d ts)
    (ho : InOrder ts) : HasTracks d ts := by
  have ho' := (inOrder_chs ts).1 ho
  constructor
  · intro ch secs hm
    obtain ⟨i, hi⟩ := List.getElem?_of_mem hm
    have hh := (ho i ch secs hi).1
    have hg : (ts.map (·.1))[i]? = some ch := by rw [List.getElem?_map, hi]; rfl
    unfold Disk.track
    rw [if_neg (by omega), h.maps _ hh, (idxs_get ho' ch i).2 hg]
    simp only [Option.bind_some]
    rw [h.pool, List.getElem?_map, hi]
    rfl
  · intro ch t ht
    unfold Disk.track at ht
    by_cases hh : ch.h < 2
    · rw [if_neg (by omega), h.maps _ hh] at ht
      simp only [Except.ok.injEq] at ht
      rcases hi : (idxs (ts.map (·.1)) ch.h)[ch.c]? with _ | i
      · rw [hi] at ht; cases ht
      · have := (idxs_get ho' ch i).1 hi
        rw [List.getElem?_map] at this
        rcases hx : ts[i]? with _ | x
        · rw [hx] at this; cases this
        · rw [hx] at this
          simp only [Option.map_some, Option.some.injEq] at this
          exact ⟨x.2, by rw [← this]; exact List.mem_of_getElem? hx⟩
    · rw [if_pos (by omega)] at ht; cases ht

/-- Reading by a query: the first sector of the track that agrees with it. -/
theorem HasTracks.read {d : Disk} {ts : List (Ch × List MetaSector)} (h : HasTracks d ts) {ch : Ch}
    {pre post : List MetaSector} {s : MetaSector} (hm : (ch, pre ++ s :: post) ∈ ts) (nz : Noise) (q : Query)
    (n off : Option Nat) (dbg : Bool) (hpre : ∀ x ∈ pre, agrees q x.id = false) (hs : agrees q s.id = true)
    (hnd : s.noDam = false) (hw : ∀ b ∈ s.weak.mask, b = 0#8) (hho : ∀ b ∈ s.hole.mask, b = 0#8) :
    ∃ r, d.readSector nz ch q n off .dataOnly dbg = .ok r ∧ r.notFound = false ∧ r.noDam = false ∧
      r.idChsn = some s.id ∧ r.readBuf = s.data ∧ r.dataRange = (0, s.data.length) ∧
      r.deletedMark = s.deletedMark ∧ r.addressCrcError = s.addressError ∧ r.dataCrcError = s.dataError := by
  have ht := h.there ch _ hm
  have hseek : ∃ i, d.seek ch = .ok (i, .sect { ch := ch, sectors := pre ++ s :: post }) := by
    unfold Disk.track at ht
    unfold Disk.seek
    by_cases hh : ch.h ≥ 2
    · rw [if_pos hh] at ht; cases ht
    · rw [if_neg hh] at ht
      rw [if_neg (by omega)]
      simp only [Except.ok.injEq] at ht
      rcases hi : (d.headMap ch.h)[ch.c]? with _ | i
      · rw [hi] at ht; cases ht
      · rw [hi] at ht
        simp only [Option.bind_some] at ht
        simp only [ht]
        exact ⟨i, rfl⟩
  obtain ⟨i, hseek⟩ := hseek
  have hmat : ∃ l, (MetaTrack.mk ch (pre ++ s :: post)).matching q = s :: l := by
    unfold MetaTrack.matching
    rw [List.filter_append, List.filter_eq_nil_iff.2, List.nil_append, List.filter_cons, if_pos]
    · exact ⟨_, rfl⟩
    · rw [matchesB_eq]; exact hs
    · intro x hx
      rw [matchesB_eq, hpre x hx]; decide
  obtain ⟨l, hmat⟩ := hmat
  unfold Disk.readSector
  rw [hseek]
  simp only
  unfold DiskTrack.readSector MetaTrack.readSector
  simp only [hmat]
  unfold MetaSector.readData
  rw [hnd, if_neg (by decide), applyMasks_zero _ _ _ _ _ hw hho]
  simp only
  exact ⟨_, rfl, rfl, rfl, rfl, rfl, rfl, rfl, rfl, rfl⟩

end Fox
