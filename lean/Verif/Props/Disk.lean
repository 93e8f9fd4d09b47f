import Verif.Spec.Disk
import Verif.Model.Disk
/-
C23 and C24: the track tables and the resolution of a disk image.
-/
namespace Fox
open Fox.Spec

/-! ### What each operation does to pool and tables -/

theorem headMap_pushMap (d : Disk) (h i k : Nat) (hk : k < 2) (hh : h < 2) :
    (d.pushMap h i).headMap k = if k = h then d.headMap k ++ [i] else d.headMap k := by
  unfold Disk.pushMap Disk.headMap
  by_cases h0 : h = 0
  · subst h0; by_cases hk0 : k = 0 <;> simp [hk0]
  · have : h = 1 := by omega
    subst this
    by_cases hk0 : k = 0
    · simp [hk0]
    · have : k = 1 := by omega
      simp [this]

theorem headMap_pushTrack (d : Disk) (h k : Nat) (t : DiskTrack) (hk : k < 2) (hh : h < 2) :
    (d.pushTrack h t).headMap k = if k = h then d.headMap k ++ [d.pool.length] else d.headMap k := by
  unfold Disk.pushTrack
  rw [headMap_pushMap _ _ _ _ hk hh]; rfl

theorem pool_pushTrack (d : Disk) (h : Nat) (t : DiskTrack) : (d.pushTrack h t).pool = d.pool ++ [t] := by
  unfold Disk.pushTrack Disk.pushMap; split <;> rfl

theorem res_pushTrack (d : Disk) (h : Nat) (t : DiskTrack) : (d.pushTrack h t).res = d.res := by
  unfold Disk.pushTrack Disk.pushMap; split <;> rfl

theorem multires_pushTrack (d : Disk) (h : Nat) (t : DiskTrack) : (d.pushTrack h t).multires = d.multires := by
  unfold Disk.pushTrack Disk.pushMap; split <;> rfl

/-- An addition either leaves pool and tables alone or appends one track, recorded with the requested
position, to the pool and to the table of its head. -/
theorem add_cases (d : Disk) (op : DiskOp) (hop : op.Adds) :
    ∃ rs : ResSet, diskStep d op = { d with res := rs } ∧ (diskErr d op).isSome ∨
      ∃ (t : DiskTrack), t.ch.h < 2 ∧ diskErr d op = none ∧
        diskStep d op = ({ d with res := rs } : Disk).pushTrack t.ch.h t ∧
        rs = op.asks.elim d.res d.res.insert ∧
        (∀ r, op.asks = some r → d.rejects r = false) ∧
        (t.resolution = (rs.min.getD .bitStream) ∨ op.asks = some t.resolution) ∧
        (op.AtNext d → t.ch.c = (d.headMap t.ch.h).length) := by
  cases op with
  | addBit ch made =>
    by_cases h2 : ch.h ≥ 2
    · refine ⟨d.res, Or.inl ?_⟩; simp [diskStep, diskErr, Disk.addBit, h2, diskErr.errOf]
    · by_cases hr : d.rejects .bitStream = true
      · refine ⟨d.res, Or.inl ?_⟩; simp [diskStep, diskErr, Disk.addBit, h2, hr, diskErr.errOf]
      · refine ⟨d.res.insert .bitStream, ?_⟩
        cases made with
        | error e => left; simp [diskStep, diskErr, Disk.addBit, h2, hr, diskErr.errOf]
        | ok t =>
          right
          refine ⟨.bit ch t, by simp only [DiskTrack.ch]; omega, ?_, ?_, rfl, ?_, Or.inr rfl, fun h => h⟩
          · simp [diskErr, Disk.addBit, h2, hr, diskErr.errOf]
          · simp [diskStep, Disk.addBit, h2, hr, DiskTrack.ch]
          · intro r h; cases h; simpa using hr
  | addMeta ch =>
    by_cases h2 : ch.h ≥ 2
    · refine ⟨d.res, Or.inl ?_⟩; simp [diskStep, diskErr, Disk.addMeta, h2, diskErr.errOf]
    · by_cases hr : d.rejects .metaSector = true
      · refine ⟨d.res, Or.inl ?_⟩; simp [diskStep, diskErr, Disk.addMeta, h2, hr, diskErr.errOf]
      · refine ⟨d.res.insert .metaSector, Or.inr ⟨.sect { ch := ch }, ?_, ?_, ?_, rfl, ?_, Or.inr rfl,
          fun h => h⟩⟩
        · simp only [DiskTrack.ch]; omega
        · simp [diskErr, Disk.addMeta, h2, hr, diskErr.errOf]
        · simp [diskStep, Disk.addMeta, h2, hr, DiskTrack.ch]
        · intro r h; cases h; simpa using hr
  | addFlux ch made =>
    by_cases h2 : ch.h ≥ 2
    · refine ⟨d.res, Or.inl ?_⟩; simp [diskStep, diskErr, Disk.addFlux, h2, diskErr.errOf]
    · by_cases hr : d.rejects .fluxStream = true
      · refine ⟨d.res, Or.inl ?_⟩; simp [diskStep, diskErr, Disk.addFlux, h2, hr, diskErr.errOf]
      · refine ⟨d.res.insert .fluxStream, ?_⟩
        cases made with
        | error e => left; simp [diskStep, diskErr, Disk.addFlux, h2, hr, diskErr.errOf]
        | ok t =>
          right
          refine ⟨.flux ch t, by simp only [DiskTrack.ch]; omega, ?_, ?_, rfl, ?_, Or.inr rfl, fun h => h⟩
          · simp [diskErr, Disk.addFlux, h2, hr, diskErr.errOf]
          · simp [diskStep, Disk.addFlux, h2, hr, DiskTrack.ch]
          · intro r h; cases h; simpa using hr
  | addEmpty ch enc res cells clock =>
    clear hop
    by_cases h2 : ch.h ≥ 2
    · refine ⟨d.res, Or.inl ?_⟩; simp [diskStep, diskErr, Disk.addEmpty, h2, diskErr.errOf]
    · have key : ∀ (rs : ResSet), rs.isEmpty = false →
          (∀ r, res = some r → d.rejects r = false) →
          rs = res.elim d.res d.res.insert →
          d.addEmpty ch enc res cells clock =
            (match rs.min with
              | some .bitStream =>
                if (d.headMap ch.h).length ≠ ch.c then ({ d with res := rs }, .error .parameter)
                else match Disk.emptyBit ch enc cells clock with
                  | .error e => ({ d with res := rs }, .error e)
                  | .ok t => (({ d with res := rs } : Disk).pushTrack ch.h t, .ok d.pool.length)
              | some .metaSector =>
                if (d.headMap ch.h).length ≠ ch.c then ({ d with res := rs }, .error .parameter)
                else (({ d with res := rs } : Disk).pushTrack ch.h (.sect { ch := ch }), .ok d.pool.length)
              | _ => ({ d with res := rs }, .error .incompatible)) := by
        intro rs hne hrej hrs
        unfold Disk.addEmpty
        rw [if_neg h2]
        cases res with
        | none =>
          simp only [Option.elim] at hrs
          subst hrs
          rw [if_neg (by simpa using hne)]
          rfl
        | some r =>
          simp only [Option.elim] at hrs
          subst hrs
          rw [if_neg (by simpa using hrej r rfl)]
          rfl
      by_cases hrej : (match res with | some r => d.rejects r | none => d.res.isEmpty) = true
      · refine ⟨d.res, Or.inl ?_⟩
        have : d.addEmpty ch enc res cells clock = (d, .error .incompatible) := by
          unfold Disk.addEmpty
          rw [if_neg h2]
          cases res with
          | none => exact if_pos hrej
          | some r => exact if_pos hrej
        simp [diskStep, diskErr, this, diskErr.errOf]
      · let rs : ResSet := res.elim d.res d.res.insert
        have hne : rs.isEmpty = false := by
          show (res.elim d.res d.res.insert).isEmpty = false
          cases res with
          | none => simpa using hrej
          | some r => cases r <;> simp [ResSet.insert, ResSet.isEmpty]
        have hk := key rs hne (by intro r h; subst h; simpa using hrej) rfl
        refine ⟨rs, ?_⟩
        have hasks : (DiskOp.addEmpty ch enc res cells clock).asks = res := rfl
        have hrejs : ∀ r, res = some r → d.rejects r = false := by
          intro r h; subst h; simpa using hrej
        simp only [diskStep, diskErr, hasks]
        rw [hk]
        generalize hmin : rs.min = m
        cases m with
        | none => left; simp [diskErr.errOf]
        | some m =>
          cases m with
          | fluxStream => left; simp [diskErr.errOf]
          | metaSector =>
            by_cases hl : (d.headMap ch.h).length = ch.c
            · right
              refine ⟨.sect { ch := ch }, ?_, ?_, ?_, rfl, hrejs, Or.inl rfl, fun _ => hl.symm⟩
              · simp only [DiskTrack.ch]; omega
              · simp [hl, diskErr.errOf]
              · simp [hl, DiskTrack.ch]
            · left; simp [hl, diskErr.errOf]
          | bitStream =>
            by_cases hl : (d.headMap ch.h).length = ch.c
            · generalize he : Disk.emptyBit ch enc cells clock = et
              cases et with
              | error e => left; simp [hl, diskErr.errOf]
              | ok t =>
                right
                have ht : t.ch = ch ∧ t.resolution = .bitStream := by
                  unfold Disk.emptyBit at he
                  cases clock with
                  | none =>
                    cases enc with
                    | mfm =>
                      simp only [bind, Except.bind] at he
                      generalize Mfm.new (List.replicate cells false) none none = z at he
                      cases z with
                      | error e => cases he
                      | ok z => simp only [pure, Except.pure] at he; cases he; exact ⟨rfl, rfl⟩
                    | fm => cases he; exact ⟨rfl, rfl⟩
                    | gcr => cases he; exact ⟨rfl, rfl⟩
                  | some b =>
                    cases enc with
                    | mfm =>
                      simp only [bind, Except.bind] at he
                      generalize Mfm.new ((List.range cells).map fun i => i % 2 == b.toNat) none none = z at he
                      cases z with
                      | error e => cases he
                      | ok z => simp only [pure, Except.pure] at he; cases he; exact ⟨rfl, rfl⟩
                    | fm => cases he; exact ⟨rfl, rfl⟩
                    | gcr => cases he
                refine ⟨t, by rw [ht.1]; omega, ?_, ?_, rfl, hrejs, Or.inl ht.2, fun _ => by rw [ht.1]; exact hl.symm⟩
                · simp [hl, diskErr.errOf]
                · simp [hl, ht.1]
            · left; simp [hl, diskErr.errOf]
  | _ => exact absurd hop id

/-- A sector write or a track format changes nothing but the contents of one track. -/
theorem touch_cases (d : Disk) (op : DiskOp) (hop : ¬ op.Adds) (hr : ¬ op.Removes) (hreset : op ≠ .reset) :
    (diskStep d op).map0 = d.map0 ∧ (diskStep d op).map1 = d.map1 ∧ (diskStep d op).res = d.res ∧
    (diskStep d op).multires = d.multires ∧
    ((diskStep d op).pool = d.pool ∨ ∃ i t t', d.pool[i]? = some t ∧ t'.ch = t.ch ∧
      t'.resolution = t.resolution ∧ (diskStep d op).pool = d.pool.set i t') := by
  have hseek : ∀ ch i t, d.seek ch = .ok (i, t) → d.pool[i]? = some t := by
    intro ch i t h
    unfold Disk.seek at h
    split at h
    · cases h
    · split at h
      · cases h
      · split at h
        · cases h
        · rename_i h2; cases h; exact h2
  cases op with
  | write ch q off buf del dbg =>
    simp only [diskStep, Disk.writeSector]
    cases hs : d.seek ch with
    | error e => simp
    | ok p =>
      obtain ⟨i, t⟩ := p
      have hp := hseek ch i t hs
      simp only
      cases hw : t.writeSector q off buf del dbg with
      | error e => simp
      | ok r =>
        refine ⟨rfl, rfl, rfl, rfl, Or.inr ⟨i, t, r.2, hp, ?_⟩⟩
        cases t with
        | bit c t =>
          simp only [DiskTrack.writeSector] at hw
          cases hz : t.writeSector q off buf del dbg with
          | error e => rw [hz] at hw; cases hw
          | ok z => rw [hz] at hw; cases hw; exact ⟨rfl, rfl, rfl⟩
        | sect t =>
          simp only [DiskTrack.writeSector] at hw
          cases hz : t.writeSector q buf del with
          | error e => rw [hz] at hw; cases hw
          | ok z =>
            rw [hz] at hw; cases hw
            refine ⟨?_, rfl, rfl⟩
            simp only [DiskTrack.ch]
            unfold MetaTrack.writeSector at hz
            split at hz
            · cases hz; rfl
            · split at hz
              · cases hz
              · simp only at hz
                split at hz
                · cases hz; rfl
                · split at hz
                  · cases hz
                  · cases hz; rfl
            · cases hz
        | flux c t =>
          cases t with
          | none => cases hw
          | some t =>
            simp only [DiskTrack.writeSector] at hw
            cases hz : t.writeSector q off buf del dbg with
            | error e => rw [hz] at hw; cases hw
            | ok z => rw [hz] at hw; cases hw; exact ⟨rfl, rfl, rfl⟩
        | other c => cases hw
  | format nz ch ids pat gap3 =>
    simp only [diskStep, Disk.formatTrack]
    cases hs : d.seek ch with
    | error e => simp
    | ok p =>
      obtain ⟨i, t⟩ := p
      have hp := hseek ch i t hs
      simp only
      cases hw : t.format nz .iso ids pat gap3 with
      | error e => simp
      | ok r =>
        refine ⟨rfl, rfl, rfl, rfl, Or.inr ⟨i, t, r, hp, ?_⟩⟩
        cases t with
        | bit c t =>
          simp only [DiskTrack.format] at hw
          cases hz : t.format nz.bit .iso ids pat gap3 with
          | error e => rw [hz] at hw; cases hw
          | ok z => rw [hz] at hw; cases hw; exact ⟨rfl, rfl, rfl⟩
        | sect t => cases hw
        | flux c t =>
          cases t with
          | none => cases hw
          | some t =>
            simp only [DiskTrack.format] at hw
            cases hz : t.format nz.bit .iso ids pat gap3 with
            | error e => rw [hz] at hw; cases hw
            | ok z => rw [hz] at hw; cases hw; exact ⟨rfl, rfl, rfl⟩
        | other c => cases hw
  | reset => exact absurd rfl hreset
  | addBit => exact absurd trivial hop
  | addMeta => exact absurd trivial hop
  | addFlux => exact absurd trivial hop
  | addEmpty => exact absurd trivial hop
  | normalize => exact absurd trivial hr
  | removeEmpty => exact absurd trivial hr

/-! ### Renumbering -/

theorem setCh_ch (t : DiskTrack) (c : Ch) : (t.setCh c).ch = c := by cases t <;> rfl
theorem setCh_resolution (t : DiskTrack) (c : Ch) : (t.setCh c).resolution = t.resolution := by cases t <;> rfl

theorem remapHead_length : ∀ (l : List Nat) (c : Nat) (pool : List DiskTrack),
    (Disk.remapHead c l pool).length = pool.length
  | [], _, _ => rfl
  | i :: l, c, pool => by
    rw [Disk.remapHead, remapHead_length l]
    split
    · exact List.length_set
    · rfl

theorem remapHead_other : ∀ (l : List Nat) (c : Nat) (pool : List DiskTrack) (j : Nat), j ∉ l →
    (Disk.remapHead c l pool)[j]? = pool[j]?
  | [], _, _, _, _ => rfl
  | i :: l, c, pool, j, hj => by
    simp only [List.mem_cons, not_or] at hj
    rw [Disk.remapHead, remapHead_other l _ _ j hj.2]
    split
    · rw [List.getElem?_set_ne (by omega)]
    · rfl

theorem remapHead_same : ∀ (l : List Nat) (c : Nat) (pool : List DiskTrack) (j : Nat) (t : DiskTrack),
    pool[j]? = some t → ∃ t', (Disk.remapHead c l pool)[j]? = some t' ∧ t'.ch.h = t.ch.h ∧
      t'.resolution = t.resolution
  | [], _, _, _, t, h => ⟨t, h, rfl, rfl⟩
  | i :: l, c, pool, j, t, h => by
    rw [Disk.remapHead]
    by_cases hij : i = j
    · subst hij
      simp only [h]
      obtain ⟨t', h1, h2, h3⟩ := remapHead_same l (c + 1) (pool.set i (t.setCh ⟨c, t.ch.h⟩)) i
        (t.setCh ⟨c, t.ch.h⟩) (by
          have := (List.getElem?_eq_some_iff.1 h).1
          rw [List.getElem?_set_self this])
      exact ⟨t', h1, by rw [h2, setCh_ch], by rw [h3, setCh_resolution]⟩
    · apply remapHead_same l
      split
      · rw [List.getElem?_set_ne hij]; exact h
      · exact h

theorem remapHead_place : ∀ (l : List Nat) (c : Nat) (pool : List DiskTrack), l.Nodup →
    (∀ i ∈ l, i < pool.length) → ∀ k i, l[k]? = some i →
    ∃ t, (Disk.remapHead c l pool)[i]? = some t ∧ t.ch.c = c + k
  | [], _, _, _, _, k, i, h => by simp at h
  | j :: l, c, pool, hnd, hlt, k, i, h => by
    rw [Disk.remapHead]
    have hj := hlt j (by simp)
    have hjs : pool[j]? = some pool[j] := List.getElem?_eq_getElem hj
    simp only [hjs]
    simp only [List.nodup_cons] at hnd
    cases k with
    | zero =>
      simp at h; subst h
      rw [remapHead_other l _ _ _ hnd.1, List.getElem?_set_self hj]
      exact ⟨_, rfl, by rw [setCh_ch]; simp⟩
    | succ k =>
      obtain ⟨t, h1, h2⟩ := remapHead_place l (c + 1) (pool.set j (pool[j].setCh ⟨c, pool[j].ch.h⟩)) hnd.2
        (by intro i hi; rw [List.length_set]; exact hlt i (by simp [hi])) k i (by simpa using h)
      exact ⟨t, h1, by rw [h2]; omega⟩

theorem evens_sublist : ∀ l : List Nat, List.Sublist (Disk.evens l) l
  | [] => List.Sublist.slnil
  | [a] => List.Sublist.refl _
  | a :: b :: rest => by
    rw [Disk.evens]
    exact ((evens_sublist rest).cons b).cons_cons a

/-! ### C23 -/

theorem live_sub {d d' : Disk} (h : Live d) (h0 : d'.map0.Sublist d.map0) (h1 : d'.map1.Sublist d.map1)
    (hp : ∀ (i : Nat) (t : DiskTrack), d.pool[i]? = some t →
      ∃ t' : DiskTrack, d'.pool[i]? = some t' ∧ t'.ch.h = t.ch.h) : Live d' := by
  refine ⟨?_, List.Nodup.sublist (h0.append h1) h.once⟩
  intro k hk i hi
  have hi' : i ∈ d.headMap k := by
    unfold Disk.headMap at hi ⊢
    split at hi
    · rw [if_pos ‹_›]; exact h0.subset hi
    · rw [if_neg ‹_›]; exact h1.subset hi
  obtain ⟨t, h1, h2⟩ := h.live k hk i hi'
  obtain ⟨t', h3, h4⟩ := hp i t h1
  exact ⟨t', h3, h4.trans h2⟩

theorem live_lt {d : Disk} (h : Live d) {i : Nat} (hi : i ∈ d.map0 ++ d.map1) : i < d.pool.length := by
  rcases List.mem_append.1 hi with hi | hi
  · obtain ⟨t, h1, _⟩ := h.live 0 (by omega) i hi
    exact (List.getElem?_eq_some_iff.1 h1).1
  · obtain ⟨t, h1, _⟩ := h.live 1 (by omega) i hi
    exact (List.getElem?_eq_some_iff.1 h1).1

theorem maps_pushTrack (d : Disk) (h : Nat) (t : DiskTrack) (_ : h < 2) :
    (d.pushTrack h t).map0 = (if h = 0 then d.map0 ++ [d.pool.length] else d.map0) ∧
    (d.pushTrack h t).map1 = (if h = 0 then d.map1 else d.map1 ++ [d.pool.length]) := by
  unfold Disk.pushTrack Disk.pushMap
  by_cases h0 : h = 0 <;> simp [h0]

theorem live_push {d : Disk} (h : Live d) (t : DiskTrack) (ht : t.ch.h < 2) : Live (d.pushTrack t.ch.h t) := by
  have hnew : d.pool.length ∉ d.map0 ++ d.map1 := fun hm => Nat.lt_irrefl _ (live_lt h hm)
  constructor
  · intro k hk i hi
    rw [headMap_pushTrack _ _ _ _ hk ht] at hi
    rw [pool_pushTrack]
    have old : i ∈ d.headMap k → ∃ t' : DiskTrack, (d.pool ++ [t])[i]? = some t' ∧ t'.ch.h = k := by
      intro hi
      obtain ⟨t', h1, h2⟩ := h.live k hk i hi
      exact ⟨t', by rw [List.getElem?_append_left (List.getElem?_eq_some_iff.1 h1).1]; exact h1, h2⟩
    split at hi
    · rcases List.mem_append.1 hi with hi | hi
      · exact old hi
      · simp only [List.mem_singleton] at hi
        subst hi
        exact ⟨t, by simp, by rename_i e; exact e.symm⟩
    · exact old hi
  · obtain ⟨e0, e1⟩ := maps_pushTrack d t.ch.h t ht
    rw [e0, e1]
    have hn := h.once
    simp only [List.mem_append, not_or] at hnew
    split
    · rw [List.append_assoc, List.nodup_append] at *
      refine ⟨hn.1, ?_, ?_⟩
      · simp only [List.singleton_append, List.nodup_cons]
        exact ⟨hnew.2, hn.2.1⟩
      · intro a ha b hb
        simp only [List.singleton_append, List.mem_cons] at hb
        rcases hb with rfl | hb
        · rintro rfl; exact hnew.1 ha
        · exact hn.2.2 a ha b hb
    · rw [← List.append_assoc, List.nodup_append]
      refine ⟨hn, by simp, ?_⟩
      intro a ha b hb
      simp only [List.mem_singleton] at hb
      subst hb
      rintro rfl
      rcases List.mem_append.1 ha with ha | ha
      · exact hnew.1 ha
      · exact hnew.2 ha

theorem live_res {d : Disk} (h : Live d) (rs : ResSet) : Live { d with res := rs } := ⟨h.live, h.once⟩

theorem live_removeOdd {d : Disk} (h : Live d) (g : Ch) : Live ({ d.removeOdd with geometry := g } : Disk).remap := by
  refine live_sub h (evens_sublist _) (evens_sublist _) ?_
  intro i t hi
  obtain ⟨t1, h1, h2, _⟩ := remapHead_same (Disk.evens d.map0) 0 d.pool i t hi
  obtain ⟨t2, h3, h4, _⟩ := remapHead_same (Disk.evens d.map1) 0 _ i t1 h1
  exact ⟨t2, h3, h4.trans h2⟩

theorem live_step {d : Disk} (h : Live d) (op : DiskOp) : Live (diskStep d op) := by
  by_cases ha : op.Adds
  · obtain ⟨rs, ⟨h1, _⟩ | ⟨t, ht, _, h1, _⟩⟩ := add_cases d op ha
    · rw [h1]; exact live_res h rs
    · rw [h1]; exact live_push (live_res h rs) t ht
  · cases op with
    | normalize H nz =>
      simp only [diskStep, Disk.normalize]
      split
      · exact live_removeOdd h _
      · split
        · exact live_removeOdd h _
        · exact h
    | removeEmpty =>
      exact live_sub h List.filter_sublist List.filter_sublist (fun i t hi => ⟨t, hi, rfl⟩)
    | reset =>
      exact ⟨by intro k hk i hi; unfold Disk.headMap at hi; split at hi <;> exact absurd hi List.not_mem_nil,
      List.nodup_nil⟩
    | write ch q off buf del dbg =>
      obtain ⟨e0, e1, _, _, hp⟩ := touch_cases d (.write ch q off buf del dbg) ha id (by simp)
      refine live_sub h (by rw [e0]; exact List.Sublist.refl _) (by rw [e1]; exact List.Sublist.refl _) ?_
      intro i t hi
      rcases hp with hp | ⟨j, a, b, h1, h2, _, hp⟩
      · exact ⟨t, by rw [hp]; exact hi, rfl⟩
      · rw [hp]
        by_cases hij : j = i
        · subst hij
          rw [hi] at h1
          cases h1
          exact ⟨b, by rw [List.getElem?_set_self (List.getElem?_eq_some_iff.1 hi).1], by rw [h2]⟩
        · exact ⟨t, by rw [List.getElem?_set_ne hij]; exact hi, rfl⟩
    | format nz ch ids pat gap3 =>
      obtain ⟨e0, e1, _, _, hp⟩ := touch_cases d (.format nz ch ids pat gap3) ha id (by simp)
      refine live_sub h (by rw [e0]; exact List.Sublist.refl _) (by rw [e1]; exact List.Sublist.refl _) ?_
      intro i t hi
      rcases hp with hp | ⟨j, a, b, h1, h2, _, hp⟩
      · exact ⟨t, by rw [hp]; exact hi, rfl⟩
      · rw [hp]
        by_cases hij : j = i
        · subst hij
          rw [hi] at h1
          cases h1
          exact ⟨b, by rw [List.getElem?_set_self (List.getElem?_eq_some_iff.1 hi).1], by rw [h2]⟩
        · exact ⟨t, by rw [List.getElem?_set_ne hij]; exact hi, rfl⟩
    | addBit => exact absurd trivial ha
    | addMeta => exact absurd trivial ha
    | addFlux => exact absurd trivial ha
    | addEmpty => exact absurd trivial ha

theorem live_empty : Live {} :=
  ⟨by intro k hk i hi; unfold Disk.headMap at hi; split at hi <;> exact absurd hi List.not_mem_nil,
      List.nodup_nil⟩

theorem live_after : ∀ (ops : List DiskOp) (d : Disk), Live d → Live (diskAfter d ops)
  | [], _, h => h
  | op :: ops, _, h => live_after ops _ (live_step h op)

/-- C23, first part: whatever is done to an image — additions, writes, formats, removals — every table
entry points to a live track recorded under that head, and no track is listed twice. -/
theorem C23_tables_live_partial (ops : List DiskOp) : Live (diskAfter {} ops) := live_after ops _ live_empty

theorem listed_step {d : Disk} (h : AllListed d) (op : DiskOp) (hr : ¬ op.Removes) : AllListed (diskStep d op) := by
  by_cases ha : op.Adds
  · obtain ⟨rs, ⟨h1, _⟩ | ⟨t, ht, _, h1, _⟩⟩ := add_cases d op ha
    · rw [h1]; exact h
    · rw [h1]
      intro i hi
      rw [pool_pushTrack, List.length_append, List.length_singleton] at hi
      obtain ⟨e0, e1⟩ := maps_pushTrack ({ d with res := rs } : Disk) t.ch.h t ht
      rw [e0, e1]
      have hi' : i < d.pool.length ∨ i = d.pool.length := by
        have : ({ d with res := rs } : Disk).pool.length = d.pool.length := rfl
        omega
      rcases hi' with hi' | rfl
      · have := h i hi'
        simp only [List.mem_append] at this
        split <;> simp only [List.mem_append] <;> rcases this with h | h <;> simp [h]
      · split <;> simp
  · by_cases hreset : op = .reset
    · subst hreset; intro i hi; exact absurd hi (Nat.not_lt_zero i)
    · obtain ⟨e0, e1, _, _, hp⟩ := touch_cases d op ha hr hreset
      intro i hi
      rw [e0, e1]
      apply h
      rcases hp with hp | ⟨j, a, b, h1, h2, _, hp⟩
      · rw [hp] at hi; exact hi
      · rw [hp, List.length_set] at hi; exact hi

/-- C23, second part: as long as no track is removed, every track of the pool is listed. -/
theorem C23_all_listed_partial (ops : List DiskOp) (h : ∀ op ∈ ops, ¬ op.Removes) :
    AllListed (diskAfter {} ops) := by
  have key : ∀ (ops : List DiskOp) (d : Disk), (∀ op ∈ ops, ¬ op.Removes) → AllListed d →
      AllListed (diskAfter d ops) := by
    intro ops
    induction ops with
    | nil => intro d _ h; exact h
    | cons op ops ih =>
      intro d ho h
      exact ih _ (fun o hm => ho o (by simp [hm])) (listed_step h op (ho op (by simp)))
  exact key ops {} h (fun i hi => absurd hi (Nat.not_lt_zero i))

theorem inPlace_remap {d : Disk} (h : Live d) : InPlace d.remap := by
  intro k c i hk hc
  have hc' : (d.headMap k)[c]? = some i := hc
  have hmem : i ∈ d.headMap k := List.mem_of_getElem? hc'
  obtain ⟨t0, ht0, hh0⟩ := h.live k hk i hmem
  have hnd := List.nodup_append.1 h.once
  obtain ⟨a1, a2, a3, _⟩ := remapHead_same d.map0 0 d.pool i t0 ht0
  by_cases h0 : k = 0
  · subst h0
    obtain ⟨t, h1, h2⟩ := remapHead_place d.map0 0 d.pool hnd.1
      (fun j hj => live_lt h (by simp [hj])) c i hc'
    have hni : i ∉ d.map1 := fun hm => hnd.2.2 i hmem i hm rfl
    have hp := remapHead_other d.map1 0 (Disk.remapHead 0 d.map0 d.pool) i hni
    refine ⟨t, hp.trans h1, ?_⟩
    rw [a2] at h1; cases h1
    have e1 : a1.ch.c = c := by omega
    have e2 : a1.ch.h = 0 := by omega
    rw [← e1, ← e2]
  · have : k = 1 := by omega
    subst this
    obtain ⟨t, h1, h2⟩ := remapHead_place d.map1 0 (Disk.remapHead 0 d.map0 d.pool) hnd.2.1
      (fun j hj => by rw [remapHead_length]; exact live_lt h (by simp [hj])) c i hc'
    obtain ⟨b1, b2, b3, _⟩ := remapHead_same d.map1 0 (Disk.remapHead 0 d.map0 d.pool) i a1 a2
    refine ⟨t, h1, ?_⟩
    rw [b2] at h1; cases h1
    have e1 : t.ch.c = c := by omega
    have e2 : t.ch.h = 1 := by omega
    rw [← e1, ← e2]

theorem inPlace_step {d : Disk} (hl : Live d) (h : InPlace d) (op : DiskOp) (hat : op.AtNext d)
    (hre : op ≠ .removeEmpty) : InPlace (diskStep d op) := by
  by_cases ha : op.Adds
  · obtain ⟨rs, ⟨h1, _⟩ | ⟨t, ht, _, h1, _, _, _, hpos⟩⟩ := add_cases d op ha
    · rw [h1]; exact h
    · rw [h1]
      intro k c i hk hc
      rw [headMap_pushTrack _ _ _ _ hk ht] at hc
      rw [pool_pushTrack]
      have old : (d.headMap k)[c]? = some i → ∃ t' : DiskTrack, (d.pool ++ [t])[i]? = some t' ∧ t'.ch = ⟨c, k⟩ := by
        intro hi
        obtain ⟨t', h1, h2⟩ := h k c i hk hi
        exact ⟨t', by rw [List.getElem?_append_left (List.getElem?_eq_some_iff.1 h1).1]; exact h1, h2⟩
      split at hc
      · rename_i hkt
        rw [List.getElem?_append] at hc
        split at hc
        · exact old hc
        · rename_i hge
          have hlen : (({ d with res := rs } : Disk).headMap k).length = (d.headMap k).length := rfl
          rw [hlen] at hc hge
          have hc0 : c = (d.headMap k).length := by
            cases hcc : c - (d.headMap k).length with
            | zero => omega
            | succ n => rw [hcc] at hc; simp at hc
          subst hc0
          simp at hc
          refine ⟨t, by rw [← hc]; simp, ?_⟩
          have := hpos hat
          rw [← hkt] at this
          rw [← this]
          show t.ch = ⟨t.ch.c, k⟩
          rw [hkt]
      · exact old hc
  · cases op with
    | normalize H nz =>
      have hl2 : ∀ g, Live ({ d.removeOdd with geometry := g } : Disk) := fun g =>
        live_sub hl (evens_sublist _) (evens_sublist _) (fun i t hi => ⟨t, hi, rfl⟩)
      simp only [diskStep, Disk.normalize]
      split
      · exact inPlace_remap (hl2 _)
      · split
        · exact inPlace_remap (hl2 _)
        · exact h
    | removeEmpty => exact absurd rfl hre
    | reset => intro k c i hk hc; simp [diskStep, Disk.reset, Disk.headMap] at hc
    | write ch q off buf del dbg =>
      obtain ⟨e0, e1, _, _, hp⟩ := touch_cases d (.write ch q off buf del dbg) ha id (by simp)
      intro k c i hk hc
      have hc' : (d.headMap k)[c]? = some i := by
        unfold Disk.headMap at hc ⊢; rw [e0, e1] at hc; exact hc
      obtain ⟨t, hi, ht⟩ := h k c i hk hc'
      rcases hp with hp | ⟨j, a, b, h1, h2, _, hp⟩
      · exact ⟨t, by rw [hp]; exact hi, ht⟩
      · rw [hp]
        by_cases hij : j = i
        · subst hij
          rw [hi] at h1
          cases h1
          exact ⟨b, by rw [List.getElem?_set_self (List.getElem?_eq_some_iff.1 hi).1], by rw [h2]; exact ht⟩
        · exact ⟨t, by rw [List.getElem?_set_ne hij]; exact hi, ht⟩
    | format nz ch ids pat gap3 =>
      obtain ⟨e0, e1, _, _, hp⟩ := touch_cases d (.format nz ch ids pat gap3) ha id (by simp)
      intro k c i hk hc
      have hc' : (d.headMap k)[c]? = some i := by
        unfold Disk.headMap at hc ⊢; rw [e0, e1] at hc; exact hc
      obtain ⟨t, hi, ht⟩ := h k c i hk hc'
      rcases hp with hp | ⟨j, a, b, h1, h2, _, hp⟩
      · exact ⟨t, by rw [hp]; exact hi, ht⟩
      · rw [hp]
        by_cases hij : j = i
        · subst hij
          rw [hi] at h1
          cases h1
          exact ⟨b, by rw [List.getElem?_set_self (List.getElem?_eq_some_iff.1 hi).1], by rw [h2]; exact ht⟩
        · exact ⟨t, by rw [List.getElem?_set_ne hij]; exact hi, ht⟩
    | addBit => exact absurd trivial ha
    | addMeta => exact absurd trivial ha
    | addFlux => exact absurd trivial ha
    | addEmpty => exact absurd trivial ha

/-- C23, third part: if every `add_track_*` call names the next free cylinder of its head (calls of
`add_empty_track` are free) and `remove_empty_tracks` is not used, every listed track records its own
position — also after normalisation has dropped the odd tracks. -/
theorem C23_positions_partial (ops : List DiskOp) (hnext : AllAtNext {} ops) (hre : .removeEmpty ∉ ops) :
    InPlace (diskAfter {} ops) := by
  have key : ∀ (ops : List DiskOp) (d : Disk), AllAtNext d ops → .removeEmpty ∉ ops → Live d → InPlace d →
      InPlace (diskAfter d ops) := by
    intro ops
    induction ops with
    | nil => intro d _ _ _ h; exact h
    | cons op ops ih =>
      intro d hn hr hl h
      simp only [List.mem_cons, not_or] at hr
      exact ih _ hn.2 hr.2 (live_step hl op) (inPlace_step hl h op hn.1 (fun e => hr.1 e.symm))
  exact key ops {} hnext hre live_empty (by intro k c i hk hc; unfold Disk.headMap at hc; split at hc <;> simp at hc)

/-- After a successful addition at the next free cylinder, `track` at that position returns the new track,
and every other position is as before. -/
theorem C23_added_track (d : Disk) (op : DiskOp) (hop : op.Adds) (hl : Live d) (herr : diskErr d op = none)
    (hat : op.AtNext d) :
    ∃ t : DiskTrack, (diskStep d op).track t.ch = .ok (some t) ∧ t.ch.h < 2 ∧
      t.ch.c = (d.headMap t.ch.h).length ∧
      ∀ ch, ch ≠ t.ch → (diskStep d op).track ch = d.track ch := by
  obtain ⟨rs, ⟨_, h1⟩ | ⟨t, ht, _, h1, _, _, _, hpos⟩⟩ := add_cases d op hop
  · rw [herr] at h1; cases h1
  · have hp := hpos hat
    refine ⟨t, ?_, ht, hp, ?_⟩
    · rw [h1]
      unfold Disk.track
      rw [if_neg (by omega), headMap_pushTrack _ _ _ _ ht ht, if_pos rfl, pool_pushTrack, hp]
      show Except.ok ((d.headMap t.ch.h ++ [d.pool.length])[(d.headMap t.ch.h).length]?.bind _) = _
      rw [List.getElem?_concat_length]
      show Except.ok ((d.pool ++ [t])[d.pool.length]?) = _
      rw [List.getElem?_concat_length]
    · intro ch hch
      rw [h1]
      unfold Disk.track
      by_cases h2 : ch.h ≥ 2
      · rw [if_pos h2, if_pos h2]
      · rw [if_neg h2, if_neg h2, headMap_pushTrack _ _ _ _ (by omega) ht, pool_pushTrack]
        have hold : ∀ j, (d.headMap ch.h)[ch.c]? = some j → (d.pool ++ [t])[j]? = d.pool[j]? := by
          intro j hj
          obtain ⟨t', h3, _⟩ := hl.live ch.h (by omega) j (List.mem_of_getElem? hj)
          rw [List.getElem?_append_left (List.getElem?_eq_some_iff.1 h3).1]
        show Except.ok ((if ch.h = t.ch.h then d.headMap ch.h ++ [d.pool.length] else d.headMap ch.h)[ch.c]?.bind
          fun i => (d.pool ++ [t])[i]?) = Except.ok ((d.headMap ch.h)[ch.c]?.bind fun i => d.pool[i]?)
        have fin : ((d.headMap ch.h)[ch.c]?.bind fun i => (d.pool ++ [t])[i]?) =
            (d.headMap ch.h)[ch.c]?.bind fun i => d.pool[i]? := by
          cases hj : (d.headMap ch.h)[ch.c]? with
          | none => rfl
          | some j => exact hold j hj
        split
        · rename_i hh
          have hc : ch.c ≠ (d.headMap ch.h).length := by
            intro hc
            apply hch
            rcases ch with ⟨c, k⟩
            simp only at hc hh
            subst hh
            rw [hc, ← hp]
          have : (d.headMap ch.h ++ [d.pool.length])[ch.c]? = (d.headMap ch.h)[ch.c]? := by
            by_cases hlt : ch.c < (d.headMap ch.h).length
            · rw [List.getElem?_append_left hlt]
            · rw [List.getElem?_eq_none (by rw [List.length_append, List.length_singleton]; omega),
                List.getElem?_eq_none (by omega)]
          rw [this, fin]
        · rw [fin]

/-- A history that meets the hypotheses: two sides, two cylinders, a metasector disk. -/
example : AllAtNext {} [.addMeta ⟨0, 0⟩, .addMeta ⟨0, 1⟩, .addEmpty ⟨1, 0⟩ .mfm none 100000 (some false),
      .addEmpty ⟨5, 1⟩ .mfm none 100000 none] ∧
    (diskAfter {} [.addMeta ⟨0, 0⟩, .addMeta ⟨0, 1⟩, .addEmpty ⟨1, 0⟩ .mfm none 100000 (some false),
      .addEmpty ⟨5, 1⟩ .mfm none 100000 none]).pool.length = 3 :=
  ⟨⟨rfl, rfl, trivial, trivial, trivial⟩, rfl⟩

/-- REFUTED part of C23: `add_track_metasector` (as `add_track_bitstream`, `add_track_fluxstream`) does not
check the position, so a track recorded as cylinder 7 can be listed as cylinder 0. -/
theorem C23_false_positions : ∃ ops : List DiskOp, (∀ op ∈ ops, op.Adds) ∧ ¬ InPlace (diskAfter {} ops) := by
  refine ⟨[.addMeta ⟨7, 0⟩], by simp [DiskOp.Adds], ?_⟩
  intro h
  obtain ⟨t, h1, h2⟩ := h 0 0 0 (by omega) rfl
  cases h1
  cases h2

/-- REFUTED part of C23: removing tracks leaves them in the pool unlisted, and `remove_empty_tracks` does
not renumber the others. -/
theorem C23_false_removal : ∃ ops : List DiskOp, AllAtNext {} ops ∧ ¬ AllListed (diskAfter {} ops) ∧
    ∃ d : Disk, InPlace d ∧ Live d ∧ ¬ InPlace d.removeEmpty := by
  refine ⟨[.addMeta ⟨0, 0⟩, .removeEmpty], ⟨rfl, trivial, trivial⟩, ?_, ?_⟩
  · intro h
    exact absurd (h 0 (by decide)) (by decide)
  · let s : MetaSector := ⟨⟨1, 0, 1, 2⟩, false, false, false, false, [], .empty 0, .empty 0⟩
    let d : Disk := { pool := [.sect ⟨⟨0, 0⟩, []⟩, .sect ⟨⟨1, 0⟩, [s]⟩], map0 := [0, 1] }
    refine ⟨d, ?_, ⟨?_, by decide⟩, ?_⟩
    · intro h c i hh hc
      rcases h with _ | _ | h
      · rcases c with _ | _ | c
        · cases hc; exact ⟨_, rfl, rfl⟩
        · cases hc; exact ⟨_, rfl, rfl⟩
        · simp [d, Disk.headMap] at hc
      · simp [d, Disk.headMap] at hc
      · omega
    · intro h hh i hi
      rcases h with _ | _ | h
      · simp only [d, Disk.headMap, if_true, List.mem_cons, List.not_mem_nil, or_false] at hi
        rcases hi with rfl | rfl <;> exact ⟨_, rfl, rfl⟩
      · simp [d, Disk.headMap] at hi
      · omega
    · intro h
      obtain ⟨t, h1, h2⟩ := h 0 0 1 (by omega) rfl
      cases h1
      cases h2

/-! ### C24 -/

/-- The disk has one resolution and all its tracks have it, or it has no track and no resolution. -/
def OneRes (d : Disk) : Prop :=
  (d.res = {} ∧ d.pool = []) ∨ ∃ r, d.res = ResSet.insert {} r ∧ ∀ t ∈ d.pool, t.resolution = r

theorem insert_min (r : Resolution) : (ResSet.insert {} r).min = some r := by cases r <;> rfl

theorem oneRes_step {d : Disk} (hm : d.multires = false) (h : OneRes d) (op : DiskOp) :
    OneRes (diskStep d op) ∧ (diskStep d op).multires = false := by
  have hrej : ∀ r r', d.res = ResSet.insert {} r' → d.rejects r = false → r = r' := by
    intro r r' h1 h2
    unfold Disk.rejects at h2
    rw [hm, h1] at h2
    cases r <;> cases r' <;> first | rfl | (revert h2; decide)
  have hins : ∀ r, ResSet.insert (ResSet.insert {} r) r = ResSet.insert {} r := by intro r; cases r <;> rfl
  by_cases ha : op.Adds
  · have locked : ∀ r, op.asks = some r → d.rejects r = false →
        d.res.insert r = ResSet.insert {} r ∧ ∀ t ∈ d.pool, t.resolution = r := by
      intro r hr hrj
      rcases h with ⟨h1, h2⟩ | ⟨r', h1, h2⟩
      · rw [h1, h2]; exact ⟨rfl, by simp⟩
      · have := hrej r r' h1 hrj
        subst this
        rw [h1]; exact ⟨hins r, h2⟩
    obtain ⟨rs, ⟨h1, herr⟩ | ⟨t, ht, _, h1, hrs, hrj, hres, _⟩⟩ := add_cases d op ha
    · -- a failed addition: find out what happened to the resolution set
      refine ⟨?_, by rw [h1]; exact hm⟩
      have hpool : (diskStep d op).pool = d.pool := by rw [h1]
      have hr : (diskStep d op).res = d.res ∨
          ∃ r, d.rejects r = false ∧ op.asks = some r ∧ (diskStep d op).res = d.res.insert r := by
        cases op with
        | addBit ch made =>
          simp only [diskStep, Disk.addBit]
          by_cases h2 : ch.h ≥ 2
          · left; rw [if_pos h2]
          · rw [if_neg h2]
            by_cases h3 : d.rejects .bitStream = true
            · left; rw [if_pos h3]
            · right
              rw [if_neg h3]
              refine ⟨.bitStream, by simpa using h3, rfl, ?_⟩
              cases made with
              | error => rfl
              | ok => exact res_pushTrack _ _ _
        | addMeta ch =>
          simp only [diskStep, Disk.addMeta]
          by_cases h2 : ch.h ≥ 2
          · left; rw [if_pos h2]
          · rw [if_neg h2]
            by_cases h3 : d.rejects .metaSector = true
            · left; rw [if_pos h3]
            · right
              rw [if_neg h3]
              exact ⟨.metaSector, by simpa using h3, rfl, res_pushTrack _ _ _⟩
        | addFlux ch made =>
          simp only [diskStep, Disk.addFlux]
          by_cases h2 : ch.h ≥ 2
          · left; rw [if_pos h2]
          · rw [if_neg h2]
            by_cases h3 : d.rejects .fluxStream = true
            · left; rw [if_pos h3]
            · right
              rw [if_neg h3]
              refine ⟨.fluxStream, by simpa using h3, rfl, ?_⟩
              cases made with
              | error => rfl
              | ok => exact res_pushTrack _ _ _
        | addEmpty ch enc res cells clock =>
          have hfin : ∀ d' : Disk, (match d'.res.min with
              | some .bitStream =>
                if (d'.headMap ch.h).length ≠ ch.c then (d', Except.error Err.parameter)
                else match Disk.emptyBit ch enc cells clock with
                  | .error e => (d', .error e)
                  | .ok t => (d'.pushTrack ch.h t, .ok d'.pool.length)
              | some .metaSector =>
                if (d'.headMap ch.h).length ≠ ch.c then (d', .error .parameter)
                else (d'.pushTrack ch.h (.sect { ch := ch }), .ok d'.pool.length)
              | _ => (d', .error .incompatible)).1.res = d'.res := by
            intro d'
            split
            · split
              · rfl
              · split
                · rfl
                · exact res_pushTrack _ _ _
            · split
              · rfl
              · exact res_pushTrack _ _ _
            · rfl
          by_cases h2 : ch.h ≥ 2
          · left; simp [diskStep, Disk.addEmpty, h2]
          · cases res with
            | none =>
              left
              simp only [diskStep, Disk.addEmpty]
              rw [if_neg h2]
              by_cases h3 : d.res.isEmpty = true
              · rw [if_pos h3]
              · rw [if_neg h3]; exact hfin d
            | some r =>
              simp only [diskStep, Disk.addEmpty]
              rw [if_neg h2]
              by_cases h3 : d.rejects r = true
              · left; rw [if_pos h3]
              · right
                rw [if_neg h3]
                exact ⟨r, by simpa using h3, rfl, hfin { d with res := d.res.insert r }⟩
        | _ => exact absurd ha id
      unfold OneRes
      rw [hpool]
      rcases hr with hr | ⟨r, hr1, hr2, hr3⟩
      · rw [hr]; exact h
      · obtain ⟨h4, h5⟩ := locked r hr2 hr1
        right
        exact ⟨r, by rw [hr3, h4], h5⟩
    · refine ⟨?_, by rw [h1, multires_pushTrack]; exact hm⟩
      right
      rw [h1, res_pushTrack, pool_pushTrack]
      show ∃ r, rs = _ ∧ ∀ t' ∈ d.pool ++ [t], t'.resolution = r
      have hone : ∃ r, rs = ResSet.insert {} r ∧ (∀ t' ∈ d.pool, t'.resolution = r) ∧
          (op.asks = none ∨ op.asks = some r) := by
        cases hk : op.asks with
        | some r =>
          rw [hk] at hrs
          obtain ⟨h4, h5⟩ := locked r hk (hrj r hk)
          exact ⟨r, by rw [hrs]; exact h4, h5, Or.inr rfl⟩
        | none =>
          rw [hk] at hrs
          rcases h with ⟨h2, h3⟩ | ⟨r', h2, h3⟩
          · exfalso
            -- an addition with no resolution on a disk without one fails
            cases op with
            | addEmpty ch enc res cells clock =>
              simp only [DiskOp.asks] at hk
              subst hk
              rename_i herr _
              have : d.res.isEmpty = true := by rw [h2]; rfl
              have : d.addEmpty ch enc none cells clock = (d, .error .seek) ∨
                  d.addEmpty ch enc none cells clock = (d, .error .incompatible) := by
                unfold Disk.addEmpty
                by_cases hh : ch.h ≥ 2
                · left; rw [if_pos hh]
                · right; rw [if_neg hh]; exact if_pos this
              have he : diskErr d (.addEmpty ch enc none cells clock) ≠ none := by
                simp only [diskErr]
                rcases this with h | h <;> rw [h] <;> simp [diskErr.errOf]
              exact he (by assumption)
            | addBit => cases hk
            | addMeta => cases hk
            | addFlux => cases hk
            | _ => exact absurd ha id
          · exact ⟨r', by rw [hrs]; exact h2, h3, Or.inl rfl⟩
      obtain ⟨r, h4, h5, h6⟩ := hone
      refine ⟨r, h4, ?_⟩
      intro t' ht'
      rcases List.mem_append.1 ht' with ht' | ht'
      · exact h5 t' ht'
      · simp only [List.mem_singleton] at ht'
        subst ht'
        rcases hres with hres | hres
        · rw [hres, h4, insert_min]; rfl
        · rcases h6 with h6 | h6
          · rw [h6] at hres; cases hres
          · rw [h6] at hres; cases hres; rfl
  · have hsub : ∀ d' : Disk, d'.res = d.res → (∀ t' ∈ d'.pool, ∃ t ∈ d.pool, t'.resolution = t.resolution) →
        OneRes d' := by
      intro d' h1 h2
      rcases h with ⟨h3, h4⟩ | ⟨r, h3, h4⟩
      · left
        refine ⟨h1.trans h3, ?_⟩
        cases hp : d'.pool with
        | nil => rfl
        | cons a l =>
          obtain ⟨t, ht, _⟩ := h2 a (by simp [hp])
          rw [h4] at ht; cases ht
      · right
        refine ⟨r, h1.trans h3, ?_⟩
        intro t' ht'
        obtain ⟨t, ht, e⟩ := h2 t' ht'
        rw [e]; exact h4 t ht
    have hremap : ∀ l c (pool : List DiskTrack), ∀ t' ∈ Disk.remapHead c l pool, ∃ t ∈ pool, t'.resolution = t.resolution := by
      intro l c pool t' ht'
      obtain ⟨j, hj⟩ := List.mem_iff_getElem?.1 ht'
      have hlt := (List.getElem?_eq_some_iff.1 hj).1
      rw [remapHead_length] at hlt
      obtain ⟨t, h1, _, h3⟩ := remapHead_same l c pool j pool[j] (List.getElem?_eq_getElem hlt)
      rw [hj] at h1; cases h1
      exact ⟨_, List.getElem_mem hlt, h3⟩
    have hodd : ∀ g, OneRes ({ d.removeOdd with geometry := g } : Disk).remap := by
      intro g
      refine hsub _ rfl ?_
      intro t' ht'
      obtain ⟨t1, h1, e1⟩ := hremap _ _ _ t' ht'
      obtain ⟨t2, h2, e2⟩ := hremap _ _ _ t1 h1
      exact ⟨t2, h2, e1.trans e2⟩
    by_cases hr : op.Removes
    · cases op with
      | normalize H nz =>
        simp only [diskStep, Disk.normalize]
        split
        · exact ⟨hodd _, hm⟩
        · split
          · exact ⟨hodd _, hm⟩
          · exact ⟨h, hm⟩
      | removeEmpty => exact ⟨hsub _ rfl (fun t ht => ⟨t, ht, rfl⟩), hm⟩
      | _ => exact absurd hr id
    · by_cases hreset : op = .reset
      · subst hreset
        exact ⟨hsub _ rfl (by intro t ht; exact absurd ht List.not_mem_nil), rfl⟩
      · obtain ⟨_, _, e2, e3, hp⟩ := touch_cases d op ha hr hreset
        refine ⟨hsub _ e2 ?_, by rw [e3]; exact hm⟩
        intro t' ht'
        rcases hp with hp | ⟨j, a, b, h1, _, h2, hp⟩
        · rw [hp] at ht'; exact ⟨t', ht', rfl⟩
        · rw [hp] at ht'
          rcases List.mem_or_eq_of_mem_set ht' with ht' | rfl
          · exact ⟨t', ht', rfl⟩
          · exact ⟨a, List.mem_of_getElem? h1, h2⟩

theorem oneRes_after : ∀ (ops : List DiskOp) (d : Disk), d.multires = false → OneRes d →
    OneRes (diskAfter d ops) ∧ (diskAfter d ops).multires = false
  | [], _, h1, h2 => ⟨h2, h1⟩
  | op :: ops, _, h1, h2 => oneRes_after ops _ (oneRes_step h1 h2 op).2 (oneRes_step h1 h2 op).1

/-- C24, first half: on an image that was never multi-resolution, all tracks ever added — whatever else
was done — have the same resolution. -/
theorem C24_one_resolution (ops : List DiskOp) (a b : DiskTrack) (ha : a ∈ (diskAfter {} ops).pool)
    (hb : b ∈ (diskAfter {} ops).pool) : a.resolution = b.resolution := by
  obtain ⟨h1, _⟩ := oneRes_after ops {} rfl (Or.inl ⟨rfl, rfl⟩)
  rcases h1 with ⟨_, h2⟩ | ⟨r, _, h2⟩
  · rw [h2] at ha; cases ha
  · rw [h2 a ha, h2 b hb]

/-- C24, second half: once the image holds a track, an addition that asks for another resolution fails and
changes nothing. -/
theorem C24_rejected_unchanged (ops : List DiskOp) (a : DiskTrack) (ha : a ∈ (diskAfter {} ops).pool)
    (op : DiskOp) (r : Resolution) (hr : op.asks = some r) (hne : r ≠ a.resolution) :
    diskStep (diskAfter {} ops) op = diskAfter {} ops ∧
      (diskErr (diskAfter {} ops) op = some .incompatible ∨ diskErr (diskAfter {} ops) op = some .seek) := by
  obtain ⟨h1, hm⟩ := oneRes_after ops {} rfl (Or.inl ⟨rfl, rfl⟩)
  generalize diskAfter {} ops = d at *
  have hrej : d.rejects r = true := by
    rcases h1 with ⟨_, h2⟩ | ⟨r', h2, h3⟩
    · rw [h2] at ha; cases ha
    · have := h3 a ha
      subst this
      unfold Disk.rejects
      rw [hm, h2]
      revert hne
      cases r <;> cases a.resolution <;> first | (intro h; exact absurd rfl h) | (intro _; rfl)
  cases op with
  | addBit ch made =>
    cases hr
    by_cases h2 : ch.h ≥ 2
    · simp [diskStep, diskErr, Disk.addBit, h2, diskErr.errOf]
    · simp [diskStep, diskErr, Disk.addBit, h2, hrej, diskErr.errOf]
  | addMeta ch =>
    cases hr
    by_cases h2 : ch.h ≥ 2
    · simp [diskStep, diskErr, Disk.addMeta, h2, diskErr.errOf]
    · simp [diskStep, diskErr, Disk.addMeta, h2, hrej, diskErr.errOf]
  | addFlux ch made =>
    cases hr
    by_cases h2 : ch.h ≥ 2
    · simp [diskStep, diskErr, Disk.addFlux, h2, diskErr.errOf]
    · simp [diskStep, diskErr, Disk.addFlux, h2, hrej, diskErr.errOf]
  | addEmpty ch enc res cells clock =>
    simp only [DiskOp.asks] at hr
    subst hr
    by_cases h2 : ch.h ≥ 2
    · simp [diskStep, diskErr, Disk.addEmpty, h2, diskErr.errOf]
    · simp [diskStep, diskErr, Disk.addEmpty, h2, hrej, diskErr.errOf]
  | _ => cases hr

/-- A case that meets the hypotheses. -/
example : ∃ ops a op r, a ∈ (diskAfter {} ops).pool ∧ DiskOp.asks op = some r ∧ r ≠ a.resolution :=
  ⟨[.addMeta ⟨0, 0⟩], .sect ⟨⟨0, 0⟩, []⟩, .addBit ⟨1, 0⟩ (.error .parameter), .bitStream,
    List.mem_singleton.2 rfl, rfl, by decide⟩

/-- Counterpoint: an addition that fails for another reason does change the image — the resolution stays
locked in although no track was added, so a first failed bitstream track makes the still empty image
refuse metasector tracks. -/
theorem C24_failed_add_locks (ch : Ch) (hh : ch.h < 2) (e : Err) (ch' : Ch) (hh' : ch'.h < 2) :
    (diskAfter {} [.addBit ch (.error e)]).pool = [] ∧
    diskErr (diskAfter {} [.addBit ch (.error e)]) (.addMeta ch') = some .incompatible := by
  have h1 : ¬ ch.h ≥ 2 := by omega
  have h2 : ¬ ch'.h ≥ 2 := by omega
  constructor
  · simp [diskAfter, diskStep, Disk.addBit, h1, Disk.rejects, ResSet.isEmpty]
  · simp [diskAfter, diskStep, diskErr, Disk.addBit, Disk.addMeta, h1, h2, Disk.rejects, ResSet.isEmpty,
      ResSet.insert, ResSet.has, diskErr.errOf]

/-- Counterpoint: on a multi-resolution image `add_empty_track` ignores the resolution it is asked for:
asked for a bitstream track beside metasector tracks, it adds a metasector track. -/
theorem C24_empty_track_ignores_request (d : Disk) (hm : d.multires = true) (hs : d.res.sect = true) (ch : Ch)
    (hh : ch.h < 2) (hc : (d.headMap ch.h).length = ch.c) (enc : Encoding) (cells : Nat) (clock : Option Bool) :
    (d.addEmpty ch enc (some .bitStream) cells clock).1.pool = d.pool ++ [.sect ⟨ch, []⟩] := by
  have h1 : ¬ ch.h ≥ 2 := by omega
  have h2 : d.rejects .bitStream = false := by unfold Disk.rejects; rw [hm]; rfl
  unfold Disk.addEmpty
  rw [if_neg h1]
  simp only [h2, Bool.false_eq_true, if_false]
  have : (d.res.insert .bitStream).min = some .metaSector := by
    unfold ResSet.insert ResSet.min; simp [hs]
  simp only [this]
  rw [if_neg (by show ¬ (d.headMap ch.h).length ≠ ch.c; omega)]
  exact pool_pushTrack _ _ _

end Fox
