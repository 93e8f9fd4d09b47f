import Verif.Spec.MetaMap
import Verif.Props.Search
/-
C22: metasector tracks behave as a map.  C34 for metasector tracks.  C36 for metasector tracks.
-/
namespace Fox
open Fox.Spec

/-- The sectors of a track as the user knows them. -/
def MetaTrack.contents (t : MetaTrack) : List MSec :=
  t.sectors.map fun s => ⟨s.id, s.data, s.deletedMark, s.dataError, s.addressError⟩

/-- Every sector has a data mark, no weak or damaged bit, and the size its id declares. -/
def MetaTrack.Sound (t : MetaTrack) : Prop :=
  ∀ s ∈ t.sectors, s.noDam = false ∧ (∀ b ∈ s.weak.mask, b = 0#8) ∧ (∀ b ∈ s.hole.mask, b = 0#8) ∧
    s.data.length = s.id.size

theorem matchesB_eq (q : Query) (x : Chsn) : q.matchesB x = agrees q x := by
  rcases q with ⟨c, h, s, n⟩
  unfold Query.matchesB agrees
  by_cases hs : s = x.s
  · subst hs
    cases c <;> cases h <;> cases n <;> simp [bne] <;> grind
  · simp [hs]

theorem applyMasks_zero (rnd : Nat → Byte) : ∀ (d : List Byte) (i : Nat) (w h : List Byte),
    (∀ b ∈ w, b = 0#8) → (∀ b ∈ h, b = 0#8) → applyMasks rnd i d w h = .ok d := by
  intro d
  induction d with
  | nil =>
    intro i w h hw hh
    induction w generalizing i h with
    | nil => cases h <;> rfl
    | cons a w ih =>
      cases h with
      | nil => rfl
      | cons b h =>
        rw [applyMasks]
        have ha := hw a (by simp)
        have hb := hh b (by simp)
        subst ha hb
        simp only [BitVec.or_zero, if_true]
        exact ih (i + 1) h (fun x hx => hw x (by simp [hx])) (fun x hx => hh x (by simp [hx]))
  | cons c d ih =>
    intro i w h hw hh
    cases w with
    | nil => cases h <;> rfl
    | cons a w =>
      cases h with
      | nil => rfl
      | cons b h =>
        have ha := hw a (by simp)
        have hb := hh b (by simp)
        subst ha hb
        rw [applyMasks, ih (i + 1) w h (fun x hx => hw x (by simp [hx])) (fun x hx => hh x (by simp [hx]))]
        simp

theorem contents_filter (t : MetaTrack) (q : Query) :
    t.contents.filter (fun s => agrees q s.id) =
      (t.matching q).map fun s => ⟨s.id, s.data, s.deletedMark, s.dataError, s.addressError⟩ := by
  unfold MetaTrack.contents MetaTrack.matching
  rw [List.filter_map]
  congr 1
  apply List.filter_congr
  intro s _
  exact (matchesB_eq q s.id).symm

theorem contents_find (t : MetaTrack) (q : Query) :
    t.contents.find? (fun s => agrees q s.id) =
      (t.matching q).head?.map fun s => ⟨s.id, s.data, s.deletedMark, s.dataError, s.addressError⟩ := by
  rw [← List.head?_filter, contents_filter]
  cases t.matching q <;> rfl

theorem readOk_meta_bytes (buf : List Byte) : (buf.take buf.length).drop 0 = buf := by simp

theorem metaStep_spec (t : MetaTrack) (ht : t.Sound) (op : MetaOp) (hop : op.Ok) :
    (metaStep t op).1.Sound ∧
    (metaStep t op).1.contents = (metaMapStep t.contents op).1 ∧
    ((metaStep t op).2 = (metaMapStep t.contents op).2 ∨
      (∃ q buf d, op = .write q buf d) ∧ (metaMapStep t.contents op).2 = .notFound ∧
        (metaStep t op).2 = .done) := by
  cases op with
  | add s =>
    have hs : s.data.length = s.id.size := hop
    refine ⟨?_, ?_, Or.inl rfl⟩
    · intro x hx
      have hx : x ∈ t.sectors ++ [MetaTrack.newSector { id := s.id, data := s.data, addressError := s.badHeader, dataError := s.badData, deletedMark := s.deleted }] := hx
      rw [List.mem_append] at hx
      rcases hx with hx | hx
      · exact ht x hx
      · rw [List.mem_singleton] at hx
        subst hx
        refine ⟨rfl, ?_, ?_, hs⟩
        · intro b hb; exact (List.mem_replicate.1 hb).2
        · intro b hb; exact (List.mem_replicate.1 hb).2
    · show (MetaTrack.contents _) = t.contents ++ [s]
      unfold MetaTrack.contents
      show List.map _ (t.sectors ++ [_]) = _
      rw [List.map_append]
      rfl
  | read rnd q =>
    refine ⟨ht, ?_, Or.inl ?_⟩
    · simp only [metaStep, metaMapStep]
      split <;> rfl
    · simp only [metaStep, metaMapStep, contents_find, MetaTrack.readSector]
      cases hm : t.matching q with
      | nil => rfl
      | cons s rest =>
        have hs : s ∈ t.sectors := (List.mem_filter.1 (by rw [← MetaTrack.matching, hm]; simp)).1
        obtain ⟨h1, h2, h3, h4⟩ := ht s hs
        simp only [MetaSector.readData, h1, applyMasks_zero rnd s.data 0 _ _ h2 h3]
        simp [seenMetaRead, ReadResult.bytes]
  | write q buf deleted =>
    simp only [metaStep, metaMapStep, contents_filter, MetaTrack.writeSector]
    cases hm : t.matching q with
    | nil => exact ⟨ht, rfl, Or.inr ⟨⟨_, _, _, rfl⟩, rfl, rfl⟩⟩
    | cons s rest =>
      have hs : s ∈ t.sectors := (List.mem_filter.1 (by rw [← MetaTrack.matching, hm]; simp)).1
      obtain ⟨h1, h2, h3, h4⟩ := ht s hs
      cases rest with
      | cons s' rest => exact ⟨ht, rfl, Or.inl rfl⟩
      | nil =>
        simp only [List.map_cons, List.map_nil, h4]
        by_cases hlen : s.id.size ≠ buf.length
        · rw [if_pos hlen, if_pos (Ne.symm hlen)]
          exact ⟨ht, rfl, Or.inl rfl⟩
        · rw [if_neg hlen, if_neg (fun h => hlen (Ne.symm h)), h1]
          have hlen : s.id.size = buf.length := by omega
          cases hb : s.addressError with
          | true =>
            simp only [Bool.or_true, if_true]
            refine ⟨ht, trivial, Or.inl ?_⟩
            simp [seenMetaWrite]
          | false =>
            simp only [Bool.or_false, if_neg Bool.false_ne_true, hlen, ne_eq, not_true, if_false]
            refine ⟨?_, ?_, Or.inl ?_⟩
            · intro x hx
              obtain ⟨y, hy, rfl⟩ := List.mem_map.1 hx
              obtain ⟨a1, a2, a3, a4⟩ := ht y hy
              by_cases hq : q.matchesB y.id = true
              · rw [if_pos hq]
                refine ⟨a1, a2, a3, ?_⟩
                have : y ∈ t.matching q := List.mem_filter.2 ⟨hy, hq⟩
                rw [hm, List.mem_singleton] at this
                subst this
                exact hlen.symm
              · rw [if_neg hq]; exact ⟨a1, a2, a3, a4⟩
            · unfold MetaTrack.contents
              simp only [List.map_map]
              apply List.map_congr_left
              intro x _
              simp only [Function.comp, ← matchesB_eq]
              split <;> rfl
            · simp [seenMetaWrite]

theorem metaRun_spec : ∀ (ops : List MetaOp) (t : MetaTrack), t.Sound → (∀ op ∈ ops, op.Ok) →
    SeenAs ops (metaMapRun t.contents ops) (metaRun t ops) ∧
      (metaAfter t ops).contents = metaMapAfter t.contents ops
  | [], _, _, _ => ⟨trivial, rfl⟩
  | op :: ops, t, ht, hops => by
    obtain ⟨h1, h2, h3⟩ := metaStep_spec t ht op (hops op (by simp))
    obtain ⟨k1, k2⟩ := metaRun_spec ops (metaStep t op).1 h1 (fun o ho => hops o (by simp [ho]))
    rw [h2] at k1 k2
    exact ⟨⟨h3, k1⟩, k2⟩

/-- **C22.** Every history of adding, writing and reading sectors, from an empty track, shows the user
what the list of sectors shows — in particular a read returns the bytes last written to the first
matching sector, and a write to a missing sector, to an ambiguous query, with a wrong length or to a
sector with a bad header changes nothing — except that a write to a missing sector is reported as done
(see `C22_false_missing_write`). -/
theorem C22_track_is_map_partial (ch : Ch) (ops : List MetaOp) (hops : ∀ op ∈ ops, op.Ok) :
    SeenAs ops (metaMapRun [] ops) (metaRun ⟨ch, []⟩ ops) ∧
      (metaAfter ⟨ch, []⟩ ops).contents = metaMapAfter [] ops :=
  metaRun_spec ops ⟨ch, []⟩ (fun s hs => by cases hs) hops

/-- If every write of the history addresses a sector of the track, the outcomes are exactly those of
the specification. -/
theorem C22_track_is_map (ch : Ch) (ops : List MetaOp) (hops : ∀ op ∈ ops, op.Ok)
    (hw : ∀ (pre post : List MetaOp) (q : Query) (buf : List Byte) (d : Bool),
      ops = pre ++ .write q buf d :: post → ∃ s ∈ metaMapAfter [] pre, agrees q s.id = true) :
    metaRun ⟨ch, []⟩ ops = metaMapRun [] ops := by
  have main : ∀ (ops done : List MetaOp) (t : MetaTrack), t.Sound → (∀ op ∈ ops, op.Ok) →
      t.contents = metaMapAfter [] done →
      (∀ (pre post : List MetaOp) (q : Query) (buf : List Byte) (d : Bool),
        done ++ ops = pre ++ .write q buf d :: post → ∃ s ∈ metaMapAfter [] pre, agrees q s.id = true) →
      metaRun t ops = metaMapRun t.contents ops := by
    intro ops
    induction ops with
    | nil => intros; rfl
    | cons op ops ih =>
      intro done t ht hops hc hw
      obtain ⟨h1, h2, h3⟩ := metaStep_spec t ht op (hops op (by simp))
      have hafter : ∀ (a : List MetaOp) (m : List MSec), metaMapAfter m (a ++ [op]) =
          (metaMapStep (metaMapAfter m a) op).1 := by
        intro a
        induction a with
        | nil => intro m; rfl
        | cons x a iha => intro m; exact iha _
      have := ih (done ++ [op]) (metaStep t op).1 h1 (fun o ho => hops o (by simp [ho]))
        (by rw [h2, hafter, hc]) (by
          intro pre post q buf d e
          rw [List.append_assoc] at e
          exact hw pre post q buf d e)
      show _ :: _ = _ :: _
      rw [this, h2]
      congr 1
      rcases h3 with h3 | ⟨⟨q, buf, d, rfl⟩, h4, _⟩
      · exact h3
      · exfalso
        obtain ⟨s, hs, hq⟩ := hw done ops q buf d rfl
        rw [← hc] at hs
        have hmem : s ∈ t.contents.filter (fun s => agrees q s.id) := List.mem_filter.2 ⟨hs, hq⟩
        simp only [metaMapStep] at h4
        split at h4
        · rename_i e; rw [e] at hmem; cases hmem
        · split at h4
          · cases h4
          · split at h4 <;> cases h4
        · cases h4
  exact main ops [] ⟨ch, []⟩ (fun s hs => by cases hs) hops rfl hw

theorem addOk (c : Chsn) (hc : c.n = 0) (b : Byte) (x y z : Bool) :
    (MetaOp.add ⟨c, List.replicate 128 b, x, y, z⟩).Ok := by
  show (List.replicate 128 b).length = nSize c.n
  rw [hc, List.length_replicate]; decide

/-- C22, read after write, in one line: a write that the specification would accept, then a read. -/
theorem C22_read_after_write (ch : Ch) (ops : List MetaOp) (hops : ∀ op ∈ ops, op.Ok) (q : Query)
    (buf : List Byte) (d : Bool) (s : MSec)
    (hq : (metaMapAfter [] ops).filter (fun s => agrees q s.id) = [s]) (hh : s.badHeader = false)
    (hl : buf.length = s.data.length) (rnd : Nat → Byte) :
    let t := metaAfter ⟨ch, []⟩ ops
    (metaStep t (.write q buf d)).2 = .done ∧
    (metaStep (metaStep t (.write q buf d)).1 (.read rnd q)).2 = .found buf d s.badData false := by
  intro t
  have hsound : ∀ (ops : List MetaOp) (t : MetaTrack), t.Sound → (∀ op ∈ ops, op.Ok) →
      (metaAfter t ops).Sound := by
    intro ops
    induction ops with
    | nil => intro t ht _; exact ht
    | cons o ops ih =>
      intro t ht ho
      exact ih _ (metaStep_spec t ht o (ho o (by simp))).1 (fun x hx => ho x (by simp [hx]))
  have ht : t.Sound := hsound ops ⟨ch, []⟩ (fun s hs => by cases hs) hops
  have hc : t.contents = metaMapAfter [] ops := (C22_track_is_map_partial ch ops hops).2
  obtain ⟨h1, h2, h3⟩ := metaStep_spec t ht (.write q buf d) trivial
  have hstep : metaMapStep t.contents (.write q buf d) =
      (t.contents.map (fun x => if agrees q x.id then { x with data := buf, deleted := d } else x), .done) := by
    simp only [metaMapStep, hc, hq, hl, hh]
    simp
  obtain ⟨_, _, k3⟩ := metaStep_spec _ h1 (.read rnd q) trivial
  refine ⟨?_, ?_⟩
  · rcases h3 with h3 | ⟨_, h4, h5⟩
    · rw [h3, hstep]
    · exact h5
  · rcases k3 with k3 | ⟨⟨_, _, _, k4⟩, _⟩
    · rw [k3, h2, hstep]
      simp only [metaMapStep]
      have hfind : (t.contents.map (fun x => if agrees q x.id then { x with data := buf, deleted := d } else x)).find?
          (fun s => agrees q s.id) = some { s with data := buf, deleted := d } := by
        rw [← List.head?_filter, List.filter_map]
        have : (t.contents.filter ((fun s : MSec => agrees q s.id) ∘ fun x =>
            if agrees q x.id then { x with data := buf, deleted := d } else x)) = [s] := by
          rw [← hq, ← hc]
          apply List.filter_congr
          intro x _
          simp only [Function.comp]
          split <;> rfl
        rw [this]
        have hs : agrees q s.id = true := by
          have : s ∈ t.contents.filter (fun s => agrees q s.id) := by rw [hc, hq]; simp
          exact (List.mem_filter.1 this).2
        simp [hs]
      rw [hfind]
      simp only [hh]
    · cases k4

/-- **C22, finding.** Writing to a sector that does not exist is reported as a success, for every track
and buffer. -/
theorem C22_false_missing_write (t : MetaTrack) (q : Query) (buf : List Byte) (d : Bool)
    (h : ∀ s ∈ t.sectors, agrees q s.id = false) :
    metaStep t (.write q buf d) = (t, .done) := by
  have hm : t.matching q = [] := by
    unfold MetaTrack.matching
    rw [List.filter_eq_nil_iff]
    intro s hs
    rw [matchesB_eq, h s hs]; simp
  simp [metaStep, MetaTrack.writeSector, hm, seenMetaWrite]

/-- **C22, finding.** Rewriting a sector recorded with a data error does not clear the error. -/
theorem C22_false_error_sticks :
    ∃ ops : List MetaOp, (∀ op ∈ ops, op.Ok) ∧
      metaRun ⟨⟨0, 0⟩, []⟩ ops = [.done, .done, .found (List.replicate 128 1#8) false true false] :=
  ⟨[.add ⟨⟨0, 0, 1, 0⟩, List.replicate 128 0#8, false, true, false⟩,
    .write ⟨none, none, 1, none⟩ (List.replicate 128 1#8) false,
    .read (fun _ => 0#8) ⟨none, none, 1, none⟩],
   by intro op hop
      simp only [List.mem_cons, List.not_mem_nil, or_false] at hop
      rcases hop with rfl | rfl | rfl
      · exact addOk _ rfl _ _ _ _
      · trivial
      · trivial,
   by decide +kernel⟩

/-- **C22, finding.** Adding an alternate copy of an existing sector with data panics. -/
theorem C22_false_alternate_panics (t : MetaTrack) (s : MetaSector) (hs : s ∈ t.sectors) (p : AddSector)
    (hp : p.alternate = true) (hid : ∀ x ∈ t.sectors, x.id = p.id → x.data ≠ []) (hsid : s.id = p.id)
    (hd : p.data ≠ []) : t.addSector p = .error .panic := by
  have hany : t.sectors.any (fun s => s.id == p.id) = true := by
    rw [List.any_eq_true]; exact ⟨s, hs, by simp [hsid]⟩
  unfold MetaTrack.addSector
  rw [hp, hany]
  simp only [Bool.and_self, if_true]
  have : ∀ l : List MetaSector, (∀ x ∈ l, x.id = p.id → x.data ≠ []) → (∃ x ∈ l, x.id = p.id) →
      MetaTrack.updateFirst (fun s => s.id == p.id) (fun es => if p.data = [] ∨ es.data = [] then
        (es.weak.orSlice []).map fun w => { es with weak := w } else .error .panic) l = .error .panic := by
    intro l
    induction l with
    | nil => rintro _ ⟨x, hx, _⟩; cases hx
    | cons x l ih =>
      intro h1 h2
      unfold MetaTrack.updateFirst
      by_cases hx : x.id = p.id
      · rw [if_pos (by simpa using hx), if_neg (by simp [hd, h1 x (by simp) hx])]
        rfl
      · rw [if_neg (by simpa using hx), ih (fun y hy => h1 y (by simp [hy])) ?_]
        · rfl
        · obtain ⟨y, hy, hy2⟩ := h2
          rcases List.mem_cons.1 hy with rfl | hy
          · exact absurd hy2 hx
          · exact ⟨y, hy, hy2⟩
  rw [this _ hid ⟨s, hs, hsid⟩]
  rfl

/-- A read of a sector with weak or damaged bits: the result has the sector's length and agrees with the
stored bytes on every bit that is neither weak nor damaged, whatever the random source. -/
theorem applyMasks_outside (rnd : Nat → Byte) : ∀ (d : List Byte) (i : Nat) (w h : List Byte),
    w.length = d.length → h.length = d.length →
    ∃ r, applyMasks rnd i d w h = .ok r ∧ r.length = d.length ∧
      ∀ j, j < d.length → SameOutside (w.getD j 0#8 ||| h.getD j 0#8) (d.getD j 0#8) (r.getD j 0#8)
  | [], i, w, h, hw, hh => by
    rw [List.length_eq_zero_iff.1 hw, List.length_eq_zero_iff.1 hh]
    exact ⟨[], rfl, rfl, fun j hj => absurd hj (Nat.not_lt_zero _)⟩
  | b :: d, i, a :: w, c :: h, hw, hh => by
    obtain ⟨r, h1, h2, h3⟩ := applyMasks_outside rnd d (i + 1) w h (by simpa using hw) (by simpa using hh)
    rw [applyMasks, h1]
    by_cases hz : a ||| c = 0#8
    · simp only [hz, if_true]
      refine ⟨_, rfl, by simp [h2], ?_⟩
      intro j hj
      cases j with
      | zero => intro k _ _; rfl
      | succ j => exact h3 j (by simpa using hj)
    · simp only [if_neg hz]
      refine ⟨_, rfl, by simp [h2], ?_⟩
      intro j hj
      cases j with
      | zero =>
        intro k hk hm
        simp only [List.getD_cons_zero] at hm ⊢
        generalize a ||| c = m at hm ⊢
        simp only [BitVec.getLsbD_or, BitVec.getLsbD_and, BitVec.getLsbD_not, hm, hk]
        simp
      | succ j => exact h3 j (by simpa using hj)
  | b :: d, i, [], h, hw, hh => by simp at hw
  | b :: d, i, a :: w, [], hw, hh => by simp at hh

/-- **C28 for metasector tracks.** Reading a sector with weak or damaged bits: the random source
influences only those bits. -/
theorem C28_metasector_masks (s : MetaSector) (rnd : Nat → Byte) (hn : s.noDam = false)
    (hw : s.weak.mask.length = s.data.length) (hh : s.hole.mask.length = s.data.length) :
    ∃ r, s.readData rnd = .ok r ∧ r.length = s.data.length ∧
      ∀ j, j < s.data.length →
        SameOutside (s.weak.mask.getD j 0#8 ||| s.hole.mask.getD j 0#8) (s.data.getD j 0#8) (r.getD j 0#8) := by
  unfold MetaSector.readData
  rw [hn, if_neg (by simp)]
  exact applyMasks_outside rnd s.data 0 _ _ hw hh

example : ∃ s : MetaSector, s.noDam = false ∧ s.weak.mask.length = s.data.length ∧
    s.hole.mask.length = s.data.length ∧ s.weak.hasBits = true :=
  ⟨MetaTrack.newSector ⟨⟨0, 0, 1, 0⟩, List.replicate 128 0x55#8, some (0xFF#8 :: List.replicate 127 0#8), none, false, false, false, false, false⟩, by decide +kernel⟩

/-- **C22, finding.** A sector without a data mark that carries stored bytes: the read result is not
flagged, its buffer is empty and its data range is not, so slicing the range panics. -/
theorem C22_false_no_dam (t : MetaTrack) (q : Query) (s : MetaSector) (rest : List MetaSector)
    (h : t.matching q = s :: rest) (hn : s.noDam = true) (hd : s.data ≠ []) (rnd : Nat → Byte) :
    ∃ r, t.readSector rnd q .dataOnly = .ok r ∧ r.notFound = false ∧ r.noDam = false ∧
      r.readBuf.length < r.dataRange.2 := by
  refine ⟨_, by simp only [MetaTrack.readSector, h, MetaSector.readData, hn, if_true]; rfl, rfl, rfl, ?_⟩
  exact List.length_pos_iff.2 hd

/-- The hypotheses hold on a concrete history, and the theorem's outcomes are as expected. -/
example : let ops : List MetaOp := [.add ⟨⟨0, 0, 1, 0⟩, List.replicate 128 0#8, false, false, false⟩,
    .add ⟨⟨0, 0, 2, 0⟩, List.replicate 128 7#8, false, false, false⟩,
    .write ⟨some 0, none, 2, none⟩ (List.replicate 128 1#8) false,
    .read (fun _ => 0#8) ⟨none, none, 2, none⟩, .read (fun _ => 0#8) ⟨none, none, 1, none⟩,
    .write ⟨some 0, none, 2, none⟩ (List.replicate 127 1#8) false]
    (∀ op ∈ ops, op.Ok) ∧ metaMapRun [] ops = [.done, .done, .done,
      .found (List.replicate 128 1#8) false false false, .found (List.replicate 128 0#8) false false false,
      .refused] := by
  refine ⟨?_, by decide +kernel⟩
  intro op hop
  simp only [List.mem_cons, List.not_mem_nil, or_false] at hop
  rcases hop with rfl | rfl | rfl | rfl | rfl | rfl
  · exact addOk _ rfl _ _ _ _
  · exact addOk _ rfl _ _ _ _
  all_goals trivial

/-! ### C34 on metasector tracks -/

/-- **C34 (metasector, partial).** The id after a sector is the number and size of the following sector in
track order, wrapping from the last to the first, under the caller's cylinder and head; there is none exactly
when no sector has the number.  Missing: sectors that share a number; the cylinder and head of the next id
are not read from the track. -/
theorem C34_metasector_partial (t : MetaTrack) (x : Chs) :
    (∀ a y b, t.sectors = a ++ y :: b → (∀ z ∈ a, z.id.s ≠ x.s) → y.id.s = x.s →
      t.nextId x = some ⟨x.c, x.h, ((b ++ a ++ [y]).headD y).id.s, ((b ++ a ++ [y]).headD y).id.n⟩) ∧
    (t.nextId x = none ↔ ∀ y ∈ t.sectors, y.id.s ≠ x.s) := by
  have key := C34_next_id_partial
    ⟨⟨.ofBits [], .ofBits [], true, .ofBits [], 0⟩,
      t.sectors.map fun s => ⟨.header s.id false false, 0, 0, none, false⟩, some .system34⟩ x
  have hids : (Track.sectorIds ⟨⟨.ofBits [], .ofBits [], true, .ofBits [], 0⟩,
      t.sectors.map fun s => ⟨.header s.id false false, 0, 0, none, false⟩, some .system34⟩) =
      t.sectors.map (·.id) := by
    unfold Track.sectorIds
    show List.filterMap _ (t.sectors.map _) = _
    induction t.sectors with
    | nil => rfl
    | cons a l ih => rw [List.map_cons, List.filterMap_cons, ih, List.map_cons]
  rw [hids] at key
  have hn : t.nextId x = (Track.nextId ⟨⟨.ofBits [], .ofBits [], true, .ofBits [], 0⟩,
      t.sectors.map fun s => ⟨.header s.id false false, 0, 0, none, false⟩, some .system34⟩ x).map
        fun y => ⟨x.c, x.h, y.s, y.n⟩ := by
    unfold MetaTrack.nextId Track.nextId
    rw [hids]
    cases t.sectors.map (·.id) <;> rfl
  rw [hn]
  refine ⟨?_, ?_⟩
  · intro a y b e ha hy
    rw [key.1 (a.map (·.id)) y.id (b.map (·.id)) (by rw [e]; simp) (by
      intro z hz; obtain ⟨w, hw, rfl⟩ := List.mem_map.1 hz; exact ha w hw) hy]
    have : (List.map (·.id) b ++ List.map (·.id) a ++ [y.id]).headD y.id = ((b ++ a ++ [y]).headD y).id := by
      rw [← List.map_append, show [y.id] = List.map (·.id) [y] from rfl, ← List.map_append]
      generalize b ++ a ++ [y] = l
      cases l <;> rfl
    rw [this]; rfl
  · rw [Option.map_eq_none_iff, key.2]
    simp

end Fox
