import Verif.Props.VizRings
/-
Proofs about the data layer (C128, C129).
-/
namespace Fox
open Viz Spec

/-! ## What was drawn on a track -/

theorem pushedTo_append {α : Type} (c : Nat) (a b : List (Nat × α)) : pushedTo c (a ++ b) = pushedTo c a ++ pushedTo c b := by
  simp [pushedTo]

theorem pushedTo_map {α : Type} (c ti : Nat) (l : List α) : pushedTo c (l.map fun x => (ti, x)) = if ti = c then l else [] := by
  unfold pushedTo
  by_cases h : ti = c
  · rw [if_pos h]
    induction l with
    | nil => rfl
    | cons x l ih => simp [h] at ih ⊢; exact ih
  · rw [if_neg h]
    induction l with
    | nil => rfl
    | cons x l ih => simp [h] at ih ⊢

theorem pushedTo_tracks {α β : Type} (f : β → Nat → List α) (c : Nat) : ∀ (ts : List β) (k : Nat), k ≤ c →
    pushedTo c ((ts.zipIdx k).flatMap fun x => (f x.1 x.2).map fun y => (x.2, y)) = ((ts[c - k]?).map fun t => f t c).getD [] := by
  intro ts
  induction ts with
  | nil => intro k _; rfl
  | cons t ts ih =>
    intro k hk
    rw [List.zipIdx_cons, List.flatMap_cons, pushedTo_append, pushedTo_map]
    by_cases h : k = c
    · subst h
      rw [if_pos rfl]
      have : pushedTo k (List.flatMap (fun x => List.map (fun y => (x.2, y)) (f x.1 x.2)) (ts.zipIdx (k + 1))) = [] := by
        unfold pushedTo
        rw [List.map_eq_nil_iff, List.filter_eq_nil_iff]
        intro p hp
        rw [List.mem_flatMap] at hp
        obtain ⟨x, hx, hp⟩ := hp
        rw [List.mem_map] at hp
        obtain ⟨y, _, rfl⟩ := hp
        have := List.mem_zipIdx hx
        simp only [beq_iff_eq]
        omega
      rw [this]
      simp
    · rw [if_neg h, List.nil_append, ih (k + 1) (by omega)]
      obtain ⟨m, rfl⟩ : ∃ m, c = k + 1 + m := ⟨c - (k + 1), by omega⟩
      have e1 : k + 1 + m - (k + 1) = m := by omega
      have e2 : k + 1 + m - k = m + 1 := by omega
      rw [e1, e2, List.getElem?_cons_succ]

/-! ## The slices -/

theorem segmentList_yields : ∀ (l : List Nat) (s : Segmenter), Yields Segmenter.next s l → ∀ fuel, l.length < fuel → segmentList fuel s = l := by
  intro l
  induction l with
  | nil =>
    intro s h fuel hf
    cases fuel with
    | zero => omega
    | succ fuel => cases h with | done h => unfold segmentList; rw [h]
  | cons x l ih =>
    intro s h fuel hf
    cases fuel with
    | zero => omega
    | succ fuel =>
      cases h with
      | more h1 h2 =>
        unfold segmentList
        rw [h1]
        simp only
        rw [ih _ h2 fuel (by simpa using hf)]

theorem segmentList_ok (total n : Nat) (hn : 0 < n) : ∃ l, segmentList (n + 1) ⟨n, total / n, total % n, 0, 0⟩ = l ∧ l.length = n ∧ l.sum = total ∧
    (∀ x ∈ l, x = total / n ∨ x = total / n + 1) ∧ ∀ i, i ≤ n → (l.take i).sum = i * total / n := by
  obtain ⟨s, l, h1, h2, h3, h4, h5, h6⟩ := (C126_segments total n).2 hn
  unfold Segmenter.new at h1
  rw [if_neg (by omega)] at h1
  injection h1 with h1
  subst h1
  exact ⟨l, segmentList_yields l _ ((h2 l).2 rfl) _ (by omega), h3, h4, h5, h6⟩

theorem slicesOf_get (p : Params) (slices : Nat) (ov mid : Rat) (len : Nat) : ∀ (sizes : List Nat) (idx : Nat) (bits : List Bool) (i : Nat) (n : Nat),
    sizes[i]? = some n →
    (slicesOf p slices ov mid len idx bits sizes)[i]? = some
      { ones := ((bits.drop (sizes.take i).sum).take n).countP id, bits := n, radius := mid,
        start := p.direction.adjust (((idx + (sizes.take i).sum : Nat) : Rat) / (len : Rat) + p.indexAngle),
        stop := p.direction.adjust (((idx + (sizes.take i).sum + n : Nat) : Rat) / (len : Rat) + p.indexAngle + (1 / (slices : Rat)) * ov) } := by
  intro sizes
  induction sizes with
  | nil => intro idx bits i n h; simp at h
  | cons m sizes ih =>
    intro idx bits i n h
    cases i with
    | zero =>
      simp only [List.getElem?_cons_zero, Option.some.injEq] at h
      subst h
      simp [slicesOf]
    | succ i =>
      rw [List.getElem?_cons_succ] at h
      unfold slicesOf
      rw [List.getElem?_cons_succ, ih (idx + m) (bits.drop m) i n h]
      simp only [List.take_succ_cons, List.sum_cons, List.drop_drop, Nat.add_assoc]

theorem slicesOf_length (p : Params) (slices : Nat) (ov mid : Rat) (len : Nat) : ∀ (sizes : List Nat) (idx : Nat) (bits : List Bool),
    (slicesOf p slices ov mid len idx bits sizes).length = sizes.length := by
  intro sizes
  induction sizes with
  | nil => intro _ _; rfl
  | cons m sizes ih => intro idx bits; unfold slicesOf; simp [ih]

/-- What the data layer has. -/
theorem dataSlices_ok {d : Disk} {p : Params} {side slices : Nat} {ov : Rat} {dl : DataList} (h : dataSlices d p side slices ov = .ok dl)
    {num : Nat} (hnum : num = min (collect d side).length (p.trackLimit.getD maxCylinder)) {total : Rat} (htot : total = p.radius.getD (1/2)) :
    side ≤ 1 ∧ 0 < slices ∧ p.minRatio * total < p.maxRatio * total ∧ 0 < num ∧
      dl.trackWidth = (if p.gap = 0 then p.dataWidth total num * (101/100) else p.dataWidth total num * (1 - p.gap)) ∧
      (∀ c, dl.list.items c = if c < num then some ((((collect d side)[c]?).map fun t => trackSlices p total num slices ov t c).getD []) else none) ∧
      (dl.minDensity, dl.maxDensity) = (((collect d side).zipIdx.flatMap fun x => (trackSlices p total num slices ov x.1 x.2).map fun s => (x.2, s)).foldl
        (fun mm s => density mm s.2) (0, 1)) := by
  unfold dataSlices at h
  simp only at h
  rw [← hnum, ← htot] at h
  split at h
  · cases h
  · rename_i h1
    split at h
    · cases h
    · rename_i h2
      split at h
      · cases h
      · rename_i h3
        rw [ite_eq_iff] at h
        rcases h with ⟨_, h⟩ | ⟨h4, h⟩
        · cases h
        · injection h with h
          subst h
          refine ⟨by omega, by omega, not_le.1 h1, by omega, rfl, ?_, rfl⟩
          intro c
          have := (C125_lists num ((collect d side).zipIdx.flatMap fun x => (trackSlices p total num slices ov x.1 x.2).map fun s => (x.2, s))).1 c
          rw [pushedTo_tracks (fun t ti => trackSlices p total num slices ov t ti) c _ 0 (Nat.zero_le _)] at this
          exact this

/-- **C128 (the slices).** On each of the drawn tracks there are as many slices as asked for; slice `i` has the bits from `i·len/slices` to `(i+1)·len/slices`, rounded
down, and counts how many of them are set; it is drawn from the angle of its first bit to that of the bit behind its last, with the overlap asked for. -/
theorem C128_slices (d : Disk) (p : Params) (side slices : Nat) (ov : Rat) (dl : DataList) (h : dataSlices d p side slices ov = .ok dl) (c : Nat) (t : Track)
    (ht : (collect d side)[c]? = some t) (hc : c < p.trackLimit.getD maxCylinder) :
    ∃ l, dl.list.items c = some l ∧ l.length = slices ∧ (l.map (·.bits)).sum = lenOf t ∧
      ∀ (i : Nat) (s : Slice), l[i]? = some s →
        s.bits = (i + 1) * lenOf t / slices - i * lenOf t / slices ∧
        s.ones = ((t.data.bits.bits.drop (i * lenOf t / slices)).take s.bits).countP id ∧
        s.start = angleAt p.direction p.indexAngle (lenOf t) ((i * lenOf t / slices : Nat) : Rat) ∧
        s.stop = angleAt p.direction (p.indexAngle + (1 / (slices : Rat)) * ov) (lenOf t) (((i + 1) * lenOf t / slices : Nat) : Rat) := by
  obtain ⟨h1, h2, h3, h4, h5, h6, h7⟩ := dataSlices_ok h rfl rfl
  have hlt : c < (collect d side).length := by
    rcases Nat.lt_or_ge c (collect d side).length with h | h
    · exact h
    · rw [List.getElem?_eq_none h] at ht; cases ht
  have h6c := h6 c
  rw [if_pos (by omega), ht] at h6c
  obtain ⟨sizes, hs, hs1, hs2, hs3, hs4⟩ := segmentList_ok (lenOf t) slices h2
  refine ⟨_, h6c, ?_, ?_, ?_⟩
  · show (trackSlices _ _ _ _ _ _ _).length = _
    unfold trackSlices
    rw [slicesOf_length, hs, hs1]
  · show ((trackSlices _ _ _ _ _ _ _).map _).sum = _
    unfold trackSlices
    simp only
    rw [hs]
    have : ∀ (mid : Rat) (sizes : List Nat) (idx : Nat) (bits : List Bool), (slicesOf p slices ov mid (lenOf t) idx bits sizes).map (·.bits) = sizes := by
      intro mid sizes
      induction sizes with
      | nil => intro _ _; rfl
      | cons m sizes ih => intro idx bits; unfold slicesOf; simp [ih]
    rw [this, hs2]
  · intro i s his
    have his' : (trackSlices p (p.radius.getD (1/2)) (min (collect d side).length (p.trackLimit.getD maxCylinder)) slices ov t c)[i]? = some s := his
    unfold trackSlices at his'
    simp only at his'
    rw [hs] at his'
    have hi : i < sizes.length := by
      rcases Nat.lt_or_ge i sizes.length with h | h
      · exact h
      · rw [List.getElem?_eq_none (by rw [slicesOf_length]; exact h)] at his'; cases his'
    have hn : sizes[i]? = some sizes[i] := List.getElem?_eq_getElem hi
    rw [slicesOf_get p slices ov _ (lenOf t) sizes 0 t.data.bits.bits i sizes[i] hn] at his'
    injection his' with his'
    have e1 : (sizes.take i).sum = i * lenOf t / slices := hs4 i (by omega)
    have e2 : (sizes.take i).sum + sizes[i] = (i + 1) * lenOf t / slices := by
      rw [← hs4 (i + 1) (by omega), List.take_succ_eq_append_getElem hi, List.sum_append]
      simp
    have e3 : sizes[i] = (i + 1) * lenOf t / slices - i * lenOf t / slices := by omega
    subst his'
    simp only
    refine ⟨e3, by rw [e1], ?_, ?_⟩
    · rw [e1, Nat.zero_add]
      unfold angleAt Turning.adjust
      cases p.direction <;> rfl
    · rw [Nat.zero_add, e2]
      unfold angleAt Turning.adjust
      cases p.direction
      · simp only; ring
      · simp only; ring

/-- **C128 (when data are drawn).** They are drawn for every side with at least one track of cells, unless the limit on tracks or the number of slices is zero or the inner
radius is not below the outer. -/
theorem C128_defined (d : Disk) (p : Params) (side slices : Nat) (ov : Rat) (hs : side ≤ 1) :
    (∃ dl, dataSlices d p side slices ov = .ok dl) ↔
      p.minRatio * p.radius.getD (1/2) < p.maxRatio * p.radius.getD (1/2) ∧ collect d side ≠ [] ∧ p.trackLimit ≠ some 0 ∧ 0 < slices := by
  have hnum : min (collect d side).length (p.trackLimit.getD maxCylinder) = 0 ↔ collect d side = [] ∨ p.trackLimit = some 0 := by
    rw [← List.length_eq_zero_iff]
    cases p.trackLimit with
    | none => simp [maxCylinder]
    | some k => simp
  unfold dataSlices
  simp only
  by_cases h1 : p.maxRatio * p.radius.getD (1/2) ≤ p.minRatio * p.radius.getD (1/2)
  · rw [if_pos h1]
    exact ⟨(fun ⟨dl, h⟩ => by cases h), fun h => absurd h.1 (not_lt.2 h1)⟩
  · rw [if_neg h1, if_neg (by omega)]
    by_cases h2 : min (collect d side).length (p.trackLimit.getD maxCylinder) = 0
    · rw [if_pos h2]
      refine ⟨(fun ⟨dl, h⟩ => by cases h), fun h => ?_⟩
      rcases hnum.1 h2 with e | e
      · exact absurd e h.2.1
      · exact absurd e h.2.2.1
    · rw [if_neg h2]
      by_cases h3 : slices = 0
      · rw [if_pos h3]
        exact ⟨(fun ⟨dl, h⟩ => by cases h), fun h => absurd h3 (by omega)⟩
      · rw [if_neg h3]
        exact ⟨fun _ => ⟨not_le.1 h1, fun e => h2 (hnum.2 (Or.inl e)), fun e => h2 (hnum.2 (Or.inr e)), by omega⟩, fun _ => ⟨_, rfl⟩⟩

/-- A disk with one track of cells, drawn with the standard parameters. -/
example (t : Track) : ∃ dl, dataSlices { pool := [.bit ⟨0, 0⟩ t], map0 := [0] } {} 0 64 0 = .ok dl :=
  (C128_defined _ _ _ _ _ (by omega)).2 ⟨by decide +kernel, by simp [collect, sideTracks, Disk.headMap, streamOf], by simp, by omega⟩

/-- **C128 fails** for the stated least and greatest density: they are 0 and 1 whatever is drawn. -/
theorem C128_false_density (d : Disk) (p : Params) (side slices : Nat) (ov : Rat) (dl : DataList) (h : dataSlices d p side slices ov = .ok dl) :
    dl.minDensity = 0 ∧ dl.maxDensity = 1 := by
  obtain ⟨h1, h2, h3, h4, h5, h6, h7⟩ := dataSlices_ok h rfl rfl
  have hone : ∀ (mid : Rat) (len : Nat) (sizes : List Nat) (idx : Nat) (bits : List Bool), ∀ s ∈ slicesOf p slices ov mid len idx bits sizes, s.ones ≤ s.bits := by
    intro mid len sizes
    induction sizes with
    | nil => intro _ _ s hs; cases hs
    | cons m sizes ih =>
      intro idx bits s hs
      unfold slicesOf at hs
      rcases List.mem_cons.1 hs with e | e
      · subst e
        exact Nat.le_trans List.countP_le_length (by rw [List.length_take]; exact Nat.min_le_left _ _)
      · exact ih _ _ s e
  have hall : ∀ l : List (Nat × Slice), (∀ s ∈ l, s.2.ones ≤ s.2.bits) → l.foldl (fun mm s => density mm s.2) ((0 : Rat), (1 : Rat)) = (0, 1) := by
    intro l
    induction l with
    | nil => intro _; rfl
    | cons a l ih =>
      intro hl
      rw [List.foldl_cons]
      have : density (0, 1) a.2 = (0, 1) := by
        unfold density
        split
        · rfl
        · rename_i hb
          have ha := hl a (List.mem_cons_self)
          have hbp : (0 : Rat) < (a.2.bits : Rat) := by exact_mod_cast Nat.pos_of_ne_zero hb
          have h0 : (0 : Rat) ≤ (a.2.ones : Rat) / (a.2.bits : Rat) := div_nonneg (Nat.cast_nonneg _) (le_of_lt hbp)
          have h1 : (a.2.ones : Rat) / (a.2.bits : Rat) ≤ 1 := by rw [div_le_one hbp]; exact_mod_cast ha
          simp only
          rw [if_neg (not_lt.2 h0), if_neg (not_lt.2 h1)]
      rw [this]
      exact ih (fun s hs => hl s (List.mem_cons_of_mem _ hs))
  rw [hall] at h7
  · injection h7 with a b; exact ⟨a, b⟩
  · intro s hs
    rw [List.mem_flatMap] at hs
    obtain ⟨x, _, hs⟩ := hs
    rw [List.mem_map] at hs
    obtain ⟨y, hy, rfl⟩ := hs
    exact hone _ _ _ _ _ y hy

/-! ## C129: the layers lie on one another -/

theorem streamOf_iff (t : DiskTrack) (s : Track) : streamOf t = some s ↔ WithCells t s := by
  constructor
  · intro h
    cases t with
    | bit ch t => injection h with h; exact ⟨ch, .inl (by rw [h])⟩
    | flux ch f =>
      cases f with
      | none => cases h
      | some t => injection h with h; exact ⟨ch, .inr (by rw [h])⟩
    | sect t => cases h
    | other ch => cases h
  · rintro ⟨ch, rfl | rfl⟩ <;> rfl

/-- **C128.** The tracks whose data are drawn are those of the side that have cells, in order, and no other. -/
theorem C128_drawn (d : Disk) (side : Nat) (s : Track) :
    s ∈ collect d side ↔ ∃ i ∈ d.headMap side, ∃ t, d.pool[i]? = some t ∧ WithCells t s := by
  unfold collect sideTracks
  rw [List.filterMap_filterMap, List.mem_filterMap]
  constructor
  · rintro ⟨i, hi, h⟩
    cases hp : d.pool[i]? with
    | none => rw [hp] at h; cases h
    | some t => rw [hp] at h; exact ⟨i, hi, t, hp, (streamOf_iff t s).1 h⟩
  · rintro ⟨i, hi, t, hp, h⟩
    refine ⟨i, hi, ?_⟩
    rw [hp]
    exact (streamOf_iff t s).2 h

theorem collect_all {d : Disk} {side : Nat} (h : AllStreams d side) :
    (collect d side).length = (d.headMap side).length ∧
    ∀ (c i : Nat), (d.headMap side)[c]? = some i → ∃ t s, d.pool[i]? = some t ∧ streamOf t = some s ∧ (collect d side)[c]? = some s := by
  unfold AllStreams at h
  unfold collect sideTracks
  rw [List.filterMap_filterMap]
  generalize d.headMap side = l at h
  induction l with
  | nil => exact ⟨rfl, by simp⟩
  | cons a l ih =>
    obtain ⟨t, s, h1, h2⟩ := h a (List.mem_cons_self)
    rw [← streamOf_iff] at h2
    obtain ⟨ih1, ih2⟩ := ih (fun i hi => h i (List.mem_cons_of_mem _ hi))
    have e : (d.pool[a]?).bind streamOf = some s := by rw [h1]; exact h2
    rw [List.filterMap_cons_some (f := fun x => (d.pool[x]?).bind streamOf) (b := s) e]
    refine ⟨by simp [ih1], ?_⟩
    intro c i hc
    cases c with
    | zero =>
      simp only [List.getElem?_cons_zero, Option.some.injEq] at hc
      subst hc
      exact ⟨t, s, h1, h2, rfl⟩
    | succ c =>
      rw [List.getElem?_cons_succ] at hc ⊢
      exact ih2 c i hc

theorem slice_radius {p : Params} {total : Rat} {num slices : Nat} {ov : Rat} {t : Track} {c : Nat} :
    ∀ s ∈ trackSlices p total num slices ov t c, s.radius = p.maxRatio * total - (c : Rat) * p.dataWidth total num - p.dataWidth total num / 2 := by
  have : ∀ (mid : Rat) (len : Nat) (sizes : List Nat) (idx : Nat) (bits : List Bool), ∀ s ∈ slicesOf p slices ov mid len idx bits sizes, s.radius = mid := by
    intro mid len sizes
    induction sizes with
    | nil => intro _ _ s hs; cases hs
    | cons m sizes ih =>
      intro idx bits s hs
      unfold slicesOf at hs
      rcases List.mem_cons.1 hs with e | e
      · subst e; rfl
      · exact ih _ _ s e
  intro s hs
  exact this _ _ _ _ _ s hs

/-- **C129 (partial).** If every track of a side has cells, all of them are drawn and the full radius is used, then the data of every cylinder are drawn along the
middle of its ring, as wide as the ring.
Missing: tracks without cells, a limit below the number of tracks, a smaller outer radius (refuted below). -/
theorem C129_layers_partial (d : Disk) (p : Params) (side slices : Nat) (ov : Rat) (dl : DataList) (tp : TrackParams) (hs : AllStreams d side)
    (hlim : (d.headMap side).length ≤ p.trackLimit.getD maxCylinder) (hmax : (d.headMap side).length < 90) (hm : p.maxRatio = 1)
    (h : dataSlices d p side slices ov = .ok dl) (ht : p.trackParams (d.headMap side).length = .ok tp) :
    dl.trackWidth = tp.renderWidth ∧ ∀ c, c < (d.headMap side).length → ∃ l, dl.list.items c = some l ∧ l.length = slices ∧ 0 < slices ∧
      ∀ s ∈ l, s.radius = (tp.radii c).2.1 := by
  obtain ⟨hlen, hget⟩ := collect_all hs
  have hnum : (d.headMap side).length = min (collect d side).length (p.trackLimit.getD maxCylinder) := by rw [hlen]; omega
  obtain ⟨h1, h2, h3, h4, h5, h6, h7⟩ := dataSlices_ok h hnum rfl
  obtain ⟨g1, g2, g3, g4, g5, g6, g7, g8, g9, g10, g11⟩ := trackParams_ok ht
  have hstd : standardTracksData (d.headMap side).length = standardTracks (d.headMap side).length := by
    unfold standardTracksData standardTracks
    by_cases hh : (d.headMap side).length < 50
    · rw [if_pos hh, if_pos hh]
    · rw [if_neg hh, if_neg hh, if_pos hmax]
  have hw : p.dataWidth (p.radius.getD (1/2)) (d.headMap side).length = tp.totalWidth := by
    rw [g8, g5, g6]
    unfold Params.dataWidth Params.dataInner
    rw [hstd, hm, ← g4]
    simp only [one_mul]
  refine ⟨by rw [h5, g10, hw], fun c hc => ?_⟩
  obtain ⟨t, s, ht1, ht2, ht3⟩ := hget c _ (List.getElem?_eq_getElem hc)
  obtain ⟨l, hl1, hl2, _⟩ := C128_slices d p side slices ov dl h c s ht3 (by omega)
  refine ⟨l, hl1, hl2, h2, ?_⟩
  have h6c := h6 c
  rw [if_pos hc, ht3, hl1] at h6c
  injection h6c with h6c
  have h6c : l = trackSlices p (p.radius.getD (1/2)) (d.headMap side).length slices ov s c := h6c
  intro x hx
  rw [h6c] at hx
  rw [slice_radius x hx, hw]
  unfold TrackParams.radii
  simp only
  rw [hm, one_mul, ← g4]

/-- **C129 fails** under a limit: without pinning, the data of the first cylinder are not in the middle of its ring whenever the limit is below the number of tracks. -/
theorem C129_false_limit (d : Disk) (p : Params) (side slices : Nat) (ov : Rat) (dl : DataList) (tp : TrackParams) (hs : AllStreams d side) (k : Nat)
    (hlim : p.trackLimit = some k) (hk : k < (d.headMap side).length) (hm : p.maxRatio = 1) (hp : p.pin = false)
    (h : dataSlices d p side slices ov = .ok dl) (ht : p.trackParams (d.headMap side).length = .ok tp) :
    ∃ l, dl.list.items 0 = some l ∧ l.length = slices ∧ 0 < slices ∧ ∀ s ∈ l, s.radius ≠ (tp.radii 0).2.1 := by
  obtain ⟨hlen, hget⟩ := collect_all hs
  have hnum : k = min (collect d side).length (p.trackLimit.getD maxCylinder) := by rw [hlen, hlim]; simp; omega
  obtain ⟨h1, h2, h3, h4, h5, h6, h7⟩ := dataSlices_ok h hnum rfl
  obtain ⟨g1, g2, g3, g4, g5, g6, g7, g8, g9, g10, g11⟩ := trackParams_ok ht
  obtain ⟨t, s, ht1, ht2, ht3⟩ := hget 0 _ (List.getElem?_eq_getElem (by omega))
  obtain ⟨l, hl1, hl2, _⟩ := C128_slices d p side slices ov dl h 0 s ht3 (by rw [hlim]; exact h4)
  refine ⟨l, hl1, hl2, h2, ?_⟩
  have h6c := h6 0
  rw [if_pos h4, ht3, hl1] at h6c
  injection h6c with h6c
  have h6c : l = trackSlices p (p.radius.getD (1/2)) k slices ov s 0 := h6c
  intro x hx
  rw [h6c] at hx
  rw [slice_radius x hx]
  unfold TrackParams.radii Params.dataWidth Params.dataInner
  simp only
  rw [hp] at g6
  rw [hp, hm, g8, g5, g6, ← g4, hm]
  simp only [Bool.false_eq_true, if_false, one_mul]
  rw [hm, one_mul, ← g4] at h3
  have hR : 0 < tp.totalRadius - p.minRatio * tp.totalRadius := by linarith
  have hk0 : (0 : Rat) < (k : Rat) := by exact_mod_cast h4
  have hkn : (k : Rat) < ((d.headMap side).length : Rat) := by exact_mod_cast hk
  have hlt : (tp.totalRadius - p.minRatio * tp.totalRadius) / ((d.headMap side).length : Rat) < (tp.totalRadius - p.minRatio * tp.totalRadius) / (k : Rat) :=
    div_lt_div_of_pos_left hR hk0 hkn
  have hz : ((0 : Nat) : Rat) = 0 := rfl
  rw [hz]
  intro e
  linarith

/-- **C129 fails** for a disk whose first track is a list of sectors: the data of cylinder 1 are drawn as those of cylinder 0, and nothing is drawn for cylinder 1. -/
theorem C129_false_mixed (m : MetaTrack) (ch : Ch) (t : Track) (p : Params) (slices : Nat) (ov : Rat) (dl : DataList)
    (h : dataSlices { pool := [.sect m, .bit ch t], map0 := [0, 1] } p 0 slices ov = .ok dl) :
    dl.list.items 1 = none ∧ ∃ l, dl.list.items 0 = some l ∧ l.length = slices ∧ (l.map (·.bits)).sum = lenOf t := by
  have hcol : collect { pool := [.sect m, .bit ch t], map0 := [0, 1] } 0 = [t] := rfl
  obtain ⟨h1, h2, h3, h4, h5, h6, h7⟩ := dataSlices_ok h rfl rfl
  have h61 := h6 1
  rw [hcol] at h61 h4
  simp only [List.length_singleton] at h61 h4
  rw [if_neg (by omega)] at h61
  obtain ⟨l, l1, l2, l3, _⟩ := C128_slices _ p 0 slices ov dl h 0 t (by rw [hcol]; rfl) (by omega)
  exact ⟨h61, l, l1, l2, l3⟩

end Fox
