import Verif.Props.Deleted
import Verif.Props.Track
import Verif.Spec.Catalogue
/-
C21 (sector search), C34 (next id).
-/
namespace Fox
open Fox.Spec Fox.S34

/-! ### Catalogues produced by scans are paired and in track order -/

theorem Spec.Paired.append {a b : List Inst} (ha : Paired a) (hb : Paired b) : Paired (a ++ b) := by
  induction ha with
  | nil => exact hb
  | marker h _ ih => exact .marker h ih
  | orphan h _ ih => exact .orphan h ih
  | sector hx hy h _ ih => exact .sector hx hy h ih

theorem paired_markLast {l : List Inst} (h : Paired l) : Paired (markLast l) := by
  induction h with
  | nil => exact .nil
  | @marker x m l h hl ih =>
    cases l with
    | nil => exact .marker (x := { x with lastSector := true }) (m := m) h .nil
    | cons y l => exact .marker h ih
  | @orphan x c ae l h hl ih =>
    cases l with
    | nil => exact .orphan (x := { x with lastSector := true }) (c := c) (ae := ae) h .nil
    | cons y l => exact .orphan h ih
  | @sector x y c ae de del l hx hy h hl ih =>
    cases l with
    | nil => exact .sector (x := x) (y := { y with lastSector := true }) (de := de) (del := del) hx hy h .nil
    | cons z l => exact .sector hx hy h ih

/-- Invariant of the marker loop of a scan. -/
structure ScanInv (lo : Nat) (st : ScanState) : Prop where
  paired : Paired st.elems
  sorted : st.elems.Pairwise (fun a b => a.start ≤ b.start)
  below : ∀ x ∈ st.elems, x.start ≤ st.lastOff
  off : st.lastOff ≤ lo

theorem scanStep_inv (rnd : Nat → Bool) {lo : Nat} {st : ScanState} (h : ScanInv lo st) (m : MarkerItem)
    (hm : lo ≤ m.start) : ScanInv m.start (scanStep rnd st m) := by
  have hoff := h.off
  -- the generic step: a paired, sorted block between `lastOff` and the new marker
  have key : ∀ (st2 : ScanState) (new : List Inst) (y : Inst), st2.elems = st.elems ++ new ++ [y] →
      y.elem = .marker m.kind → y.start = m.start → st2.lastOff = m.start → Paired new →
      new.Pairwise (fun a b => a.start ≤ b.start) →
      (∀ x ∈ new, st.lastOff ≤ x.start ∧ x.start ≤ m.start) → ScanInv m.start st2 := by
    intro st2 new y e hy1 hy2 ho hp hs hb
    have hle : ∀ x ∈ st.elems ++ new, x.start ≤ m.start := by
      intro x hx
      rcases List.mem_append.1 hx with hx | hx
      · have := h.below x hx; omega
      · exact (hb x hx).2
    refine ⟨?_, ?_, ?_, Nat.le_of_eq ho⟩
    · rw [e]
      exact (h.paired.append hp).append (.marker hy1 .nil)
    · rw [e]
      rw [List.pairwise_append, List.pairwise_append]
      refine ⟨⟨h.sorted, hs, fun a ha b hb' => ?_⟩, by simp, fun a ha b hb' => ?_⟩
      · have := h.below a ha
        have := (hb b hb').1
        omega
      · rw [List.mem_singleton.1 hb', hy2]; exact hle a ha
    · intro x hx
      rw [ho]
      rw [e] at hx
      rcases List.mem_append.1 hx with hx | hx
      · exact hle x hx
      · rw [List.mem_singleton.1 hx, hy2]; exact Nat.le_refl _
  have plain : ∀ (st2 : ScanState) (y : Inst), st2.elems = st.elems ++ [y] →
      y.elem = .marker m.kind → y.start = m.start → st2.lastOff = m.start → ScanInv m.start st2 :=
    fun st2 y e h1 h2 h3 => key st2 [] y (by rw [List.append_nil]; exact e) h1 h2 h3 .nil (by simp) (by simp)
  unfold scanStep
  cases hk : m.kind with
  | iam =>
    cases hl : st.lastMarker with
    | none => exact plain _ _ rfl (by rw [hk]) rfl rfl
    | some p => cases p <;> exact plain _ _ rfl (by rw [hk]) rfl rfl
  | idam =>
    by_cases hl : st.lastMarker = some .idam
    · simp only [hl, if_true]
      refine key _ _ _ rfl (by rw [hk]) rfl rfl ?_ ?_ ?_
      · exact .orphan (c := st.lastId.chsn) (ae := !st.lastId.crcValid) rfl .nil
      · simp
      · intro x hx
        rw [List.mem_singleton.1 hx]
        exact ⟨Nat.le_refl _, by simp only; omega⟩
    · simp only [if_neg hl, List.append_nil]
      exact plain _ _ rfl (by rw [hk]) rfl rfl
  | dam =>
    cases hl : st.lastMarker with
    | none => exact plain _ _ rfl (by rw [hk]) rfl rfl
    | some p =>
      cases p with
      | idam =>
        simp only
        refine key _ _ _ rfl (by rw [hk]) rfl rfl ?_ ?_ ?_
        · exact .sector (c := st.lastId.chsn) (ae := !st.lastId.crcValid) rfl rfl
            (by simp only; omega) .nil
        · simp; omega
        · intro x hx
          simp only [List.mem_cons, List.not_mem_nil, or_false] at hx
          rcases hx with rfl | rfl
          · exact ⟨Nat.le_refl _, by simp only; omega⟩
          · exact ⟨by simp only; omega, Nat.le_refl _⟩
      | _ => exact plain _ _ rfl (by rw [hk]) rfl rfl
  | ddam =>
    cases hl : st.lastMarker with
    | none => exact plain _ _ rfl (by rw [hk]) rfl rfl
    | some p =>
      cases p with
      | idam =>
        simp only
        refine key _ _ _ rfl (by rw [hk]) rfl rfl ?_ ?_ ?_
        · exact .sector (c := st.lastId.chsn) (ae := !st.lastId.crcValid) rfl rfl
            (by simp only; omega) .nil
        · simp; omega
        · intro x hx
          simp only [List.mem_cons, List.not_mem_nil, or_false] at hx
          rcases hx with rfl | rfl
          · exact ⟨Nat.le_refl _, by simp only; omega⟩
          · exact ⟨by simp only; omega, Nat.le_refl _⟩
      | _ => exact plain _ _ rfl (by rw [hk]) rfl rfl

theorem scanFold_inv (rnd : Nat → Bool) : ∀ (ms : List MarkerItem) (lo : Nat) (st : ScanState),
    ScanInv lo st → (∀ m ∈ ms, lo ≤ m.start) → ms.Pairwise (fun a b => a.start ≤ b.start) →
    ∃ lo', ScanInv lo' (ms.foldl (scanStep rnd) st)
  | [], lo, st, h, _, _ => ⟨lo, h⟩
  | m :: ms, lo, st, h, hlo, hp => by
    rw [List.pairwise_cons] at hp
    exact scanFold_inv rnd ms m.start _ (scanStep_inv rnd h m (hlo m (by simp))) hp.1 hp.2

/-- The catalogue of any stream, scanned at any ascending list of markers, is paired and ordered. -/
theorem scanMetadata_paired (s : Mfm) (rnd : Nat → Bool) (ms : List MarkerItem)
    (hp : ms.Pairwise (fun a b => a.start ≤ b.start)) : Paired (scanMetadata s rnd ms).1 := by
  obtain ⟨lo, h⟩ := scanFold_inv rnd ms 0 { stream := s }
    ⟨.nil, by simp, by simp, Nat.le_refl _⟩ (by simp) hp
  unfold scanMetadata
  simp only
  apply paired_markLast
  generalize List.foldl (scanStep rnd) { stream := s } ms = st at h
  unfold sortInsts
  split
  · rw [List.mergeSort_of_pairwise]
    · exact h.paired.append (.orphan (c := st.lastId.chsn) (ae := st.lastId.crcValid) rfl .nil)
    · rw [List.pairwise_append]
      refine ⟨h.sorted.imp (fun h => by simpa using h), by simp, ?_⟩
      intro a ha b hb
      rw [List.mem_singleton.1 hb]
      simpa using h.below a ha
  · rw [List.append_nil, List.mergeSort_of_pairwise]
    · exact h.paired
    · exact h.sorted.imp (fun h => by simpa using h)

theorem findNextMarker_ge {s : Mfm} {cur : Nat} {m : MarkerItem} (h : findNextMarker s cur = some m) :
    cur ≤ m.start := by
  unfold findNextMarker at h
  cases hf : s.findMarker anyMarkerEnc cur none with
  | none => rw [hf] at h; simp at h
  | some p =>
    rw [hf] at h
    obtain ⟨i, hm, _, hi, _⟩ := ((C04_find_marker s anyMarkerEnc cur none).2 p.1 p.2).1 hf
    have hlen : anyMarkerEnc.len = 64 := rfl
    have := hm.1
    simp only at h
    cases hk : Marker.ofU16 p.2 with
    | none => simp [hk] at h
    | some k =>
      simp only [hk, Option.map_some, Option.some.injEq] at h
      rw [← h]
      show cur ≤ p.1
      omega

theorem scanMarkersLoop_sorted (s : Mfm) : ∀ (fuel cur : Nat),
    (∀ m ∈ scanMarkersLoop s fuel cur, cur ≤ m.start) ∧
    (scanMarkersLoop s fuel cur).Pairwise (fun a b => a.start ≤ b.start)
  | 0, cur => by simp [scanMarkersLoop]
  | fuel + 1, cur => by
    rw [scanMarkersLoop]
    cases h : findNextMarker s cur with
    | none => simp
    | some m =>
      have hge := findNextMarker_ge h
      obtain ⟨i1, i2⟩ := scanMarkersLoop_sorted s fuel (m.start + 64)
      refine ⟨?_, ?_⟩
      · intro x hx
        rcases List.mem_cons.1 hx with rfl | hx
        · exact hge
        · have := i1 x hx; omega
      · rw [List.pairwise_cons]
        exact ⟨fun x hx => by have := i1 x hx; omega, i2⟩

theorem scanMarkers_sorted (s : Mfm) : (scanMarkers s).Pairwise (fun a b => a.start ≤ b.start) := by
  unfold scanMarkers
  split
  · rename_i i w h
    obtain ⟨i1, i2⟩ := scanMarkersLoop_sorted s (s.len + 1) (i + 64)
    rw [List.pairwise_cons]
    exact ⟨fun x hx => by have := i1 x hx; simp only; omega, i2⟩
  · exact (scanMarkersLoop_sorted s (s.len + 1) 0).2

/-! ## C21 -/

/-- What the search may report on a paired catalogue, from element `ei` on. -/
def FoundOk (q : Query) (index : Nat) (all : List Inst) : ScanResult → Prop
  | .notFound .. => True
  | .found ei c ae de del noDam last =>
    c.s = q.s ∧ (∃ x, all[ei]? = some x ∧ index ≤ x.start ∧ x.lastSector = last ∧
      ((ae = true ∨ noDam = true) ∧ x.elem = .header c ae noDam ∨
       (ae = false ∧ noDam = false) ∧ x.elem = .data c ae de del ∧ agrees q c = true))

theorem findLoop_header {q : Query} {index ei : Nat} {st : FindState} {x : Inst} {l : List Inst} {c : Chsn}
    {ae dm : Bool} (hx : x.elem = .header c ae dm) :
    (findLoop q index ei st (x :: l) = .found ei c ae false false dm x.lastSector ∧ (ae || dm) = true ∧
        index ≤ x.start ∧ c.s = q.s) ∨
    ∃ st', findLoop q index ei st (x :: l) = findLoop q index (ei + 1) st' l ∧
      ((index ≤ x.start ∧ c.s = q.s) → (ae || dm) = false ∧ st'.matched = agrees q c) ∧
      (¬ (index ≤ x.start ∧ c.s = q.s) → st' = st) := by
  rw [findLoop]
  by_cases h1 : x.start < index
  · rw [if_pos h1]
    exact Or.inr ⟨st, rfl, fun h => by omega, fun _ => rfl⟩
  · rw [if_neg h1, hx]
    simp only
    by_cases h2 : c.s = q.s
    · rw [if_pos h2]
      by_cases h3 : (ae || dm) = true
      · rw [if_pos h3]
        exact Or.inl ⟨rfl, h3, by omega, h2⟩
      · rw [if_neg h3]
        exact Or.inr ⟨_, rfl, fun _ => ⟨by simpa using h3, by rw [← matchesB_agrees]⟩,
          fun h => absurd ⟨by omega, h2⟩ h⟩
    · rw [if_neg h2]
      exact Or.inr ⟨st, rfl, fun h => absurd h.2 h2, fun _ => rfl⟩

theorem findLoop_data_skip {q : Query} {index ei : Nat} {st : FindState} {x : Inst} {l : List Inst}
    {c : Chsn} {ae de del : Bool} (hx : x.elem = .data c ae de del) (hst : st.matched = false) :
    findLoop q index ei st (x :: l) = findLoop q index (ei + 1) st l := by
  rw [findLoop]
  split
  · rfl
  · rw [hx]; simp [hst]

theorem findLoop_data_hit {q : Query} {index ei : Nat} {st : FindState} {x : Inst} {l : List Inst}
    {c : Chsn} {ae de del : Bool} (hx : x.elem = .data c ae de del) (hst : st.matched = true)
    (hi : index ≤ x.start) :
    findLoop q index ei st (x :: l) = .found ei c ae de del false x.lastSector := by
  rw [findLoop, if_neg (by omega), hx]; simp [hst]

theorem findLoop_sound (q : Query) (index : Nat) (all : List Inst) {l : List Inst} (hl : Paired l) :
    ∀ (ei : Nat) (st : FindState), st.matched = false → all.drop ei = l →
      FoundOk q index all (findLoop q index ei st l) := by
  induction hl with
  | nil => intro ei st _ _; simp [findLoop, FoundOk]
  | @marker x m l h _ ih =>
    intro ei st hst hd
    rw [findLoop_marker _ _ _ _ _ _ h]
    exact ih (ei + 1) st hst (by rw [← List.tail_drop, hd]; rfl)
  | @orphan x c ae l h _ ih =>
    intro ei st hst hd
    have hget : all[ei]? = some x := by
      have : (all.drop ei)[0]? = some x := by rw [hd]; rfl
      simpa using this
    rcases findLoop_header (q := q) (index := index) (ei := ei) (st := st) (l := l) h with
      ⟨e, h1, h2, h3⟩ | ⟨st', e, h1, h2⟩
    · rw [e]
      exact ⟨h3, x, hget, h2, rfl, Or.inl ⟨Or.inr rfl, h⟩⟩
    · rw [e]
      have hst' : st'.matched = false := by
        by_cases hc : index ≤ x.start ∧ c.s = q.s
        · have := (h1 hc).1; simp at this
        · rw [h2 hc]; exact hst
      exact ih (ei + 1) st' hst' (by rw [← List.tail_drop, hd]; rfl)
  | @sector x y c ae de del l hx hy hle _ ih =>
    intro ei st hst hd
    have hget : all[ei]? = some x := by
      have : (all.drop ei)[0]? = some x := by rw [hd]; rfl
      simpa using this
    have hget2 : all[ei + 1]? = some y := by
      have : (all.drop ei)[1]? = some y := by rw [hd]; rfl
      simpa using this
    have hd2 : all.drop (ei + 2) = l := by
      rw [← List.tail_drop, ← List.tail_drop, hd]; rfl
    rcases findLoop_header (q := q) (index := index) (ei := ei) (st := st) (l := y :: l) hx with
      ⟨e, h1, h2, h3⟩ | ⟨st', e, h1, h2⟩
    · rw [e]
      exact ⟨h3, x, hget, h2, rfl, Or.inl ⟨Or.inl (by simpa using h1), hx⟩⟩
    · rw [e]
      by_cases hc : index ≤ x.start ∧ c.s = q.s
      · obtain ⟨g1, g2⟩ := h1 hc
        have hae : ae = false := by simpa using g1
        cases ha : agrees q c with
        | true =>
          rw [findLoop_data_hit hy (by rw [g2, ha]) (by omega)]
          exact ⟨hc.2, y, hget2, by omega, rfl, Or.inr ⟨⟨hae, rfl⟩, hy, ha⟩⟩
        | false =>
          rw [findLoop_data_skip hy (by rw [g2, ha])]
          exact ih (ei + 2) st' (by rw [g2, ha]) hd2
      · rw [h2 hc, findLoop_data_skip hy hst]
        exact ih (ei + 2) st hst hd2

theorem findLoop_complete (q : Query) (index : Nat) {l : List Inst} (hl : Paired l) :
    ∀ (ei : Nat) (st : FindState) (c : Chsn), st.matched = false → Readable index c l → agrees q c = true →
      ∀ wc bc wh, findLoop q index ei st l ≠ .notFound wc bc wh := by
  induction hl with
  | nil =>
    rintro ei st c _ ⟨a, x, y, b, de, del, h, _⟩
    simp at h
  | @marker x m l h _ ih =>
    rintro ei st c hst ⟨a, x', y, b, de, del, h1, h2, h3, h4⟩ ha
    rw [findLoop_marker _ _ _ _ _ _ h]
    refine ih (ei + 1) st c hst ?_ ha
    cases a with
    | nil =>
      simp only [List.nil_append, List.cons.injEq] at h1
      rw [h1.1, h2] at h; simp at h
    | cons z a =>
      simp only [List.cons_append, List.cons.injEq] at h1
      exact ⟨a, x', y, b, de, del, h1.2, h2, h3, h4⟩
  | @orphan x c' ae l h _ ih =>
    rintro ei st c hst ⟨a, x', y, b, de, del, h1, h2, h3, h4⟩ ha
    have hr : Readable index c l := by
      cases a with
      | nil =>
        simp only [List.nil_append, List.cons.injEq] at h1
        rw [h1.1, h2] at h; simp at h
      | cons z a =>
        simp only [List.cons_append, List.cons.injEq] at h1
        exact ⟨a, x', y, b, de, del, h1.2, h2, h3, h4⟩
    rcases findLoop_header (q := q) (index := index) (ei := ei) (st := st) (l := l) h with
      ⟨e, _⟩ | ⟨st', e, g1, g2⟩
    · rw [e]; simp
    · rw [e]
      have hst' : st'.matched = false := by
        by_cases hc : index ≤ x.start ∧ c'.s = q.s
        · have := (g1 hc).1; simp at this
        · rw [g2 hc]; exact hst
      exact ih (ei + 1) st' c hst' hr ha
  | @sector x y c' ae de' del' l hx hy hle _ ih =>
    rintro ei st c hst ⟨a, x', y', b, de, del, h1, h2, h3, h4⟩ ha
    have hcase : (x' = x ∧ c' = c ∧ ae = false) ∨ Readable index c l := by
      cases a with
      | nil =>
        simp only [List.nil_append, List.cons.injEq] at h1
        rw [h1.1, h2] at hx
        simp only [Elem.header.injEq, and_true] at hx
        exact Or.inl ⟨h1.1.symm, hx.1.symm, hx.2.symm⟩
      | cons z a =>
        cases a with
        | nil =>
          simp only [List.cons_append, List.nil_append, List.cons.injEq] at h1
          rw [h1.2.1, h2] at hy; simp at hy
        | cons w a =>
          simp only [List.cons_append, List.cons.injEq] at h1
          exact Or.inr ⟨a, x', y', b, de, del, h1.2.2, h2, h3, h4⟩
    rcases findLoop_header (q := q) (index := index) (ei := ei) (st := st) (l := y :: l) hx with
      ⟨e, _⟩ | ⟨st', e, g1, g2⟩
    · rw [e]; simp
    · rw [e]
      by_cases hc : index ≤ x.start ∧ c'.s = q.s
      · obtain ⟨k1, k2⟩ := g1 hc
        cases hm : agrees q c' with
        | true =>
          rw [findLoop_data_hit hy (by rw [k2, hm]) (by omega)]; simp
        | false =>
          rw [findLoop_data_skip hy (by rw [k2, hm])]
          refine ih (ei + 1 + 1) st' c (by rw [k2, hm]) ?_ ha
          rcases hcase with ⟨_, rfl, _⟩ | hr
          · rw [hm] at ha; cases ha
          · exact hr
      · rw [g2 hc, findLoop_data_skip hy hst]
        refine ih (ei + 1 + 1) st c hst ?_ ha
        rcases hcase with ⟨rfl, rfl, _⟩ | hr
        · refine absurd ⟨h4, ?_⟩ hc
          simp [agrees] at ha
          exact ha.1.1.1.symm
        · exact hr

/-- **C21 (partial).** On the catalogue of *any* stream (any cells, any damage): a sector the search
reports has the queried sector number, is an element of the catalogue at or after the search offset, and,
unless it is reported with a damaged header or without data, agrees with the query on every field the
query fixes; and the search does not report not-found while the catalogue holds a readable agreeing
sector.  Missing: agreement of the other fields when the sector is reported with a damaged header or
without data (refuted below). -/
theorem C21_search_partial (s : Mfm) (rnd : Nat → Bool) (q : Query) (index : Nat) :
    let items := (scanMetadata s rnd (scanMarkers s)).1
    FoundOk q index items (findSectorElement q items index) ∧
    ∀ c, Readable index c items → agrees q c = true →
      ∀ wc bc wh, findSectorElement q items index ≠ .notFound wc bc wh := by
  intro items
  have hp : Paired items := scanMetadata_paired s rnd _ (scanMarkers_sorted s)
  exact ⟨findLoop_sound q index items hp 0 {} rfl rfl,
    fun c hr ha => findLoop_complete q index hp 0 {} c rfl hr ha⟩

/-- **C21, finding.** A header with a damaged CRC is reported as soon as its sector number matches, even
when its cylinder contradicts the query and a good, fully matching sector follows on the track: the
search stops at the wrong sector and the good one is never reached. -/
theorem C21_false_damaged_header :
    let bad : Inst := ⟨.header ⟨9, 0, 1, 2⟩ true false, 1000, 2000, none, false⟩
    let badData : Inst := ⟨.data ⟨9, 0, 1, 2⟩ true false false, 2000, 3000, none, false⟩
    let good : Inst := ⟨.header ⟨0, 0, 1, 2⟩ false false, 4000, 5000, none, false⟩
    let goodData : Inst := ⟨.data ⟨0, 0, 1, 2⟩ false false false, 5000, 6000, none, false⟩
    let items := [bad, badData, good, goodData]
    let q : Query := .ofChsn ⟨0, 0, 1, 2⟩
    Paired items ∧ Readable 0 ⟨0, 0, 1, 2⟩ items ∧ agrees q ⟨0, 0, 1, 2⟩ = true ∧
      findSectorElement q items 0 = .found 0 ⟨9, 0, 1, 2⟩ true false false false false ∧
      agrees q ⟨9, 0, 1, 2⟩ = false := by
  intro bad badData good goodData items q
  refine ⟨.sector (de := false) (del := false) rfl rfl (by decide)
    (.sector (de := false) (del := false) rfl rfl (by decide) .nil),
    ⟨[bad, badData], good, goodData, [], false, false, rfl, rfl, rfl, by decide⟩, ?_, ?_, ?_⟩ <;> decide

/-- On a track all of whose headers are intact, the full claim holds: the search finds the first sector
that agrees with the query, and reports not-found exactly when there is none. -/
theorem C21_wellformed {t : Track} {iam : Option Nat} {secs : List Sec} (h : TrackOk t iam secs) (q : Query)
    (index : Nat) :
    (∀ a x b, secs = a ++ x :: b → (∀ y ∈ a, ¬ (index ≤ 16 * y.io ∧ agrees q y.id = true)) →
      index ≤ 16 * x.io → agrees q x.id = true →
      ∃ ei, findSectorElement q t.items index = .found ei x.id false x.de x.del false false ∧
        ∃ y, t.items[ei]? = some y ∧ y.elem = .data x.id false x.de x.del ∧ y.start = 16 * x.dof) ∧
    ((∀ x ∈ secs, ¬ (index ≤ 16 * x.io ∧ agrees q x.id = true)) ↔
      ∃ wc bc wh, findSectorElement q t.items index = .notFound wc bc wh) := by
  obtain ⟨B, hs⟩ := h.stream
  obtain ⟨lo, _, _, hpl⟩ := hs.placed
  have hit : ∀ y : Sec, Hit q index y ↔ (index ≤ 16 * y.io ∧ agrees q y.id = true) := by
    intro y; unfold Hit; rw [matchesB_agrees]
  have found : ∀ a x b, secs = a ++ x :: b → (∀ y ∈ a, ¬ Hit q index y) → Hit q index x →
      findSectorElement q t.items index =
        .found (iam.toList.length + 4 * a.length + 2) x.id false x.de x.del false false := by
    intro a x b e ha hx
    obtain ⟨_, p2, _⟩ := placed_mem hpl (x := x) (by rw [e]; simp)
    rw [h.items, findSector_iam, e, findLoop_first q index x b hx (by omega) a ha _ {} rfl]
  refine ⟨?_, ?_, ?_⟩
  · intro a x b e ha h1 h2
    refine ⟨_, found a x b e (fun y hy => by rw [hit]; exact ha y hy) ((hit x).2 ⟨h1, h2⟩), ?_⟩
    rw [h.items, e, itemsOf_getElem]
    exact ⟨_, rfl, rfl, rfl⟩
  · intro hn
    rw [h.items, findSector_iam, findLoop_none q index secs (fun y hy => by rw [hit]; exact hn y hy) _ {} rfl]
    exact ⟨_, _, _, rfl⟩
  · rintro ⟨wc, bc, wh, hnf⟩ x hx hh
    have split : ∀ l : List Sec, (∃ y ∈ l, Hit q index y) →
        ∃ a y b, l = a ++ y :: b ∧ (∀ z ∈ a, ¬ Hit q index z) ∧ Hit q index y := by
      intro l
      induction l with
      | nil => rintro ⟨y, hy, _⟩; simp at hy
      | cons z l ih =>
        rintro ⟨y, hy, hyy⟩
        by_cases hz : Hit q index z
        · exact ⟨[], z, l, rfl, by simp, hz⟩
        · have hy' : y ∈ l := by
            rcases List.mem_cons.1 hy with rfl | hy
            · exact absurd hyy hz
            · exact hy
          obtain ⟨a, y', b, e, g1, g2⟩ := ih ⟨y, hy', hyy⟩
          refine ⟨z :: a, y', b, by rw [e]; rfl, ?_, g2⟩
          intro w hw
          rcases List.mem_cons.1 hw with rfl | hw
          · exact hz
          · exact g1 w hw
    obtain ⟨a, y, b, e, g1, g2⟩ := split secs ⟨x, hx, (hit x).2 hh⟩
    rw [found a y b e g1 g2] at hnf
    cases hnf

/-! ## C34 -/

theorem nextIdLoop_true (sn : Nat) (first x : Chsn) (rest : List Chsn) :
    Track.nextIdLoop sn first true (x :: rest) = some x := by simp [Track.nextIdLoop]

theorem nextIdLoop_skip (sn : Nat) (first : Chsn) : ∀ (a : List Chsn) (l : List Chsn), (∀ y ∈ a, y.s ≠ sn) →
    Track.nextIdLoop sn first false (a ++ l) = Track.nextIdLoop sn first false l
  | [], _, _ => rfl
  | y :: a, l, h => by
    have hy : (y.s == sn) = false := by simpa using h y (by simp)
    rw [List.cons_append, Track.nextIdLoop, if_neg (by simp), hy]
    exact nextIdLoop_skip sn first a l (fun z hz => h z (by simp [hz]))

/-- **C34 (partial).** On any track, whatever its catalogue: the id after a sector is the id of the sector
that follows the first one with the same sector number, wrapping from the last sector to the first; there
is none exactly when no sector has the number.  Missing: the claim for tracks on which two sectors share a
sector number but differ in cylinder, head or size — the code compares the number only (refuted below). -/
theorem C34_next_id_partial (t : Track) (x : Chs) :
    (∀ a y b, t.sectorIds = a ++ y :: b → (∀ z ∈ a, z.s ≠ x.s) → y.s = x.s →
      t.nextId x = some ((b ++ a ++ [y]).headD y)) ∧
    (t.nextId x = none ↔ ∀ y ∈ t.sectorIds, y.s ≠ x.s) := by
  have fwd : ∀ a y b, t.sectorIds = a ++ y :: b → (∀ z ∈ a, z.s ≠ x.s) → y.s = x.s →
      t.nextId x = some ((b ++ a ++ [y]).headD y) := by
    intro a y b e ha hy
    have hloop : ∀ first, Track.nextIdLoop x.s first false (a ++ y :: b) = some (b.headD first) := by
      intro first
      rw [nextIdLoop_skip x.s first a _ ha, Track.nextIdLoop, if_neg (by simp)]
      have : (y.s == x.s) = true := by simpa using hy
      rw [this]
      cases b with
      | nil => rfl
      | cons z b => exact nextIdLoop_true _ _ _ _
    unfold Track.nextId
    rw [e]
    cases a with
    | nil =>
      simp only [List.nil_append]
      have := hloop y
      simp only [List.nil_append] at this
      rw [this]
      cases b <;> rfl
    | cons z a =>
      have := hloop z
      simp only [List.cons_append] at this ⊢
      rw [this]
      cases b <;> rfl
  refine ⟨fwd, ?_, ?_⟩
  · intro hn
    apply Classical.byContradiction
    intro hc
    have hex : ∃ y ∈ t.sectorIds, y.s = x.s := by
      apply Classical.byContradiction
      intro h
      exact hc fun y hy he => h ⟨y, hy, he⟩
    have split : ∀ l : List Chsn, (∃ y ∈ l, y.s = x.s) →
        ∃ a y b, l = a ++ y :: b ∧ (∀ z ∈ a, z.s ≠ x.s) ∧ y.s = x.s := by
      intro l
      induction l with
      | nil => rintro ⟨y, hy, _⟩; simp at hy
      | cons z l ih =>
        rintro ⟨y, hy, hyy⟩
        by_cases hz : z.s = x.s
        · exact ⟨[], z, l, rfl, by simp, hz⟩
        · have hy' : y ∈ l := by
            rcases List.mem_cons.1 hy with rfl | hy
            · exact absurd hyy hz
            · exact hy
          obtain ⟨a, y', b, e, g1, g2⟩ := ih ⟨y, hy', hyy⟩
          refine ⟨z :: a, y', b, by rw [e]; rfl, ?_, g2⟩
          intro w hw
          rcases List.mem_cons.1 hw with rfl | hw
          · exact hz
          · exact g1 w hw
    obtain ⟨a, y, b, e, g1, g2⟩ := split _ hex
    rw [fwd a y b e g1 g2] at hn
    cases hn
  · intro hn
    unfold Track.nextId
    cases hl : t.sectorIds with
    | nil => rfl
    | cons first rest =>
      simp only
      have := nextIdLoop_skip x.s first (first :: rest) [] (by rw [← hl]; exact hn)
      rw [List.append_nil] at this
      rw [this]; simp [Track.nextIdLoop]

/-- C34 on a formatted track: following the ids from any sector visits the track ring in order. -/
theorem C34_formatted (t : Track) (ht : Formattable t) (rnd : Nat → Bool) (std : Standard)
    (a b : List Chsn) (y : Chsn) (hid : ∀ x ∈ a ++ y :: b, x.WF ∧ x.c < 256) (pat : List Byte)
    (hp : pat ≠ []) (gap3 : Nat) (hf : Fits std gap3 (a ++ y :: b) t.data.len)
    (hd : ((a ++ y :: b).map Chsn.s).Nodup) :
    ∃ t', t.format rnd std (a ++ y :: b) pat gap3 = .ok t' ∧
      t'.nextId ⟨y.c, y.h, y.s⟩ = some ((b ++ a ++ [y]).headD y) := by
  obtain ⟨t', h1, _, h2, _⟩ := C05_format_discoverable t ht rnd std _ hid pat hp gap3 hf
  refine ⟨t', h1, (C34_next_id_partial t' ⟨y.c, y.h, y.s⟩).1 a y b h2 ?_ rfl⟩
  intro z hz hs
  rw [List.map_append, List.nodup_append] at hd
  exact hd.2.2 z.s (List.mem_map.2 ⟨z, hz, rfl⟩) y.s (by simp) hs

/-- **C34, finding.** Two sectors with distinct ids but the same sector number: the id after the second
one is reported as the id after the first, so the third sector is never reached from the second. -/
theorem C34_false_same_number :
    let ids : List Chsn := [⟨0, 0, 1, 2⟩, ⟨1, 0, 1, 2⟩, ⟨0, 0, 2, 2⟩]
    let t : Track := ⟨⟨.ofBits [], .ofBits [], true, .ofBits [], 0⟩,
      ids.map fun c => ⟨.header c false false, 0, 0, none, false⟩, some .system34⟩
    t.sectorIds = ids ∧ ids.Nodup ∧ t.nextId ⟨1, 0, 1⟩ = some ⟨1, 0, 1, 2⟩ := by
  refine ⟨by decide, by decide, by decide⟩

example : ((exIds).map Chsn.s).Nodup := by decide

end Fox
