import Verif.Spec.Catalog
import Verif.Props.Track
import Verif.Props.Search
/-
C114: what is at a position of a track.
-/
namespace Fox
open S34 Spec

theorem contains_iff' (x : Inst) (bit : Nat) : x.contains bit = true ↔ Touches x bit := by
  unfold Inst.contains Touches
  simp

/-- `best` is the shortest element that touches the bit among those with the given indices. -/
def BestOf (items : List Inst) (bit : Nat) (S : Nat → Prop) (best : Option (Nat × Nat)) : Prop :=
  match best with
  | none => ∀ i, S i → ∀ x, items[i]? = some x → ¬ Touches x bit
  | some (l, i) => (∃ x, items[i]? = some x ∧ Touches x bit ∧ x.len = l) ∧
    ∀ j, S j → ∀ y, items[j]? = some y → Touches y bit → l ≤ y.len

/-- How one more element changes the best one. -/
def improve (x : Inst) (bit i : Nat) (best : Option (Nat × Nat)) : Option (Nat × Nat) :=
  if x.contains bit then
    match best with
    | none => some (x.len, i)
    | some (l, _) => if x.len < l then some (x.len, i) else best
  else best

theorem improve_best {items : List Inst} {bit i : Nat} {S : Nat → Prop} {best : Option (Nat × Nat)} {x : Inst}
    (h : BestOf items bit S best) (hx : items[i]? = some x) :
    BestOf items bit (fun j => S j ∨ j = i) (improve x bit i best) := by
  unfold improve
  by_cases hc : x.contains bit = true
  · rw [if_pos hc]
    have ht := (contains_iff' x bit).1 hc
    cases best with
    | none =>
      refine ⟨⟨x, hx, ht, rfl⟩, ?_⟩
      rintro j (hj | rfl) y hy hty
      · exact absurd hty (h j hj y hy)
      · rw [hx] at hy; injection hy with hy; subst hy; exact Nat.le_refl _
    | some p =>
      obtain ⟨l, k⟩ := p
      obtain ⟨⟨z, hz1, hz2, hz3⟩, hall⟩ := h
      simp only
      by_cases hl : x.len < l
      · rw [if_pos hl]
        refine ⟨⟨x, hx, ht, rfl⟩, ?_⟩
        rintro j (hj | rfl) y hy hty
        · have := hall j hj y hy hty; omega
        · rw [hx] at hy; injection hy with hy; subst hy; exact Nat.le_refl _
      · rw [if_neg hl]
        refine ⟨⟨z, hz1, hz2, hz3⟩, ?_⟩
        rintro j (hj | rfl) y hy hty
        · exact hall j hj y hy hty
        · rw [hx] at hy; injection hy with hy; subst hy; omega
  · rw [if_neg hc]
    have ht : ¬ Touches x bit := fun h => hc ((contains_iff' x bit).2 h)
    cases best with
    | none =>
      rintro j (hj | rfl) y hy
      · exact h j hj y hy
      · rw [hx] at hy; injection hy with hy; subst hy; exact ht
    | some p =>
      refine ⟨h.1, ?_⟩
      rintro j (hj | rfl) y hy hty
      · exact h.2 j hj y hy hty
      · rw [hx] at hy; injection hy with hy; subst hy; exact absurd hty ht

theorem BestOf.mono {items : List Inst} {bit : Nat} {S T : Nat → Prop} {best : Option (Nat × Nat)}
    (h : BestOf items bit S best) (hT : ∀ j, T j → S j ∨ ∀ y, items[j]? = some y → ¬ Touches y bit) : BestOf items bit T best := by
  cases best with
  | none =>
    intro j hj y hy
    rcases hT j hj with h1 | h1
    · exact h j h1 y hy
    · exact h1 y hy
  | some p =>
    refine ⟨h.1, ?_⟩
    intro j hj y hy hty
    rcases hT j hj with h1 | h1
    · exact h.2 j h1 y hy hty
    · exact absurd hty (h1 y hy)

theorem hitBack_best (items : List Inst) (bit : Nat) : ∀ (i : Nat) (best : Option (Nat × Nat)), i < items.length →
    (best = none) → BestOf items bit (fun j => j ≤ i) (hitBack items bit i best) := by
  have gen : ∀ (i : Nat) (S : Nat → Prop) (best : Option (Nat × Nat)), i < items.length → BestOf items bit S best →
      BestOf items bit (fun j => S j ∨ j ≤ i) (hitBack items bit i best) := by
    intro i
    induction i with
    | zero =>
      intro S best hi h
      have hx := List.getElem?_eq_getElem hi
      rw [hitBack.eq_def]
      simp only [hx]
      exact (improve_best h hx).mono fun j hj => Or.inl (hj.imp id (by omega))
    | succ i ih =>
      intro S best hi h
      have hx := List.getElem?_eq_getElem hi
      rw [hitBack.eq_def]
      simp only [hx]
      exact (ih _ _ (by omega) (improve_best h hx)).mono fun j hj => Or.inl (by
        rcases hj with hj | hj
        · exact Or.inl (Or.inl hj)
        · by_cases hji : j = i + 1
          · exact Or.inl (Or.inr hji)
          · exact Or.inr (by omega))
  intro i best hi hb
  subst hb
  exact (gen i (fun _ => False) none hi (fun _ h => h.elim)).mono fun j hj => Or.inl (Or.inr hj)

theorem hitOn_best (items : List Inst) (bit : Nat) (ho : Ordered items) : ∀ (l : List Inst) (i : Nat) (S : Nat → Prop)
    (best : Option (Nat × Nat)), items.drop i = l → BestOf items bit S best →
    BestOf items bit (fun j => S j ∨ i ≤ j) (hitOn bit i l best)
  | [], i, S, best, hd, h => by
    rw [hitOn.eq_def]
    simp only
    refine h.mono fun j hj => hj.imp id ?_
    intro hij y hy
    have : items.length ≤ i := by simpa using hd
    rw [List.getElem?_eq_none (by omega)] at hy
    cases hy
  | x :: rest, i, S, best, hd, h => by
    have hx : items[i]? = some x := by
      have : (items.drop i)[0]? = some x := by rw [hd]; rfl
      simpa using this
    rw [hitOn.eq_def]
    simp only
    by_cases hs : x.start > bit
    · rw [if_pos hs]
      refine h.mono fun j hj => hj.imp id ?_
      intro hij y hy ht
      have hle : x.start ≤ y.start := by
        by_cases hji : j = i
        · subst hji; rw [hx] at hy; injection hy with hy; subst hy; exact Nat.le_refl _
        · obtain ⟨hj1, hj2⟩ := List.getElem?_eq_some_iff.1 hy
          obtain ⟨hi1, hi2⟩ := List.getElem?_eq_some_iff.1 hx
          have := (List.pairwise_iff_getElem.1 ho) i j hi1 hj1 (by omega)
          rw [hi2, hj2] at this
          exact this
      have := ht.1
      omega
    · rw [if_neg hs]
      refine (hitOn_best items bit ho rest (i + 1) _ _ (by rw [← List.tail_drop, hd]; rfl) (improve_best h hx)).mono fun j hj => Or.inl ?_
      rcases hj with hj | hj
      · exact Or.inl (Or.inl hj)
      · by_cases hji : j = i
        · exact Or.inl (Or.inr hji)
        · exact Or.inr (by omega)

/-- **C114, the element under a position (`hit_test`).**  Whatever binary search answers, the test gives one of the shortest of the
elements that contain the bit or end right before it, with its index in the list, and nothing just if there is no such element.
The elements of every track are in order (`C114_ordered`).  Missing: that the bit is in the element, refuted below. -/
theorem C114_hit_partial (items : List Inst) (ho : Ordered items) (bit pos : Nat) :
    (hitTest items bit pos = none ↔ ∀ x ∈ items, ¬ Touches x bit) ∧
    ∀ x i, hitTest items bit pos = some (x, i) → items[i]? = some x ∧ Smallest items (fun y => Touches y bit) x := by
  by_cases he : items = []
  · subst he
    constructor
    · exact ⟨fun _ x hx => by simp at hx, fun _ => rfl⟩
    · intro x i h
      simp [hitTest] at h
  have hlen : 0 < items.length := List.length_pos_iff.2 he
  have hb := hitOn_best items bit ho (items.drop pos) pos _ _ rfl
    (hitBack_best items bit (min pos (items.length - 1)) none (by omega) rfl)
  have hall : ∀ j, j < items.length → (j ≤ min pos (items.length - 1) ∨ pos ≤ j) := by intro j hj; omega
  unfold hitTest
  rw [if_neg he]
  generalize hitOn bit pos (items.drop pos) (hitBack items bit (min pos (items.length - 1)) none) = best at hb
  cases best with
  | none =>
    refine ⟨⟨fun _ x hx ht => ?_, fun _ => rfl⟩, fun x i h => by simp at h⟩
    obtain ⟨j, hj⟩ := List.mem_iff_getElem?.1 hx
    have hjl : j < items.length := (List.getElem?_eq_some_iff.1 hj).1
    exact hb j (hall j hjl) x hj ht
  | some p =>
    obtain ⟨l, i⟩ := p
    obtain ⟨⟨x, hx1, hx2, hx3⟩, hmin⟩ := hb
    have hmem : x ∈ items := List.mem_iff_getElem?.2 ⟨i, hx1⟩
    simp only [hx1, Option.map_some]
    refine ⟨⟨fun h => by simp at h, fun h => absurd hx2 (h x hmem)⟩, ?_⟩
    intro x' i' h
    simp only [Option.some.injEq, Prod.mk.injEq] at h
    obtain ⟨rfl, rfl⟩ := h
    refine ⟨hx1, hmem, hx2, ?_⟩
    intro y hy ht
    obtain ⟨j, hj⟩ := List.mem_iff_getElem?.1 hy
    have hjl : j < items.length := (List.getElem?_eq_some_iff.1 hj).1
    have := hmin j (hall j hjl) y hj ht
    unfold Inst.len at *
    omega

theorem getLast_of_pairwise {α : Type} {r : α → α → Prop} (hr : ∀ a, r a a) : ∀ (l : List α) (x : α), l.Pairwise r → l.getLast? = some x →
    ∀ y ∈ l, r y x
  | [], x, _, h => by simp at h
  | [a], x, _, h => by
    simp at h; subst h
    intro y hy; simp at hy; subst hy; exact hr _
  | a :: b :: l, x, hp, h => by
    rw [List.pairwise_cons] at hp
    have hl : (b :: l).getLast? = some x := by rw [List.getLast?_cons_cons] at h; exact h
    intro y hy
    rcases List.mem_cons.1 hy with rfl | hy
    · exact hp.1 x (List.mem_of_getLast? hl)
    · exact getLast_of_pairwise hr (b :: l) x hp.2 hl y hy

/-- **C114, the element at a position (`item_at`).**  The answer is an element that contains the bit or ends right before it, of those
one that begins last, with the number of all of them; there is none just if there is no such element.  Missing: that it is the
innermost, refuted below. -/
theorem C114_item_partial (items : List Inst) (bit : Nat) :
    (itemAt items bit = none ↔ ∀ x ∈ items, ¬ Touches x bit) ∧
    ∀ x n, itemAt items bit = some (x, n) → x ∈ items ∧ Touches x bit ∧ (∀ y ∈ items, Touches y bit → y.start ≤ x.start) ∧
      n = items.countP (fun y => decide (Touches y bit)) := by
  have hmem : ∀ x, x ∈ sortInsts (items.filter (·.contains bit)) ↔ x ∈ items ∧ Touches x bit := by
    intro x
    unfold sortInsts
    rw [(List.mergeSort_perm _ _).mem_iff, List.mem_filter, contains_iff']
  have hp : (sortInsts (items.filter (·.contains bit))).Pairwise (fun a b => a.start ≤ b.start) := by
    unfold sortInsts
    refine (List.pairwise_mergeSort (le := fun a b : Inst => decide (a.start ≤ b.start)) ?_ ?_ _).imp (fun h => by simpa using h)
    · intro a b c h1 h2; simp at *; omega
    · intro a b; simp; omega
  have hct : (items.filter (·.contains bit)).length = items.countP (fun y => decide (Touches y bit)) := by
    rw [List.countP_eq_length_filter]
    congr 1
    apply List.filter_congr
    intro x _
    rw [Bool.eq_iff_iff, contains_iff']
    simp
  unfold itemAt
  simp only
  cases hl : (sortInsts (items.filter (·.contains bit))).getLast? with
  | none =>
    have hn : sortInsts (items.filter (·.contains bit)) = [] := List.getLast?_eq_none_iff.1 hl
    refine ⟨⟨fun _ x hx ht => ?_, fun _ => rfl⟩, fun x n h => by simp at h⟩
    have := (hmem x).2 ⟨hx, ht⟩
    rw [hn] at this
    simp at this
  | some z =>
    have hz := (hmem z).1 (List.mem_of_getLast? hl)
    refine ⟨⟨fun h => by simp at h, fun h => absurd hz.2 (h z hz.1)⟩, ?_⟩
    intro x n h
    simp only [Option.some.injEq, Prod.mk.injEq] at h
    obtain ⟨rfl, rfl⟩ := h
    refine ⟨hz.1, hz.2, ?_, hct⟩
    intro y hy ht
    exact getLast_of_pairwise (r := fun a b : Inst => a.start ≤ b.start) (fun _ => Nat.le_refl _) _ _ hp hl y ((hmem y).2 ⟨hy, ht⟩)

theorem ordered_markLast {l : List Inst} (h : Ordered l) : Ordered (markLast l) := by
  have he : ∀ l : List Inst, (markLast l).map (·.start) = l.map (·.start) := by
    intro l
    induction l with
    | nil => rfl
    | cons x l ih => cases l with
      | nil => rfl
      | cons y l => rw [markLast, List.map_cons, ih]; rfl
  have h1 : (l.map (·.start)).Pairwise (· ≤ ·) := List.pairwise_map.2 h
  rw [← he] at h1
  exact List.pairwise_map.1 h1

/-- The elements of every track, whatever is on it, are in order. -/
theorem C114_ordered (s : Mfm) (rnd : Nat → Bool) (ms : List MarkerItem) : Ordered (scanMetadata s rnd ms).1 := by
  unfold scanMetadata
  simp only
  apply ordered_markLast
  unfold sortInsts Ordered
  refine (List.pairwise_mergeSort (le := fun a b : Inst => decide (a.start ≤ b.start)) ?_ ?_ _).imp (fun h => by simpa using h)
  · intro a b c h1 h2; simp at *; omega
  · intro a b; simp; omega

theorem markLast_start : ∀ l : List Inst, ∀ x ∈ l, ∃ b, { x with lastSector := b } ∈ markLast l
  | [], x, h => by simp at h
  | [a], x, h => by simp at h; subst h; exact ⟨true, by simp [markLast]⟩
  | a :: b :: l, x, h => by
    rw [markLast]
    rcases List.mem_cons.1 h with rfl | h
    · exact ⟨x.lastSector, by simp⟩
    · obtain ⟨f, hf⟩ := markLast_start (b :: l) x h
      exact ⟨f, List.mem_cons_of_mem _ hf⟩

theorem markLast_mem : ∀ l : List Inst, ∀ x ∈ markLast l, ∃ y ∈ l, y.elem = x.elem ∧ y.start = x.start ∧ y.stop = x.stop
  | [], x, h => by simp [markLast] at h
  | [a], x, h => by simp [markLast] at h; subst h; exact ⟨a, by simp⟩
  | a :: b :: l, x, h => by
    rw [markLast] at h
    rcases List.mem_cons.1 h with rfl | h
    · exact ⟨x, by simp⟩
    · obtain ⟨y, hy, e⟩ := markLast_mem (b :: l) x h
      exact ⟨y, List.mem_cons_of_mem _ hy, e⟩

theorem trackOk_ordered {t : Track} {iam : Option Nat} {secs : List Sec} (h : TrackOk t iam secs) :
    Ordered (iam.toList.map (fun o => ({ elem := .marker .iam, start := 16 * o, stop := 16 * o + 64, chsn := some ⟨0, 0, 0, 0⟩ } : Inst)) ++
      secs.flatMap secItems) ∧ Ordered t.items := by
  obtain ⟨B, hst⟩ := h.stream
  obtain ⟨lo, h1, h2, hpl⟩ := hst.placed
  obtain ⟨s1, s2⟩ := items_sorted hpl
  have hL : Ordered (iam.toList.map (fun o => ({ elem := .marker .iam, start := 16 * o, stop := 16 * o + 64, chsn := some ⟨0, 0, 0, 0⟩ } : Inst)) ++
      secs.flatMap secItems) := by
    unfold Ordered
    rw [List.pairwise_append]
    refine ⟨by cases iam <;> simp, s2, ?_⟩
    intro a ha b hb
    have h3 := s1 b hb
    cases hi : iam with
    | none => rw [hi] at ha; simp at ha
    | some o =>
      have h4 := h2 o hi
      rw [hi] at ha
      simp at ha
      subst ha
      show 16 * o ≤ _
      omega
  refine ⟨hL, ?_⟩
  rw [h.items]
  exact ordered_markLast hL

theorem markLast_filterMap {α : Type} (f : Inst → Option α) (hf : ∀ x b, f { x with lastSector := b } = f x) : ∀ l, (markLast l).filterMap f = l.filterMap f
  | [] => rfl
  | [a] => by simp [markLast, List.filterMap_cons, hf]
  | a :: b :: l => by
    have ih := markLast_filterMap f hf (b :: l)
    rw [markLast, List.filterMap_cons, List.filterMap_cons, ih]

/-- **C114 (ranges).** On a formatted track the ranges of data, headers and marks are those of its sectors: the data without mark and checksum, the header from its mark
to the mark of the data, and the marks. -/
theorem C114_ranges {t : Track} {iam : Option Nat} {secs : List Sec} (h : TrackOk t iam secs) :
    dataRanges t.items = secs.map (fun s => (16 * s.dof + 64, 16 * s.dof + 64 + s.data.length * 16)) ∧
    headerRanges t.items = secs.map (fun s => (16 * s.io, 16 * s.dof)) ∧
    markerRanges t.items = iam.toList.map (fun o => (16 * o, 16 * o + 64)) ++
      secs.flatMap (fun s => [(16 * s.io, 16 * s.io + 64), (16 * s.dof, 16 * s.dof + 64)]) := by
  have key : ∀ {β : Type} (f : Inst → Option β) (g : Sec → List β), (∀ s, (secItems s).filterMap f = g s) → ∀ l : List Sec,
      (l.flatMap secItems).filterMap f = l.flatMap g := by
    intro β f g hg l
    induction l with
    | nil => rfl
    | cons s l ih => rw [List.flatMap_cons, List.filterMap_append, hg, ih, List.flatMap_cons]
  have one : ∀ {β : Type} (g : Sec → β) (l : List Sec), l.flatMap (fun s => [g s]) = l.map g := by
    intro β g l; induction l with
    | nil => rfl
    | cons s l ih => rw [List.flatMap_cons, ih]; rfl
  rw [h.items]
  unfold itemsOf dataRanges headerRanges markerRanges
  refine ⟨?_, ?_, ?_⟩
  all_goals
    rw [markLast_filterMap _ (fun _ _ => rfl), List.filterMap_append]
  · rw [key _ (fun s => [(16 * s.dof + 64, 16 * s.dof + 64 + s.data.length * 16)]) (fun s => by simp [secItems, Elem.isData]), one]
    cases iam <;> simp [Elem.isData]
  · rw [key _ (fun s => [(16 * s.io, 16 * s.dof)]) (fun s => by simp [secItems, Elem.isHeader]), one]
    cases iam <;> simp [Elem.isHeader]
  · rw [key _ (fun s => [(16 * s.io, 16 * s.io + 64), (16 * s.dof, 16 * s.dof + 64)]) (fun s => by simp [secItems])]
    cases iam <;> simp

/-- **C114 is false at the ends of elements**: on every track in order, the first bit of the data of every sector of more than no bytes
is said to be in another, shorter element than the data to which it belongs. -/
theorem C114_false_end {t : Track} {iam : Option Nat} {secs : List Sec} (h : TrackOk t iam secs) (s : Sec) (hs : s ∈ secs)
    (h0 : 0 < s.data.length) (pos : Nat) :
    ∃ x i y, hitTest t.items (16 * s.dof + 64) pos = some (x, i) ∧ y ∈ t.items ∧ y.elem = .data s.id false s.de s.del ∧
      Covers y (16 * s.dof + 64) ∧ x.stop - x.start ≤ 64 ∧ x ≠ y ∧
      ∃ m ∈ t.items, m.elem = .marker (dataMark s.del) ∧ m.stop = 16 * s.dof + 64 ∧ m.stop - m.start = 64 := by
  have hd : ∀ y ∈ secItems s, ∃ b, { y with lastSector := b } ∈ t.items := by
    intro y hy
    rw [h.items]
    unfold itemsOf
    exact markLast_start _ y (List.mem_append_right _ (List.mem_flatMap.2 ⟨s, hs, hy⟩))
  obtain ⟨b1, hm⟩ := hd { elem := .marker (dataMark s.del), start := 16 * s.dof, stop := 16 * s.dof + 64, chsn := some s.id }
    (by simp [secItems])
  obtain ⟨b2, hdat⟩ := hd { elem := .data s.id false s.de s.del, start := 16 * s.dof, stop := 16 * s.dof + 64 + s.data.length * 16, chsn := some s.id }
    (by simp [secItems])
  obtain ⟨p1, p2⟩ := C114_hit_partial t.items (trackOk_ordered h).2 (16 * s.dof + 64) pos
  cases hh : hitTest t.items (16 * s.dof + 64) pos with
  | none => exact absurd ⟨by simp, by simp⟩ (p1.1 hh _ hm)
  | some r =>
    obtain ⟨x, i⟩ := r
    obtain ⟨_, _, _, hmin⟩ := p2 x i hh
    have h64 : x.stop - x.start ≤ 64 := by
      have := hmin _ hm ⟨by simp, by simp⟩
      simp only at this
      omega
    refine ⟨x, i, _, rfl, hdat, rfl, ⟨by simp, by simp; omega⟩, h64, ?_, _, hm, rfl, rfl, by simp⟩
    intro e
    rw [e] at h64
    simp only at h64
    omega

theorem filter_markLast (p : Inst → Bool) (hp : ∀ x b, p { x with lastSector := b } = p x) : ∀ l : List Inst,
    (∀ z, l.getLast? = some z → p z = false) → (markLast l).filter p = l.filter p
  | [], _ => rfl
  | [a], h => by
    have := h a rfl
    simp [markLast, hp, this]
  | a :: b :: l, h => by
    rw [markLast, List.filter_cons, List.filter_cons, filter_markLast p hp (b :: l) (fun z hz => h z (by rw [List.getLast?_cons_cons]; exact hz))]

theorem getLast_append_ne {α : Type} (a : List α) {b : List α} (h : b ≠ []) : (a ++ b).getLast? = b.getLast? := by
  rw [List.getLast?_append]
  cases hb : b.getLast? with
  | none => exact absurd (List.getLast?_eq_none_iff.1 hb) h
  | some x => rfl

/-- **C114, innermost elements (`item_at`): false.**  On every track in order, at every bit of the mark of every sector's header the
answer is the whole header, not the mark, although the mark lies within it. -/
theorem C114_false_innermost {t : Track} {iam : Option Nat} {secs : List Sec} (h : TrackOk t iam secs) (s : Sec) (hs : s ∈ secs)
    (k : Nat) (hk : k < 64) :
    ∃ x n m, itemAt t.items (16 * s.io + k) = some (x, n) ∧ x.elem = .header s.id false false ∧ m ∈ t.items ∧ m.elem = .marker .idam ∧
      Covers m (16 * s.io + k) ∧ x.start ≤ m.start ∧ m.stop < x.stop := by
  obtain ⟨B, hst⟩ := h.stream
  obtain ⟨lo, h1, h2, hpl⟩ := hst.placed
  obtain ⟨hL, hO⟩ := trackOk_ordered h
  obtain ⟨a, b, e⟩ := List.append_of_mem hs
  -- the elements after this sector begin later
  have hpb : ∃ lo', Placed B.length lo' (s :: b) := by
    have gen : ∀ (a : List Sec) (lo : Nat), Placed B.length lo (a ++ s :: b) → ∃ lo', Placed B.length lo' (s :: b) := by
      intro a
      induction a with
      | nil => intro lo h; exact ⟨lo, h⟩
      | cons y a ih => intro lo h; exact ih _ h.2.2
    rw [e] at hpl
    exact gen a lo hpl
  obtain ⟨lo', g1, g2, g3⟩ := hpb
  have hlater := (items_sorted g3).1
  have hstop : s.dof ≤ s.stop := by unfold Sec.stop; omega
  let bit := 16 * s.io + k
  let p : Inst → Bool := (·.contains bit)
  have hpost : (b.flatMap secItems).filter p = [] := by
    rw [List.filter_eq_nil_iff]
    intro y hy hc
    have := hlater y hy
    have ht := ((contains_iff' y bit).1 hc).1
    simp only [bit] at ht
    omega
  let hdr : Inst := { elem := .header s.id false false, start := 16 * s.io, stop := 16 * s.dof, chsn := none }
  let mk : Inst := { elem := .marker .idam, start := 16 * s.io, stop := 16 * s.io + 64, chsn := some s.id }
  have hsec : (secItems s).filter p = [mk, hdr] := by
    have c1 : p mk = true := (contains_iff' mk bit).2 ⟨by simp [mk, bit], by simp [mk, bit]; omega⟩
    have c2 : p hdr = true := (contains_iff' hdr bit).2 ⟨by simp [hdr, bit], by simp [hdr, bit]; omega⟩
    have c3 : ∀ y : Inst, y.start = 16 * s.dof → p y = false := by
      intro y hy
      cases hc : p y with
      | false => rfl
      | true =>
        have := ((contains_iff' y bit).1 hc).1
        simp only [bit] at this
        omega
    show List.filter p [mk, hdr, _, _] = _
    rw [List.filter_cons, if_pos c1, List.filter_cons, if_pos c2, List.filter_cons, if_neg (by rw [c3 _ rfl]; simp), List.filter_cons,
      if_neg (by rw [c3 _ rfl]; simp), List.filter_nil]
  let pre := iam.toList.map (fun o => ({ elem := .marker .iam, start := 16 * o, stop := 16 * o + 64, chsn := some ⟨0, 0, 0, 0⟩ } : Inst)) ++
      a.flatMap secItems
  have hsplit : iam.toList.map (fun o => ({ elem := .marker .iam, start := 16 * o, stop := 16 * o + 64, chsn := some ⟨0, 0, 0, 0⟩ } : Inst)) ++
      secs.flatMap secItems = pre ++ (secItems s ++ b.flatMap secItems) := by
    simp only [pre, e, List.flatMap_append, List.flatMap_cons, List.append_assoc]
  have hlast : ∀ z, (pre ++ (secItems s ++ b.flatMap secItems)).getLast? = some z → p z = false := by
    intro z hz
    have hne : secItems s ++ b.flatMap secItems ≠ [] := by simp [secItems]
    rw [getLast_append_ne _ hne] at hz
    have hzs : 16 * s.dof ≤ z.start := by
      by_cases hb : b.flatMap secItems = []
      · rw [hb, List.append_nil] at hz
        simp [secItems] at hz
        rw [← hz]
        exact Nat.le_refl _
      · rw [getLast_append_ne _ hb] at hz
        have := hlater z (List.mem_of_getLast? hz)
        omega
    cases hc : p z with
    | false => rfl
    | true =>
      have := ((contains_iff' z bit).1 hc).1
      simp only [bit] at this
      omega
  have hfil : t.items.filter p = pre.filter p ++ [mk, hdr] := by
    rw [h.items]
    unfold itemsOf
    rw [hsplit, filter_markLast p (fun _ _ => rfl) _ hlast, List.filter_append (l₁ := pre), List.filter_append (l₁ := secItems s), hsec, hpost, List.append_nil]
  have hsorted : sortInsts (t.items.filter p) = t.items.filter p := by
    unfold sortInsts
    apply List.mergeSort_of_pairwise
    exact (List.Pairwise.filter p hO).imp (fun h => by simpa using h)
  have hitem : itemAt t.items bit = some (hdr, (t.items.filter p).length) := by
    unfold itemAt
    simp only
    show (match (sortInsts (t.items.filter p)).getLast? with | none => none | some x => some (x, (t.items.filter p).length)) = _
    rw [hsorted]
    have : (t.items.filter p).getLast? = some hdr := by rw [hfil]; simp
    rw [this]
  refine ⟨hdr, _, mk, hitem, rfl, ?_, rfl, ⟨by simp [mk], by simp [mk]; omega⟩, by simp [hdr, mk], ?_⟩
  · have : mk ∈ t.items.filter p := by rw [hfil]; simp
    exact (List.mem_filter.1 this).1
  · show 16 * s.io + 64 < 16 * s.dof
    omega

end Fox
