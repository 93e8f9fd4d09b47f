import Verif.Spec.VizBase
import Mathlib.Tactic.Linarith
import Mathlib.Tactic.Ring
/-
Proofs about rectangles (C124), display lists (C125) and slices (C126).
-/
namespace Fox
open Viz Spec

/-! ## C124: rectangles -/

theorem lesser_le (a b : Rat) : Rect.lesser a b ≤ a ∧ Rect.lesser a b ≤ b ∧ (Rect.lesser a b = a ∨ Rect.lesser a b = b) := by
  unfold Rect.lesser
  by_cases h : a < b
  · rw [if_pos h]; exact ⟨le_refl _, le_of_lt h, .inl rfl⟩
  · rw [if_neg h]; exact ⟨not_lt.1 h, le_refl _, .inr rfl⟩

theorem le_greater (a b : Rat) : a ≤ Rect.greater a b ∧ b ≤ Rect.greater a b ∧ (Rect.greater a b = a ∨ Rect.greater a b = b) := by
  unfold Rect.greater
  by_cases h : a > b
  · rw [if_pos h]; exact ⟨le_refl _, le_of_lt h, .inl rfl⟩
  · rw [if_neg h]; exact ⟨not_lt.1 h, le_refl _, .inr rfl⟩

theorem le_lesser {a b c : Rat} : c ≤ Rect.lesser a b ↔ c ≤ a ∧ c ≤ b := by
  obtain ⟨h1, h2, h3⟩ := lesser_le a b
  constructor
  · intro h; exact ⟨le_trans h h1, le_trans h h2⟩
  · rintro ⟨ha, hb⟩; rcases h3 with e | e <;> rw [e] <;> assumption

theorem greater_le {a b c : Rat} : Rect.greater a b ≤ c ↔ a ≤ c ∧ b ≤ c := by
  obtain ⟨h1, h2, h3⟩ := le_greater a b
  constructor
  · intro h; exact ⟨le_trans h1 h, le_trans h2 h⟩
  · rintro ⟨ha, hb⟩; rcases h3 with e | e <;> rw [e] <;> assumption

theorem containsPoint_iff (r : Rect) (p : Point) : r.containsPoint p = true ↔ Inside r p := by
  simp [Rect.containsPoint, Inside, and_assoc]

/-- **C124 (intersection).** For all rectangles: the intersection has exactly the common points, and is missing exactly if there are none. -/
theorem C124_intersection (a b : Rect) :
    (a.intersection b = none ↔ ∀ p, ¬ (Inside a p ∧ Inside b p)) ∧
    ∀ r, a.intersection b = some r → Proper r ∧ ∀ p, Inside r p ↔ Inside a p ∧ Inside b p := by
  unfold Rect.intersection
  simp only
  by_cases h : Rect.greater a.topLeft.x b.topLeft.x ≤ Rect.lesser a.bottomRight.x b.bottomRight.x ∧
      Rect.greater a.topLeft.y b.topLeft.y ≤ Rect.lesser a.bottomRight.y b.bottomRight.y
  · rw [if_pos h]
    have key : ∀ p, Inside ⟨⟨Rect.greater a.topLeft.x b.topLeft.x, Rect.greater a.topLeft.y b.topLeft.y⟩,
        ⟨Rect.lesser a.bottomRight.x b.bottomRight.x, Rect.lesser a.bottomRight.y b.bottomRight.y⟩⟩ p ↔ Inside a p ∧ Inside b p := by
      intro p
      unfold Inside
      simp only [greater_le, le_lesser]
      tauto
    refine ⟨⟨(fun h => by cases h), fun hn => ?_⟩, ?_⟩
    · exact absurd ((key ⟨Rect.greater a.topLeft.x b.topLeft.x, Rect.greater a.topLeft.y b.topLeft.y⟩).1
        ⟨le_refl _, h.1, le_refl _, h.2⟩) (hn _)
    · intro r hr
      injection hr with hr
      subst hr
      exact ⟨h, key⟩
  · rw [if_neg h]
    refine ⟨⟨fun _ p hp => h ?_, fun _ => rfl⟩, (fun r hr => by cases hr)⟩
    obtain ⟨⟨a1, a2, a3, a4⟩, b1, b2, b3, b4⟩ := hp
    exact ⟨le_trans (greater_le.2 ⟨a1, b1⟩) (le_lesser.2 ⟨a2, b2⟩), le_trans (greater_le.2 ⟨a3, b3⟩) (le_lesser.2 ⟨a4, b4⟩)⟩

example : (Rect.intersection ⟨⟨0, 0⟩, ⟨2, 2⟩⟩ ⟨⟨1, 1⟩, ⟨3, 3⟩⟩) = some ⟨⟨1, 1⟩, ⟨2, 2⟩⟩ := by decide +kernel

/-- **C124 (containing).** A point is said to be contained exactly if it is inside; a proper rectangle exactly if all its points are. -/
theorem C124_contains (a b : Rect) :
    (∀ p, a.containsPoint p = true ↔ Inside a p) ∧
    (Proper b → (a.containsRect b = true ↔ ∀ p, Inside b p → Inside a p)) := by
  refine ⟨containsPoint_iff a, fun hb => ?_⟩
  unfold Rect.containsRect
  rw [Bool.and_eq_true, containsPoint_iff, containsPoint_iff]
  constructor
  · rintro ⟨⟨a1, a2, a3, a4⟩, b1, b2, b3, b4⟩ p ⟨p1, p2, p3, p4⟩
    exact ⟨le_trans a1 p1, le_trans p2 b2, le_trans a3 p3, le_trans p4 b4⟩
  · intro h
    exact ⟨h _ ⟨le_refl _, hb.1, le_refl _, hb.2⟩, h _ ⟨hb.1, le_refl _, hb.2, le_refl _⟩⟩

/-- **C124 (bounding box).** Of proper rectangles the bounding box contains both, and is contained in every rectangle that does. -/
theorem C124_bounding (a b : Rect) (ha : Proper a) (hb : Proper b) :
    Proper (a.boundingBox b) ∧ (∀ p, Inside a p ∨ Inside b p → Inside (a.boundingBox b) p) ∧
    ∀ r, (∀ p, Inside a p ∨ Inside b p → Inside r p) → ∀ p, Inside (a.boundingBox b) p → Inside r p := by
  have hl := fun x y => lesser_le x y
  have hg := fun x y => le_greater x y
  refine ⟨⟨le_trans (hl _ _).1 (le_trans ha.1 (hg _ _).1), le_trans (hl _ _).1 (le_trans ha.2 (hg _ _).1)⟩, ?_, ?_⟩
  · rintro p (⟨p1, p2, p3, p4⟩ | ⟨p1, p2, p3, p4⟩)
    · exact ⟨le_trans (hl _ _).1 p1, le_trans p2 (hg _ _).1, le_trans (hl _ _).1 p3, le_trans p4 (hg _ _).1⟩
    · exact ⟨le_trans (hl _ _).2.1 p1, le_trans p2 (hg _ _).2.1, le_trans (hl _ _).2.1 p3, le_trans p4 (hg _ _).2.1⟩
  · intro r hr p hp
    have a1 := hr a.topLeft (.inl ⟨le_refl _, ha.1, le_refl _, ha.2⟩)
    have a2 := hr a.bottomRight (.inl ⟨ha.1, le_refl _, ha.2, le_refl _⟩)
    have b1 := hr b.topLeft (.inr ⟨le_refl _, hb.1, le_refl _, hb.2⟩)
    have b2 := hr b.bottomRight (.inr ⟨hb.1, le_refl _, hb.2, le_refl _⟩)
    exact ⟨le_trans (le_lesser.2 ⟨a1.1, b1.1⟩) hp.1, le_trans hp.2.1 (greater_le.2 ⟨a2.2.1, b2.2.1⟩),
      le_trans (le_lesser.2 ⟨a1.2.2.1, b1.2.2.1⟩) hp.2.2.1, le_trans hp.2.2.2 (greater_le.2 ⟨a2.2.2.2, b2.2.2.2⟩)⟩

theorem swap_cases (a b : Rat) : (a ≤ b → Rect.lesser a b = a ∧ Rect.greater a b = b) ∧ (b ≤ a → Rect.lesser a b = b ∧ Rect.greater a b = a) := by
  unfold Rect.lesser Rect.greater
  constructor <;> intro h
  · by_cases h2 : a < b
    · rw [if_pos h2, if_neg (by exact not_lt.2 h)]; exact ⟨rfl, rfl⟩
    · rw [if_neg h2, if_neg (by exact not_lt.2 h)]; exact ⟨(le_antisymm h (not_lt.1 h2)).symm, rfl⟩
  · by_cases h2 : b < a
    · rw [if_neg (not_lt.2 h), if_pos h2]; exact ⟨rfl, rfl⟩
    · rw [if_neg (not_lt.2 h), if_neg h2]; exact ⟨rfl, le_antisymm h (not_lt.1 h2)⟩

/-- **C124 (normalizing).** The result is proper, has the same size up to sign and the same center, and of a proper rectangle it is the rectangle. -/
theorem C124_normalize (r : Rect) : Proper r.normalize ∧ (Proper r → r.normalize = r) ∧ r.normalize.center = r.center ∧
    (r.normalize.width = r.width ∨ r.normalize.width = -r.width) ∧ (r.normalize.height = r.height ∨ r.normalize.height = -r.height) := by
  obtain ⟨⟨x1, y1⟩, ⟨x2, y2⟩⟩ := r
  have hx := swap_cases x1 x2
  have hy := swap_cases y1 y2
  unfold Proper Rect.normalize Rect.center Rect.width Rect.height
  simp only
  rcases le_total x1 x2 with h | h <;> rcases le_total y1 y2 with h' | h'
  · rw [(hx.1 h).1, (hx.1 h).2, (hy.1 h').1, (hy.1 h').2]
    exact ⟨⟨h, h'⟩, fun _ => rfl, rfl, .inl rfl, .inl rfl⟩
  · rw [(hx.1 h).1, (hx.1 h).2, (hy.2 h').1, (hy.2 h').2]
    refine ⟨⟨h, h'⟩, fun hp => ?_, ?_, .inl rfl, .inr (by ring)⟩
    · have e := le_antisymm hp.2 h'; simp only [e]
    · congr 1; ring
  · rw [(hx.2 h).1, (hx.2 h).2, (hy.1 h').1, (hy.1 h').2]
    refine ⟨⟨h, h'⟩, fun hp => ?_, ?_, .inr (by ring), .inl rfl⟩
    · have e := le_antisymm hp.1 h; simp only [e]
    · congr 1; ring
  · rw [(hx.2 h).1, (hx.2 h).2, (hy.2 h').1, (hy.2 h').2]
    refine ⟨⟨h, h'⟩, fun hp => ?_, ?_, .inr (by ring), .inr (by ring)⟩
    · have e1 := le_antisymm hp.1 h; have e2 := le_antisymm hp.2 h'; simp only [e1, e2]
    · congr 1 <;> ring

/-- **C124 (partial).** Growing a proper rectangle by a factor that is not negative keeps the top left corner and scales the width; the
bottom goes to where the new height, put below the old bottom, reaches.
Missing: the height (refuted below). -/
theorem C124_grow_partial (r : Rect) (h : Proper r) (f : Rat) (hf : 0 ≤ f) :
    (r.growPinned f).topLeft = r.topLeft ∧ (r.growPinned f).width = r.width * f ∧ (r.growPinned f).height = r.height * (f + 1) := by
  obtain ⟨⟨x1, y1⟩, ⟨x2, y2⟩⟩ := r
  have hw : 0 ≤ (x2 - x1) * f := mul_nonneg (by linarith [h.1]) hf
  have hh : 0 ≤ (y2 - y1) * f := mul_nonneg (by linarith [h.2]) hf
  have h2 : y1 ≤ y2 := h.2
  have hn := (C124_normalize ⟨⟨x1, y1⟩, ⟨x1 + (x2 - x1) * f, y2 + (y2 - y1) * f⟩⟩).2.1
    ⟨by show x1 ≤ x1 + (x2 - x1) * f; linarith, by show y1 ≤ y2 + (y2 - y1) * f; linarith⟩
  unfold Rect.growPinned
  simp only [Rect.width, Rect.height] at *
  rw [hn]
  refine ⟨rfl, ?_, ?_⟩
  · simp only; ring
  · simp only; ring

example : Proper ⟨⟨1, 2⟩, ⟨3, 7⟩⟩ := by unfold Proper; decide +kernel

/-- **C124 fails** for growing: by any factor but by −1 the height of a rectangle that is not flat becomes the wrong one; by 1 it doubles. -/
theorem C124_false_grow (r : Rect) (h : Proper r) (hr : r.height ≠ 0) :
    (∀ f, 0 ≤ f → (r.growPinned f).height ≠ r.height * f) ∧ (r.growPinned 1).height = r.height * 2 := by
  refine ⟨fun f hf => ?_, ?_⟩
  · rw [(C124_grow_partial r h f hf).2.2]
    intro e
    apply hr
    linarith
  · rw [(C124_grow_partial r h 1 (by decide)).2.2]; ring

/-- The center of a proper rectangle is inside. -/
theorem C124_center (r : Rect) (h : Proper r) : Inside r r.center ∧ r.center.x - r.topLeft.x = r.bottomRight.x - r.center.x ∧
    r.center.y - r.topLeft.y = r.bottomRight.y - r.center.y := by
  have h1 := h.1
  have h2 := h.2
  unfold Inside Rect.center Rect.width Rect.height
  simp only
  refine ⟨⟨?_, ?_, ?_, ?_⟩, ?_, ?_⟩ <;> linarith

/-! ## C125: display lists -/

section lists
variable {α : Type}

theorem push_get (d : DisplayList α) (c : Nat) (x : α) (k : Nat) :
    (d.push c x).tracks[k]? = (d.tracks[k]?).map (fun t => if k = c then t ++ [x] else t) := by
  unfold DisplayList.push
  by_cases h : c < d.tracks.length
  · rw [if_pos h]
    show (d.tracks.modify c _)[k]? = _
    rw [List.getElem?_modify]
    by_cases e : c = k
    · subst e; simp
    · have : k ≠ c := fun h => e h.symm
      simp [e, this]
  · rw [if_neg h]
    by_cases hk : k < d.tracks.length
    · have : k ≠ c := by omega
      simp [this]
    · rw [List.getElem?_eq_none (by omega)]; rfl

theorem pushAll_get (ps : List (Nat × α)) : ∀ (d : DisplayList α) (k : Nat),
    (pushAll d ps).tracks[k]? = (d.tracks[k]?).map (· ++ pushedTo k ps) := by
  induction ps with
  | nil => intro d k; show d.tracks[k]? = _; simp [pushedTo]
  | cons p ps ih =>
    intro d k
    show (pushAll (d.push p.1 p.2) ps).tracks[k]? = _
    rw [ih, push_get, Option.map_map]
    congr 1
    funext t
    by_cases e : p.1 = k
    · simp [pushedTo, e]
    · have : k ≠ p.1 := fun h => e h.symm
      simp [pushedTo, e, this]

theorem pushAll_len (ps : List (Nat × α)) : ∀ (d : DisplayList α), (pushAll d ps).tracks.length = d.tracks.length := by
  induction ps with
  | nil => intro d; rfl
  | cons p ps ih =>
    intro d
    show (pushAll (d.push p.1 p.2) ps).tracks.length = _
    rw [ih]
    unfold DisplayList.push
    split <;> simp

theorem pushAll_tracks (n : Nat) (ps : List (Nat × α)) :
    (pushAll (DisplayList.new n) ps).tracks = (List.range n).map fun c => pushedTo c ps := by
  apply List.ext_getElem?
  intro k
  rw [pushAll_get]
  by_cases hk : k < n
  · simp [DisplayList.new, hk]
  · simp [DisplayList.new, hk]

theorem foldl_len (ts : List (List α)) : ∀ n, ts.foldl (fun n t => n + t.length) n = n + ts.flatten.length := by
  induction ts with
  | nil => intro n; rfl
  | cons t ts ih => intro n; rw [List.foldl_cons, ih]; simp; omega

theorem onward_yields (i : List (List α)) : (DisplayList.Iter.onward i = (none, ⟨[], none⟩) ∧ i.flatten = []) ∨
    ∃ x t rest, DisplayList.Iter.onward i = (some x, ⟨rest, some t⟩) ∧ i.flatten = x :: (t ++ rest.flatten) := by
  induction i with
  | nil => left; exact ⟨rfl, rfl⟩
  | cons t rest ih =>
    cases t with
    | nil =>
      rcases ih with ⟨h1, h2⟩ | ⟨x, t, r, h1, h2⟩
      · left; exact ⟨h1, by simpa using h2⟩
      · right; exact ⟨x, t, r, h1, by simpa using h2⟩
    | cons x t => right; exact ⟨x, t, rest, rfl, by simp⟩

theorem iter_yields : ∀ (n : Nat) (i : DisplayList.Iter α), ((i.inner.getD []) ++ i.outer.flatten).length = n →
    Yields DisplayList.Iter.next i ((i.inner.getD []) ++ i.outer.flatten) := by
  intro n
  induction n with
  | zero =>
    intro i h
    have h0 : (i.inner.getD []) ++ i.outer.flatten = [] := List.length_eq_zero_iff.1 h
    rw [h0]
    obtain ⟨h1, h2⟩ := List.append_eq_nil_iff.1 h0
    rcases onward_yields i.outer with ⟨h3, _⟩ | ⟨x, t, r, _, h4⟩
    · apply Yields.done (s' := ⟨[], none⟩)
      unfold DisplayList.Iter.next
      cases hi : i.inner with
      | none => exact h3
      | some l => rw [hi] at h1; simp at h1; subst h1; exact h3
    · rw [h4] at h2; cases h2
  | succ n ih =>
    intro i h
    cases hi : i.inner with
    | some l =>
      cases l with
      | cons x t =>
        show Yields _ i (x :: (t ++ i.outer.flatten))
        refine Yields.more (s' := ⟨i.outer, some t⟩) ?_ ?_
        · unfold DisplayList.Iter.next; rw [hi]
        · exact ih ⟨i.outer, some t⟩ (by rw [hi] at h; simpa using h)
      | nil =>
        show Yields _ i ([] ++ i.outer.flatten)
        rw [hi] at h
        rcases onward_yields i.outer with ⟨_, h4⟩ | ⟨x, t, r, h3, h4⟩
        · simp [h4] at h
        · rw [h4]
          refine Yields.more (s' := ⟨r, some t⟩) ?_ ?_
          · unfold DisplayList.Iter.next; rw [hi]; exact h3
          · refine ih ⟨r, some t⟩ ?_
            have : ([] ++ i.outer.flatten).length = n + 1 := h
            rw [h4] at this
            simpa using this
    | none =>
      show Yields _ i ([] ++ i.outer.flatten)
      rw [hi] at h
      rcases onward_yields i.outer with ⟨_, h4⟩ | ⟨x, t, r, h3, h4⟩
      · simp [h4] at h
      · rw [h4]
        refine Yields.more (s' := ⟨r, some t⟩) ?_ ?_
        · unfold DisplayList.Iter.next; rw [hi]; exact h3
        · refine ih ⟨r, some t⟩ ?_
          have : ([] ++ i.outer.flatten).length = n + 1 := h
          rw [h4] at this
          simpa using this

theorem yields_unique {σ : Type} {next : σ → Option α × σ} {s : σ} {l : List α} (h : Yields next s l) :
    ∀ l', Yields next s l' → l' = l := by
  induction h with
  | done h => intro l' h'; cases h' with
    | done _ => rfl
    | more h2 _ => rw [h] at h2; cases h2
  | more h _ ih => intro l' h'; cases h' with
    | done h2 => rw [h] at h2; cases h2
    | more h2 h3 =>
      rw [h] at h2
      injection h2 with e1 e2
      injection e1 with e1
      subst e1 e2
      rw [ih _ h3]

/-- **C125.** Of a display list made for `n` tracks, after any pushes: each track has what was pushed to it, in order; what was pushed to
other tracks is ignored; the iterator gives everything track by track; the length is how many there are. -/
theorem C125_lists (n : Nat) (ps : List (Nat × α)) :
    (∀ c, (pushAll (DisplayList.new n) ps).items c = if c < n then some (pushedTo c ps) else none) ∧
    (∀ l, Yields DisplayList.Iter.next (pushAll (DisplayList.new n) ps).iter l ↔ l = (List.range n).flatMap fun c => pushedTo c ps) ∧
    (pushAll (DisplayList.new n) ps).len = (ps.filter fun p => decide (p.1 < n)).length := by
  have ht := pushAll_tracks n ps
  refine ⟨fun c => ?_, fun l => ?_, ?_⟩
  · unfold DisplayList.items
    rw [ht]
    by_cases h : c < n
    · simp [h]
    · simp [h]
  · have key : Yields DisplayList.Iter.next (pushAll (DisplayList.new n) ps).iter ((List.range n).flatMap fun c => pushedTo c ps) := by
      have := iter_yields _ (pushAll (DisplayList.new n) ps).iter rfl
      have e : ((pushAll (DisplayList.new n) ps).iter.inner.getD []) ++ (pushAll (DisplayList.new n) ps).iter.outer.flatten =
          (List.range n).flatMap fun c => pushedTo c ps := by
        rw [List.flatMap_def, ← ht]
        unfold DisplayList.iter
        cases (pushAll (DisplayList.new n) ps).tracks with
        | nil => rfl
        | cons t r => rfl
      rwa [e] at this
    exact ⟨yields_unique key l, fun e => e ▸ key⟩
  · unfold DisplayList.len
    rw [ht, foldl_len]
    simp only [Nat.zero_add]
    clear ht
    have : ∀ n : Nat, (((List.range n).map fun c => pushedTo c ps).flatten).length = (ps.filter fun p => decide (p.1 < n)).length := by
      intro n
      induction n with
      | zero =>
        have : ps.filter (fun p => decide (p.1 < 0)) = [] := List.filter_eq_nil_iff.2 (by simp)
        rw [this]; rfl
      | succ n ih =>
        rw [List.range_succ, List.map_append, List.flatten_append, List.length_append, ih]
        simp only [List.map_cons, List.map_nil, List.flatten_cons, List.flatten_nil, List.append_nil, pushedTo, List.length_map]
        clear ih
        induction ps with
        | nil => rfl
        | cons p ps ih2 =>
          simp only [List.filter_cons]
          by_cases h1 : p.1 < n
          · have h2 : (p.1 == n) = false := by simp; omega
            have h3 : p.1 < n + 1 := by omega
            simp only [h1, h2, h3, decide_true, if_true, List.length_cons]
            simp only [Bool.false_eq_true, if_false]
            omega
          · by_cases h2 : p.1 = n
            · simp only [h2, Nat.lt_irrefl, decide_false, beq_self_eq_true, if_true, Nat.lt_succ_self, decide_true, List.length_cons, Bool.false_eq_true, if_false]
              omega
            · have h3 : ¬ p.1 < n + 1 := by omega
              simp only [h1, h2, h3, decide_false, beq_iff_eq, Bool.false_eq_true, if_false]
              exact ih2
    exact this n

end lists

/-! ## C126: slices -/

/-- What a segmenter gives from a state on. -/
theorem segmenter_yields : ∀ (k : Nat) (s : Segmenter), s.count + k = s.divisor → s.accum < s.divisor → s.step < s.divisor →
    ∃ l, Yields Segmenter.next s l ∧ l.length = k ∧ (∀ x ∈ l, x = s.base ∨ x = s.base + 1) ∧
      (∀ i, i ≤ k → s.divisor * (l.take i).sum + (s.accum + i * s.step) % s.divisor = s.divisor * (i * s.base) + s.accum + i * s.step) := by
  intro k
  induction k with
  | zero =>
    intro s hc ha _
    refine ⟨[], Yields.done (s' := s) ?_, rfl, by simp, ?_⟩
    · unfold Segmenter.next; rw [if_pos (by omega)]
    · intro i hi
      obtain rfl : i = 0 := by omega
      simp [Nat.mod_eq_of_lt ha]
  | succ k ih =>
    intro s hc ha hs
    by_cases hge : s.accum + s.step ≥ s.divisor
    · obtain ⟨l, h1, h2, h3, h4⟩ := ih { s with count := s.count + 1, accum := s.accum + s.step - s.divisor }
        (by show s.count + 1 + k = s.divisor; omega) (by show s.accum + s.step - s.divisor < s.divisor; omega) hs
      refine ⟨(s.base + 1) :: l, Yields.more (s' := { s with count := s.count + 1, accum := s.accum + s.step - s.divisor }) ?_ h1, by simp [h2], ?_, ?_⟩
      · unfold Segmenter.next
        rw [if_neg (by omega)]
        simp only
        rw [if_pos hge]
      · intro x hx
        rcases List.mem_cons.1 hx with e | e
        · right; exact e
        · exact h3 x e
      · intro i hi
        cases i with
        | zero => simp [Nat.mod_eq_of_lt ha]
        | succ i =>
          have := h4 i (by omega)
          simp only at this
          rw [List.take_succ_cons, List.sum_cons]
          have e1 : (s.accum + (i + 1) * s.step) % s.divisor = (s.accum + s.step - s.divisor + i * s.step) % s.divisor := by
            have : s.accum + (i + 1) * s.step = s.accum + s.step - s.divisor + i * s.step + s.divisor := by
              rw [Nat.add_mul, Nat.one_mul]; omega
            rw [this, Nat.add_mod_right]
          rw [e1, Nat.mul_add, Nat.add_mul i 1 s.step, Nat.add_mul i 1 s.base, Nat.mul_add s.divisor (i * s.base), Nat.mul_add s.divisor s.base 1]
          simp only [Nat.one_mul, Nat.mul_one]
          omega
    · obtain ⟨l, h1, h2, h3, h4⟩ := ih { s with count := s.count + 1, accum := s.accum + s.step }
        (by show s.count + 1 + k = s.divisor; omega) (by show s.accum + s.step < s.divisor; omega) hs
      refine ⟨s.base :: l, Yields.more (s' := { s with count := s.count + 1, accum := s.accum + s.step }) ?_ h1, by simp [h2], ?_, ?_⟩
      · unfold Segmenter.next
        rw [if_neg (by omega)]
        simp only
        rw [if_neg hge]
      · intro x hx
        rcases List.mem_cons.1 hx with e | e
        · left; exact e
        · exact h3 x e
      · intro i hi
        cases i with
        | zero => simp [Nat.mod_eq_of_lt ha]
        | succ i =>
          have := h4 i (by omega)
          simp only at this
          rw [List.take_succ_cons, List.sum_cons]
          have e1 : s.accum + (i + 1) * s.step = s.accum + s.step + i * s.step := by
            rw [Nat.add_mul, Nat.one_mul]; omega
          rw [e1, Nat.mul_add, Nat.add_mul i 1 s.base, Nat.mul_add s.divisor (i * s.base)]
          simp only [Nat.one_mul]
          omega

/-- **C126.** A segmenter for `total` in `n` parts gives exactly `n` numbers, each the quotient or one more, whose sum is `total`; the first
`i` of them have the sum `i · total / n`, rounded down, for every `i`.  No parts panic. -/
theorem C126_segments (total n : Nat) :
    (n = 0 → Segmenter.new total n = .error .panic) ∧
    (0 < n → ∃ s l, Segmenter.new total n = .ok s ∧ (∀ l', Yields Segmenter.next s l' ↔ l' = l) ∧ l.length = n ∧ l.sum = total ∧
      (∀ x ∈ l, x = total / n ∨ x = total / n + 1) ∧ ∀ i, i ≤ n → (l.take i).sum = i * total / n) := by
  refine ⟨fun h => by unfold Segmenter.new; rw [if_pos h], fun hn => ?_⟩
  obtain ⟨l, h1, h2, h3, h4⟩ := segmenter_yields n ⟨n, total / n, total % n, 0, 0⟩ (by simp) hn (Nat.mod_lt _ hn)
  have key : ∀ i, i ≤ n → (l.take i).sum = i * total / n := by
    intro i hi
    have := h4 i hi
    simp only [Nat.zero_add, Nat.add_zero] at this
    have hd := Nat.div_add_mod total n
    have e : n * (l.take i).sum + i * (total % n) % n = i * total := by
      rw [this]
      conv => rhs; rw [← hd]
      rw [Nat.mul_add]
      congr 1
      rw [Nat.mul_left_comm]
    have hlt := Nat.mod_lt (i * (total % n)) hn
    rw [← e, Nat.mul_add_div hn, Nat.div_eq_of_lt hlt, Nat.add_zero]
  refine ⟨_, l, by unfold Segmenter.new; rw [if_neg (by omega)], fun l' => ⟨yields_unique h1 l', fun e => e ▸ h1⟩, h2, ?_, h3, key⟩
  have := key n (Nat.le_refl _)
  rw [List.take_of_length_le (by omega), Nat.mul_div_cancel_left _ hn] at this
  exact this

example : Yields Segmenter.next ⟨6, 3, 2, 0, 0⟩ [3, 3, 4, 3, 3, 4] := by
  repeat (first | (refine Yields.more (s' := _) rfl ?_) | exact Yields.done (s' := _) rfl)

end Fox
