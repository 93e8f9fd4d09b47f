import Verif.Props.VizData
/-
Proofs about the elements that are drawn (C130).
-/
namespace Fox
open Viz Spec S34

/-! ## Shapes on a ring -/

/-- Both geometries cover the same points. -/
theorem inShape_shapeOf {p : Params} {n : Nat} {tp : TrackParams} (ht : p.trackParams n = .ok tp) (g : Geometry) (cyl : Nat) (ab : Rat × Rat) (rad ang : Rat) :
    InShape (shapeOf g tp cyl ab) rad ang ↔ ((tp.radii cyl).2.2 ≤ rad ∧ rad ≤ (tp.radii cyl).1) ∧ ∃ k : Int, ab.1 ≤ ang + (k : Rat) ∧ ang + (k : Rat) ≤ ab.2 := by
  obtain ⟨g1, g2, g3, g4, g5, g6, g7, g8, g9, g10, g11⟩ := trackParams_ok ht
  cases g with
  | sector => unfold shapeOf InShape; simp only; tauto
  | arc =>
    have e : tp.renderWidth / 2 = tp.totalWidth / 2 - tp.radiusAdjust := by
      rw [g10, g11]; split <;> ring
    unfold shapeOf InShape TrackParams.radii
    simp only
    rw [e]
    constructor
    · rintro ⟨h1, h2, h3⟩; exact ⟨⟨by linarith, by linarith⟩, h3⟩
    · rintro ⟨⟨h1, h2⟩, h3⟩; exact ⟨by linarith, by linarith, h3⟩

theorem clip_sub {q : Nat} {ab cd : Rat × Rat} (h : clip q ab = some cd) : ab.1 ≤ cd.1 ∧ cd.2 ≤ ab.2 ∧ (quadrantClip q).1 ≤ cd.1 ∧ cd.2 ≤ (quadrantClip q).2 := by
  unfold clip at h
  simp only at h
  split at h
  · cases h
  · injection h with h
    subst h
    exact ⟨le_max_left _ _, min_le_left _ _, le_max_right _ _, min_le_right _ _⟩

theorem quadrantClip_range (q : Nat) : 0 ≤ (quadrantClip q).1 ∧ (quadrantClip q).2 ≤ 1 := by
  unfold quadrantClip
  have : q % 4 = 0 ∨ q % 4 = 1 ∨ q % 4 = 2 ∨ q % 4 = 3 := by omega
  rcases this with h | h | h | h <;> rw [h] <;> constructor <;> decide +kernel

theorem clip_has {q : Nat} {a b y : Rat} (h1 : a ≤ y) (h2 : y ≤ b) (h3 : (quadrantClip q).1 ≤ y) (h4 : y ≤ (quadrantClip q).2) (h5 : (quadrantClip q).1 < b)
    (h6 : a < (quadrantClip q).2) : ∃ cd, clip q (a, b) = some cd ∧ cd.1 ≤ y ∧ y ≤ cd.2 := by
  refine ⟨(max a (quadrantClip q).1, min b (quadrantClip q).2), ?_, max_le h1 h3, le_min h2 h4⟩
  unfold clip
  simp only
  rw [if_neg]
  rintro (h | h)
  · exact absurd h (not_le.2 h5)
  · exact absurd h (not_le.2 h6)

/-- The four quadrants cover an interval within one turn. -/
theorem clip_cover {a b y : Rat} (hab : a < b) (ha : a < 1) (hb : 0 < b) (h1 : a ≤ y) (h2 : y ≤ b) (h0 : 0 ≤ y) (hy : y ≤ 1) :
    ∃ q ∈ ([0, 1, 2, 3] : List Nat), ∃ cd, clip q (a, b) = some cd ∧ cd.1 ≤ y ∧ y ≤ cd.2 := by
  have q0 : quadrantClip 0 = (0, 1/4) := rfl
  have q1 : quadrantClip 1 = (1/4, 1/2) := rfl
  have q2 : quadrantClip 2 = (1/2, 3/4) := rfl
  have q3 : quadrantClip 3 = (3/4, 1) := rfl
  rcases eq_or_lt_of_le h2 with e | hlt
  · -- at the end
    subst e
    by_cases c1 : y ≤ 1/4
    · exact ⟨0, by simp, clip_has h1 h2 (by rw [q0]; exact h0) (by rw [q0]; exact c1) (by rw [q0]; exact hb) (by rw [q0]; exact lt_of_lt_of_le hab c1)⟩
    · by_cases c2 : y ≤ 1/2
      · exact ⟨1, by simp, clip_has h1 h2 (by rw [q1]; exact le_of_lt (not_le.1 c1)) (by rw [q1]; exact c2) (by rw [q1]; exact not_le.1 c1) (by rw [q1]; exact lt_of_lt_of_le hab c2)⟩
      · by_cases c3 : y ≤ 3/4
        · exact ⟨2, by simp, clip_has h1 h2 (by rw [q2]; exact le_of_lt (not_le.1 c2)) (by rw [q2]; exact c3) (by rw [q2]; exact not_le.1 c2) (by rw [q2]; exact lt_of_lt_of_le hab c3)⟩
        · exact ⟨3, by simp, clip_has h1 h2 (by rw [q3]; exact le_of_lt (not_le.1 c3)) (by rw [q3]; exact hy) (by rw [q3]; exact not_le.1 c3) (by rw [q3]; exact lt_of_lt_of_le hab hy)⟩
  · by_cases c1 : y < 1/4
    · exact ⟨0, by simp, clip_has h1 h2 (by rw [q0]; exact h0) (by rw [q0]; exact le_of_lt c1) (by rw [q0]; exact hb) (by rw [q0]; exact lt_of_le_of_lt h1 c1)⟩
    · by_cases c2 : y < 1/2
      · exact ⟨1, by simp, clip_has h1 h2 (by rw [q1]; exact not_lt.1 c1) (by rw [q1]; exact le_of_lt c2) (by rw [q1]; exact lt_of_le_of_lt (not_lt.1 c1) hlt) (by rw [q1]; exact lt_of_le_of_lt h1 c2)⟩
      · by_cases c3 : y < 3/4
        · exact ⟨2, by simp, clip_has h1 h2 (by rw [q2]; exact not_lt.1 c2) (by rw [q2]; exact le_of_lt c3) (by rw [q2]; exact lt_of_le_of_lt (not_lt.1 c2) hlt) (by rw [q2]; exact lt_of_le_of_lt h1 c3)⟩
        · exact ⟨3, by simp, clip_has h1 h2 (by rw [q3]; exact not_lt.1 c3) (by rw [q3]; exact hy) (by rw [q3]; exact lt_of_le_of_lt (not_lt.1 c3) hlt) (by rw [q3]; exact ha)⟩

theorem orient_cw {a b : Rat} (h : a ≤ b) : orient .cw a b = (a, b) := by
  unfold orient; simp only; rw [if_neg (not_lt.2 h)]

theorem orient_ccw {a b : Rat} (h : a ≤ b) : orient .ccw a b = (1 - b, 1 - a) := by
  unfold orient
  simp only
  rcases eq_or_lt_of_le h with e | e
  · subst e; rw [if_neg (lt_irrefl _)]
  · rw [if_pos (by show 1 - b < 1 - a; linarith)]

/-- The pieces of an element, when its ends are in order. -/
theorem elementPiece_eq (p : Params) (g : Geometry) (tp : TrackParams) (cyl head len q : Nat) (x : Inst) (h : x.start ≤ x.stop) :
    elementPiece p g tp cyl head len q x = (clip q (match p.direction with
      | .cw => ((x.start : Rat) / (len : Rat) + p.indexAngle, (x.stop : Rat) / (len : Rat) + p.indexAngle)
      | .ccw => (1 - ((x.stop : Rat) / (len : Rat) + p.indexAngle), 1 - ((x.start : Rat) / (len : Rat) + p.indexAngle)))).map fun ab =>
      { shape := shapeOf g tp cyl ab, elem := some x.elem, cyl, head, chsn := x.chsn } := by
  have hle : (x.start : Rat) / (len : Rat) + p.indexAngle ≤ (x.stop : Rat) / (len : Rat) + p.indexAngle := by
    have : (x.start : Rat) ≤ (x.stop : Rat) := by exact_mod_cast h
    have := div_le_div_of_nonneg_right this (Nat.cast_nonneg (α := Rat) len)
    linarith
  unfold elementPiece
  simp only
  rw [if_neg (not_lt.2 hle)]
  simp only
  cases p.direction
  · rw [orient_cw hle]
  · rw [orient_ccw hle]

/-- What an image shows of its tracks. -/
theorem elements_ok {d : Disk} {p : Params} {side : Nat} {quadrant : Option Nat} {g : Geometry} {lookup : Bool} {dl : DisplayList Drawn}
    (h : elements d p side quadrant g lookup = .ok dl) :
    ∃ tp, side ≤ 1 ∧ p.trackParams (d.headMap side).length = .ok tp ∧
      ∀ c, dl.items c = if c < min (collect d side).length (p.trackLimit.getD maxCylinder) then
        some ((((collect d side)[c]?).map fun t => (quadrants quadrant).flatMap fun q =>
          quadrantPieces p g lookup tp c side (lenOf t) q t.items).getD []) else none := by
  unfold elements at h
  simp only at h
  split at h
  · cases h
  · rename_i h1
    cases htp : p.trackParams (d.headMap side).length with
    | error e => rw [htp] at h; cases h
    | ok tp =>
      rw [htp] at h
      simp only at h
      rw [ite_eq_iff] at h
      rcases h with ⟨_, h⟩ | ⟨h4, h⟩
      · cases h
      · injection h with h
        subst h
        refine ⟨tp, by omega, rfl, fun c => ?_⟩
        have := (C125_lists (min (collect d side).length (p.trackLimit.getD maxCylinder)) ((collect d side).zipIdx.flatMap fun x =>
          ((quadrants quadrant).flatMap fun q =>
            quadrantPieces p g lookup tp x.2 side (lenOf x.1) q x.1.items).map fun y => (x.2, y))).1 c
        rw [pushedTo_tracks (fun (t : Track) ti => (quadrants quadrant).flatMap fun q =>
          quadrantPieces p g lookup tp ti side (lenOf t) q t.items) c _ 0 (Nat.zero_le _)] at this
        exact this

/-- **C130 (elements are drawn).** With the index at angle 0: of every element of a track that is drawn, every position up to the end of the track is covered, over the
whole width of the ring, by something drawn for that element. -/
theorem C130_drawn (d : Disk) (p : Params) (side : Nat) (g : Geometry) (lookup : Bool) (dl : DisplayList Drawn) (tp : TrackParams)
    (h : elements d p side none g lookup = .ok dl) (ht : p.trackParams (d.headMap side).length = .ok tp) (hi : p.indexAngle = 0)
    (c : Nat) (t : Track) (hc : (collect d side)[c]? = some t) (hl : c < p.trackLimit.getD maxCylinder) (x : Inst) (hx : x ∈ t.items)
    (h1 : x.start < x.stop) (h2 : x.start < lenOf t) (pos rad : Rat) (hp1 : (x.start : Rat) ≤ pos) (hp2 : pos ≤ (x.stop : Rat)) (hp3 : pos ≤ (lenOf t : Rat))
    (hr : (tp.radii c).2.2 ≤ rad ∧ rad ≤ (tp.radii c).1) :
    ∃ l, dl.items c = some l ∧ ∃ s ∈ l, s.elem = some x.elem ∧ s.chsn = x.chsn ∧ s.cyl = c ∧ s.head = side ∧
      InShape s.shape rad (angleAt p.direction 0 (lenOf t) pos) := by
  obtain ⟨tp', g1, g2, g3⟩ := elements_ok h
  rw [ht] at g2
  injection g2 with g2
  subst g2
  have hlt : c < (collect d side).length := by
    rcases Nat.lt_or_ge c (collect d side).length with h | h
    · exact h
    · rw [List.getElem?_eq_none h] at hc; cases hc
  have g3c := g3 c
  rw [if_pos (by omega), hc] at g3c
  refine ⟨_, g3c, ?_⟩
  show ∃ s ∈ ([0, 1, 2, 3] : List Nat).flatMap fun q => quadrantPieces p g lookup tp c side (lenOf t) q t.items, _
  have hL : (0 : Rat) < (lenOf t : Rat) := by exact_mod_cast (by omega : 0 < lenOf t)
  have a1 : (x.start : Rat) / (lenOf t : Rat) < (x.stop : Rat) / (lenOf t : Rat) := div_lt_div_of_pos_right (by exact_mod_cast h1) hL
  have a2 : (x.start : Rat) / (lenOf t : Rat) < 1 := by rw [div_lt_one hL]; exact_mod_cast h2
  have a3 : 0 ≤ (x.start : Rat) / (lenOf t : Rat) := div_nonneg (Nat.cast_nonneg _) (le_of_lt hL)
  have a4 : (x.start : Rat) / (lenOf t : Rat) ≤ pos / (lenOf t : Rat) := div_le_div_of_nonneg_right hp1 (le_of_lt hL)
  have a5 : pos / (lenOf t : Rat) ≤ (x.stop : Rat) / (lenOf t : Rat) := div_le_div_of_nonneg_right hp2 (le_of_lt hL)
  have a6 : pos / (lenOf t : Rat) ≤ 1 := by rw [div_le_one hL]; exact hp3
  have piece : ∃ q ∈ ([0, 1, 2, 3] : List Nat), ∃ s, elementPiece p g tp c side (lenOf t) q x = some s ∧ s.elem = some x.elem ∧ s.chsn = x.chsn ∧ s.cyl = c ∧ s.head = side ∧
      InShape s.shape rad (angleAt p.direction 0 (lenOf t) pos) := by
    have key : ∀ q, elementPiece p g tp c side (lenOf t) q x = _ := fun q => elementPiece_eq p g tp c side (lenOf t) q x (by omega)
    rw [hi] at key
    cases hd : p.direction with
    | cw =>
      rw [hd] at key
      simp only [add_zero] at key
      obtain ⟨q, hq, cd, hcd, b1, b2⟩ := clip_cover a1 a2 (lt_of_le_of_lt a3 a1) a4 a5 (le_trans a3 a4) a6
      refine ⟨q, hq, _, by rw [key q, hcd]; rfl, rfl, rfl, rfl, rfl, (inShape_shapeOf ht g c cd rad _).2 ⟨hr, 0, ?_, ?_⟩⟩
      · show cd.1 ≤ pos / (lenOf t : Rat) + 0 + ((0 : Int) : Rat); rw [Int.cast_zero]; linarith
      · show pos / (lenOf t : Rat) + 0 + ((0 : Int) : Rat) ≤ cd.2; rw [Int.cast_zero]; linarith
    | ccw =>
      rw [hd] at key
      simp only [add_zero] at key
      obtain ⟨q, hq, cd, hcd, b1, b2⟩ := clip_cover (a := 1 - (x.stop : Rat) / (lenOf t : Rat)) (b := 1 - (x.start : Rat) / (lenOf t : Rat)) (y := 1 - pos / (lenOf t : Rat))
        (by linarith) (by linarith) (by linarith) (by linarith) (by linarith) (by linarith) (by linarith)
      refine ⟨q, hq, _, by rw [key q, hcd]; rfl, rfl, rfl, rfl, rfl, (inShape_shapeOf ht g c cd rad _).2 ⟨hr, 0, ?_, ?_⟩⟩
      · show cd.1 ≤ 1 - (pos / (lenOf t : Rat) + 0) + ((0 : Int) : Rat); rw [Int.cast_zero]; linarith
      · show 1 - (pos / (lenOf t : Rat) + 0) + ((0 : Int) : Rat) ≤ cd.2; rw [Int.cast_zero]; linarith
  obtain ⟨q, hq, s, hs, hrest⟩ := piece
  refine ⟨s, List.mem_flatMap.2 ⟨q, hq, ?_⟩, hrest⟩
  unfold quadrantPieces
  refine List.mem_cons_of_mem _ ?_
  by_cases hm : isMarker x.elem = true
  · exact List.mem_append_right _ (List.mem_filterMap.2 ⟨x, List.mem_filter.2 ⟨hx, hm⟩, hs⟩)
  · exact List.mem_append_left _ (List.mem_append_right _ (List.mem_filterMap.2 ⟨x, List.mem_filter.2 ⟨hx, by simpa using hm⟩, hs⟩))

/-- **C130 (only elements are drawn).** Everything drawn on a track but its background and the marked overlong pieces shows an element of the track: every point of it lies
on the ring, at the angle of a position of that element — for every index angle, direction and choice of quadrants. -/
theorem C130_only (d : Disk) (p : Params) (side : Nat) (quadrant : Option Nat) (g : Geometry) (lookup : Bool) (dl : DisplayList Drawn) (tp : TrackParams)
    (h : elements d p side quadrant g lookup = .ok dl) (ht : p.trackParams (d.headMap side).length = .ok tp)
    (c : Nat) (l : List Drawn) (hl : dl.items c = some l) (s : Drawn) (hs : s ∈ l) (h1 : s.trackFlag = false) (h2 : s.overlapLong = false) :
    ∃ t, (collect d side)[c]? = some t ∧ ∃ x ∈ t.items, s.elem = some x.elem ∧ s.chsn = x.chsn ∧ s.cyl = c ∧ s.head = side ∧
      (x.start < x.stop → x.start < lenOf t → ∀ rad ang, InShape s.shape rad ang → ((tp.radii c).2.2 ≤ rad ∧ rad ≤ (tp.radii c).1) ∧
        ∃ pos, (x.start : Rat) ≤ pos ∧ pos ≤ (x.stop : Rat) ∧ SameAngle (angleAt p.direction p.indexAngle (lenOf t) pos) ang) := by
  obtain ⟨tp', g1, g2, g3⟩ := elements_ok h
  rw [ht] at g2
  injection g2 with g2
  subst g2
  have g3c := g3 c
  rw [hl] at g3c
  split at g3c
  · rename_i hlt
    injection g3c with g3c
    have hc : c < (collect d side).length := by omega
    refine ⟨(collect d side)[c], List.getElem?_eq_getElem hc, ?_⟩
    rw [List.getElem?_eq_getElem hc] at g3c
    generalize (collect d side)[c] = t at g3c
    rw [g3c] at hs
    replace hs : s ∈ (quadrants quadrant).flatMap fun q => quadrantPieces p g lookup tp c side (lenOf t) q t.items := hs
    obtain ⟨q, _, hq⟩ := List.mem_flatMap.1 hs
    have core : ∀ (x : Inst) (q : Nat) (A B : Rat) (long : Bool), (x.start < x.stop → x.start < lenOf t → A ≤ B ∧ ∀ y, A + p.indexAngle ≤ y → y ≤ B + p.indexAngle →
          ∃ pos, (x.start : Rat) ≤ pos ∧ pos ≤ (x.stop : Rat) ∧ SameAngle (pos / (lenOf t : Rat) + p.indexAngle) y) →
        ∀ r, (clip q (orient p.direction (A + p.indexAngle) (B + p.indexAngle))).map (fun ab =>
          ({ shape := shapeOf g tp c ab, elem := some x.elem, cyl := c, head := side, chsn := x.chsn, overlapLong := long } : Drawn)) = some r →
        r.elem = some x.elem ∧ r.chsn = x.chsn ∧ r.cyl = c ∧ r.head = side ∧
      (x.start < x.stop → x.start < lenOf t → ∀ rad ang, InShape r.shape rad ang → ((tp.radii c).2.2 ≤ rad ∧ rad ≤ (tp.radii c).1) ∧
        ∃ pos, (x.start : Rat) ≤ pos ∧ pos ≤ (x.stop : Rat) ∧ SameAngle (angleAt p.direction p.indexAngle (lenOf t) pos) ang) := by
      intro x q A B long hAB r hr
      cases hcl : clip q (orient p.direction (A + p.indexAngle) (B + p.indexAngle)) with
      | none => rw [hcl] at hr; cases hr
      | some cd =>
        rw [hcl] at hr
        injection hr with hr
        subst hr
        refine ⟨rfl, rfl, rfl, rfl, fun hlt1 hlt2 rad ang hin => ?_⟩
        obtain ⟨hAB1, hAB2⟩ := hAB hlt1 hlt2
        obtain ⟨hring, k, k1, k2⟩ := (inShape_shapeOf ht g c cd rad ang).1 hin
        refine ⟨hring, ?_⟩
        obtain ⟨s1, s2, _, _⟩ := clip_sub hcl
        cases hd : p.direction with
        | cw =>
          rw [hd, orient_cw (by linarith)] at s1 s2
          simp only at s1 s2
          obtain ⟨pos, p1, p2, m, hm⟩ := hAB2 (ang + (k : Rat)) (by linarith) (by linarith)
          refine ⟨pos, p1, p2, m + k, ?_⟩
          show pos / (lenOf t : Rat) + p.indexAngle = ang + ((m + k : Int) : Rat)
          rw [hm, Int.cast_add]; ring
        | ccw =>
          rw [hd, orient_ccw (by linarith)] at s1 s2
          simp only at s1 s2
          obtain ⟨pos, p1, p2, m, hm⟩ := hAB2 (1 - (ang + (k : Rat))) (by linarith) (by linarith)
          refine ⟨pos, p1, p2, k - m, ?_⟩
          show 1 - (pos / (lenOf t : Rat) + p.indexAngle) = ang + ((k - m : Int) : Rat)
          rw [hm, Int.cast_sub]; ring
    have main : ∀ x, elementPiece p g tp c side (lenOf t) q x = some s → x ∈ t.items → ∃ x ∈ t.items, s.elem = some x.elem ∧ s.chsn = x.chsn ∧ s.cyl = c ∧ s.head = side ∧
      (x.start < x.stop → x.start < lenOf t → ∀ rad ang, InShape s.shape rad ang → ((tp.radii c).2.2 ≤ rad ∧ rad ≤ (tp.radii c).1) ∧
        ∃ pos, (x.start : Rat) ≤ pos ∧ pos ≤ (x.stop : Rat) ∧ SameAngle (angleAt p.direction p.indexAngle (lenOf t) pos) ang) := by
      intro x hs hx
      refine ⟨x, hx, ?_⟩
      by_cases hlt1 : x.start ≤ x.stop
      · have hs' := hs
        unfold elementPiece at hs'
        simp only at hs'
        have hle : (x.start : Rat) / (lenOf t : Rat) + p.indexAngle ≤ (x.stop : Rat) / (lenOf t : Rat) + p.indexAngle := by
          have : (x.start : Rat) ≤ (x.stop : Rat) := by exact_mod_cast hlt1
          have := div_le_div_of_nonneg_right this (Nat.cast_nonneg (α := Rat) (lenOf t))
          linarith
        rw [if_neg (not_lt.2 hle)] at hs'
        refine core x q ((x.start : Rat) / (lenOf t : Rat)) ((x.stop : Rat) / (lenOf t : Rat)) false ?_ s hs'
        intro _ hlt2
        have hL : (0 : Rat) < (lenOf t : Rat) := by exact_mod_cast (by omega : 0 < lenOf t)
        refine ⟨by linarith, fun y y1 y2 => ⟨(y - p.indexAngle) * (lenOf t : Rat), ?_, ?_, 0, ?_⟩⟩
        · rw [← div_le_iff₀ hL]; linarith
        · rw [← le_div_iff₀ hL]; linarith
        · rw [mul_div_cancel_right₀ _ (ne_of_gt hL), Int.cast_zero]; ring
      · unfold elementPiece at hs
        simp only at hs
        obtain ⟨cd, _, hcd⟩ := Option.map_eq_some_iff.1 hs
        subst hcd
        exact ⟨rfl, rfl, rfl, rfl, fun hh => by omega⟩
    unfold quadrantPieces at hq
    simp only at hq
    rcases List.mem_cons.1 hq with e | hq
    · subst e; cases h1
    · rcases List.mem_append.1 hq with hq | hq
      · rcases List.mem_append.1 hq with hq | hq
        · -- the part behind the index
          split at hq
          · obtain ⟨x, hx, hs⟩ := List.mem_filterMap.1 hq
            refine ⟨x, hx, ?_⟩
            unfold overlapPiece at hs
            split at hs
            · cases hs
            · split at hs
              · rename_i hge
                simp only at hs
                by_cases hlong : x.stop - x.start > overlapMax
                · exfalso
                  obtain ⟨cd, _, hcd⟩ := Option.map_eq_some_iff.1 hs
                  subst hcd
                  simp [hlong] at h2
                · have hnl : decide (x.stop - x.start > overlapMax) = false := by simpa using hlong
                  rw [hnl] at hs
                  simp only [Bool.false_eq_true, if_false] at hs
                  have hz : 0 ≤ ((x.stop % lenOf t : Nat) : Rat) / (lenOf t : Rat) := div_nonneg (Nat.cast_nonneg _) (Nat.cast_nonneg _)
                  rw [if_neg (by show ¬ (p.indexAngle + _ < p.indexAngle); linarith)] at hs
                  refine core x 0 0 (((x.stop % lenOf t : Nat) : Rat) / (lenOf t : Rat)) false ?_ s ?_
                  · intro _ hlt2
                    have hL0 : 0 < lenOf t := by omega
                    have hL : (0 : Rat) < (lenOf t : Rat) := by exact_mod_cast hL0
                    have hm1 := Nat.div_add_mod x.stop (lenOf t)
                    have hm3 : lenOf t ≤ lenOf t * (x.stop / lenOf t) := Nat.le_mul_of_pos_right _ (Nat.div_pos hge hL0)
                    have hm2 : (lenOf t : Rat) * ((x.stop / lenOf t : Nat) : Rat) + ((x.stop % lenOf t : Nat) : Rat) = (x.stop : Rat) := by exact_mod_cast hm1
                    have hm4 : (x.start : Rat) ≤ (lenOf t : Rat) * ((x.stop / lenOf t : Nat) : Rat) := by
                      have : x.start ≤ lenOf t * (x.stop / lenOf t) := by omega
                      exact_mod_cast this
                    refine ⟨hz, fun y y1 y2 => ⟨(lenOf t : Rat) * ((x.stop / lenOf t : Nat) : Rat) + (y - p.indexAngle) * (lenOf t : Rat), ?_, ?_, ((x.stop / lenOf t : Nat) : Int), ?_⟩⟩
                    · have : 0 ≤ (y - p.indexAngle) * (lenOf t : Rat) := mul_nonneg (by linarith) (le_of_lt hL)
                      linarith
                    · have : (y - p.indexAngle) * (lenOf t : Rat) ≤ ((x.stop % lenOf t : Nat) : Rat) := by
                        rw [← le_div_iff₀ hL]; linarith
                      linarith
                    · rw [add_div, mul_div_cancel_right₀ _ (ne_of_gt hL), mul_div_cancel_left₀ _ (ne_of_gt hL), Int.cast_natCast]; ring
                  · rw [zero_add, add_comm (((x.stop % lenOf t : Nat) : Rat) / (lenOf t : Rat))]
                    exact hs
              · cases hs
          · cases hq
        · obtain ⟨x, hx, hs⟩ := List.mem_filterMap.1 hq
          exact main x hs (List.mem_filter.1 hx).1
      · obtain ⟨x, hx, hs⟩ := List.mem_filterMap.1 hq
        exact main x hs (List.mem_filter.1 hx).1
  · cases g3c

/-- What is drawn on a track. -/
theorem elements_track {d : Disk} {p : Params} {side : Nat} {quadrant : Option Nat} {g : Geometry} {lookup : Bool} {dl : DisplayList Drawn} {tp : TrackParams}
    (h : elements d p side quadrant g lookup = .ok dl) (ht : p.trackParams (d.headMap side).length = .ok tp) {c : Nat} {t : Track}
    (hc : (collect d side)[c]? = some t) (hl : c < p.trackLimit.getD maxCylinder) :
    dl.items c = some ((quadrants quadrant).flatMap fun q => quadrantPieces p g lookup tp c side (lenOf t) q t.items) := by
  obtain ⟨tp', g1, g2, g3⟩ := elements_ok h
  rw [ht] at g2
  injection g2 with g2
  subst g2
  have hlt : c < (collect d side).length := by
    rcases Nat.lt_or_ge c (collect d side).length with h | h
    · exact h
    · rw [List.getElem?_eq_none h] at hc; cases hc
  have g3c := g3 c
  rw [if_pos (by omega), hc] at g3c
  exact g3c

/-- **C130 (behind the index, partial).** Clockwise, with the index at angle 0: of an element that reaches over the index by at most a quarter of the track, is no mark and is not longer
than 1030 bytes, the part behind the index is drawn.
Missing: counter-clockwise, longer parts, marks (refuted below). -/
theorem C130_behind_partial (d : Disk) (p : Params) (side : Nat) (g : Geometry) (dl : DisplayList Drawn) (tp : TrackParams)
    (h : elements d p side none g false = .ok dl) (ht : p.trackParams (d.headMap side).length = .ok tp) (hi : p.indexAngle = 0) (hd : p.direction = .cw)
    (c : Nat) (t : Track) (hc : (collect d side)[c]? = some t) (hl : c < p.trackLimit.getD maxCylinder) (x : Inst) (hx : x ∈ t.items)
    (hm : isMarker x.elem = false) (hlen : x.stop - x.start ≤ 1030 * 16) (h2 : lenOf t < x.stop) (h3 : 4 * (x.stop - lenOf t) ≤ lenOf t) (pos rad : Rat)
    (hp1 : (lenOf t : Rat) ≤ pos) (hp2 : pos ≤ (x.stop : Rat)) (hr : (tp.radii c).2.2 ≤ rad ∧ rad ≤ (tp.radii c).1) :
    ∃ l, dl.items c = some l ∧ ∃ s ∈ l, s.elem = some x.elem ∧ s.chsn = x.chsn ∧ s.cyl = c ∧ s.head = side ∧
      InShape s.shape rad (angleAt p.direction 0 (lenOf t) pos) := by
  refine ⟨_, elements_track h ht hc hl, ?_⟩
  have hL0 : 0 < lenOf t := by omega
  have hL : (0 : Rat) < (lenOf t : Rat) := by exact_mod_cast hL0
  have hmod : x.stop % lenOf t = x.stop - lenOf t := by
    rw [Nat.mod_eq_sub_mod (by omega), Nat.mod_eq_of_lt (by omega)]
  have hcast : ((x.stop - lenOf t : Nat) : Rat) = (x.stop : Rat) - (lenOf t : Rat) := Nat.cast_sub (by omega)
  have hb0 : 0 < ((x.stop - lenOf t : Nat) : Rat) / (lenOf t : Rat) := div_pos (by exact_mod_cast (by omega : 0 < x.stop - lenOf t)) hL
  have hb1 : ((x.stop - lenOf t : Nat) : Rat) / (lenOf t : Rat) ≤ 1/4 := by
    rw [div_le_iff₀ hL]
    have : ((4 * (x.stop - lenOf t) : Nat) : Rat) ≤ (lenOf t : Rat) := by exact_mod_cast h3
    rw [Nat.cast_mul] at this
    have e : ((4 : Nat) : Rat) = 4 := rfl
    rw [e] at this
    linarith
  have q0 : quadrantClip 0 = (0, 1/4) := rfl
  have hs : overlapPiece p g tp c side (lenOf t) x = some { shape := shapeOf g tp c (0, ((x.stop - lenOf t : Nat) : Rat) / (lenOf t : Rat)), elem := some x.elem, cyl := c, head := side, chsn := x.chsn } := by
    unfold overlapPiece
    rw [if_neg (by rw [hm]; simp), if_pos (by omega)]
    simp only
    have hnl : decide (x.stop - x.start > overlapMax) = false := by simp [overlapMax]; omega
    rw [hnl, hi, hmod, hd]
    simp only [Bool.false_eq_true, if_false, zero_add]
    rw [if_neg (not_lt.2 (le_of_lt hb0)), orient_cw (le_of_lt hb0)]
    unfold clip
    rw [q0]
    simp only
    rw [if_neg (by rintro (hh | hh)
                   · exact absurd hh (not_le.2 hb0)
                   · exact absurd hh (by decide +kernel)), max_self, min_eq_left hb1]
    rfl
  refine ⟨{ shape := shapeOf g tp c (0, ((x.stop - lenOf t : Nat) : Rat) / (lenOf t : Rat)), elem := some x.elem, cyl := c, head := side, chsn := x.chsn },
    List.mem_flatMap.2 ⟨0, by simp [quadrants], ?_⟩, rfl, rfl, rfl, rfl, ?_⟩
  · unfold quadrantPieces
    refine List.mem_cons_of_mem _ (List.mem_append_left _ (List.mem_append_left _ ?_))
    rw [if_pos ⟨rfl, rfl⟩]
    exact List.mem_filterMap.2 ⟨x, hx, hs⟩
  · refine (inShape_shapeOf ht g c _ rad _).2 ⟨hr, -1, ?_, ?_⟩
    · rw [hd]
      show 0 ≤ pos / (lenOf t : Rat) + 0 + ((-1 : Int) : Rat)
      have : 1 ≤ pos / (lenOf t : Rat) := by rw [le_div_iff₀ hL]; linarith
      have e : ((-1 : Int) : Rat) = -1 := rfl
      rw [e]; linarith
    · rw [hd]
      show pos / (lenOf t : Rat) + 0 + ((-1 : Int) : Rat) ≤ ((x.stop - lenOf t : Nat) : Rat) / (lenOf t : Rat)
      have e : ((-1 : Int) : Rat) = -1 := rfl
      rw [e, hcast, sub_div, div_self (ne_of_gt hL)]
      have := div_le_div_of_nonneg_right hp2 (le_of_lt hL)
      linarith

theorem frac_unique {y : Rat} {k : Int} (h1 : 0 < y) (h2 : y < 1) (h3 : 0 ≤ y + (k : Rat)) (h4 : y + (k : Rat) ≤ 1) : k = 0 := by
  have a : (-1 : Rat) < (k : Rat) := by linarith
  have b : (k : Rat) < 1 := by linarith
  have a' : (-1 : Int) < k := by exact_mod_cast a
  have b' : k < 1 := by exact_mod_cast b
  omega

/-- What is drawn lies within one turn. -/
theorem piece_within {p : Params} {n : Nat} {tp : TrackParams} (ht : p.trackParams n = .ok tp) (g : Geometry) (c q : Nat) (ab cd : Rat × Rat) (h : clip q ab = some cd) (rad ang : Rat)
    (ha : 0 < ang) (hb : ang < 1) (hin : InShape (shapeOf g tp c cd) rad ang) : ab.1 ≤ ang ∧ ang ≤ ab.2 ∧ (quadrantClip q).1 ≤ ang ∧ ang ≤ (quadrantClip q).2 := by
  obtain ⟨_, k, k1, k2⟩ := (inShape_shapeOf ht g c cd rad ang).1 hin
  obtain ⟨s1, s2, s3, s4⟩ := clip_sub h
  obtain ⟨r1, r2⟩ := quadrantClip_range q
  have : k = 0 := frac_unique ha hb (by linarith) (by linarith)
  subst this
  rw [Int.cast_zero, add_zero] at k1 k2
  exact ⟨by linarith, by linarith, by linarith, by linarith⟩

/-- **C130 fails** in the default direction: of an element that reaches over the index nothing is drawn behind the index. -/
theorem C130_false_behind (d : Disk) (p : Params) (side : Nat) (g : Geometry) (lookup : Bool) (dl : DisplayList Drawn) (tp : TrackParams)
    (h : elements d p side none g lookup = .ok dl) (ht : p.trackParams (d.headMap side).length = .ok tp) (hi : p.indexAngle = 0) (hd : p.direction = .ccw)
    (c : Nat) (t : Track) (hc : (collect d side)[c]? = some t) (hl : c < p.trackLimit.getD maxCylinder) (x : Inst) (hx : t.items = [x])
    (hlen : x.stop - x.start ≤ 1030 * 16) (h1 : x.start < lenOf t) (h2 : lenOf t < x.stop) (h3 : 4 * (x.stop - lenOf t) ≤ 3 * lenOf t) (pos rad : Rat)
    (hp1 : (lenOf t : Rat) < pos) (hp2 : pos ≤ (x.stop : Rat)) (hp3 : pos < (lenOf t : Rat) + (x.start : Rat)) :
    ∃ l, dl.items c = some l ∧ ∀ s ∈ l, s.trackFlag = false → ¬ InShape s.shape rad (angleAt p.direction 0 (lenOf t) pos) := by
  refine ⟨_, elements_track h ht hc hl, ?_⟩
  intro s hs hf
  have hL0 : 0 < lenOf t := by omega
  have hL : (0 : Rat) < (lenOf t : Rat) := by exact_mod_cast hL0
  have h1' : (x.start : Rat) < (lenOf t : Rat) := by exact_mod_cast h1
  have hq1 : 1 < pos / (lenOf t : Rat) := by rw [lt_div_iff₀ hL]; linarith
  have hq2 : pos / (lenOf t : Rat) < 1 + (x.start : Rat) / (lenOf t : Rat) := by
    rw [div_lt_iff₀ hL, add_mul, div_mul_cancel₀ _ (ne_of_gt hL)]; linarith
  have hq3 : (x.start : Rat) / (lenOf t : Rat) < 1 := by rw [div_lt_one hL]; exact h1'
  have hang : angleAt p.direction 0 (lenOf t) pos = 1 - pos / (lenOf t : Rat) := by rw [hd]; show 1 - (pos / (lenOf t : Rat) + 0) = _; rw [add_zero]
  rw [hang]
  -- the same point within the turn
  have hshift : ∀ cd, InShape (shapeOf g tp c cd) rad (1 - pos / (lenOf t : Rat)) → InShape (shapeOf g tp c cd) rad (2 - pos / (lenOf t : Rat)) := by
    intro cd hin
    obtain ⟨hr, k, k1, k2⟩ := (inShape_shapeOf ht g c cd rad _).1 hin
    refine (inShape_shapeOf ht g c cd rad _).2 ⟨hr, k - 1, ?_, ?_⟩
    · rw [Int.cast_sub, Int.cast_one]; linarith
    · rw [Int.cast_sub, Int.cast_one]; linarith
  obtain ⟨q, _, hq⟩ := List.mem_flatMap.1 hs
  have main : elementPiece p g tp c side (lenOf t) q x = some s → ¬ InShape s.shape rad (1 - pos / (lenOf t : Rat)) := by
    intro he hin
    rw [elementPiece_eq _ _ _ _ _ _ _ _ (by omega), hd, hi] at he
    obtain ⟨cd, hcd, hcs⟩ := Option.map_eq_some_iff.1 he
    subst hcs
    have := (piece_within ht g c q _ cd hcd rad _ (by linarith) (by linarith) (hshift cd hin)).2.1
    simp only at this
    linarith
  unfold quadrantPieces at hq
  simp only at hq
  rw [hx] at hq
  rcases List.mem_cons.1 hq with e | hq
  · subst e; cases hf
  · rcases List.mem_append.1 hq with hq | hq
    · rcases List.mem_append.1 hq with hq | hq
      · split at hq
        · obtain ⟨y, hy, hs⟩ := List.mem_filterMap.1 hq
          rw [List.mem_singleton] at hy
          subst hy
          unfold overlapPiece at hs
          split at hs
          · cases hs
          · rw [if_pos (by omega)] at hs
            simp only at hs
            have hnl : decide (y.stop - y.start > overlapMax) = false := by simp [overlapMax]; omega
            rw [hnl, hi, hd] at hs
            simp only [Bool.false_eq_true, if_false, zero_add] at hs
            have hz : 0 ≤ ((y.stop % lenOf t : Nat) : Rat) / (lenOf t : Rat) := div_nonneg (Nat.cast_nonneg _) (le_of_lt hL)
            rw [if_neg (not_lt.2 hz), orient_ccw hz] at hs
            have hmod : y.stop % lenOf t = y.stop - lenOf t := by
              rw [Nat.mod_eq_sub_mod (by omega), Nat.mod_eq_of_lt (by omega)]
            have hle : ((y.stop % lenOf t : Nat) : Rat) / (lenOf t : Rat) ≤ 3/4 := by
              rw [hmod, div_le_iff₀ hL]
              have : ((4 * (y.stop - lenOf t) : Nat) : Rat) ≤ ((3 * lenOf t : Nat) : Rat) := by exact_mod_cast h3
              rw [Nat.cast_mul, Nat.cast_mul] at this
              have e4 : ((4 : Nat) : Rat) = 4 := rfl
              have e3 : ((3 : Nat) : Rat) = 3 := rfl
              rw [e4, e3] at this
              linarith
            exfalso
            unfold clip at hs
            simp only at hs
            rw [if_pos (.inr (by show (1 : Rat)/4 ≤ 1 - _; linarith))] at hs
            cases hs
        · cases hq
      · obtain ⟨y, hy, hs⟩ := List.mem_filterMap.1 hq
        have := (List.mem_filter.1 hy).1
        rw [List.mem_singleton] at this
        subst this
        exact main hs
    · obtain ⟨y, hy, hs⟩ := List.mem_filterMap.1 hq
      have := (List.mem_filter.1 hy).1
      rw [List.mem_singleton] at this
      subst this
      exact main hs

/-- **C130 fails** for an index not at angle 0, clockwise: of an element whose angles are beyond one turn then, nothing is drawn. -/
theorem C130_false_index (d : Disk) (p : Params) (side : Nat) (g : Geometry) (lookup : Bool) (dl : DisplayList Drawn) (tp : TrackParams)
    (h : elements d p side none g lookup = .ok dl) (ht : p.trackParams (d.headMap side).length = .ok tp) (hd : p.direction = .cw)
    (c : Nat) (t : Track) (hc : (collect d side)[c]? = some t) (hl : c < p.trackLimit.getD maxCylinder) (x : Inst) (hx : t.items = [x])
    (h1 : x.start < x.stop) (h2 : x.stop < lenOf t) (h3 : 1 ≤ (x.start : Rat) / (lenOf t : Rat) + p.indexAngle) :
    ∃ l, dl.items c = some l ∧ ∀ s ∈ l, s.trackFlag = true := by
  refine ⟨_, elements_track h ht hc hl, ?_⟩
  intro s hs
  obtain ⟨q, _, hq⟩ := List.mem_flatMap.1 hs
  have main : elementPiece p g tp c side (lenOf t) q x = none := by
    rw [elementPiece_eq _ _ _ _ _ _ _ _ (by omega), hd]
    unfold clip
    simp only
    rw [if_pos (.inr (le_trans (quadrantClip_range q).2 h3))]
    rfl
  unfold quadrantPieces at hq
  simp only at hq
  rw [hx] at hq
  rcases List.mem_cons.1 hq with e | hq
  · subst e; rfl
  · rcases List.mem_append.1 hq with hq | hq
    · rcases List.mem_append.1 hq with hq | hq
      · split at hq
        · obtain ⟨y, hy, hs⟩ := List.mem_filterMap.1 hq
          rw [List.mem_singleton] at hy
          subst hy
          unfold overlapPiece at hs
          split at hs
          · cases hs
          · rw [if_neg (by omega)] at hs; cases hs
        · cases hq
      · obtain ⟨y, hy, hs⟩ := List.mem_filterMap.1 hq
        have := (List.mem_filter.1 hy).1
        rw [List.mem_singleton] at this
        subst this
        rw [main] at hs; cases hs
    · obtain ⟨y, hy, hs⟩ := List.mem_filterMap.1 hq
      have := (List.mem_filter.1 hy).1
      rw [List.mem_singleton] at this
      subst this
      rw [main] at hs; cases hs

/-- **C130 fails** for long elements, clockwise: of one longer than 1030 bytes that ends where the track does, the whole quarter behind the index is drawn as well (and marked as overlong). -/
theorem C130_false_long (d : Disk) (p : Params) (side : Nat) (g : Geometry) (dl : DisplayList Drawn) (tp : TrackParams)
    (h : elements d p side none g false = .ok dl) (ht : p.trackParams (d.headMap side).length = .ok tp) (hi : p.indexAngle = 0) (hd : p.direction = .cw)
    (c : Nat) (t : Track) (hc : (collect d side)[c]? = some t) (hl : c < p.trackLimit.getD maxCylinder) (x : Inst) (hx : x ∈ t.items)
    (hm : isMarker x.elem = false) (hlen : 1030 * 16 < x.stop - x.start) (h2 : x.stop = lenOf t) (h3 : lenOf t ≤ 4 * (x.start + 1030 * 16))
    (rad ang : Rat) (ha1 : 0 ≤ ang) (ha2 : ang ≤ 1/4) (hr : (tp.radii c).2.2 ≤ rad ∧ rad ≤ (tp.radii c).1) :
    ∃ l, dl.items c = some l ∧ ∃ s ∈ l, s.elem = some x.elem ∧ s.chsn = x.chsn ∧ s.overlapLong = true ∧ InShape s.shape rad ang := by
  refine ⟨_, elements_track h ht hc hl, ?_⟩
  have hL0 : 0 < lenOf t := by omega
  have hL : (0 : Rat) < (lenOf t : Rat) := by exact_mod_cast hL0
  have hom : overlapMax = 16480 := rfl
  have hmod : (x.start + overlapMax) % lenOf t = x.start + overlapMax := Nat.mod_eq_of_lt (by omega)
  have hq : 1/4 ≤ ((x.start + overlapMax : Nat) : Rat) / (lenOf t : Rat) := by
    rw [le_div_iff₀ hL]
    have : (lenOf t : Rat) ≤ ((4 * (x.start + 1030 * 16) : Nat) : Rat) := by exact_mod_cast h3
    rw [Nat.cast_mul] at this
    have e4 : ((4 : Nat) : Rat) = 4 := rfl
    rw [e4] at this
    have e5 : x.start + overlapMax = x.start + 1030 * 16 := rfl
    rw [e5]
    linarith
  have hq0 : 0 ≤ ((x.start + overlapMax : Nat) : Rat) / (lenOf t : Rat) := le_trans (by decide +kernel) hq
  have q0 : quadrantClip 0 = (0, 1/4) := rfl
  have hs : overlapPiece p g tp c side (lenOf t) x = some { shape := shapeOf g tp c (0, 1/4), elem := some x.elem, cyl := c, head := side, chsn := x.chsn, overlapLong := true } := by
    unfold overlapPiece
    rw [if_neg (by rw [hm]; simp), if_pos (by omega)]
    simp only
    have hnl : decide (x.stop - x.start > overlapMax) = true := by simp [overlapMax]; omega
    rw [hnl, hi, hmod, hd]
    simp only [if_true, zero_add]
    rw [if_neg (not_lt.2 hq0), orient_cw hq0]
    unfold clip
    rw [q0]
    simp only
    rw [if_neg (by rintro (hh | hh)
                   · exact absurd (le_trans hq hh) (by decide +kernel)
                   · exact absurd hh (by decide +kernel)), max_self, min_eq_right hq]
    rfl
  refine ⟨{ shape := shapeOf g tp c (0, 1/4), elem := some x.elem, cyl := c, head := side, chsn := x.chsn, overlapLong := true },
    List.mem_flatMap.2 ⟨0, by simp [quadrants], ?_⟩, rfl, rfl, rfl, ?_⟩
  · unfold quadrantPieces
    refine List.mem_cons_of_mem _ (List.mem_append_left _ (List.mem_append_left _ ?_))
    rw [if_pos ⟨rfl, rfl⟩]
    exact List.mem_filterMap.2 ⟨x, hx, hs⟩
  · refine (inShape_shapeOf ht g c _ rad _).2 ⟨hr, 0, ?_, ?_⟩
    · show 0 ≤ ang + ((0 : Int) : Rat); rw [Int.cast_zero]; linarith
    · show ang + ((0 : Int) : Rat) ≤ 1/4; rw [Int.cast_zero]; linarith

/-! ## A disk that meets the hypotheses -/

/-- A track of a thousand cells with one element. -/
def exVizTrack (x : Inst) : Track :=
  { data := ⟨BitRing.ofBits (List.replicate 1000 false), BitRing.ofBits (List.replicate 1000 false), true, BitRing.ofBits (List.replicate 1000 false), 0⟩, items := [x] }

/-- A disk of that track. -/
def exVizDisk (x : Inst) : Disk := { pool := [.bit ⟨0, 0⟩ (exVizTrack x)], map0 := [0] }

theorem exViz_tp : Params.trackParams {} 1 = .ok ⟨1/2, 3/20, 1/2, 1, 7/20, 63/200, 7/400⟩ := by decide +kernel

theorem exViz_len (x : Inst) : lenOf (exVizTrack x) = 1000 := by
  show (List.replicate 1000 false).length = 1000
  rw [List.length_replicate]

theorem exViz_elements (x : Inst) (g : Geometry) (lookup : Bool) : ∃ dl, elements (exVizDisk x) {} 0 none g lookup = .ok dl := by
  unfold elements
  simp only
  rw [if_neg (by decide)]
  have : Params.trackParams {} ((exVizDisk x).headMap 0).length = _ := exViz_tp
  rw [this]
  exact ⟨_, rfl⟩

/-- An element over the index: `C130_false_behind` applies, at the position 1010. -/
example : ∃ l, ∃ dl, elements (exVizDisk ⟨.data ⟨0, 0, 1, 2⟩ false false false, 900, 1050, none, false⟩) {} 0 none .arc false = .ok dl ∧ dl.items 0 = some l ∧
    ∀ s ∈ l, s.trackFlag = false → ∀ rad, ¬ InShape s.shape rad (angleAt .ccw 0 1000 1010) := by
  obtain ⟨dl, h⟩ := exViz_elements ⟨.data ⟨0, 0, 1, 2⟩ false false false, 900, 1050, none, false⟩ .arc false
  have hlen := exViz_len ⟨.data ⟨0, 0, 1, 2⟩ false false false, 900, 1050, none, false⟩
  have key := fun rad => C130_false_behind _ {} 0 .arc false dl _ h exViz_tp rfl rfl 0 _ rfl (by decide) ⟨.data ⟨0, 0, 1, 2⟩ false false false, 900, 1050, none, false⟩ rfl (by decide)
    (by rw [hlen]; decide) (by rw [hlen]; decide) (by rw [hlen]; decide) 1010 rad (by rw [hlen]; decide +kernel) (by decide +kernel) (by rw [hlen]; decide +kernel)
  obtain ⟨l, hl, _⟩ := key 0
  refine ⟨l, dl, h, hl, fun s hs hf rad => ?_⟩
  obtain ⟨l', hl', hk⟩ := key rad
  rw [hl] at hl'
  injection hl' with hl'
  subst hl'
  have := hk s hs hf
  rwa [hlen] at this

end Fox
