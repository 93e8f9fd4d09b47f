import Verif.Props.VizDraw
import Verif.Props.CatalogPos
import Verif.Props.CatalogMap
import Mathlib.Algebra.Order.Field.Rat
/-
Proofs about what is found under a point (C131) and about selections (C132).
-/
namespace Fox
open Viz Spec S34

/-! ## The cylinder -/

/-- The rings counted from inside. -/
theorem ring_inside {p : Params} {n : Nat} {tp : TrackParams} (ht : p.trackParams n = .ok tp) (hm : p.maxRatio = 1) (hg : 0 < p.gap) (c : Nat) (hc : c < n) :
    (tp.radii c).2.2 = tp.minRadius + ((n - 1 - c : Nat) : Rat) * tp.totalWidth + tp.totalWidth * (p.gap / 2) ∧
    (tp.radii c).2.1 = tp.minRadius + ((n - 1 - c : Nat) : Rat) * tp.totalWidth + tp.totalWidth / 2 ∧
    (tp.radii c).1 = tp.maxRadius - (c : Rat) * tp.totalWidth - tp.totalWidth * (p.gap / 2) ∧ tp.renderWidth = tp.totalWidth * (1 - p.gap) ∧ 0 < tp.totalWidth := by
  obtain ⟨g1, g2, g3, g4, g5, g6, g7, g8, g9, g10, g11⟩ := trackParams_ok ht
  rw [if_neg (ne_of_gt hg)] at g10 g11
  have hn : (0 : Rat) < (n : Rat) := by exact_mod_cast g1
  have hmax : tp.maxRadius = tp.minRadius + (n : Rat) * tp.totalWidth := by
    rw [g8, mul_div_cancel₀ _ (ne_of_gt hn)]; ring
  rw [hm, one_mul] at g5
  have hcast : ((n - 1 - c : Nat) : Rat) = (n : Rat) - 1 - (c : Rat) := by
    have e : n = (n - 1 - c) + 1 + c := by omega
    have e2 : (n : Rat) = ((n - 1 - c : Nat) : Rat) + 1 + (c : Rat) := by exact_mod_cast e
    linarith
  rw [hcast]
  unfold TrackParams.radii
  simp only
  rw [g11, ← g5, hmax]
  exact ⟨by ring, by ring, by ring, g10, g9⟩

/-- How many widths without gap a point of a ring is from the inner radius. -/
theorem hit_floor {p : Params} {n : Nat} {tp : TrackParams} (ht : p.trackParams n = .ok tp) (hm : p.maxRatio = 1) (hg : 0 < p.gap) (hg1 : p.gap < 1) (c : Nat) (hc : c < n)
    (rad : Rat) (hr : (tp.radii c).2.2 ≤ rad ∧ rad ≤ (tp.radii c).1) :
    ∃ f : Nat, hitCylinder tp rad = tp.numTracks - 1 - f ∧ n - 1 - c ≤ f ∧ (f = n - 1 - c ↔ rad - tp.minRadius < ((n - c : Nat) : Rat) * tp.renderWidth) := by
  obtain ⟨r1, r2, r3, r4, r5⟩ := ring_inside ht hm hg c hc
  have hw : 0 < tp.renderWidth := by rw [r4]; exact mul_pos r5 (by linarith)
  have hg2 : 0 < tp.totalWidth * (p.gap / 2) := mul_pos r5 (by linarith)
  have hc0 : (0 : Rat) ≤ (c : Rat) * tp.totalWidth := mul_nonneg (Nat.cast_nonneg _) (le_of_lt r5)
  have hle : rad ≤ tp.maxRadius := by linarith [hr.2]
  have hj : ((n - 1 - c : Nat) : Rat) * tp.renderWidth ≤ rad - tp.minRadius := by
    have h0 : ((n - 1 - c : Nat) : Rat) * tp.renderWidth ≤ ((n - 1 - c : Nat) : Rat) * tp.totalWidth := by
      apply mul_le_mul_of_nonneg_left _ (Nat.cast_nonneg _)
      rw [r4]
      have := mul_pos r5 hg
      linarith
    linarith [hr.1]
  have hfl : ((n - 1 - c : Nat) : Int) ≤ ((rad - tp.minRadius) / tp.renderWidth).floor := by
    rw [Rat.le_floor_iff, le_div_iff₀ hw]
    rw [Int.cast_natCast]; exact hj
  refine ⟨((rad - tp.minRadius) / tp.renderWidth).floor.toNat, ?_, by omega, ?_⟩
  · unfold hitCylinder; rw [if_neg (not_lt.2 hle)]
  · have e : ((rad - tp.minRadius) / tp.renderWidth).floor < ((n - c : Nat) : Int) ↔ rad - tp.minRadius < ((n - c : Nat) : Rat) * tp.renderWidth := by
      rw [Rat.floor_lt_iff, div_lt_iff₀ hw, Int.cast_natCast]
    rw [← e]
    omega

/-- **C131 (the cylinder, partial).** With the full radius, a gap, and every track shown: at a point on the ring of a cylinder the hit test answers that cylinder exactly for
the outermost cylinder and where the distance from the inner radius is less than as many widths *without gaps* as there are cylinders from the innermost to this one;
otherwise it answers one further out.
Missing: the other points of the ring (refuted below). -/
theorem C131_cylinder_partial (p : Params) (n : Nat) (tp : TrackParams) (ht : p.trackParams n = .ok tp) (hm : p.maxRatio = 1) (hg : 0 < p.gap) (hg1 : p.gap < 1)
    (hn : n ≤ p.trackLimit.getD maxCylinder) (c : Nat) (hc : c < n) (rad : Rat) (hr : (tp.radii c).2.2 ≤ rad ∧ rad ≤ (tp.radii c).1) :
    hitCylinder tp rad ≤ c ∧ (hitCylinder tp rad = c ↔ c = 0 ∨ rad - tp.minRadius < ((n - c : Nat) : Rat) * tp.renderWidth) := by
  obtain ⟨g1, g2, g3, _⟩ := trackParams_ok ht
  obtain ⟨f, f1, f2, f3⟩ := hit_floor ht hm hg hg1 c hc rad hr
  rw [← f3, f1, g2]
  omega

/-- The innermost ring of a disk of 80 tracks meets this everywhere, and so do the outer edges of no others from the middle on. -/
example : ∃ tp, Params.trackParams {} 80 = .ok tp ∧ hitCylinder tp ((tp.radii 79).2.1) = 79 ∧ hitCylinder tp ((tp.radii 0).2.1) = 0 :=
  ⟨⟨1/2, 3/20, 1/2, 80, 7/1600, 63/16000, 7/32000⟩, by decide +kernel, by decide +kernel, by decide +kernel⟩

/-- **C131 fails** for the cylinder: in the middle of the ring of every cylinder but the outermost, if there are at least half as many cylinders from it to the innermost
as gaps go into a track, another cylinder is answered. -/
theorem C131_false_cylinder (p : Params) (n : Nat) (tp : TrackParams) (ht : p.trackParams n = .ok tp) (hm : p.maxRatio = 1) (hg : 0 < p.gap) (hg1 : p.gap < 1)
    (hn : n ≤ p.trackLimit.getD maxCylinder) (c : Nat) (hc0 : 0 < c) (hc : c < n) (hfar : 1/2 ≤ p.gap * ((n - c : Nat) : Rat)) :
    hitCylinder tp (tp.radii c).2.1 < c := by
  obtain ⟨r1, r2, r3, r4, r5⟩ := ring_inside ht hm hg c hc
  have hr : (tp.radii c).2.2 ≤ (tp.radii c).2.1 ∧ (tp.radii c).2.1 ≤ (tp.radii c).1 := by
    obtain ⟨g1, g2, g3, g4, g5, g6, g7, g8, g9, g10, g11⟩ := trackParams_ok ht
    rw [if_neg (ne_of_gt hg)] at g11
    have : tp.totalWidth * (p.gap / 2) ≤ tp.totalWidth / 2 := by
      have := mul_pos r5 (by linarith : (0 : Rat) < 1 - p.gap)
      linarith
    unfold TrackParams.radii
    simp only
    rw [g11]
    exact ⟨by linarith, by linarith⟩
  obtain ⟨h1, h2⟩ := C131_cylinder_partial p n tp ht hm hg hg1 hn c hc _ hr
  refine lt_of_le_of_ne h1 fun e => ?_
  rcases h2.1 e with e | e
  · omega
  · rw [r2, r4] at e
    have hcast : ((n - 1 - c : Nat) : Rat) = ((n - c : Nat) : Rat) - 1 := by
      have e : n - c = (n - 1 - c) + 1 := by omega
      rw [e, Nat.cast_add]
      have : ((1 : Nat) : Rat) = 1 := rfl
      rw [this]; ring
    rw [hcast] at e
    have := mul_le_mul_of_nonneg_left hfar (le_of_lt r5)
    linarith

/-- Of a disk of 80 tracks drawn as by default, the middles of 75 rings give other cylinders. -/
example (c : Nat) (h0 : 0 < c) (h : c < 76) : ∃ tp, Params.trackParams {} 80 = .ok tp ∧ hitCylinder tp (tp.radii c).2.1 < c := by
  have ht : Params.trackParams {} 80 = .ok ⟨1/2, 3/20, 1/2, 80, 7/1600, 63/16000, 7/32000⟩ := by decide +kernel
  refine ⟨_, ht, C131_false_cylinder {} 80 _ ht rfl (by decide +kernel) (by decide +kernel) (by decide) c h0 (by omega) ?_⟩
  have : ((5 : Nat) : Rat) ≤ ((80 - c : Nat) : Rat) := by exact_mod_cast (by omega : 5 ≤ 80 - c)
  show 1/2 ≤ (1/10 : Rat) * _
  have e : ((5 : Nat) : Rat) = 5 := rfl
  rw [e] at this
  linarith

/-- **C131 fails** under a limit below the number of tracks: at every point of every ring but the first, a cylinder further out is answered. -/
theorem C131_false_limit (p : Params) (n : Nat) (tp : TrackParams) (ht : p.trackParams n = .ok tp) (hm : p.maxRatio = 1) (hg : 0 < p.gap) (hg1 : p.gap < 1) (k : Nat)
    (hk : p.trackLimit = some k) (hkn : k < n) (c : Nat) (hc0 : 0 < c) (hc : c < n) (rad : Rat) (hr : (tp.radii c).2.2 ≤ rad ∧ rad ≤ (tp.radii c).1) :
    hitCylinder tp rad < c := by
  obtain ⟨g1, g2, g3, _⟩ := trackParams_ok ht
  obtain ⟨f, f1, f2, f3⟩ := hit_floor ht hm hg hg1 c hc rad hr
  rw [hk] at g2
  simp only [Option.getD_some] at g2
  rw [f1, g2]
  omega

/-! ## The element -/

/-- Every way to draw an element that is found or selected covers the ring over its angles. -/
theorem inShape_selection {p : Params} {n : Nat} {tp : TrackParams} (ht : p.trackParams n = .ok tp) (g : Geometry) (cyl : Nat) (ab : Rat × Rat) (wr : Bool) (rad ang : Rat)
    (hr : (tp.radii cyl).2.2 ≤ rad ∧ rad ≤ (tp.radii cyl).1) (ha : ab.1 ≤ ang ∧ ang ≤ ab.2) : InShape (selectionShape g tp cyl ab wr) rad ang := by
  have hk : ab.1 ≤ ang + ((0 : Int) : Rat) ∧ ang + ((0 : Int) : Rat) ≤ ab.2 := by rw [Int.cast_zero, add_zero]; exact ha
  unfold selectionShape
  simp only
  unfold TrackParams.radii at *
  simp only at *
  cases g with
  | sector => exact ⟨hr.1, hr.2, 0, hk⟩
  | arc =>
    cases wr with
    | true => exact ⟨hr.1, by linarith [hr.2]⟩
    | false => exact ⟨by linarith [hr.1], by linarith [hr.2], 0, hk⟩

/-- A position of an element is within the angles of the element. -/
theorem angle_within {p : Params} {len : Nat} (hi : p.indexAngle = 0) (h0 : 0 < len) (x : Inst) (pos : Rat) (h1 : (x.start : Rat) ≤ pos) (h2 : pos ≤ (x.stop : Rat))
    (h3 : pos ≤ (len : Rat)) :
    max (elementAngles p len x).1.1 0 ≤ angleAt p.direction 0 len pos ∧ angleAt p.direction 0 len pos ≤ (elementAngles p len x).1.2 ∧
    (0 ≤ angleAt p.direction 0 len pos ∧ angleAt p.direction 0 len pos ≤ 1) := by
  have hL : (0 : Rat) < (len : Rat) := by exact_mod_cast h0
  have hs0 : (0 : Rat) ≤ (x.start : Rat) := Nat.cast_nonneg _
  have d1 : (x.start : Rat) / (len : Rat) ≤ pos / (len : Rat) := div_le_div_of_nonneg_right h1 (le_of_lt hL)
  have d2 : pos / (len : Rat) ≤ (x.stop : Rat) / (len : Rat) := div_le_div_of_nonneg_right h2 (le_of_lt hL)
  have d3 : pos / (len : Rat) ≤ 1 := by rw [div_le_iff₀ hL]; linarith
  have d0 : 0 ≤ (x.start : Rat) / (len : Rat) := div_nonneg hs0 (le_of_lt hL)
  unfold elementAngles
  simp only
  rw [hi]
  cases p.direction with
  | cw =>
    rw [orient_cw (by linarith)]
    unfold angleAt
    simp only
    exact ⟨max_le (by linarith) (by linarith), by linarith, by linarith, by linarith⟩
  | ccw =>
    rw [orient_ccw (by linarith)]
    unfold angleAt
    simp only
    exact ⟨max_le (by linarith) (by linarith), by linarith, by linarith, by linarith⟩

theorem adjust_at (dir : Turning) (len : Nat) (h0 : 0 < len) (pos : Rat) :
    dir.adjust (angleAt dir 0 len pos) = pos / (len : Rat) ∧ dir.adjust (angleAt dir 0 len pos) * (len : Rat) = pos := by
  have hL : (0 : Rat) < (len : Rat) := by exact_mod_cast h0
  have e : dir.adjust (angleAt dir 0 len pos) = pos / (len : Rat) := by
    cases dir <;> simp only [Turning.adjust, angleAt] <;> ring
  rw [e]
  exact ⟨rfl, div_mul_cancel₀ _ (ne_of_gt hL)⟩

/-- **C131 (the element, partial).** With the index at angle 0: at the angle of a position on a track, if the cylinder is found, the answer is the cylinder, the bit at the
position, and the smallest element that has that bit or ends before it, with its place among the elements and, for data, among the sectors; if the element has
the bit, the shape that is given contains the point.
Missing: other index angles, the angle 0 against the clock, tracks without cells (refuted below). -/
theorem C131_element_partial (d : Disk) (p : Params) (side : Nat) (g : Geometry) (search : Nat) (tp : TrackParams) (hs : side ≤ 1)
    (ht : p.trackParams (d.headMap side).length = .ok tp) (hi : p.indexAngle = 0) (hg : p.gap ≤ 1) (dist : Rat) (hd : tp.minRadius ≤ dist ∧ dist ≤ tp.maxRadius) (c : Nat)
    (hc : hitCylinder tp dist = c) (k : Nat) (hk : (d.headMap side)[c]? = some k) (dt : DiskTrack) (hp : d.pool[k]? = some dt) (t : Track) (hst : streamOf dt = some t)
    (ho : Ordered t.items) (pos : Rat) (h0 : 0 ≤ pos) (hl : pos < (lenOf t : Rat)) :
    ∃ r, Viz.hitTest d p side g dist (angleAt p.direction 0 (lenOf t) pos) search = .ok r ∧ r.track = c ∧ (r.bitIndex : Int) = pos.floor ∧
      (r.drawn = none ↔ ∀ x ∈ t.items, ¬ Touches x r.bitIndex) ∧
      ∀ s, r.drawn = some s → ∃ x i, t.items[i]? = some x ∧ Smallest t.items (fun y => Touches y r.bitIndex) x ∧ s.elem = some x.elem ∧ s.chsn = x.chsn ∧
        s.range = some (x.start, x.stop) ∧ s.elementIdx = some i ∧ s.cyl = c ∧ s.head = side ∧
        (∀ j, r.sectorIndex = some j ↔ x.elem.isData = true ∧ j = (t.items.take i).countP (·.elem.isData)) ∧
        (Covers x r.bitIndex → (tp.radii c).2.2 ≤ dist ∧ dist ≤ (tp.radii c).1 → InShape s.shape dist (angleAt p.direction 0 (lenOf t) pos)) := by
  have hlen : 0 < lenOf t := by
    rcases Nat.eq_zero_or_pos (lenOf t) with e | e
    · rw [e] at hl
      have : ((0 : Nat) : Rat) = 0 := rfl
      rw [this] at hl
      linarith
    · exact e
  obtain ⟨g1, g2, g3, g4, g5, g6, g7, g8, g9, g10, g11⟩ := trackParams_ok ht
  obtain ⟨a1, a2⟩ := adjust_at p.direction (lenOf t) hlen pos
  have hfl : (0 : Int) ≤ pos.floor := by rw [Rat.le_floor_iff]; simpa using h0
  have hw : 0 ≤ tp.renderWidth := by
    rw [g10]
    split
    · exact mul_nonneg (le_of_lt g9) (by decide +kernel)
    · exact mul_nonneg (le_of_lt g9) (by linarith)
  obtain ⟨b1, b2⟩ := C114_hit_partial t.items ho (pos.floor.toNat) search
  unfold Viz.hitTest
  rw [if_neg (by omega), ht]
  simp only
  rw [if_neg (by rintro (h | h) <;> linarith [hd.1, hd.2]), hc, hk]
  simp only [Option.bind_some]
  rw [hp]
  simp only
  rw [hst]
  simp only
  rw [a2]
  cases hh : S34.hitTest t.items pos.floor.toNat search with
  | none =>
    refine ⟨_, rfl, rfl, Int.toNat_of_nonneg hfl, ⟨fun _ => b1.1 hh, fun _ => rfl⟩, fun s h => by cases h⟩
  | some xi =>
    obtain ⟨x, i⟩ := xi
    obtain ⟨c1, c2⟩ := b2 x i hh
    refine ⟨_, rfl, rfl, Int.toNat_of_nonneg hfl, ⟨(fun h => by cases h), fun h => absurd c2.2.1 (h x c2.1)⟩, fun s h => ?_⟩
    injection h with h
    subst h
    refine ⟨x, i, c1, c2, rfl, rfl, rfl, rfl, rfl, rfl, fun j => ?_, fun hcov hring => ?_⟩
    · rw [(C114_sector_index t i j).1]
      constructor
      · rintro ⟨y, hy, h1, h2⟩
        rw [c1] at hy; injection hy with hy; subst hy; exact ⟨h1, h2⟩
      · rintro ⟨h1, h2⟩; exact ⟨x, c1, h1, h2⟩
    · have hcov : x.start ≤ pos.floor.toNat ∧ pos.floor.toNat < x.stop := hcov
      have p1 : (x.start : Rat) ≤ pos := by
        have : (x.start : Int) ≤ pos.floor := by omega
        rw [Rat.le_floor_iff, Int.cast_natCast] at this
        exact this
      have p2 : pos ≤ (x.stop : Rat) := by
        have : pos.floor < (x.stop : Int) := by omega
        rw [Rat.floor_lt_iff, Int.cast_natCast] at this
        exact le_of_lt this
      obtain ⟨w1, w2, w3⟩ := angle_within (p := p) hi hlen x pos p1 p2 (le_of_lt hl)
      exact inShape_selection ht g c _ _ _ _ hring ⟨w1, w2⟩

/-- **C131 fails** against the clock at the angle 0, where the index is: the bit that is answered is the one behind the last of the track. -/
theorem C131_false_index (d : Disk) (p : Params) (side : Nat) (g : Geometry) (dist : Rat) (search : Nat) (r : Viz.Hit) (hdir : p.direction = .ccw)
    (h : Viz.hitTest d p side g dist 0 search = .ok r) (hr : r.bitIndex ≠ 0) :
    ∃ k dt t, (d.headMap side)[r.track]? = some k ∧ d.pool[k]? = some dt ∧ streamOf dt = some t ∧ r.bitIndex = lenOf t := by
  unfold Viz.hitTest at h
  rw [ite_eq_iff] at h
  rcases h with ⟨_, h⟩ | ⟨_, h⟩
  · cases h
  cases htp : p.trackParams (d.headMap side).length with
  | error e => rw [htp] at h; cases h
  | ok tp =>
    rw [htp] at h
    simp only at h
    rw [ite_eq_iff] at h
    rcases h with ⟨_, h⟩ | ⟨_, h⟩
    · injection h with h; subst h; exact absurd rfl hr
    cases hk : (d.headMap side)[hitCylinder tp dist]? with
    | none => rw [hk] at h; simp only [Option.bind_none] at h; injection h with h; subst h; exact absurd rfl hr
    | some k =>
      rw [hk] at h
      simp only [Option.bind_some] at h
      cases hp : d.pool[k]? with
      | none => rw [hp] at h; simp only at h; injection h with h; subst h; exact absurd rfl hr
      | some dt =>
        rw [hp] at h
        simp only at h
        cases hst : streamOf dt with
        | none => rw [hst] at h; cases h
        | some t =>
          rw [hst] at h
          simp only at h
          have e : (p.direction.adjust 0 * (lenOf t : Rat)).floor.toNat = lenOf t := by
            rw [hdir]
            simp only [Turning.adjust]
            rw [sub_zero, one_mul]
            have : ((lenOf t : Rat)) = ((lenOf t : Int) : Rat) := (Int.cast_natCast _).symm
            rw [this, Rat.floor_intCast]
            rfl
          rw [e] at h
          split at h
          · injection h with h; subst h; exact ⟨k, dt, t, hk, hp, hst, rfl⟩
          · injection h with h; subst h; exact ⟨k, dt, t, hk, hp, hst, rfl⟩

/-- **C131 fails** for other index angles, with the clock: at the angle at which a position is drawn, the bit that is answered lies the index angle further on. -/
theorem C131_false_angle (d : Disk) (p : Params) (side : Nat) (g : Geometry) (search : Nat) (tp : TrackParams) (hs : side ≤ 1)
    (ht : p.trackParams (d.headMap side).length = .ok tp) (hdir : p.direction = .cw) (hg : p.gap ≤ 1) (dist : Rat) (hd : tp.minRadius ≤ dist ∧ dist ≤ tp.maxRadius) (c : Nat)
    (hc : hitCylinder tp dist = c) (k : Nat) (hk : (d.headMap side)[c]? = some k) (dt : DiskTrack) (hp : d.pool[k]? = some dt) (t : Track) (hst : streamOf dt = some t)
    (hlen : 0 < lenOf t) (pos : Nat) :
    ∃ r, Viz.hitTest d p side g dist (angleAt .cw p.indexAngle (lenOf t) (pos : Rat)) search = .ok r ∧
      r.bitIndex = ((pos : Rat) + p.indexAngle * (lenOf t : Rat)).floor.toNat := by
  have hL : (0 : Rat) < (lenOf t : Rat) := by exact_mod_cast hlen
  obtain ⟨g1, g2, g3, g4, g5, g6, g7, g8, g9, g10, g11⟩ := trackParams_ok ht
  have hw : 0 ≤ tp.renderWidth := by
    rw [g10]
    split
    · exact mul_nonneg (le_of_lt g9) (by decide +kernel)
    · exact mul_nonneg (le_of_lt g9) (by linarith)
  have e : p.direction.adjust (angleAt .cw p.indexAngle (lenOf t) (pos : Rat)) * (lenOf t : Rat) = (pos : Rat) + p.indexAngle * (lenOf t : Rat) := by
    rw [hdir]
    simp only [Turning.adjust, angleAt]
    rw [add_mul, div_mul_cancel₀ _ (ne_of_gt hL)]
  unfold Viz.hitTest
  rw [if_neg (by omega), ht]
  simp only
  rw [if_neg (by rintro (h | h) <;> linarith [hd.1, hd.2]), hc, hk]
  simp only [Option.bind_some]
  rw [hp]
  simp only
  rw [hst]
  simp only
  rw [e]
  split
  · exact ⟨_, rfl, rfl⟩
  · exact ⟨_, rfl, rfl⟩

/-- **C131 fails** on lists of sectors and on flux that is not decoded: a hit test on one panics. -/
theorem C131_false_sectors (d : Disk) (p : Params) (side : Nat) (g : Geometry) (search : Nat) (tp : TrackParams) (hs : side ≤ 1)
    (ht : p.trackParams (d.headMap side).length = .ok tp) (hg : p.gap ≤ 1) (dist angle : Rat) (hd : tp.minRadius ≤ dist ∧ dist ≤ tp.maxRadius) (k : Nat)
    (hk : (d.headMap side)[hitCylinder tp dist]? = some k) (dt : DiskTrack) (hp : d.pool[k]? = some dt) (hst : streamOf dt = none) :
    Viz.hitTest d p side g dist angle search = .error .panic := by
  obtain ⟨g1, g2, g3, g4, g5, g6, g7, g8, g9, g10, g11⟩ := trackParams_ok ht
  have hw : 0 ≤ tp.renderWidth := by
    rw [g10]
    split
    · exact mul_nonneg (le_of_lt g9) (by decide +kernel)
    · exact mul_nonneg (le_of_lt g9) (by linarith)
  unfold Viz.hitTest
  rw [if_neg (by omega), ht]
  simp only
  rw [if_neg (by rintro (h | h) <;> linarith [hd.1, hd.2]), hk]
  simp only [Option.bind_some]
  rw [hp]
  simp only
  rw [hst]

/-- **C131 (outside).** Inside the inner radius and more than half a ring outside the outer, nothing is found. -/
theorem C131_outside (d : Disk) (p : Params) (side : Nat) (g : Geometry) (search : Nat) (tp : TrackParams) (hs : side ≤ 1)
    (ht : p.trackParams (d.headMap side).length = .ok tp) (dist angle : Rat) (hd : dist < tp.minRadius ∨ tp.maxRadius + tp.renderWidth * (1/2) < dist) :
    ∃ r, Viz.hitTest d p side g dist angle search = .ok r ∧ r.drawn = none ∧ r.sectorIndex = none := by
  unfold Viz.hitTest
  rw [if_neg (by omega), ht]
  simp only
  rw [if_pos (by tauto)]
  exact ⟨_, rfl, rfl, rfl⟩

/-! ## Selections -/

theorem data_not_marker {e : Elem} (h : e.isData = true) : isMarker e = false := by
  cases e <;> first | rfl | simp [Elem.isData] at h

theorem selectLoop_spec (s : Nat) : ∀ (l : List Inst) (i k : Nat), k < s → k + l.countP (·.elem.isData) < 256 →
    (selectLoop s i k l = none ∧ k + l.countP (·.elem.isData) < s) ∨
    ∃ m x, l[m]? = some x ∧ x.elem.isData = true ∧ k + (l.take m).countP (·.elem.isData) + 1 = s ∧ selectLoop s i k l = some (i + m, x, s)
  | [], i, k, h, _ => Or.inl ⟨rfl, by simpa using h⟩
  | y :: l, i, k, h, hlt => by
    by_cases hy : y.elem.isData = true
    · rw [List.countP_cons_of_pos (by simpa using hy)] at hlt
      have hm := data_not_marker hy
      have hk : (k + 1) % 256 = k + 1 := Nat.mod_eq_of_lt (by omega)
      by_cases he : k + 1 < s
      · have step : selectLoop s i k (y :: l) = selectLoop s (i + 1) (k + 1) l := by
          rw [selectLoop]
          simp only [hy, if_true, hk, hm, Bool.false_eq_true, if_false]
          rw [if_pos (Or.inr he)]
        rw [step, List.countP_cons_of_pos (by simpa using hy)]
        rcases selectLoop_spec s l (i + 1) (k + 1) he (by omega) with ⟨h1, h2⟩ | ⟨m, x, h1, h2, h3, h4⟩
        · exact Or.inl ⟨h1, by omega⟩
        · refine Or.inr ⟨m + 1, x, by simpa using h1, h2, ?_, by rw [h4]; congr 2; omega⟩
          rw [List.take_succ_cons, List.countP_cons_of_pos (by simpa using hy)]
          omega
      · refine Or.inr ⟨0, y, rfl, hy, by simp; omega, ?_⟩
        rw [selectLoop]
        simp only [hy, if_true, hk, hm, Bool.false_eq_true, if_false]
        rw [if_neg (by simp; omega)]
        congr 3
        omega
    · have hy' : y.elem.isData = false := by simpa using hy
      rw [List.countP_cons_of_neg (by simpa using hy)] at hlt ⊢
      have step : selectLoop s i k (y :: l) = selectLoop s (i + 1) k l := by
        rw [selectLoop]
        simp only [hy', Bool.false_eq_true, if_false]
        split
        · rfl
        · rw [if_pos (Or.inl trivial)]
      rw [step]
      rcases selectLoop_spec s l (i + 1) k h hlt with ⟨h1, h2⟩ | ⟨m, x, h1, h2, h3, h4⟩
      · exact Or.inl ⟨h1, h2⟩
      · refine Or.inr ⟨m + 1, x, by simpa using h1, h2, ?_, by rw [h4]; congr 2; omega⟩
        rw [List.take_succ_cons, List.countP_cons_of_neg (by simpa using hy)]
        exact h3

/-- What a selection does on a track with cells. -/
theorem selection_eq {d : Disk} {p : Params} {tr : Bool} {ch : Ch} {s : Nat} {g : Geometry} {tp : TrackParams} (hh : ch.h ≤ 1)
    (ht : p.trackParams (d.headMap ch.h).length = .ok tp) {k : Nat} (hk : (d.headMap ch.h)[ch.c]? = some k) {dt : DiskTrack} (hp : d.pool[k]? = some dt)
    {t : Track} (hst : streamOf dt = some t) (hl : ch.c < p.trackLimit.getD maxCylinder) :
    selection d p tr ch s g = .ok (match selectLoop s 0 0 t.items with
      | none => DisplayList.new tp.numTracks
      | some (i, x, k) => (DisplayList.new tp.numTracks).push 0
          { shape := selectionShape g tp ch.c (max (elementAngles p (lenOf t) x).1.1 0, min (elementAngles p (lenOf t) x).1.2 1) (elementAngles p (lenOf t) x).2,
            elem := some x.elem, cyl := ch.c, head := ch.h, chsn := x.chsn, elementIdx := some i, sectorIdx := some k }) ∧ ch.c < tp.numTracks := by
  obtain ⟨g1, g2, g3, _⟩ := trackParams_ok ht
  have hlt : ch.c < (d.headMap ch.h).length := by
    rcases Nat.lt_or_ge ch.c (d.headMap ch.h).length with h | h
    · exact h
    · rw [List.getElem?_eq_none h] at hk; cases hk
  refine ⟨?_, by omega⟩
  unfold selection
  rw [if_neg (by omega), ht]
  simp only
  rw [hk]
  simp only [Option.bind_some]
  rw [hp]
  simp only [Option.bind_some]
  rw [hst]
  simp only
  rw [← g2, if_neg (by omega), if_neg (by omega)]
  cases selectLoop s 0 0 t.items with
  | none => rfl
  | some x => rfl

/-- **C132 (partial).** With the index at angle 0: selecting the sector `s`, counted from 1, of a track of cells with fewer than 256 sectors gives a list with one element, the
data of the `s`-th sector of the track, on the ring of the track, over all its positions; with no `s`-th sector, an empty list.
Missing: where the element is in the list, the sector 0, whole tracks, other cylinders and tracks (refuted below). -/
theorem C132_selected_partial (d : Disk) (p : Params) (tr : Bool) (ch : Ch) (s : Nat) (g : Geometry) (tp : TrackParams) (hh : ch.h ≤ 1)
    (ht : p.trackParams (d.headMap ch.h).length = .ok tp) (k : Nat) (hk : (d.headMap ch.h)[ch.c]? = some k) (dt : DiskTrack) (hp : d.pool[k]? = some dt)
    (t : Track) (hst : streamOf dt = some t) (hl : ch.c < p.trackLimit.getD maxCylinder) (hi : p.indexAngle = 0) (hs : 0 < s)
    (hct : t.items.countP (·.elem.isData) < 256) :
    ∃ dl, selection d p tr ch s g = .ok dl ∧
      (t.items.countP (·.elem.isData) < s → dl.tracks.flatten = []) ∧
      (s ≤ t.items.countP (·.elem.isData) → ∃ i x y, t.items[i]? = some x ∧ x.elem.isData = true ∧ (t.items.take i).countP (·.elem.isData) + 1 = s ∧
        dl.tracks.flatten = [y] ∧ y.elem = some x.elem ∧ y.chsn = x.chsn ∧ y.cyl = ch.c ∧ y.head = ch.h ∧ y.elementIdx = some i ∧ y.sectorIdx = some s ∧
        ∀ pos rad : Rat, (x.start : Rat) ≤ pos → pos ≤ (x.stop : Rat) → pos ≤ (lenOf t : Rat) → 0 < lenOf t → (tp.radii ch.c).2.2 ≤ rad ∧ rad ≤ (tp.radii ch.c).1 →
          InShape y.shape rad (angleAt p.direction 0 (lenOf t) pos)) := by
  obtain ⟨e, hn⟩ := selection_eq (tr := tr) (s := s) (g := g) hh ht hk hp hst hl
  have hrep : ∀ n, (List.replicate n ([] : List Drawn)).flatten = [] := by intro n; simp
  rcases selectLoop_spec s t.items 0 0 hs (by omega) with ⟨h1, h2⟩ | ⟨m, x, h1, h2, h3, h4⟩
  · rw [h1] at e
    refine ⟨_, e, fun _ => hrep _, fun h => by omega⟩
  · rw [h4] at e
    have hle : (t.items.take m).countP (·.elem.isData) + 1 ≤ t.items.countP (·.elem.isData) := by
      have hmlt : m < t.items.length := by
        rcases Nat.lt_or_ge m t.items.length with h | h
        · exact h
        · rw [List.getElem?_eq_none h] at h1; cases h1
      have hx : t.items[m] = x := by rw [List.getElem?_eq_getElem hmlt] at h1; injection h1
      conv_rhs => rw [← List.take_append_drop m t.items, List.countP_append, List.drop_eq_getElem_cons hmlt, hx,
        List.countP_cons_of_pos (by simpa using h2)]
      omega
    refine ⟨_, e, fun h => by omega, fun _ => ⟨m, x,
      { shape := selectionShape g tp ch.c (max (elementAngles p (lenOf t) x).1.1 0, min (elementAngles p (lenOf t) x).1.2 1) (elementAngles p (lenOf t) x).2,
        elem := some x.elem, cyl := ch.c, head := ch.h, chsn := x.chsn, elementIdx := some (0 + m), sectorIdx := some s },
      h1, h2, by omega, ?_, rfl, rfl, rfl, rfl, by simp, rfl, ?_⟩⟩
    · simp only
      obtain ⟨n, hn'⟩ : ∃ n, tp.numTracks = n + 1 := ⟨tp.numTracks - 1, by omega⟩
      rw [hn']
      unfold DisplayList.push DisplayList.new
      rw [if_pos (by simp)]
      simp [List.replicate_succ, hrep]
    · intro pos rad q1 q2 q3 q4 hr
      obtain ⟨w1, w2, w3⟩ := angle_within (p := p) hi q4 x pos q1 q2 q3
      exact inShape_selection ht g ch.c _ _ _ _ hr ⟨w1, le_min w2 w3.2⟩

/-- **C132 (back from a hit).** What a hit test gives as the index of a sector, counted from 0, selects the same element, when counted from 1. -/
theorem C132_hit (t : Track) (i j : Nat) (h : S34.sectorIndex t.items i = some j) (hct : t.items.countP (·.elem.isData) < 256) :
    ∃ x, t.items[i]? = some x ∧ selectLoop (j + 1) 0 0 t.items = some (i, x, j + 1) := by
  obtain ⟨x, h1, h2, h3⟩ := (C114_sector_index t i j).1.1 h
  refine ⟨x, h1, ?_⟩
  have hcount : ∀ (l : List Inst) (a b : Nat) (y z : Inst), l[a]? = some y → l[b]? = some z → y.elem.isData = true → z.elem.isData = true →
      (l.take a).countP (·.elem.isData) = (l.take b).countP (·.elem.isData) → a = b := by
    intro l
    induction l with
    | nil => intro a b y z h; simp at h
    | cons w l ih =>
      intro a b y z ha hb hy hz hc
      cases a with
      | zero =>
        cases b with
        | zero => rfl
        | succ b =>
          exfalso
          simp at ha
          subst ha
          rw [List.take_succ_cons, List.countP_cons_of_pos (by simpa using hy)] at hc
          simp at hc
      | succ a =>
        cases b with
        | zero =>
          exfalso
          simp at hb
          subst hb
          rw [List.take_succ_cons, List.countP_cons_of_pos (by simpa using hz)] at hc
          simp at hc
        | succ b =>
          rw [List.take_succ_cons, List.take_succ_cons, List.countP_cons, List.countP_cons] at hc
          rw [ih a b y z (by simpa using ha) (by simpa using hb) hy hz (by omega)]
  rcases selectLoop_spec (j + 1) t.items 0 0 (by omega) (by omega) with ⟨_, g2⟩ | ⟨m, y, g1, g2, g3, g4⟩
  · exfalso
    have hmlt : i < t.items.length := by
      rcases Nat.lt_or_ge i t.items.length with h | h
      · exact h
      · rw [List.getElem?_eq_none h] at h1; cases h1
    have hx : t.items[i] = x := by rw [List.getElem?_eq_getElem hmlt] at h1; injection h1
    have e : t.items.countP (·.elem.isData) = (t.items.take i).countP (·.elem.isData) + ((t.items.drop i).countP (·.elem.isData)) := by
      rw [← List.countP_append, List.take_append_drop]
    rw [List.drop_eq_getElem_cons hmlt, hx, List.countP_cons_of_pos (by simpa using h2)] at e
    omega
  · have := hcount t.items m i y x g1 h1 g2 h2 (by omega)
    subst this
    rw [h1] at g1
    injection g1 with g1
    subst g1
    rw [g4]
    congr 2
    omega

theorem selectLoop_zero : ∀ (l : List Inst) (i k : Nat), k + l.countP (·.elem.isData) < 256 → selectLoop 0 i k l = selectLoop 1 i k l
  | [], _, _, _ => rfl
  | y :: l, i, k, h => by
    rw [selectLoop, selectLoop]
    by_cases hy : y.elem.isData = true
    · rw [List.countP_cons_of_pos (by simpa using hy)] at h
      have hk : (k + 1) % 256 = k + 1 := Nat.mod_eq_of_lt (by omega)
      simp only [hy, if_true, hk, data_not_marker hy, Bool.false_eq_true, if_false]
      rw [if_neg (by simp), if_neg (by simp)]
    · have hy' : y.elem.isData = false := by simpa using hy
      rw [List.countP_cons_of_neg (by simpa using hy)] at h
      simp only [hy', Bool.false_eq_true, if_false]
      rw [selectLoop_zero l (i + 1) k h, if_pos (Or.inl trivial), if_pos (Or.inl trivial)]

/-- **C132 fails** for the sector 0: it selects the first sector, as 1 does. -/
theorem C132_false_zero (d : Disk) (p : Params) (tr : Bool) (ch : Ch) (g : Geometry) (tp : TrackParams) (hh : ch.h ≤ 1)
    (ht : p.trackParams (d.headMap ch.h).length = .ok tp) (k : Nat) (hk : (d.headMap ch.h)[ch.c]? = some k) (dt : DiskTrack) (hp : d.pool[k]? = some dt)
    (t : Track) (hst : streamOf dt = some t) (hl : ch.c < p.trackLimit.getD maxCylinder) (hct : t.items.countP (·.elem.isData) < 256) :
    selection d p tr ch 0 g = selection d p tr ch 1 g := by
  rw [(selection_eq hh ht hk hp hst hl).1, (selection_eq hh ht hk hp hst hl).1, selectLoop_zero t.items 0 0 (by omega)]

/-- **C132 fails** for whole tracks: selecting one gives what selecting a sector does. -/
theorem C132_false_track (d : Disk) (p : Params) (ch : Ch) (s : Nat) (g : Geometry) : selection d p true ch s g = selection d p false ch s g := rfl

/-- **C132 fails** for the place in the list: whatever is selected, only the first track of the list has anything. -/
theorem C132_false_place (d : Disk) (p : Params) (tr : Bool) (ch : Ch) (s : Nat) (g : Geometry) (dl : DisplayList Drawn) (h : selection d p tr ch s g = .ok dl) (c : Nat)
    (hc : 0 < c) (l : List Drawn) (hl : dl.items c = some l) : l = [] := by
  have hrep : ∀ n (l : List Drawn), (List.replicate n ([] : List Drawn))[c]? = some l → l = [] := by
    intro n l h
    rw [List.getElem?_replicate] at h
    split at h
    · injection h with h; exact h.symm
    · cases h
  have key : ∀ n, dl = DisplayList.new n ∨ (∃ y, dl = (DisplayList.new n).push 0 y) → l = [] := by
    intro n hd
    rcases hd with hd | ⟨y, hd⟩
    · subst hd; exact hrep n l hl
    · subst hd
      unfold DisplayList.push DisplayList.items at hl
      split at hl
      · simp only at hl
        rw [List.getElem?_modify] at hl
        have h0 : (0 = c) = False := by simp; omega
        simp only [h0, if_false] at hl
        exact hrep n l (by simpa [DisplayList.new] using hl)
      · exact hrep n l hl
  unfold selection at h
  rw [ite_eq_iff] at h
  rcases h with ⟨_, h⟩ | ⟨_, h⟩
  · cases h
  cases htp : p.trackParams (d.headMap ch.h).length with
  | error e => rw [htp] at h; cases h
  | ok tp =>
    rw [htp] at h
    simp only at h
    cases hst : (((d.headMap ch.h)[ch.c]?).bind (fun i => d.pool[i]?)).bind streamOf with
    | none => rw [hst] at h; cases h
    | some t =>
      rw [hst] at h
      simp only at h
      rw [ite_eq_iff] at h
      rcases h with ⟨_, h⟩ | ⟨_, h⟩
      · cases h
      rw [ite_eq_iff] at h
      rcases h with ⟨_, h⟩ | ⟨_, h⟩
      · cases h
      cases hsel : selectLoop s 0 0 t.items with
      | none => rw [hsel] at h; injection h with h; exact key _ (Or.inl h.symm)
      | some w => rw [hsel] at h; injection h with h; exact key _ (Or.inr ⟨_, h.symm⟩)

/-- **C132 fails** for cylinders beyond the disk: it panics instead of answering that the parameter is invalid. -/
theorem C132_false_cylinder (d : Disk) (p : Params) (tr : Bool) (ch : Ch) (s : Nat) (g : Geometry) (tp : TrackParams)
    (ht : p.trackParams (d.headMap ch.h).length = .ok tp) (hc : (d.headMap ch.h).length ≤ ch.c) : selection d p tr ch s g = .error .panic := by
  unfold selection
  rw [ht, List.getElem?_eq_none hc]
  split <;> rfl

/-- **C132.** A cylinder of the disk that lies at or beyond the limit cannot be selected: the parameter is said to be invalid. -/
theorem C132_limit (d : Disk) (p : Params) (tr : Bool) (ch : Ch) (s : Nat) (g : Geometry) (tp : TrackParams) (hh : ch.h ≤ 1)
    (ht : p.trackParams (d.headMap ch.h).length = .ok tp) (k : Nat) (hk : (d.headMap ch.h)[ch.c]? = some k) (dt : DiskTrack) (hp : d.pool[k]? = some dt)
    (t : Track) (hst : WithCells dt t) (l : Nat) (hl : p.trackLimit = some l) (h0 : 0 < l) (hc : l ≤ ch.c) :
    selection d p tr ch s g = .error .invalid := by
  have hlen : ch.c < (d.headMap ch.h).length := (List.getElem?_eq_some_iff.1 hk).1
  unfold selection
  rw [if_neg (by omega), ht, hk]
  simp only [Option.bind_some]
  rw [hp]
  simp only [Option.bind_some]
  rw [(streamOf_iff dt t).2 hst, hl]
  simp only [Option.getD_some]
  rw [if_neg (by omega), if_pos (by omega)]

/-- **C132 fails** for lists of sectors: selecting on one panics. -/
theorem C132_false_sectors (d : Disk) (p : Params) (tr : Bool) (ch : Ch) (s : Nat) (g : Geometry) (tp : TrackParams)
    (ht : p.trackParams (d.headMap ch.h).length = .ok tp) (k : Nat) (hk : (d.headMap ch.h)[ch.c]? = some k) (dt : DiskTrack) (hp : d.pool[k]? = some dt)
    (hst : streamOf dt = none) : selection d p tr ch s g = .error .panic := by
  unfold selection
  rw [ht, hk]
  simp only [Option.bind_some]
  rw [hp]
  simp only [Option.bind_some]
  rw [hst]
  split <;> rfl

theorem exViz_items (x : Inst) : (exVizTrack x).items = [x] := rfl

/-- The disk of one track with one sector: both theorems apply, and they agree. -/
example : (∃ dl y, selection (exVizDisk ⟨.data ⟨0, 0, 1, 2⟩ false false false, 100, 250, none, false⟩) {} false ⟨0, 0⟩ 1 .arc = .ok dl ∧ dl.tracks.flatten = [y] ∧
      y.elementIdx = some 0) ∧
    ∃ r s, Viz.hitTest (exVizDisk ⟨.data ⟨0, 0, 1, 2⟩ false false false, 100, 250, none, false⟩) {} 0 .arc (1/4)
      (angleAt .ccw 0 1000 200) 0 = .ok r ∧ r.bitIndex = 200 ∧ r.drawn = some s ∧ s.elementIdx = some 0 ∧ r.sectorIndex = some 0 := by
  have hlen := exViz_len ⟨.data ⟨0, 0, 1, 2⟩ false false false, 100, 250, none, false⟩
  constructor
  · obtain ⟨dl, h1, _, h3⟩ := C132_selected_partial (exVizDisk ⟨.data ⟨0, 0, 1, 2⟩ false false false, 100, 250, none, false⟩) {} false ⟨0, 0⟩ 1 .arc _ (by decide)
      exViz_tp 0 rfl _ rfl _ rfl (by decide) rfl (by decide) (by decide)
    obtain ⟨i, x, y, q1, q2, q3, q4, q5, q6, q7, q8, q9, q10, _⟩ := h3 (by decide)
    have hi : i = 0 := by
      cases i with
      | zero => rfl
      | succ i => rw [exViz_items] at q1; simp at q1
    exact ⟨dl, y, h1, q4, by rw [q9, hi]⟩
  · obtain ⟨r, h1, h2, h3, h4, h5⟩ := C131_element_partial (exVizDisk ⟨.data ⟨0, 0, 1, 2⟩ false false false, 100, 250, none, false⟩) {} 0 .arc 0 _ (by decide)
      exViz_tp rfl (by decide +kernel) (1/4) (by constructor <;> decide +kernel) 0 (by decide +kernel) 0 rfl _ rfl _ rfl (by rw [exViz_items]; simp [Ordered]) 200 (by decide +kernel)
      (by rw [hlen]; decide +kernel)
    rw [hlen] at h1
    have hb : r.bitIndex = 200 := by
      have : (200 : Rat).floor = 200 := by decide +kernel
      rw [this] at h3; omega
    cases hd : r.drawn with
    | none =>
      exfalso
      have := h4.1 hd ⟨.data ⟨0, 0, 1, 2⟩ false false false, 100, 250, none, false⟩ (by rw [exViz_items]; exact List.mem_singleton.2 rfl)
      rw [hb] at this
      exact this (by unfold Touches; decide)
    | some s =>
      obtain ⟨x, i, q1, q2, q3, q4, q5, q6, q7, q8, q9, _⟩ := h5 s hd
      have hi : i = 0 := by
        cases i with
        | zero => rfl
        | succ i => rw [exViz_items] at q1; simp at q1
      subst hi
      refine ⟨r, s, h1, hb, hd, q6, (q9 0).2 ⟨?_, rfl⟩⟩
      rw [exViz_items] at q1
      simp at q1
      subst q1
      rfl

end Fox
