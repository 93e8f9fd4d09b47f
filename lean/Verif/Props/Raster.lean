import Verif.Spec.Raster
import Mathlib.Algebra.Order.Field.Rat
import Mathlib.Algebra.Order.Field.Basic
import Mathlib.Tactic.Linarith
import Mathlib.Tactic.Ring
/-
C148: the raster picture of the data of a disk.
-/
namespace Fox
open Viz Viz.Raster Spec

/-- The remainder of a number that is not negative is the part after the point. -/
theorem frem_eq {x f : Rat} {k : Int} (h : x = f + (k : Rat)) (hk : 0 ≤ k) (h0 : 0 ≤ f) (h1 : f < 1) : frem x = f := by
  have hx : 0 ≤ x := by
    rw [h]
    have : (0 : Rat) ≤ (k : Rat) := by exact_mod_cast hk
    linarith
  have hfl : x.floor = k := by
    have a : k ≤ x.floor := by rw [Rat.le_floor_iff, h]; linarith
    have b : x.floor < k + 1 := by
      rw [Rat.floor_lt_iff, h]
      push_cast; linarith
    omega
  unfold frem
  rw [if_pos hx, hfl, h]
  ring

theorem turn_frem {turn : Rat} (h : -(1/2) < turn) (h2 : turn ≤ 1/2) : ∃ j : Int, (j = 0 ∨ j = -1) ∧ frem (turn + 1/2) = turn + 1/2 + (j : Rat) := by
  by_cases e : turn = 1/2
  · refine ⟨-1, Or.inr rfl, ?_⟩
    rw [frem_eq (f := 0) (k := 1) (by rw [e]; norm_num) (by decide) le_rfl (by norm_num), e]
    norm_num
  · refine ⟨0, Or.inl rfl, ?_⟩
    have : turn < 1/2 := lt_of_le_of_ne h2 e
    rw [frem_eq (f := turn + 1/2) (k := 0) (by norm_num) (by decide) (by linarith) (by linarith)]
    norm_num

theorem floor_mod {len : Nat} {pos : Rat} (h0 : 0 ≤ pos) (hl : pos < (len : Rat)) : (pos / (len : Rat) * (len : Rat)).floor.toNat % len = pos.floor.toNat := by
  have hlen : (0 : Rat) < (len : Rat) := lt_of_le_of_lt h0 hl
  rw [div_mul_cancel₀ _ (ne_of_gt hlen)]
  have a : 0 ≤ pos.floor := by rw [Rat.le_floor_iff]; simpa using h0
  have b : pos.floor < (len : Int) := by rw [Rat.floor_lt_iff, Int.cast_natCast]; exact hl
  rw [Nat.mod_eq_of_lt (by omega)]

/-- The bit under a pixel, from the fraction of a turn that is left. -/
theorem bitIndex_eq (p : Params) {turn : Rat} (h : -(1/2) < turn) (h2 : turn ≤ 1/2) (len : Nat) (pos : Rat) (h0 : 0 ≤ pos) (hl : pos < (len : Rat)) (k : Int)
    (hk : (match p.direction with | .cw => turn - p.indexAngle | .ccw => p.indexAngle - turn) = pos / (len : Rat) + (k : Rat))
    (hnn : match p.direction with | .cw => p.indexAngle ≤ 1/2 | .ccw => 0 ≤ p.indexAngle) : bitIndex p turn len = pos.floor.toNat := by
  obtain ⟨j, hj, e⟩ := turn_frem h h2
  have hlen : (0 : Rat) < (len : Rat) := lt_of_le_of_lt h0 hl
  have f0 : 0 ≤ pos / (len : Rat) := div_nonneg h0 (le_of_lt hlen)
  have f1 : pos / (len : Rat) < 1 := by rw [div_lt_one hlen]; exact hl
  have hr : 0 ≤ turn + 1/2 + (j : Rat) := by
    rcases hj with rfl | rfl
    · push_cast; linarith
    · rw [← e]
      unfold frem
      rw [if_pos (by linarith)]
      have := Rat.floor_le (turn + 1/2)
      linarith
  have hr1 : turn + 1/2 + (j : Rat) ≤ 1 := by
    rcases hj with rfl | rfl <;> push_cast <;> linarith
  unfold bitIndex
  simp only [e]
  cases hd : p.direction with
  | cw =>
    rw [hd] at hk hnn
    simp only at hk hnn ⊢
    have hx : turn + 1/2 + (j : Rat) - p.indexAngle + 1/2 = pos / (len : Rat) + ((k + j + 1 : Int) : Rat) := by
      push_cast; linarith
    have hk0 : 0 ≤ k + j + 1 := by
      by_contra hc
      have : ((k + j + 1 : Int) : Rat) ≤ -1 := by
        have : k + j + 1 ≤ -1 := by omega
        exact_mod_cast this
      linarith
    rw [frem_eq hx hk0 f0 f1]
    exact floor_mod h0 hl
  | ccw =>
    rw [hd] at hk hnn
    simp only at hk hnn ⊢
    have hx : 1 - (turn + 1/2 + (j : Rat) - p.indexAngle) + 1/2 = pos / (len : Rat) + ((k - j + 1 : Int) : Rat) := by
      push_cast; linarith
    have hk0 : 0 ≤ k - j + 1 := by
      by_contra hc
      have : ((k - j + 1 : Int) : Rat) ≤ -1 := by
        have : k - j + 1 ≤ -1 := by omega
        exact_mod_cast this
      linarith
    rw [frem_eq hx hk0 f0 f1]
    exact floor_mod h0 hl

/-- The ring a distance lies on, from the model's own arithmetic. -/
theorem ring_offset {inner total gap dist : Rat} {n c : Nat} (hc : c < n) (hlt : inner < total) (h0 : 0 ≤ gap) (h : OnRasterRing inner total gap n c dist) :
    inner ≤ dist ∧ dist ≤ total ∧ ((dist - inner) / ((total - inner) / (n : Rat))).floor = ((n - 1 - c : Nat) : Int) ∧
    gap ≤ frem ((dist - inner) / ((total - inner) / (n : Rat))) := by
  obtain ⟨h1, h2⟩ := h
  have hn : (0 : Rat) < (n : Rat) := by exact_mod_cast (by omega : 0 < n)
  have hw : 0 < (total - inner) / (n : Rat) := div_pos (by linarith) hn
  have hwn : (total - inner) / (n : Rat) * (n : Rat) = total - inner := div_mul_cancel₀ _ (ne_of_gt hn)
  have hcn : ((n - c : Nat) : Rat) = ((n - 1 - c : Nat) : Rat) + 1 := by
    have : n - c = n - 1 - c + 1 := by omega
    rw [this]; push_cast; rfl
  have hk : (0 : Rat) ≤ ((n - 1 - c : Nat) : Rat) := by exact_mod_cast Nat.zero_le _
  have hle : ((n - c : Nat) : Rat) ≤ (n : Rat) := by exact_mod_cast Nat.sub_le n c
  generalize hW : (total - inner) / (n : Rat) = W at *
  have a : ((n - 1 - c : Nat) : Rat) + gap ≤ (dist - inner) / W := by
    rw [le_div_iff₀ hw]; linarith [add_mul (((n - 1 - c : Nat) : Rat)) gap W]
  have b : (dist - inner) / W < ((n - 1 - c : Nat) : Rat) + 1 := by
    rw [div_lt_iff₀ hw, ← hcn]; linarith
  have hg : 0 ≤ gap * W := mul_nonneg h0 (le_of_lt hw)
  have hkw : 0 ≤ ((n - 1 - c : Nat) : Rat) * W := mul_nonneg hk (le_of_lt hw)
  have hmul : ((n - c : Nat) : Rat) * W ≤ (n : Rat) * W := mul_le_mul_of_nonneg_right hle (le_of_lt hw)
  refine ⟨by linarith, by linarith [mul_comm W (n : Rat)], ?_, ?_⟩
  · have x : ((n - 1 - c : Nat) : Int) ≤ ((dist - inner) / W).floor := by
      rw [Rat.le_floor_iff]; push_cast; linarith
    have y : ((dist - inner) / W).floor < ((n - 1 - c : Nat) : Int) + 1 := by
      rw [Rat.floor_lt_iff]; push_cast; linarith
    omega
  · rw [frem_eq (f := (dist - inner) / W - ((n - 1 - c : Nat) : Rat)) (k := ((n - 1 - c : Nat) : Int)) (by push_cast; ring) (by omega) (by linarith) (by linarith)]
    linarith

/-- What a pixel on a ring is given. -/
theorem pixel_ring {tracks : List Track} {p : Params} {total dist turn : Rat} {c : Nat} {t : Track}
    (hc : c < min tracks.length (p.trackLimit.getD maxCylinder)) (ht : tracks[c]? = some t) (hl : lenOf t ≠ 0)
    (hlt : p.innerRadius total (min tracks.length (p.trackLimit.getD maxCylinder)) < total) (hg : 0 ≤ p.gap)
    (h : OnRasterRing (p.innerRadius total (min tracks.length (p.trackLimit.getD maxCylinder))) total p.gap
      (min tracks.length (p.trackLimit.getD maxCylinder)) c dist) :
    pixel tracks p total dist turn = some (.bit (streamIndex t (bitIndex p turn (lenOf t)))) := by
  obtain ⟨a, b, f, g⟩ := ring_offset hc hlt hg h
  unfold pixel
  simp only
  rw [if_pos ⟨a, b⟩, if_neg (not_lt.2 g), f]
  have hcc : min tracks.length (p.trackLimit.getD maxCylinder) - 1 - ((min tracks.length (p.trackLimit.getD maxCylinder) - 1 - c : Nat) : Int).toNat = c := by
    omega
  rw [hcc, if_pos hc, ht]
  simp only
  rw [if_neg hl]

/-- **C148 (partial).** A pixel on the ring of a track, in the direction at which a position of the track passes in the vector picture, shows the bit at that
position as the stream counts its bits, if the disk turns with the clock and the index is no more than half a turn on, or the index is at 0.
Missing: the cell at that position (refuted: the stream counts pairs of cells), other indices (refuted), the resolution in bytes. -/
theorem C148_position_partial {tracks : List Track} {p : Params} {total dist turn pos : Rat} {c : Nat} {t : Track}
    (hc : c < min tracks.length (p.trackLimit.getD maxCylinder)) (ht : tracks[c]? = some t)
    (hlt : p.innerRadius total (min tracks.length (p.trackLimit.getD maxCylinder)) < total) (hg : 0 ≤ p.gap)
    (h : OnRasterRing (p.innerRadius total (min tracks.length (p.trackLimit.getD maxCylinder))) total p.gap
      (min tracks.length (p.trackLimit.getD maxCylinder)) c dist)
    (h1 : -(1/2) < turn) (h2 : turn ≤ 1/2) (h0 : 0 ≤ pos) (hl : pos < (lenOf t : Rat))
    (ha : SameAngle turn (angleAt p.direction p.indexAngle (lenOf t) pos)) (hi : (p.direction = .cw ∧ p.indexAngle ≤ 1/2) ∨ p.indexAngle = 0) :
    pixel tracks p total dist turn = some (.bit (streamIndex t pos.floor.toNat)) := by
  have hl0 : lenOf t ≠ 0 := by
    intro e
    rw [e] at hl
    have : (((0 : Nat) : Rat)) = 0 := rfl
    rw [this] at hl
    linarith
  rw [pixel_ring hc ht hl0 hlt hg h]
  obtain ⟨k, hk⟩ := ha
  have key : bitIndex p turn (lenOf t) = pos.floor.toNat := by
    cases hd : p.direction with
    | cw =>
      rw [hd] at hk
      simp only [angleAt] at hk
      refine bitIndex_eq p h1 h2 _ pos h0 hl k ?_ ?_
      · rw [hd]; simp only; linarith
      · rw [hd]; simp only
        rcases hi with ⟨_, hi⟩ | hi
        · exact hi
        · rw [hi]; norm_num
    | ccw =>
      rw [hd] at hk hi
      have hi0 : p.indexAngle = 0 := by
        rcases hi with ⟨hx, _⟩ | hi
        · cases hx
        · exact hi
      simp only [angleAt] at hk
      refine bitIndex_eq p h1 h2 _ pos h0 hl (-k - 1) ?_ ?_
      · rw [hd]; simp only; push_cast; linarith
      · rw [hd]; simp only; linarith
  rw [key]

/-- **C148 (the cells shown).** The bit of a number, as a stream counts, is one of the pair of cells of that number, wrapped around the end of the track: the
second if the clock map has the bit of that number set. -/
theorem C148_pair (t : Track) (i : Nat) (hw : t.data.bits.wrap = lenOf t) (hv : t.data.bits.wrapValue = none) :
    ∃ k < 2, streamIndex t i = t.data.bits.bits.getD ((2 * i + k) % lenOf t) false ∧ (k = 1 ↔ t.data.clockMap.bitAt i = true) := by
  unfold streamIndex
  generalize t.data.clockMap.bitAt i = b
  refine ⟨if b then 1 else 0, by split <;> omega, ?_, by cases b <;> simp⟩
  unfold BitRing.bitAt
  rw [hv, hw, Nat.add_comm _ (2 * i)]
  generalize 2 * i + (if b = true then 1 else 0) = j
  by_cases hlt : j < lenOf t
  · rw [if_pos hlt, Nat.mod_eq_of_lt hlt]
  · rw [if_neg hlt]

/-- **C148 (background).** Where no track can be, and only there, the picture is given its background. -/
theorem C148_outside (tracks : List Track) (p : Params) (total dist turn : Rat) :
    pixel tracks p total dist turn = some .background ↔
      dist < p.innerRadius total (min tracks.length (p.trackLimit.getD maxCylinder)) ∨ total < dist := by
  unfold pixel
  simp only
  split
  · rename_i h
    constructor
    · intro e
      split at e
      · cases e
      · split at e
        · split at e
          · cases e
          · split at e
            · cases e
            · simp at e
        · cases e
    · rintro (hx | hx)
      · exact absurd h.1 (not_le.2 hx)
      · exact absurd h.2 (not_le.2 hx)
  · rename_i h
    refine ⟨fun _ => ?_, fun _ => rfl⟩
    by_contra hx
    rw [not_or, not_lt, not_lt] at hx
    exact h ⟨hx.1, hx.2⟩

/-- **C148 (gaps).** The gaps between the tracks are left as they were. -/
theorem C148_gap {tracks : List Track} {p : Params} {total dist turn : Rat} {c : Nat} (hc : c < min tracks.length (p.trackLimit.getD maxCylinder))
    (hlt : p.innerRadius total (min tracks.length (p.trackLimit.getD maxCylinder)) < total) (hg1 : p.gap ≤ 1)
    (h : InGap (p.innerRadius total (min tracks.length (p.trackLimit.getD maxCylinder))) total p.gap
      (min tracks.length (p.trackLimit.getD maxCylinder)) c dist) : pixel tracks p total dist turn = none := by
  obtain ⟨a1, a2⟩ := h
  generalize hI : p.innerRadius total (min tracks.length (p.trackLimit.getD maxCylinder)) = inner at *
  have hnN : 0 < min tracks.length (p.trackLimit.getD maxCylinder) := by omega
  generalize hN : min tracks.length (p.trackLimit.getD maxCylinder) = n at *
  have hn : (0 : Rat) < (n : Rat) := by exact_mod_cast hnN
  have hw : 0 < (total - inner) / (n : Rat) := div_pos (by linarith) hn
  have hwn : (total - inner) / (n : Rat) * (n : Rat) = total - inner := div_mul_cancel₀ _ (ne_of_gt hn)
  have hk : (0 : Rat) ≤ ((n - 1 - c : Nat) : Rat) := by exact_mod_cast Nat.zero_le _
  have hle : ((n - 1 - c : Nat) : Rat) + 1 ≤ (n : Rat) := by
    have : ((n - 1 - c + 1 : Nat) : Rat) ≤ (n : Rat) := by exact_mod_cast (by omega : n - 1 - c + 1 ≤ n)
    push_cast at this; exact this
  unfold pixel
  simp only
  rw [hN, hI]
  generalize hW : (total - inner) / (n : Rat) = W at *
  have hkw : 0 ≤ ((n - 1 - c : Nat) : Rat) * W := mul_nonneg hk (le_of_lt hw)
  have hmul : (((n - 1 - c : Nat) : Rat) + 1) * W ≤ (n : Rat) * W := mul_le_mul_of_nonneg_right hle (le_of_lt hw)
  have hgw : p.gap * W ≤ 1 * W := mul_le_mul_of_nonneg_right hg1 (le_of_lt hw)
  rw [if_pos ⟨by linarith, by linarith [mul_comm W (n : Rat), add_mul (((n - 1 - c : Nat) : Rat)) 1 W]⟩]
  have x : ((n - 1 - c : Nat) : Rat) ≤ (dist - inner) / W := by rw [le_div_iff₀ hw]; linarith
  have y : (dist - inner) / W < ((n - 1 - c : Nat) : Rat) + p.gap := by
    rw [div_lt_iff₀ hw]; linarith [add_mul (((n - 1 - c : Nat) : Rat)) p.gap W]
  rw [frem_eq (f := (dist - inner) / W - ((n - 1 - c : Nat) : Rat)) (k := ((n - 1 - c : Nat) : Int)) (by push_cast; ring) (by omega) (by linarith) (by linarith), if_pos (by linarith)]

/-! ## The buffer -/

theorem paint_get {span xo yo : Nat} {color : Nat × Nat → Option Pix} {i : Nat} {r : Option Pix} :
    ∀ {ps : List (Nat × Nat)} {buf buf' : List Pix}, paint span xo yo color ps buf = .ok buf' →
      (∀ xy ∈ ps, (xy.2 + yo) * span + (xy.1 + xo) = i → color xy = r) →
      buf'.length = buf.length ∧
      (buf'[i]? = buf[i]? ∨ ∃ c, r = some c ∧ buf'[i]? = some c) ∧
      (∀ c, r = some c → (∃ xy ∈ ps, (xy.2 + yo) * span + (xy.1 + xo) = i) → buf'[i]? = some c)
  | [], buf, buf', h, _ => by
    simp only [paint, Except.ok.injEq] at h
    subst h
    exact ⟨rfl, .inl rfl, fun c _ ⟨_, hx, _⟩ => by simp at hx⟩
  | xy :: rest, buf, buf', h, hc => by
    have hrest : ∀ q ∈ rest, (q.2 + yo) * span + (q.1 + xo) = i → color q = r := fun q hq => hc q (List.mem_cons_of_mem _ hq)
    simp only [paint] at h
    cases hcol : color xy with
    | none =>
      rw [hcol] at h
      obtain ⟨hl, h1, h2⟩ := paint_get h hrest
      refine ⟨hl, h1, fun c hr ⟨q, hq, he⟩ => ?_⟩
      rcases List.mem_cons.1 hq with rfl | hq
      · have := hc _ (List.mem_cons_self ..) he
        rw [hcol, hr] at this
        cases this
      · exact h2 c hr ⟨q, hq, he⟩
    | some c0 =>
      rw [hcol] at h
      simp only at h
      split at h
      · rename_i hfit
        obtain ⟨hl, h1, h2⟩ := paint_get h hrest
        rw [List.length_set] at hl
        refine ⟨hl, ?_, fun c hr ⟨q, hq, he⟩ => ?_⟩
        · rcases h1 with h1 | h1
          · by_cases he : (xy.2 + yo) * span + (xy.1 + xo) = i
            · right
              refine ⟨c0, by rw [← hc _ (List.mem_cons_self ..) he, hcol], ?_⟩
              rw [h1, he, List.getElem?_set_self (by omega)]
            · left
              rw [h1, List.getElem?_set_ne he]
          · exact .inr h1
        · rcases List.mem_cons.1 hq with rfl | hq
          · have hr' := hc _ (List.mem_cons_self ..) he
            rw [hcol, hr] at hr'
            rcases h1 with h1 | ⟨c', hc', h1⟩
            · rw [h1, he, List.getElem?_set_self (by omega)]
              exact hr'
            · rw [h1, ← hc', hr]
          · exact h2 c hr ⟨q, hq, he⟩
      · cases h

theorem paint_ok {span xo yo : Nat} {color : Nat × Nat → Option Pix} :
    ∀ {ps : List (Nat × Nat)} {buf : List Pix}, (∀ xy ∈ ps, (xy.2 + yo) * span + (xy.1 + xo) < buf.length) → ∃ buf', paint span xo yo color ps buf = .ok buf'
  | [], buf, _ => ⟨buf, rfl⟩
  | xy :: rest, buf, h => by
    simp only [paint]
    cases color xy with
    | none => exact paint_ok fun q hq => h q (List.mem_cons_of_mem _ hq)
    | some c =>
      simp only
      rw [if_pos (h _ (List.mem_cons_self ..))]
      exact paint_ok fun q hq => by rw [List.length_set]; exact h q (List.mem_cons_of_mem _ hq)

theorem mem_places {w h : Nat} {xy : Nat × Nat} : xy ∈ places w h ↔ xy.1 < w ∧ xy.2 < h := by
  unfold places
  simp only [List.mem_flatMap, List.mem_map, List.mem_range]
  constructor
  · rintro ⟨y, hy, x, hx, rfl⟩; exact ⟨hx, hy⟩
  · rintro ⟨hx, hy⟩; exact ⟨xy.2, hy, xy.1, hx, rfl⟩

/-- **C148 (the rectangle).** A picture that fits in the buffer, in its width and its height, is drawn, and each of its pixels is what it is given, or, in the
gaps, what it was; everything around it stays as it was. -/
theorem C148_rectangle (d : Disk) (side : Nat) (p : Params) (w h span xo yo : Nat) (polar : Rat → Rat → Rat × Rat) (buf : List Pix)
    (hs : side ≤ 1) (hn : collect d side ≠ []) (hlim : p.trackLimit ≠ some 0) (hw : w + xo ≤ span) (hh : (h + yo) * span ≤ buf.length) :
    ∃ buf', rasterize d side p w h span xo yo polar buf = .ok buf' ∧ buf'.length = buf.length ∧
      (∀ x < w, ∀ y < h, buf'[(y + yo) * span + (x + xo)]? =
        match pixel (collect d side) p (((min w h : Nat) : Rat) / 2)
            (polar ((x : Rat) - (w : Rat) / 2) ((y : Rat) - (h : Rat) / 2)).1 (polar ((x : Rat) - (w : Rat) / 2) ((y : Rat) - (h : Rat) / 2)).2 with
        | some c => some c
        | none => buf[(y + yo) * span + (x + xo)]?) ∧
      ∀ i, (∀ x < w, ∀ y < h, i ≠ (y + yo) * span + (x + xo)) → buf'[i]? = buf[i]? := by
  have hne : min (collect d side).length (p.trackLimit.getD maxCylinder) ≠ 0 := by
    have : 0 < (collect d side).length := List.length_pos_iff.2 hn
    have : p.trackLimit.getD maxCylinder ≠ 0 := by
      cases hl : p.trackLimit with
      | none => show maxCylinder ≠ 0; decide
      | some l => intro e; exact hlim (by rw [hl]; simpa using e)
    omega
  unfold rasterize
  rw [if_neg (by omega), if_neg hne]
  simp only
  have inj : ∀ x < w, ∀ y, ∀ x' < w, ∀ y', (y + yo) * span + (x + xo) = (y' + yo) * span + (x' + xo) → x = x' ∧ y = y' := by
    intro x hx y x' hx' y' e
    have hsp : 0 < span := by omega
    have e1 : ((y + yo) * span + (x + xo)) / span = y + yo := by
      rw [Nat.mul_comm, Nat.mul_add_div hsp, Nat.div_eq_of_lt (by omega)]; rfl
    have e2 : ((y' + yo) * span + (x' + xo)) / span = y' + yo := by
      rw [Nat.mul_comm, Nat.mul_add_div hsp, Nat.div_eq_of_lt (by omega)]; rfl
    have : y + yo = y' + yo := by rw [← e1, ← e2, e]
    have hy : y = y' := by omega
    subst hy
    exact ⟨by omega, rfl⟩
  obtain ⟨buf', hb⟩ := paint_ok (span := span) (xo := xo) (yo := yo) (buf := buf) (ps := places w h) (color := fun xy =>
      pixel (collect d side) p (((min w h : Nat) : Rat) / 2) (polar ((xy.1 : Rat) - (w : Rat) / 2) ((xy.2 : Rat) - (h : Rat) / 2)).1
        (polar ((xy.1 : Rat) - (w : Rat) / 2) ((xy.2 : Rat) - (h : Rat) / 2)).2) (by
    intro xy hxy
    obtain ⟨hx, hy⟩ := mem_places.1 hxy
    have : (xy.2 + yo + 1) * span ≤ (h + yo) * span := Nat.mul_le_mul_right _ (by omega)
    rw [Nat.add_mul (xy.2 + yo), Nat.one_mul] at this
    omega)
  refine ⟨buf', hb, ?_, ?_, ?_⟩
  · have go : ∀ {ps : List (Nat × Nat)} {color : Nat × Nat → Option Pix} {b b' : List Pix}, paint span xo yo color ps b = .ok b' → b'.length = b.length := by
      intro ps
      induction ps with
      | nil => intro color b b' e; simp only [paint, Except.ok.injEq] at e; rw [e]
      | cons q rest ih =>
        intro color b b' e
        simp only [paint] at e
        cases hq : color q with
        | none => rw [hq] at e; exact ih e
        | some c =>
          rw [hq] at e
          simp only at e
          split at e
          · rw [ih e, List.length_set]
          · cases e
    exact go hb
  · intro x hx y hy
    obtain ⟨_, h1, h2⟩ := paint_get hb (i := (y + yo) * span + (x + xo))
      (r := pixel (collect d side) p (((min w h : Nat) : Rat) / 2)
            (polar ((x : Rat) - (w : Rat) / 2) ((y : Rat) - (h : Rat) / 2)).1 (polar ((x : Rat) - (w : Rat) / 2) ((y : Rat) - (h : Rat) / 2)).2) (by
        intro xy hxy e
        obtain ⟨hx', hy'⟩ := mem_places.1 hxy
        obtain ⟨a, b⟩ := inj _ hx' _ _ hx _ e
        rw [a, b])
    split
    · rename_i c hc
      exact h2 c hc ⟨(x, y), mem_places.2 ⟨hx, hy⟩, rfl⟩
    · rename_i hc
      rcases h1 with h1 | ⟨c, hc', _⟩
      · exact h1
      · rw [hc] at hc'; cases hc'
  · intro i hi
    obtain ⟨_, h1, _⟩ := paint_get hb (i := i) (r := none) (by
        intro xy hxy e
        obtain ⟨hx', hy'⟩ := mem_places.1 hxy
        exact absurd e.symm (hi _ hx' _ hy'))
    rcases h1 with h1 | ⟨c, hc', _⟩
    · exact h1
    · cases hc'

/-! ## What is not so -/

/-- A track of eight cells, the first of each pair a clock. -/
def rasterTrack (bits : List Bool) : Track :=
  { data := { bits := BitRing.ofBits bits, clockMap := BitRing.ofBits [true, false, true, false, true, false, true, false],
              weakMask := BitRing.ofBits (List.replicate 8 false) } }

/-- One track between the middle and the rim, turning with the clock. -/
def rasterParams : Params := { minRatio := 1/2, pin := false, gap := 1/10, direction := .cw }

/-- The hypotheses of the theorems are met: the pixel at three quarters of the radius, an eighth of a turn on. -/
example : ∃ t : Track, [t][0]? = some t ∧ lenOf t = 8 ∧ OnRasterRing (rasterParams.innerRadius 100 1) 100 rasterParams.gap 1 0 75 ∧
    SameAngle (1/8) (angleAt .cw 0 8 1) ∧ pixel [t] rasterParams 100 75 (1/8) = some (.bit true) := by
  refine ⟨rasterTrack [false, false, true, false, false, false, false, false], rfl, rfl, by unfold OnRasterRing; decide +kernel, ⟨0, by decide +kernel⟩, by decide +kernel⟩

/-- **C148 is false of the cells.** In the direction of the third cell the picture shows the fifth, and it goes through the cells of the track twice in a turn: half
of them are never shown. -/
theorem C148_false_cell :
    (∃ t : Track, lenOf t = 8 ∧ SameAngle (1/4) (angleAt rasterParams.direction rasterParams.indexAngle 8 2) ∧ t.data.bits.bits.getD 2 false = true ∧
      pixel [t] rasterParams 100 75 (1/4) = some (.bit false)) ∧
    ∃ t t' : Track, t.data.clockMap = t'.data.clockMap ∧ t.data.bits.bits ≠ t'.data.bits.bits ∧
      ∀ i < 8, streamIndex t i = streamIndex t' i := by
  refine ⟨⟨rasterTrack [false, false, true, false, false, false, false, false], rfl, ⟨0, by decide +kernel⟩, rfl, by decide +kernel⟩, ?_⟩
  exact ⟨rasterTrack [false, false, false, true, false, false, false, false], rasterTrack (List.replicate 8 false), rfl, by decide, by decide⟩

/-- **C148 is false of an index when the disk turns against the clock.** With the index an eighth of a turn on, the picture of data is turned by a quarter of a
turn against the picture of elements: where position 6 of 8 passes it shows the bit at 0. -/
theorem C148_false_index : ∃ (t : Track) (p : Params), p.direction = .ccw ∧ p.indexAngle = 1/8 ∧ lenOf t = 8 ∧
    SameAngle (1/8) (angleAt .ccw p.indexAngle 8 6) ∧ pixel [t] p 100 75 (1/8) = some (.bit (streamIndex t 0)) ∧
    streamIndex t 0 ≠ streamIndex t 6 := by
  refine ⟨rasterTrack [false, true, true, false, false, false, false, false], { rasterParams with direction := .ccw, indexAngle := 1/8 }, rfl, rfl, rfl,
    ⟨0, by decide +kernel⟩, by decide +kernel, by decide⟩

/-- **C148 is false of an index more than half a turn on.** With the clock, and the index three quarters of a turn on, the whole first quarter of the turn shows the
bit at 0. -/
theorem C148_false_wedge (len : Nat) (turn : Rat) (h : -(1/2) < turn) (h2 : turn ≤ -(1/4)) :
    bitIndex { rasterParams with indexAngle := 3/4 } turn len = 0 := by
  unfold bitIndex
  simp only
  rw [frem_eq (x := turn + 1/2) (f := turn + 1/2) (k := 0) (by norm_num) (by decide) (by linarith) (by linarith)]
  show (frem (turn + 1/2 - 3/4 + 1/2) * (len : Rat)).floor.toNat % len = 0
  have hle : frem (turn + 1/2 - 3/4 + 1/2) ≤ 0 := by
    unfold frem
    split
    · have : turn + 1/2 - 3/4 + 1/2 = 0 := by linarith
      rw [this]; decide +kernel
    · have := Rat.le_ceil (x := turn + 1/2 - 3/4 + 1/2)
      linarith
  have hm : frem (turn + 1/2 - 3/4 + 1/2) * (len : Rat) ≤ 0 := mul_nonpos_of_nonpos_of_nonneg hle (by exact_mod_cast Nat.zero_le _)
  have : (frem (turn + 1/2 - 3/4 + 1/2) * (len : Rat)).floor ≤ 0 := by
    have := Rat.floor_le (frem (turn + 1/2 - 3/4 + 1/2) * (len : Rat))
    by_contra hc
    have h1 : ((1 : Int) : Rat) ≤ (((frem (turn + 1/2 - 3/4 + 1/2) * (len : Rat)).floor : Int) : Rat) := by exact_mod_cast (by omega)
    push_cast at h1
    linarith
  rw [Int.toNat_eq_zero.2 this, Nat.zero_mod]

end Fox
