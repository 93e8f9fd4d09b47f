import Verif.Model.Fm
import Verif.Spec.Fm
import Verif.Props.ClockMap
import Verif.Props.Mfm
import Verif.Props.Crc
import Verif.Props.Deleted
/-
The search for FM marks.
-/
namespace Fox.Fm
open Fox.Spec Fox.S34
open FmDisk (cellsOfByte plain mark At MarkAt First)

/-- The register after the 64 cells from `p` on. -/
def win (bits : List Bool) (p : Nat) : BitVec 64 := shiftIn 64 0 ((List.range 64).map fun k => bits.getD (p + k) false)

theorem win_getMsbD (bits : List Bool) (p k : Nat) (hk : k < 64) : (win bits p).getMsbD k = bits.getD (p + k) false := by
  unfold win
  rw [shiftIn_getMsbD _ _ _ (by simp) _ hk, getD_map_range _ _ _ _ hk]

theorem shiftIn_win (bits : List Bool) (start n : Nat) (h : 64 ≤ n) :
    shiftIn 64 0 ((List.range n).map fun k => bits.getD (start + k) false) = win bits (start + n - 64) := by
  apply BitVec.eq_of_getLsbD_eq
  intro i hi
  unfold win
  rw [shiftIn_getLsbD _ _ _ _ hi, shiftIn_getLsbD _ _ _ _ hi]
  simp only [List.length_map, List.length_range]
  rw [if_pos (by omega), if_pos (by omega), getD_map_range _ _ _ _ (by omega),
    getD_map_range _ _ _ _ (by omega)]
  congr 1; omega

/-- The pattern is met by the 64 cells from `p` on, which lie between `start` and `lim`. -/
def Hits (bits : List Bool) (m : MarkerEnc) (start lim p : Nat) : Prop :=
  start ≤ p ∧ p + 64 ≤ lim ∧ hit m (win bits p) = true

theorem findLoop_spec (debug : Bool) (r : List Bool) (m : MarkerEnc) (start lim : Nat) :
    ∀ (fuel bi : Nat), start ≤ bi → bi + fuel = max lim start →
      (∀ p, ¬ Hits r m start bi p) →
      ∀ res, findLoop debug r m fuel bi
          (shiftIn 64 0 ((List.range (bi - start)).map fun k => r.getD (start + k) false))
          (bi - start) = res →
        (res = .ok none ∧ ∀ p, ¬ Hits r m start lim p) ∨
        (∃ p, Hits r m start lim p ∧ (∀ q, Hits r m start lim q → p ≤ q) ∧
          res = if debug ∧ p = 0 then .error .panic else .ok (some (p, (win r p).setWidth 16))) := by
  intro fuel
  induction fuel with
  | zero =>
    intro bi hb he hno res hres
    left
    refine ⟨by rw [← hres]; rfl, ?_⟩
    intro p hp
    exact hno p ⟨hp.1, by have := hp.2.1; omega, hp.2.2⟩
  | succ fuel ih =>
    intro bi hb he hno res hres
    have hreg : (shiftIn 64 0 ((List.range (bi - start)).map fun k => r.getD (start + k) false) <<< 1) |||
        (BitVec.ofBool (r.getD bi false)).setWidth 64 =
        shiftIn 64 0 ((List.range (bi + 1 - start)).map fun k => r.getD (start + k) false) := by
      have : bi + 1 - start = (bi - start) + 1 := by omega
      rw [this, List.range_succ, List.map_append, shiftIn_append]
      simp only [List.map_cons, List.map_nil]
      rw [shiftIn_cons]
      have e : start + (bi - start) = bi := by omega
      rw [e]; rfl
    rw [findLoop] at hres
    simp only [hreg] at hres
    have hct : bi - start + 1 = bi + 1 - start := by omega
    rw [hct] at hres
    by_cases hc : bi + 1 - start ≥ 64 ∧
        hit m (shiftIn 64 0 ((List.range (bi + 1 - start)).map fun k => r.getD (start + k) false)) = true
    · rw [if_pos hc] at hres
      right
      rw [shiftIn_win _ _ _ hc.1] at hc hres
      have e : start + (bi + 1 - start) - 64 = bi + 1 - 64 := by omega
      rw [e] at hc hres
      refine ⟨bi + 1 - 64, ⟨by omega, by omega, hc.2⟩, ?_, ?_⟩
      · intro q hq
        apply Nat.le_of_not_lt
        intro hlt
        exact hno q ⟨hq.1, by omega, hq.2.2⟩
      · rw [← hres]
        have e2 : (debug = true ∧ bi < 64) ↔ (debug = true ∧ bi + 1 - 64 = 0) := by
          constructor <;> rintro ⟨a, b⟩ <;> exact ⟨a, by omega⟩
        simp only [e2]
    · rw [if_neg hc] at hres
      refine ih (bi + 1) (by omega) (by omega) ?_ res hres
      intro p hp
      by_cases hp2 : p + 64 ≤ bi
      · exact hno p ⟨hp.1, hp2, hp.2.2⟩
      · have hpe : p + 64 = bi + 1 := by have := hp.2.1; omega
        have h1 := hp.1
        apply hc
        rw [shiftIn_win _ _ _ (by omega)]
        refine ⟨by omega, ?_⟩
        have e : start + (bi + 1 - start) - 64 = p := by omega
        rw [e]; exact hp.2.2

/-- What `find_marker` returns. -/
theorem findMarker_spec (debug : Bool) (s : Fm) (m : MarkerEnc) (start : Nat) (limit : Option Nat) :
    (s.findMarker debug m start limit = .ok none ∧
        ∀ p, ¬ Hits s.bits m start (min (limit.getD s.bits.length) s.bits.length) p) ∨
    (∃ p, Hits s.bits m start (min (limit.getD s.bits.length) s.bits.length) p ∧
        (∀ q, Hits s.bits m start (min (limit.getD s.bits.length) s.bits.length) q → p ≤ q) ∧
        s.findMarker debug m start limit =
          if debug ∧ p = 0 then .error .panic else .ok (some (p, (win s.bits p).setWidth 16))) := by
  unfold findMarker
  by_cases he : s.bits.isEmpty = true
  · rw [if_pos he]
    left
    refine ⟨rfl, fun p hp => ?_⟩
    have : s.bits.length = 0 := by rw [List.isEmpty_iff] at he; rw [he]; rfl
    have := hp.2.1
    omega
  · rw [if_neg he]
    have := findLoop_spec debug s.bits m start (min (limit.getD s.bits.length) s.bits.length)
      (min (limit.getD s.bits.length) s.bits.length - start) start (Nat.le_refl _) (by omega)
      (fun p hp => by have := hp.1; have := hp.2.1; omega) _ rfl
    simp only [Nat.sub_self, List.range_zero, List.map_nil] at this
    exact this

/-! ## Marks -/

theorem cells_getD (c d : Byte) (i : Nat) (hi : i < 16) :
    (cellsOfByte c d).getD i false = if i % 2 = 0 then c.getMsbD (i / 2) else d.getMsbD (i / 2) := by
  have : i ∈ List.range 16 := List.mem_range.2 hi
  simp only [List.range, List.range.loop, List.mem_cons, List.not_mem_nil, or_false] at this
  rcases this with rfl | rfl | rfl | rfl | rfl | rfl | rfl | rfl | rfl | rfl | rfl | rfl | rfl | rfl | rfl | rfl <;> rfl

theorem cells_length (c d : Byte) : (cellsOfByte c d).length = 16 := rfl

theorem plain_length (bs : List Byte) : (plain bs).length = 16 * bs.length := by
  unfold plain
  induction bs with
  | nil => rfl
  | cons b bs ih => rw [List.flatMap_cons, List.length_append, ih, cells_length, List.length_cons]; omega

theorem getD_app (a b : List Bool) (i : Nat) :
    (a ++ b).getD i false = if i < a.length then a.getD i false else b.getD (i - a.length) false := by
  by_cases h : i < a.length
  · rw [if_pos h, List.getD_eq_getElem?_getD, List.getElem?_append_left h, ← List.getD_eq_getElem?_getD]
  · rw [if_neg h, List.getD_eq_getElem?_getD, List.getElem?_append_right (by omega), ← List.getD_eq_getElem?_getD]

theorem plain_getD : ∀ (bs : List Byte) (i : Nat), i < 16 * bs.length →
    (plain bs).getD i false = if i % 2 = 0 then true else (bs.getD (i / 16) 0).getMsbD (i / 2 % 8)
  | [], i, h => by simp at h
  | b :: bs, i, h => by
    unfold plain
    rw [List.flatMap_cons, getD_app, cells_length]
    by_cases hi : i < 16
    · rw [if_pos hi, cells_getD _ _ _ hi]
      have e1 : i / 16 = 0 := by omega
      have e2 : i / 2 % 8 = i / 2 := by omega
      rw [e1, e2]
      by_cases h2 : i % 2 = 0
      · rw [if_pos h2, if_pos h2]
        have : ∀ k : Fin 8, (0xFF#8).getMsbD k.val = true := by decide
        exact this ⟨i / 2, by omega⟩
      · rw [if_neg h2, if_neg h2]; rfl
    · rw [if_neg hi]
      rw [List.length_cons] at h
      have := plain_getD bs (i - 16) (by omega)
      unfold plain at this
      rw [this]
      have e1 : (i - 16) % 2 = i % 2 := by omega
      have e2 : i / 16 = (i - 16) / 16 + 1 := by omega
      have e3 : (i - 16) / 2 % 8 = i / 2 % 8 := by omega
      rw [e1, e2, e3]; rfl

theorem at_iff (track : List Bool) (p : Nat) (cells : List Bool) (hc : cells ≠ []) :
    At track p cells ↔
      p + cells.length ≤ track.length ∧ ∀ k < cells.length, track.getD (p + k) false = cells.getD k false := by
  unfold At
  constructor
  · intro h
    obtain ⟨t, ht⟩ := h
    have hlen : (track.drop p).length = cells.length + t.length := by rw [← ht, List.length_append]
    rw [List.length_drop] at hlen
    have hpos : 0 < cells.length := List.length_pos_iff.2 hc
    refine ⟨by omega, fun k hk => ?_⟩
    have : (track.drop p).getD k false = cells.getD k false := by
      rw [← ht, getD_app, if_pos hk]
    rw [← this, List.getD_eq_getElem?_getD, List.getD_eq_getElem?_getD, List.getElem?_drop]
  · rintro ⟨h1, h2⟩
    rw [List.prefix_iff_eq_take]
    apply List.ext_getElem?
    intro i
    rw [List.getElem?_take]
    by_cases hi : i < cells.length
    · rw [if_pos hi, List.getElem?_drop]
      have := h2 i hi
      rw [List.getD_eq_getElem?_getD, List.getD_eq_getElem?_getD, List.getElem?_eq_getElem (by omega),
        List.getElem?_eq_getElem hi] at this
      have a : track[p + i]? = some track[p + i] := List.getElem?_eq_getElem (by omega)
      rw [a, List.getElem?_eq_getElem hi]
      simpa using this.symm
    · rw [if_neg hi, List.getElem?_eq_none (by omega)]

theorem at_append {track : List Bool} {p : Nat} {a b : List Bool} (h : At track p (a ++ b)) :
    At track p a ∧ At track (p + a.length) b := by
  unfold At at *
  obtain ⟨t, ht⟩ := h
  refine ⟨⟨b ++ t, by rw [← ht, List.append_assoc]⟩, ⟨t, ?_⟩⟩
  rw [← List.drop_drop, ← ht, List.append_assoc, List.drop_left]

/-- The clock cells of a mark, and its byte. -/
theorem markAt_iff (track : List Bool) (p : Nat) (d : Byte) :
    MarkAt track p d ↔ p + 64 ≤ track.length ∧ (∀ k < 24, track.getD (p + 2 * k) false = true) ∧
      (∀ k < 8, track.getD (p + 48 + 2 * k) false = (0xC7#8).getMsbD k) ∧
      (∀ k < 8, track.getD (p + 48 + 2 * k + 1) false = d.getMsbD k) := by
  have hl : ∀ a b c : Byte, (plain [a, b, c] ++ mark d).length = 64 := fun a b c => by
    rw [List.length_append, plain_length]; rfl
  have hne : ∀ a b c : Byte, plain [a, b, c] ++ mark d ≠ [] := fun a b c h => by
    have := hl a b c; rw [h] at this; cases this
  have hlow : ∀ (a b c : Byte) (k : Nat), k < 48 →
      (plain [a, b, c] ++ mark d).getD k false = if k % 2 = 0 then true else ([a, b, c].getD (k / 16) 0).getMsbD (k / 2 % 8) := by
    intro a b c k hk
    rw [getD_app, plain_length, if_pos (by simp; omega), plain_getD _ _ (by simp; omega)]
  have hhigh : ∀ (a b c : Byte) (k : Nat), k < 16 →
      (plain [a, b, c] ++ mark d).getD (48 + k) false = if k % 2 = 0 then (0xC7#8).getMsbD (k / 2) else d.getMsbD (k / 2) := by
    intro a b c k hk
    rw [getD_app, plain_length, if_neg (by simp)]
    have : 48 + k - 16 * [a, b, c].length = k := by simp
    rw [this]
    exact cells_getD _ _ _ hk
  constructor
  · rintro ⟨a, b, c, h⟩
    rw [at_iff _ _ _ (hne a b c), hl] at h
    refine ⟨h.1, fun k hk => ?_, fun k hk => ?_, fun k hk => ?_⟩
    · rw [h.2 (2 * k) (by omega), hlow _ _ _ _ (by omega), if_pos (by omega)]
    · have := h.2 (48 + 2 * k) (by omega)
      rw [hhigh _ _ _ _ (by omega), if_pos (by omega)] at this
      rw [show p + 48 + 2 * k = p + (48 + 2 * k) by omega, this]
      congr 1; omega
    · have := h.2 (48 + (2 * k + 1)) (by omega)
      rw [hhigh _ _ _ _ (by omega), if_neg (by omega)] at this
      rw [show p + 48 + 2 * k + 1 = p + (48 + (2 * k + 1)) by omega, this]
      congr 1; omega
  · rintro ⟨h1, h2, h3, h4⟩
    refine ⟨byteOfBits ((List.range 8).map fun k => track.getD (p + 2 * k + 1) false),
      byteOfBits ((List.range 8).map fun k => track.getD (p + 16 + 2 * k + 1) false),
      byteOfBits ((List.range 8).map fun k => track.getD (p + 32 + 2 * k + 1) false), ?_⟩
    rw [at_iff _ _ _ (hne _ _ _), hl]
    refine ⟨h1, fun k hk => ?_⟩
    by_cases hk2 : k < 48
    · rw [hlow _ _ _ _ hk2]
      by_cases he : k % 2 = 0
      · rw [if_pos he, ← h2 (k / 2) (by omega)]
        congr 1; omega
      · rw [if_neg he]
        have : k / 16 = 0 ∨ k / 16 = 1 ∨ k / 16 = 2 := by omega
        rcases this with e | e | e <;> rw [e]
        · show _ = (byteOfBits _).getMsbD _
          rw [byteOfBits_getMsbD _ _ (by omega)]; congr 1; omega
        · show _ = (byteOfBits _).getMsbD _
          rw [byteOfBits_getMsbD _ _ (by omega)]; congr 1; omega
        · show _ = (byteOfBits _).getMsbD _
          rw [byteOfBits_getMsbD _ _ (by omega)]; congr 1; omega
    · obtain ⟨j, rfl⟩ : ∃ j, k = 48 + j := ⟨k - 48, by omega⟩
      rw [hhigh _ _ _ _ (by omega)]
      by_cases he : j % 2 = 0
      · rw [if_pos he, ← h3 (j / 2) (by omega)]
        congr 1; omega
      · rw [if_neg he, ← h4 (j / 2) (by omega)]
        congr 1; omega

theorem clock_iff (w : BitVec 64) : (w &&& clockMask = clockPattern) ↔
    (∀ k < 24, w.getMsbD (2 * k) = true) ∧ ∀ k < 8, w.getMsbD (48 + 2 * k) = (0xC7#8).getMsbD k := by
  have m0 : ∀ k : Fin 32, clockMask.getMsbD (2 * k.val) = true := by decide
  have m1 : ∀ k : Fin 32, clockMask.getMsbD (2 * k.val + 1) = false := by decide
  have p0 : ∀ k : Fin 24, clockPattern.getMsbD (2 * k.val) = true := by decide
  have p1 : ∀ k : Fin 8, clockPattern.getMsbD (48 + 2 * k.val) = (0xC7#8).getMsbD k.val := by decide
  have p2 : ∀ k : Fin 32, clockPattern.getMsbD (2 * k.val + 1) = false := by decide
  constructor
  · intro h
    constructor
    · intro k hk
      have := congrArg (fun x : BitVec 64 => x.getMsbD (2 * k)) h
      simp only [BitVec.getMsbD_and] at this
      have a := m0 ⟨k, by omega⟩
      have b := p0 ⟨k, hk⟩
      simp only at a b
      rw [a, b, Bool.and_true] at this
      exact this
    · intro k hk
      have := congrArg (fun x : BitVec 64 => x.getMsbD (48 + 2 * k)) h
      simp only [BitVec.getMsbD_and] at this
      have a := m0 ⟨24 + k, by omega⟩
      have b := p1 ⟨k, hk⟩
      simp only at a b
      rw [show 2 * (24 + k) = 48 + 2 * k by omega] at a
      rw [a, b, Bool.and_true] at this
      exact this
  · rintro ⟨h1, h2⟩
    apply BitVec.eq_of_getMsbD_eq
    intro i hi
    rw [BitVec.getMsbD_and]
    by_cases he : i % 2 = 0
    · by_cases hl : i < 48
      · have a := m0 ⟨i / 2, by omega⟩
        have b := p0 ⟨i / 2, by omega⟩
        have c := h1 (i / 2) (by omega)
        simp only at a b
        rw [show 2 * (i / 2) = i by omega] at a b c
        rw [a, b, c]; rfl
      · have a := m0 ⟨i / 2, by omega⟩
        have b := p1 ⟨(i - 48) / 2, by omega⟩
        have c := h2 ((i - 48) / 2) (by omega)
        simp only at a b
        rw [show 2 * (i / 2) = i by omega] at a
        rw [show 48 + 2 * ((i - 48) / 2) = i by omega] at b c
        rw [a, b, c, Bool.and_true]
    · have a := m1 ⟨i / 2, by omega⟩
      have b := p2 ⟨i / 2, by omega⟩
      simp only at a b
      rw [show 2 * (i / 2) + 1 = i by omega] at a b
      rw [a, b, Bool.and_false]

/-- The search for any mark looks for nothing but the clock cells. -/
theorem hit_any (bits : List Bool) (p : Nat) (hp : p + 64 ≤ bits.length) :
    hit anyMarkerEnc (win bits p) = true ↔ ∃ d, MarkAt bits p d := by
  have e : hit anyMarkerEnc (win bits p) = true ↔ win bits p &&& clockMask = clockPattern := by
    unfold hit
    have : ∀ w : BitVec 64, w &&& dataMask &&& anyMarkerEnc.mask = 0#64 := by
      intro w
      rw [BitVec.and_assoc, show dataMask &&& anyMarkerEnc.mask = 0#64 by decide]
      exact BitVec.and_zero
    rw [this, this]
    simp
  rw [e, clock_iff]
  constructor
  · rintro ⟨h1, h2⟩
    refine ⟨byteOfBits ((List.range 8).map fun k => bits.getD (p + 48 + 2 * k + 1) false), ?_⟩
    rw [markAt_iff]
    refine ⟨hp, fun k hk => ?_, fun k hk => ?_, fun k hk => ?_⟩
    · rw [← win_getMsbD _ _ _ (by omega)]; exact h1 k hk
    · rw [Nat.add_assoc, ← win_getMsbD _ _ _ (by omega)]; exact h2 k hk
    · rw [byteOfBits_getMsbD _ _ hk]
  · rintro ⟨d, h⟩
    rw [markAt_iff] at h
    refine ⟨fun k hk => ?_, fun k hk => ?_⟩
    · rw [win_getMsbD _ _ _ (by omega)]; exact h.2.1 k hk
    · rw [win_getMsbD _ _ _ (by omega), ← Nat.add_assoc]; exact h.2.2.1 k hk

/-- The sixteen cells of a mark. -/
def markWord (d : Byte) : BitVec 16 := shiftIn 16 0 (cellsOfByte 0xC7#8 d)

theorem win_word {bits : List Bool} {p : Nat} {d : Byte} (h : MarkAt bits p d) :
    (win bits p).setWidth 16 = markWord d := by
  rw [markAt_iff] at h
  apply BitVec.eq_of_getMsbD_eq
  intro i hi
  unfold markWord
  rw [shiftIn_getMsbD _ _ _ (cells_length _ _) _ hi, cells_getD _ _ _ hi, BitVec.getMsbD_setWidth]
  have : (win bits p).getMsbD (48 + i) = bits.getD (p + (48 + i)) false := win_getMsbD _ _ _ (by omega)
  simp only [show decide (16 - 64 ≤ i) = true by simp, Bool.true_and]
  rw [show i + 64 - 16 = 48 + i by omega, this]
  by_cases he : i % 2 = 0
  · rw [if_pos he, ← h.2.2.1 (i / 2) (by omega)]; congr 1; omega
  · rw [if_neg he, ← h.2.2.2 (i / 2) (by omega)]; congr 1; omega

theorem markAt_unique {bits : List Bool} {p : Nat} {d e : Byte} (h : MarkAt bits p d) (g : MarkAt bits p e) : d = e := by
  rw [markAt_iff] at h g
  apply BitVec.eq_of_getMsbD_eq
  intro i hi
  rw [← h.2.2.2 i hi, g.2.2.2 i hi]

/-- The marks that the scan knows. -/
def known (d : Byte) : Option Marker := if d = 0xFE#8 then some .idam else if d = 0xFB#8 then some .dam else none

theorem ofU16_mark (d : Byte) : Marker.ofU16 (markWord d) = known d := by
  have : ∀ n : Fin 256, Marker.ofU16 (markWord (BitVec.ofFin n)) = known (BitVec.ofFin n) := by decide +kernel
  exact this d.toFin

/-- The search for the next mark. -/
theorem findNext_spec (debug : Bool) (s : Fm) (off : Nat) (h0 : 0 < off ∨ ∀ d, ¬ MarkAt s.bits 0 d) :
    (s.findNextMarker debug off = .ok none ∧ ∀ p d, off ≤ p → ¬ MarkAt s.bits p d) ∨
    (∃ p d, First s.bits off p d ∧ s.findNextMarker debug off = .ok ((known d).map fun m => ⟨m, p⟩)) := by
  have hm : ∀ p d, MarkAt s.bits p d → p + 64 ≤ s.bits.length := fun p d h => ((markAt_iff _ _ _).1 h).1
  unfold findNextMarker
  rcases findMarker_spec debug s anyMarkerEnc off none with ⟨h1, h2⟩ | ⟨p, h1, h2, h3⟩
  · left
    rw [h1]
    refine ⟨rfl, fun p d hp hd => h2 p ⟨hp, ?_, (hit_any _ _ (hm _ _ hd)).2 ⟨d, hd⟩⟩⟩
    have := hm _ _ hd
    simp only [Option.getD_none]; omega
  · right
    have hp := h1.2.1
    simp only [Option.getD_none] at hp
    obtain ⟨d, hd⟩ := (hit_any _ _ (by omega)).1 h1.2.2
    refine ⟨p, d, ⟨h1.1, hd, fun q e hq hlt he => ?_⟩, ?_⟩
    · have := h2 q ⟨hq, by have := hm _ _ he; simp only [Option.getD_none]; omega, (hit_any _ _ (hm _ _ he)).2 ⟨e, he⟩⟩
      omega
    · have hp0 : p ≠ 0 := by
        rintro rfl
        rcases h0 with h0 | h0
        · have := h1.1; omega
        · exact h0 d hd
      rw [h3, if_neg (by rintro ⟨_, h⟩; exact hp0 h)]
      simp only
      rw [win_word hd, ofU16_mark]

end Fox.Fm
