import Verif.Model.Picture
import Verif.Proofs.F86
import Verif.Props.Ring
import Mathlib.Tactic.Linarith
import Mathlib.Algebra.Order.Field.Rat
import Mathlib.Algebra.Order.Field.Basic
/-
C139, C140: pictures written onto disks.
-/
namespace Fox
open S34 Picture

/-! ## Specification -/

/-- The bit at a place of a track. -/
def pixelBitAt (t : Track) (j : Nat) : Bool := t.data.bits.bits.getD j false

/-- The place lies in the data of a sector (behind its mark) that ends before the end of the track; the end counts. -/
def OnData (t : Track) (i : Nat) : Prop :=
  ∃ x ∈ t.items, x.elem.isData = true ∧ x.start + 64 ≤ i ∧ i ≤ x.stop ∧ x.stop < Viz.lenOf t

/-- The two tracks differ only in bits. -/
def SameButBits (t t' : Track) : Prop :=
  t'.items = t.items ∧ t'.schema = t.schema ∧ Viz.lenOf t' = Viz.lenOf t ∧
    ∃ b, t'.data = { t.data with bits := b } ∧ b.wrap = t.data.bits.wrap ∧ b.wrapValue = t.data.bits.wrapValue

/-- How far before a place a sample there writes, and how far behind it. -/
def Picture.Params.back (p : Params) : Nat := if p.gray then 0 else max 8 (2 ^ p.resolution - 1)
def Picture.Params.ahead (p : Params) : Nat := if p.gray then 63 else 7
/-- The length a track needs. -/
def Picture.Params.need (p : Params) : Nat := if p.gray then 64 else 9

/-! ## Proofs -/

theorem contains_range (ranges : List (Nat × Nat)) (v : Nat) (h : (RangeChecker.new ranges).contains v = true) :
    ∃ r ∈ ranges, r.1 ≤ v ∧ v ≤ r.2 := by
  rw [contains_balance, decide_eq_true_eq] at h
  induction ranges with
  | nil => simp at h
  | cons r rs ih =>
    by_cases hr : r.1 ≤ v ∧ v ≤ r.2
    · exact ⟨r, by simp, hr⟩
    · rw [List.map_cons, List.sum_cons] at h
      have : (if r.1 ≤ v then (1 : Int) else 0) - (if r.2 + 1 ≤ v then 1 else 0) ≤ 0 := by
        by_cases h1 : r.1 ≤ v
        · rw [if_pos h1, if_pos (by omega)]; omega
        · rw [if_neg h1]; split <;> omega
      obtain ⟨x, hx, hy⟩ := ih (by omega)
      exact ⟨x, by simp [hx], hy⟩

theorem isData_on (t : Track) (i : Nat) (h : Picture.isData t i = true) : OnData t i := by
  obtain ⟨r, hr, h1, h2⟩ := contains_range _ _ h
  rw [List.mem_filter] at hr
  obtain ⟨hr, hf⟩ := hr
  unfold dataRanges at hr
  rw [List.mem_filterMap] at hr
  obtain ⟨x, hx, he⟩ := hr
  by_cases hd : x.elem.isData = true
  · rw [if_pos hd] at he
    cases he
    simp only [Bool.not_eq_true', Bool.or_eq_false_iff, decide_eq_false_iff_not] at hf
    exact ⟨x, hx, hd, h1, h2, by omega⟩
  · rw [if_neg hd] at he; cases he

theorem on_isData (t : Track) (hw : ∀ x ∈ t.items, x.elem.isData = true → x.start + 64 ≤ x.stop) (i : Nat) (h : OnData t i) :
    Picture.isData t i = true := by
  obtain ⟨x, hx, hd, h1, h2, h3⟩ := h
  unfold Picture.isData
  rw [C20_contains_partial]
  · refine ⟨(x.start + 64, x.stop), ?_, h1, h2⟩
    rw [List.mem_filter]
    refine ⟨?_, ?_⟩
    · unfold dataRanges
      rw [List.mem_filterMap]
      exact ⟨x, hx, by rw [if_pos hd]⟩
    · have := hw x hx hd
      simp only [Bool.not_eq_true', Bool.or_eq_false_iff, decide_eq_false_iff_not]
      omega
  · intro r hr
    rw [List.mem_filter] at hr
    obtain ⟨y, hy, he⟩ := List.mem_filterMap.1 hr.1
    by_cases hd : y.elem.isData = true
    · rw [if_pos hd] at he; cases he; exact hw y hy hd
    · rw [if_neg hd] at he; cases he

theorem SameButBits.refl (t : Track) : SameButBits t t := ⟨rfl, rfl, rfl, _, rfl, rfl, rfl⟩

theorem SameButBits.trans {a b c : Track} (h : SameButBits a b) (h' : SameButBits b c) : SameButBits a c := by
  obtain ⟨h1, h2, h3, r, h4, h5, h6⟩ := h
  obtain ⟨k1, k2, k3, s, k4, k5, k6⟩ := h'
  refine ⟨k1.trans h1, k2.trans h2, k3.trans h3, s, ?_, ?_, ?_⟩
  · rw [k4, h4]
  · rw [k5, h4]; exact h5
  · rw [k6, h4]; exact h6

theorem put_spec (t t' : Track) (bytes : List Byte) (i : Nat) (hw : t.data.bits.wrap = Viz.lenOf t) (hl : i + 8 * bytes.length ≤ Viz.lenOf t)
    (h : put t bytes i = .ok t') : SameButBits t t' ∧
    ∀ j, pixelBitAt t' j = if i ≤ j ∧ j < i + 8 * bytes.length then (bitsOf bytes).getD (j - i) false else pixelBitAt t j := by
  unfold put at h
  rw [ite_eq_iff] at h
  rcases h with ⟨_, h⟩ | ⟨_, h⟩
  · cases h
  cases h
  obtain ⟨h1, h2, h3, h4⟩ := setMany_spec (bitsOf bytes) t.data.bits i hw (by rw [bitsOf_length]; exact hl)
  refine ⟨⟨rfl, rfl, h3, _, rfl, h1, h2⟩, fun j => ?_⟩
  rw [bitsOf_length] at h4
  exact h4 j

theorem turn_floor (turn : Rat) (n : Nat) (h1 : turn < 1) (hn : 0 < n) : (turn * n).floor.toNat < n := by
  have hq : (0 : Rat) < n := by exact_mod_cast hn
  have : turn * n < n := by nlinarith
  have : (turn * n).floor < (n : Int) := Rat.floor_lt_iff.2 (by exact_mod_cast this)
  omega

theorem mask_le (b m : Nat) (hm : 0 < m) : b / m * m ≤ b ∧ b < b / m * m + m := by
  have h1 := Nat.div_add_mod b m
  have h2 := Nat.mod_lt b hm
  rw [Nat.mul_comm] at h1
  constructor <;> omega

/-- What one sample does to its track. -/
theorem paint_near (debug : Bool) (p : Params) (t t' : Track) (s : Sample) (hw : t.data.bits.wrap = Viz.lenOf t) (hn : p.need ≤ Viz.lenOf t) (hs : s.turn < 1)
    (h : (if p.gray then paintGray debug p else paintMono debug p) t s = .ok t') :
    SameButBits t t' ∧ ∀ j, pixelBitAt t' j ≠ pixelBitAt t j → p.sectorMask = true → ∃ i, OnData t i ∧ i ≤ j + p.back ∧ j ≤ i + p.ahead := by
  unfold Picture.Params.need at hn
  unfold Picture.Params.back Picture.Params.ahead
  cases hg : p.gray
  · rw [hg] at h hn
    simp only [Bool.false_eq_true, if_false] at h hn ⊢
    unfold paintMono at h
    simp only at h
    have hb := turn_floor s.turn (Viz.lenOf t) hs (by omega)
    generalize (s.turn * (Viz.lenOf t : Rat)).floor.toNat = bit at h hb
    rw [ite_eq_iff] at h
    rcases h with ⟨_, h⟩ | ⟨hm, h⟩
    · cases h; exact ⟨.refl t, fun j hj => absurd rfl hj⟩
    unfold F86.subU at h
    rw [if_pos hn] at h
    simp only at h
    split at h
    · cases h; exact ⟨.refl t, fun j hj => absurd rfl hj⟩
    · rename_i x _
      rw [ite_eq_iff] at h
      rcases h with ⟨_, h⟩ | ⟨_, h⟩
      · obtain ⟨k1, k2⟩ := mask_le bit (2 ^ p.resolution) (Nat.two_pow_pos _)
        generalize bit / 2 ^ p.resolution * 2 ^ p.resolution = b at h k1 k2
        obtain ⟨a1, a2⟩ := put_spec t t' _ _ hw (by simp only [List.length_singleton]; omega) h
        refine ⟨a1, fun j hj hsm => ⟨bit, isData_on t bit ?_, ?_⟩⟩
        · cases hd : Picture.isData t bit
          · exact absurd ⟨hsm, hd⟩ hm
          · rfl
        · rw [a2 j] at hj
          simp only [List.length_singleton] at hj
          rw [ite_ne_right_iff] at hj
          obtain ⟨⟨j1, j2⟩, _⟩ := hj
          have := Nat.two_pow_pos p.resolution
          omega
      · cases h; exact ⟨.refl t, fun j hj => absurd rfl hj⟩
  · rw [hg] at h hn
    simp only [if_true] at h hn ⊢
    unfold paintGray at h
    unfold F86.subU at h
    rw [if_pos hn] at h
    simp only at h
    have hb : min ((s.turn * (Viz.lenOf t : Rat)).floor.toNat / 64 * 64) (Viz.lenOf t - 64) + 64 ≤ Viz.lenOf t := by omega
    generalize min ((s.turn * (Viz.lenOf t : Rat)).floor.toNat / 64 * 64) (Viz.lenOf t - 64) = bit at h hb
    rw [ite_eq_iff] at h
    rcases h with ⟨_, h⟩ | ⟨hm, h⟩
    · cases h; exact ⟨.refl t, fun j hj => absurd rfl hj⟩
    split at h
    · cases h; exact ⟨.refl t, fun j hj => absurd rfl hj⟩
    · rename_i x _
      rw [ite_eq_iff] at h
      rcases h with ⟨_, h⟩ | ⟨_, h⟩
      · have e8 : (beBytes (ramp.getD (x.green / 16) 0#64)).length = 8 := by unfold beBytes; simp
        obtain ⟨a1, a2⟩ := put_spec t t' _ _ hw (by rw [e8]; omega) h
        refine ⟨a1, fun j hj hsm => ⟨bit, isData_on t bit ?_, ?_⟩⟩
        · cases hd : Picture.isData t bit
          · exact absurd ⟨hsm, hd⟩ hm
          · rfl
        · rw [a2 j, e8, ite_ne_right_iff] at hj
          omega
      · cases h; exact ⟨.refl t, fun j hj => absurd rfl hj⟩

/-- The track with a stream at a place of the pool. -/
def streamAt (d : Disk) (i : Nat) : Option Track := d.pool[i]?.bind Viz.streamOf

theorem paintSample_near (debug : Bool) (p : Params) (d d' : Disk) (s : Sample) (hs : s.turn < 1) (h : paintSample debug p d s = .ok d') :
    d'.map0 = d.map0 ∧ d'.map1 = d.map1 ∧ d'.pool.length = d.pool.length ∧
    (∀ i, streamAt d i = none → d'.pool[i]? = d.pool[i]?) ∧
    ∀ i t, streamAt d i = some t → t.data.bits.wrap = Viz.lenOf t → p.need ≤ Viz.lenOf t →
      ∃ t', streamAt d' i = some t' ∧ SameButBits t t' ∧ ∀ j, pixelBitAt t' j ≠ pixelBitAt t j → (∃ k, p.skip ≤ k ∧ (d.headMap p.side)[k]? = some i) ∧
        (p.sectorMask = true → ∃ m, OnData t m ∧ m ≤ j + p.back ∧ j ≤ m + p.ahead) := by
  unfold paintSample at h
  have stay : d' = d → _ := fun e => by
    subst e
    exact (⟨rfl, rfl, rfl, fun _ _ => rfl, fun i t ht _ _ => ⟨t, ht, .refl t, fun j hj => absurd rfl hj⟩⟩ :
      d'.map0 = d'.map0 ∧ d'.map1 = d'.map1 ∧ d'.pool.length = d'.pool.length ∧
      (∀ i, streamAt d' i = none → d'.pool[i]? = d'.pool[i]?) ∧
      ∀ i t, streamAt d' i = some t → t.data.bits.wrap = Viz.lenOf t → p.need ≤ Viz.lenOf t →
      ∃ t', streamAt d' i = some t' ∧ SameButBits t t' ∧ ∀ j, pixelBitAt t' j ≠ pixelBitAt t j → (∃ k, p.skip ≤ k ∧ (d'.headMap p.side)[k]? = some i) ∧
        (p.sectorMask = true → ∃ m, OnData t m ∧ m ≤ j + p.back ∧ j ≤ m + p.ahead))
  rw [ite_eq_iff] at h
  rcases h with ⟨_, h⟩ | ⟨hk, h⟩
  · cases h; exact stay rfl
  cases hm : (d.headMap p.side)[s.track]? with
  | none => rw [hm] at h; cases h; exact stay rfl
  | some n =>
    rw [hm] at h
    simp only at h
    cases hp : d.pool[n]? with
    | none => rw [hp] at h; cases h
    | some dt =>
      rw [hp] at h
      simp only at h
      cases hq : paintTrack debug p s dt with
      | error e => rw [hq] at h; cases h
      | ok dt' =>
        rw [hq] at h
        cases h
        have hn : n < d.pool.length := by
          rcases Nat.lt_or_ge n d.pool.length with h | h
          · exact h
          · rw [List.getElem?_eq_none h] at hp; cases hp
        have hne : ∀ i, i ≠ n → (d.pool.set n dt')[i]? = d.pool[i]? := fun i hi => List.getElem?_set_ne (Ne.symm hi)
        have hself : (d.pool.set n dt')[n]? = some dt' := by rw [List.getElem?_set_self hn]
        have hdt : (Viz.streamOf dt = none ∧ dt' = dt) ∨ ∃ t t', Viz.streamOf dt = some t ∧ Viz.streamOf dt' = some t' ∧
            (if p.gray then paintGray debug p else paintMono debug p) t s = .ok t' := by
          unfold paintTrack at hq
          simp only at hq
          generalize (if p.gray = true then paintGray debug p else paintMono debug p) = f at hq ⊢
          cases dt with
          | bit ch t =>
            simp only at hq
            cases hf : f t s with
            | error e => rw [hf] at hq; cases hq
            | ok t' => rw [hf] at hq; cases hq; exact .inr ⟨t, t', rfl, rfl, hf⟩
          | flux ch o =>
            cases o with
            | none => cases hq; exact .inl ⟨rfl, rfl⟩
            | some t =>
              simp only at hq
              cases hf : f t s with
              | error e => rw [hf] at hq; cases hq
              | ok t' => rw [hf] at hq; cases hq; exact .inr ⟨t, t', rfl, rfl, hf⟩
          | sect t => cases hq; exact .inl ⟨rfl, rfl⟩
          | other ch => cases hq; exact .inl ⟨rfl, rfl⟩
        refine ⟨rfl, rfl, List.length_set, fun i hi => ?_, fun i t ht hw hl => ?_⟩
        · show (d.pool.set n dt')[i]? = d.pool[i]?
          by_cases e : i = n
          · subst e
            unfold streamAt at hi
            rw [hp] at hi
            rcases hdt with ⟨_, e⟩ | ⟨t, t', h1, _⟩
            · rw [hself, e, hp]
            · rw [Option.bind_some, h1] at hi; cases hi
          · exact hne i e
        · show ∃ t', (d.pool.set n dt')[i]?.bind Viz.streamOf = some t' ∧ _
          by_cases e : i = n
          · subst e
            unfold streamAt at ht
            rw [hp, Option.bind_some] at ht
            rcases hdt with ⟨h0, _⟩ | ⟨t1, t', h1, h2, h3⟩
            · rw [h0] at ht; cases ht
            · rw [h1] at ht
              injection ht with ht
              subst ht
              obtain ⟨a, b⟩ := paint_near debug p t1 t' s hw hl hs h3
              refine ⟨t', by rw [hself, Option.bind_some, h2], a, fun j hj => ⟨⟨s.track, by omega, hm⟩, b j hj⟩⟩
          · refine ⟨t, by rw [hne i e]; exact ht, .refl t, fun j hj => absurd rfl hj⟩

theorem OnData.congr {t t' : Track} (h : SameButBits t t') {i : Nat} (ho : OnData t' i) : OnData t i := by
  obtain ⟨h1, _, h3, _⟩ := h
  obtain ⟨x, hx, a, b, c, e⟩ := ho
  exact ⟨x, h1 ▸ hx, a, b, c, h3 ▸ e⟩

/-! ## C139 -/

/-- **C139 (partial).** A picture changes nothing but bits of tracks of the chosen side, none of those skipped; and, if sectors are to be kept, only bits near
their data: in black and white at most 7 behind it and 8 (or the resolution less one) before it, in gray at most 63 behind it.  Missing: only bits of
the data (`C139_false_after`, `C139_false_before`, `C139_false_gray`). -/
theorem C139_near_partial (debug : Bool) (p : Params) : ∀ (samples : List Sample) (d d' : Disk), (∀ s ∈ samples, s.turn < 1) →
    render debug p d samples = .ok d' →
    d'.map0 = d.map0 ∧ d'.map1 = d.map1 ∧ d'.pool.length = d.pool.length ∧
    (∀ i, streamAt d i = none → d'.pool[i]? = d.pool[i]?) ∧
    ∀ i t, streamAt d i = some t → t.data.bits.wrap = Viz.lenOf t → p.need ≤ Viz.lenOf t →
      ∃ t', streamAt d' i = some t' ∧ SameButBits t t' ∧ ∀ j, pixelBitAt t' j ≠ pixelBitAt t j → (∃ k, p.skip ≤ k ∧ (d.headMap p.side)[k]? = some i) ∧
        (p.sectorMask = true → ∃ m, OnData t m ∧ m ≤ j + p.back ∧ j ≤ m + p.ahead) := by
  intro samples d d' hs h
  unfold render at h
  rw [ite_eq_iff] at h
  rcases h with ⟨_, h⟩ | ⟨_, h⟩
  · cases h
  induction samples generalizing d with
  | nil =>
    cases h
    exact ⟨rfl, rfl, rfl, fun _ _ => rfl, fun i t ht _ _ => ⟨t, ht, .refl t, fun j hj => absurd rfl hj⟩⟩
  | cons s ss ih =>
    rw [List.foldlM_cons] at h
    cases h1 : paintSample debug p d s with
    | error e => rw [h1] at h; cases h
    | ok d1 =>
      rw [h1] at h
      obtain ⟨a1, a2, a3, a4, a5⟩ := paintSample_near debug p d d1 s (hs s (by simp)) h1
      obtain ⟨b1, b2, b3, b4, b5⟩ := ih d1 (fun x hx => hs x (by simp [hx])) h
      have hh : d1.headMap p.side = d.headMap p.side := by unfold Disk.headMap; rw [a1, a2]
      refine ⟨b1.trans a1, b2.trans a2, b3.trans a3, fun i hi => ?_, fun i t ht hw hl => ?_⟩
      · rw [b4 i (by unfold streamAt; rw [a4 i hi]; exact hi), a4 i hi]
      · obtain ⟨t1, c1, c2, c3⟩ := a5 i t ht hw hl
        have hw1 : t1.data.bits.wrap = Viz.lenOf t1 := by
          obtain ⟨_, _, e3, b, e4, e5, _⟩ := c2
          rw [e3, e4, ← hw]; exact e5
        obtain ⟨t2, g1, g2, g3⟩ := b5 i t1 c1 hw1 (by rw [c2.2.2.1]; exact hl)
        refine ⟨t2, g1, c2.trans g2, fun j hj => ?_⟩
        by_cases e : pixelBitAt t2 j = pixelBitAt t1 j
        · exact c3 j (e ▸ hj)
        · obtain ⟨k1, k2⟩ := g3 j e
          refine ⟨hh ▸ k1, fun hm => ?_⟩
          obtain ⟨m, m1, m2⟩ := k2 hm
          exact ⟨m, m1.congr c2, m2⟩

theorem put_ok (t : Track) (bytes : List Byte) (i : Nat) (h : 0 < Viz.lenOf t) : ∃ t', put t bytes i = .ok t' := by
  unfold put
  rw [if_neg (by omega)]
  exact ⟨_, rfl⟩

/-- The place of a sample on a track. -/
theorem turn_at (n i : Nat) (hn : 0 < n) : (((i : Rat) / n) * n).floor.toNat = i := by
  have hq : (n : Rat) ≠ 0 := by
    have : (0 : Rat) < n := by exact_mod_cast hn
    exact ne_of_gt this
  rw [div_mul_cancel₀ _ hq]
  have : ((i : Rat)).floor = (i : Int) := by
    have a : (i : Int) ≤ ((i : Rat)).floor := Rat.le_floor_iff.2 (by simp)
    have b : ((i : Rat)).floor < (i : Int) + 1 := Rat.floor_lt_iff.2 (by push_cast; linarith)
    omega
  rw [this]; rfl

/-- **C139.** In black and white, an opaque pixel on the place of a track is written there (at the place rounded down to the resolution, and
before the last 8 bits): black if its red is dark, white if not.  A pixel more transparent than not, and a sample outside the picture, change nothing. -/
theorem C139_pixel (debug : Bool) (p : Params) (t : Track) (s : Sample) (hw : t.data.bits.wrap = Viz.lenOf t) (hn : 9 ≤ Viz.lenOf t)
    (hm : p.sectorMask = true → Picture.isData t (s.turn * Viz.lenOf t).floor.toNat = true) :
    (∀ x, s.pixel = some x → 128 ≤ x.alpha → ∃ t', paintMono debug p t s = .ok t' ∧
      ∀ k < 8, pixelBitAt t' (min ((s.turn * Viz.lenOf t).floor.toNat / 2 ^ p.resolution * 2 ^ p.resolution) (Viz.lenOf t - 9) + k) =
        (if x.red < 128 then p.black else p.white).getMsbD k) ∧
    ((∀ x, s.pixel = some x → x.alpha < 128) → paintMono debug p t s = .ok t) := by
  unfold paintMono
  simp only
  generalize (s.turn * (Viz.lenOf t : Rat)).floor.toNat = bit at hm ⊢
  rw [if_neg (by rintro ⟨a, b⟩; rw [hm a] at b; cases b)]
  unfold F86.subU
  rw [if_pos hn]
  simp only
  constructor
  · intro x hx ha
    rw [hx]
    simp only
    rw [if_pos ha]
    generalize bit / 2 ^ p.resolution * 2 ^ p.resolution = b
    obtain ⟨t', h⟩ := put_ok t [if x.red < 128 then p.black else p.white] (min b (Viz.lenOf t - 9)) (by omega)
    refine ⟨t', h, fun k hk => ?_⟩
    obtain ⟨_, a⟩ := put_spec t t' _ _ hw (by simp only [List.length_singleton]; omega) h
    rw [a, if_pos (by simp only [List.length_singleton]; omega)]
    generalize (if x.red < 128 then p.black else p.white) = y
    rw [show min b (Viz.lenOf t - 9) + k - min b (Viz.lenOf t - 9) = k by omega]
    have : ∀ k < 8, (bitsOf [y]).getD k false = y.getMsbD k := by
      intro k hk
      have : k = 0 ∨ k = 1 ∨ k = 2 ∨ k = 3 ∨ k = 4 ∨ k = 5 ∨ k = 6 ∨ k = 7 := by omega
      rcases this with rfl | rfl | rfl | rfl | rfl | rfl | rfl | rfl <;> rfl
    exact this k hk
  · intro h
    cases hx : s.pixel with
    | none => rfl
    | some x =>
      simp only
      rw [if_neg (by have := h x hx; omega)]

/-- A black and white picture on sectors, with the resolution of the defaults. -/
def masked (p : Params) : Prop := p.gray = false ∧ p.sectorMask = true ∧ p.resolution = 3

/-- **C139 is false of the code: behind the data.** Though sectors are to be kept, a sample at the end of a sector's data is painted, over the bits behind
it. -/
theorem C139_false_after (debug : Bool) (p : Params) (hp : masked p) (t : Track) (hw : t.data.bits.wrap = Viz.lenOf t)
    (hr : ∀ x ∈ t.items, x.elem.isData = true → x.start + 64 ≤ x.stop) (x : Inst) (hx : x ∈ t.items) (hd : x.elem.isData = true)
    (hl : x.stop + 9 ≤ Viz.lenOf t) : ∃ s t', s.turn < 1 ∧ paintMono debug p t s = .ok t' ∧ x.stop < x.stop / 8 * 8 + 8 ∧
      ∀ j, x.stop ≤ j → j < x.stop / 8 * 8 + 8 → pixelBitAt t' j = p.black.getMsbD (j - x.stop / 8 * 8) := by
  have e := turn_at (Viz.lenOf t) x.stop (by omega)
  obtain ⟨t', h1, h2⟩ := (C139_pixel debug p t ⟨0, (x.stop : Rat) / Viz.lenOf t, some ⟨0, 0, 255⟩⟩ hw (by omega)
    (fun _ => by simp only [e]; exact on_isData t hr _ ⟨x, hx, hd, hr x hx hd, Nat.le_refl _, by omega⟩)).1 _ rfl (by decide)
  refine ⟨_, t', ?_, h1, by omega, fun j j1 j2 => ?_⟩
  · have a : (0 : Rat) < Viz.lenOf t := by exact_mod_cast (by omega : 0 < Viz.lenOf t)
    simp only
    rw [div_lt_one a]
    exact_mod_cast (by omega : x.stop < Viz.lenOf t)
  · have := h2 (j - x.stop / 8 * 8) (by omega)
    rw [hp.2.2] at this
    simp only [e, Nat.reducePow] at this
    rw [show min (x.stop / 8 * 8) (Viz.lenOf t - 9) + (j - x.stop / 8 * 8) = j by omega] at this
    exact this

/-- **C139 is false of the code: before the data.** Where the data of a sector do not begin at a multiple of the resolution, a sample at its beginning is
painted over the end of its mark. -/
theorem C139_false_before (debug : Bool) (p : Params) (hp : masked p) (t : Track) (hw : t.data.bits.wrap = Viz.lenOf t)
    (hr : ∀ x ∈ t.items, x.elem.isData = true → x.start + 64 ≤ x.stop) (x : Inst) (hx : x ∈ t.items) (hd : x.elem.isData = true)
    (hl : x.stop + 9 ≤ Viz.lenOf t) (ho : x.start % 8 ≠ 0) : ∃ s t', s.turn < 1 ∧ paintMono debug p t s = .ok t' ∧
      ∀ k < x.start % 8, pixelBitAt t' (x.start + 64 - x.start % 8 + k) = p.black.getMsbD k := by
  have e := turn_at (Viz.lenOf t) (x.start + 64) (by omega)
  have hle := hr x hx hd
  obtain ⟨t', h1, h2⟩ := (C139_pixel debug p t ⟨0, ((x.start + 64 : Nat) : Rat) / Viz.lenOf t, some ⟨0, 0, 255⟩⟩ hw (by omega)
    (fun _ => by simp only [e]; exact on_isData t hr _ ⟨x, hx, hd, Nat.le_refl _, hle, by omega⟩)).1 _ rfl (by decide)
  refine ⟨_, t', ?_, h1, fun k hk => ?_⟩
  · have a : (0 : Rat) < Viz.lenOf t := by exact_mod_cast (by omega : 0 < Viz.lenOf t)
    simp only
    rw [div_lt_one a]
    exact_mod_cast (by omega : x.start + 64 < Viz.lenOf t)
  · have := h2 k (by omega)
    rw [hp.2.2] at this
    simp only [e, Nat.reducePow] at this
    rw [show min ((x.start + 64) / 8 * 8) (Viz.lenOf t - 9) + k = x.start + 64 - x.start % 8 + k by omega] at this
    exact this

/-- **C139 is false of the code: gray.** A gray sample at the last multiple of 64 in a sector's data is painted over the bits behind it. -/
theorem C139_false_gray (debug : Bool) (p : Params) (t : Track) (hw : t.data.bits.wrap = Viz.lenOf t)
    (hr : ∀ x ∈ t.items, x.elem.isData = true → x.start + 64 ≤ x.stop) (x : Inst) (hx : x ∈ t.items) (hd : x.elem.isData = true)
    (hb : x.start + 64 ≤ x.stop / 64 * 64) (hl : x.stop + 64 ≤ Viz.lenOf t) : ∃ s t', s.turn < 1 ∧ paintGray debug p t s = .ok t' ∧
      x.stop < x.stop / 64 * 64 + 64 ∧
      ∀ j, x.stop ≤ j → j < x.stop / 64 * 64 + 64 → pixelBitAt t' j = (bitsOf (beBytes (ramp.getD 15 0#64))).getD (j - x.stop / 64 * 64) false := by
  have e := turn_at (Viz.lenOf t) x.stop (by omega)
  have hon := on_isData t hr (x.stop / 64 * 64) ⟨x, hx, hd, hb, by omega, by omega⟩
  obtain ⟨t', h⟩ := put_ok t (beBytes (ramp.getD 15 0#64)) (x.stop / 64 * 64) (by omega)
  have e8 : (beBytes (ramp.getD 15 0#64)).length = 8 := by decide
  obtain ⟨_, a⟩ := put_spec t t' _ _ hw (by rw [e8]; omega) h
  refine ⟨⟨0, (x.stop : Rat) / Viz.lenOf t, some ⟨255, 255, 255⟩⟩, t', ?_, ?_, by omega, fun j j1 j2 => ?_⟩
  · have a : (0 : Rat) < Viz.lenOf t := by exact_mod_cast (by omega : 0 < Viz.lenOf t)
    simp only
    rw [div_lt_one a]
    exact_mod_cast (by omega : x.stop < Viz.lenOf t)
  · unfold paintGray F86.subU
    rw [if_pos (by omega)]
    simp only [e]
    rw [show min (x.stop / 64 * 64) (Viz.lenOf t - 64) = x.stop / 64 * 64 by omega, if_neg (by rintro ⟨_, b⟩; rw [hon] at b; cases b),
      if_pos (by decide)]
    exact h
  · rw [a j, e8, if_pos (by omega)]

/-- **C139 is false of the code: short tracks.** A track of less than 9 bits makes a painting in black and white panic, and one of less than 64 bits one in
gray, where arithmetic is checked. -/
theorem C139_false_short (p : Params) (t : Track) (s : Sample) (hm : p.sectorMask = false) :
    (Viz.lenOf t < 9 → paintMono true p t s = .error .panic) ∧ (Viz.lenOf t < 64 → paintGray true p t s = .error .panic) := by
  constructor
  · intro h
    unfold paintMono F86.subU
    simp only
    rw [if_neg (by rw [hm]; rintro ⟨a, _⟩; cases a), if_neg (by omega)]
    rfl
  · intro h
    unfold paintGray F86.subU
    rw [if_neg (by omega)]
    rfl

/-! ## C140 -/

/-- Valid MFM: no two ones side by side, no four zeros in a row. -/
def ValidMfm (bits : List Bool) : Prop :=
  (∀ i, i + 1 < bits.length → ¬ (bits.getD i false = true ∧ bits.getD (i + 1) false = true)) ∧
  ∀ i, i + 3 < bits.length → bits.getD i false = true ∨ bits.getD (i + 1) false = true ∨ bits.getD (i + 2) false = true ∨ bits.getD (i + 3) false = true

/-- How many transitions there are. -/
def ones (bits : List Bool) : Nat := bits.count true

/-- The cells of a word, the most significant bit first. -/
def cells (x : BitVec 64) : List Bool := bitsOf (beBytes x)

/-- A word that can stand beside any other: it is valid, begins with a one, and ends with a zero. -/
def Brick (l : List Bool) : Prop := ValidMfm l ∧ 4 ≤ l.length ∧ l.getD 0 false = true ∧ l.getD (l.length - 1) true = false

theorem getD_false_of_ge (l : List Bool) (i : Nat) (h : l.length ≤ i) : l.getD i false = false := by
  rw [List.getD_eq_getElem?_getD, List.getElem?_eq_none h]; rfl

theorem getD_app (a b : List Bool) (i : Nat) : (a ++ b).getD i false = if i < a.length then a.getD i false else b.getD (i - a.length) false := by
  split
  · rename_i h; rw [List.getD_eq_getElem?_getD, List.getElem?_append_left h, List.getD_eq_getElem?_getD]
  · rename_i h; rw [List.getD_eq_getElem?_getD, List.getElem?_append_right (by omega), List.getD_eq_getElem?_getD]

theorem valid_append (a b : List Bool) (ha : Brick a) (hb : ValidMfm b) (hb0 : b = [] ∨ b.getD 0 false = true) : ValidMfm (a ++ b) := by
  obtain ⟨⟨a1, a2⟩, a3, a4, a5⟩ := ha
  have last : a.getD (a.length - 1) false = false := by
    rw [List.getD_eq_getElem?_getD] at a5 ⊢
    rw [List.getElem?_eq_getElem (by omega)] at a5 ⊢
    exact a5
  rcases hb0 with rfl | hb0
  · rw [List.append_nil]; exact ⟨a1, a2⟩
  constructor
  · intro i hi
    rw [List.length_append] at hi
    rw [getD_app, getD_app]
    by_cases h1 : i + 1 < a.length
    · rw [if_pos (by omega), if_pos h1]; exact a1 i h1
    · by_cases h2 : i < a.length
      · rw [if_pos h2, if_neg h1]
        rintro ⟨x, _⟩
        rw [show i = a.length - 1 by omega, last] at x
        cases x
      · rw [if_neg h2, if_neg h1, show i + 1 - a.length = i - a.length + 1 by omega]
        exact hb.1 (i - a.length) (by omega)
  · intro i hi
    rw [List.length_append] at hi
    rw [getD_app, getD_app, getD_app, getD_app]
    by_cases h1 : i + 3 < a.length
    · rw [if_pos (by omega), if_pos (by omega), if_pos (by omega), if_pos h1]; exact a2 i h1
    · by_cases h2 : a.length ≤ i
      · rw [if_neg (by omega), if_neg (by omega), if_neg (by omega), if_neg (by omega),
          show i + 1 - a.length = i - a.length + 1 by omega, show i + 2 - a.length = i - a.length + 2 by omega,
          show i + 3 - a.length = i - a.length + 3 by omega]
        exact hb.2 (i - a.length) (by omega)
      · have : i + 1 = a.length ∨ i + 2 = a.length ∨ i + 3 = a.length := by omega
        rcases this with e | e | e
        · right; left; rw [if_neg (by omega), show i + 1 - a.length = 0 by omega]; exact hb0
        · right; right; left; rw [if_neg (by omega), show i + 2 - a.length = 0 by omega]; exact hb0
        · right; right; right; rw [if_neg (by omega), show i + 3 - a.length = 0 by omega]; exact hb0

theorem valid_flat {α : Type} (f : α → List Bool) : ∀ l : List α, (∀ x ∈ l, Brick (f x)) →
    ValidMfm (l.flatMap f) ∧ (l.flatMap f = [] ∨ (l.flatMap f).getD 0 false = true)
  | [], _ => ⟨⟨fun i h => by simp at h, fun i h => by simp at h⟩, .inl rfl⟩
  | x :: l, h => by
    obtain ⟨h1, h2⟩ := valid_flat f l fun y hy => h y (by simp [hy])
    have hx := h x (by simp)
    rw [List.flatMap_cons]
    refine ⟨valid_append _ _ hx h1 h2, .inr ?_⟩
    rw [getD_app, if_pos (by have := hx.2.1; omega)]
    exact hx.2.2.1

/-- The same, as a computation. -/
def brickOk (l : List Bool) : Bool :=
  (List.range (l.length - 1)).all (fun i => !(l.getD i false && l.getD (i + 1) false)) &&
  (List.range (l.length - 3)).all (fun i => l.getD i false || l.getD (i + 1) false || l.getD (i + 2) false || l.getD (i + 3) false) &&
  decide (4 ≤ l.length) && l.getD 0 false && !l.getD (l.length - 1) true

theorem brick_of (l : List Bool) (h : brickOk l = true) : Brick l := by
  unfold brickOk at h
  simp only [Bool.and_eq_true, List.all_eq_true, List.mem_range, Bool.not_eq_true', decide_eq_true_eq, Bool.or_eq_true, Bool.and_eq_false_iff] at h
  obtain ⟨⟨⟨⟨h1, h2⟩, h3⟩, h4⟩, h5⟩ := h
  refine ⟨⟨fun i hi => ?_, fun i hi => ?_⟩, h3, h4, h5⟩
  · rintro ⟨a, b⟩
    rcases h1 i (by omega) with x | x
    · rw [a] at x; cases x
    · rw [b] at x; cases x
  · rcases h2 i (by omega) with ((x | x) | x) | x
    · exact .inl x
    · exact .inr (.inl x)
    · exact .inr (.inr (.inl x))
    · exact .inr (.inr (.inr x))

theorem ramp_bricks : ∀ k < 16, brickOk (cells (ramp.getD k 0#64)) = true := by decide +kernel
theorem gen_bricks : ∀ k < 256, brickOk (cells (genRamp (BitVec.ofNat 8 k))) = true := by decide +kernel

/-- **C140.** Gray pixels side by side, whatever their values, make valid MFM. -/
theorem C140_gray_partial (greens : List Nat) (h : ∀ g ∈ greens, g < 256) : ValidMfm (greens.flatMap fun g => cells (ramp.getD (g / 16) 0#64)) :=
  (valid_flat _ greens fun g hg => brick_of _ (ramp_bricks (g / 16) (by have := h g hg; omega))).1

theorem ramp_ones : ∀ k < 16, ones (cells (ramp.getD k 0#64)) = if k = 15 then 32 else 16 + k := by decide +kernel

/-- **C140.** Of the shades of gray, a brighter one has at least as many transitions, and more if it is brighter by 16. -/
theorem C140_brighter (g h : Nat) (hh : h < 256) :
    (g ≤ h → ones (cells (ramp.getD (g / 16) 0#64)) ≤ ones (cells (ramp.getD (h / 16) 0#64))) ∧
    (g + 16 ≤ h → ones (cells (ramp.getD (g / 16) 0#64)) < ones (cells (ramp.getD (h / 16) 0#64))) := by
  constructor
  · intro e
    rw [ramp_ones _ (by omega), ramp_ones _ (by omega)]
    split <;> split <;> omega
  · intro e
    rw [ramp_ones _ (by omega), ramp_ones _ (by omega)]
    split <;> split <;> omega

/-- **C140.** The words of `gen_ramp_64`, side by side, make valid MFM, whatever the values. -/
theorem C140_gen_valid (vs : List Byte) : ValidMfm (vs.flatMap fun v => cells (genRamp v)) := by
  refine (valid_flat _ vs fun v _ => brick_of _ ?_).1
  have := gen_bricks v.toNat v.isLt
  rwa [BitVec.ofNat_toNat, BitVec.setWidth_eq] at this

/-- **C140 is false of the code: the ramp of `gen_ramp_64`.** More is not denser: the values with one bit have all the same number of transitions, and 128
has fewer than 127. -/
theorem C140_false_gen : (∀ k < 8, ones (cells (genRamp (BitVec.ofNat 8 (2 ^ k)))) = 18) ∧ ones (cells (genRamp 128#8)) < ones (cells (genRamp 127#8)) := by
  decide +kernel

/-- **C140 is false of the code: white.** The byte of the defaults for white, said to be 0b1010_1010, is not: an opaque bright pixel on any track, by the
defaults, makes two ones side by side. -/
theorem C140_false_white (debug : Bool) (p : Params) (hp : p.white = ({ gray := false, side := 0, sectorMask := false } : Params).white) (hs : p.sectorMask = false)
    (t : Track) (s : Sample) (x : Pixel) (hw : t.data.bits.wrap = Viz.lenOf t) (hn : 9 ≤ Viz.lenOf t) (hx : s.pixel = some x) (ha : 128 ≤ x.alpha)
    (hr : 128 ≤ x.red) : ∃ t', paintMono debug p t s = .ok t' ∧ ∃ j, pixelBitAt t' j = true ∧ pixelBitAt t' (j + 1) = true := by
  obtain ⟨t', h1, h2⟩ := (C139_pixel debug p t s hw hn (fun h => by rw [hs] at h; cases h)).1 x hx ha
  have a := h2 1 (by omega)
  have b := h2 2 (by omega)
  rw [if_neg (by omega), hp] at a b
  exact ⟨t', h1, _, a, b⟩

/-- **C139 (resolutions).** In black and white a mask of 1 to 8 bits is taken, and no other, whatever the picture; in gray it is not looked at. -/
theorem C139_resolution (debug : Bool) (p : Params) (d : Disk) :
    ((p.gray = true ∨ (1 ≤ p.resolution ∧ p.resolution ≤ 8)) → ∀ samples, render debug p d samples = samples.foldlM (paintSample debug p) d) ∧
    (p.gray = false → ¬(1 ≤ p.resolution ∧ p.resolution ≤ 8) → ∀ samples, render debug p d samples = .error .parameter) := by
  refine ⟨fun h samples => ?_, fun h h1 samples => ?_⟩
  · unfold render
    rw [if_neg]
    rintro ⟨a, b⟩
    rcases h with h | h
    · rw [a] at h; cases h
    · omega
  · unfold render
    rw [if_pos ⟨h, by omega⟩]

/-! Cases -/

/-- A track of 30 bytes with a sector whose data lie from 8 to 200. -/
def smallTrack : Track :=
  { data := { bits := BitRing.ofBits (List.replicate 240 false), clockMap := BitRing.ofBits [], weakMask := BitRing.ofBits [], cursor := 0 }
    items := [⟨.data ⟨0, 0, 1, 2⟩ false false false, 8, 204, none, false⟩] }

/-- A pixel at the end of its data is painted behind them. -/
example : ∃ s t', s.turn < 1 ∧ paintMono true { gray := false, side := 0, sectorMask := true } smallTrack s = .ok t' ∧ pixelBitAt t' 204 = true := by
  obtain ⟨s, t', h1, h2, _, h3⟩ := C139_false_after true { gray := false, side := 0, sectorMask := true } ⟨rfl, rfl, rfl⟩ smallTrack (by decide +kernel)
    (by intro x hx _; rw [List.mem_singleton.1 hx]; decide) _ (List.mem_singleton.2 rfl) rfl (by decide +kernel)
  exact ⟨s, t', h1, h2, h3 204 (by decide) (by decide)⟩

example : (render true { gray := false, side := 0, sectorMask := false } { pool := [.bit ⟨0, 0⟩ smallTrack], map0 := [0] }
    [⟨0, 1 / 2, some ⟨0, 0, 255⟩⟩, ⟨0, 0, some ⟨0, 0, 100⟩⟩]).toOption.map
    (fun d => (streamAt d 0).map fun t => (List.range 240).filter (pixelBitAt t)) = some (some [120, 124]) := by decide +kernel

end Fox
