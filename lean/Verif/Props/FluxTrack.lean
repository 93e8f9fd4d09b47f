import Verif.Props.Flux
/-
C75: the revolutions of a flux track.  C76: the track made of them.
-/
namespace Fox
open Fox.Spec Fox.Pll Fox.Flux

/-! ## C75 -/

/-- **C75, shifted revolutions.** Two revolutions whose transition counts differ by two give two more, in which one
transition has moved over the index: together they hold the same flux in the same order, and as many each. -/
theorem C75_shift (a b : Rev) (h : a.deltas.length = b.deltas.length + 2 ∨ b.deltas.length = a.deltas.length + 2) :
    ∃ a' b', fromAdjacentPair a b = [a', b'] ∧ a'.deltas ++ b'.deltas = a.deltas ++ b.deltas ∧
      a'.deltas.length = b'.deltas.length ∧ a'.synthetic = true ∧ b'.synthetic = true ∧
      a'.ch = a.ch ∧ b'.ch = b.ch ∧ a'.indexTime = a.indexTime ∧ b'.indexTime = b.indexTime := by
  unfold fromAdjacentPair
  rcases h with h | h
  · rw [if_pos h]
    refine ⟨_, _, rfl, ?_, ?_, rfl, rfl, rfl, rfl, rfl, rfl⟩
    · show a.deltas.dropLast ++ (a.deltas.getLastD 0 :: b.deltas) = _
      have hne : a.deltas ≠ [] := by intro e; rw [e] at h; simp at h
      have : a.deltas.dropLast ++ [a.deltas.getLastD 0] = a.deltas := by
        rw [List.getLastD_eq_getLast?, List.getLast?_eq_some_getLast hne]
        exact List.dropLast_concat_getLast hne
      rw [← List.singleton_append, ← List.append_assoc, this]
    · show a.deltas.dropLast.length = (a.deltas.getLastD 0 :: b.deltas).length
      rw [List.length_dropLast, List.length_cons]; omega
  · rw [if_neg (by omega), if_pos h]
    refine ⟨_, _, rfl, ?_, ?_, rfl, rfl, rfl, rfl, rfl, rfl⟩
    · show (a.deltas ++ [b.deltas.headD 0]) ++ b.deltas.tail = _
      cases hb : b.deltas with
      | nil => rw [hb] at h; simp at h
      | cons x xs => simp
    · show (a.deltas ++ [b.deltas.headD 0]).length = b.deltas.tail.length
      rw [List.length_append, List.length_tail]; simp; omega

/-- Otherwise there is no such pair. -/
theorem C75_no_shift (a b : Rev) (h1 : a.deltas.length ≠ b.deltas.length + 2) (h2 : b.deltas.length ≠ a.deltas.length + 2) :
    fromAdjacentPair a b = [] := by
  unfold fromAdjacentPair; rw [if_neg h1, if_neg h2]

theorem pair_synth (a b r : Rev) (h : r ∈ fromAdjacentPair a b) : r.synthetic = true := by
  unfold fromAdjacentPair at h
  split at h
  · simp at h; rcases h with rfl | rfl <;> rfl
  · split at h
    · simp at h; rcases h with rfl | rfl <;> rfl
    · cases h

theorem synthPairs_synth : ∀ (rs : List Rev) (r : Rev), r ∈ synthPairs rs → r.synthetic = true
  | [], r, h => by cases h
  | [_], r, h => by cases h
  | a :: b :: rs, r, h => by
    rw [synthPairs] at h
    rcases List.mem_append.1 h with h | h
    · exact pair_synth a b r h
    · exact synthPairs_synth (b :: rs) r h

/-- **C75, the captured revolutions stay.** The revolutions read from the image keep their places and are followed by
synthetic ones only. -/
theorem C75_kept (rs : List Rev) : ∃ l, synthesize rs = rs ++ l ∧ ∀ r ∈ l, r.synthetic = true :=
  ⟨_, rfl, synthPairs_synth rs⟩

theorem rawNext_at (r : Rev) (rs : List Rev) (d : Nat) (h : d < r.deltas.length) :
    rawNext (r :: rs) d = (some r.deltas[d], r :: rs, d + 1) := by
  cases rs <;> rw [rawNext, dif_pos h]

/-- The flux of the revolutions from a place on, up to the first synthetic one. -/
theorem raw_collect (ss : List Rev) (hss : ∀ x ∈ ss, x.synthetic = true) : ∀ (rs : List Rev) (r : Rev) (k d n : Nat),
    (∀ x ∈ rs, x.synthetic = false) → r.deltas.length - d = k →
    (r.deltas.drop d).length + (rs.flatMap Rev.deltas).length + 1 ≤ n →
    rawCollect n (r :: (rs ++ ss), d) = r.deltas.drop d ++ rs.flatMap Rev.deltas := by
  intro rs
  induction rs with
  | nil =>
    intro r k
    induction k with
    | zero =>
      intro d n _ hk hn
      obtain ⟨m, rfl⟩ : ∃ m, n = m + 1 := ⟨n - 1, by omega⟩
      rw [List.drop_eq_nil_iff.2 (by omega), rawCollect]
      have : (rawNext (r :: ([] ++ ss)) d).1 = none := by
        rw [List.nil_append]
        cases ss with
        | nil => rw [rawNext, dif_neg (by omega)]
        | cons s ss =>
          rw [rawNext, dif_neg (by omega)]
          have := hss s List.mem_cons_self
          simp only [this, if_true]
      cases hr : rawNext (r :: ([] ++ ss)) d with
      | mk a b => rw [hr] at this; simp only at this; subst this; simp
    | succ k ih =>
      intro d n h1 hk hn
      obtain ⟨m, rfl⟩ : ∃ m, n = m + 1 := ⟨n - 1, by omega⟩
      have hd : d < r.deltas.length := by omega
      rw [rawCollect]
      simp only [rawNext_at _ _ _ hd]
      rw [ih (d + 1) m h1 (by omega) (by rw [List.length_drop] at hn ⊢; omega), ← List.cons_append, List.getElem_cons_drop]
  | cons r' rs ihr =>
    intro r k
    induction k with
    | zero =>
      intro d n h1 hk hn
      obtain ⟨m, rfl⟩ : ∃ m, n = m + 1 := ⟨n - 1, by omega⟩
      have hf := h1 r' List.mem_cons_self
      have e : rawCollect (m + 1) (r :: (r' :: rs ++ ss), d) = rawCollect (m + 1) (r' :: (rs ++ ss), 0) := by
        rw [rawCollect, rawCollect]
        have : rawNext (r :: (r' :: rs ++ ss)) d = rawNext (r' :: (rs ++ ss)) 0 := by
          rw [List.cons_append, rawNext, dif_neg (by omega)]
          simp only [hf]
          rfl
        simp only [this]
      rw [e, ihr r' _ 0 (m + 1) (fun x hx => h1 x (List.mem_cons_of_mem _ hx)) rfl (by
        rw [List.flatMap_cons, List.length_append] at hn
        rw [List.drop_zero]
        omega), List.drop_eq_nil_iff.2 (show r.deltas.length ≤ d by omega), List.drop_zero, List.flatMap_cons, List.nil_append]
    | succ k ih =>
      intro d n h1 hk hn
      obtain ⟨m, rfl⟩ : ∃ m, n = m + 1 := ⟨n - 1, by omega⟩
      have hd : d < r.deltas.length := by omega
      rw [rawCollect]
      simp only [rawNext_at _ _ _ hd]
      rw [ih (d + 1) m h1 (by omega) (by rw [List.length_drop] at hn ⊢; omega), ← List.cons_append, List.getElem_cons_drop]

/-- **C75, the raw flux.** Iterating over a track's raw flux gives the flux of the captured revolutions, all of it, in
order, once, whatever revolutions have been synthesised. -/
theorem C75_raw (rs : List Rev) (h : ∀ r ∈ rs, r.synthetic = false) (n : Nat) (hn : (rs.flatMap Rev.deltas).length < n) :
    rawCollect n (synthesize rs, 0) = rs.flatMap Rev.deltas := by
  cases rs with
  | nil =>
    obtain ⟨m, rfl⟩ : ∃ m, n = m + 1 := ⟨n - 1, by omega⟩
    rw [rawCollect]
    simp [synthesize, synthPairs, rawNext]
  | cons r rs =>
    have := raw_collect (synthPairs (r :: rs)) (synthPairs_synth _) rs r _ 0 n
      (fun x hx => h x (List.mem_cons_of_mem _ hx)) rfl (by
        rw [List.flatMap_cons, List.length_append] at hn
        rw [List.drop_zero]; omega)
    rw [List.drop_zero] at this
    unfold synthesize
    rw [List.cons_append, this, List.flatMap_cons]

theorem bestLoop_spec : ∀ (ss : List Int) (i b : Nat) (sc : Int),
    (bestLoop i b sc ss = b ∧ ∀ s ∈ ss, s ≤ sc) ∨
    ∃ j s, ss[j]? = some s ∧ bestLoop i b sc ss = i + j ∧ sc < s ∧ (∀ x ∈ ss, x ≤ s) ∧ ∀ j' s', j' < j → ss[j']? = some s' → s' < s := by
  intro ss
  induction ss with
  | nil => intro i b sc; exact Or.inl ⟨rfl, fun _ h => by cases h⟩
  | cons s ss ih =>
    intro i b sc
    rw [bestLoop]
    by_cases h : s > sc
    · rw [if_pos h]
      right
      rcases ih (i + 1) i s with ⟨h1, h2⟩ | ⟨j, s', h1, h2, h3, h4, h5⟩
      · refine ⟨0, s, rfl, h1, h, ?_, fun j' s' hj => by omega⟩
        intro x hx
        rcases List.mem_cons.1 hx with rfl | hx
        · exact le_refl _
        · exact h2 x hx
      · refine ⟨j + 1, s', h1, by omega, by omega, ?_, ?_⟩
        · intro x hx
          rcases List.mem_cons.1 hx with rfl | hx
          · omega
          · exact h4 x hx
        · intro j' s'' hj hs
          cases j' with
          | zero => cases hs; exact h3
          | succ j' => exact h5 j' s'' (by omega) hs
    · rw [if_neg h]
      rcases ih (i + 1) b sc with ⟨h1, h2⟩ | ⟨j, s', h1, h2, h3, h4, h5⟩
      · left
        refine ⟨h1, ?_⟩
        intro x hx
        rcases List.mem_cons.1 hx with rfl | hx
        · omega
        · exact h2 x hx
      · right
        refine ⟨j + 1, s', h1, by omega, h3, ?_, ?_⟩
        · intro x hx
          rcases List.mem_cons.1 hx with rfl | hx
          · omega
          · exact h4 x hx
        · intro j' s'' hj hs
          cases j' with
          | zero => cases hs; omega
          | succ j' => exact h5 j' s'' (by omega) hs

/-- **C75, the best one.** The revolution a track is read from is the first of those with the highest score, if any
revolution scores at all, and else the first one. -/
theorem C75_best (scores : List Int) :
    (best scores = 0 ∧ ∀ s ∈ scores, s ≤ 0) ∨
    ∃ s, scores[best scores]? = some s ∧ 0 < s ∧ (∀ x ∈ scores, x ≤ s) ∧
      ∀ j x, j < best scores → scores[j]? = some x → x < s := by
  unfold best
  rcases bestLoop_spec scores 0 0 0 with h | ⟨j, s, h1, h2, h3, h4, h5⟩
  · exact Or.inl h
  · right
    rw [h2, Nat.zero_add]
    exact ⟨s, h1, h3, h4, fun j' x hj hx => h5 j' x hj hx⟩

theorem sum_clean : ∀ l : List (Chsn × Bool × Bool × Bool),
    (l.map fun s => (5 : Int) - (if s.2.1 then 5 else 0) - (if s.2.2.1 then 1 else 0)).sum ≤ 5 * l.length ∧
    (5 * (l.length : Int) ≤ (l.map fun s => (5 : Int) - (if s.2.1 then 5 else 0) - (if s.2.2.1 then 1 else 0)).sum ↔
      ∀ s ∈ l, s.2.1 = false ∧ s.2.2.1 = false) := by
  intro l
  induction l with
  | nil => simp
  | cons s l ih =>
    obtain ⟨h1, h2⟩ := ih
    rw [List.map_cons, List.sum_cons, List.length_cons, List.forall_mem_cons, ← h2]
    generalize (l.map fun s => (5 : Int) - (if s.2.1 then 5 else 0) - (if s.2.2.1 then 1 else 0)).sum = S at *
    rcases s with ⟨c, a, b, d⟩
    cases a <;> cases b <;> simp <;> omega

/-- **C75, good revolutions win.** If some revolution shows `n` sectors, all without errors, then the track is not read
from one that shows `n` sectors or fewer with an error among them. -/
theorem C75_clean (ts : List Track) (i : Nat) (g c : Track) (hg : ts[i]? = some g)
    (hclean : ∀ s ∈ g.sectorList, s.2.1 = false ∧ s.2.2.1 = false) (hpos : g.sectorList ≠ [])
    (hc : ts[best (ts.map score)]? = some c) (hn : c.sectorList.length ≤ g.sectorList.length) :
    c.sectorList.length = g.sectorList.length ∧ ∀ s ∈ c.sectorList, s.2.1 = false ∧ s.2.2.1 = false := by
  have hgs : 5 * (g.sectorList.length : Int) ≤ score g := (sum_clean _).2.2 hclean
  have hgp : 0 < g.sectorList.length := List.length_pos_iff.2 hpos
  have hmem : score g ∈ ts.map score := List.mem_map.2 ⟨g, List.mem_of_getElem? hg, rfl⟩
  have hcs : score g ≤ score c := by
    rcases C75_best (ts.map score) with ⟨_, h⟩ | ⟨s, h1, _, h3, _⟩
    · have := h _ hmem; omega
    · rw [List.getElem?_map, hc] at h1
      cases h1
      exact h3 _ hmem
  have hcu : score c ≤ 5 * c.sectorList.length := (sum_clean _).1
  have he : c.sectorList.length = g.sectorList.length := by omega
  exact ⟨he, (sum_clean _).2.1 (by have : score c ≤ _ := hcu; show 5 * (c.sectorList.length : Int) ≤ score c; omega)⟩

/-- Not vacuous: of three revolutions, with one, two and two transitions more, two pairs are made. -/
example : (synthesize [Rev.ofDeltas ⟨0, 0⟩ [1, 2, 3] 9, Rev.ofDeltas ⟨0, 0⟩ [4] 9, Rev.ofDeltas ⟨0, 0⟩ [5, 6, 7] 9]).map Rev.deltas =
    [[1, 2, 3], [4], [5, 6, 7], [1, 2], [3, 4], [4, 5], [6, 7]] ∧ best [0, 3, 7, 7, 2] = 2 := by
  decide +kernel

/-! ## C76 -/

/-- The captured revolutions of a track: each with its own cell length and time. -/
def captured (ch : Ch) (ks : List Nat) (L : List (Rat × Rat)) : List Rev :=
  L.map fun x => Rev.ofDeltas ch (perfect x.1 ks) x.2

theorem captured_pairs (ch : Ch) (ks : List Nat) : ∀ L, synthPairs (captured ch ks L) = []
  | [] => rfl
  | [_] => rfl
  | x :: y :: L => by
    show fromAdjacentPair _ _ ++ synthPairs (captured ch ks (y :: L)) = []
    rw [captured_pairs ch ks (y :: L), C75_no_shift]
    · rfl
    · show (perfect _ _).length ≠ (perfect _ _).length + 2
      unfold perfect; rw [List.length_map, List.length_map]; omega
    · show (perfect _ _).length ≠ (perfect _ _).length + 2
      unfold perfect; rw [List.length_map, List.length_map]; omega

theorem track_cells (debug : Bool) (rnd : Nat → Bool) (fm : FmCodec) (r : Rev) (h : r.encoding = .mfm) :
    ∃ t, r.track debug rnd fm = .ok t ∧ t.data.bits = BitRing.ofBits r.bits ∧
      t.data.weakMask = BitRing.ofBits (List.replicate r.bits.length false) := by
  unfold Rev.track
  rw [h]
  simp only
  obtain ⟨t, h1, h2, h3⟩ := ofBytes_cells debug rnd (DiskTrack.packed r.bits) (some r.bits.length) false (fun h => by cases h)
  have hc : Fox.cellsOf (DiskTrack.packed r.bits) (some r.bits.length) = r.bits := by
    unfold Fox.cellsOf
    simp only
    by_cases hb : r.bits = []
    · rw [hb]; rfl
    · have : DiskTrack.packed r.bits ≠ [] := by
        intro e
        have := packed_length r.bits
        rw [e] at this
        have : 0 < r.bits.length := List.length_pos_iff.2 hb
        simp at *
        omega
      rw [if_neg this, bits_packed]
  rw [hc] at h2 h3
  exact ⟨t, h1, h2, h3⟩

theorem decodeAll_captured (debug : Bool) (rnd : Nat → Bool) (fm : FmCodec) (ch : Ch) (ks : List Nat) :
    ∀ L : List (Rat × Rat), (∀ x ∈ L, Capturable x.1 ks x.2) →
    ∃ l, decodeAll debug rnd fm none none (captured ch ks L) = .ok l ∧ l.length = L.length ∧
      ∀ y ∈ l, y.1.bits = Spec.cellsOf ks ∧ y.1.encoding = .mfm ∧ y.1.track debug rnd fm = .ok y.2 := by
  intro L
  induction L with
  | nil => intro _; exact ⟨[], rfl, rfl, fun _ h => by cases h⟩
  | cons x L ih =>
    intro hL
    obtain ⟨l, h1, h2, h3⟩ := ih (fun y hy => hL y (List.mem_cons_of_mem _ hy))
    have hx := hL x List.mem_cons_self
    obtain ⟨r, r1, r2, r3⟩ := C73_no_hints x.1 hx.low hx.high ks hx.mfm hx.looks hx.start x.2 hx.expected hx.whole ch
    obtain ⟨t, t1, _⟩ := track_cells debug rnd fm r r3
    refine ⟨(r, t) :: l, ?_, by simp [h2], ?_⟩
    · show decodeAll debug rnd fm none none (Rev.ofDeltas ch (perfect x.1 ks) x.2 :: captured ch ks L) = _
      rw [decodeAll]
      simp only [r1, t1, h1]
    · intro y hy
      rcases List.mem_cons.1 hy with rfl | hy
      · exact ⟨r2, r3, t1⟩
      · exact h3 y hy

/-- **C76.** A track captured in any number of revolutions, each of which can be read, holds exactly its cells,
whichever revolution is chosen. -/
theorem C76_cells (debug : Bool) (rnd : Nat → Bool) (fm : FmCodec) (ch : Ch) (ks : List Nat) (L : List (Rat × Rat))
    (hne : L ≠ []) (hL : ∀ x ∈ L, Capturable x.1 ks x.2) :
    ∃ m t, make debug rnd fm none none (captured ch ks L) = .ok m ∧ m.bitstream = some t ∧
      t.data.bits.bits = Spec.cellsOf ks ∧ m.revs.length = L.length ∧ m.best < L.length := by
  obtain ⟨l, h1, h2, h3⟩ := decodeAll_captured debug rnd fm ch ks L hL
  have hs : synthesize (captured ch ks L) = captured ch ks L := by
    unfold synthesize; rw [captured_pairs, List.append_nil]
  have hpos : 0 < L.length := List.length_pos_iff.2 hne
  have hb : best (l.map fun x => score x.2) < l.length := by
    rcases C75_best (l.map fun x => score x.2) with ⟨h, _⟩ | ⟨s, h, _⟩
    · rw [h]; omega
    · have := List.getElem?_eq_some_iff.1 h
      obtain ⟨h, _⟩ := this
      rw [List.length_map] at h
      exact h
  refine ⟨⟨l, best (l.map fun x => score x.2)⟩, (l[best (l.map fun x => score x.2)]).2, ?_, ?_, ?_, h2, by rw [← h2]; exact hb⟩
  · unfold make
    rw [hs, h1]
  · unfold Made.bitstream
    simp only
    rw [List.getElem?_eq_getElem hb]
    rfl
  · obtain ⟨g1, g2, g3⟩ := h3 _ (List.getElem_mem hb)
    obtain ⟨t, t1, t2, _⟩ := track_cells debug rnd fm _ g2
    rw [t1] at g3
    cases g3
    rw [t2, g1]
    rfl

/-- Not vacuous: three revolutions of a double density track, taken by drives of different speeds. -/
example : ∀ x ∈ [((208 : Rat) / 100000000, (208 : Rat) / 1000), (2 / 1000000, 2 / 10), (192 / 100000000, 192 / 1000)],
    Capturable x.1 ((List.replicate 100 [2, 3, 4]).flatten) x.2 := by
  have hm : ∀ k ∈ (List.replicate 100 [2, 3, 4]).flatten, 2 ≤ k ∧ k ≤ 4 := by decide +kernel
  have hs : Mixed (firstPart ((List.replicate 100 [2, 3, 4]).flatten)) := by decide +kernel
  have hw : Mixed ((List.replicate 100 [2, 3, 4]).flatten) := by decide +kernel
  have hl : LooksMfm ((List.replicate 100 [2, 3, 4]).flatten) := Or.inl (by decide +kernel)
  have hn : ((List.replicate 100 [2, 3, 4]).flatten).length = 300 := by decide +kernel
  intro x hx
  have he : Expected x.1 ((List.replicate 100 [2, 3, 4]).flatten).length x.2 := by
    rw [hn]; exact ⟨fun h => by omega, fun h => by omega⟩
  have hb : 256 / 1000000000 ≤ x.1 ∧ x.1 ≤ 38 / 10000000 := by clear he; revert x; decide +kernel
  exact ⟨hb.1, hb.2, hm, hl, hs, he, fun _ => hw⟩

end Fox
