import Verif.Props.Pce
import Verif.Proofs.ScanCursor
import Verif.Props.Search
import Verif.Props.ClockMap
import Verif.Proofs.TrackMap
import Verif.Proofs.RawRound
/-
Loading cells as a track, and the PRI file loop.
-/
namespace Fox
open Spec OddEven S34

/-! ### The clock map of any stream -/

theorem clockMarkers_total : ∀ (starts : List Nat) (m : List Bool) (last : Nat), last ≤ m.length →
    starts.Pairwise (· ≤ ·) → (∀ x ∈ starts, last ≤ x ∧ x < m.length) →
    ∃ r l, clockMarkers m last starts = .ok (r, l) ∧ r.length = m.length ∧
      (l = last ∨ l < m.length)
  | [], m, last, _, _, _ => ⟨m, last, rfl, rfl, .inl rfl⟩
  | x :: xs, m, last, hl, hp, hb => by
    rw [List.pairwise_cons] at hp
    have hx := hb x (by simp)
    have hstep : ∃ m', (if last > 0 then (do
        let m ← checkedSet m (last - 1) false
        clockFill (x - last) m last x) else (.ok m : Except Err (List Bool))) = .ok m' ∧ m'.length = m.length := by
      by_cases h : last > 0
      · rw [if_pos h, checkedSet_ok (by omega)]
        obtain ⟨r, h1, h2, _⟩ := clockFill_spec (x - last) (m.set (last - 1) false) last x (by omega)
          (by rw [List.length_set]; exact hx.2)
        exact ⟨r, h1, by rw [h2, List.length_set]⟩
      · rw [if_neg h]; exact ⟨m, rfl, rfl⟩
    obtain ⟨m', h1, h2⟩ := hstep
    obtain ⟨r, l, h3, h4, h5⟩ := clockMarkers_total xs m' x (by omega) hp.2
      (fun y hy => ⟨hp.1 y hy, by rw [h2]; exact (hb y (by simp [hy])).2⟩)
    refine ⟨r, l, ?_, by rw [h4, h2], ?_⟩
    · unfold clockMarkers
      rw [h1]
      exact h3
    · right
      rcases h5 with h5 | h5
      · omega
      · omega

theorem createClockMap_total (starts : List Nat) (m : List Bool) (hne : m ≠ [])
    (hp : starts.Pairwise (· ≤ ·)) (hb : ∀ x ∈ starts, x < m.length) :
    ∃ r, createClockMap starts m = .ok r ∧ r.length = m.length := by
  obtain ⟨r, l, h1, h2, h3⟩ := clockMarkers_total starts m 0 (by omega) hp (fun x hx => ⟨by omega, hb x hx⟩)
  have hpos : 0 < m.length := List.length_pos_iff.2 hne
  have hl : l < m.length := by omega
  unfold createClockMap
  rw [h1]
  have h4 : ∃ r', (if l > 0 then checkedSet r (l - 1) false else (.ok r : Except Err (List Bool))) = .ok r' ∧
      r'.length = m.length := by
    by_cases h : l > 0
    · rw [if_pos h, checkedSet_ok (by omega)]; exact ⟨_, rfl, by rw [List.length_set, h2]⟩
    · rw [if_neg h]; exact ⟨r, rfl, h2⟩
  obtain ⟨r', h5, h6⟩ := h4
  obtain ⟨r2, h7, h8, _⟩ := clockFill_spec (r'.length - 1 - l) r' l (r'.length - 1) (by omega) (by omega)
  refine ⟨r2, ?_, by rw [h8, h6]⟩
  show (do
    let m ← (if l > 0 then checkedSet r (l - 1) false else (.ok r : Except Err (List Bool)))
    if m.length = 0 then .error .panic else clockFill (m.length - 1 - l) m l (m.length - 1)) = _
  rw [h5]
  show (if r'.length = 0 then _ else _) = _
  rw [if_neg (by omega)]
  exact h7

theorem findMarker_bound {s : Mfm} {m : MarkerEnc} {start : Nat} {limit : Option Nat} {q : Nat} {w : BitVec 16}
    (h : s.findMarker m start limit = some (q, w)) (h0 : 0 < m.len) (h64 : m.len ≤ 64) :
    start ≤ q ∧ q < s.len := by
  obtain ⟨p, h1, _, h3, _⟩ := ((C04_find_marker s m start limit).2 q w).1 h
  unfold MatchAt at h1
  have : searchEnd s limit ≤ s.len := by
    unfold searchEnd
    omega
  omega


theorem markers_bound (s : Mfm) : ∀ m ∈ scanMarkers s, m.start < s.len := by
  have hloop : ∀ (f cur : Nat), ∀ m ∈ scanMarkersLoop s f cur, m.start < s.len := by
    intro f
    induction f with
    | zero => intro cur m hm; simp [scanMarkersLoop] at hm
    | succ f ih =>
      intro cur m hm
      unfold scanMarkersLoop at hm
      rcases hf : findNextMarker s cur with _ | x
      · rw [hf] at hm; simp at hm
      · rw [hf] at hm
        simp only [List.mem_cons] at hm
        rcases hm with rfl | hm
        · unfold findNextMarker at hf
          rcases hg : s.findMarker anyMarkerEnc cur none with _ | ⟨i, w⟩
          · rw [hg] at hf; simp at hf
          · rw [hg] at hf
            simp only [Option.map_eq_some_iff] at hf
            obtain ⟨_, _, rfl⟩ := hf
            exact (findMarker_bound hg (by decide) (by decide)).2
        · exact ih _ m hm
  unfold scanMarkers
  rcases hg : s.findMarker { bits := Marker.iam.code } 0 (some 5000) with _ | ⟨i, w⟩
  · exact hloop _ _
  · intro m hm
    simp only [List.mem_cons] at hm
    rcases hm with rfl | hm
    · exact (findMarker_bound hg (by decide) (by decide)).2
    · exact hloop _ _ m hm

theorem amiga_markers (s : Mfm) : (Amiga.scanMarkers s).Pairwise (· ≤ ·) ∧ ∀ x ∈ Amiga.scanMarkers s, x < s.len := by
  have hloop : ∀ (f cur : Nat), (Amiga.scanLoop s f cur).Pairwise (· ≤ ·) ∧
      ∀ x ∈ Amiga.scanLoop s f cur, cur ≤ x ∧ x < s.len := by
    intro f
    induction f with
    | zero => intro cur; simp [Amiga.scanLoop]
    | succ f ih =>
      intro cur
      unfold Amiga.scanLoop
      rcases hf : Amiga.findNextMarker s cur with _ | i
      · simp
      · have hi : cur ≤ i ∧ i < s.len := by
          unfold Amiga.findNextMarker at hf
          simp only [Option.map_eq_some_iff] at hf
          obtain ⟨⟨q, w⟩, hq, rfl⟩ := hf
          exact findMarker_bound hq (by decide) (by decide)
        obtain ⟨h1, h2⟩ := ih (i + 64)
        refine ⟨?_, ?_⟩
        · simp only
          rw [List.pairwise_cons]
          exact ⟨fun x hx => by have := h2 x hx; omega, h1⟩
        · intro x hx
          simp only [List.mem_cons] at hx
          rcases hx with rfl | hx
          · exact hi
          · have := h2 x hx; omega
  exact ⟨(hloop _ _).1, fun x hx => ((hloop _ _).2 x hx).2⟩

theorem packed_length (L : List Bool) : (DiskTrack.packed L).length = (L.length + 7) / 8 := by
  simp [DiskTrack.packed]

theorem bits_packed (L : List Bool) : (bitsOf (DiskTrack.packed L)).take L.length = L := by
  have hl : (bitsOf (DiskTrack.packed L)).length = 8 * ((L.length + 7) / 8) := by
    rw [bitsOf_length, packed_length]
  apply ext_getD _ _ false (by rw [List.length_take, hl]; omega)
  intro i hi
  rw [List.length_take, hl] at hi
  have e : ((bitsOf (DiskTrack.packed L)).take L.length).getD i false = (bitsOf (DiskTrack.packed L)).getD i false := by
    rw [List.getD_eq_getElem?_getD, List.getD_eq_getElem?_getD, List.getElem?_take, if_pos (by omega)]
  rw [e, bitsOf_getD]
  unfold dat DiskTrack.packed
  rw [getD_map_range _ _ _ _ (by omega), byteOfBits_getMsbD _ _ (by omega)]
  congr 1
  omega

/-- The stream made of packed cells. -/
theorem new_packed (L : List Bool) :
    ∃ s, Mfm.new (if DiskTrack.packed L = [] then (List.range L.length).map (fun i => i % 2 == 0)
        else bitsOf (DiskTrack.packed L)) (some L.length) none = .ok s ∧ s.bits = BitRing.ofBits L ∧
      s.clockMap.bits.length = L.length ∧ s.clockMap.wrap = L.length ∧ s.clockMap.wrapValue = some false ∧
      s.weakMask = BitRing.ofBits (List.replicate L.length false) := by
  have e : (if DiskTrack.packed L = [] then (List.range L.length).map (fun i => i % 2 == 0)
        else bitsOf (DiskTrack.packed L)).take L.length = L := by
    by_cases h : DiskTrack.packed L = []
    · have := congrArg List.length h
      rw [packed_length] at this
      have h0 : L = [] := List.length_eq_zero_iff.1 (by simp only [List.length_nil] at this; omega)
      subst h0
      rfl
    · rw [if_neg h, bits_packed]
  generalize (if DiskTrack.packed L = [] then (List.range L.length).map (fun i => i % 2 == 0)
        else bitsOf (DiskTrack.packed L)) = X at e
  unfold Mfm.new
  simp only [e, Option.getD_none, List.length_replicate, Nat.lt_irrefl, if_false]
  exact ⟨_, rfl, rfl, by simp [BitRing.ofBits], by simp [BitRing.ofBits], rfl, rfl⟩

/-- Any cells make a track with just these cells and no weak bits. -/
theorem ofData_cells (rnd : Nat → Bool) (L : List Bool) :
    ∃ t, Track.ofData rnd (DiskTrack.packed L) L.length = .ok t ∧ t.data.bits = BitRing.ofBits L ∧
      t.data.weakMask = BitRing.ofBits (List.replicate L.length false) := by
  obtain ⟨s, h1, h2, h3, _, _, h6⟩ := new_packed L
  have hlen : s.len = L.length := by unfold Mfm.len; rw [h2]; rfl
  unfold Track.ofData
  simp only
  rw [h1]
  simp only
  by_cases hm : scanMarkers s ≠ []
  · rw [if_pos hm]
    have hb := markers_bound s
    have hne : s.clockMap.bits ≠ [] := by
      intro h0
      rcases hx : scanMarkers s with _ | ⟨x, xs⟩
      · exact hm hx
      · have := hb x (by rw [hx]; simp)
        rw [hlen, ← h3, h0] at this
        simp at this
    obtain ⟨cm, h7, h8⟩ := createClockMap_total ((scanMarkers s).map (·.start)) s.clockMap.bits hne
      (List.pairwise_map.2 (scanMarkers_sorted s)) (by
        intro x hx
        obtain ⟨y, hy, rfl⟩ := List.mem_map.1 hx
        rw [h3, ← hlen]; exact hb y hy)
    rw [h7]
    obtain ⟨c, h9⟩ := scanMetadata_cursor { s with clockMap := { s.clockMap with bits := cm } } rnd (scanMarkers s)
    exact ⟨_, rfl, by simp only [h9]; exact h2, by simp only [h9]; exact h6⟩
  · rw [if_neg hm]
    obtain ⟨ha, hb⟩ := amiga_markers s
    by_cases hm2 : Amiga.scanMarkers s ≠ []
    · rw [if_pos hm2]
      have hne : s.clockMap.bits ≠ [] := by
        intro h0
        rcases hx : Amiga.scanMarkers s with _ | ⟨x, xs⟩
        · exact hm2 hx
        · have := hb x (by rw [hx]; simp)
          rw [hlen, ← h3, h0] at this
          simp at this
      obtain ⟨cm, h7, h8⟩ := createClockMap_total (Amiga.scanMarkers s) s.clockMap.bits hne ha (by
        intro x hx; rw [h3, ← hlen]; exact hb x hx)
      rw [h7]
      exact ⟨_, rfl, h2, h6⟩
    · rw [if_neg hm2]
      exact ⟨_, rfl, h2, h6⟩

theorem Spec.StreamOk.rescanned {s : Mfm} {B : List Byte} {iam : Option Nat} {secs : List Sec}
    (hs : StreamOk s B iam secs) : StreamOk s B iam (secs.map Sec.rescanned) := by
  have hmarks : marksOf iam (secs.map Sec.rescanned) = marksOf iam secs := by
    unfold marksOf
    rw [List.flatMap_map]; rfl
  refine ⟨hs.wrap, hs.wrapValue, hs.noWeak, hs.weakWrap, ?_, ?_, hs.iamPos, ?_⟩
  · rw [hmarks, List.map_map]; exact hs.cells
  · intro x hx
    obtain ⟨y, hy, rfl⟩ := List.mem_map.1 hx
    have := hs.secOk y hy
    exact ⟨this.idOk, this.size, this.header, this.body⟩
  · obtain ⟨lo, a, b, c⟩ := hs.placed
    exact ⟨lo, a, b, placed_rescanned c⟩

/-- The cells of a formatted track, loaded again, give a track with the same sectors. -/
theorem ofData_trackOk {t : Track} {iam : Option Nat} {secs : List Sec} (h : TrackOk t iam secs)
    (hne : marksOf iam secs ≠ []) (rnd : Nat → Bool) :
    ∃ t', Track.ofData rnd (DiskTrack.packed t.data.bits.bits) t.data.bits.bits.length = .ok t' ∧
      TrackOk t' iam (secs.map Sec.rescanned) := by
  obtain ⟨B, hs⟩ := h.stream
  generalize hL : t.data.bits.bits = L
  obtain ⟨s, h1, h2, h3, h4, h5, h6⟩ := new_packed L
  have hlen : s.len = L.length := by unfold Mfm.len; rw [h2]; rfl
  have hst : StreamOk s B iam secs := by
    refine ⟨by rw [h2]; rfl, by rw [h2]; rfl, .inr ?_, by rw [h6]; rfl, ?_, hs.secOk, hs.iamPos, hs.placed⟩
    · intro b hb
      rw [h6] at hb
      exact (List.mem_replicate.1 hb).2
    · rw [h2, ← hL]; exact hs.cells
  have hshape : ClockShape s := by
    refine ⟨by rw [h4, h3], h5, ?_⟩
    have hl : L.length = 16 * B.length := by rw [← hL]; exact hs.cells.len
    rw [hlen, h3]
    omega
  unfold Track.ofData
  simp only
  rw [h1]
  simp only
  rw [hst.scanMarkers, if_pos (by simpa using hne)]
  obtain ⟨cm, g1, g2, g3⟩ := hst.clock hshape hne
  rw [g1]
  simp only
  have hs' := hst.clockMap { s.clockMap with bits := cm }
  obtain ⟨c, g4⟩ := hs'.scanMetadata g3 rnd
  rw [g4]
  refine ⟨_, rfl, ⟨⟨B, (hs'.cursor c).rescanned⟩, ?_, ⟨?_, h5, ?_⟩, rfl, rfl⟩⟩
  · have hmarks : marksOf iam (secs.map Sec.rescanned) = marksOf iam secs := by
      unfold marksOf
      rw [List.flatMap_map]; rfl
    intro m o hm; rw [hmarks] at hm; exact g3 m o hm
  · show s.clockMap.wrap = cm.length
    rw [g2, h4, h3]
  · show 16 * ((s.len + 15) / 16) ≤ cm.length + 15
    rw [g2]; exact hshape.size

/-! ### Weak masks -/

theorem writeWeakMask_spec (w : BitVec 32) (off : Nat) : ∀ (k i : Nat) (m : List Bool),
    (writeWeakMask m w off k i).length = m.length ∧ ∀ j, j < m.length →
      (writeWeakMask m w off k i).getD j false =
        (m.getD j false || (decide (i + off ≤ j) && decide (j < i + k + off) && w.getMsbD (j - off)))
  | 0, i, m => ⟨rfl, fun j hj => by
      have : (decide (i + off ≤ j) && decide (j < i + 0 + off)) = false := by
        rw [Bool.and_eq_false_iff]; by_cases h : i + off ≤ j
        · right; simp; omega
        · left; simp; omega
      rw [this]; simp [writeWeakMask]⟩
  | k + 1, i, m => by
    unfold writeWeakMask
    by_cases hb : w.getMsbD i = true
    · rw [if_pos hb]
      by_cases ho : i + off ≥ m.length
      · rw [if_pos ho]
        refine ⟨rfl, fun j hj => ?_⟩
        have : decide (i + off ≤ j) = false := by simp; omega
        rw [this]; simp
      · rw [if_neg ho]
        obtain ⟨h1, h2⟩ := writeWeakMask_spec w off k (i + 1) (m.set (i + off) true)
        rw [List.length_set] at h1
        refine ⟨h1, fun j hj => ?_⟩
        rw [h2 j (by rw [List.length_set]; exact hj), getD_set]
        by_cases e : j = i + off
        · subst e
          have e1 : decide (i + off ≤ i + off) = true := by simp
          have e2 : decide (i + off < i + (k + 1) + off) = true := by simp
          have e3 : i + off - off = i := by omega
          rw [e1, e2, e3, hb]
          simp [hj]
        · have e1 : decide (i + 1 + off ≤ j) = decide (i + off ≤ j) := by
            rw [decide_eq_decide]; omega
          have e2 : decide (j < i + 1 + k + off) = decide (j < i + (k + 1) + off) := by
            rw [decide_eq_decide]; omega
          rw [e1, e2]
          have e3 : ¬ (j = i + off ∧ i + off < m.length) := fun h => e h.1
          simp [Ne.symm e]
    · rw [if_neg hb]
      obtain ⟨h1, h2⟩ := writeWeakMask_spec w off k (i + 1) m
      refine ⟨h1, fun j hj => ?_⟩
      rw [h2 j hj]
      by_cases e : j = i + off
      · subst e
        have e3 : i + off - off = i := by omega
        have hb' : w.getMsbD i = false := by simpa using hb
        rw [e3, hb']; simp
      · have e1 : decide (i + 1 + off ≤ j) = decide (i + off ≤ j) := by
          rw [decide_eq_decide]; omega
        have e2 : decide (j < i + 1 + k + off) = decide (j < i + (k + 1) + off) := by
          rw [decide_eq_decide]; omega
        rw [e1, e2]

end Fox
