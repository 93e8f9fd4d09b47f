import Verif.Proofs.TrackMap
/-
Every placement of sectors on a track is realised by some track: the hypotheses of the theorems about
well-formed tracks are satisfiable for normal and deleted sectors alike.
-/
namespace Fox
open Fox.Spec Fox.S34

/-- Record a mark (spec side: with the cells of `markWord`). -/
def putMark (f : List Bool) (m : Marker) (o : Nat) : List Bool :=
  (List.range f.length).map fun i => if 16 * o ≤ i ∧ i < 16 * o + 64
    then (markWord m).getMsbD (i - 16 * o) else f.getD i false

theorem putMark_length (f : List Bool) (m : Marker) (o : Nat) : (putMark f m o).length = f.length := by
  simp [putMark]

theorem getD_map_range_bool (g : Nat → Bool) (n i : Nat) : ((List.range n).map g).getD i false =
    if i < n then g i else false := by
  by_cases h : i < n
  · rw [if_pos h]; simp [List.getD_eq_getElem?_getD, h]
  · rw [if_neg h]; simp [List.getD_eq_getElem?_getD, Nat.not_lt.1 h]

theorem putMark_cells {f : List Bool} {B : List Byte} {ms : List (Marker × Nat)} (h : CellsOk f B ms [])
    (m : Marker) (o : Nat) (ho : o + 4 ≤ B.length) (hdis : ∀ m' o', (m', o') ∈ ms → o' + 4 ≤ o)
    (hB : slice B o 4 = markBytes m) : CellsOk (putMark f m o) B (ms ++ [(m, o)]) [] := by
  have hml := markBytes_length m
  have hself : splice B o (markBytes m) = B := splice_self (by omega) (by rw [hml]; exact hB)
  have hlen := h.len
  have := h.addMark m o ho hdis (f' := putMark f m o) (by
      conv => lhs; rw [← hself]
      rw [dat_splice (by omega), if_pos (by omega)]
      congr 1; omega) (putMark_length _ _ _) (by
      intro i
      unfold putMark
      rw [getD_map_range_bool]
      by_cases hi : i < f.length
      · rw [if_pos hi]
      · rw [if_neg hi, if_neg (by omega)]
        simp only [List.getD_eq_getElem?_getD]
        rw [List.getElem?_eq_none (by omega)]; rfl)
  rw [hself] at this
  exact this

theorem putMarks_cells {B : List Byte} : ∀ (l : List (Marker × Nat)) {f : List Bool}
    {ms : List (Marker × Nat)}, CellsOk f B ms [] →
    (∀ x ∈ l, x.2 + 4 ≤ B.length ∧ slice B x.2 4 = markBytes x.1) →
    (∀ x ∈ ms, ∀ y ∈ l, x.2 + 4 ≤ y.2) → l.Pairwise (fun a b => a.2 + 4 ≤ b.2) →
    CellsOk (l.foldl (fun f x => putMark f x.1 x.2) f) B (ms ++ l) []
  | [], f, ms, h, _, _, _ => by rw [List.append_nil]; exact h
  | x :: l, f, ms, h, hl, hd, hp => by
    obtain ⟨h1, h2⟩ := hl x (by simp)
    rw [List.pairwise_cons] at hp
    have hstep := putMark_cells h x.1 x.2 h1 (fun m' o' hmo => hd (m', o') hmo x (by simp)) h2
    have := putMarks_cells l hstep (fun y hy => hl y (by simp [hy])) (by
      intro a ha b hb
      rcases List.mem_append.1 ha with ha | ha
      · exact hd a ha b (by simp [hb])
      · have : a = (x.1, x.2) := by simpa using ha
        rw [this]; exact hp.1 b hb) hp.2
    rw [List.append_assoc] at this
    exact this

/-- Any bytes that contain the sectors, separated by gap or sync bytes, are the contents of some
well-formed track. -/
theorem trackOk_exists (B : List Byte) (secs : List Sec) (lo : Nat) (hlo : 0 < lo)
    (hne : secs ≠ []) (hsec : ∀ x ∈ secs, SecBytes B x) (hpl : Placed B.length lo secs)
    (hgap : ∀ x ∈ secs, x.stop < B.length → B.getD x.stop 0 = gapByte ∨ B.getD x.stop 0 = syncByte) :
    ∃ t, TrackOk t none secs := by
  obtain ⟨p1, p2⟩ := placed_marks hpl
  have hmk : marksOf none secs = secMarks secs := rfl
  have hc := putMarks_cells (secMarks secs) (cells_encode B) (by
    intro y hy
    have hle := (p1 y hy).2
    obtain ⟨x, hx, hy'⟩ := List.mem_flatMap.1 hy
    obtain ⟨q1, q2, q3⟩ := placed_mem hpl hx
    obtain ⟨m1, m2⟩ := (hsec x hx).marks q2 q3
    simp only [List.mem_cons, List.not_mem_nil, or_false] at hy'
    rcases hy' with rfl | rfl
    · exact ⟨hle, m1⟩
    · exact ⟨hle, m2⟩) (by simp) p2
  rw [List.nil_append] at hc
  let f := (secMarks secs).foldl (fun f x => putMark f x.1 x.2) (encode B false)
  let s : Mfm := ⟨BitRing.ofBits f, { BitRing.ofBits (List.replicate f.length false) with wrapValue := some false },
    false, BitRing.ofBits [], 0⟩
  have hs : StreamOk s B none secs := by
    refine ⟨rfl, rfl, Or.inl rfl, rfl, ?_, hsec, by simp, lo, hlo, by simp, hpl⟩
    refine CellsOk.mono hc (by simp) ?_
    intro b hb hbl
    obtain ⟨x, hx, rfl⟩ := List.mem_map.1 hb
    exact hgap x hx hbl
  have hshape : ClockShape s := by
    refine ⟨rfl, rfl, ?_⟩
    show 16 * ((f.length + 15) / 16) ≤ (List.replicate f.length false).length + 15
    rw [List.length_replicate]; omega
  have hmne : marksOf none secs ≠ [] := by
    cases secs with
    | nil => exact absurd rfl hne
    | cons x l => simp [marksOf]
  obtain ⟨cm, h1, h2, h3⟩ := hs.clock hshape hmne
  refine ⟨⟨_, itemsOf none secs, some .system34⟩, ⟨B, hs.clockMap { s.clockMap with bits := cm }⟩, h3,
    ⟨?_, rfl, ?_⟩, rfl, rfl⟩
  · show s.clockMap.wrap = cm.length
    rw [h2]; exact hshape.wrap
  · show _ ≤ cm.length + 15
    rw [h2]; exact hshape.size

end Fox
