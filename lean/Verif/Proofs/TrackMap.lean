import Verif.Spec.TrackMap
import Verif.Proofs.FormatTrack
import Verif.Props.Crc
/-
The track refines the map of Spec/TrackMap.
-/
namespace Fox
open Fox.Spec Fox.S34

theorem matchesB_agrees (q : Query) (x : Chsn) : q.matchesB x = agrees q x := by
  rcases q with ⟨c, h, s, n⟩
  rw [Bool.eq_iff_iff]
  cases c <;> cases h <;> cases n <;> simp [Query.matchesB, agrees, and_assoc]

theorem hit_none (q : Query) (x : Sec) : Hit q ((none : Option Nat).getD 0) x ↔ agrees q x.id = true := by
  unfold Hit
  rw [matchesB_agrees]
  simp

/-- The map a list of sectors stands for. -/
def toMap (secs : List Sec) : SectorMap := secs.map fun x => (x.id, x.data)

/-- Ordinary sector with a correct CRC. -/
def Clean (x : Sec) : Prop := x.del = false ∧ x.de = false ∧ x.crc = x.goodCrc

theorem lookup_cases (q : Query) (secs : List Sec) :
    ((toMap secs).lookup q = none ∧ ∀ y ∈ secs, ¬ Hit q ((none : Option Nat).getD 0) y) ∨
    ∃ a x b, secs = a ++ x :: b ∧ (∀ y ∈ a, ¬ Hit q ((none : Option Nat).getD 0) y) ∧
      Hit q ((none : Option Nat).getD 0) x ∧ (toMap secs).lookup q = some x.data ∧
      ∀ x' : Sec, x'.id = x.id → (toMap secs).update q x'.data = toMap (a ++ x' :: b) := by
  induction secs with
  | nil => left; exact ⟨rfl, by simp⟩
  | cons y secs ih =>
    by_cases hy : agrees q y.id = true
    · right
      refine ⟨[], y, secs, rfl, by simp, (hit_none q y).2 hy, ?_, ?_⟩
      · show (if agrees q y.id then _ else _) = _
        rw [if_pos hy]
      · intro x' hx'
        show (if agrees q y.id then _ else _) = _
        rw [if_pos hy]
        show (y.id, x'.data) :: _ = (x'.id, x'.data) :: _
        rw [hx']
    · rcases ih with ⟨h1, h2⟩ | ⟨a, x, b, h1, h2, h3, h4, h5⟩
      · left
        refine ⟨?_, ?_⟩
        · show (if agrees q y.id then _ else _) = _
          rw [if_neg hy]; exact h1
        · intro z hz
          rcases List.mem_cons.1 hz with rfl | hz
          · rw [hit_none]; exact hy
          · exact h2 z hz
      · right
        refine ⟨y :: a, x, b, by rw [h1]; rfl, ?_, h3, ?_, ?_⟩
        · intro z hz
          rcases List.mem_cons.1 hz with rfl | hz
          · rw [hit_none]; exact hy
          · exact h2 z hz
        · show (if agrees q y.id then _ else _) = _
          rw [if_neg hy]; exact h4
        · intro x' hx'
          show (if agrees q y.id then _ else _) = _
          rw [if_neg hy]
          exact congrArg ((y.id, y.data) :: ·) (h5 x' hx')

theorem fresh_eq (std : Standard) (pat : List Byte) (gap3 : Nat) : ∀ (ids : List Chsn) (base off : Nat),
    toMap (layout std pat gap3 base off ids) = SectorMap.fresh pat off ids
  | [], _, _ => rfl
  | x :: xs, base, off => by
    rw [layout]
    show (onDisk x, fillBytes pat off x.size) :: toMap (layout std pat gap3 _ _ xs) = _
    rw [fresh_eq std pat gap3 xs]; rfl

theorem Spec.TrackOk.formattable {t : Track} {iam : Option Nat} {secs : List Sec} (h : TrackOk t iam secs) :
    Formattable t := by
  obtain ⟨B, hs⟩ := h.stream
  exact ⟨hs.noWeak, hs.weakWrap, h.shape, h.schema⟩

theorem Fits_len {std : Standard} {gap3 : Nat} {ids : List Chsn} {a b : Nat}
    (h : (a + 15) / 16 = (b + 15) / 16) (hf : Fits std gap3 ids a) : Fits std gap3 ids b := by
  unfold Fits at *; rw [← h]; exact hf

theorem clean_rescanned {x : Sec} (h : Clean x) : x.rescanned = x := by
  unfold Sec.rescanned
  rw [h.2.2, bne_self_eq_false]
  conv => rhs; rw [show x = ⟨x.io, x.dof, x.id, x.data, x.crc, x.del, x.de⟩ from rfl, h.2.2, h.2.1]

theorem map_rescanned {secs : List Sec} (h : ∀ x ∈ secs, Clean x) : secs.map Sec.rescanned = secs := by
  conv => rhs; rw [← List.map_id secs]
  exact List.map_congr_left fun x hx => clean_rescanned (h x hx)

theorem clean_written {x : Sec} (h : x.del = false) (buf : List Byte) : Clean (x.written buf) := by
  refine ⟨h, rfl, ?_⟩
  unfold Sec.written Sec.goodCrc
  simp only [h, dataMark, Bool.false_eq_true, if_false]
  rw [show damBytes = markBytes .dam from rfl]
  exact (C10_incremental (markBytes .dam) buf none).symm

/-- A rescan of a well-formed track catalogues the same sectors, with the data-error flags
recomputed. -/
theorem Spec.TrackOk.rescan {t : Track} {iam : Option Nat} {secs : List Sec} (h : TrackOk t iam secs)
    (rnd : Nat → Bool) :
    ∃ t', t.rescan34 rnd = .ok t' ∧ TrackOk t' iam (secs.map Sec.rescanned) ∧
      t'.data.len = t.data.len ∧ t'.data.bits = t.data.bits := by
  obtain ⟨B, hs⟩ := h.stream
  have hplaced := hs.placed
  have hmarks : marksOf iam (secs.map Sec.rescanned) = marksOf iam secs := by
    unfold marksOf
    rw [List.flatMap_map]; rfl
  have hstream : ∀ s : Mfm, StreamOk s B iam secs → StreamOk s B iam (secs.map Sec.rescanned) := by
    intro s hs
    refine ⟨hs.wrap, hs.wrapValue, hs.noWeak, hs.weakWrap, ?_, ?_, hs.iamPos, ?_⟩
    · rw [hmarks, List.map_map]; exact hs.cells
    · intro x hx
      obtain ⟨y, hy, rfl⟩ := List.mem_map.1 hx
      have := hs.secOk y hy
      exact ⟨this.idOk, this.size, this.header, this.body⟩
    · obtain ⟨lo, a, b, c⟩ := hs.placed
      exact ⟨lo, a, b, placed_rescanned c⟩
  unfold Track.rescan34
  rw [hs.scanMarkers]
  by_cases hne : marksOf iam secs = []
  · have hnil : (marksOf iam secs).map toItem = [] := by rw [hne]; rfl
    simp only [hnil, if_true]
    obtain ⟨c, h4⟩ := hs.scanMetadata h.clock rnd
    rw [hnil] at h4
    rw [h4]
    refine ⟨_, rfl, ⟨⟨B, hstream _ (hs.cursor c)⟩, ?_, ⟨h.shape.wrap, h.shape.wrapValue, h.shape.size⟩,
      rfl, h.schema⟩, rfl, rfl⟩
    intro m o hm; rw [hmarks, hne] at hm; simp at hm
  · have hnil : (marksOf iam secs).map toItem ≠ [] := by simpa using hne
    obtain ⟨cm, h1, h2, h3⟩ := hs.clock h.shape hne
    simp only [if_neg hnil]
    rw [h1]
    simp only [Except.map]
    have hs' := hs.clockMap { t.data.clockMap with bits := cm }
    obtain ⟨c, h4⟩ := hs'.scanMetadata h3 rnd
    rw [h4]
    refine ⟨_, rfl, ⟨⟨B, hstream _ (hs'.cursor c)⟩, ?_, ⟨?_, h.shape.wrapValue, ?_⟩, rfl, h.schema⟩, rfl, rfl⟩
    · intro m o hm; rw [hmarks] at hm; exact h3 m o hm
    · show t.data.clockMap.wrap = cm.length
      rw [h2]; exact h.shape.wrap
    · show _ ≤ cm.length + 15
      rw [h2]; exact h.shape.size

/-- The refinement relation. -/
structure Rel (N : Nat) (t : Track) (iam : Option Nat) (secs : List Sec) : Prop where
  ok : TrackOk t iam secs
  clean : ∀ x ∈ secs, Clean x
  len : (t.data.len + 15) / 16 = (N + 15) / 16

theorem readOk_clean {x : Sec} (h : Clean x) : seenRead (.ok (readOk x)) = .bytes x.data := by
  have h1 : (readOk x).notFound = false := rfl
  have h2 : cleanRead (readOk x) = true := by
    unfold cleanRead readOk
    simp [h.1, h.2.1, h.2.2]
  simp only [seenRead, h1, h2, readOk_bytes, Bool.false_eq_true, if_false, if_true]

/-- What one operation other than a format does to a well-formed track. -/
theorem step_keeps {N : Nat} {t : Track} {iam : Option Nat} {secs : List Sec} (h : Rel N t iam secs)
    (op : TrackOp) (hop : op.KeepsLayout) :
    ∃ secs', Rel N (trackStep t op).1 iam secs' ∧ (trackStep t op).2 = (mapStep (toMap secs) op).2 ∧
      toMap secs' = (mapStep (toMap secs) op).1 ∧ marksOf iam secs' = marksOf iam secs ∧
      itemsOf iam secs' = itemsOf iam secs := by
  cases op with
  | format => exact absurd hop id
  | read rnd q debug =>
    refine ⟨secs, h, ?_, ?_, rfl, rfl⟩
    · rcases lookup_cases q secs with ⟨h1, h2⟩ | ⟨a, x, b, rfl, h2, h3, h4, h5⟩
      · simp only [trackStep, mapStep, h1]
        rw [h.ok.readSector_none rnd q none none .dataOnly h2 debug]
        rfl
      · simp only [trackStep, mapStep, h4]
        rw [h.ok.readSector rnd q none h2 h3 debug, readOk_clean (h.clean x (by simp))]
    · simp only [mapStep]; split <;> rfl
  | rescan rnd =>
    obtain ⟨t', h1, h2, h3, _⟩ := h.ok.rescan rnd
    rw [map_rescanned h.clean] at h2
    refine ⟨secs, ?_, ?_, rfl, rfl, rfl⟩
    · simp only [trackStep, h1]
      exact ⟨h2, h.clean, by rw [h3]; exact h.len⟩
    · simp only [trackStep, h1, seenTrack, mapStep]
  | write q buf deleted debug =>
    rcases lookup_cases q secs with ⟨h1, h2⟩ | ⟨a, x, b, rfl, h2, h3, h4, h5⟩
    · have hw := h.ok.writeSector_none q none h2 buf deleted debug
      refine ⟨secs, ?_, ?_, ?_, rfl, rfl⟩
      · simp only [trackStep, hw]; exact h
      · simp only [trackStep, hw, mapStep, h1]; rfl
      · simp only [mapStep, h1]
    · have hdel := (h.clean x (by simp)).1
      by_cases hb : deleted = true ∨ buf.length ≠ x.data.length
      · have hw := h.ok.writeSector_refused q none h2 h3 deleted debug buf (by
          rcases hb with hb | hb
          · right; rw [hb, hdel]; decide
          · left; exact hb)
        refine ⟨a ++ x :: b, ?_, ?_, ?_, rfl, rfl⟩
        · simp only [trackStep, hw]; exact h
        · simp only [trackStep, hw, mapStep, h4, if_pos hb]; rfl
        · simp only [mapStep, h4, if_pos hb]
      · have hdd : deleted = x.del := by
          rw [hdel]
          cases deleted with
          | false => rfl
          | true => exact absurd (Or.inl rfl) hb
        have hll : buf.length = x.data.length := by
          by_cases hl : buf.length = x.data.length
          · exact hl
          · exact absurd (Or.inr hl) hb
        obtain ⟨t', hw, hok, hlen⟩ := h.ok.writeSector q none h2 h3 debug buf hll
        rw [← hdd] at hw
        refine ⟨a ++ x.written buf :: b, ?_, ?_, ?_, ?_, ?_⟩
        · simp only [trackStep, hw]
          refine ⟨hok, ?_, by rw [hlen]; exact h.len⟩
          intro y hy
          rcases List.mem_append.1 hy with hy | hy
          · exact h.clean y (by simp [hy])
          · rcases List.mem_cons.1 hy with rfl | hy
            · exact clean_written hdel buf
            · exact h.clean y (by simp [hy])
        · simp only [trackStep, hw, mapStep, h4, if_neg hb]; rfl
        · simp only [mapStep, h4, if_neg hb]
          exact (h5 (x.written buf) rfl).symm
        · exact marksOf_replace iam x (x.written buf) a b rfl rfl rfl
        · unfold itemsOf
          congr 2
          rw [List.flatMap_append, List.flatMap_append, List.flatMap_cons, List.flatMap_cons]
          congr 2
          unfold secItems Sec.written
          simp only [(h.clean x (by simp)).2.1, hll]

/-- What a format does. -/
theorem step_format {N : Nat} {t : Track} (ht : Formattable t)
    (hN : (t.data.len + 15) / 16 = (N + 15) / 16) (rnd : Nat → Bool)
    (std : Standard) (ids : List Chsn) (pat : List Byte) (gap3 : Nat)
    (hok : (TrackOp.format rnd std ids pat gap3).Ok N) (hp : pat ≠ []) :
    Rel N (trackStep t (.format rnd std ids pat gap3)).1 (iamOf std) (formatted std pat gap3 ids) ∧
    (trackStep t (.format rnd std ids pat gap3)).2 = .done := by
  obtain ⟨t', h1, h2, h3⟩ := format_trackOk t rnd std ids pat gap3 hp ht hok.1 (Fits_len hN.symm hok.2)
  simp only [trackStep, h1]
  refine ⟨⟨h2, ?_, ?_⟩, rfl⟩
  · intro x hx
    obtain ⟨a, b, c, _⟩ := layout_del std pat gap3 ids _ _ x hx
    exact ⟨a, b, c⟩
  · rw [h3]; omega

theorem run_map {N : Nat} : ∀ (ops : List TrackOp) (t : Track) (iam : Option Nat) (secs : List Sec),
    Rel N t iam secs → (∀ op ∈ ops, op.Ok N) → trackRun t ops = mapRun (toMap secs) ops
  | [], _, _, _, _, _ => rfl
  | op :: ops, t, iam, secs, h, hops => by
    have key : ∃ iam' secs', Rel N (trackStep t op).1 iam' secs' ∧
        (trackStep t op).2 = (mapStep (toMap secs) op).2 ∧ toMap secs' = (mapStep (toMap secs) op).1 := by
      by_cases hk : op.KeepsLayout
      · obtain ⟨secs', h1, h2, h3, _⟩ := step_keeps h op hk
        exact ⟨iam, secs', h1, h2, h3⟩
      · cases op with
        | format rnd std ids pat gap3 =>
          by_cases hp : pat = []
          · have hf : t.format rnd std ids pat gap3 = .error .parameter := by
              unfold Track.format formatTrackAsBytes; rw [if_pos hp]
            refine ⟨iam, secs, ?_, ?_, ?_⟩
            · simp only [trackStep, hf]; exact h
            · simp only [trackStep, hf, mapStep, if_pos hp]; rfl
            · simp only [mapStep, if_pos hp]
          · obtain ⟨h1, h2⟩ := step_format h.ok.formattable h.len rnd std ids pat gap3
              (hops _ (by simp)) hp
            refine ⟨_, _, h1, ?_, ?_⟩
            · rw [h2]; simp only [mapStep, if_neg hp]
            · simp only [mapStep, if_neg hp]
              exact fresh_eq std pat gap3 ids _ 0
        | _ => exact absurd trivial hk
    obtain ⟨iam', secs', h1, h2, h3⟩ := key
    show _ :: _ = _ :: _
    rw [h2, run_map ops _ iam' secs' h1 (fun o ho => hops o (by simp [ho])), h3]

theorem run_keeps {N : Nat} : ∀ (ops : List TrackOp) (t : Track) (iam : Option Nat) (secs : List Sec),
    Rel N t iam secs → (∀ op ∈ ops, op.KeepsLayout) →
    ∃ secs', Rel N (trackAfter t ops) iam secs' ∧ marksOf iam secs' = marksOf iam secs ∧
      itemsOf iam secs' = itemsOf iam secs
  | [], _, _, secs, h, _ => ⟨secs, h, rfl, rfl⟩
  | op :: ops, t, iam, secs, h, hops => by
    obtain ⟨secs1, h1, _, _, h4, h5⟩ := step_keeps h op (hops op (by simp))
    obtain ⟨secs2, g1, g2, g3⟩ := run_keeps ops _ iam secs1 h1 (fun o ho => hops o (by simp [ho]))
    exact ⟨secs2, g1, g2.trans h4, g3.trans h5⟩

end Fox
