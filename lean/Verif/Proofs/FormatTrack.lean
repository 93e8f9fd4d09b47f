import Verif.Proofs.Format
/-
`format` yields a track on which cells, clock map and catalogue agree.
-/
namespace Fox
open Fox.Spec Fox.S34

theorem getD_take_lt (B : List Byte) (N i : Nat) (h : i < N) : (B.take N).getD i 0 = B.getD i 0 := by
  simp only [List.getD_eq_getElem?_getD, List.getElem?_take, h, if_true]

/-- The fields of a sector only depend on the bytes of the sector. -/
theorem Spec.SecBytes.transfer {F B : List Byte} {x : Sec} (h : SecBytes F x) (hd : x.io + 10 ≤ x.dof)
    (hN : x.stop ≤ B.length) (hB : ∀ i, x.io ≤ i → i < x.stop → B.getD i 0 = F.getD i 0) :
    SecBytes B x := by
  have hst : x.stop = x.dof + 6 + x.data.length := rfl
  refine ⟨h.idOk, h.size, ?_, ?_⟩
  · refine (slice_eq_iff _ (by simp [withCrc_length, markBytes_length, idBytes_length]) (by omega)).2 ?_
    intro i hi
    rw [hB _ (by omega) (by omega), ← slice_getD F _ 10 i hi, h.header]
  · refine (slice_eq_iff _ (by simp [markBytes_length, be16_length]; omega) (by omega)).2 ?_
    intro i hi
    rw [hB _ (by omega) (by omega), ← slice_getD F _ _ i hi, h.body]

theorem Spec.CellsOk.mono {f : List Bool} {B : List Byte} {ms : List (Marker × Nat)} {bnd bnd' : List Nat}
    (h : CellsOk f B ms bnd) (hs : ∀ b ∈ bnd, b ∈ bnd')
    (hb : ∀ b ∈ bnd', b < B.length → B.getD b 0 = gapByte ∨ B.getD b 0 = syncByte) :
    CellsOk f B ms bnd' :=
  ⟨h.len, h.data, h.mark, fun j a b c d e => (h.clock j a b c d e).imp id
    (fun ⟨x, hx, e⟩ => ⟨x, hs x hx, e⟩), hb⟩

theorem Spec.SecBytes.marks {B : List Byte} {x : Sec} (h : SecBytes B x) (hd : x.io + 10 ≤ x.dof)
    (hN : x.stop ≤ B.length) :
    slice B x.io 4 = markBytes .idam ∧ slice B x.dof 4 = markBytes (dataMark x.del) := by
  have hst : x.stop = x.dof + 6 + x.data.length := rfl
  constructor
  · refine (slice_eq_iff _ (markBytes_length _) (by omega)).2 fun i hi => ?_
    rw [← slice_getD B _ 10 i (by omega), h.header]
    unfold withCrc
    rw [List.append_assoc, getD_append_left _ _ _ _ (by rw [markBytes_length]; omega)]
  · refine (slice_eq_iff _ (markBytes_length _) (by omega)).2 fun i hi => ?_
    rw [← slice_getD B _ (6 + x.data.length) i (by omega), h.body]
    rw [List.append_assoc, getD_append_left _ _ _ _ (by rw [markBytes_length]; omega)]

theorem layout_del (std : Standard) (pat : List Byte) (gap3 : Nat) : ∀ (ids : List Chsn) (base off : Nat),
    ∀ x ∈ layout std pat gap3 base off ids,
      x.del = false ∧ x.de = false ∧ x.crc = x.goodCrc ∧ base + 12 ≤ x.io
  | [], _, _, x, h => by simp [layout] at h
  | y :: ys, base, off, x, h => by
    rw [layout] at h
    rcases List.mem_cons.1 h with rfl | h
    · refine ⟨rfl, rfl, ?_, Nat.le_refl _⟩
      simp only [Sec.goodCrc, dataMark, Bool.false_eq_true, if_false]
    · obtain ⟨a, b, c, d⟩ := layout_del std pat gap3 ys _ _ x h
      exact ⟨a, b, c, by unfold sectorBytes at d; omega⟩

theorem layout_rescanned (std : Standard) (pat : List Byte) (gap3 : Nat) (ids : List Chsn)
    (base off : Nat) : (layout std pat gap3 base off ids).map Sec.rescanned =
      layout std pat gap3 base off ids := by
  conv => rhs; rw [← List.map_id (layout std pat gap3 base off ids)]
  refine List.map_congr_left fun x hx => ?_
  obtain ⟨_, h2, h3, _⟩ := layout_del std pat gap3 ids base off x hx
  unfold Sec.rescanned
  rw [h3, bne_self_eq_false, id]
  conv => rhs; rw [show x = ⟨x.io, x.dof, x.id, x.data, x.crc, x.del, x.de⟩ from rfl, h3, h2]

/-- The sectors' marks recorded over bytes that contain the sectors. -/
theorem overlay_layout {s0 s : Mfm} {B : List Byte} {ms : List (Marker × Nat)} {secs : List Sec} {lo : Nat}
    (h : Overlay s0 s B ms) (hd : ∀ x ∈ secs, x.del = false) (hs : ∀ x ∈ secs, SecBytes B x)
    (hp : Placed B.length lo secs) (hms : ∀ x ∈ ms, x.2 + 4 ≤ lo) :
    Overlay s0 (setTrackMarkers s (secMarks secs)) B (ms ++ secMarks secs) := by
  obtain ⟨p1, p2⟩ := placed_marks hp
  refine Overlay.addAll _ h ?_ ?_ p2
  · intro y hy
    have hle := (p1 y hy).2
    obtain ⟨x, hx, hy'⟩ := List.mem_flatMap.1 hy
    obtain ⟨q1, q2, q3⟩ := placed_mem hp hx
    obtain ⟨m1, m2⟩ := (hs x hx).marks q2 q3
    simp only [List.mem_cons, List.not_mem_nil, or_false] at hy'
    rcases hy' with rfl | rfl
    · exact ⟨(by decide : Marker.idam ≠ .ddam), hle, m1⟩
    · rw [hd x hx] at m2 hle ⊢
      exact ⟨(by decide : dataMark false ≠ .ddam), hle, m2⟩
  · intro a ha b hb
    have := hms a ha
    have := (p1 b hb).1
    omega

/-- Bytes at the start of a formatted track. -/
def preImage : Standard → List Byte
  | .iso => List.replicate isoGap1 gapByte
  | _ => List.replicate ibmGap4a gapByte ++ List.replicate syncLen syncByte

theorem formatPreamble_eq (std : Standard) : formatPreamble std =
    ⟨preImage std, (iamOf std).toList.map (fun o => (Marker.iam, o)), 0⟩ := by cases std <;> rfl

theorem preImage_length (std : Standard) : (preImage std).length = preBytes std := by cases std <;> rfl

/-- The byte image of a formatted track. -/
def fullImage (std : Standard) (pat : List Byte) (gap3 : Nat) (ids : List Chsn) (N : Nat) : List Byte :=
  preImage std ++ bodyImage std pat gap3 0 ids ++
    List.replicate (N - (preImage std ++ bodyImage std pat gap3 0 ids).length) gapByte

theorem formatTrackAsBytes_eq (std : Standard) (cells : Nat) (ids : List Chsn) (pat : List Byte)
    (gap3 : Nat) (hp : pat ≠ []) :
    formatTrackAsBytes std cells ids pat gap3 =
      .ok ((fullImage std pat gap3 ids ((cells + 15) / 16)).take ((cells + 15) / 16),
        marksOf (iamOf std) (formatted std pat gap3 ids)) := by
  obtain ⟨h1, h2⟩ := foldl_format std pat gap3 hp ids (formatPreamble std) 0 (by
    rw [Nat.zero_mod, formatPreamble_eq])
  rw [formatPreamble_eq] at h1 h2
  unfold formatTrackAsBytes
  rw [if_neg hp, formatPreamble_eq]
  simp only [h1, h2, preImage_length, show cells + 16 - 1 = cells + 15 by omega]
  unfold fullImage
  refine congrArg Except.ok (Prod.ext ?_ rfl)
  simp only
  split
  · rfl
  · rw [show (cells + 15) / 16 - (preImage std ++ bodyImage std pat gap3 0 ids).length = 0 by omega]
    simp

/-- The cells `format` records. -/
theorem format_stream (t : Track) (std : Standard) (ids : List Chsn) (pat : List Byte) (gap3 : Nat)
    (ht : Formattable t) (hid : ∀ x ∈ ids, x.WF) (hf : Fits std gap3 ids t.data.len)
    (s : Mfm) (hseq : s = setTrackMarkers (t.data.replace (encode
        ((fullImage std pat gap3 ids ((t.data.len + 15) / 16)).take ((t.data.len + 15) / 16)) false))
        (marksOf (iamOf std) (formatted std pat gap3 ids))) :
    ∃ B, StreamOk s B (iamOf std) (formatted std pat gap3 ids) ∧ B.length = (t.data.len + 15) / 16 ∧
      s.clockMap = t.data.clockMap := by
  generalize hN : (t.data.len + 15) / 16 = N at hseq ⊢
  have hf1 : preBytes std + 4 ≤ N := by have := hf.1; omega
  have hf2 : trackBytes std gap3 ids ≤ N + gap3 := by have := hf.2; omega
  generalize hF : fullImage std pat gap3 ids N = F at hseq
  have hFl : N ≤ F.length := by
    rw [← hF]; unfold fullImage
    rw [List.length_append (bs := List.replicate _ _), List.length_replicate]; omega
  have hsec : ∀ x ∈ formatted std pat gap3 ids, SecBytes F x ∧
      (F.getD x.stop 0 = gapByte ∨ F.getD x.stop 0 = syncByte) := by
    intro x hx
    rw [← hF]
    exact layout_bytes std pat gap3 _ ids (preImage std) 0 hid x (by
      rw [preImage_length]; exact hx)
  have hpl : Placed N (preBytes std + 4) (formatted std pat gap3 ids) :=
    layout_placed std pat gap3 N ids (preBytes std) 0 (preBytes std + 4) (by omega) hf1 hf2
  have hdel : ∀ x ∈ formatted std pat gap3 ids, x.del = false := fun x hx =>
    (layout_del std pat gap3 ids (preBytes std) 0 x hx).1
  -- the bytes after the index mark has been recorded
  have h0 : Overlay t.data (t.data.replace (encode (F.take N) false)) (F.take N) [] := by
    refine ⟨rfl, rfl, cells_encode _, rfl, rfl, rfl⟩
  have hTl : (F.take N).length = N := by rw [List.length_take]; omega
  -- generic conclusion
  have fin : ∀ (B : List Byte) (s1 : Mfm), B.length = N → (∀ i, preBytes std + 4 ≤ i → i < N → B.getD i 0 = F.getD i 0) →
      Overlay t.data s1 B ((iamOf std).toList.map (fun o => (Marker.iam, o))) →
      StreamOk (setTrackMarkers s1 (secMarks (formatted std pat gap3 ids))) B (iamOf std)
        (formatted std pat gap3 ids) ∧ B.length = N ∧
      (setTrackMarkers s1 (secMarks (formatted std pat gap3 ids))).clockMap = t.data.clockMap := by
    intro B s1 hBl hBF ho
    have hsB : ∀ x ∈ formatted std pat gap3 ids, SecBytes B x := by
      intro x hx
      obtain ⟨q1, q2, q3⟩ := placed_mem hpl hx
      refine (hsec x hx).1.transfer q2 (by omega) fun i h1 h2 => hBF i (by omega) (by omega)
    have hov := overlay_layout ho hdel hsB (hBl ▸ hpl) (by
      intro x hx
      obtain ⟨o, h1, rfl⟩ := List.mem_map.1 hx
      have : iamOf std = some o := by simpa using h1
      cases std <;> simp [iamOf] at this <;> subst this <;> simp [preBytes])
    refine ⟨⟨hov.wrap, hov.wrapValue, ?_, ?_, ?_, hsB, ?_, preBytes std + 4, by omega, ?_, hBl ▸ hpl⟩, hBl,
      hov.clock⟩
    · unfold NoWeak; rw [hov.weak, hov.enabled]; exact ht.noWeak
    · rw [hov.weak]; exact ht.weakWrap
    · refine hov.cells.mono (by simp) ?_
      intro b hb hbl
      obtain ⟨x, hx, rfl⟩ := List.mem_map.1 hb
      obtain ⟨q1, q2, q3⟩ := placed_mem hpl hx
      have hst : x.stop = x.dof + 6 + x.data.length := rfl
      rw [hBF _ (by omega) (by omega)]
      exact (hsec x hx).2
    · intro o h; cases std <;> simp [iamOf] at h <;> subst h <;> decide
    · intro o h; cases std <;> simp [iamOf] at h <;> subst h <;> decide
  have hmarks : marksOf (iamOf std) (formatted std pat gap3 ids) =
      (iamOf std).toList.map (fun o => (Marker.iam, o)) ++ secMarks (formatted std pat gap3 ids) := rfl
  have hsplit : ∀ s, setTrackMarkers s (marksOf (iamOf std) (formatted std pat gap3 ids)) =
      setTrackMarkers (setTrackMarkers s ((iamOf std).toList.map (fun o => (Marker.iam, o))))
        (secMarks (formatted std pat gap3 ids)) := by
    intro s; rw [hmarks]; unfold setTrackMarkers; rw [List.foldl_append]
  rw [hsplit] at hseq
  subst hseq
  have hiso : iamOf std = none ∨ iamOf std = some 92 ∧ preBytes std = 92 := by cases std <;> simp [iamOf, preBytes]
  rcases hiso with hi | ⟨hi, hpre⟩
  · refine ⟨F.take N, ?_⟩
    rw [hi] at fin ⊢
    exact fin (F.take N) _ hTl (fun i _ h => getD_take_lt _ _ _ h) h0
  · refine ⟨splice (F.take N) 92 (markBytes .iam), ?_⟩
    have hlen : 92 + (markBytes .iam).length ≤ (F.take N).length := by rw [markBytes_length]; omega
    have hlast : dat (F.take N) (8 * 92 + 31) = dat (markBytes .iam) 31 := by
      have hb : F.getD 95 0 = gapByte ∨ F.getD 95 0 = syncByte := by
        rw [← hF]; unfold fullImage
        have hpl92 : (preImage std).length = 92 := by rw [preImage_length, hpre]
        cases ids with
        | nil =>
          rw [bodyImage, List.append_nil, getD_append_right _ _ _ _ (by omega), hpl92, getD_replicate]
          split <;> simp [syncByte]
        | cons x xs =>
          rw [List.append_assoc, getD_append_right _ _ _ _ (by omega), hpl92]
          right
          unfold bodyImage sectorImage
          simp only [List.append_assoc]
          rw [getD_append_left _ _ _ _ (by simp), getD_replicate]; simp
      unfold dat
      rw [show (8 * 92 + 31) / 8 = 95 by decide, getD_take_lt _ _ _ (by omega)]
      rcases hb with hb | hb <;> rw [hb] <;> decide
    have hov := h0.add .iam 92 (by decide) (by omega) (by simp) hlast
    rw [hi] at fin ⊢
    refine fin (splice (F.take N) 92 (markBytes .iam)) _ (by rw [splice_length hlen, hTl]) ?_ hov
    intro i h1 h2
    rw [splice_getD hlen, markBytes_length, if_neg (by omega), getD_take_lt _ _ _ h2]

/-- `format` on a track that can hold the requested layout. -/
theorem format_trackOk (t : Track) (rnd : Nat → Bool) (std : Standard) (ids : List Chsn)
    (pat : List Byte) (gap3 : Nat) (hp : pat ≠ []) (ht : Formattable t) (hid : ∀ x ∈ ids, x.WF)
    (hf : Fits std gap3 ids t.data.len) :
    ∃ t', t.format rnd std ids pat gap3 = .ok t' ∧
      TrackOk t' (iamOf std) (formatted std pat gap3 ids) ∧
      t'.data.len = 16 * ((t.data.len + 15) / 16) := by
  obtain ⟨B, hs, hB, hcm⟩ := format_stream t std ids pat gap3 ht hid hf _ rfl
  unfold Track.format
  rw [formatTrackAsBytes_eq _ _ _ _ _ hp]
  simp only
  generalize setTrackMarkers (t.data.replace (encode
        ((fullImage std pat gap3 ids ((t.data.len + 15) / 16)).take ((t.data.len + 15) / 16)) false))
        (marksOf (iamOf std) (formatted std pat gap3 ids)) = s at hs hcm ⊢
  rw [hs.scanMarkers]
  have hlen : s.len = 16 * ((t.data.len + 15) / 16) := by
    rw [← hB]; exact hs.cells.len
  have hshape : ClockShape s := by
    refine ⟨by rw [hcm]; exact ht.shape.wrap, by rw [hcm]; exact ht.shape.wrapValue, ?_⟩
    rw [hcm, hlen]
    have := ht.shape.size
    omega
  have hclock : ∃ cm, createClockMap (((marksOf (iamOf std) (formatted std pat gap3 ids)).map toItem).map
        (·.start)) s.clockMap.bits = .ok cm ∧ cm.length = s.clockMap.bits.length ∧
      ClockOk { s with clockMap := { s.clockMap with bits := cm } } (iamOf std)
        (formatted std pat gap3 ids) := by
    by_cases hne : marksOf (iamOf std) (formatted std pat gap3 ids) = []
    · rw [hne]
      have hpos : 0 < s.clockMap.bits.length := by
        have h1 := hshape.size
        rw [hlen] at h1
        have h2 := hf.1
        omega
      obtain ⟨r, h1, h2, _⟩ := clockFill_spec (s.clockMap.bits.length - 1 - 0) s.clockMap.bits 0
        (s.clockMap.bits.length - 1) (by omega) (by omega)
      refine ⟨r, ?_, h2, ?_⟩
      · show (if s.clockMap.bits.length = 0 then _ else _) = _
        rw [if_neg (by omega)]
        exact h1
      · intro m o hm; rw [hne] at hm; simp at hm
    · exact hs.clock hshape hne
  obtain ⟨cm, h1, h2, h3⟩ := hclock
  rw [h1]
  simp only
  have hs' := hs.clockMap { s.clockMap with bits := cm }
  obtain ⟨c, h4⟩ := hs'.scanMetadata h3 rnd
  rw [h4]
  refine ⟨_, rfl, ⟨⟨B, hs'.cursor c⟩, h3, ⟨?_, ?_, ?_⟩, ?_, ht.schema⟩, hlen⟩
  · show s.clockMap.wrap = cm.length
    rw [h2]; exact hshape.wrap
  · exact hshape.wrapValue
  · show _ ≤ cm.length + 15
    rw [h2]; exact hshape.size
  · show itemsOf _ _ = _
    unfold formatted
    rw [layout_rescanned]

end Fox
