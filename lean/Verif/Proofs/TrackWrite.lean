import Verif.Proofs.TrackRW
/-
Writing sectors keeps a track well-formed.
-/
namespace Fox
open Fox.Spec Fox.S34

/-- The sector after a successful write of `buf`, as the code performs it: the CRC is seeded with the
data mark bytes, or with the *id* mark bytes when the sector is deleted. -/
def Spec.Sec.written (x : Sec) (buf : List Byte) : Sec :=
  { x with data := buf, crc := crc3740 buf (some (crc3740 (if x.del then idamBytes else damBytes))),
           de := false }

theorem itemsFrom_set (x x' : Sec) (b : List Sec) (h1 : x'.io = x.io) (h2 : x'.dof = x.dof)
    (h3 : x'.id = x.id) (h4 : x'.del = x.del) (h5 : x'.data.length = x.data.length) : ∀ (a : List Sec),
    (itemsFrom (a ++ x :: b)).set (4 * a.length + 2)
      { elem := .data x.id false x'.de x.del, start := 16 * x.dof,
        stop := 16 * x.dof + 64 + x.data.length * 16, chsn := some x.id } = itemsFrom (a ++ x' :: b)
  | [] => by
    rw [List.nil_append, List.nil_append, itemsFrom_cons, itemsFrom_cons]
    unfold lastItem
    rw [h1, h2, h3, h4, h5]; rfl
  | y :: a => by
    rw [List.cons_append, List.cons_append, itemsFrom_cons, itemsFrom_cons,
      List.set_append_right _ _ (by simp; omega)]
    have : 4 * (y :: a).length + 2 - 4 = 4 * a.length + 2 := by simp; omega
    have he : (a ++ x :: b).isEmpty = (a ++ x' :: b).isEmpty := by cases a <;> rfl
    simp only [List.length_cons, List.length_nil] at this ⊢
    rw [this, itemsFrom_set x x' b h1 h2 h3 h4 h5 a, he]

theorem itemsOf_set (iam : Option Nat) (x x' : Sec) (a b : List Sec) (h1 : x'.io = x.io)
    (h2 : x'.dof = x.dof) (h3 : x'.id = x.id) (h4 : x'.del = x.del)
    (h5 : x'.data.length = x.data.length) :
    (itemsOf iam (a ++ x :: b)).set (iam.toList.length + 4 * a.length + 2)
      { elem := .data x.id false x'.de x.del, start := 16 * x.dof,
        stop := 16 * x.dof + 64 + x.data.length * 16, chsn := some x.id } =
      itemsOf iam (a ++ x' :: b) := by
  rw [itemsOf_eq, itemsOf_eq, List.set_append_right _ _ (by simp [iamItems]; omega)]
  have : iam.toList.length + 4 * a.length + 2 -
      (iamItems iam (a ++ x :: b).isEmpty).length = 4 * a.length + 2 := by simp [iamItems]; omega
  have he : (a ++ x :: b).isEmpty = (a ++ x' :: b).isEmpty := by cases a <;> rfl
  rw [this, itemsFrom_set x x' b h1 h2 h3 h4 h5 a, he]

theorem marksOf_replace (iam : Option Nat) (x x' : Sec) (a b : List Sec) (h1 : x'.io = x.io)
    (h2 : x'.dof = x.dof) (h4 : x'.del = x.del) :
    marksOf iam (a ++ x' :: b) = marksOf iam (a ++ x :: b) := by
  unfold marksOf
  simp only [List.flatMap_append, List.flatMap_cons, h1, h2, h4]

theorem placed_append {N : Nat} : ∀ {a : List Sec} {lo : Nat} {b : List Sec}, Placed N lo (a ++ b) →
    ∃ mid, lo ≤ mid ∧ Placed N mid b ∧ ∀ y ∈ a, lo ≤ y.io ∧ y.io + 10 ≤ y.dof ∧ y.stop ≤ mid
  | [], lo, b, h => ⟨lo, Nat.le_refl _, h, by simp⟩
  | y :: a, lo, b, h => by
    obtain ⟨h1, h2, h3⟩ := h
    obtain ⟨mid, g1, g2, g3⟩ := placed_append h3
    have hs : y.dof ≤ y.stop := by unfold Sec.stop; omega
    refine ⟨mid, by omega, g2, ?_⟩
    intro z hz
    rcases List.mem_cons.1 hz with rfl | hz
    · exact ⟨h1, h2, g1⟩
    · have := g3 z hz
      exact ⟨by omega, this.2⟩

theorem placed_replace {N : Nat} {x x' : Sec} {b : List Sec} (h1 : x'.io = x.io) (h2 : x'.dof = x.dof)
    (h5 : x'.data.length = x.data.length) : ∀ {a : List Sec} {lo : Nat}, Placed N lo (a ++ x :: b) →
    Placed N lo (a ++ x' :: b)
  | [], _, h => by
    have : x'.stop = x.stop := by unfold Sec.stop; rw [h2, h5]
    show _ ≤ x'.io ∧ x'.io + 10 ≤ x'.dof ∧ Placed N x'.stop b
    rw [h1, h2, this]; exact h
  | _ :: _, _, h => ⟨h.1, h.2.1, placed_replace h1 h2 h5 h.2.2⟩

/-- Other sectors and their marks are disjoint from the body of a sector. -/
theorem placed_disjoint {N lo : Nat} {x : Sec} {a b : List Sec} (h : Placed N lo (a ++ x :: b)) :
    (∀ y ∈ a, y.io + 10 ≤ y.dof ∧ y.stop ≤ x.io) ∧
    (∀ y ∈ b, x.stop ≤ y.io ∧ y.io + 10 ≤ y.dof ∧ y.stop ≤ N) ∧
    x.io + 10 ≤ x.dof ∧ x.stop ≤ N ∧ lo ≤ x.io := by
  obtain ⟨mid, g1, g2, g3⟩ := placed_append h
  obtain ⟨p1, p2, p3⟩ := g2
  refine ⟨fun y hy => ?_, fun y hy => placed_mem p3 hy, p2, placed_le p3, by omega⟩
  have := g3 y hy; omega

section
variable {s : Mfm} {B : List Byte} {iam : Option Nat} {a b : List Sec} {x : Sec}

/-- Stream part of a write. -/
theorem Spec.StreamOk.write (h : StreamOk s B iam (a ++ x :: b)) (hc : ClockOk s iam (a ++ x :: b))
    (buf : List Byte) (crc : BitVec 16) (de : Bool) (hl : buf.length = x.data.length) :
    ∃ B', StreamOk ((s.writeEncodedBuf buf (16 * x.dof + 4 * 16)).writeEncodedBuf (be16 crc)
        (16 * x.dof + (4 + buf.length) * 16)) B' iam
        (a ++ { x with data := buf, crc := crc, de := de } :: b) := by
  obtain ⟨lo, hlo, hiam, hpl⟩ := h.placed
  obtain ⟨d1, d2, d3, d4, d5⟩ := placed_disjoint hpl
  have hmem : x ∈ a ++ x :: b := by simp
  have hst : x.stop = x.dof + 6 + x.data.length := rfl
  have hcl := h.cells.len
  have hm := mem_dam (iam := iam) hmem
  have n1 : s.nudge (16 * x.dof + 4 * 16) = 16 * x.dof + 4 * 16 :=
    nudge_of_aligned (hc _ _ hm _ (by omega) (by omega))
  have n2 : s.nudge (16 * x.dof + (4 + buf.length) * 16) = 16 * x.dof + (4 + buf.length) * 16 :=
    nudge_of_aligned (hc _ _ hm _ (by omega) (by omega))
  have hel := encode_length buf false
  have hel2 := encode_length (be16 crc) false
  rw [be16_length] at hel2
  obtain ⟨a1, a2, a3, a4⟩ := setMany_spec (encode buf false) s.bits (16 * x.dof + 4 * 16) h.wrap (by omega)
  obtain ⟨b1, b2, b3, b4⟩ := setMany_spec (encode (be16 crc) false)
    (s.bits.setMany (16 * x.dof + 4 * 16) (encode buf false)) (16 * x.dof + (4 + buf.length) * 16)
    (by rw [a1, a3]; exact h.wrap) (by rw [a3]; omega)
  have hs' : (s.writeEncodedBuf buf (16 * x.dof + 4 * 16)).writeEncodedBuf (be16 crc)
        (16 * x.dof + (4 + buf.length) * 16) =
      { s with bits := ((s.bits.setMany (16 * x.dof + 4 * 16) (encode buf false)).setMany (16 * x.dof + (4 + buf.length) * 16) (encode (be16 crc) false)) } := by
    unfold Mfm.writeEncodedBuf
    have n2' : Mfm.nudge { s with bits := s.bits.setMany (16 * x.dof + 4 * 16) (encode buf false) }
        (16 * x.dof + (4 + buf.length) * 16) = 16 * x.dof + (4 + buf.length) * 16 := n2
    rw [n1, n2']
  rw [hs']
  have hxs : (buf ++ be16 crc).length = buf.length + 2 := by rw [List.length_append, be16_length]
  have hfit : x.dof + 4 + (buf ++ be16 crc).length ≤ B.length := by rw [hxs]; omega
  obtain ⟨e1, e2⟩ := two_runs buf (be16 crc)
  have hnew : ({ x with data := buf, crc := crc, de := de } : Sec).stop = x.stop := by
    unfold Sec.stop; simp only [hl]
  have hmarks := marksOf_replace iam x { x with data := buf, crc := crc, de := de } a b rfl rfl rfl
  have hstops : (a ++ ({ x with data := buf, crc := crc, de := de } : Sec) :: b).map Sec.stop =
      (a ++ x :: b).map Sec.stop := by simp [hnew]
  refine ⟨splice B (x.dof + 4) (buf ++ be16 crc), ?_⟩
  refine ⟨?_, ?_, h.noWeak, h.weakWrap, ?_, ?_, h.iamPos, ⟨lo, hlo, hiam, ?_⟩⟩
  · show _ = _
    rw [b1, a1, b3, a3]; exact h.wrap
  · show _ = _
    rw [b2, a2]; exact h.wrapValue
  · rw [hmarks, hstops]
    refine h.cells.write (x.dof + 4) (buf ++ be16 crc) hfit (encode buf false ++ encode (be16 crc) false) _
      e1 e2 (by show _ = _; rw [b3, a3]) ?_ ?_ ?_ ?_
    · intro i
      show ((s.bits.setMany (16 * x.dof + 4 * 16) (encode buf false)).setMany
        (16 * x.dof + (4 + buf.length) * 16) (encode (be16 crc) false)).bits.getD i false = _
      rw [b4, a4, hxs]
      by_cases c1 : 16 * x.dof + (4 + buf.length) * 16 ≤ i ∧
          i < 16 * x.dof + (4 + buf.length) * 16 + (encode (be16 crc) false).length
      · rw [if_pos c1, if_pos (by omega), getD_append_right _ _ _ _ (by omega)]
        congr 1; omega
      · rw [if_neg c1]
        by_cases c2 : 16 * x.dof + 4 * 16 ≤ i ∧ i < 16 * x.dof + 4 * 16 + (encode buf false).length
        · rw [if_pos c2, if_pos (by omega), getD_append_left _ _ _ _ (by omega)]
          congr 1
        · rw [if_neg c2, if_neg (by omega)]
    · intro m o hmo
      rw [hxs]
      rcases mem_marksOf.1 hmo with ⟨o', ho', he⟩ | hmo
      · injection he with _ he
        have := hiam o' ho'
        omega
      · simp only [secMarks, List.mem_flatMap, List.mem_append, List.mem_cons, List.not_mem_nil,
          or_false] at hmo
        obtain ⟨y, hy, hyo⟩ := hmo
        rcases hy with hy | rfl | hy
        · have := d1 y hy
          have hys : y.dof + 4 ≤ y.stop := by unfold Sec.stop; omega
          rcases hyo with hyo | hyo <;> injection hyo with _ hyo <;> omega
        · rcases hyo with hyo | hyo <;> injection hyo with _ hyo <;> omega
        · have := d2 y hy
          rcases hyo with hyo | hyo <;> injection hyo with _ hyo <;> omega
    · intro c hcm
      rw [hxs]
      obtain ⟨y, hy, rfl⟩ := List.mem_map.1 hcm
      rcases List.mem_append.1 hy with hy | hy
      · have := d1 y hy; omega
      · rcases List.mem_cons.1 hy with rfl | hy
        · omega
        · have := d2 y hy
          have hys : y.dof ≤ y.stop := by unfold Sec.stop; omega
          omega
    · rw [hxs]
      refine List.mem_map.2 ⟨x, hmem, by omega⟩
  · intro y hy
    have other : ∀ y ∈ a ++ x :: b, (y.stop ≤ x.io ∨ x.stop ≤ y.io) → y.io + 10 ≤ y.dof → y.stop ≤ B.length →
        SecBytes (splice B (x.dof + 4) (buf ++ be16 crc)) y := by
      intro y hy hdis h10 hsN
      have ho := h.secOk y hy
      have hys : y.stop = y.dof + 6 + y.data.length := rfl
      refine ⟨ho.idOk, ho.size, ?_, ?_⟩
      · rw [slice_splice_disjoint hfit (by omega) (by rw [hxs]; omega)]; exact ho.header
      · rw [slice_splice_disjoint hfit (by omega) (by rw [hxs]; omega)]; exact ho.body
    rcases List.mem_append.1 hy with hy | hy
    · exact other y (by simp [hy]) (by have := d1 y hy; omega) (d1 y hy).1 (by have := d1 y hy; omega)
    · rcases List.mem_cons.1 hy with rfl | hy
      · have ho := h.secOk x hmem
        refine ⟨ho.idOk, by show buf.length = _; rw [hl]; exact ho.size, ?_, ?_⟩
        · show slice _ x.io 10 = _
          rw [slice_splice_disjoint hfit (by omega) (by omega)]; exact ho.header
        · show slice _ x.dof (6 + buf.length) = markBytes (dataMark x.del) ++ buf ++ be16 crc
          have hml := markBytes_length (dataMark x.del)
          rw [slice_eq_iff _ (by simp only [List.length_append, be16_length, hml]; omega)
            (by rw [splice_length hfit]; omega)]
          intro i hi
          rw [splice_getD hfit, List.append_assoc]
          by_cases c : i < 4
          · rw [if_neg (by omega), getD_append_left _ _ _ _ (by omega)]
            have hbody := (slice_eq_iff _ (by simp only [List.length_append, be16_length, hml]; omega)
              (by omega)).1 ho.body i (by omega)
            rw [hbody, List.append_assoc, getD_append_left _ _ _ _ (by omega)]
          · rw [if_pos (by rw [hxs]; omega),
              getD_append_right (markBytes (dataMark x.del)) _ _ _ (by omega), hml]
            congr 1; omega
      · exact other y (by simp [hy]) (by have := d2 y hy; omega) (d2 y hy).2.1 (d2 y hy).2.2
  · rw [splice_length hfit]
    exact placed_replace (x := x) (x' := { x with data := buf, crc := crc, de := de }) rfl rfl hl hpl

end

theorem writeEncodedBuf_len {s : Mfm} {buf : List Byte} {off : Nat}
    (hw : s.bits.wrap = s.bits.bits.length)
    (h : s.nudge off + 16 * buf.length ≤ s.bits.bits.length) :
    (s.writeEncodedBuf buf off).bits.bits.length = s.bits.bits.length := by
  have hel := encode_length buf false
  exact (setMany_spec (encode buf false) s.bits (s.nudge off) hw (by omega)).2.2.1

theorem matchesB_c {q : Query} {x : Chsn} (h : q.matchesB x = true) :
    (match q.c with | some c => x.c != c | none => false) = false ∧
    (match q.h with | some h => x.h != h | none => false) = false := by
  rcases q with ⟨c, hh, sn, n⟩
  cases c <;> cases hh <;> cases n <;> simp_all [Query.matchesB]

/-- A write to a sector that is found, of the right length and mark kind. -/
theorem Spec.TrackOk.writeSector {t : Track} {iam : Option Nat} {a b : List Sec} {x : Sec}
    (h : TrackOk t iam (a ++ x :: b)) (q : Query) (off : Option Nat)
    (ha : ∀ y ∈ a, ¬ Hit q (off.getD 0) y) (hx : Hit q (off.getD 0) x) (debug : Bool)
    (buf : List Byte) (hl : buf.length = x.data.length) :
    ∃ t', t.writeSector q off buf x.del debug = .ok ({}, t') ∧
      TrackOk t' iam (a ++ x.written buf :: b) ∧ t'.data.len = t.data.len := by
  obtain ⟨B, hs⟩ := h.stream
  have hmem : x ∈ a ++ x :: b := by simp
  obtain ⟨lo, hlo, _, hpl⟩ := hs.placed
  obtain ⟨_, hp2, hp3⟩ := placed_mem hpl hmem
  have hsec := hs.secOk x hmem
  have hsz := hsec.size
  obtain ⟨hc1, hc2⟩ := matchesB_c hx.2
  have hst : x.stop = x.dof + 6 + x.data.length := rfl
  have hm := mem_dam (iam := iam) hmem
  have hcl := hs.cells.len
  have n1 : t.data.nudge (16 * x.dof + 4 * 16) = 16 * x.dof + 4 * 16 :=
    nudge_of_aligned (h.clock _ _ hm _ (by omega) (by omega))
  have n2 : t.data.nudge (16 * x.dof + (4 + buf.length) * 16) = 16 * x.dof + (4 + buf.length) * 16 :=
    nudge_of_aligned (h.clock _ _ hm _ (by omega) (by omega))
  let crc := crc3740 buf (some (crc3740 (if x.del then idamBytes else damBytes)))
  let s1 := t.data.writeEncodedBuf buf (16 * x.dof + 4 * 16)
  let s' := s1.writeEncodedBuf (be16 crc) (16 * x.dof + (4 + buf.length) * 16)
  have hl1 : s1.bits.bits.length = t.data.bits.bits.length :=
    writeEncodedBuf_len hs.wrap (by rw [n1]; omega)
  have hw1 : s1.bits.wrap = s1.bits.bits.length := by
    have hel := encode_length buf false
    have g := setMany_spec (encode buf false) t.data.bits (t.data.nudge (16 * x.dof + 4 * 16)) hs.wrap
      (by rw [n1]; omega)
    show (t.data.bits.setMany _ _).wrap = (t.data.bits.setMany _ _).bits.length
    rw [g.1, g.2.2.1]; exact hs.wrap
  have hl2 : s'.bits.bits.length = t.data.bits.bits.length := by
    rw [← hl1]
    refine writeEncodedBuf_len hw1 ?_
    have n2' : s1.nudge (16 * x.dof + (4 + buf.length) * 16) = 16 * x.dof + (4 + buf.length) * 16 := n2
    rw [n2', be16_length, hl1]; omega
  refine ⟨{ t with data := s', items := itemsOf iam (a ++ x.written buf :: b) }, ?_, ?_, ?_⟩
  · unfold Track.writeSector
    rw [h.schema, h.items, findSector_iam,
      findLoop_first q _ x b hx (by omega) a ha _ {} rfl]
    simp only [Bool.false_eq_true, if_false, Bool.false_and]
    rw [if_neg (by simp), if_neg (by omega), itemsOf_getElem]
    simp only [encodeElement]
    have hset := itemsOf_set iam x (x.written buf) a b rfl rfl rfl rfl hl
    rw [← hset]
    have e1 : (match q.c with | some c => x.id.c != c | none => false) = false := hc1
    have e2 : (match q.h with | some h => x.id.h != h | none => false) = false := hc2
    congr 2
    simp only [WriteResult.mk.injEq, true_and]
    exact ⟨hc1, hc2⟩
  · refine ⟨?_, ?_, ?_, rfl, h.schema⟩
    · exact hs.write h.clock buf crc false hl
    · intro m o hmo
      rw [marksOf_replace iam x (x.written buf) a b rfl rfl rfl] at hmo
      exact h.clock m o hmo
    · refine ⟨h.shape.wrap, h.shape.wrapValue, ?_⟩
      have : s'.len = t.data.len := hl2
      show 16 * ((s'.len + 15) / 16) ≤ _
      rw [this]
      exact h.shape.size
  · exact hl2

/-- A search that finds nothing writes nothing. -/
theorem Spec.TrackOk.writeSector_none {t : Track} {iam : Option Nat} {secs : List Sec}
    (h : TrackOk t iam secs) (q : Query) (off : Option Nat)
    (ha : ∀ y ∈ secs, ¬ Hit q (off.getD 0) y) (buf : List Byte) (wd debug : Bool) :
    t.writeSector q off buf wd debug = .ok
      ({ notFound := true, wrongCylinder := secs.any (wrongCyl q (off.getD 0)),
         badCylinder := secs.any (badCyl q (off.getD 0)),
         wrongHead := secs.any (wrongHead q (off.getD 0)) }, t) := by
  unfold Track.writeSector
  rw [h.schema, h.items, findSector_iam, findLoop_none q _ _ ha _ {} rfl]
  simp

/-- A write of the wrong length or with the wrong mark kind is refused. -/
theorem Spec.TrackOk.writeSector_refused {t : Track} {iam : Option Nat} {a b : List Sec} {x : Sec}
    (h : TrackOk t iam (a ++ x :: b)) (q : Query) (off : Option Nat)
    (ha : ∀ y ∈ a, ¬ Hit q (off.getD 0) y) (hx : Hit q (off.getD 0) x) (wd debug : Bool)
    (buf : List Byte) (hl : buf.length ≠ x.data.length ∨ wd ≠ x.del) :
    t.writeSector q off buf wd debug = .error .parameter := by
  obtain ⟨B, hs⟩ := h.stream
  have hmem : x ∈ a ++ x :: b := by simp
  obtain ⟨lo, hlo, _, hpl⟩ := hs.placed
  obtain ⟨_, hp2, hp3⟩ := placed_mem hpl hmem
  have hsz := (hs.secOk x hmem).size
  unfold Track.writeSector
  rw [h.schema, h.items, findSector_iam,
    findLoop_first q _ x b hx (by omega) a ha _ {} rfl]
  simp only [Bool.false_eq_true, if_false, Bool.false_and]
  by_cases hd : wd = x.del
  · rw [if_neg (by simp [hd]), if_pos]
    rcases hl with hl | hl
    · omega
    · exact absurd hd hl
  · rw [if_pos (by simp [hd])]

end Fox
