import Verif.Proofs.Scan
import Verif.Proofs.Crc
import Verif.Props.ClockMap
/-
Reading the bytes of a well-formed stream, and cataloguing its elements.
-/
namespace Fox
open Fox.Spec Fox.S34

theorem slice_length {B : List Byte} {o k : Nat} (h : o + k ≤ B.length) : (slice B o k).length = k := by
  unfold slice; rw [List.length_take, List.length_drop]; omega

theorem slice_getD (B : List Byte) (o k i : Nat) (h : i < k) : (slice B o k).getD i 0 = B.getD (o + i) 0 := by
  unfold slice
  simp only [List.getD_eq_getElem?_getD, List.getElem?_take, List.getElem?_drop, h, if_true]

theorem dat_slice (B : List Byte) (o k j : Nat) (h : j < 8 * k) : dat (slice B o k) j = dat B (8 * o + j) := by
  unfold dat
  rw [slice_getD _ _ _ _ (by omega)]
  have e1 : (8 * o + j) / 8 = o + j / 8 := by omega
  have e2 : (8 * o + j) % 8 = j % 8 := by omega
  rw [e1, e2]

theorem slice_eq_iff {B : List Byte} {o k : Nat} (w : List Byte) (hw : w.length = k) (h : o + k ≤ B.length) :
    slice B o k = w ↔ ∀ i, i < k → B.getD (o + i) 0 = w.getD i 0 := by
  constructor
  · intro e i hi
    rw [← slice_getD B o k i hi, e]
  · intro e
    apply ext_getD _ _ (0 : Byte) (by rw [slice_length h, hw])
    intro i hi
    rw [slice_length h] at hi
    rw [slice_getD _ _ _ _ hi, e i hi]

section
variable {s : Mfm} {B : List Byte} {iam : Option Nat} {secs : List Sec}

theorem Spec.StreamOk.cursor (h : StreamOk s B iam secs) (c : Nat) :
    StreamOk { s with cursor := c } B iam secs :=
  ⟨h.wrap, h.wrapValue, h.noWeak, h.weakWrap, h.cells, h.secOk, h.iamPos, h.placed⟩

theorem Spec.StreamOk.clockMap (h : StreamOk s B iam secs) (cm : BitRing) :
    StreamOk { s with clockMap := cm } B iam secs :=
  ⟨h.wrap, h.wrapValue, h.noWeak, h.weakWrap, h.cells, h.secOk, h.iamPos, h.placed⟩

/-- Decoded reads behind the first mark return the bytes of the track. -/
theorem Spec.StreamOk.read (h : StreamOk s B iam secs) (hc : ClockOk s iam secs) (rnd : Nat → Bool)
    {m : Marker} {o b n : Nat} (hm : (m, o) ∈ marksOf iam secs) (ho : o ≤ b) (hb : b + n ≤ B.length) :
    s.readDecodedBuf rnd n (16 * b) = slice B b n := by
  have hl := h.cells.len
  have hs := slice_length hb
  have := readDecodedBuf_eq h.noWeak h.weakWrap rnd (slice B b n) (16 * b)
    (fun i hi => nudge_of_aligned (hc m o hm (16 * b + i * 16) (by omega) (by omega))) (by
      intro j hj
      rw [hs] at hj
      rw [BitRing.bitAt_lt h.wrap (by omega), dat_slice _ _ _ _ hj, ← h.cells.data (8 * b + j) (by omega)]
      congr 1; omega)
  rw [hs] at this
  exact this

theorem Spec.StreamOk.read1 (h : StreamOk s B iam secs) (hc : ClockOk s iam secs) (rnd : Nat → Bool)
    {m : Marker} {o b : Nat} (hm : (m, o) ∈ marksOf iam secs) (ho : o ≤ b) (hb : b < B.length) :
    s.readDecodedU8 rnd (16 * b) = B.getD b 0 := by
  have := h.read hc rnd hm ho (n := 1) (by omega)
  have h2 : (s.readDecodedBuf rnd 1 (16 * b)).getD 0 0 = (slice B b 1).getD 0 0 := by rw [this]
  rw [slice_getD _ _ _ _ (by omega)] at h2
  simpa [Mfm.readDecodedBuf] using h2

theorem Spec.StreamOk.aligned (hc : ClockOk s iam secs)
    {m : Marker} {o p n : Nat} (hm : (m, o) ∈ marksOf iam secs) (ho : 16 * o ≤ p) (hp : p % 2 = 0) :
    AlignedAt s p n := fun j _ => hc m o hm (p + 2 * j) (by omega) (by omega)

/-- Seek and read behind the first mark. -/
theorem Spec.StreamOk.seekRead (h : StreamOk s B iam secs) (hc : ClockOk s iam secs) (rnd : Nat → Bool)
    {m : Marker} {o b n : Nat} (hm : (m, o) ∈ marksOf iam secs) (ho : o ≤ b) (hb : b + n ≤ B.length) :
    (s.seekStart (16 * b)).readBytes rnd n =
      (slice B b n, { s with cursor := 16 * b + 16 * n }) := by
  rw [seekStart_eq (nudge_of_aligned (hc m o hm (16 * b) (by omega) (by omega))),
    readBytes_aligned n (16 * b) (Spec.StreamOk.aligned hc hm (by omega) (by omega)),
    h.read hc rnd hm ho hb]

end

/-- The sector as a fresh scan catalogues it: the data-error flag is recomputed. -/
def Spec.Sec.rescanned (s : Sec) : Sec := { s with de := s.crc != s.goodCrc }

theorem idBytes_length (x : Chsn) : (idBytes x).length = 4 := rfl
theorem markBytes_length (m : Marker) : (markBytes m).length = 4 := by cases m <;> rfl
theorem be16_length (x : BitVec 16) : (be16 x).length = 2 := rfl
theorem withCrc_length (l : List Byte) : (withCrc l).length = l.length + 2 := by
  unfold withCrc; rw [List.length_append, be16_length]

theorem placed_mem {N : Nat} : ∀ {lo : Nat} {secs : List Sec} {x : Sec}, Placed N lo secs → x ∈ secs →
    lo ≤ x.io ∧ x.io + 10 ≤ x.dof ∧ x.stop ≤ N
  | lo, [], x, _, hx => by simp at hx
  | lo, s :: rest, x, h, hx => by
    obtain ⟨h1, h2, h3⟩ := h
    rcases List.mem_cons.1 hx with rfl | hx
    · exact ⟨h1, h2, placed_le h3⟩
    · have := placed_mem h3 hx
      refine ⟨?_, this.2⟩
      have h4 := this.1
      unfold Sec.stop at h4
      omega

theorem mem_idam {iam : Option Nat} {secs : List Sec} {x : Sec} (h : x ∈ secs) :
    (Marker.idam, x.io) ∈ marksOf iam secs :=
  mem_marksOf.2 (Or.inr (List.mem_flatMap.2 ⟨x, h, by simp⟩))

theorem mem_dam {iam : Option Nat} {secs : List Sec} {x : Sec} (h : x ∈ secs) :
    (dataMark x.del, x.dof) ∈ marksOf iam secs :=
  mem_marksOf.2 (Or.inr (List.mem_flatMap.2 ⟨x, h, by simp⟩))

theorem ofNat_toNat_byte (n : Nat) (h : n < 256) : (BitVec.ofNat 8 n).toNat = n := by
  rw [BitVec.toNat_ofNat]; exact Nat.mod_eq_of_lt h

section
variable {s : Mfm} {B : List Byte} {iam : Option Nat} {secs : List Sec}

/-- What a header read yields. -/
theorem Spec.StreamOk.readHeader (h : StreamOk s B iam secs) (hc : ClockOk s iam secs)
    (rnd : Nat → Bool) {x : Sec} (hx : x ∈ secs) :
    (readHeader s rnd (16 * x.io)).chsn = x.id ∧ (readHeader s rnd (16 * x.io)).crcValid = true := by
  obtain ⟨lo, _, _, hpl⟩ := h.placed
  obtain ⟨_, hp2, hp3⟩ := placed_mem hpl hx
  have hstop : x.dof + 6 ≤ x.stop := by unfold Sec.stop; omega
  have hm := mem_idam (iam := iam) hx
  have hsec := h.secOk x hx
  have hb : ∀ k, k < 10 → s.readDecodedU8 rnd (16 * x.io + k * 16) =
      (withCrc (markBytes .idam ++ idBytes x.id)).getD k 0 := by
    intro k hk
    rw [show 16 * x.io + k * 16 = 16 * (x.io + k) by omega, h.read1 hc rnd hm (by omega) (by omega)]
    exact (slice_eq_iff _ (by rfl) (by omega)).1 hsec.header k hk
  have hhdr : ((List.range 8).map fun i => s.readDecodedU8 rnd (16 * x.io + i * 16)) =
      markBytes .idam ++ idBytes x.id := by
    apply ext_getD _ _ (0 : Byte) (by simp [markBytes, idBytes])
    intro i hi
    have hi8 : i < 8 := by simpa using hi
    rw [getD_map_range _ _ _ _ hi8, hb i (by omega)]
    unfold withCrc
    rw [getD_append_left _ _ _ _ (by simpa [markBytes, idBytes] using hi8)]
  obtain ⟨c1, c2, c3, c4⟩ := hsec.idOk
  unfold S34.readHeader
  simp only [hhdr]
  constructor
  · show Chsn.mk _ _ _ _ = x.id
    simp only [markBytes, idBytes, List.cons_append, List.nil_append, List.getD_cons_succ,
      List.getD_cons_zero]
    rw [ofNat_toNat_byte _ c1, ofNat_toNat_byte _ c2, ofNat_toNat_byte _ c3, ofNat_toNat_byte _ c4]
  · show (_ == _) = true
    rw [beq_iff_eq, hb 8 (by omega), hb 9 (by omega)]
    exact ofBe16_be16 _

/-- What the data CRC check of the scan yields. -/
theorem Spec.StreamOk.crc16 (h : StreamOk s B iam secs) (hc : ClockOk s iam secs)
    (rnd : Nat → Bool) {x : Sec} (hx : x ∈ secs) :
    S34.crc16 s rnd (16 * x.dof) (16 * x.dof + 64 + x.id.size * 16) =
      ((x.crc, x.goodCrc), { s with cursor := 16 * x.stop }) := by
  obtain ⟨lo, _, _, hpl⟩ := h.placed
  obtain ⟨_, hp2, hp3⟩ := placed_mem hpl hx
  have hm := mem_dam (iam := iam) hx
  have hsec := h.secOk x hx
  have hsz := hsec.size
  have hn : (16 * x.dof + 64 + x.id.size * 16 - 16 * x.dof) / 16 = 4 + x.data.length := by omega
  have hst : x.stop = x.dof + (6 + x.data.length) := by unfold Sec.stop; omega
  have hbody := hsec.body
  unfold S34.crc16
  simp only [hn]
  rw [show 4 + x.data.length + 2 = 6 + x.data.length by omega,
    h.seekRead hc rnd hm (Nat.le_refl _) (n := 6 + x.data.length) (by omega), hbody]
  have hml := markBytes_length (dataMark x.del)
  simp only
  refine Prod.ext (Prod.ext ?_ ?_) ?_
  · simp only
    rw [getD_append_right _ _ _ _ (by rw [List.length_append]; omega),
      getD_append_right _ _ _ _ (by rw [List.length_append]; omega), List.length_append, hml]
    have e1 : 4 + x.data.length - (4 + x.data.length) = 0 := by omega
    have e2 : 4 + x.data.length + 1 - (4 + x.data.length) = 1 := by omega
    rw [e1, e2]
    exact ofBe16_be16 _
  · simp only
    unfold Sec.goodCrc
    congr 1
    rw [List.take_append_of_le_length (by rw [List.length_append]; omega),
      List.take_of_length_le (by rw [List.length_append]; omega)]
  · simp only
    rw [hst]
    congr 1; omega

/-- The elements of the sectors, before the last one is flagged. -/
theorem scanStep_sector (h : StreamOk s B iam secs) (hc : ClockOk s iam secs) (rnd : Nat → Bool)
    {x : Sec} (hx : x ∈ secs) (st : ScanState) (c : Nat) (hst : st.stream = { s with cursor := c })
    (hlm : st.lastMarker ≠ some .idam) :
    ∃ c', (let st' := ([(Marker.idam, x.io), (dataMark x.del, x.dof)].map toItem).foldl (scanStep rnd) st
      st'.stream = { s with cursor := c' } ∧ st'.lastMarker ≠ some .idam ∧
      st'.elems = st.elems ++ secItems x.rescanned) := by
  have h1 := (h.cursor c).readHeader hc rnd hx
  have h2 := (h.cursor c).crc16 hc rnd hx
  have hsz := (h.secOk x hx).size
  refine ⟨16 * x.stop, ?_⟩
  simp only [List.map_cons, List.map_nil, List.foldl_cons, List.foldl_nil, toItem]
  have e1 : scanStep rnd st ⟨.idam, 16 * x.io⟩ =
      { stream := { s with cursor := c },
        elems := st.elems ++ [⟨.marker .idam, 16 * x.io, 16 * x.io + 64, some x.id, false⟩],
        lastMarker := some .idam,
        lastId := S34.readHeader { s with cursor := c } rnd (16 * x.io),
        lastOff := 16 * x.io } := by
    unfold scanStep
    simp only [hst, hlm, if_false, List.append_nil, h1.1]
  rw [e1]
  have hb : (S34.readHeader { s with cursor := c } rnd (16 * x.io)).b.toNat = x.id.n := by
    rw [← h1.1]; rfl
  have hns : nSize x.id.n = x.id.size := rfl
  cases hd : x.del with
  | false =>
    simp only [dataMark, Bool.false_eq_true, if_false]
    unfold scanStep
    simp only [hb, hns, h2, h1.1, h1.2, Bool.not_true]
    refine ⟨trivial, by simp, ?_⟩
    simp only [secItems, Sec.rescanned, dataMark, hd, hsz, List.append_assoc, List.cons_append,
      List.nil_append, Bool.false_eq_true, if_false]
    rfl
  | true =>
    simp only [dataMark, if_true]
    unfold scanStep
    simp only [hb, hns, h2, h1.1, h1.2, Bool.not_true]
    refine ⟨trivial, by simp, ?_⟩
    simp only [secItems, Sec.rescanned, dataMark, hd, hsz, List.append_assoc, List.cons_append,
      List.nil_append, if_true]
    rfl

theorem scan_sectors (h : StreamOk s B iam secs) (hc : ClockOk s iam secs) (rnd : Nat → Bool) :
    ∀ (l : List Sec) (st : ScanState) (c : Nat), (∀ x ∈ l, x ∈ secs) →
      st.stream = { s with cursor := c } → st.lastMarker ≠ some .idam →
      ∃ c', (let st' := ((secMarks l).map toItem).foldl (scanStep rnd) st
        st'.stream = { s with cursor := c' } ∧ st'.lastMarker ≠ some .idam ∧
        st'.elems = st.elems ++ (l.map Sec.rescanned).flatMap secItems)
  | [], st, c, _, hst, hlm => ⟨c, hst, hlm, by simp [secMarks]⟩
  | x :: l, st, c, hl, hst, hlm => by
    obtain ⟨c1, g1, g2, g3⟩ := scanStep_sector h hc rnd (hl x (by simp)) st c hst hlm
    obtain ⟨c2, k1, k2, k3⟩ := scan_sectors h hc rnd l _ c1 (fun y hy => hl y (by simp [hy])) g1 g2
    refine ⟨c2, ?_⟩
    have e : (secMarks (x :: l)).map toItem =
        ([(Marker.idam, x.io), (dataMark x.del, x.dof)].map toItem) ++ (secMarks l).map toItem := rfl
    rw [e, List.foldl_append]
    refine ⟨k1, k2, ?_⟩
    rw [k3, g3]
    simp [List.append_assoc]

theorem items_sorted {N : Nat} : ∀ {lo : Nat} {l : List Sec}, Placed N lo l →
    (∀ x ∈ l.flatMap secItems, 16 * lo ≤ x.start) ∧
    (l.flatMap secItems).Pairwise (fun a b => a.start ≤ b.start)
  | lo, [], h => by simp
  | lo, x :: l, h => by
    obtain ⟨h1, h2, h3⟩ := h
    obtain ⟨i1, i2⟩ := items_sorted h3
    have hs : x.dof ≤ x.stop := by unfold Sec.stop; omega
    rw [List.flatMap_cons]
    constructor
    · intro y hy
      rcases List.mem_append.1 hy with hy | hy
      · simp only [secItems, List.mem_cons, List.not_mem_nil, or_false] at hy
        rcases hy with rfl | rfl | rfl | rfl <;> dsimp only <;> omega
      · have := i1 y hy; omega
    · rw [List.pairwise_append]
      refine ⟨?_, i2, ?_⟩
      · simp only [secItems, List.pairwise_cons, List.mem_cons, List.not_mem_nil, or_false]
        refine ⟨?_, ?_, ?_, fun a h => absurd h (by simp), List.Pairwise.nil⟩
        · rintro y (rfl | rfl | rfl) <;> dsimp only <;> omega
        · rintro y (rfl | rfl) <;> dsimp only <;> omega
        · rintro y rfl; dsimp only; omega
      · intro a ha b hb
        have := i1 b hb
        simp only [secItems, List.mem_cons, List.not_mem_nil, or_false] at ha
        rcases ha with rfl | rfl | rfl | rfl <;> dsimp only <;> omega

theorem placed_rescanned {N : Nat} : ∀ {lo : Nat} {l : List Sec}, Placed N lo l →
    Placed N lo (l.map Sec.rescanned)
  | _, [], h => h
  | _, _ :: _, h => ⟨h.1, h.2.1, placed_rescanned h.2.2⟩

/-- Cataloguing a well-formed stream. -/
theorem Spec.StreamOk.scanMetadata (h : StreamOk s B iam secs) (hc : ClockOk s iam secs)
    (rnd : Nat → Bool) :
    ∃ c, S34.scanMetadata s rnd ((marksOf iam secs).map toItem) =
      (itemsOf iam (secs.map Sec.rescanned), { s with cursor := c }) := by
  obtain ⟨lo, hlo, hiam, hpl⟩ := h.placed
  have hpl' := placed_rescanned hpl
  obtain ⟨s1, s2⟩ := items_sorted hpl'
  let pre : List Inst := iam.toList.map fun o =>
    { elem := .marker .iam, start := 16 * o, stop := 16 * o + 64, chsn := some ⟨0, 0, 0, 0⟩ }
  have hpre : ∃ st : ScanState, st.stream = { s with cursor := s.cursor } ∧ st.lastMarker ≠ some .idam ∧
      st.elems = pre ∧ ((marksOf iam secs).map toItem).foldl (scanStep rnd) { stream := s } =
        ((secMarks secs).map toItem).foldl (scanStep rnd) st := by
    cases hi : iam with
    | none =>
      refine ⟨{ stream := s }, rfl, by simp, ?_, ?_⟩
      · simp [pre, hi]
      · simp [marksOf, secMarks]
    | some o =>
      refine ⟨scanStep rnd { stream := s } ⟨.iam, 16 * o⟩, rfl, by simp [scanStep], ?_, ?_⟩
      · simp [pre, hi, scanStep, SectorId.chsn]
      · simp [marksOf, secMarks, toItem]
  obtain ⟨st, p1, p2, p3, p4⟩ := hpre
  obtain ⟨c, q1, q2, q3⟩ := scan_sectors h hc rnd secs st s.cursor (fun _ h => h) p1 p2
  refine ⟨c, ?_⟩
  unfold S34.scanMetadata
  simp only [p4]
  rw [q1, if_neg q2, List.append_nil, q3, p3]
  unfold itemsOf sortInsts
  rw [List.mergeSort_of_pairwise]
  rw [List.pairwise_append]
  refine ⟨?_, ?_, ?_⟩
  · show List.Pairwise _ (iam.toList.map _)
    cases iam <;> simp
  · exact s2.imp (fun h => by simpa using h)
  · intro a ha b hb
    have h1 := s1 b hb
    show decide _ = true
    rw [decide_eq_true_eq]
    cases hi : iam with
    | none => rw [show pre = [] by simp [pre, hi]] at ha; simp at ha
    | some o =>
      have h2 := hiam o hi
      rw [show pre = [_] by simp [pre, hi]; rfl] at ha
      rw [List.mem_singleton.1 ha]
      show 16 * o ≤ _
      omega

/-- The clock map rebuilt from the marks of a well-formed stream calls for no phase correction. -/
theorem Spec.StreamOk.clock (h : StreamOk s B iam secs) (hs : ClockShape s)
    (hne : marksOf iam secs ≠ []) :
    ∃ cm, createClockMap (((marksOf iam secs).map toItem).map (·.start)) s.clockMap.bits = .ok cm ∧
      cm.length = s.clockMap.bits.length ∧
      ClockOk { s with clockMap := { s.clockMap with bits := cm } } iam secs := by
  obtain ⟨lo, hlo, hiam, hpl⟩ := h.placed
  obtain ⟨p1, p2⟩ := placed_marks hpl
  have hl := h.cells.len
  have hsz := hs.size
  have hslen : s.len = 16 * B.length := hl
  rw [hslen] at hsz
  have hst : ((marksOf iam secs).map toItem).map (·.start) = (marksOf iam secs).map fun x => 16 * x.2 := by
    rw [List.map_map]; rfl
  have hpw : ((marksOf iam secs).map fun x => 16 * x.2).Pairwise (· < ·) := by
    rw [List.pairwise_map]
    have e : marksOf iam secs = iam.toList.map (fun o => (Marker.iam, o)) ++ secMarks secs := rfl
    rw [e, List.pairwise_append]
    refine ⟨by cases iam <;> simp, p2.imp (fun h => by omega), ?_⟩
    intro a ha b hb
    have h1 := p1 b hb
    cases hi : iam with
    | none => rw [hi] at ha; simp at ha
    | some o =>
      rw [hi] at ha
      have h2 := hiam o hi
      have : a = (Marker.iam, o) := by simpa using ha
      rw [this]; dsimp only; omega
  have hbnd : ∀ x ∈ marksOf iam secs, 0 < 16 * x.2 ∧ 16 * x.2 + 1 < s.clockMap.bits.length := by
    intro x hx
    have h4 := (h.cells.mark x.1 x.2 hx).1
    have h0 : 0 < x.2 := by
      rcases mem_marksOf.1 hx with ⟨o, h5, rfl⟩ | h5
      · exact (h.iamPos o h5).1
      · have := p1 x h5; omega
    omega
  obtain ⟨cm, h1, h2, h3, h4, h5, h6⟩ := C29_clock_map ((marksOf iam secs).map fun x => 16 * x.2)
    s.clockMap.bits (by simpa using hne) hpw (by
      intro y hy
      obtain ⟨x, hx, rfl⟩ := List.mem_map.1 hy
      have := hbnd x hx
      omega)
  refine ⟨cm, by rw [hst]; exact h1, h2, ?_⟩
  intro m o hm i hi hev
  have hwrap : (s.clockMap.wrap = cm.length) := by rw [hs.wrap, h2]
  by_cases hlt : i + 1 < s.clockMap.bits.length
  · left
    have hmax : ∀ l : List Nat, (∃ x ∈ l, x ≤ i) → ∃ x ∈ l, x ≤ i ∧ ∀ y ∈ l, x < y → i < y := by
      intro l
      induction l with
      | nil => rintro ⟨x, hx, _⟩; simp at hx
      | cons a l ih =>
        rintro hx
        by_cases hl' : ∃ x ∈ l, x ≤ i
        · obtain ⟨x, hx1, hx2, hx3⟩ := ih hl'
          by_cases ha : a ≤ i ∧ x < a
          · refine ⟨a, by simp, ha.1, ?_⟩
            intro y hy hay
            rcases List.mem_cons.1 hy with rfl | hy
            · omega
            · exact hx3 y hy (by omega)
          · refine ⟨x, by simp [hx1], hx2, ?_⟩
            intro y hy hxy
            rcases List.mem_cons.1 hy with rfl | hy
            · omega
            · exact hx3 y hy hxy
        · obtain ⟨x, hx1, hx2⟩ := hx
          rcases List.mem_cons.1 hx1 with rfl | hx1
          · refine ⟨x, by simp, hx2, ?_⟩
            intro y hy hxy
            rcases List.mem_cons.1 hy with rfl | hy
            · omega
            · apply Nat.lt_of_not_le
              intro hle
              exact hl' ⟨y, hy, hle⟩
          · exact absurd ⟨x, hx1, hx2⟩ hl'
    obtain ⟨x, hx1, hx2, hx3⟩ := hmax ((marksOf iam secs).map fun x => 16 * x.2)
      ⟨16 * o, List.mem_map.2 ⟨(m, o), hm, rfl⟩, hi⟩
    have := h4 x hx1 i hx2 hx3 hlt
    obtain ⟨⟨m', o'⟩, _, rfl⟩ := List.mem_map.1 hx1
    show (BitRing.bitAt { s.clockMap with bits := cm } i) = true
    unfold BitRing.bitAt
    show (if i < s.clockMap.wrap then cm.getD i false else _) = true
    rw [if_pos (by omega), this]
    simp only [Bool.and_eq_true, decide_eq_true_eq]
    refine ⟨by omega, ?_⟩
    intro hmem
    obtain ⟨⟨m', o'⟩, _, he⟩ := List.mem_map.1 hmem
    simp only at he
    omega
  · right
    show (BitRing.bitAt { s.clockMap with bits := cm } (i + 1)) = false
    unfold BitRing.bitAt
    show (if i + 1 < s.clockMap.wrap then cm.getD (i + 1) false else _) = false
    rw [if_neg (by omega)]
    simp only [hs.wrapValue]

end
end Fox
