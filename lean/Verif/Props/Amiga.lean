import Verif.Proofs.Amiga
/-
C26, C27: Amiga tracks.
-/
namespace Fox
open Fox.Spec

/-- **C26 (element).** A sector data element whose data cells are the Amiga encoding of 128 long words decodes
to the bytes of these words, with recorded and calculated checksum equal, whatever the clock cells hold. -/
theorem C26_element_decodes (s : Mfm) (rnd cell : Nat → Bool) (p : Nat) (vs : List (BitVec 32))
    (hcell : ∀ i, s.cell rnd i = cell i) (hraw : ∀ i, s.bits.bitAt i = cell i)
    (hphase : ∀ j, j < 516 → s.nudge (p + j * 16) = p + j * 16) (hd : AmigaData cell p vs) :
    ∃ buf crc, Amiga.decodeData s rnd p 516 = .ok (buf, (crc, crc)) ∧ buf.length = 516 ∧
      buf.drop 4 = longBytes vs := by
  obtain ⟨sum, h1, _⟩ := decodeData_good ⟨hcell, hraw⟩ hd hphase
  refine ⟨_, sum, h1, ?_, rfl⟩
  rw [List.length_append, longBytes_length, hd.len]
  rfl

/-- **C26 (track).** Scan any cells that hold an Amiga track whose sector labels are zero (what AmigaDOS
writes), then read by any query: the bytes of the first sector whose id agrees with the query, without error
flags; "not found" when there is none.  The last sector may wrap around the end of the track. -/
theorem C26_track_reads_partial (bits : List Bool) (secs : List AmigaSector)
    (h : AmigaTrack (fun i => bits.getD (i % bits.length) false) bits.length secs)
    (hl : ∀ x ∈ secs, x.label = [0, 0, 0, 0]) (rnd rnd' : Nat → Bool) :
    ∃ s t, Mfm.new bits none none = .ok s ∧ Amiga.scan s rnd = .ok t ∧
      ∀ q debug n, n = none ∨ n = some 2 →
        ∃ r, t.readSector rnd' q n none .dataOnly debug = .ok r ∧
          match secs.find? (fun x => agrees q x.id) with
          | none => r.notFound = true ∧ r.bytes = []
          | some x => r.notFound = false ∧ r.noDam = false ∧ r.addressCrcError = false ∧
              r.dataCrcError = false ∧ r.deletedMark = false ∧ r.idChsn = some x.id ∧
              (∃ c, r.dataCrc = some (c, c)) ∧ r.bytes = longBytes x.body := by
  obtain ⟨s, t, h1, h2, h3, h4, h5⟩ := h.scan bits secs rnd
  rw [flatMap_good (h4 rnd) secs fun x hx => ⟨h5 x hx, h.header x hx, hl x hx, h.data x hx, h.ids x hx⟩] at h3
  refine ⟨s, t, h1, h2, fun q debug n hn => ?_⟩
  obtain ⟨g1, g2⟩ := findLoop_good q secs [] {} rfl
  unfold Amiga.Track.readSector Amiga.findSectorElement
  rw [h3]
  cases hf : secs.find? (fun x => agrees q x.id) with
  | none =>
    obtain ⟨wc, bc, wh, e⟩ := g2 hf
    simp only [Option.getD_none]
    rw [show (0 : Nat) = ([] : List Amiga.Inst).length from rfl] at *
    rw [e]
    exact ⟨_, rfl, rfl, rfl⟩
  | some x =>
    have hx := List.mem_of_find?_eq_some hf
    obtain ⟨ei, e1, e2⟩ := g1 x hf
    rw [List.nil_append] at e2
    obtain ⟨sum, d1, _⟩ := decodeData_good (h4 rnd') (h.data x hx) (fun j hj => by
      have := h5 x hx (26 + j) (by omega)
      rwa [show x.pos + (26 + j) * 16 = x.pos + 416 + j * 16 by omega] at this)
    have e1 : Amiga.findLoop q ((none : Option Nat).getD 0) 0 {} (secs.flatMap goodElems) =
      .found ei x.id false false false false false := e1
    rw [e1]
    have hs : x.id.size = 512 := by unfold Chsn.size; rw [(h.ids x hx).2.2.2]; rfl
    have hs2 : nSize 2 = 512 := rfl
    simp only [Bool.false_eq_true, if_false, Bool.false_and, e2, Amiga.Elem.size, Amiga.Elem.range]
    have e416 : x.pos + 26 * 16 = x.pos + 416 := rfl
    have e516 : 512 + (516 - (516 - 4)) = 516 := rfl
    rcases hn with rfl | rfl <;> simp only [hs, hs2, e416, e516, d1]
    all_goals
      refine ⟨_, rfl, rfl, rfl, rfl, rfl, rfl, rfl, ⟨sum, rfl⟩, ?_⟩
      unfold ReadResult.bytes
      simp only []
      rw [List.take_of_length_le (by
        rw [List.length_append, longBytes_length, (h.data x hx).len]; exact Nat.le_refl _)]
      rfl

/-! ### Every sector content occurs on a track -/

/-- The half longs of a sector, from its sync words on. -/
def exampleHalves (info l : BitVec 32) (body : List (BitVec 32)) : List (BitVec 32) :=
  ([0, info >>> 1, info, 0, 0, 0, l >>> 1, 0, 0, 0, l,
   amigaSum [info, 0, 0, 0, l] >>> 1, amigaSum [info, 0, 0, 0, l], amigaSum body >>> 1, amigaSum body] : List (BitVec 32)) ++
  body.map (fun (v : BitVec 32) => (v >>> 1 : BitVec 32)) ++ body

/-- Cell `i` of a track with one sector at cell 64: the marker pattern from cell 32 on, data cells from 96 on, all
other clock cells set. -/
def exampleCell (info l : BitVec 32) (body : List (BitVec 32)) (i : Nat) : Bool :=
  if 32 ≤ i ∧ i < 96 then (0x2AAAAAAA44894489#64).getMsbD (i - 32)
  else if i % 2 = 0 then true
  else if i < 96 then false
  else ((exampleHalves info l body).getD ((i - 64) / 32) 0).getMsbD (i % 32)

/-- The cells of that track. -/
def exampleBits (info l : BitVec 32) (body : List (BitVec 32)) : List Bool :=
  (List.range 8832).map (exampleCell info l body)

theorem example_sync_base : ∀ d : Fin 64, d.1 ≠ 32 → ∃ k : Fin 64, 1 ≤ k.1 ∧ d.1 + k.1 < 96 ∧
    exampleCell 0 0 [] (d.1 + k.1) ≠ (0x2AAAAAAA44894489#64).getMsbD k.1 := by decide +kernel

theorem exampleCell_low (info l : BitVec 32) (body : List (BitVec 32)) (i : Nat) (h : i < 96) :
    exampleCell info l body i = exampleCell 0 0 [] i := by
  unfold exampleCell
  simp only [h, if_true]

theorem example_sync (info l : BitVec 32) (body : List (BitVec 32))
    (f : Nat → Bool) (hc : ∀ i, i < 8832 → f i = exampleCell info l body i) (x : AmigaSector) (hx : x.pos = 64) :
    ∀ p, SyncAt f 8832 p ↔ ∃ y ∈ [x], y.pos = p := by
  intro p
  constructor
  · rintro ⟨h1, h2, h3⟩
    refine ⟨_, List.mem_singleton.2 rfl, ?_⟩
    rw [hx]
    apply Classical.byContradiction
    intro hne
    by_cases hp : p < 96
    · obtain ⟨k, k1, k2, k3⟩ := example_sync_base ⟨p - 32, by omega⟩ (by simp only []; omega)
      have := h3 k.1 k1 k.2
      simp only [] at k2 k3
      rw [hc _ (by omega), exampleCell_low _ _ _ _ (by omega)] at this
      exact k3 this
    · have h32 := h3 32 (by omega) (by omega)
      have h35 := h3 35 (by omega) (by omega)
      rw [hc _ (by omega)] at h32 h35
      have e32 : (0x2AAAAAAA44894489#64).getMsbD 32 = false := by decide
      have e35 : (0x2AAAAAAA44894489#64).getMsbD 35 = false := by decide
      rw [e32] at h32
      rw [e35] at h35
      unfold exampleCell at h32 h35
      rw [if_neg (by omega)] at h32 h35
      rcases Nat.mod_two_eq_zero_or_one p with hm | hm
      · rw [if_pos (by omega)] at h32; simp at h32
      · rw [if_pos (by omega)] at h35; simp at h35
  · rintro ⟨y, hy, rfl⟩
    have hy := List.mem_singleton.1 hy
    subst hy
    rw [hx]
    refine ⟨by omega, by omega, fun k k1 k2 => ?_⟩
    rw [hc _ (by omega)]
    unfold exampleCell
    rw [if_pos (by omega), show 64 - 32 + k - 32 = k by omega]

theorem example_track_aux (x : AmigaSector) (info l : BitVec 32)
    (hb : x.body.length = 128) (hid : x.id.c < 128 ∧ x.id.h < 2 ∧ x.id.s < 256 ∧ x.id.n = 2)
    (hinfo : amigaInfo x.id x.toGap = info) (hl : x.label = [0, 0, 0, l]) (hpos : x.pos = 64)
    (f : Nat → Bool) (hc : ∀ i, i < 8832 → f i = exampleCell info l x.body i) :
    AmigaTrack f 8832 [x] := by
  generalize hbody : x.body = body at hb hc
  have hhl : ∀ L v p, p = 64 + 32 * L → 1 ≤ L → L < 271 → (exampleHalves info l body).getD L 0 = v →
      HasLong f p v := by
    intro L v p h0 h1 h2 h3 k hk
    rw [h0]
    rw [hc _ (by omega)]
    unfold exampleCell
    rw [if_neg (by omega), if_neg (by omega), if_neg (by omega),
      show (64 + 32 * L + 2 * k + 1 - 64) / 32 = L by omega, h3]
    congr 1
    omega
  have hodd : ∀ i, i < 128 → (exampleHalves info l body).getD (15 + i) 0 = (body.getD i 0) >>> 1 := by
    intro i hi
    unfold exampleHalves
    rw [getD_append_left _ _ _ _ (by simp only [List.length_append, List.length_map, List.length_cons, List.length_nil]; omega), getD_append_right _ _ _ _ (by simp only [List.length_cons, List.length_nil]; omega)]
    simp only [List.length_cons, List.length_nil, List.getD_eq_getElem?_getD, List.getElem?_map]
    rw [show 15 + i - (0 + 1 + 1 + 1 + 1 + 1 + 1 + 1 + 1 + 1 + 1 + 1 + 1 + 1 + 1 + 1) = i by omega,
      List.getElem?_eq_getElem (by omega)]
    rfl
  have heven : ∀ i, i < 128 → (exampleHalves info l body).getD (143 + i) 0 = body.getD i 0 := by
    intro i hi
    unfold exampleHalves
    rw [getD_append_right _ _ _ _ (by
      simp only [List.length_append, List.length_map, List.length_cons, List.length_nil]; omega)]
    congr 1
    simp only [List.length_append, List.length_map, List.length_cons, List.length_nil]; omega
  refine ⟨example_sync info l body f hc _ hpos, by simp, ?_, ?_, ?_⟩
  · intro y hy
    have hy := List.mem_singleton.1 hy
    subst hy
    rw [hinfo, hpos, hl]
    refine ⟨rfl, ⟨hhl 1 _ _ (by omega) (by omega) (by omega) rfl, hhl 2 _ _ (by omega) (by omega) (by omega) rfl⟩, ?_,
      hhl 11 _ _ (by omega) (by omega) (by omega) rfl, hhl 12 _ _ (by omega) (by omega) (by omega) rfl⟩
    intro i hi
    rcases i with _ | _ | _ | _ | i
    · exact ⟨hhl 3 _ _ (by omega) (by omega) (by omega) (by simp [exampleHalves]), hhl 7 _ _ (by omega) (by omega) (by omega) rfl⟩
    · exact ⟨hhl 4 _ _ (by omega) (by omega) (by omega) (by simp [exampleHalves]), hhl 8 _ _ (by omega) (by omega) (by omega) rfl⟩
    · exact ⟨hhl 5 _ _ (by omega) (by omega) (by omega) (by simp [exampleHalves]), hhl 9 _ _ (by omega) (by omega) (by omega) rfl⟩
    · exact ⟨hhl 6 _ _ (by omega) (by omega) (by omega) rfl, hhl 10 _ _ (by omega) (by omega) (by omega) rfl⟩
    · omega
  · intro y hy
    have hy := List.mem_singleton.1 hy
    subst hy
    rw [hpos, hbody]
    refine ⟨hb, ⟨hhl 13 _ _ (by omega) (by omega) (by omega) rfl, hhl 14 _ _ (by omega) (by omega) (by omega) rfl⟩, fun i hi => ⟨?_, ?_⟩⟩
    · exact hhl (15 + i) _ _ (by omega) (by omega) (by omega) (hodd i hi)
    · exact hhl (143 + i) _ _ (by omega) (by omega) (by omega) (heven i hi)
  · intro y hy
    have hy := List.mem_singleton.1 hy
    subst hy
    exact hid

/-- Whatever the info long, the last label long and the contents are, some track holds that sector. -/
theorem example_track (x : Chsn) (g : Byte) (l : BitVec 32) (body : List (BitVec 32)) (hb : body.length = 128)
    (hid : x.c < 128 ∧ x.h < 2 ∧ x.s < 256 ∧ x.n = 2) :
    AmigaTrack (fun i => (exampleBits (amigaInfo x g) l body).getD
        (i % (exampleBits (amigaInfo x g) l body).length) false)
      (exampleBits (amigaInfo x g) l body).length [⟨64, x, g, [0, 0, 0, l], body⟩] := by
  have hlen : (exampleBits (amigaInfo x g) l body).length = 8832 := by
    rw [exampleBits, List.length_map, List.length_range]
  rw [hlen]
  apply example_track_aux ⟨64, x, g, [0, 0, 0, l], body⟩ (amigaInfo x g) l hb hid rfl rfl rfl
  intro i hi
  rw [Nat.mod_eq_of_lt hi]
  exact getD_map_range _ _ _ _ hi

/-- A concrete track: cylinder 3, head 1, sector 5, a non-trivial body; `C26_track_reads_partial` applies. -/
example : ∃ (bits : List Bool) (secs : List AmigaSector),
    AmigaTrack (fun i => bits.getD (i % bits.length) false) bits.length secs ∧
    (∀ x ∈ secs, x.label = [0, 0, 0, 0]) ∧ secs.length = 1 := by
  have hlen : (0xDEADBEEF#32 :: List.replicate 127 0x12345678#32).length = 128 := by
    rw [List.length_cons, List.length_replicate]
  generalize (0xDEADBEEF#32 :: List.replicate 127 0x12345678#32) = body at hlen
  refine ⟨_, _, example_track ⟨3, 1, 5, 2⟩ 6 0 body hlen ⟨by decide, by decide, by decide, rfl⟩, ?_, rfl⟩
  intro x hx
  rw [List.mem_singleton.1 hx]

/-! ### Where the property fails -/

/-- **C26 fails** for sectors that use the label: the header checksum is taken over ten bytes (the info long and
part of the label) instead of twenty, so a sector with correct checksums but a label such as `[0, 0, 0, 1]` reads as
having a bad header, and none of its bytes are returned. -/
theorem C26_false_label (x : Chsn) (hid : x.c < 128 ∧ x.h < 2 ∧ x.s < 256 ∧ x.n = 2) (body : List (BitVec 32))
    (hb : body.length = 128) (rnd rnd' : Nat → Bool) :
    ∃ (bits : List Bool) (s : Mfm) (t : Amiga.Track) (r : ReadResult), AmigaTrack (fun i => bits.getD (i % bits.length) false) bits.length
        [⟨64, x, 11, [0, 0, 0, 1], body⟩] ∧
      Mfm.new bits none none = .ok s ∧ Amiga.scan s rnd = .ok t ∧
      t.readSector rnd' ⟨some x.c, some x.h, x.s, none⟩ none none .dataOnly false = .ok r ∧
      r.addressCrcError = true ∧ r.bytes = [] := by
  have htr := example_track x 11 1 body hb hid
  generalize exampleBits (amigaInfo x 11) 1 body = bits at htr
  obtain ⟨s, t, h1, h2, h3, h4, h5⟩ := htr.scan bits _ rnd
  have hal := h5 _ (List.mem_singleton.2 rfl)
  have hh := htr.header _ (List.mem_singleton.2 rfl)
  simp only [] at hal hh
  have al : ∀ a n, a + n ≤ 542 → ByteAligned t.data (64 + a * 16) n := by
    intro a n h j hj
    have := hal (a + j) (by omega)
    rwa [show 64 + (a + j) * 16 = 64 + a * 16 + j * 16 by omega] at this
  have e1 : Amiga.decodeInterleaved t.data (64 + 2 * 16) = amigaInfo x 11 :=
    decodeInterleaved_eq (h4 rnd) _ _ ⟨hh.infoAt.1, hh.infoAt.2⟩
  -- the recorded sum is that of all five longs
  have hw : ∃ w : BitVec 16, ∀ k, k < 16 → w.getMsbD k =
      (amigaSum [amigaInfo x 11, 0, 0, 0, 1]).getMsbD (2 * k + 1) := by
    refine ⟨byteOfBits ((List.range 8).map fun k => (amigaSum [amigaInfo x 11, 0, 0, 0, 1]).getMsbD (2 * k + 1)) ++
      byteOfBits ((List.range 8).map fun k => (amigaSum [amigaInfo x 11, 0, 0, 0, 1]).getMsbD (2 * (k + 8) + 1)),
      fun k hk => ?_⟩
    have := ofBe16_getMsbD (byteOfBits ((List.range 8).map fun k =>
        (amigaSum [amigaInfo x 11, 0, 0, 0, 1]).getMsbD (2 * k + 1)))
      (byteOfBits ((List.range 8).map fun k => (amigaSum [amigaInfo x 11, 0, 0, 0, 1]).getMsbD (2 * (k + 8) + 1))) k hk
    unfold ofBe16 at this
    rw [this]
    by_cases h8 : k < 8
    · rw [if_pos h8, byteOfBits_getMsbD _ _ h8]
    · rw [if_neg h8, byteOfBits_getMsbD _ _ (by omega), show k - 8 + 8 = k by omega]
  obtain ⟨w, hw⟩ := hw
  have e2 : Amiga.decodeChecksum t.data rnd (64 + 22 * 16) = w.setWidth 32 :=
    decodeChecksum_eq (h4 rnd) _ (al 22 4 (by omega)) _ ⟨hh.sumAt.1, hh.sumAt.2⟩ _ hw
  have hcalc := header_sum (h4 rnd) hh (al 2 10 (by omega)) 15 (by omega)
  have hne : (Amiga.decodeChecksum t.data rnd (64 + 22 * 16) != Amiga.checksum t.data rnd (64 + 2 * 16) 10) = true := by
    rw [bne_iff_ne, e2]
    intro heq
    have h31 : (w.setWidth 32).getMsbD 31 = ((Amiga.xorWords (t.data.readDecodedBuf rnd 10 (64 + 2 * 16))).setWidth 32).getMsbD 31 :=
      congrArg (fun v => BitVec.getMsbD v 31) heq
    rw [setWidth_16_32 _ _ (by omega), setWidth_16_32 _ _ (by omega), if_neg (by omega), if_neg (by omega)] at h31
    have hcalc : (Amiga.xorWords (t.data.readDecodedBuf rnd 10 (64 + 2 * 16))).getMsbD (31 - 16) = _ := hcalc
    rw [hw 15 (by omega), hcalc] at h31
    rw [amigaSum_odd 15 (by omega), amigaSum_odd 15 (by omega)] at h31
    simp only [xorUpTo, List.length_cons, List.length_nil, List.getD_cons_zero, List.getD_cons_succ] at h31
    revert h31
    cases (amigaInfo x 11).getMsbD (2 * 15) <;> cases (amigaInfo x 11).getMsbD (2 * 15 + 1) <;> decide
  have hitems : ∃ db, t.items = [⟨.header x true false, 64, 64 + 10 * 16⟩,
      ⟨.data x true db, 64 + 26 * 16, 64 + (26 + 4 + 512) * 16⟩] := by
    rw [h3]
    simp only [List.flatMap_cons, List.flatMap_nil, List.append_nil]
    unfold Amiga.elements
    simp only [hne, e1, idOf_amigaInfo x 11 hid]
    exact ⟨_, rfl⟩
  obtain ⟨db, hitems⟩ := hitems
  refine ⟨bits, s, t, { idChsn := some x, addressCrcError := true }, htr, h1, h2, ?_, rfl, rfl⟩
  unfold Amiga.Track.readSector Amiga.findSectorElement
  rw [hitems]
  have hm : Query.matchesB ⟨some x.c, some x.h, x.s, none⟩ x = true := by
    rw [matchesB_eq]; simp [agrees]
  simp only [Amiga.findLoop, Option.getD_none, Nat.not_lt_zero, if_false, Bool.false_eq_true, if_true, hm,
    Bool.or_true, Bool.true_and, Bool.not_false]

/-- **C26 fails** for reads that override the sector size with a smaller one: the decoder then indexes past the
end of its raw buffer. -/
theorem C26_false_size_override (s : Mfm) (rnd : Nat → Bool) (start n : Nat) (h : n = 0 ∨ n = 1) :
    Amiga.decodeData s rnd start (nSize n + 4) = .error .panic := by
  unfold Amiga.decodeData
  rcases h with rfl | rfl
  · rw [show nSize 0 = 128 from rfl, if_neg (by omega), if_pos (by omega)]
  · rw [show nSize 1 = 256 from rfl, if_neg (by omega), if_pos (by omega)]

/-- **C27 (what holds).** A write to an Amiga track either fails with an error, reports a problem, or reports
success; it never changes the track. -/
theorem C27_write_changes_nothing_partial (t : Amiga.Track) (q : Query) (offset : Option Nat) (buf : List Byte)
    (del debug : Bool) (r : WriteResult) (t' : Amiga.Track)
    (h : t.writeSector q offset buf del debug = .ok (r, t')) : t' = t := by
  unfold Amiga.Track.writeSector at h
  simp only [] at h
  split at h
  · simp only [Except.ok.injEq, Prod.mk.injEq] at h; exact h.2.symm
  · split at h
    · simp only [Except.ok.injEq, Prod.mk.injEq] at h; exact h.2.symm
    · split at h
      · simp only [Except.ok.injEq, Prod.mk.injEq] at h; exact h.2.symm
      · split at h
        · simp at h
        · split at h
          · simp at h
          · split at h
            · simp at h
            · simp only [Except.ok.injEq, Prod.mk.injEq] at h; exact h.2.symm

/-- **C27 fails**, for every content: whatever 512 bytes are on the sector and whatever different 512 bytes are
written, the write reports success and a read still returns the old bytes. -/
theorem C27_false_write_lost (x : Chsn) (hid : x.c < 128 ∧ x.h < 2 ∧ x.s < 256 ∧ x.n = 2) (body : List (BitVec 32))
    (hb : body.length = 128) (buf : List Byte) (hl : buf.length = 512) (rnd rnd' : Nat → Bool) (debug : Bool) :
    ∃ (bits : List Bool) (s : Mfm) (t t' : Amiga.Track) (w : WriteResult) (r : ReadResult), AmigaTrack (fun i => bits.getD (i % bits.length) false) bits.length
        [⟨64, x, 11, [0, 0, 0, 0], body⟩] ∧
      Mfm.new bits none none = .ok s ∧ Amiga.scan s rnd = .ok t ∧
      t.writeSector (.ofChsn x) none buf false debug = .ok (w, t') ∧
      w = {} ∧
      t'.readSector rnd' (.ofChsn x) none none .dataOnly debug = .ok r ∧ r.bytes = longBytes body := by
  have htr := example_track x 11 0 body hb hid
  generalize exampleBits (amigaInfo x 11) 0 body = bits at htr
  have hl0 : ∀ y ∈ [(⟨64, x, 11, [0, 0, 0, 0], body⟩ : AmigaSector)], y.label = [0, 0, 0, 0] := by
    intro y hy
    rw [List.mem_singleton.1 hy]
  obtain ⟨s, t, h1, h2, h3, h4, h5⟩ := htr.scan bits _ rnd
  rw [flatMap_good (h4 rnd) _ fun y hy => ⟨h5 y hy, htr.header y hy, hl0 y hy, htr.data y hy, htr.ids y hy⟩] at h3
  obtain ⟨s', t', g1, g2, g3⟩ := C26_track_reads_partial bits _ htr hl0 rnd rnd'
  rw [g1] at h1
  cases h1
  rw [g2] at h2
  cases h2
  obtain ⟨r, r1, r2⟩ := g3 (.ofChsn x) debug none (Or.inl rfl)
  have hag : agrees (.ofChsn x) x = true := (agrees_ofChsn x x).2 rfl
  rw [List.find?_cons] at r2
  simp only [hag] at r2
  refine ⟨bits, s, t, t, {}, r, htr, g1, g2, ?_, rfl, r1, r2.2.2.2.2.2.2.2⟩
  obtain ⟨f1, _⟩ := findLoop_good (.ofChsn x) [⟨64, x, 11, [0, 0, 0, 0], body⟩] [] {} rfl
  obtain ⟨ei, e1, e2⟩ := f1 ⟨64, x, 11, [0, 0, 0, 0], body⟩ (by rw [List.find?_cons]; simp only [hag])
  rw [List.nil_append] at e2
  unfold Amiga.Track.writeSector Amiga.findSectorElement
  rw [h3]
  have e1 : Amiga.findLoop (.ofChsn x) ((none : Option Nat).getD 0) 0 {}
    ([(⟨64, x, 11, [0, 0, 0, 0], body⟩ : AmigaSector)].flatMap goodElems) =
      .found ei x false false false false false := e1
  rw [e1]
  have hs : x.size = 512 := by unfold Chsn.size; rw [hid.2.2.2]; rfl
  simp only [Bool.false_eq_true, if_false, Bool.false_and, bne_self_eq_false, hs, hl, ne_eq, not_true_eq_false,
    e2, Query.ofChsn]

end Fox
