import Verif.Proofs.FmRecord
/-
C91: single density tracks.
-/
namespace Fox.Fm
open Fox.Spec Fox.S34
open FmDisk (cellsOfByte plain mark At MarkAt First Scanned Usual idField dataField Room Recorded record Spaced dataBits
  falseMark NoFalse recordedMarks)

theorem mem_markLast {x : Inst} : ∀ {l : List Inst}, x ∈ markLast l → ∃ y ∈ l, x.elem = y.elem ∧ x.start = y.start
  | [], h => by simp [markLast] at h
  | [y], h => by
    simp only [markLast, List.mem_singleton] at h
    subst h
    exact ⟨y, by simp, rfl, rfl⟩
  | y :: z :: l, h => by
    rw [markLast] at h
    rcases List.mem_cons.1 h with rfl | h
    · exact ⟨x, by simp, rfl, rfl⟩
    · obtain ⟨w, hw, h1⟩ := mem_markLast h
      exact ⟨w, List.mem_cons_of_mem _ hw, h1⟩

theorem markLast_mem {y : Inst} : ∀ {l : List Inst}, y ∈ l → ∃ x ∈ markLast l, x.elem = y.elem ∧ x.start = y.start
  | [], h => by simp at h
  | [z], h => by
    rw [List.mem_singleton] at h
    subst h
    exact ⟨_, List.mem_singleton.2 rfl, rfl, rfl⟩
  | a :: z :: l, h => by
    rw [markLast]
    rcases List.mem_cons.1 h with rfl | h
    · exact ⟨y, by simp, rfl, rfl⟩
    · obtain ⟨w, hw, h1⟩ := markLast_mem h
      exact ⟨w, List.mem_cons_of_mem _ hw, h1⟩

theorem mem_sortInsts {x : Inst} {l : List Inst} : x ∈ sortInsts l ↔ x ∈ l := by
  unfold sortInsts
  exact List.mem_mergeSort

/-- What the scan of a loaded track rests on. -/
theorem load_scan {debug : Bool} {rnd : Nat → Bool} {amiga : AmigaScan} {bits : List Bool} (hu : Usual bits)
    {l : List (Nat × Byte)} (hs : Scanned bits 0 l) (hne : l ≠ []) :
    ∃ cm s0, createClockMap (l.map Prod.fst) (List.replicate bits.length ((syncPhase bits).getD false)) = .ok cm ∧
      s0.bits = bits ∧ s0.clockMap = cm ∧ cm.length = bits.length ∧
      load debug rnd amiga bits = match scanMetadata s0 rnd (l.map item) with
        | .error e => .error e
        | .ok (items, s) => .ok { data := s, items := items, schema := some .system34 } := by
  obtain ⟨h1, h2⟩ := scanned_order hs
  have hpos : ∀ x ∈ l, 0 < x.1 := by
    intro x hx
    rcases Nat.eq_zero_or_pos x.1 with h | h
    · have := (h1 x hx).2.2.1
      rw [h] at this
      exact absurd this (hu.1 _)
    · exact h
  obtain ⟨cm, c1, c2, _⟩ := C29_clock_map (l.map Prod.fst) (List.replicate bits.length ((syncPhase bits).getD false))
    (by simpa using hne)
    (by rw [List.pairwise_map]; exact h2.imp fun h => by omega)
    (by
      intro q hq
      rw [List.mem_map] at hq
      obtain ⟨x, hx, rfl⟩ := hq
      have := (h1 x hx).2.1
      rw [List.length_replicate]
      exact ⟨hpos x hx, by omega⟩)
  rw [List.length_replicate] at c2
  refine ⟨cm, { bits := bits, clockMap := cm, weakMask := List.replicate bits.length false,
                cursor := if (syncPhase bits).getD false then 1 else 0 }, c1, rfl, rfl, c2, ?_⟩
  unfold load new
  simp only [List.take_length, Option.getD_none, List.length_replicate]
  rw [if_neg (by omega)]
  simp only
  obtain ⟨l', hl', hm⟩ := scanMarkers_spec debug
    (s := { bits := bits, clockMap := List.replicate bits.length ((syncPhase bits).getD false),
            weakMask := List.replicate bits.length false, cursor := if (syncPhase bits).getD false then 1 else 0 }) hu
  have : l' = l := scanned_unique hl' hs
  subst this
  rw [hm]
  have hmap : (l'.map item).map (·.start) = l'.map Prod.fst := by rw [List.map_map]; rfl
  cases l' with
  | nil => exact absurd rfl hne
  | cons x l' =>
    have e : createClockMap ((item x :: l'.map item).map (·.start)) (List.replicate bits.length ((syncPhase bits).getD false)) = .ok cm := by
      rw [← c1, ← hmap]; rfl
    simp only [List.map_cons] at e ⊢
    rw [e]
    rfl

/-- **C91, when it loads.** A single density track whose scanned marks are `l` is loaded exactly if every id mark has
room for its four numbers behind it and every data mark that follows an id mark begins in the first half of the track;
otherwise loading panics. -/
theorem C91_loads_partial {debug : Bool} {rnd : Nat → Bool} {amiga : AmigaScan} {bits : List Bool} (hu : Usual bits)
    {l : List (Nat × Byte)} (hs : Scanned bits 0 l) (hne : l ≠ []) :
    (Room bits.length false l → ∃ t, load debug rnd amiga bits = .ok t) ∧
    (¬ Room bits.length false l → load debug rnd amiga bits = .error .panic) := by
  obtain ⟨cm, s0, _, hb, hc, hl, he⟩ := load_scan (debug := debug) (rnd := rnd) (amiga := amiga) hu hs hne
  obtain ⟨h1, h2⟩ := scanned_order hs
  have hg : Good s0 [] { stream := s0 } :=
    ⟨⟨s0.cursor, rfl⟩, fun h => absurd h (by simp), by simp, by simp, by simp, by simp⟩
  have := scanAll_spec (s := s0) (by rw [hb, hc]; exact hl) rnd l [] { stream := s0 } hg
    (by rw [hb]; exact fun x hx => ⟨(h1 x hx).2.1, (h1 x hx).2.2.2⟩) (by simp) h2
  rw [he]
  unfold scanMetadata
  rw [hb] at this
  constructor
  · intro h
    obtain ⟨st, e, _⟩ := this.1 h
    rw [e]
    exact ⟨_, rfl⟩
  · intro h
    rw [this.2 h]

/-- What a loaded track consists of. -/
theorem load_items {debug : Bool} {rnd : Nat → Bool} {amiga : AmigaScan} {bits : List Bool} (hu : Usual bits)
    {l : List (Nat × Byte)} (hs : Scanned bits 0 l) (hne : l ≠ []) {t : FmTrack}
    (ht : load debug rnd amiga bits = .ok t) :
    ∃ cm, createClockMap (l.map Prod.fst) (List.replicate bits.length ((syncPhase bits).getD false)) = .ok cm ∧
      t.data.bits = bits ∧ t.data.clockMap = cm ∧
      (∀ x ∈ t.items, Says bits cm l x ∨
        ((x.start, 0xFE#8) ∈ l ∧ x.elem = .header (idAt bits cm x.start).chsn (idAt bits cm x.start).crcValid true)) ∧
      (∀ p, (p, 0xFE#8) ∈ l → ∃ x ∈ t.items, x.start = p ∧ ∃ ch bad miss, x.elem = .header ch bad miss) ∧
      (∀ y ∈ l, ∃ x ∈ t.items, x.start = y.1 ∧ x.elem = .marker (item y).kind) := by
  obtain ⟨cm, s0, e0, hb, hc, hl, he⟩ := load_scan (debug := debug) (rnd := rnd) (amiga := amiga) hu hs hne
  obtain ⟨h1, h2⟩ := scanned_order hs
  have hg : Good s0 [] { stream := s0 } :=
    ⟨⟨s0.cursor, rfl⟩, fun h => absurd h (by simp), by simp, by simp, by simp, by simp⟩
  have := scanAll_spec (s := s0) (by rw [hb, hc]; exact hl) rnd l [] { stream := s0 } hg
    (by rw [hb]; exact fun x hx => ⟨(h1 x hx).2.1, (h1 x hx).2.2.2⟩) (by simp) h2
  rw [hb] at this
  by_cases hr : Room bits.length false l
  · obtain ⟨st, e, hgood⟩ := this.1 hr
    rw [List.nil_append] at hgood
    rw [he] at ht
    unfold scanMetadata at ht
    rw [e] at ht
    simp only at ht
    injection ht with ht
    subst ht
    obtain ⟨c, hst⟩ := hgood.stream
    refine ⟨cm, e0, by simp only; rw [hst, hb], by simp only; rw [hst, hc], ?_, ?_, ?_⟩
    · intro x hx
      obtain ⟨y, hy, g1, g2⟩ := mem_markLast hx
      rw [mem_sortInsts, List.mem_append] at hy
      rcases hy with hy | hy
      · left
        have := hgood.says y hy
        rw [hb, hc] at this
        unfold Says at *
        rw [g1, g2]
        exact this
      · right
        split at hy
        · rename_i hi
          rw [List.mem_singleton] at hy
          subst hy
          have hbf := hgood.before hi
          rw [hb, hc] at hbf
          rw [g1, g2]
          exact ⟨hbf.1, by rw [hbf.2]⟩
        · simp at hy
    · intro p hp
      rcases hgood.all p hp with ⟨y, hy, g1, ch, bad, miss, g2⟩ | ⟨g1, g2⟩
      · obtain ⟨x, hx, k1, k2⟩ := markLast_mem (mem_sortInsts.2 (List.mem_append_left
          (if st.lastMarker = some .idam then
            [{ elem := .header st.lastId.chsn st.lastId.crcValid true, start := st.lastOff, stop := st.lastOff + 256, chsn := none }]
          else []) hy))
        exact ⟨x, hx, by rw [k2, g1], ch, bad, miss, by rw [k1, g2]⟩
      · rw [if_pos g2]
        obtain ⟨x, hx, k1, k2⟩ := markLast_mem (mem_sortInsts.2 (List.mem_append_right st.elems (List.mem_singleton.2 (rfl :
          ({ elem := .header st.lastId.chsn st.lastId.crcValid true, start := st.lastOff, stop := st.lastOff + 256,
             chsn := none } : Inst) = _))))
        exact ⟨x, hx, by rw [k2, ← g1], _, _, _, k1⟩
    · intro y hy
      obtain ⟨z, hz, g1, g2⟩ := hgood.marks y hy
      obtain ⟨x, hx, k1, k2⟩ := markLast_mem (mem_sortInsts.2 (List.mem_append_left
          (if st.lastMarker = some .idam then
            [{ elem := .header st.lastId.chsn st.lastId.crcValid true, start := st.lastOff, stop := st.lastOff + 256, chsn := none }]
          else []) hz))
      exact ⟨x, hx, by rw [k2, g1], by rw [k1, g2]⟩
  · rw [he] at ht
    unfold scanMetadata at ht
    rw [this.2 hr] at ht
    cases ht

/-- **C91, marks.** The marks a loaded track reports are exactly those of its cells, up to the first that is neither
FE nor FB. -/
theorem C91_marks {debug : Bool} {rnd : Nat → Bool} {amiga : AmigaScan} {bits : List Bool} (hu : Usual bits)
    {l : List (Nat × Byte)} (hs : Scanned bits 0 l) (hne : l ≠ []) {t : FmTrack}
    (ht : load debug rnd amiga bits = .ok t) (p : Nat) (m : Marker) :
    (∃ x ∈ t.items, x.start = p ∧ x.elem = .marker m) ↔
      (m = .idam ∧ (p, 0xFE#8) ∈ l) ∨ (m = .dam ∧ (p, 0xFB#8) ∈ l) := by
  obtain ⟨cm, _, _, _, h1, _, h3⟩ := load_items hu hs hne ht
  obtain ⟨o1, _⟩ := scanned_order hs
  constructor
  · rintro ⟨x, hx, rfl, he⟩
    rcases h1 x hx with h | h
    · unfold Says at h
      rw [he] at h
      obtain ⟨d, hd, hm⟩ := h
      rcases (o1 _ hd).2.2.2 with e | e
      · simp only at e; subst e; exact Or.inl ⟨hm, hd⟩
      · simp only at e; subst e; exact Or.inr ⟨hm, hd⟩
    · rw [he] at h; exact absurd h.2 (by simp)
  · rintro (⟨rfl, h⟩ | ⟨rfl, h⟩)
    · obtain ⟨x, hx, k1, k2⟩ := h3 _ h
      exact ⟨x, hx, k1, k2⟩
    · obtain ⟨x, hx, k1, k2⟩ := h3 _ h
      exact ⟨x, hx, k1, k2⟩

/-! ## Standard ids -/

theorem everyOther_getD : ∀ (l : List Bool) (k : Nat), (everyOther l).getD k false = l.getD (2 * k) false
  | [], k => by simp [everyOther]
  | [a], k => by
    cases k with
    | zero => rfl
    | succ k => simp [everyOther]
  | a :: b :: l, k => by
    cases k with
    | zero => rfl
    | succ k =>
      rw [show 2 * (k + 1) = 2 * k + 1 + 1 by omega]
      exact everyOther_getD l k

theorem everyOther_length : ∀ l : List Bool, (everyOther l).length = (l.length + 1) / 2
  | [] => rfl
  | [a] => by simp [everyOther]
  | a :: b :: l => by rw [everyOther, List.length_cons, everyOther_length l, List.length_cons, List.length_cons]; omega

/-- A byte whose first cell the clock map knows as a clock cell. -/
theorem dec_byte {bits cm : List Bool} {i : Nat} {c b : Byte} (h : At bits i (cellsOfByte c b)) (hc : cm.getD i false = true) :
    dec bits cm i = b := by
  unfold dec
  rw [hc]
  simp only [if_true]
  rw [at_iff _ _ _ (by intro e; have := cells_length c b; rw [e] at this; cases this), cells_length] at h
  apply BitVec.eq_of_getMsbD_eq
  intro k hk
  unfold byteOfBits
  rw [shiftIn_getMsbD _ _ _ ?_ _ hk, everyOther_getD]
  · have : (((bits.drop i).take 16).drop 1).getD (2 * k) false = bits.getD (i + (2 * k + 1)) false := by
      rw [List.getD_eq_getElem?_getD, List.getD_eq_getElem?_getD, List.getElem?_drop, List.getElem?_take,
        if_pos (by omega), List.getElem?_drop]
      congr 2; omega
    rw [this, h.2 (2 * k + 1) (by omega), cells_getD _ _ _ (by omega), if_neg (by omega)]
    congr 1; omega
  · rw [everyOther_length, List.length_drop, List.length_take, List.length_drop]
    omega

theorem plain_cons (b : Byte) (bs : List Byte) : plain (b :: bs) = cellsOfByte 0xFF#8 b ++ plain bs := rfl

/-- One byte of a run of plain bytes. -/
theorem at_plain {bits : List Bool} : ∀ {bs : List Byte} {p : Nat}, At bits p (plain bs) →
    ∀ k, k < bs.length → At bits (p + 16 * k) (cellsOfByte 0xFF#8 (bs.getD k 0))
  | [], _, _, k, hk => by simp at hk
  | b :: bs, p, h, k, hk => by
    rw [plain_cons] at h
    obtain ⟨h1, h2⟩ := at_append h
    rw [cells_length] at h2
    cases k with
    | zero => exact h1
    | succ k =>
      have := at_plain h2 k (by simpa using hk)
      rw [show p + 16 * (k + 1) = p + 16 + 16 * k by omega]
      exact this

/-- The bytes behind the mark of an id field. -/
def idBytesOf (c h s n : Byte) : List Byte := [c, h, s, n] ++ FmDisk.crc [0xFE#8, c, h, s, n]

/-- No known mark begins in the rest of an id field. -/
theorem id_alone {bits : List Bool} {p q : Nat} {c h s n d : Byte} {gap : List Byte} (hg : gap.length = 6)
    (hat : At bits p (idField c h s n ++ plain gap)) (hq : p + 64 ≤ q) (hm : MarkAt bits q d)
    (hd : d = 0xFE#8 ∨ d = 0xFB#8) : p + 192 < q := by
  apply Nat.lt_of_not_le
  intro hle
  have hrest : At bits (p + 64) (plain (idBytesOf c h s n ++ gap)) := by
    unfold idField at hat
    rw [List.append_assoc] at hat
    obtain ⟨_, h2⟩ := at_append hat
    rw [List.length_append, plain_length] at h2
    have e : plain (idBytesOf c h s n ++ gap) = plain ([c, h, s, n] ++ FmDisk.crc [0xFE#8, c, h, s, n]) ++ plain gap := by
      unfold plain idBytesOf; rw [List.flatMap_append]
    rw [e]
    exact h2
  have hlen : (idBytesOf c h s n ++ gap).length = 12 := by rw [List.length_append, hg]; rfl
  have hl2 : (plain (idBytesOf c h s n ++ gap)).length = 192 := by rw [plain_length, hlen]
  rw [at_iff _ _ _ (by intro e; rw [e] at hl2; cases hl2), hl2] at hrest
  have hclk : ∀ j, j < 192 → j % 2 = 0 → bits.getD (p + 64 + j) false = true := by
    intro j hj he
    rw [hrest.2 j hj, plain_getD _ _ (by rw [hlen]; omega), if_pos he]
  rw [markAt_iff] at hm
  by_cases he : (q - p) % 2 = 0
  · have a := hm.2.2.1 2 (by omega)
    rw [show q + 48 + 2 * 2 = p + 64 + (q - p - 12) by omega, hclk _ (by omega) (by omega)] at a
    exact absurd a (by decide)
  · have all : ∀ k < 8, d.getMsbD k = true := by
      intro k hk
      rw [← hm.2.2.2 k hk, show q + 48 + 2 * k + 1 = p + 64 + (q - p - 15 + 2 * k) by omega]
      exact hclk _ (by omega) (by omega)
    rcases hd with rfl | rfl
    · exact absurd (all 7 (by omega)) (by decide)
    · exact absurd (all 5 (by omega)) (by decide)

/-- A CRC that starts three zero bytes early is another one. -/
theorem crc_zeros (data : List Byte) : crc3740 ([0, 0, 0] ++ data) ≠ crcOfBits 0xFFFF#16 (bitsOf data) := by
  rw [(C10_is_crc16_3740 ([0, 0, 0] ++ data) 0).2]
  have : bitsOf ([0, 0, 0] ++ data) = bitsOf [0, 0, 0] ++ bitsOf data := by unfold bitsOf; rw [List.flatMap_append]
  rw [this]
  unfold crcOfBits
  rw [List.foldl_append]
  intro h
  have := crcOfBits_inj (bitsOf data) h
  exact absurd this (by decide +kernel)

theorem be16_back (x : BitVec 16) : ofBe16 ((be16 x).getD 0 0) ((be16 x).getD 1 0) = x := by
  unfold be16 ofBe16
  simp only [List.getD_cons_zero, List.getD_cons_succ]
  apply BitVec.eq_of_getLsbD_eq
  intro i hi
  rw [BitVec.getLsbD_append]
  by_cases h : i < 8
  · simp [h]
  · simp [h, show i - 8 < 8 by omega, show 8 + (i - 8) = i by omega]

/-- The id read at a standard id field. -/
theorem idAt_standard {bits : List Bool} {l : List (Nat × Byte)} (hu : Usual bits) (hs : Scanned bits 0 l)
    {cm m0 : List Bool} (hm0 : m0.length = bits.length) (hcm : createClockMap (l.map Prod.fst) m0 = .ok cm)
    {p : Nat} {c h s n : Byte} {gap : List Byte} (hp : (p, 0xFE#8) ∈ l) (hg : gap.length = 6)
    (hat : At bits p (idField c h s n ++ plain gap)) :
    (idAt bits cm p).chsn = ⟨c.toNat, h.toNat, s.toNat, n.toNat⟩ ∧ (idAt bits cm p).crcValid = false := by
  obtain ⟨h1, h2⟩ := scanned_order hs
  have hpos : ∀ x ∈ l, 0 < x.1 := by
    intro x hx
    rcases Nat.eq_zero_or_pos x.1 with e | e
    · have := (h1 x hx).2.2.1
      rw [e] at this
      exact absurd this (hu.1 _)
    · exact e
  obtain ⟨cm', c1, c2, _, c3, _⟩ := C29_clock_map (l.map Prod.fst) m0
    (by intro e; rw [List.map_eq_nil_iff] at e; rw [e] at hp; simp at hp)
    (by rw [List.pairwise_map]; exact h2.imp fun h => by omega)
    (by
      intro q hq
      rw [List.mem_map] at hq
      obtain ⟨x, hx, rfl⟩ := hq
      have := (h1 x hx).2.1
      exact ⟨hpos x hx, by omega⟩)
  rw [hcm] at c1
  injection c1 with c1
  subst c1
  have hsorted : ∀ x ∈ l, x.1 ≠ p → x.1 + 64 ≤ p ∨ p + 64 ≤ x.1 := by
    intro x hx hne
    obtain ⟨a, b, e⟩ := List.append_of_mem hp
    rw [e] at hx h2
    rw [List.pairwise_append] at h2
    rcases List.mem_append.1 hx with hx | hx
    · left; exact h2.2.2 x hx (p, 0xFE#8) (by simp)
    · rcases List.mem_cons.1 hx with rfl | hx
      · exact absurd rfl hne
      · right; exact (List.pairwise_cons.1 h2.2.1).1 x hx
  have hfar : ∀ x ∈ l, x.1 ≤ p ∨ p + 192 < x.1 := by
    intro x hx
    by_cases e : x.1 = p
    · left; omega
    · rcases hsorted x hx e with h | h
      · left; omega
      · right; exact id_alone hg hat h (h1 x hx).2.2.1 (h1 x hx).2.2.2
  have hlen : p + 256 ≤ bits.length := by
    have hl : (idField c h s n ++ plain gap).length = 256 := by
      rw [List.length_append, plain_length, hg]; rfl
    have := (at_iff _ _ _ (by intro e; rw [e] at hl; cases hl)).1 hat
    rw [hl] at this
    exact this.1
  have hclock : ∀ k, k < 12 → cm.getD (p + 16 * k) false = true := by
    intro k hk
    have := c3 p (List.mem_map.2 ⟨_, hp, rfl⟩) (p + 16 * k) (by omega)
      (by
        intro s' hs' hlt
        rw [List.mem_map] at hs'
        obtain ⟨x, hx, rfl⟩ := hs'
        rcases hfar x hx with e | e <;> omega)
      (by omega)
    rw [this]
    have e1 : decide ((p + 16 * k - p) % 2 = 0) = true := by rw [decide_eq_true_eq]; omega
    have e2 : decide (p + 16 * k + 1 ∉ l.map Prod.fst) = true := by
      rw [decide_eq_true_eq]
      intro hmem
      rw [List.mem_map] at hmem
      obtain ⟨x, hx, hxe⟩ := hmem
      rcases hfar x hx with e | e
      · omega
      · omega
    rw [e1, e2]; rfl
  unfold idField at hat
  rw [List.append_assoc, List.append_assoc] at hat
  obtain ⟨a1, a2⟩ := at_append hat
  rw [plain_length] at a2
  obtain ⟨a3, a4⟩ := at_append a2
  have em : (mark 0xFE#8).length = 16 := rfl
  rw [em] at a4
  obtain ⟨a5, _⟩ := at_append a4
  have d0 : ∀ k, k < 3 → dec bits cm (p + k * 16) = 0#8 := by
    intro k hk
    have := at_plain a1 k hk
    rw [Nat.mul_comm]
    rw [dec_byte this (hclock k (by omega))]
    have : k = 0 ∨ k = 1 ∨ k = 2 := by omega
    rcases this with rfl | rfl | rfl <;> rfl
  have d3 : dec bits cm (p + 48) = 0xFE#8 := dec_byte a3 (hclock 3 (by omega))
  have dk : ∀ k, k < 6 → dec bits cm (p + 64 + 16 * k) = (idBytesOf c h s n).getD k 0 := by
    intro k hk
    have := at_plain a5 k (by simpa [FmDisk.crc, be16] using hk)
    simp only [List.length_cons, List.length_nil] at this
    rw [show p + 16 * (0 + 1 + 1 + 1) + 16 = p + 64 by omega] at this
    have hc := hclock (4 + k) (by omega)
    rw [show p + 16 * (4 + k) = p + 64 + 16 * k by omega] at hc
    rw [dec_byte this hc]
    rfl
  have hdr : (List.range 8).map (fun i => dec bits cm (p + i * 16)) = [0, 0, 0] ++ [0xFE#8, c, h, s, n] := by
    have e : ∀ i, i < 8 → dec bits cm (p + i * 16) = ([0, 0, 0] ++ [0xFE#8, c, h, s, n]).getD i 0 := by
      intro i hi
      by_cases h3 : i < 3
      · rw [d0 i h3]
        have : i = 0 ∨ i = 1 ∨ i = 2 := by omega
        rcases this with rfl | rfl | rfl <;> rfl
      · by_cases h4 : i = 3
        · subst h4; rw [show p + 3 * 16 = p + 48 by omega, d3]; rfl
        · have := dk (i - 4) (by omega)
          rw [show p + 64 + 16 * (i - 4) = p + i * 16 by omega] at this
          rw [this]
          have : i = 4 ∨ i = 5 ∨ i = 6 ∨ i = 7 := by omega
          rcases this with rfl | rfl | rfl | rfl <;> rfl
    apply List.ext_getElem
    · simp
    · intro i hi1 hi2
      simp only [List.length_map, List.length_range] at hi1
      rw [List.getElem_map, List.getElem_range, e i hi1, List.getD_eq_getElem?_getD, List.getElem?_eq_getElem hi2]
      rfl
  unfold idAt
  simp only [hdr]
  refine ⟨rfl, ?_⟩
  rw [beq_eq_false_iff_ne]
  rw [if_pos (by omega), if_pos (by omega), show p + 8 * 16 = p + 64 + 16 * 4 by omega,
    show p + 9 * 16 = p + 64 + 16 * 5 by omega, dk 4 (by omega), dk 5 (by omega)]
  have e4 : (idBytesOf c h s n).getD 4 0 = (FmDisk.crc [0xFE#8, c, h, s, n]).getD 0 0 := rfl
  have e5 : (idBytesOf c h s n).getD 5 0 = (FmDisk.crc [0xFE#8, c, h, s, n]).getD 1 0 := rfl
  rw [e4, e5]
  unfold FmDisk.crc
  rw [be16_back]
  exact (crc_zeros _).symm

/-- **C91, ids.** Every id field recorded in the standard way whose mark the scan reaches is reported at its place with
its four numbers. -/
theorem C91_ids {debug : Bool} {rnd : Nat → Bool} {amiga : AmigaScan} {bits : List Bool} (hu : Usual bits)
    {l : List (Nat × Byte)} (hs : Scanned bits 0 l) {t : FmTrack} (ht : load debug rnd amiga bits = .ok t)
    {p : Nat} {c h s n : Byte} {gap : List Byte} (hp : (p, 0xFE#8) ∈ l) (hg : gap.length = 6)
    (hat : At bits p (idField c h s n ++ plain gap)) :
    ∃ x ∈ t.items, x.start = p ∧ ∃ bad miss, x.elem = .header ⟨c.toNat, h.toNat, s.toNat, n.toNat⟩ bad miss := by
  have hne : l ≠ [] := by rintro rfl; simp at hp
  obtain ⟨cm, e0, _, _, h1, h2, _⟩ := load_items hu hs hne ht
  obtain ⟨x, hx, rfl, ch, bad, miss, he⟩ := h2 p hp
  have hid := idAt_standard hu hs (List.length_replicate ..) e0 hp hg hat
  refine ⟨x, hx, rfl, bad, miss, ?_⟩
  rcases h1 x hx with h | h
  · unfold Says at h
    rw [he] at h
    rw [he, h.2.1, hid.1]
  · rw [h.2] at he
    injection he with e1 e2 e3
    rw [h.2, hid.1, e2, e3]

/-- **C91 is false of the code: CRCs.** No sector recorded in the standard way is ever reported with a good address
CRC: the computation starts three bytes before the mark, as if they were part of it. -/
theorem C91_false_crc {debug : Bool} {rnd : Nat → Bool} {amiga : AmigaScan} {bits : List Bool} (hu : Usual bits)
    {l : List (Nat × Byte)} (hs : Scanned bits 0 l) {t : FmTrack} (ht : load debug rnd amiga bits = .ok t)
    {p : Nat} {c h s n : Byte} {gap : List Byte} (hp : (p, 0xFE#8) ∈ l) (hg : gap.length = 6)
    (hat : At bits p (idField c h s n ++ plain gap)) {x : Inst} (hx : x ∈ t.items) (hxp : x.start = p)
    {ch : Chsn} {bad : Bool} (he : x.elem = .header ch bad false) : bad = true := by
  have hne : l ≠ [] := by rintro rfl; simp at hp
  obtain ⟨cm, e0, _, _, h1, _, _⟩ := load_items hu hs hne ht
  subst hxp
  have hid := idAt_standard hu hs (List.length_replicate ..) e0 hp hg hat
  rcases h1 x hx with h | h
  · unfold Says at h
    rw [he] at h
    rw [h.2.2, hid.2]; rfl
  · rw [h.2] at he
    injection he with _ _ e3
    cases e3

/-! ## Reading -/

theorem find_bad {q : Query} {index : Nat} : ∀ (l : List Inst) (ei : Nat) (st : FindState),
    (∀ x ∈ l, ∀ ch bad miss, x.elem = .header ch bad miss → bad = true ∨ miss = true) →
    (∀ x ∈ l, ∀ ch bad e del, x.elem = .data ch bad e del → bad = true) →
    ∀ {i ch ae de del noDam last}, S34.findLoop q index ei st l = .found i ch ae de del noDam last →
      ae = true ∨ noDam = true
  | [], _, _, _, _, _, _, _, _, _, _, _, h => by simp [S34.findLoop] at h
  | x :: l, ei, st, h1, h2, i, ch, ae, de, del, noDam, last, h => by
    have ih := fun ei st => find_bad (q := q) (index := index) l ei st (fun y hy => h1 y (List.mem_cons_of_mem _ hy))
      (fun y hy => h2 y (List.mem_cons_of_mem _ hy)) (i := i) (ch := ch) (ae := ae) (de := de) (del := del)
      (noDam := noDam) (last := last)
    rw [S34.findLoop] at h
    split at h
    · exact ih _ _ h
    · cases he : x.elem with
      | marker m => rw [he] at h; exact ih _ _ h
      | header c b m =>
        rw [he] at h
        simp only at h
        split at h
        · split at h
          · injection h with _ _ e3 _ _ e4 _
            subst e3 e4
            exact h1 x (List.mem_cons_self ..) _ _ _ he
          · exact ih _ _ h
        · exact ih _ _ h
      | data c b e dl =>
        rw [he] at h
        simp only at h
        split at h
        · injection h with _ _ e3 _ _ _ _
          subst e3
          exact Or.inl (h2 x (List.mem_cons_self ..) _ _ _ _ he)
        · exact ih _ _ h

/-- **C91 is false of the code: reading.** From a single density track whose id fields are recorded in the standard way
no sector is ever read: whatever is asked for, the result has no data. -/
theorem C91_false_read {debug : Bool} {rnd : Nat → Bool} {amiga : AmigaScan} {bits : List Bool} (hu : Usual bits)
    {l : List (Nat × Byte)} (hs : Scanned bits 0 l) (hne : l ≠ []) {t : FmTrack} (ht : load debug rnd amiga bits = .ok t)
    (hstd : ∀ p, (p, 0xFE#8) ∈ l → ∃ c h s n gap, gap.length = 6 ∧ At bits p (idField c h s n ++ plain gap))
    (q : Query) (n offset : Option Nat) (scope : Scope) :
    ∃ r, t.readSector q n offset scope false = .ok r ∧ r.readBuf = [] := by
  obtain ⟨cm, e0, _, _, h1, _, _⟩ := load_items hu hs hne ht
  have hsch : ∃ k, t.schema = some k := by
    obtain ⟨cm, s0, _, _, _, _, he⟩ := load_scan (debug := debug) (rnd := rnd) (amiga := amiga) hu hs hne
    rw [he] at ht
    split at ht
    · cases ht
    · injection ht with ht; subst ht; exact ⟨_, rfl⟩
  have hid : ∀ p, (p, 0xFE#8) ∈ l → (idAt bits cm p).crcValid = false := by
    intro p hp
    obtain ⟨c, h, s, n, gap, hg, hat⟩ := hstd p hp
    exact (idAt_standard hu hs (List.length_replicate ..) e0 hp hg hat).2
  have a1 : ∀ x ∈ t.items, ∀ ch bad miss, x.elem = .header ch bad miss → bad = true ∨ miss = true := by
    intro x hx ch bad miss he
    rcases h1 x hx with h | h
    · unfold Says at h
      rw [he] at h
      left; rw [h.2.2, hid _ h.1]; rfl
    · rw [h.2] at he
      injection he with _ _ e3
      exact Or.inr e3.symm
  have a2 : ∀ x ∈ t.items, ∀ ch bad e del, x.elem = .data ch bad e del → bad = true := by
    intro x hx ch bad e del he
    rcases h1 x hx with h | h
    · unfold Says at h
      rw [he] at h
      obtain ⟨p, hp, _, _, _, hb⟩ := h
      rw [hb, hid _ hp]; rfl
    · rw [h.2] at he; cases he
  unfold FmTrack.readSector
  obtain ⟨k, hk⟩ := hsch
  rw [hk]
  simp only
  cases hf : findSectorElement q t.items (offset.getD 0) with
  | notFound wc bc wh => exact ⟨_, rfl, rfl⟩
  | found ei ch ae de del noDam last =>
    simp only
    rcases find_bad _ _ _ a1 a2 hf with rfl | rfl
    · cases noDam
      · exact ⟨_, rfl, rfl⟩
      · exact ⟨_, rfl, rfl⟩
    · exact ⟨_, rfl, rfl⟩

theorem readDecodedBuf_at {s : Fm} : ∀ (n off : Nat) (l : List Byte), s.readDecodedBuf n off = .ok l →
    ∀ k b, l[k]? = some b → s.readDecodedU8 (off + k) = some b
  | 0, _, l, h, k, b, hb => by
    rw [readDecodedBuf] at h
    cases h
    simp at hb
  | n + 1, off, l, h, k, b, hb => by
    rw [readDecodedBuf] at h
    cases h1 : s.readDecodedU8 off with
    | none => rw [h1] at h; cases h
    | some c =>
      rw [h1] at h
      simp only at h
      cases h2 : readDecodedBuf s n (off + 1) with
      | error e => rw [h2] at h; cases h
      | ok r =>
        rw [h2] at h
        injection h with h
        subst h
        cases k with
        | zero =>
          rw [List.getElem?_cons_zero] at hb
          rw [Nat.add_zero, h1, hb]
        | succ k =>
          rw [List.getElem?_cons_succ] at hb
          rw [← readDecodedBuf_at n (off + 1) r h2 k b hb]
          congr 1; omega

/-- **C91 is false of the code: reading anyway.** What is read with the errors ignored are not the bytes of the sector, of which
each takes 16 cells: byte `k` is the one that begins `k` cells behind the beginning of the element. -/
theorem C91_false_debug (t : FmTrack) (q : Query) (n offset : Option Nat) (scope : Scope) (debug : Bool) (r : ReadResult)
    (h : t.readSector q n offset scope debug = .ok r) (hne : r.readBuf ≠ []) :
    ∃ x ∈ t.items, ∀ k b, r.readBuf[k]? = some b → t.data.readDecodedU8 (x.start + k) = some b := by
  unfold FmTrack.readSector at h
  cases hs : t.schema with
  | none => rw [hs] at h; cases h
  | some sc =>
    rw [hs] at h
    simp only at h
    cases hf : findSectorElement q t.items (offset.getD 0) with
    | notFound wc bc wh => rw [hf] at h; injection h with h; subst h; exact absurd rfl hne
    | found ei ch ae de del noDam last =>
      rw [hf] at h
      simp only at h
      by_cases h1 : noDam = true
      · rw [if_pos h1] at h; injection h with h; subst h; exact absurd rfl hne
      rw [if_neg h1] at h
      by_cases h2 : (ae && !debug) = true
      · rw [if_pos h2] at h; injection h with h; subst h; exact absurd rfl hne
      rw [if_neg h2] at h
      cases hx : t.items[ei]? with
      | none => rw [hx] at h; cases h
      | some x =>
        rw [hx] at h
        simp only at h
        refine ⟨x, List.mem_of_getElem? hx, ?_⟩
        unfold decodeElement at h
        generalize hb : t.data.readDecodedBuf _ x.start = rb at h
        cases rb with
        | error e => cases h
        | ok buf =>
          have hr : r.readBuf = buf := by
            simp only at h
            cases he : x.elem with
            | marker m => rw [he] at h; cases h
            | header c b m =>
              rw [he] at h
              simp only at h
              cases hc : crc16Bytes buf with
              | error e => rw [hc] at h; cases h
              | ok v => rw [hc] at h; injection h with h; rw [← h]
            | data c b e dl =>
              rw [he] at h
              simp only at h
              cases hc : crc16Bytes buf with
              | error e => rw [hc] at h; cases h
              | ok v => rw [hc] at h; injection h with h; rw [← h]
          rw [hr]
          exact readDecodedBuf_at _ x.start buf hb

/-! ## Tracks of whole bytes -/

/-- **C91, standard tracks.** In a track of whole bytes in which every mark follows three plain bytes, and whose data
bits nowhere look like the clock bits of a mark, the marks are those recorded; the scan finds those before the first
which is neither FE nor FB. -/
theorem C91_standard {l : List Recorded} (hs : Spaced l) (hn : NoFalse l) :
    (∀ p d, MarkAt (record l) p d ↔ (p, d) ∈ recordedMarks l) ∧
    Scanned (record l) 0 ((recordedMarks l).takeWhile fun x => x.2 = 0xFE#8 ∨ x.2 = 0xFB#8) := by
  refine ⟨record_marks hs hn, ?_⟩
  have : (fun x : Nat × Byte => decide (x.2 = 0xFE#8 ∨ x.2 = 0xFB#8)) = knownMark := by
    funext x
    unfold knownMark
    rw [Bool.decide_or]
    rfl
  rw [this]
  exact record_scanned hs hn

/-- Nothing behind an unknown mark is scanned. -/
theorem scanned_stops {track : List Bool} {q : Nat} {e : Byte} (hm : MarkAt track q e) (h1 : e ≠ 0xFE#8) (h2 : e ≠ 0xFB#8)
    (hq : ∀ r d, r < q → q < r + 64 → ¬ MarkAt track r d) {off : Nat} {l : List (Nat × Byte)} (hs : Scanned track off l) :
    off ≤ q → ∀ x ∈ l, x.1 < q := by
  induction hs with
  | none h => intro ho x hx; simp at hx
  | stop h a b => intro ho x hx; simp at hx
  | @next off p d l hf hd hs ih =>
    intro ho x hx
    have hle : p ≤ q := by
      apply Nat.le_of_not_lt
      intro hlt
      exact hf.2.2 q e ho hlt hm
    have hne : p ≠ q := by
      rintro rfl
      have := markAt_unique hf.2.1 hm
      subst this
      rcases hd with h | h
      · exact h1 h
      · exact h2 h
    have h64 : p + 64 ≤ q := by
      apply Nat.le_of_not_lt
      intro hlt
      exact hq p d (by omega) hlt hf.2.1
    rcases List.mem_cons.1 hx with rfl | hx
    · simp only; omega
    · exact ih h64 x hx

/-- **C91 is false of the code: deleted data.** Behind the first deleted data mark (F8) of a standard track nothing is
reported. -/
theorem C91_false_deleted {debug : Bool} {rnd : Nat → Bool} {amiga : AmigaScan} {r : List Recorded} (hsp : Spaced r)
    (hn : NoFalse r) (hu : Usual (record r)) {q : Nat} (hq : (q, 0xF8#8) ∈ recordedMarks r)
    {t : FmTrack} (ht : load debug rnd amiga (record r) = .ok t)
    (hsome : (recordedMarks r).head?.any fun x => x.2 == 0xFE#8 || x.2 == 0xFB#8) :
    ∀ x ∈ t.items, x.start < q := by
  have hs := record_scanned hsp hn
  have hne : (recordedMarks r).takeWhile knownMark ≠ [] := by
    cases hr : recordedMarks r with
    | nil => rw [hr] at hq; simp at hq
    | cons y ys =>
      rw [hr] at hsome
      simp only [List.head?_cons, Option.any_some] at hsome
      rw [List.takeWhile_cons, if_pos (by exact hsome)]
      simp
  obtain ⟨cm, _, _, _, h1, _, _⟩ := load_items hu hs hne ht
  have hlt : ∀ x ∈ (recordedMarks r).takeWhile knownMark, x.1 < q := by
    refine scanned_stops ((record_marks hsp hn _ _).2 hq) (by decide) (by decide) ?_ hs (Nat.zero_le _)
    intro p d hp hlt hm
    rw [record_marks hsp hn] at hm
    obtain ⟨a, b, e⟩ := List.append_of_mem hm
    have hpw := marksOf_spaced hsp
    rw [e] at hpw hq
    rw [List.pairwise_append, List.pairwise_cons] at hpw
    rcases List.mem_append.1 hq with h | h
    · have := hpw.2.2 _ h _ (List.mem_cons_self ..); simp only at this; omega
    · rcases List.mem_cons.1 h with h | h
      · injection h with h _; omega
      · have := hpw.2.1.1 _ h; simp only at this; omega
  intro x hx
  rcases h1 x hx with h | h
  · unfold Says at h
    split at h
    · obtain ⟨d, hd, _⟩ := h; exact hlt _ hd
    · exact hlt _ h.1
    · obtain ⟨p, _, _, h3, _⟩ := h; exact hlt _ h3
  · exact hlt _ h.1

/-- The bytes FF FF FF FF C7 and another one look like a mark, one cell later. -/
theorem false_mark (a b : List Recorded) (x : Byte) :
    let l := a ++ [(false, 0xFF#8), (false, 0xFF#8), (false, 0xFF#8), (false, 0xFF#8), (false, 0xC7#8), (false, x)] ++ b
    MarkAt (record l) (16 * (a.length + 1) + 1) 0xFF#8 ∧
    ∀ r d, r < 16 * (a.length + 1) + 1 → 16 * (a.length + 1) + 1 < r + 64 → ¬ MarkAt (record l) r d := by
  intro l
  have hl : l.length = a.length + 6 + b.length := by simp [l]; omega
  have hg : ∀ k, k < 6 → l.getD (a.length + k) (false, 0) =
      [(false, 0xFF#8), (false, 0xFF#8), (false, 0xFF#8), (false, 0xFF#8), (false, 0xC7#8), (false, x)].getD k (false, 0) := by
    intro k hk
    simp only [l]
    rw [List.getD_eq_getElem?_getD, List.append_assoc, List.getElem?_append_right (by omega),
      List.getElem?_append_left (by simp; omega), ← List.getD_eq_getElem?_getD, show a.length + k - a.length = k by omega]
  have hfalse : ∀ k, k < 6 → (l.getD (a.length + k) (false, 0)).1 = false := by
    intro k hk
    rw [hg k hk]
    have : k = 0 ∨ k = 1 ∨ k = 2 ∨ k = 3 ∨ k = 4 ∨ k = 5 := by omega
    rcases this with rfl | rfl | rfl | rfl | rfl | rfl <;> rfl
  have hcell : ∀ m, 8 * a.length ≤ m → m < 8 * (a.length + 6) → (record l).getD (2 * m) false = true := by
    intro m h1 h2
    rw [clock_bit (by omega), show m / 8 = a.length + (m / 8 - a.length) by omega, hfalse _ (by omega)]
    rfl
  have hdat : ∀ m, m < 40 → (record l).getD (2 * (8 * a.length + m) + 1) false = !(m == 34 || m == 35 || m == 36) := by
    intro m hm
    rw [record_getD _ _ (by omega), if_neg (by omega), show (2 * (8 * a.length + m) + 1) / 16 = a.length + m / 8 by omega,
      hg _ (by omega), show (2 * (8 * a.length + m) + 1) / 2 % 8 = m % 8 by omega]
    have : ∀ m : Fin 40, ([(false, 0xFF#8), (false, 0xFF#8), (false, 0xFF#8), (false, 0xFF#8), (false, 0xC7#8)].getD (m.val / 8) (false, 0#8)).2.getMsbD (m.val % 8) =
        !(m.val == 34 || m.val == 35 || m.val == 36) := by decide
    rw [← this ⟨m, hm⟩]
    have : m / 8 = 0 ∨ m / 8 = 1 ∨ m / 8 = 2 ∨ m / 8 = 3 ∨ m / 8 = 4 := by omega
    rcases this with e | e | e | e | e <;> rw [e] <;> rfl
  refine ⟨?_, ?_⟩
  · rw [markAt_iff, record_length]
    refine ⟨by omega, ?_, ?_, ?_⟩
    · intro k hk
      have := hdat (8 + k) (by omega)
      rw [show 16 * (a.length + 1) + 1 + 2 * k = 2 * (8 * a.length + (8 + k)) + 1 by omega, this]
      have e : ∀ c, 34 ≤ c → (8 + k == c) = false := fun c hc => by rw [beq_eq_false_iff_ne]; omega
      rw [e 34 (by omega), e 35 (by omega), e 36 (by omega)]; rfl
    · intro k hk
      have := hdat (32 + k) (by omega)
      rw [show 16 * (a.length + 1) + 1 + 48 + 2 * k = 2 * (8 * a.length + (32 + k)) + 1 by omega, this]
      have e : ∀ k : Fin 8, (!(32 + k.val == 34 || 32 + k.val == 35 || 32 + k.val == 36)) = (0xC7#8).getMsbD k.val := by decide
      exact e ⟨k, hk⟩
    · intro k hk
      rw [show 16 * (a.length + 1) + 1 + 48 + 2 * k + 1 = 2 * (8 * a.length + 33 + k) by omega, hcell _ (by omega) (by omega)]
      have e : ∀ k : Fin 8, true = (0xFF#8).getMsbD k.val := by decide
      exact e ⟨k, hk⟩
  · intro r d h1 h2 hm
    obtain ⟨g1, g2⟩ := mark_clocks _ _ _ hm
    have g := g2 26 (by omega)
    by_cases he : r % 2 = 0
    · have := hcell (r / 2 + 26) (by omega) (by omega)
      rw [show 2 * (r / 2 + 26) = r + 2 * 26 by omega, g] at this
      exact absurd this (by decide)
    · have := hdat (r / 2 + 26 - 8 * a.length) (by omega)
      rw [show 2 * (8 * a.length + (r / 2 + 26 - 8 * a.length)) + 1 = r + 2 * 26 by omega, g] at this
      have e : ∀ c, 34 ≤ c → (r / 2 + 26 - 8 * a.length == c) = false := fun c hc => by rw [beq_eq_false_iff_ne]; omega
      rw [e 34 (by omega), e 35 (by omega), e 36 (by omega)] at this
      exact absurd this (by decide)

/-- **C91 is false of the code: data.** Nothing behind the data bytes FF FF FF FF C7 is reported, whatever it is. -/
theorem C91_false_data {debug : Bool} {rnd : Nat → Bool} {amiga : AmigaScan} (a b : List Recorded) (x : Byte) :
    let bits := record
      (a ++ [(false, 0xFF#8), (false, 0xFF#8), (false, 0xFF#8), (false, 0xFF#8), (false, 0xC7#8), (false, x)] ++ b)
    ∀ {l : List (Nat × Byte)} {t : FmTrack}, Usual bits → Scanned bits 0 l → l ≠ [] → load debug rnd amiga bits = .ok t →
      ∀ y ∈ t.items, y.start ≤ 16 * (a.length + 1) := by
  intro bits l t hu hs hne ht y hy
  obtain ⟨cm, _, _, _, h1, _, _⟩ := load_items hu hs hne ht
  obtain ⟨m1, m2⟩ := false_mark a b x
  have hlt := scanned_stops m1 (by decide) (by decide) m2 hs (Nat.zero_le _)
  rcases h1 y hy with h | h
  · unfold Says at h
    split at h
    · obtain ⟨d, hd, _⟩ := h; exact Nat.le_of_lt_succ (hlt _ hd)
    · exact Nat.le_of_lt_succ (hlt _ h.1)
    · obtain ⟨p, _, _, h3, _⟩ := h; exact Nat.le_of_lt_succ (hlt _ h3)
  · exact Nat.le_of_lt_succ (hlt _ h.1)

/-- **C91, other tracks.** A stream in which there is no mark is left to the next schema, the Amiga's. -/
theorem C91_no_marks {debug : Bool} {rnd : Nat → Bool} {amiga : AmigaScan} {bits : List Bool} (h : ∀ p d, ¬ MarkAt bits p d) :
    ∃ s : Fm, s.bits = bits ∧ load debug rnd amiga bits = amiga s := by
  have hu : Usual bits := ⟨h 0, fun p _ => h p _⟩
  have hn : ∃ s, new bits (some bits.length) none = .ok s ∧ s.bits = bits := by
    unfold new
    simp
  obtain ⟨s, hs, hb⟩ := hn
  refine ⟨s, hb, ?_⟩
  obtain ⟨l, h1, h2⟩ := scanMarkers_spec debug s (by rw [hb]; exact hu)
  have hl : l = [] := by
    cases l with
    | nil => rfl
    | cons x l =>
      rw [hb] at h1
      cases h1 with
      | next hf _ _ => exact absurd hf.2.1 (h _ _)
  rw [hl] at h2
  unfold load
  rw [hs]
  simp only [h2, List.map_nil]

/-- A blank stream. -/
example (p : Nat) (d : Byte) : ¬ MarkAt (List.replicate 1000 false) p d := by
  rintro ⟨a, b, c, t, h⟩
  have h1 := congrArg (fun l => l[0]?) h
  have h2 : (plain [a, b, c] ++ mark d ++ t)[0]? = some true := rfl
  rw [h2, List.getElem?_drop] at h1
  have := List.mem_of_getElem? h1.symm
  rw [List.mem_replicate] at this
  exact absurd this.2 (by decide)

end Fox.Fm
