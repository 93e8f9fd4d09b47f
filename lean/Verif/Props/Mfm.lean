import Verif.Proofs.Mfm
/-
Properties C01-C04, C28, C30: the MFM codec (src/bitstream_codec/mfm.rs).
-/
namespace Fox
open Fox.Spec

/-! ### C01 -/

theorem mfm_cell_of_layout {s : Mfm} {pre post : List Bool} {data : List Byte} {prev : Bool}
    (hb : s.bits = BitRing.ofBits (pre ++ encode data prev ++ post)) (j : Nat)
    (hj : j < 8 * data.length) : s.bits.bitAt (pre.length + 2 * j + 1) = dat data j := by
  have hl := encode_length data prev
  rw [hb, BitRing.bitAt_lt rfl (by simp only [BitRing.ofBits, List.length_append]; omega)]
  show (pre ++ encode data prev ++ post).getD _ _ = _
  rw [getD_append_left _ _ _ _ (by rw [List.length_append]; omega),
    getD_append_right _ _ _ _ (by omega), ← encode_data data prev j]
  congr 1; omega

theorem readDecodedBuf_eq {s : Mfm} (hw : NoWeak s) (hv : s.weakMask.wrapValue = none)
    (rnd : Nat → Bool) (data : List Byte) (p : Nat)
    (hn : ∀ i < data.length, s.nudge (p + i * 16) = p + i * 16)
    (h : ∀ j < 8 * data.length, s.bits.bitAt (p + 2 * j + 1) = dat data j) :
    s.readDecodedBuf rnd data.length p = data := by
  unfold Mfm.readDecodedBuf
  apply ext_getD _ _ (0 : Byte) (by simp)
  intro i hi
  have hi' : i < data.length := by simpa using hi
  rw [getD_map_range _ _ _ _ hi']
  apply readDecodedU8_eq hw hv _ _ (hn i hi')
  intro k hk
  rw [← dat_byte data i k hk, ← h (8 * i + k) (by omega)]
  congr 1; omega

/-- **C01.** Any byte string encoded as MFM data, anywhere in a track (cells `pre` before it, `post`
after it), is read back exactly by the decoded-buffer reader, and by a seek followed by a read of the
byte stream, whatever the random source; the byte stream then stands right behind the data. -/
theorem C01_encode_decode (s : Mfm) (rnd : Nat → Bool) (data : List Byte) (prev : Bool)
    (pre post : List Bool) (hb : s.bits = BitRing.ofBits (pre ++ encode data prev ++ post))
    (hw : NoWeak s) (hv : s.weakMask.wrapValue = none)
    (ha : AlignedAt s pre.length (8 * data.length)) :
    s.readDecodedBuf rnd data.length pre.length = data ∧
    (data ≠ [] → ((s.seekStart pre.length).readBytes rnd data.length).1 = data ∧
      ((s.seekStart pre.length).readBytes rnd data.length).2.cursor
        = pre.length + 16 * data.length) := by
  have hn : ∀ i < data.length, s.nudge (pre.length + i * 16) = pre.length + i * 16 := by
    intro i hi
    apply nudge_of_aligned
    have := ha (8 * i) (by omega)
    rwa [show pre.length + 2 * (8 * i) = pre.length + i * 16 by omega] at this
  have h1 : s.readDecodedBuf rnd data.length pre.length = data :=
    readDecodedBuf_eq hw hv rnd data _ hn (fun j hj => mfm_cell_of_layout hb j hj)
  refine ⟨h1, fun hne => ?_⟩
  have h0 : 0 < data.length := List.length_pos_iff.2 hne
  rw [seekStart_eq (by simpa using hn 0 h0), readBytes_aligned _ _ ha]
  exact ⟨h1, rfl⟩

/-- **C01 (write then read).** Writing any bytes with the encoded-buffer writer at an aligned position
inside the track and reading them back there gives the same bytes, and no cell outside the written
range changes. -/
theorem C01_write_read (s : Mfm) (rnd : Nat → Bool) (buf : List Byte) (off : Nat)
    (hw : NoWeak s) (hv : s.weakMask.wrapValue = none) (hf : s.bits.wrap = s.bits.len)
    (hfit : off + 16 * buf.length ≤ s.len) (hne : buf ≠ []) (ha : AlignedAt s off (8 * buf.length)) :
    (s.writeEncodedBuf buf off).readDecodedBuf rnd buf.length off = buf ∧
    (∀ i, i < off ∨ off + 16 * buf.length ≤ i →
      (s.writeEncodedBuf buf off).bits.bits.getD i false = s.bits.bits.getD i false) := by
  have hn : ∀ i < buf.length, s.nudge (off + i * 16) = off + i * 16 := by
    intro i hi
    apply nudge_of_aligned
    have := ha (8 * i) (by omega)
    rwa [show off + 2 * (8 * i) = off + i * 16 by omega] at this
  have h0 : 0 < buf.length := List.length_pos_iff.2 hne
  have hn0 : s.nudge off = off := by simpa using hn 0 h0
  have hl := encode_length buf false
  obtain ⟨g1, g2, g3, g4⟩ := setMany_spec (encode buf false) s.bits off hf
    (by unfold Mfm.len BitRing.len at hfit; omega)
  have e : s.writeEncodedBuf buf off = { s with bits := s.bits.setMany off (encode buf false) } := by
    unfold Mfm.writeEncodedBuf; rw [hn0]
  rw [e]
  constructor
  · refine readDecodedBuf_eq (s := { s with bits := s.bits.setMany off (encode buf false) })
      hw hv rnd buf off hn ?_
    intro j hj
    show (s.bits.setMany off (encode buf false)).bitAt _ = _
    unfold Mfm.len BitRing.len at hfit
    rw [BitRing.bitAt_lt (by rw [g1, g3]; exact hf) (by omega), g4, if_pos (by omega), ← encode_data buf false j]
    congr 1; omega
  · intro i hi
    show (s.bits.setMany off (encode buf false)).bits.getD i false = _
    rw [g4, if_neg (by omega)]

/-! ### C02, C03 -/

theorem infix_getD {w l : List Bool} (h : w <:+: l) :
    ∃ p, p + w.length ≤ l.length ∧ ∀ k, k < w.length → l.getD (p + k) false = w.getD k false := by
  obtain ⟨a, b, rfl⟩ := h
  refine ⟨a.length, by simp only [List.length_append]; omega, fun k hk => ?_⟩
  rw [getD_append_left _ _ _ _ (by rw [List.length_append]; omega),
    getD_append_right _ _ _ _ (by omega)]
  congr 1; omega

/-- In encoded data, of each clock cell and its two neighbouring data cells, the clock is set exactly
when both data cells are clear. -/
theorem encode_cell_clock (data : List Byte) (prev : Bool) (q : Nat) (h : 2 * q + 2 < 16 * data.length) :
    (encode data prev).getD (2 * q + 2) false =
      (!(encode data prev).getD (2 * q + 1) false && !(encode data prev).getD (2 * q + 3) false) := by
  rw [show 2 * q + 2 = 2 * (q + 1) by omega, encode_clock _ _ _ (by omega),
    show 2 * q + 3 = 2 * (q + 1) + 1 by omega, encode_data, encode_data, if_neg (by omega)]
  rfl

theorem encode_cell_first (data : List Byte) (prev : Bool) (h : 0 < data.length) :
    (encode data prev).getD 0 false = (!prev && !(encode data prev).getD 1 false) := by
  have := encode_clock data prev 0 (by omega)
  rw [show (1 : Nat) = 2 * 0 + 1 from rfl, encode_data]
  simpa using this

/-- **C02.** The encoding of any byte string has 16 cells per byte, has no two adjacent 1 cells (also
across the boundary with the preceding bit), and no four consecutive 0 cells. -/
theorem C02_cell_rules (data : List Byte) (prev : Bool) :
    (encode data prev).length = 16 * data.length ∧
    ¬ [true, true] <:+: (prev :: encode data prev) ∧
    ¬ [false, false, false, false] <:+: encode data prev := by
  have hl := encode_length data prev
  refine ⟨hl, fun h => ?_, fun h => ?_⟩
  · obtain ⟨p, hp, h⟩ := infix_getD h
    have h0 := h 0 (by decide)
    have h1 := h 1 (by decide)
    simp only [List.length_cons, List.length_nil] at hp
    rw [hl] at hp
    cases p with
    | zero =>
      have hc := encode_cell_first data prev (by omega)
      simp only [Nat.add_zero, List.getD_cons_zero] at h0
      simp only [Nat.zero_add, List.getD_cons_succ, List.getD_cons_zero] at h1
      rw [h1, h0] at hc; simp at hc
    | succ p =>
      rw [show p + 1 + 0 = p + 1 by omega, List.getD_cons_succ] at h0
      rw [show p + 1 + 1 = (p + 1) + 1 by omega, List.getD_cons_succ] at h1
      simp only [List.getD_cons_zero, List.getD_cons_succ] at h0 h1
      rcases Nat.mod_two_eq_zero_or_one p with hm | hm
      · obtain ⟨q, rfl⟩ : ∃ q, p = 2 * q := ⟨p / 2, by omega⟩
        cases q with
        | zero =>
          have hc := encode_cell_first data prev (by omega)
          simp only [Nat.mul_zero, Nat.zero_add] at h0 h1
          rw [h0, h1] at hc; simp at hc
        | succ q =>
          have hc := encode_cell_clock data prev q (by omega)
          rw [show 2 * (q + 1) = 2 * q + 2 by omega] at h0 h1
          rw [h0, h1] at hc; simp at hc
      · obtain ⟨q, rfl⟩ : ∃ q, p = 2 * q + 1 := ⟨p / 2, by omega⟩
        have hc := encode_cell_clock data prev q (by omega)
        rw [h0, h1] at hc; simp at hc
  · obtain ⟨p, hp, h⟩ := infix_getD h
    have h0 := h 0 (by decide)
    have h1 := h 1 (by decide)
    have h2 := h 2 (by decide)
    have h3 := h 3 (by decide)
    simp only [List.getD_cons_zero, List.getD_cons_succ] at h0 h1 h2 h3
    simp only [List.length_cons, List.length_nil] at hp
    rw [hl] at hp
    rcases Nat.mod_two_eq_zero_or_one p with hm | hm
    · obtain ⟨q, rfl⟩ : ∃ q, p = 2 * q := ⟨p / 2, by omega⟩
      have hc := encode_cell_clock data prev q (by omega)
      rw [h1, h2, h3] at hc; simp at hc
    · obtain ⟨q, rfl⟩ : ∃ q, p = 2 * q + 1 := ⟨p / 2, by omega⟩
      have hc := encode_cell_clock data prev q (by omega)
      rw [show 2 * q + 1 + 0 = 2 * q + 1 by omega] at h0
      rw [show 2 * q + 1 + 1 = 2 * q + 2 by omega] at h1
      rw [show 2 * q + 1 + 2 = 2 * q + 3 by omega] at h2
      rw [h0, h1, h2] at hc; simp at hc

/-- No three cells around a clock position are all clear. -/
theorem no_missing_clock (data : List Byte) (prev : Bool) (p : Nat) (hp : p % 2 = 1)
    (h : p + 1 < 16 * data.length)
    (h0 : (encode data prev).getD p false = false) (h1 : (encode data prev).getD (p + 1) false = false)
    (h2 : (encode data prev).getD (p + 2) false = false) : False := by
  obtain ⟨q, rfl⟩ : ∃ q, p = 2 * q + 1 := ⟨p / 2, by omega⟩
  have hc := encode_cell_clock data prev q (by omega)
  rw [show 2 * q + 1 + 1 = 2 * q + 2 by omega] at h1
  rw [show 2 * q + 1 + 2 = 2 * q + 3 by omega] at h2
  rw [h0, h1, h2] at hc; simp at hc

/-- The bits of a 16-bit word, most significant first. -/
def wordCells (w : BitVec 16) : List Bool := (List.range 16).map fun k => w.getMsbD k

/-- **C03.** At no bit phase does the encoding of any byte string contain the A1 sync word 0x4489, or
two consecutive C2 sync words 0x5224 0x5224 (nor even one 0x5224 followed by a 0 cell). -/
theorem C03_no_sync_in_data (data : List Byte) (prev : Bool) :
    ¬ wordCells 0x4489#16 <:+: encode data prev ∧
    ¬ wordCells 0x5224#16 ++ [false] <:+: encode data prev ∧
    ¬ wordCells 0x5224#16 ++ wordCells 0x5224#16 <:+: encode data prev := by
  have hl := encode_length data prev
  have key : ¬ wordCells 0x5224#16 ++ [false] <:+: encode data prev := by
    intro h
    obtain ⟨p, hp, h⟩ := infix_getD h
    rw [hl] at hp
    change p + 17 ≤ _ at hp
    rcases Nat.mod_two_eq_zero_or_one p with hm | hm
    · exact no_missing_clock data prev (p + 7) (by omega) (by omega)
        (h 7 (by decide)) (h 8 (by decide)) (h 9 (by decide))
    · exact no_missing_clock data prev (p + 14) (by omega) (by omega)
        (h 14 (by decide)) (h 15 (by decide)) (h 16 (by decide))
  refine ⟨fun h => ?_, key, fun h => ?_⟩
  · obtain ⟨p, hp, h⟩ := infix_getD h
    rw [hl] at hp
    change p + 16 ≤ _ at hp
    rcases Nat.mod_two_eq_zero_or_one p with hm | hm
    · exact no_missing_clock data prev (p + 9) (by omega) (by omega)
        (h 9 (by decide)) (h 10 (by decide)) (h 11 (by decide))
    · exact no_missing_clock data prev (p + 2) (by omega) (by omega)
        (h 2 (by decide)) (h 3 (by decide)) (h 4 (by decide))
  · apply key
    obtain ⟨a, b, h⟩ := h
    refine ⟨a, (wordCells 0x5224#16).drop 1 ++ b, ?_⟩
    rw [← h]
    have e : wordCells 0x5224#16 ++ [false] ++ (wordCells 0x5224#16).drop 1 =
        wordCells 0x5224#16 ++ wordCells 0x5224#16 := by decide
    rw [← e]
    simp only [List.append_assoc]

/-- A single 0x5224 does occur in ordinary data, out of phase: the claim about C2 needs the following
0 cell, and a search for one C2 sync word alone would be unsound. -/
example : wordCells 0x5224#16 <:+: encode [0x14#8, 0x80#8] false :=
  ⟨(encode [0x14#8, 0x80#8] false).take 1, (encode [0x14#8, 0x80#8] false).drop 17, by decide⟩

/-! ### C04 -/

/-- The end of the searched cells: the limit, capped at the length of the track. -/
def searchEnd (s : Mfm) (limit : Option Nat) : Nat := min (limit.getD s.len) s.len

/-- **C04.** `find_marker` reports nothing exactly when no position matches; otherwise it reports the
first matching position `p` (as `p + 64 - marker length`, that is `p` itself for the 64-bit patterns)
and the last 16 cells of the window there. -/
theorem C04_find_marker (s : Mfm) (m : MarkerEnc) (start : Nat) (limit : Option Nat) :
    (s.findMarker m start limit = none ↔ ∀ p, ¬ MatchAt s.bits m start (searchEnd s limit) p) ∧
    (∀ q w, s.findMarker m start limit = some (q, w) ↔
      ∃ p, MatchAt s.bits m start (searchEnd s limit) p ∧
        (∀ p', MatchAt s.bits m start (searchEnd s limit) p' → p ≤ p') ∧
        q = p + 64 - m.len ∧ w = (window64 s.bits p).setWidth 16) := by
  have hmax : ∀ lim p, MatchAt s.bits m start (max lim start) p ↔ MatchAt s.bits m start lim p := by
    intro lim p
    constructor
    · intro h; exact ⟨h.1, by have := h.1; have := h.2.1; omega, h.2.2⟩
    · intro h; exact ⟨h.1, by have := h.2.1; omega, h.2.2⟩
  have main : (s.findMarker m start limit = none ∧
        ∀ p, ¬ MatchAt s.bits m start (searchEnd s limit) p) ∨
      (∃ p, s.findMarker m start limit = some (p + 64 - m.len, (window64 s.bits p).setWidth 16) ∧
        MatchAt s.bits m start (searchEnd s limit) p ∧
        ∀ q, MatchAt s.bits m start (searchEnd s limit) q → p ≤ q) := by
    unfold Mfm.findMarker
    by_cases he : s.bits.bits.isEmpty = true
    · rw [if_pos he]
      left
      refine ⟨rfl, fun p hp => ?_⟩
      have : s.len = 0 := by
        unfold Mfm.len BitRing.len; rw [List.isEmpty_iff] at he; rw [he]; rfl
      have := hp.2.1
      unfold searchEnd at this; omega
    · rw [if_neg he]
      have hlim : (if s.bits.bits.isEmpty = true then none else
          Mfm.findMarkerLoop s.bits m (searchEnd s limit - start) start 0 0) =
          s.findMarker m start limit := by
        unfold searchEnd Mfm.findMarker Mfm.len
        cases limit with
        | none => simp
        | some l => simp
      rw [if_neg he] at hlim
      unfold Mfm.findMarker at hlim
      rw [if_neg he] at hlim
      rw [← hlim]
      have := findMarkerLoop_spec s.bits m start (searchEnd s limit) (searchEnd s limit - start) start
        (Nat.le_refl _) (by omega) (fun p hp => by have := hp.1; have := hp.2.1; omega) _ rfl
      simp only [Nat.sub_self, List.range_zero, List.map_nil] at this
      simp only [hmax] at this
      exact this
  constructor
  · constructor
    · intro h
      rcases main with h1 | ⟨p, h1, _⟩
      · exact h1.2
      · rw [h] at h1; cases h1
    · intro h
      rcases main with h1 | ⟨p, _, h2, _⟩
      · exact h1.1
      · exact absurd h2 (h p)
  · intro q w
    constructor
    · intro h
      rcases main with h1 | ⟨p, h1, h2, h3⟩
      · rw [h] at h1; cases h1.1
      · rw [h] at h1
        injection h1 with h1
        injection h1 with e1 e2
        exact ⟨p, h2, h3, e1, e2⟩
    · rintro ⟨p, h1, h2, rfl, rfl⟩
      rcases main with h | ⟨p', e, g1, g2⟩
      · exact absurd h1 (h.2 p)
      · have : p = p' := Nat.le_antisymm (h2 _ g1) (g2 _ h1)
        rw [this]; exact e

/-- **C04, finding.** A mark that begins at the very first cell of a track is reported at position 0
in a release build, but the position is computed as `(bi - marker.len) + 1` with `bi = 63`, which
panics when overflow checks are on: for every track that begins with a matching window the debug build
panics. -/
theorem C04_debug_panic_at_origin (s : Mfm) (m : MarkerEnc) (limit : Option Nat) (hm : m.len = 64)
    (h : MatchAt s.bits m 0 (searchEnd s limit) 0) : s.findMarkerPanics m 0 limit :=
  ⟨_, ((C04_find_marker s m 0 limit).2 _ _).2 ⟨0, h, fun _ _ => Nat.zero_le _, by omega, rfl⟩⟩

/-- Non-vacuity of C04: a track with the IDAM pattern at cell 5. -/
example :
    let s : Mfm := { bits := BitRing.ofBits ([true, false, true, false, true] ++
                       (List.range 64).map (fun k => (0x4489448944895554#64).getMsbD k) ++ [true]),
                     clockMap := BitRing.ofBits [], weakMask := BitRing.ofBits [] }
    s.findMarker { bits := 0x4489448944890000#64, mask := 0xFFFFFFFFFFFF0000#64 } 0 none
      = some (5, 0x5554#16) := by
  decide +kernel

/-! ### C28 -/

/-- A cell whose value comes from the random source. -/
def WeakCell (s : Mfm) (i : Nat) : Prop :=
  s.weakEnabled = true ∧ s.weakMask.bits ≠ [] ∧ s.weakMask.bitAt i = true

theorem cell_congr (s : Mfm) (r1 r2 : Nat → Bool) (i : Nat) (h : WeakCell s i → r1 i = r2 i) :
    s.cell r1 i = s.cell r2 i := by
  unfold Mfm.cell
  split
  · rename_i hc
    simp only [Bool.and_eq_true, Bool.not_eq_true', List.isEmpty_eq_false_iff] at hc
    exact h ⟨hc.1.1, hc.1.2, hc.2⟩
  · rfl

/-- **C28.** Two decoded reads of the same bytes agree whenever their random sources agree on the weak
cells inside the range read (one more cell than the range, for the phase correction). -/
theorem C28_read_depends_on_weak_cells (s : Mfm) (r1 r2 : Nat → Bool) (n off : Nat)
    (h : ∀ i, off ≤ i → i ≤ off + 16 * n → WeakCell s i → r1 i = r2 i) :
    s.readDecodedBuf r1 n off = s.readDecodedBuf r2 n off := by
  unfold Mfm.readDecodedBuf
  refine List.map_congr_left fun i hi => ?_
  rw [List.mem_range] at hi
  unfold Mfm.readDecodedU8
  refine congrArg byteOfBits (List.map_congr_left fun k hk => ?_)
  rw [List.mem_range] at hk
  have hnb : s.nudge (off + i * 16) = off + i * 16 ∨ s.nudge (off + i * 16) = off + i * 16 + 1 := by
    unfold Mfm.nudge; split <;> omega
  exact cell_congr s r1 r2 _ (h _ (by omega) (by omega))

/-- **C28, converse.** Each weak cell that is read delivers the random value, each other cell the
recorded one. -/
theorem C28_cell_value (s : Mfm) (r : Nat → Bool) (i : Nat) :
    (WeakCell s i → s.cell r i = r i) ∧ (¬ WeakCell s i → s.cell r i = s.bits.bitAt i) := by
  unfold Mfm.cell WeakCell
  constructor
  · rintro ⟨h1, h2, h3⟩
    simp [h1, h2, h3]
  · intro h
    rw [if_neg]
    simp only [Bool.and_eq_true, Bool.not_eq_true', List.isEmpty_eq_false_iff]
    exact fun hc => h ⟨hc.1.1, hc.1.2, hc.2⟩

/-- With weak bits disabled every decoded read is reproducible. -/
theorem C28_disabled_deterministic (s : Mfm) (r1 r2 : Nat → Bool) (n off : Nat)
    (h : s.weakEnabled = false) : s.readDecodedBuf r1 n off = s.readDecodedBuf r2 n off :=
  C28_read_depends_on_weak_cells s r1 r2 n off fun _ _ _ hw => by
    have := hw.1; rw [h] at this; cases this

/-- A weak cell does make two reads differ (the claim is not vacuous). -/
example :
    let s : Mfm := { bits := BitRing.ofBits (List.replicate 16 false),
                     clockMap := BitRing.ofBits (List.replicate 16 false),
                     weakMask := BitRing.ofBits (List.replicate 16 true) }
    s.readDecodedBuf (fun _ => true) 1 0 ≠ s.readDecodedBuf (fun _ => false) 1 0 := by decide

/-! ### C30 -/

theorem getD_eq_getElem' (l : List Bool) (d : Bool) {i : Nat} (h : i < l.length) : l.getD i d = l[i] := by
  simp [List.getD_eq_getElem?_getD, h]

theorem weakMaskLoop_length (run : Nat) : ∀ (bs : List Bool) (z : Nat),
    (Mfm.weakMaskLoop run z bs).length = bs.length := by
  intro bs
  induction bs with
  | nil => intro z; rfl
  | cons b bs ih => intro z; simp [Mfm.weakMaskLoop, ih]

theorem weakMaskLoop_getD (run : Nat) : ∀ (bs : List Bool) (z i : Nat), i < bs.length →
    ((Mfm.weakMaskLoop run z bs).getD i false = true ↔
      (∀ k ≤ i, bs.getD k false = false) ∧ z + i ≥ run ∨
      run ≤ i ∧ ∀ k ≤ run, bs.getD (i - k) true = false) := by
  intro bs
  induction bs with
  | nil => intro z i h; simp at h
  | cons b bs ih =>
    intro z i h
    cases i with
    | zero =>
      simp only [Mfm.weakMaskLoop, List.getD_cons_zero, decide_eq_true_eq]
      constructor
      · intro hz
        by_cases hb : b = true
        · rw [if_pos hb] at hz; omega
        · rw [if_neg hb] at hz
          left
          refine ⟨fun k hk => ?_, by omega⟩
          have : k = 0 := by omega
          subst this
          simpa using hb
      · rintro (⟨h1, h2⟩ | ⟨h1, h2⟩)
        · have := h1 0 (by omega)
          simp only [List.getD_cons_zero] at this
          rw [if_neg (by simp [this])]; omega
        · have := h2 0 (by omega)
          simp only [Nat.sub_zero, List.getD_cons_zero] at this
          rw [if_neg (by simp [this])]; omega
    | succ i =>
      have h' : i < bs.length := by simpa using h
      simp only [Mfm.weakMaskLoop, List.getD_cons_succ]
      rw [ih _ i h']
      constructor
      · rintro (⟨h1, h2⟩ | ⟨h1, h2⟩)
        · by_cases hb : b = true
          · rw [if_pos hb] at h2
            right
            refine ⟨by omega, fun k hk => ?_⟩
            have := h1 (i - k) (by omega)
            rw [show i + 1 - k = (i - k) + 1 by omega, List.getD_cons_succ]
            rw [getD_eq_getElem' _ _ (by omega)] at this ⊢
            exact this
          · rw [if_neg hb] at h2
            left
            refine ⟨fun k hk => ?_, by omega⟩
            cases k with
            | zero => simpa using hb
            | succ k => rw [List.getD_cons_succ]; exact h1 k (by omega)
        · right
          refine ⟨by omega, fun k hk => ?_⟩
          rw [show i + 1 - k = (i - k) + 1 by omega, List.getD_cons_succ]
          exact h2 k hk
      · rintro (⟨h1, h2⟩ | ⟨h1, h2⟩)
        · left
          have hb : b = false := by simpa using h1 0 (by omega)
          refine ⟨fun k hk => ?_, by simp [hb]; omega⟩
          simpa using h1 (k + 1) (by omega)
        · by_cases hr : run ≤ i
          · right
            refine ⟨hr, fun k hk => ?_⟩
            have := h2 k hk
            rwa [show i + 1 - k = (i - k) + 1 by omega, List.getD_cons_succ] at this
          · left
            have hri : run = i + 1 := by omega
            have hb : b = false := by
              have := h2 run (by omega)
              rw [hri] at this
              simpa using this
            refine ⟨fun k hk => ?_, by simp [hb]; omega⟩
            have := h2 (i - k) (by omega)
            rw [show i + 1 - (i - k) = k + 1 by omega, List.getD_cons_succ] at this
            rw [getD_eq_getElem' _ _ (by omega)] at this ⊢
            exact this

/-- **C30.** The weak-bit mask of a stream has the stream's length, and marks a cell exactly when that
cell and the `run` cells before it exist and are all zero, i.e. when it is at least the
`(run + 1)`-th zero of its run (runs are counted from the start of the track). -/
theorem C30_weak_mask (s : Mfm) (run : Nat) :
    (s.createWeakBitMask run).length = s.len ∧
    ∀ i < s.len, ((s.createWeakBitMask run).getD i false = true ↔
      run ≤ i ∧ ∀ k ≤ run, s.bits.bits.getD (i - k) true = false) := by
  refine ⟨weakMaskLoop_length _ _ _, fun i hi => ?_⟩
  unfold Mfm.createWeakBitMask
  rw [weakMaskLoop_getD _ _ _ _ hi]
  constructor
  · rintro (⟨h1, h2⟩ | h)
    · refine ⟨by omega, fun k hk => ?_⟩
      have := h1 (i - k) (by omega)
      unfold Mfm.len BitRing.len at hi
      rw [getD_eq_getElem' _ _ (by omega)] at this ⊢
      exact this
    · exact h
  · exact fun h => Or.inr h

example : let s : Mfm := { bits := BitRing.ofBits [false, false, false, false, true, false, false],
                           clockMap := BitRing.ofBits [], weakMask := BitRing.ofBits [] }
    s.createWeakBitMask 2 = [false, false, true, true, false, false, false] := by decide

end Fox
