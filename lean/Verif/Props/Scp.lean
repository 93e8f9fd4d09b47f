import Verif.Proofs.ScpLoad
/-
C77 to C81: SuperCard Pro images.
-/
namespace Fox
open Spec Flux Scp

/-! ## C77 -/

/-- **C77.** Exactly the well-formed files are accepted, if the FM decoder copes with the revolutions that are taken for FM
(it does not with all: `C81_false_fm`). -/
theorem C77_accepts (debug : Bool) (rnd : Nat → Bool) (fm : FmCodec) (f : List Byte) :
    (∃ r, Scp.load debug rnd fm {} f = .ok r) ↔ ScpFile.WellFormed debug f ∧ Scp.FmFine fm f 0 (ScpFile.offsets f) := by
  constructor
  · rintro ⟨r, h⟩; exact Scp.wellFormed_of_ok h
  · intro h
    obtain ⟨i, hi, _⟩ := Scp.load_ok h.1 rnd fm h.2
    exact ⟨_, hi⟩

/-- No revolution is taken for FM. -/
def noFm (rs : List Rev) : Bool :=
  (synthesize rs).all fun r => match r.decode none none with
    | some r' => r'.encoding != .fm
    | none => true

theorem fmFine_of_noFm {fm : FmCodec} {rs : List Rev} (h : noFm rs = true) : Flux.FmFine fm none none rs := by
  intro r hr r' hd he
  have := List.all_eq_true.1 h r hr
  rw [hd] at this
  simp only [he] at this
  exact absurd this (by decide)

theorem fine_of_noFm {fm : FmCodec} {f : List Byte} {os : List Nat}
    (h : ∀ k < os.length, noFm ((List.range (ScpFile.turns f)).map (Scp.seenRev f (os.getD k 0) (ScpFile.place f k))) = true) :
    Scp.FmFine fm f 0 os := by
  intro k o hk
  have hlt := (List.getElem?_eq_some_iff.1 hk).1
  have := h k hlt
  rw [List.getD_eq_getElem?_getD, hk] at this
  rw [Nat.zero_add]
  exact fmFine_of_noFm this

theorem scp_track (debug : Bool) (rnd : Nat → Bool) (fm : FmCodec) (f : List Byte) (ch : Ch) (hh : ch.h < 2) (x : DiskTrack) :
    (Scp.loaded debug rnd fm f).track ch = .ok (some x) ↔
      ∃ (i : Nat) (o : Nat), (ScpFile.offsets f)[i]? = some o ∧ x = Scp.madeTrack debug rnd fm f i o ∧ ScpFile.place f i = ch := by
  rw [← Scp.loaded_at debug rnd fm f hh]
  unfold Disk.track
  rw [if_neg (by omega)]
  unfold at?
  constructor
  · intro h; injection h
  · intro h; rw [h]

theorem scp_side (f : List Byte) (i : Nat) : (ScpFile.place f i).h < 2 := by
  show i % ScpFile.sides f < 2
  rcases Scp.sides_cases f with e | e <;> rw [e] <;> omega

theorem place_inj {f : List Byte} {i j : Nat} (h : ScpFile.place f i = ScpFile.place f j) : i = j := by
  have h1 : i / ScpFile.sides f = j / ScpFile.sides f := congrArg Ch.c h
  have h2 : i % ScpFile.sides f = j % ScpFile.sides f := congrArg Ch.h h
  rw [← Nat.div_add_mod i (ScpFile.sides f), ← Nat.div_add_mod j (ScpFile.sides f), h1, h2]

/-- **C77.** What becomes of a well-formed file: one flux track for each track before the first gap in its table, track `i` on
side `i mod sides` of cylinder `i div sides` and so addressed; no other tracks; the geometry that these make up; and the
write protection that the header tells. -/
theorem C77_tracks (debug : Bool) (rnd : Nat → Bool) (fm : FmCodec) (f : List Byte)
    (hfm : Scp.FmFine fm f 0 (ScpFile.offsets f))
    (h : ScpFile.WellFormed debug f) :
    ∃ d i, Scp.load debug rnd fm {} f = .ok (d, i) ∧
      (∀ ch, ch.h < 2 → ((∃ k < (ScpFile.offsets f).length, ScpFile.place f k = ch) → ∃ t, d.track ch = .ok (some (.flux ch t))) ∧
        ((∀ k < (ScpFile.offsets f).length, ScpFile.place f k ≠ ch) → d.track ch = .ok none)) ∧
      d.geometry = ⟨(ScpFile.place f ((ScpFile.offsets f).length - 1)).c + 1, ScpFile.sides f⟩ ∧
      i.writeProtect = !(ScpFile.byte f 8).testBit 4 := by
  obtain ⟨i, h1, h2, _⟩ := Scp.load_ok h rnd fm hfm
  refine ⟨_, i, h1, ?_, rfl, ?_⟩
  · intro ch hh
    constructor
    · rintro ⟨k, hk, rfl⟩
      obtain ⟨m, hm⟩ := Scp.make_total debug rnd fm _ (hfm k _ (List.getElem?_eq_getElem hk))
      rw [Nat.zero_add] at hm
      refine ⟨m.bitstream, (scp_track debug rnd fm f _ hh _).2 ⟨k, _, List.getElem?_eq_getElem hk, ?_, rfl⟩⟩
      unfold Scp.madeTrack
      rw [hm]
    · intro hno
      cases ht : (Scp.loaded debug rnd fm f).track ch with
      | error e => unfold Disk.track at ht; rw [if_neg (by omega)] at ht; cases ht
      | ok y =>
        cases y with
        | none => rfl
        | some x =>
          obtain ⟨k, o, hk, _, hp⟩ := (scp_track debug rnd fm f ch hh x).1 ht
          exact absurd hp (hno k (List.getElem?_eq_some_iff.1 hk).1)
  · rw [h2, Nat.testBit_eq_decide_div_mod_eq]
    have : ScpFile.byte f 8 / 2 ^ 4 % 2 = 0 ∨ ScpFile.byte f 8 / 2 ^ 4 % 2 = 1 := by omega
    rcases this with e | e
    · rw [e, show ScpFile.byte f 8 / 16 % 2 = 0 from e]; rfl
    · rw [e, show ScpFile.byte f 8 / 16 % 2 = 1 from e]; rfl

theorem decodeAll_length {debug : Bool} {rnd : Nat → Bool} {fm : FmCodec} {hint : Option Rat} {rpm : Option Rpm} :
    ∀ {rs : List Rev} {l}, decodeAll debug rnd fm hint rpm rs = .ok l → l.length = rs.length
  | [], l, h => by cases h; rfl
  | r :: rs, l, h => by
    rw [decodeAll] at h
    cases hd : r.decode hint rpm with
    | none => rw [hd] at h; cases h
    | some r' =>
      rw [hd] at h
      simp only at h
      cases ht : Rev.track debug rnd fm r' with
      | error e => rw [ht] at h; cases h
      | ok t =>
        rw [ht] at h
        simp only at h
        cases hl : decodeAll debug rnd fm hint rpm rs with
        | error e => rw [hl] at h; cases h
        | ok l' =>
          rw [hl] at h
          cases h
          rw [List.length_cons, List.length_cons, decodeAll_length hl]

theorem made_best {debug : Bool} {rnd : Nat → Bool} {fm : FmCodec} {hint : Option Rat} {rpm : Option Rpm} {rs : List Rev} {m}
    (h : make debug rnd fm hint rpm rs = .ok m) (hne : rs ≠ []) : ∃ x, m.revs[m.best]? = some x := by
  unfold make at h
  cases hl : decodeAll debug rnd fm hint rpm (synthesize rs) with
  | error e => rw [hl] at h; cases h
  | ok l =>
    rw [hl] at h
    cases h
    have hpos : 0 < l.length := by
      rw [decodeAll_length hl]
      unfold synthesize
      rw [List.length_append]
      have := List.length_pos_iff.2 hne
      omega
    have hb : best (l.map fun x => score x.2) < l.length := by
      rcases C75_best (l.map fun x => score x.2) with ⟨h, _⟩ | ⟨s, h, _⟩
      · rw [h]; exact hpos
      · have := (List.getElem?_eq_some_iff.1 h).1
        rwa [List.length_map] at this
    exact ⟨_, List.getElem?_eq_getElem hb⟩

/-- **C77, the data rate.** The data rate that the loaded image is described with is the class of the rate of the revolution
that its first track is read from; with no revolutions it is 250 kbit/s. -/
theorem C77_rate (debug : Bool) (rnd : Nat → Bool) (fm : FmCodec) (f : List Byte)
    (hfm : Scp.FmFine fm f 0 (ScpFile.offsets f)) (h : ScpFile.WellFormed debug f) :
    ∃ d i m, Scp.load debug rnd fm {} f = .ok (d, i) ∧
      make debug rnd fm none none ((List.range (ScpFile.turns f)).map (Scp.seenRev f (ScpFile.offset f 0) (ScpFile.place f 0))) = .ok m ∧
      (ScpFile.turns f = 0 → i.rate = .r250) ∧
      (ScpFile.turns f ≠ 0 → ∃ r t, m.revs[m.best]? = some (r, t) ∧ m.bitstream = some t ∧
        i.rate = rateOf (r.dataRate.getD 0).floor.toNat) := by
  obtain ⟨i, h1, _, h2⟩ := Scp.load_ok h rnd fm hfm
  obtain ⟨m, hm⟩ := Scp.make_total debug rnd fm _ (hfm 0 (ScpFile.offset f 0) rfl)
  rw [Nat.zero_add] at hm
  refine ⟨_, i, m, h1, hm, ?_, ?_⟩
  · intro h0
    rw [h2 m hm]
    rw [h0] at hm
    cases hm
    rfl
  · intro h0
    obtain ⟨x, hx⟩ := made_best hm (by intro e; have := congrArg List.length e; simp at this; exact h0 this)
    refine ⟨x.1, x.2, hx, ?_, ?_⟩
    · unfold Made.bitstream; rw [hx]; rfl
    · rw [h2 m hm]; unfold Scp.rateOfMade; rw [hx]

/-! ## C78 -/

theorem takeWhile_of_no_gap : ∀ (l : List Nat), (∀ i j, i < j → l.getD i 0 = 0 → l.getD j 0 = 0) →
    l.takeWhile (· ≠ 0) = l.filter (· ≠ 0)
  | [], _ => rfl
  | x :: l, h => by
    by_cases hx : x = 0
    · subst hx
      rw [List.takeWhile_cons_of_neg (by simp), List.filter_cons_of_neg (by simp)]
      symm
      rw [List.filter_eq_nil_iff]
      intro y hy
      obtain ⟨j, hj⟩ := List.mem_iff_getElem?.1 hy
      have := h 0 (j + 1) (by omega) rfl
      rw [List.getD_eq_getElem?_getD, List.getElem?_cons_succ, hj] at this
      simpa using this
    · rw [List.takeWhile_cons_of_pos (by simpa using hx), List.filter_cons_of_pos (by simpa using hx),
        takeWhile_of_no_gap l]
      intro i j hij hi
      exact h (i + 1) (j + 1) (by omega) (by simpa using hi)

/-- **C78 (partial).** If no entry of the table that is zero is followed by one that is not, then the tracks that are loaded
are all the tracks of the file.  Missing: tables with gaps (`C78_false_gap`). -/
theorem C78_all_partial (f : List Byte) (h0 : 20 ≤ ScpFile.offset f 0)
    (hg : ∀ i j, i < j → j < ScpFile.entries f → ScpFile.offset f i = 0 → ScpFile.offset f j = 0) :
    ScpFile.offsets f = ScpFile.allOffsets f := by
  have hn : ScpFile.entries f = (ScpFile.entries f - 1) + 1 := by unfold ScpFile.entries; omega
  unfold ScpFile.offsets ScpFile.allOffsets
  rw [hn, List.range_succ_eq_map, List.map_cons, List.map_map, List.filter_cons_of_pos (by simp; omega), ← hn]
  congr 1
  refine takeWhile_of_no_gap _ ?_
  intro i j hij hi
  rcases Nat.lt_or_ge j (ScpFile.entries f - 1) with hj | hj
  · rw [List.getD_eq_getElem?_getD, List.getElem?_map, List.getElem?_range hj]
    rw [List.getD_eq_getElem?_getD, List.getElem?_map, List.getElem?_range (by omega)] at hi
    exact hg (i + 1) (j + 1) (by omega) (by omega) hi
  · rw [List.getD_eq_getElem?_getD, List.getElem?_eq_none (by simpa using hj)]
    rfl

/-- A file with two tracks on one side, each with one revolution of two samples; the table has an empty entry between them. -/
def gapFile : List Byte :=
  [0x53#8, 0x43#8, 0x50#8, 0x18#8, 0x80#8, 1#8, 0#8, 2#8, 0#8, 0#8, 1#8, 0#8, 0#8, 0#8, 0#8, 0#8] ++
  [28#8, 0#8, 0#8, 0#8, 0#8, 0#8, 0#8, 0#8, 48#8, 0#8, 0#8, 0#8] ++
  [0x54#8, 0x52#8, 0x4B#8, 0#8, 0#8, 0x12#8, 0x7A#8, 0#8, 2#8, 0#8, 0#8, 0#8, 16#8, 0#8, 0#8, 0#8, 0#8, 160#8, 0#8, 240#8] ++
  [0x54#8, 0x52#8, 0x4B#8, 2#8, 0#8, 0x12#8, 0x7A#8, 0#8, 2#8, 0#8, 0#8, 0#8, 16#8, 0#8, 0#8, 0#8, 0#8, 240#8, 0#8, 160#8]

theorem gap_offsets : ScpFile.offsets gapFile = [28] := by decide +kernel

theorem gap_wellFormed (checked : Bool) : ScpFile.WellFormed checked gapFile := by
  refine ⟨by unfold ScpFile.Known; decide +kernel, by decide +kernel, by decide +kernel, ?_, ?_, ?_, ?_⟩
  · rw [gap_offsets]; simp
  · rw [gap_offsets]; decide +kernel
  · rw [gap_offsets]; intro o ho; obtain rfl := List.mem_singleton.1 ho; decide +kernel
  · rw [gap_offsets]; intro o ho; obtain rfl := List.mem_singleton.1 ho
    intro j hj
    have : j = 0 := by have : ScpFile.turns gapFile = 1 := by decide +kernel
                       omega
    subst this
    exact ⟨by decide +kernel, fun _ => by decide +kernel⟩

/-- **C78 refuted.** A file with two good tracks and a gap between them in the table is loaded with the first track alone, and
with no error. -/
theorem C78_false_gap (debug : Bool) (rnd : Nat → Bool) (fm : FmCodec) :
    ScpFile.allOffsets gapFile = [28, 48] ∧
    (∀ o ∈ ScpFile.allOffsets gapFile, Scp.TrackOk true gapFile o) ∧
    ∃ d i, Scp.load debug rnd fm {} gapFile = .ok (d, i) ∧ d.geometry = ⟨1, 1⟩ ∧
      ∀ ch, ch.h < 2 → ch ≠ ⟨0, 0⟩ → d.track ch = .ok none := by
  have ha : ScpFile.allOffsets gapFile = [28, 48] := by decide +kernel
  have ht : ScpFile.turns gapFile = 1 := by decide +kernel
  refine ⟨ha, ?_, ?_⟩
  · rw [ha]
    intro o ho
    rcases List.mem_cons.1 ho with rfl | ho
    · refine ⟨by decide +kernel, fun j hj => ?_⟩
      obtain rfl : j = 0 := by omega
      exact ⟨by decide +kernel, fun _ => by decide +kernel⟩
    · obtain rfl := List.mem_singleton.1 ho
      refine ⟨by decide +kernel, fun j hj => ?_⟩
      obtain rfl : j = 0 := by omega
      exact ⟨by decide +kernel, fun _ => by decide +kernel⟩
  · obtain ⟨d, i, h1, h2, h3, _⟩ := C77_tracks debug rnd fm gapFile
      (fine_of_noFm (by rw [gap_offsets]; decide +kernel)) (gap_wellFormed debug)
    refine ⟨d, i, h1, ?_, ?_⟩
    · rw [h3, gap_offsets]; decide +kernel
    · intro ch hh hne
      refine (h2 ch hh).2 ?_
      rw [gap_offsets]
      intro k hk
      obtain rfl : k = 0 := by simpa using hk
      intro e
      apply hne
      rw [← e]
      decide +kernel

/-! ## C79 -/

theorem times_zeros : ∀ (ws : List Nat) (acc : Nat), 65536 ≤ acc → (∀ t ∈ ScpFile.times 65536 acc ws, t < 65536) →
    ∀ c acc', ScpFile.times c acc' ws = []
  | [], _, _, _, _, _ => rfl
  | 0 :: ws, acc, ha, h, c, acc' => by
    rw [ScpFile.times]
    exact times_zeros ws (acc + 65536) (by omega) (by rw [ScpFile.times] at h; exact h) c _
  | (n + 1) :: ws, acc, ha, h, c, acc' => by
    rw [ScpFile.times] at h
    have := h _ List.mem_cons_self
    omega

theorem times_same : ∀ (ws : List Nat), (∀ t ∈ ScpFile.times 65536 0 ws, t < 65536) →
    ScpFile.times 65535 0 ws = ScpFile.times 65536 0 ws
  | [], _ => rfl
  | 0 :: ws, h => by
    rw [ScpFile.times] at h ⊢
    rw [ScpFile.times]
    rw [times_zeros ws _ (by omega) h, times_zeros ws _ (by omega) h]
  | (n + 1) :: ws, h => by
    rw [ScpFile.times] at h ⊢
    rw [ScpFile.times, times_same ws (fun t ht => h t (List.mem_cons_of_mem _ ht))]

theorem seen_revolutions {f : List Byte} (hw : ScpFile.WellFormed true f) {o : Nat} (ho : o ∈ ScpFile.offsets f) (ch : Ch)
    (hs : ∀ j < ScpFile.turns f, ∀ t ∈ ScpFile.times 65536 0 (ScpFile.samples f o j), t < 65536) :
    (List.range (ScpFile.turns f)).map (Scp.seenRev f o ch) = revolutions ch (ScpFile.flux 65536 f o) := by
  unfold revolutions ScpFile.flux
  rw [List.map_map]
  apply List.map_congr_left
  intro j hj
  have hj' := List.mem_range.1 hj
  have := (hw.data o ho j hj').2 rfl
  unfold Scp.seenRev
  rw [times_same _ (hs j hj'), Nat.mod_eq_of_lt this]
  rfl

theorem wellFormed_any {f : List Byte} (h : ScpFile.WellFormed true f) (debug : Bool) : ScpFile.WellFormed debug f :=
  ⟨h.header, h.plain, h.first, h.order, h.few, h.inside, fun o ho j hj => ⟨(h.data o ho j hj).1, fun _ => (h.data o ho j hj).2 rfl⟩⟩

/-- **C79 (partial).** Each loaded track is made of exactly the revolutions that the file describes, every flux time being the
samples' sum in ticks with 65536 for each overflow, if no flux time exceeds 65535 ticks.
Missing: longer flux times (`C79_false_overflow`). -/
theorem C79_flux_partial (debug : Bool) (rnd : Nat → Bool) (fm : FmCodec) (f : List Byte)
    (hfm : Scp.FmFine fm f 0 (ScpFile.offsets f))
    (h : ScpFile.WellFormed true f)
    (hs : ∀ o ∈ ScpFile.offsets f, ∀ j < ScpFile.turns f, ∀ t ∈ ScpFile.times 65536 0 (ScpFile.samples f o j), t < 65536) :
    ∃ d i, Scp.load debug rnd fm {} f = .ok (d, i) ∧
      ∀ (k : Nat) (o : Nat), (ScpFile.offsets f)[k]? = some o →
        ∃ m, make debug rnd fm none none (revolutions (ScpFile.place f k) (ScpFile.flux 65536 f o)) = .ok m ∧
          d.track (ScpFile.place f k) = .ok (some (.flux (ScpFile.place f k) m.bitstream)) := by
  obtain ⟨i, h1, _⟩ := Scp.load_ok (wellFormed_any h debug) rnd fm hfm
  refine ⟨_, i, h1, ?_⟩
  intro k o hk
  have ho : o ∈ ScpFile.offsets f := List.mem_iff_getElem?.2 ⟨k, hk⟩
  obtain ⟨m, hm⟩ := Scp.make_total debug rnd fm (revolutions (ScpFile.place f k) (ScpFile.flux 65536 f o)) (by
    have := hfm k o hk
    rw [Nat.zero_add, seen_revolutions h ho _ (hs o ho)] at this
    exact this)
  refine ⟨m, hm, (scp_track debug rnd fm f _ (scp_side f k) _).2 ⟨k, o, hk, ?_, rfl⟩⟩
  unfold Scp.madeTrack
  rw [seen_revolutions h ho _ (hs o ho), hm]

/-- Each loaded track is made of the revolutions that the file describes, except that an overflow counts 65535 ticks. -/
theorem C79_flux_as_is (debug : Bool) (rnd : Nat → Bool) (fm : FmCodec) (f : List Byte)
    (hfm : Scp.FmFine fm f 0 (ScpFile.offsets f))
    (h : ScpFile.WellFormed true f) :
    ∃ d i, Scp.load debug rnd fm {} f = .ok (d, i) ∧
      ∀ (k : Nat) (o : Nat), (ScpFile.offsets f)[k]? = some o →
        ∃ m, make debug rnd fm none none (revolutions (ScpFile.place f k) (ScpFile.flux 65535 f o)) = .ok m ∧
          d.track (ScpFile.place f k) = .ok (some (.flux (ScpFile.place f k) m.bitstream)) := by
  obtain ⟨i, h1, _⟩ := Scp.load_ok (wellFormed_any h debug) rnd fm hfm
  refine ⟨_, i, h1, ?_⟩
  intro k o hk
  have ho : o ∈ ScpFile.offsets f := List.mem_iff_getElem?.2 ⟨k, hk⟩
  have e : (List.range (ScpFile.turns f)).map (Scp.seenRev f o (ScpFile.place f k)) =
      revolutions (ScpFile.place f k) (ScpFile.flux 65535 f o) := by
    unfold revolutions ScpFile.flux
    rw [List.map_map]
    apply List.map_congr_left
    intro j hj
    unfold Scp.seenRev
    rw [Nat.mod_eq_of_lt ((h.data o ho j (List.mem_range.1 hj)).2 rfl)]
    rfl
  obtain ⟨m, hm⟩ := Scp.make_total debug rnd fm (revolutions (ScpFile.place f k) (ScpFile.flux 65535 f o)) (by
    have := hfm k o hk
    rw [Nat.zero_add, e] at this
    exact this)
  refine ⟨m, hm, (scp_track debug rnd fm f _ (scp_side f k) _).2 ⟨k, o, hk, ?_, rfl⟩⟩
  unfold Scp.madeTrack
  rw [e, hm]

/-- The samples `0, 1` stand for 65537 ticks. -/
def overflowFile : List Byte :=
  [0x53#8, 0x43#8, 0x50#8, 0x18#8, 0x80#8, 1#8, 0#8, 1#8, 0#8, 0#8, 1#8, 0#8, 0#8, 0#8, 0#8, 0#8] ++
  [20#8, 0#8, 0#8, 0#8] ++
  [0x54#8, 0x52#8, 0x4B#8, 0#8, 0#8, 0x12#8, 0x7A#8, 0#8, 2#8, 0#8, 0#8, 0#8, 16#8, 0#8, 0#8, 0#8, 0#8, 0#8, 0#8, 1#8]

theorem overflow_wellFormed (checked : Bool) : ScpFile.WellFormed checked overflowFile := by
  have ho : ScpFile.offsets overflowFile = [20] := by decide +kernel
  have ht : ScpFile.turns overflowFile = 1 := by decide +kernel
  refine ⟨by unfold ScpFile.Known; decide +kernel, by decide +kernel, by decide +kernel, ?_, ?_, ?_, ?_⟩
  · rw [ho]; simp
  · rw [ho]; decide +kernel
  · rw [ho]; intro o ho; obtain rfl := List.mem_singleton.1 ho; decide +kernel
  · rw [ho]; intro o ho; obtain rfl := List.mem_singleton.1 ho
    intro j hj
    obtain rfl : j = 0 := by omega
    exact ⟨by decide +kernel, fun _ => by decide +kernel⟩

/-- **C79 refuted.** A sample of 0 adds 65535 ticks instead of 65536: the track is made of other flux times than the file
describes. -/
theorem C79_false_overflow (debug : Bool) (rnd : Nat → Bool) (fm : FmCodec) :
    ScpFile.flux 65536 overflowFile 20 = [([(65537 * 25 : Rat) / 1000000000], (2 : Rat) / 10)] ∧
    ∃ d i m, Scp.load debug rnd fm {} overflowFile = .ok (d, i) ∧
      make debug rnd fm none none [Rev.ofDeltas ⟨0, 0⟩ [(65536 * 25 : Rat) / 1000000000] ((2 : Rat) / 10)] = .ok m ∧
      d.track ⟨0, 0⟩ = .ok (some (.flux ⟨0, 0⟩ m.bitstream)) := by
  refine ⟨by decide +kernel, ?_⟩
  obtain ⟨d, i, h1, h2⟩ := C79_flux_as_is debug rnd fm overflowFile
    (fine_of_noFm (by decide +kernel)) (overflow_wellFormed true)
  obtain ⟨m, h3, h4⟩ := h2 0 20 (by decide +kernel)
  have hp : ScpFile.place overflowFile 0 = ⟨0, 0⟩ := by decide +kernel
  have hf : ScpFile.flux 65535 overflowFile 20 = [([(65536 * 25 : Rat) / 1000000000], (2 : Rat) / 10)] := by decide +kernel
  rw [hp] at h3 h4
  rw [hf] at h3
  exact ⟨d, i, m, h1, h3, h4⟩

/-! ## C80 -/

/-- Flux that was captured well has no interval of more than 65535 ticks. -/
theorem captures_short {ks : List Nat} {ds : List Rat} {t : Rat} (h : Captures ks ds t) : ∀ d ∈ ds, d < 1 / 100000 := by
  obtain ⟨q, hq, hm, _⟩ := h.measured
  have hq2 : q ≤ 2012 / 1000000000 := by rcases hq with h | h <;> linarith [h.2]
  obtain ⟨l, h1, h2, h3⟩ := measured_zip hm
  intro d hd
  rw [h2] at hd
  obtain ⟨x, hx, rfl⟩ := List.mem_map.1 hd
  have h4 := h3 x hx
  have hk := (h.mfm x.1 (by rw [h1]; exact List.mem_map_of_mem hx)).2
  have hk' : (x.1 : Rat) ≤ 4 := by exact_mod_cast hk
  have hq0 : 0 ≤ q := by rcases hq with h | h <;> linarith [h.1]
  have h5 := h4.2
  have : (x.1 : Rat) * q ≤ 4 * q := mul_le_mul_of_nonneg_right hk' hq0
  linarith

theorem short_ticks {f : List Byte} {o : Nat} {ks : List Nat} (h : ∀ x ∈ ScpFile.flux 65536 f o, Captures ks x.1 x.2) :
    ∀ j < ScpFile.turns f, ∀ t ∈ ScpFile.times 65536 0 (ScpFile.samples f o j), t < 65536 := by
  intro j hj t ht
  have h1 := captures_short (h _ (List.mem_map_of_mem (List.mem_range.2 hj))) _ (List.mem_map_of_mem ht)
  by_contra hge
  have h2 : (65536 : Rat) * 25 ≤ ((t * ScpFile.tick f : Nat) : Rat) := by
    have : 65536 * 25 ≤ t * ScpFile.tick f := Nat.mul_le_mul (by omega) (by unfold ScpFile.tick; omega)
    exact_mod_cast this
  have h3 : ((t * ScpFile.tick f : Nat) : Rat) / 1000000000 < 1 / 100000 := h1
  rw [div_lt_iff₀ (by norm_num)] at h3
  linarith

/-- **C80.** If every revolution of a track in a well-formed file is a capture of a track with the intervals `ks`, measured to
within 3.5 % of a cell, then the loaded disk has at that track's place a track with exactly the cells that were on the disk. -/
theorem C80_cells (debug : Bool) (rnd : Nat → Bool) (fm : FmCodec) (f : List Byte)
    (hfm : Scp.FmFine fm f 0 (ScpFile.offsets f))
    (h : ScpFile.WellFormed true f) (hturns : ScpFile.turns f ≠ 0) :
    ∃ d i, Scp.load debug rnd fm {} f = .ok (d, i) ∧
      ∀ (k o : Nat) (ks : List Nat), (ScpFile.offsets f)[k]? = some o →
        (∀ x ∈ ScpFile.flux 65536 f o, Captures ks x.1 x.2) →
        ScpFile.fluxAt d (ScpFile.place f k) = some (ScpFile.place f k, some (Spec.cellsOf ks)) := by
  obtain ⟨i, h1, _⟩ := Scp.load_ok (wellFormed_any h debug) rnd fm hfm
  refine ⟨_, i, h1, ?_⟩
  intro k o ks hk hc
  have ho : o ∈ ScpFile.offsets f := List.mem_iff_getElem?.2 ⟨k, hk⟩
  have hne : ScpFile.flux 65536 f o ≠ [] := by
    unfold ScpFile.flux
    intro e
    have := congrArg List.length e
    simp at this
    exact hturns this
  obtain ⟨m, t, m1, m2, m3⟩ := C76_measured debug rnd fm (ScpFile.place f k) ks _ hne hc
  have ht : (Scp.loaded debug rnd fm f).track (ScpFile.place f k) = .ok (some (.flux (ScpFile.place f k) (some t))) := by
    refine (scp_track debug rnd fm f _ (scp_side f k) _).2 ⟨k, o, hk, ?_, rfl⟩
    unfold Scp.madeTrack
    rw [seen_revolutions h ho _ (short_ticks hc), m1]
    simp only
    rw [m2]
  unfold ScpFile.fluxAt
  rw [ht]
  simp only [Option.map_some, m3]

/-- 150 flux times of about 4 and 6 us, each off by a tick. -/
def someSamples : List Nat := (List.replicate 75 [161, 239]).flatten

/-- A file with one track of one revolution with these times. -/
def scpFile : List Byte :=
  [0x53#8, 0x43#8, 0x50#8, 0x18#8, 0x80#8, 1#8, 0#8, 1#8, 0#8, 0#8, 1#8, 0#8, 0#8, 0#8, 0#8, 0#8] ++
  [20#8, 0#8, 0#8, 0#8] ++
  [0x54#8, 0x52#8, 0x4B#8, 0#8, 0#8, 0x12#8, 0x7A#8, 0#8, 150#8, 0#8, 0#8, 0#8, 16#8, 0#8, 0#8, 0#8] ++
  someSamples.flatMap fun n => [0#8, BitVec.ofNat 8 n]

theorem scpFile_wellFormed (checked : Bool) : ScpFile.WellFormed checked scpFile := by
  have ho : ScpFile.offsets scpFile = [20] := by decide +kernel
  have ht : ScpFile.turns scpFile = 1 := by decide +kernel
  refine ⟨by unfold ScpFile.Known; decide +kernel, by decide +kernel, by decide +kernel, ?_, ?_, ?_, ?_⟩
  · rw [ho]; simp
  · rw [ho]; decide +kernel
  · rw [ho]; intro o ho; obtain rfl := List.mem_singleton.1 ho; decide +kernel
  · rw [ho]; intro o ho; obtain rfl := List.mem_singleton.1 ho
    intro j hj
    obtain rfl : j = 0 := by omega
    exact ⟨by decide +kernel, fun _ => by decide +kernel⟩

/-- The hypotheses of C80, C76 and C73 for measured flux can be met. -/
example : ScpFile.WellFormed true scpFile ∧ ScpFile.turns scpFile ≠ 0 ∧ (ScpFile.offsets scpFile)[0]? = some 20 ∧
    ∀ x ∈ ScpFile.flux 65536 scpFile 20, Captures ((List.replicate 75 [2, 3]).flatten) x.1 x.2 := by
  refine ⟨scpFile_wellFormed true, by decide +kernel, by decide +kernel, ?_⟩
  have hf : ScpFile.flux 65536 scpFile 20 =
      [((List.replicate 75 [161 * 25 / 1000000000, 239 * 25 / 1000000000]).flatten, 2 / 10)] := by decide +kernel
  rw [hf]
  intro x hx
  obtain rfl := List.mem_singleton.1 hx
  have hn : ((List.replicate 75 [2, 3]).flatten).length = 150 := by decide +kernel
  refine ⟨by decide +kernel, Or.inl (by decide +kernel), by decide +kernel, fun _ => by decide +kernel, 2 / 1000000, ?_, ?_, ?_⟩
  · exact Or.inl ⟨by norm_num, by norm_num⟩
  · have : ∀ n : Nat, Measured (2 / 1000000) (35 / 1000 * (2 / 1000000)) ((List.replicate n [2, 3]).flatten)
        ((List.replicate n [(161 : Rat) * 25 / 1000000000, 239 * 25 / 1000000000]).flatten) := by
      intro n
      induction n with
      | zero => exact .nil
      | succ n ih =>
        rw [List.replicate_succ, List.replicate_succ, List.flatten_cons, List.flatten_cons]
        refine .cons ?_ (.cons ?_ ih)
        · constructor <;> norm_num
        · constructor <;> norm_num
    exact this 75
  · rw [hn]; exact ⟨fun h => by omega, fun h => by omega⟩

/-! ## C81 -/

theorem revs_release (f : List Byte) (res o : Nat) (ch : Ch) : ∀ hs, Scp.revs false f res o ch hs ≠ .error .panic
  | [] => by intro h; cases h
  | h :: hs => by
    rw [Scp.revs]
    simp only [Bool.false_and, Bool.false_eq_true, if_false]
    unfold Scp.samples
    split
    · rename_i e he; split at he
      · cases he
      · cases he; intro h; cases h
    · have ih := revs_release f res o ch hs
      cases hr : Scp.revs false f res o ch hs with
      | error e => intro h; cases h; exact ih hr
      | ok l => intro h; cases h

theorem revHeaders_release (f : List Byte) : ∀ n o, Scp.revHeaders f n o ≠ .error .panic
  | 0, _ => by intro h; cases h
  | n + 1, o => by
    rw [Scp.revHeaders]
    split
    · have ih := revHeaders_release f n (o + 12)
      cases hr : Scp.revHeaders f n (o + 12) with
      | error e => intro h; cases h; exact ih hr
      | ok l => intro h; cases h
    · intro h; cases h

theorem readTrack_release (f : List Byte) (h : Scp.Header) (o : Nat) (ch : Ch) : Scp.readTrack false f h o ch ≠ .error .panic := by
  unfold Scp.readTrack
  split
  · intro h; cases h
  split
  · intro h; cases h
  have h1 := revHeaders_release f h.revolutions (o + 4)
  cases hr : Scp.revHeaders f h.revolutions (o + 4) with
  | error e => intro h; cases h; exact h1 hr
  | ok hs => exact revs_release f _ o ch hs

theorem tracks_release (rnd : Nat → Bool) (fm : FmCodec) (f : List Byte) (h : Scp.Header)
    (hv : h.revolutions = ScpFile.turns f) (ht : h.resolution = ScpFile.tick f) (hh : h.heads = ScpFile.sides f) :
    ∀ (os : List Nat) (i : Nat) (d : Disk) (rate : Option F86.Rate), i + os.length ≤ 84 * ScpFile.sides f →
      Scp.FmFine fm f i os → Scp.tracks false rnd fm f h os (Scp.before (ScpFile.sides f) i) d rate ≠ .error .panic
  | [], i, d, rate, _, _ => by intro h; cases h
  | o :: os, i, d, rate, hi, hfm => by
    rw [List.length_cons] at hi
    rw [Scp.tracks, hh, (Scp.iter_place (Scp.sides_cases f) i).1 (by omega)]
    simp only
    have h1 := readTrack_release f h o ⟨i / ScpFile.sides f, i % ScpFile.sides f⟩
    cases hr : Scp.readTrack false f h o ⟨i / ScpFile.sides f, i % ScpFile.sides f⟩ with
    | error e => intro h; cases h; exact h1 hr
    | ok rs =>
      simp only
      have hk : Scp.TrackOk false f o := by
        by_contra hk
        obtain ⟨e, he⟩ := Scp.readTrack_bad false f h hv o ⟨i / ScpFile.sides f, i % ScpFile.sides f⟩ hk
        rw [he] at hr; cases hr
      rw [Scp.readTrack_ok false f h hv ht o _ hk] at hr
      injection hr with hr
      subst hr
      obtain ⟨m, hm⟩ := Scp.make_total false rnd fm _ hfm.head
      rw [show ScpFile.place f i = ⟨i / ScpFile.sides f, i % ScpFile.sides f⟩ from rfl] at hm
      rw [hm]
      simp only
      unfold Disk.addFlux
      split
      · rename_i hx
        split at hx
        · cases hx; intro h; cases h
        · split at hx
          · cases hx; intro h; cases h
          · cases hx
      · exact tracks_release rnd fm f h hv ht hh os (i + 1) _ _ (by omega) hfm.tail

theorem tableLoop_release (f : List Byte) : ∀ n o last, Scp.tableLoop f n o last ≠ .error .panic
  | 0, _, _ => by intro h; cases h
  | n + 1, o, last => by
    rw [Scp.tableLoop]
    split
    · split
      · intro h; cases h
      · split
        · intro h; cases h
        · have ih := tableLoop_release f n (o + 4) (le32At f o)
          cases hr : Scp.tableLoop f n (o + 4) (le32At f o) with
          | error e => intro h; cases h; exact ih hr
          | ok l => intro h; cases h
    · intro h; cases h

/-- **C81 (partial).** With overflow unchecked, no file with at most 84 tracks on a side makes the loader panic.
Missing: more tracks (`C81_false_tracks`) and builds with overflow checks (`C81_false_offset`, `C81_false_time`). -/
theorem C81_no_panic_partial (rnd : Nat → Bool) (fm : FmCodec) (f : List Byte)
    (hfm : Scp.FmFine fm f 0 (ScpFile.offsets f))
    (hf : (ScpFile.offsets f).length ≤ 84 * ScpFile.sides f) : Scp.load false rnd fm {} f ≠ .error .panic := by
  unfold Scp.load
  cases hh : Scp.header f with
  | error e =>
    intro h; cases h
    unfold Scp.header at hh
    repeat (split at hh; · cases hh)
    cases hh
  | ok h =>
    simp only
    cases ht : Scp.table false f with
    | error e =>
      intro h; cases h
      unfold Scp.table at ht
      split at ht
      · cases ht
      split at ht
      · cases ht
      split at ht
      · rename_i e he
        unfold F86.subU at he
        split at he
        · cases he
        · cases he
      · rename_i n hn
        cases hl : Scp.tableLoop f n 20 (le32At f 16) with
        | error e => rw [hl] at ht; cases ht; exact tableLoop_release _ _ _ _ hl
        | ok l => rw [hl] at ht; cases ht
    | ok l =>
      simp only
      obtain ⟨a1, a2⟩ := Scp.header_inv hh
      have he : h = Scp.seenHeader f := by rw [Scp.header_ok a1 a2] at hh; cases hh; rfl
      obtain ⟨b1, b2, b3, b4⟩ := Scp.table_inv ht
      have key : Scp.tracks false rnd fm f h l none {} none ≠ .error .panic := by
        by_cases h20 : 20 ≤ ScpFile.offset f 0
        · rw [(b4 h20).1]
          exact tracks_release rnd fm f h (by rw [he]; rfl) (by rw [he]; rfl) (by rw [he]; rfl) _ 0 {} none (by omega) hfm
        · obtain ⟨l', rfl⟩ := b3
          rw [Scp.tracks, he, show (Scp.seenHeader f).heads = ScpFile.sides f from rfl,
            show (none : Option Ch) = Scp.before (ScpFile.sides f) 0 from rfl,
            (Scp.iter_place (Scp.sides_cases f) 0).1 (by rcases Scp.sides_cases f with e | e <;> rw [e] <;> omega)]
          simp only
          obtain ⟨e, hb⟩ := Scp.readTrack_bad false f (Scp.seenHeader f) rfl (ScpFile.offset f 0)
            ⟨0 / ScpFile.sides f, 0 % ScpFile.sides f⟩ (fun hk => Scp.not_inside (by omega) b2 hk.1.2.1)
          have := readTrack_release f (Scp.seenHeader f) (ScpFile.offset f 0) ⟨0 / ScpFile.sides f, 0 % ScpFile.sides f⟩
          rw [hb] at this ⊢
          intro h; cases h; exact this rfl
      cases hk : Scp.tracks false rnd fm f h l none {} none with
      | error e => intro h; cases h; exact key hk
      | ok r =>
        obtain ⟨d, ch, r⟩ := r
        cases r <;> (intro h; cases h)

theorem tracks_panic (debug : Bool) (rnd : Nat → Bool) (fm : FmCodec) (f : List Byte) (h : Scp.Header)
    (hr : h.revolutions = ScpFile.turns f) (ht : h.resolution = ScpFile.tick f) (hh : h.heads = ScpFile.sides f) :
    ∀ (os : List Nat) (i : Nat) (d : Disk) (rate : Option F86.Rate), d.rejects .fluxStream = false → i ≤ 84 * ScpFile.sides f →
      84 * ScpFile.sides f < i + os.length → (∀ o ∈ os, Scp.TrackOk debug f o) →
      Scp.FmFine fm f i os →
      Scp.tracks debug rnd fm f h os (Scp.before (ScpFile.sides f) i) d rate = .error .panic
  | [], i, d, rate, _, h1, h2, _, _ => by simp at h2; omega
  | o :: os, i, d, rate, hd, h1, h2, hos, hfm => by
    rw [List.length_cons] at h2
    rw [Scp.tracks, hh]
    have hS := Scp.sides_cases f
    rcases Nat.lt_or_ge i (84 * ScpFile.sides f) with hlt | hge
    · rw [(Scp.iter_place hS i).1 hlt]
      simp only
      rw [Scp.readTrack_ok debug f h hr ht o _ (hos o List.mem_cons_self)]
      simp only
      obtain ⟨m, hm⟩ := Scp.make_total debug rnd fm _ hfm.head
      rw [show ScpFile.place f i = ⟨i / ScpFile.sides f, i % ScpFile.sides f⟩ from rfl] at hm
      rw [hm]
      simp only
      have hadd : d.addFlux ⟨i / ScpFile.sides f, i % ScpFile.sides f⟩ (.ok m.bitstream) =
          (Scp.withFlux d (.flux ⟨i / ScpFile.sides f, i % ScpFile.sides f⟩ m.bitstream), .ok d.pool.length) := by
        unfold Disk.addFlux
        rw [if_neg (by show ¬ 2 ≤ i % ScpFile.sides f; rcases hS with e | e <;> rw [e] <;> omega), hd]
        rfl
      rw [hadd]
      exact tracks_panic debug rnd fm f h hr ht hh os (i + 1) _ _ (Scp.withFlux_accepts _ _) (by omega) (by omega)
        (fun x hx => hos x (List.mem_cons_of_mem _ hx)) hfm.tail
    · rw [(Scp.iter_place hS i).2 hge h1]

/-- A file of `n` empty tracks on one side. -/
def manyTracks (n : Nat) : List Byte :=
  [0x53#8, 0x43#8, 0x50#8, 0x18#8, 0x80#8, 0#8, 0#8, 1#8, 0#8, 0#8, 1#8, 0#8, 0#8, 0#8, 0#8, 0#8] ++
  ((List.range n).flatMap fun i => [BitVec.ofNat 8 (16 + 4 * n + 4 * i), BitVec.ofNat 8 ((16 + 4 * n + 4 * i) / 256), 0#8, 0#8]) ++
  (List.replicate n [0x54#8, 0x52#8, 0x4B#8, 0#8]).flatten

/-- **C81 refuted.** A file with 85 tracks on one side makes the loader panic in every build. -/
theorem C81_false_tracks (debug : Bool) (rnd : Nat → Bool) (fm : FmCodec) :
    Scp.load debug rnd fm {} (manyTracks 85) = .error .panic := by
  have ho : ScpFile.offsets (manyTracks 85) = (List.range 85).map fun i => 356 + 4 * i := by decide +kernel
  have ht : ScpFile.turns (manyTracks 85) = 0 := by decide +kernel
  have hs : ScpFile.sides (manyTracks 85) = 1 := by decide +kernel
  have hl : (manyTracks 85).length = 696 := by decide +kernel
  have hin : ∀ o ∈ ScpFile.offsets (manyTracks 85), Scp.TrackOk debug (manyTracks 85) o := by
    have : ∀ o ∈ (List.range 85).map (fun i => 356 + 4 * i), o + 4 ≤ (manyTracks 85).length ∧
      ((manyTracks 85).drop o).take 3 = [0x54#8, 0x52#8, 0x4B#8] := by decide +kernel
    rw [ho]
    intro o hx
    exact ⟨⟨(this o hx).1, (this o hx).2, Or.inl ht⟩, fun j hj => by omega⟩
  have hT := Scp.table_ok (debug := debug) (f := manyTracks 85) (by decide +kernel) (by decide +kernel)
    (by rw [ho]; decide +kernel) (fun o hx => by have := (hin o hx).1.1; omega)
  unfold Scp.load
  rw [Scp.header_ok (by unfold ScpFile.Known; decide +kernel) (by decide +kernel)]
  simp only
  rw [hT]
  simp only
  rw [show (none : Option Ch) = Scp.before (ScpFile.sides (manyTracks 85)) 0 from rfl,
    tracks_panic debug rnd fm (manyTracks 85) _ rfl rfl rfl _ 0 {} none rfl (by omega) (by rw [ho, hs]; simp) hin
      (fine_of_noFm (fun k _ => by rw [ht]; rfl))]

/-- Whether a result is a panic. -/
def panics {α : Type} : Except Err α → Bool
  | .error .panic => true
  | _ => false

theorem of_panics {α : Type} {x : Except Err α} (h : panics x = true) : x = .error .panic := by
  unfold panics at h; split at h
  · rfl
  · cases h

/-- **C81 refuted.** With overflow checked, a first offset that points at the table itself makes the loader panic. -/
theorem C81_false_offset (rnd : Nat → Bool) (fm : FmCodec) :
    ∃ f, f.length = 20 ∧ Scp.load true rnd fm {} f = .error .panic := by
  refine ⟨[0x53#8, 0x43#8, 0x50#8, 0x18#8, 0x80#8, 1#8, 0#8, 1#8, 0#8, 0#8, 1#8, 0#8, 0#8, 0#8, 0#8, 0#8, 16#8, 0#8, 0#8, 0#8], rfl, ?_⟩
  unfold Scp.load
  rw [Scp.header_ok (by unfold ScpFile.Known; decide +kernel) (by decide +kernel)]
  simp only
  rw [of_panics (x := Scp.table true _) (by decide +kernel)]

/-- **C81 refuted.** With overflow checked, a revolution of 4.3 seconds makes the loader panic. -/
theorem C81_false_time (rnd : Nat → Bool) (fm : FmCodec) :
    ∃ f, f.length = 40 ∧ Scp.load true rnd fm {} f = .error .panic := by
  refine ⟨[0x53#8, 0x43#8, 0x50#8, 0x18#8, 0x80#8, 1#8, 0#8, 1#8, 0#8, 0#8, 1#8, 0#8, 0#8, 0#8, 0#8, 0#8] ++
    [20#8, 0#8, 0#8, 0#8] ++
    [0x54#8, 0x52#8, 0x4B#8, 0#8, 0#8, 0x80#8, 0x3D#8, 0x0A#8, 2#8, 0#8, 0#8, 0#8, 16#8, 0#8, 0#8, 0#8, 0#8, 160#8, 0#8, 240#8], rfl, ?_⟩
  unfold Scp.load
  rw [Scp.header_ok (by unfold ScpFile.Known; decide +kernel) (by decide +kernel)]
  simp only
  have ht : (Scp.table true ([0x53#8, 0x43#8, 0x50#8, 0x18#8, 0x80#8, 1#8, 0#8, 1#8, 0#8, 0#8, 1#8, 0#8, 0#8, 0#8, 0#8, 0#8] ++
    [20#8, 0#8, 0#8, 0#8] ++
    [0x54#8, 0x52#8, 0x4B#8, 0#8, 0#8, 0x80#8, 0x3D#8, 0x0A#8, 2#8, 0#8, 0#8, 0#8, 16#8, 0#8, 0#8, 0#8, 0#8, 160#8, 0#8, 240#8])) = .ok [20] := by rfl
  rw [ht]
  simp only
  rw [Scp.tracks]
  have hi : Ch.iterNext ⟨84, (Scp.seenHeader ([0x53#8, 0x43#8, 0x50#8, 0x18#8, 0x80#8, 1#8, 0#8, 1#8, 0#8, 0#8, 1#8, 0#8, 0#8, 0#8, 0#8, 0#8] ++
    [20#8, 0#8, 0#8, 0#8] ++
    [0x54#8, 0x52#8, 0x4B#8, 0#8, 0#8, 0x80#8, 0x3D#8, 0x0A#8, 2#8, 0#8, 0#8, 0#8, 16#8, 0#8, 0#8, 0#8, 0#8, 160#8, 0#8, 240#8])).heads⟩ none = some ⟨0, 0⟩ := rfl
  rw [hi]
  simp only
  rw [of_panics (x := Scp.readTrack true _ _ _ _) (by decide +kernel)]

end Fox
