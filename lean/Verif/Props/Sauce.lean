import Verif.Proofs.SauceLoad
import Verif.Props.Mfi
/-
MOOF and WOZ images.
-/
namespace Fox
open Spec Flux
open SauceFile (Drive Tables)

/-- The magic numbers of the two formats. -/
def sauceMagic : Sauce.Kind → List Byte
  | .moof => SauceFile.moof
  | .woz => SauceFile.woz2

theorem short_info {k : Sauce.Kind} {f : List Byte} (hf : f.length < 12) : ∀ (n o : Nat) (p q : Sauce.Parts), p.info = none →
    Sauce.chunks k f n o p = .ok q → q.info = none
  | 0, o, p, q, hp, h => by
    rw [Sauce.chunks] at h; cases h; exact hp
  | n + 1, o, p, q, hp, h => by
    rw [Sauce.chunks] at h
    split at h
    · cases h; exact hp
    split at h
    · cases h; exact hp
    simp only at h
    split at h
    · have : Sauce.infoAt k f (o + 8) = none := by
        unfold Sauce.infoAt
        cases k <;> simp only <;> rw [if_pos (by omega)]
      rw [this] at h
      cases h; exact hp
    split at h
    · rw [if_pos (by omega)] at h; cases h; exact hp
    split at h
    · rw [if_pos (by omega)] at h; cases h; exact hp
    split at h
    · rw [if_pos (by omega)] at h; cases h; exact hp
    split at h
    · split at h
      · cases h; exact hp
      · exact short_info hf n _ p q hp h
    · exact short_info hf n _ p q hp h

theorem dword_lt (f : List Byte) (i : Nat) : ScpFile.dword f i < 2 ^ 32 := by
  have hb : ∀ i, ScpFile.byte f i < 256 := fun i => (f.getD i 0#8).isLt
  have := hb i; have := hb (i + 1); have := hb (i + 2); have := hb (i + 2 + 1)
  unfold ScpFile.dword ScpFile.word
  omega

/-- **C103.** A file that is accepted is long enough for the header, has the magic number, and its CRC is that of the rest. -/
theorem C103_accepts (k : Sauce.Kind) (debug : Bool) (rnd : Nat → Bool) (fm : FmCodec) (f : List Byte) (r : Disk × Bool)
    (h : Sauce.load k debug rnd fm {} f = .ok r) :
    12 ≤ f.length ∧ f.take 4 = sauceMagic k ∧ IsCrc32 (f.drop 12) (BitVec.ofNat 32 (ScpFile.dword f 8)) := by
  unfold Sauce.load at h
  split at h
  · cases h
  rename_i h1
  split at h
  · cases h
  rename_i h2
  have hl : 12 ≤ f.length := by
    by_contra hc
    cases hp : Sauce.chunks k f (f.length + 1) (if 12 ≤ f.length then 12 else 0) {} with
    | error e => rw [hp] at h; cases h
    | ok p =>
      rw [hp] at h
      simp only at h
      have := short_info (by omega) _ _ _ _ rfl hp
      unfold Sauce.build at h
      rw [this] at h
      cases h
  refine ⟨hl, ?_, ?_⟩
  · by_contra hc
    exact h1 ⟨hl, by cases k <;> exact hc⟩
  · rw [C97_is_crc32, ← Sauce.crc32_eq]
    apply BitVec.eq_of_toNat_eq
    rw [BitVec.toNat_ofNat, Nat.mod_eq_of_lt (dword_lt f 8)]
    by_contra hc
    exact h2 ⟨hl, hc⟩

/-- **C103 (partial).** Damage to a file that is accepted — to bits of its magic number, of its CRC or of all that follows them, within 32
consecutive bits — makes it refused.  Missing: the four bytes after the magic number (`C103_false_check`). -/
theorem C103_damage_partial (k : Sauce.Kind) (debug : Bool) (rnd : Nat → Bool) (fm : FmCodec) (f g : List Byte) (r : Disk × Bool)
    (h : Sauce.load k debug rnd fm {} f = .ok r) (hl : g.length = f.length) (part : Nat × Nat)
    (hp : part ∈ [(0, 4), (8, 12), (12, f.length)]) (t : Nat)
    (hd : ∀ i, (lsbBits g).getD i false ≠ (lsbBits f).getD i false → t ≤ i ∧ i < t + 32 ∧ 8 * part.1 ≤ i ∧ i < 8 * part.2)
    (hne : g ≠ f) : ∃ e, Sauce.load k debug rnd fm {} g = .error e := by
  cases hg : Sauce.load k debug rnd fm {} g with
  | error e => exact ⟨e, rfl⟩
  | ok r' =>
    exfalso
    obtain ⟨f1, f2, f3⟩ := C103_accepts k debug rnd fm f r h
    obtain ⟨g1, g2, g3⟩ := C103_accepts k debug rnd fm g r' hg
    have same : ∀ i, ¬ (part.1 ≤ i ∧ i < part.2) → g.getD i 0#8 = f.getD i 0#8 := by
      intro i hi
      apply BitVec.eq_of_getLsbD_eq
      intro j hj
      by_contra hc
      have := hd (8 * i + j) (by
        rw [Ipf.lsbBits_getD, Ipf.lsbBits_getD, show (8 * i + j) / 8 = i by omega, show (8 * i + j) % 8 = j by omega]
        exact hc)
      omega
    have all : (∀ i, g.getD i 0#8 = f.getD i 0#8) → False := by
      intro e
      apply hne
      apply List.ext_getElem hl
      intro i a1 a2
      have := e i
      rw [List.getD_eq_getElem?_getD, List.getD_eq_getElem?_getD, List.getElem?_eq_getElem a1, List.getElem?_eq_getElem a2] at this
      exact this
    have tail : part.2 ≤ 12 → g.drop 12 = f.drop 12 := by
      intro h12
      apply List.ext_getElem (by rw [List.length_drop, List.length_drop, hl])
      intro i a1 a2
      have := same (12 + i) (by omega)
      rw [List.length_drop] at a1 a2
      rw [List.getElem_drop, List.getElem_drop]
      rw [List.getD_eq_getElem?_getD, List.getD_eq_getElem?_getD, List.getElem?_eq_getElem (by omega), List.getElem?_eq_getElem (by omega)] at this
      exact this
    rw [C97_is_crc32] at f3 g3
    simp only [List.mem_cons, List.not_mem_nil, or_false] at hp
    rcases hp with rfl | rfl | rfl
    · apply all
      intro i
      by_cases hi : i < 4
      · have e : (g.take 4).getD i 0#8 = (f.take 4).getD i 0#8 := by rw [f2, g2]
        rw [List.getD_eq_getElem?_getD, List.getD_eq_getElem?_getD, List.getElem?_take_of_lt hi, List.getElem?_take_of_lt hi,
          ← List.getD_eq_getElem?_getD, ← List.getD_eq_getElem?_getD] at e
        exact e
      · exact same i (by simp only; omega)
    · rw [tail (by simp only; omega), f3] at g3
      have e := congrArg BitVec.toNat g3
      rw [BitVec.toNat_ofNat, BitVec.toNat_ofNat, Nat.mod_eq_of_lt (dword_lt f 8), Nat.mod_eq_of_lt (dword_lt g 8)] at e
      unfold ScpFile.dword ScpFile.word ScpFile.byte at e
      simp only [Nat.reduceAdd] at e
      have b1 := (f.getD 8 0#8).isLt; have b2 := (f.getD 9 0#8).isLt; have b3 := (f.getD 10 0#8).isLt; have b4 := (f.getD 11 0#8).isLt
      have c1 := (g.getD 8 0#8).isLt; have c2 := (g.getD 9 0#8).isLt; have c3 := (g.getD 10 0#8).isLt; have c4 := (g.getD 11 0#8).isLt
      apply all
      intro i
      by_cases hi : 8 ≤ i ∧ i < 12
      · apply BitVec.eq_of_toNat_eq
        obtain rfl | rfl | rfl | rfl : i = 8 ∨ i = 9 ∨ i = 10 ∨ i = 11 := by omega
        all_goals omega
      · exact same i hi
    · have ec : ScpFile.dword g 8 = ScpFile.dword f 8 := by
        unfold ScpFile.dword ScpFile.word ScpFile.byte
        simp only [Nat.reduceAdd]
        rw [same 8 (by simp only; omega), same 9 (by simp only; omega), same 10 (by simp only; omega), same 11 (by simp only; omega)]
      rw [ec, ← f3] at g3
      have hlen : (g.drop 12).length = (f.drop 12).length := by rw [List.length_drop, List.length_drop, hl]
      have gd : ∀ (x : List Byte) i, (x.drop 12).getD i 0#8 = x.getD (12 + i) 0#8 := by
        intro x i
        rw [List.getD_eq_getElem?_getD, List.getElem?_drop, ← List.getD_eq_getElem?_getD]
      have e := crc_burst _ _ hlen (t - 96) (by
        intro i hi
        have := hd (96 + i) (by
          rw [Ipf.lsbBits_getD, Ipf.lsbBits_getD, show (96 + i) / 8 = 12 + i / 8 by omega, show (96 + i) % 8 = i % 8 by omega]
          rw [Ipf.lsbBits_getD, Ipf.lsbBits_getD, gd, gd] at hi
          exact hi)
        omega) g3
      apply all
      intro i
      by_cases hi : i < 12
      · exact same i (by simp only; omega)
      · have : (g.drop 12).getD (i - 12) 0#8 = (f.drop 12).getD (i - 12) 0#8 := by rw [e]
        rw [gd, gd, show 12 + (i - 12) = i by omega] at this
        exact this

/-- What a disk has of a MOOF or a WOZ with the tables `T`: at each place the track that the maps tell of, a track of its cells or a
track of flux, or an empty track; no others. -/
structure SauceTracks (d : Disk) (f : List Byte) (T : Tables) (v : Drive) : Prop where
  geometry : d.geometry = ⟨v.cylinders, v.sides⟩
  none : ∀ ch : Ch, ch.h < 2 → ¬ v.Place ch → d.track ch = .ok none
  bits : ∀ ch, v.Place ch → ∀ e, SauceFile.entry T.map T.fluxMap (v.slot ch) = .bits e →
    ∃ t, d.track ch = .ok (some (.bit ch t)) ∧ t.data.bits.bits = SauceFile.cells f T.table e ∧
      t.data.weakMask.bits = solid (SauceFile.cells f T.table e)
  flux : ∀ ch, v.Place ch → ∀ e, SauceFile.entry T.map T.fluxMap (v.slot ch) = .flux e → ∃ t, d.track ch = .ok (some (.flux ch t))
  empty : ∀ ch, v.Place ch → SauceFile.entry T.map T.fluxMap (v.slot ch) = .empty →
    ∃ x, d.track ch = .ok (some x) ∧ x.ch = ch ∧ x.resolution = .bitStream ∧ x.sectorCt = 0

theorem sauce_cells {f t : List Byte} {e : Nat} (h1 : SauceFile.start t e + SauceFile.size t e ≤ f.length)
    (h2 : SauceFile.count t e ≤ 8 * SauceFile.size t e) :
    (bitsOf (SauceFile.data f t e)).take (SauceFile.count t e) = SauceFile.cells f t e := by
  have hl : (SauceFile.data f t e).length = SauceFile.size t e := by
    unfold SauceFile.data; rw [List.length_take, List.length_drop]; omega
  apply List.ext_getElem
  · unfold SauceFile.cells
    rw [List.length_take, length_bitsOf, List.length_map, List.length_range, hl]; omega
  · intro i a1 a2
    unfold SauceFile.cells at a2
    rw [List.length_map, List.length_range] at a2
    have e1 := bitsOf_getD (SauceFile.data f t e) i
    rw [List.getD_eq_getElem?_getD, List.getElem?_eq_getElem (by rw [length_bitsOf]; omega), Option.getD_some] at e1
    rw [List.getElem_take, e1]
    unfold SauceFile.cells dat
    rw [List.getElem_map, List.getElem_range]
    unfold SauceFile.data
    have := take_drop_getD f (SauceFile.start t e) (SauceFile.size t e) (i / 8)
    rw [if_pos (by omega)] at this
    exact congrArg (fun b => BitVec.getMsbD b (i % 8)) this

theorem sauce_data_ne {f t : List Byte} {e : Nat} (h0 : 0 < SauceFile.size t e) (h1 : SauceFile.start t e + SauceFile.size t e ≤ f.length) :
    SauceFile.data f t e ≠ [] := by
  intro hc
  have := congrArg List.length hc
  unfold SauceFile.data at this
  rw [List.length_take, List.length_drop, List.length_nil] at this
  omega

theorem sauce_track {debug : Bool} {rnd : Nat → Bool} {f : List Byte} {T : Tables} {v : Drive} {e : Nat}
    (h0 : 0 < SauceFile.size T.table e) (h1 : SauceFile.start T.table e + SauceFile.size T.table e ≤ f.length)
    (h2 : SauceFile.count T.table e ≤ 8 * SauceFile.size T.table e) :
    ∃ t, Sauce.bitTrack debug rnd (if v.mfm then .mfm else .gcr) (SauceFile.data f T.table e) (SauceFile.count T.table e) = .ok t ∧
      t.data.bits.bits = SauceFile.cells f T.table e ∧ t.data.weakMask.bits = solid (SauceFile.cells f T.table e) := by
  have hne := sauce_data_ne h0 h1
  cases v.mfm with
  | false =>
    refine ⟨_, rfl, ?_, ?_⟩
    · rw [← sauce_cells h1 h2]
      show (if SauceFile.data f T.table e = [] then _ else _) = _
      rw [if_neg hne]
    · rw [← sauce_cells h1 h2]
      unfold solid Sauce.gcrTrack
      rw [if_neg hne]
      rfl
  | true =>
    obtain ⟨t, t1, t2, t3⟩ := ofBytes_cells debug rnd (SauceFile.data f T.table e) (some (SauceFile.count T.table e)) false (fun h => by cases h)
    have hc : cellsOf (SauceFile.data f T.table e) (some (SauceFile.count T.table e)) = SauceFile.cells f T.table e := by
      unfold cellsOf; simp only; rw [if_neg hne, sauce_cells h1 h2]
    refine ⟨t, t1, ?_, ?_⟩
    · rw [t2, hc]; rfl
    · rw [t3, hc]; rfl

theorem drive_sides {v : Drive} {ch : Ch} (hS : v.sides = 1 ∨ v.sides = 2) (h : v.Place ch) : ch.h < 2 := by
  have := h.2; omega

theorem loaded_tracks {debug : Bool} {rnd : Nat → Bool} {fm : FmCodec} {f : List Byte} {T : Tables} {v : Drive} {blank : Nat}
    (hS : v.sides = 1 ∨ v.sides = 2) (hg : ∀ ch, v.Place ch → T.Good f (v.slot ch)) (hfm : Sauce.FmFine fm f T v) :
    SauceTracks (Sauce.loaded debug rnd fm f T v blank) f T v := by
  have at' : ∀ ch, v.Place ch → (Sauce.loaded debug rnd fm f T v blank).track ch = .ok (some (Sauce.made debug rnd fm f T v blank ch)) :=
    fun ch hp => (Sauce.loaded_at hS (drive_sides hS hp) _).2 ⟨hp, rfl⟩
  refine ⟨rfl, ?_, ?_, ?_, ?_⟩
  · intro ch hh hp
    cases hx : (Sauce.loaded debug rnd fm f T v blank).track ch with
    | error e => unfold Disk.track at hx; rw [if_neg (by omega)] at hx; cases hx
    | ok x =>
      cases x with
      | none => rfl
      | some x => exact absurd ((Sauce.loaded_at hS hh _).1 hx).1 hp
  · intro ch hp e he
    obtain ⟨g1, g2, g3, g4⟩ := (hg ch hp).bits e he
    obtain ⟨t, t1, t2⟩ := sauce_track (debug := debug) (rnd := rnd) (v := v) g2 g3 g4
    refine ⟨t, ?_, t2⟩
    rw [at' ch hp]
    unfold Sauce.made
    rw [he]
    simp only
    rw [t1]
  · intro ch hp e he
    obtain ⟨m, hm⟩ := Scp.make_total debug rnd fm _ (hfm ch hp e he)
    refine ⟨m.bitstream, ?_⟩
    rw [at' ch hp]
    unfold Sauce.made
    rw [he]
    simp only
    rw [hm]
  · intro ch hp he
    obtain ⟨t, t1, t2, t3, t4⟩ := Sauce.emptyBit_ok ch v.mfm blank
    refine ⟨t, ?_, t2, t3, t4⟩
    rw [at' ch hp]
    unfold Sauce.made
    rw [he]
    simp only
    rw [t1]

theorem moof_sides {i : List Byte} {v : Drive} (h : SauceFile.moofDrive i = some v) : v.sides = 1 ∨ v.sides = 2 := by
  unfold SauceFile.moofDrive at h
  split at h
  · cases h; exact Or.inl rfl
  split at h
  · cases h; exact Or.inr rfl
  split at h
  · cases h; exact Or.inr rfl
  · cases h

theorem woz_sides {i : List Byte} {v : Drive} (h : SauceFile.wozDrive i = some v) : v.sides = 1 ∨ v.sides = 2 := by
  unfold SauceFile.wozDrive at h
  split at h
  · cases h; exact Or.inl rfl
  split at h
  · rename_i e; cases h; exact e.2
  · cases h

/-- **C104 (partial).** A well-formed MOOF is loaded: 80 cylinders, each place with its track.  Missing: files without a FLUX chunk and
with places that have no track (`C104_false_hole`). -/
theorem C104_tracks_partial (debug : Bool) (rnd : Nat → Bool) (fm : FmCodec) (f : List Byte) (cs : List SauceFile.Chunk) (v : Drive) (T : Tables)
    (h : SauceFile.Moof f cs v T) (hn : T.NoHoles v) (hfm : Sauce.FmFine fm f T v) :
    ∃ d w i, Sauce.load .moof debug rnd fm {} f = .ok (d, w) ∧ SauceTracks d f T v ∧ SauceFile.part cs SauceFile.info = some i ∧
      (w = true ↔ ScpFile.byte i 2 ≠ 0) := by
  obtain ⟨i, i1, i2⟩ := Sauce.load_moof h debug rnd fm hfm hn
  obtain ⟨j, j1, j2, _⟩ := h.info
  exact ⟨_, _, i, i2, loaded_tracks (moof_sides j2) h.tables.good hfm, i1, by simp⟩

/-- **C105 (partial).** A well-formed WOZ is loaded: 80 cylinders of a 3.5" disk, 160 quarters of cylinders of a 5.25" disk, each place
with its track.  Missing: 3.5" disks without a FLUX chunk and with places that have no track (`C105_false_hole`). -/
theorem C105_tracks_partial (debug : Bool) (rnd : Nat → Bool) (fm : FmCodec) (f : List Byte) (cs : List SauceFile.Chunk) (v : Drive) (T : Tables)
    (h : SauceFile.Woz f cs v T) (hn : T.NoHoles v) (hfm : Sauce.FmFine fm f T v) :
    ∃ d w i, Sauce.load .woz debug rnd fm {} f = .ok (d, w) ∧ SauceTracks d f T v ∧ SauceFile.part cs SauceFile.info = some i ∧
      (w = true ↔ ScpFile.byte i 2 ≠ 0) := by
  obtain ⟨i, i1, i2⟩ := Sauce.load_woz h debug rnd fm hfm hn
  obtain ⟨j, j1, j2, _⟩ := h.info
  exact ⟨_, _, i, i2, loaded_tracks (woz_sides j2) h.tables.good hfm, i1, by simp⟩

/-- **C106 (partial).** The bytes of flux times, none a multiple of 255, are decoded to these times.  Missing: multiples of 255
(`C106_false_multiple`). -/
theorem C106_times_partial (b : List Byte) (ts : List Nat) (h : SauceFile.Spells b ts) (h255 : ∀ n ∈ ts, n % 255 ≠ 0) (hb : b ≠ []) :
    Sauce.decodeFlux b = .ok (SauceFile.seconds ts) := by
  obtain ⟨z, rfl⟩ := h
  unfold Sauce.decodeFlux
  rw [if_neg hb, Sauce.fluxTicks_ok ts h255 z]
  rfl

theorem sauce_times {b : List Byte} {ts : List Nat} (h : SauceFile.Spells b ts) (h255 : ∀ n ∈ ts, n % 255 ≠ 0) :
    Sauce.times b = SauceFile.seconds ts := by
  obtain ⟨z, rfl⟩ := h
  unfold Sauce.times
  rw [Sauce.fluxTicks_ok ts h255 z]
  rfl

theorem loaded_flux {debug : Bool} {rnd : Nat → Bool} {fm : FmCodec} {f : List Byte} {T : Tables} {v : Drive} {blank : Nat}
    (hS : v.sides = 1 ∨ v.sides = 2) {ch : Ch} (hp : v.Place ch) {e : Nat} (he : SauceFile.entry T.map T.fluxMap (v.slot ch) = .flux e)
    {ts ks : List Nat} (hs : SauceFile.Spells (SauceFile.data f T.table e) ts) (h255 : ∀ n ∈ ts, n % 255 ≠ 0)
    (hc : Captures ks (SauceFile.seconds ts) (1 / 5)) :
    KryoSet.fluxCells (Sauce.loaded debug rnd fm f T v blank) ch = some (Spec.cellsOf ks) := by
  obtain ⟨m, x, m1, m2, m3⟩ := C76_measured debug rnd fm ch ks [(SauceFile.seconds ts, 1 / 5)] (by simp)
    (fun y hy => by rw [List.mem_singleton.1 hy]; exact hc)
  have m1' : make debug rnd fm none none [Rev.ofDeltas ch (Sauce.times (SauceFile.data f T.table e)) (1 / 5)] = .ok m := by
    rw [sauce_times hs h255]; exact m1
  have := (Sauce.loaded_at (debug := debug) (rnd := rnd) (fm := fm) (f := f) (T := T) (blank := blank) hS (drive_sides hS hp)
    (Sauce.made debug rnd fm f T v blank ch)).2 ⟨hp, rfl⟩
  unfold KryoSet.fluxCells
  rw [this]
  unfold Sauce.made
  rw [he]
  simp only
  rw [m1']
  simp only
  rw [m2]
  simp only
  rw [m3]

/-- **C106 (partial).** Flux tracks: if the times of a place are those of a track with the MFM intervals `ks`, captured in a turn of a
fifth of a second (with the tolerance of `Captures`), then what is decoded is that track, cell by cell.  Missing: times that are
multiples of 255 ticks. -/
theorem C106_cells_partial (debug : Bool) (rnd : Nat → Bool) (fm : FmCodec) (f : List Byte) (cs : List SauceFile.Chunk) (v : Drive) (T : Tables)
    (k : Sauce.Kind) (h : (k = .moof ∧ SauceFile.Moof f cs v T) ∨ (k = .woz ∧ SauceFile.Woz f cs v T)) (hn : T.NoHoles v) (hfm : Sauce.FmFine fm f T v) :
    ∃ d w, Sauce.load k debug rnd fm {} f = .ok (d, w) ∧
      ∀ ch, v.Place ch → ∀ e, SauceFile.entry T.map T.fluxMap (v.slot ch) = .flux e →
        ∀ ts ks, SauceFile.Spells (SauceFile.data f T.table e) ts → (∀ n ∈ ts, n % 255 ≠ 0) → Captures ks (SauceFile.seconds ts) (1 / 5) →
          KryoSet.fluxCells d ch = some (Spec.cellsOf ks) := by
  rcases h with ⟨rfl, h⟩ | ⟨rfl, h⟩
  · obtain ⟨i, i1, i2⟩ := Sauce.load_moof h debug rnd fm hfm hn
    obtain ⟨j, j1, j2, _⟩ := h.info
    exact ⟨_, _, i2, fun ch hp e he ts ks hs h255 hc => loaded_flux (moof_sides j2) hp he hs h255 hc⟩
  · obtain ⟨i, i1, i2⟩ := Sauce.load_woz h debug rnd fm hfm hn
    obtain ⟨j, j1, j2, _⟩ := h.info
    exact ⟨_, _, i2, fun ch hp e he ts ks hs h255 hc => loaded_flux (woz_sides j2) hp he hs h255 hc⟩

/-- **C106 fails** for times that are multiples of 255 ticks: such a flux is lost and its time is added to the next one's, whatever these
times are. -/
theorem C106_false_multiple (n m : Nat) (hn : n % 255 = 0) (hm : m % 255 ≠ 0) :
    SauceFile.Spells (SauceFile.spelled n ++ SauceFile.spelled m) [n, m] ∧
      Sauce.decodeFlux (SauceFile.spelled n ++ SauceFile.spelled m) = .ok (SauceFile.seconds [n + m]) := by
  refine ⟨⟨0, by simp⟩, ?_⟩
  unfold Sauce.decodeFlux
  rw [if_neg (by unfold SauceFile.spelled; simp)]
  have : Sauce.fluxTicks 0 (SauceFile.spelled n ++ SauceFile.spelled m) = [n + m] := by
    unfold SauceFile.spelled
    rw [List.append_assoc, Sauce.fluxTicks_carry, hn]
    show Sauce.fluxTicks _ (0#8 :: (List.replicate (m / 255) 255#8 ++ [BitVec.ofNat 8 (m % 255)])) = _
    rw [Sauce.fluxTicks, if_neg (by decide), if_pos rfl, Sauce.fluxTicks_carry, Sauce.fluxTicks]
    have hlt : m % 255 < 255 := Nat.mod_lt _ (by decide)
    rw [if_neg, if_neg, Sauce.fluxTicks]
    · rw [BitVec.toNat_ofNat]
      congr 1
      omega
    · intro hc
      have := congrArg BitVec.toNat hc
      rw [BitVec.toNat_ofNat] at this
      simp at this
      omega
    · intro hc
      have := congrArg BitVec.toNat hc
      rw [BitVec.toNat_ofNat] at this
      simp at this
      omega
  rw [this]
  rfl

end Fox
