import Verif.Proofs.Mfi
import Verif.Props.KryoCase
import Verif.Props.Scp
/-
Properties C93 to C95: MAME floppy images.
-/
namespace Fox
open Fox.Spec Fox.Pll Fox.Flux
open KryoSet (fluxCells)

/-! ## C93: which files are loaded, and what tracks they have -/

/-- **C93.** Exactly the well-formed files are accepted, if the FM decoder copes with the tracks that are taken for FM. -/
theorem C93_accepts (inflate : Mfi.Inflate) (debug : Bool) (rnd : Nat → Bool) (fm : FmCodec) (f : List Byte) :
    (∃ r, Mfi.load inflate debug rnd fm {} f = .ok r) ↔ MfiFile.WellFormed inflate f ∧ Mfi.FmFine inflate fm f := by
  constructor
  · rintro ⟨r, h⟩; exact Mfi.wellFormed_of_ok h
  · intro h
    obtain ⟨q, hq, _⟩ := Mfi.load_ok h.1 debug rnd fm h.2
    exact ⟨_, hq⟩

theorem mfi_track {inflate : Mfi.Inflate} {f : List Byte} (hw : MfiFile.WellFormed inflate f) (debug : Bool) (rnd : Nat → Bool) (fm : FmCodec)
    (ch : Ch) (hh : ch.h < 2) (x : DiskTrack) :
    (Mfi.loaded inflate debug rnd fm f).track ch = .ok (some x) ↔
      ∃ i < MfiFile.count f, ∃ d, MfiFile.content inflate f i = some d ∧ x = Mfi.madeTrack debug rnd fm (MfiFile.place f i, d) ∧
        MfiFile.place f i = ch := by
  rw [← Mfi.loaded_at hw debug rnd fm hh]
  unfold Disk.track
  rw [if_neg (by omega)]
  unfold at?
  constructor
  · intro h; injection h
  · intro h; rw [h]

theorem mfi_side {inflate : Mfi.Inflate} {f : List Byte} (hw : MfiFile.WellFormed inflate f) (i : Nat) : (MfiFile.place f i).h < 2 := by
  show i % MfiFile.sides f < 2
  rcases hw.geometry.2 with e | e <;> rw [e] <;> omega

theorem mfi_inj {f : List Byte} {i j : Nat} (h : MfiFile.place f i = MfiFile.place f j) : i = j := by
  have h1 : i / MfiFile.sides f = j / MfiFile.sides f := congrArg Ch.c h
  have h2 : i % MfiFile.sides f = j % MfiFile.sides f := congrArg Ch.h h
  rw [← Nat.div_add_mod i (MfiFile.sides f), ← Nat.div_add_mod j (MfiFile.sides f), h1, h2]

/-- The places of a well-formed file are those of its geometry. -/
theorem mfi_places {inflate : Mfi.Inflate} {f : List Byte} (hw : MfiFile.WellFormed inflate f) (ch : Ch) :
    (∃ i < MfiFile.count f, MfiFile.place f i = ch) ↔ ch.c < MfiFile.cylinders f ∧ ch.h < MfiFile.sides f := by
  have hS : 0 < MfiFile.sides f := by have := hw.geometry.2; omega
  constructor
  · rintro ⟨i, hi, rfl⟩
    exact ⟨(Nat.div_lt_iff_lt_mul hS).2 hi, Nat.mod_lt _ hS⟩
  · rintro ⟨h1, h2⟩
    refine ⟨MfiFile.sides f * ch.c + ch.h, ?_, ?_⟩
    · unfold MfiFile.count
      have : MfiFile.sides f * (ch.c + 1) ≤ MfiFile.sides f * MfiFile.cylinders f := Nat.mul_le_mul_left _ h1
      rw [Nat.mul_comm (MfiFile.cylinders f)]
      rw [Nat.mul_succ] at this
      omega
    · unfold MfiFile.place
      rw [Nat.mul_add_div hS, Nat.div_eq_of_lt h2, Nat.mul_add_mod, Nat.mod_eq_of_lt h2]
      rfl

/-- **C93.** What becomes of a well-formed file: exactly one flux track on each side of each cylinder that the header tells, the
geometry of the header, and no other tracks. -/
theorem C93_tracks (inflate : Mfi.Inflate) (debug : Bool) (rnd : Nat → Bool) (fm : FmCodec) (f : List Byte)
    (h : MfiFile.WellFormed inflate f) (hfm : Mfi.FmFine inflate fm f) :
    ∃ d q, Mfi.load inflate debug rnd fm {} f = .ok (d, q) ∧
      (∀ ch, ch.h < 2 → (ch.c < MfiFile.cylinders f ∧ ch.h < MfiFile.sides f → ∃ t, d.track ch = .ok (some (.flux ch t))) ∧
        (¬ (ch.c < MfiFile.cylinders f ∧ ch.h < MfiFile.sides f) → d.track ch = .ok none)) ∧
      d.geometry = ⟨MfiFile.cylinders f, MfiFile.sides f⟩ := by
  obtain ⟨q, h1, _⟩ := Mfi.load_ok h debug rnd fm hfm
  refine ⟨_, q, h1, ?_, rfl⟩
  intro ch hh
  rw [← mfi_places h]
  constructor
  · rintro ⟨i, hi, rfl⟩
    obtain ⟨d, hd⟩ := h.inflates i hi
    obtain ⟨m, hm⟩ := Scp.make_total debug rnd fm _ (hfm i hi d hd)
    refine ⟨m.bitstream, (mfi_track h debug rnd fm _ hh _).2 ⟨i, hi, d, hd, ?_, rfl⟩⟩
    unfold Mfi.madeTrack
    rw [hm]
  · intro hno
    cases ht : (Mfi.loaded inflate debug rnd fm f).track ch with
    | error e =>
      unfold Disk.track at ht
      rw [if_neg (by omega)] at ht
      cases ht
    | ok o =>
      cases o with
      | none => rfl
      | some x =>
        obtain ⟨i, hi, _, _, _, hp⟩ := (mfi_track h debug rnd fm ch hh x).1 ht
        exact absurd ⟨i, hi, hp⟩ hno

/-- What the loaded track at a place is. -/
theorem mfi_made {inflate : Mfi.Inflate} {f : List Byte} (h : MfiFile.WellFormed inflate f) (debug : Bool) (rnd : Nat → Bool) (fm : FmCodec)
    {i : Nat} (hi : i < MfiFile.count f) {d : List Byte} (hd : MfiFile.content inflate f i = some d) {m : Made}
    (hm : make debug rnd fm none none [Mfi.turnOf (MfiFile.place f i, d)] = .ok m) :
    (Mfi.loaded inflate debug rnd fm f).track (MfiFile.place f i) = .ok (some (.flux (MfiFile.place f i) m.bitstream)) := by
  refine (mfi_track h debug rnd fm _ (mfi_side h i) _).2 ⟨i, hi, d, hd, ?_, rfl⟩
  unfold Mfi.madeTrack
  rw [hm]

/-! ## C94: cells -/

/-- The middle of the bucket of every short interval of a high density track at 360 rpm, if not scaled. -/
theorem middle_360 {q : Rat} (h1 : 978 / 1000000000 ≤ q) (h2 : q ≤ 1006 / 1000000000) {v : Rat}
    (hv : Near (35 / 1000 * (6 / 5 * q)) v (2 * (6 / 5 * q))) :
    (bucketStart (bucketOf (nanos v)) + bucketEnd (bucketOf (nanos v))) / 2 = 2431 := by
  obtain ⟨v1, v2⟩ := hv
  have g1 : 2304 ≤ nanos v := nanos_ge (by push_cast; linarith)
  have g2 : nanos v ≤ 2559 := by
    rcases nanos_lt (d := v) (n := 2560) (by push_cast; linarith) with h | h
    · omega
    · omega
  have u1 := bucket_mono (show 16 ≤ 2304 by omega) g1
  have u2 := bucket_mono (Nat.le_trans (show 16 ≤ 2304 by omega) g1) g2
  have e1 : bucketOf 2304 = bucketOf 2559 := by decide
  rw [show bucketOf (nanos v) = bucketOf 2304 by omega]
  decide

/-- Times of a track at 300 rpm are left as they are. -/
theorem normalize_300 {ks : List Nat} {ds : List Rat} {t : Rat} (h : Captures ks ds t) : Mfi.normalize ds = (ds, none) := by
  obtain ⟨q, hq, hd, _⟩ := h.measured
  obtain ⟨h1, h2⟩ := usual_bounds hq
  obtain ⟨m, hm, n1, n2⟩ := usual_middle hq
  obtain ⟨v, v1, v2⟩ := peak_measured h1 h2 (2 / 100) hd h.mfm (by rw [round_part]; exact h.start)
  rw [hm v v1] at v2
  unfold Mfi.normalize
  rw [v2]
  simp only
  rw [if_neg]
  rintro ⟨g1, g2⟩
  rcases hq with ⟨a, b⟩ | ⟨a, b⟩ <;> linarith

/-- Those of a high density track at 360 rpm are scaled. -/
theorem normalize_360 {ks : List Nat} {ts : List Nat} (h : MfiFile.At360 ks ts) :
    Mfi.normalize (MfiFile.seconds ts) = ((MfiFile.seconds ts).map fun x => x * (5 / 6), some (36465 / 100)) := by
  obtain ⟨q, ⟨q1, q2⟩, hd, _⟩ := h.measured
  have hs : Measured (6 / 5 * q) (35 / 1000 * (6 / 5 * q)) ks (MfiFile.seconds ts) := by
    generalize MfiFile.seconds ts = ds at hd ⊢
    clear h
    have key : ∀ (ks : List Nat) (es : List Rat), Measured q (35 / 1000 * q) ks es → ∀ ds : List Rat, es = ds.map (fun x => x * (5 / 6)) →
        Measured (6 / 5 * q) (35 / 1000 * (6 / 5 * q)) ks ds := by
      intro ks es hm
      induction hm with
      | nil => intro ds e; cases ds with
        | nil => exact .nil
        | cons x l => cases e
      | cons hn _ ih => intro ds e; cases ds with
        | nil => cases e
        | cons x l =>
          rw [List.map_cons] at e
          injection e with e1 e2
          subst e1
          refine .cons ?_ (ih l e2)
          obtain ⟨n1, n2⟩ := hn
          constructor <;> linarith
    exact key ks _ hd ds rfl
  obtain ⟨v, v1, v2⟩ := peak_measured (by linarith) (by linarith) (2 / 100) hs h.mfm (by rw [round_part]; exact h.start)
  rw [middle_360 q1 q2 v1] at v2
  unfold Mfi.normalize
  rw [v2]
  simp only
  have e : (((2431 : Nat) : Rat) / 1000000000) / 2 * 1000000 * 300 = 36465 / 100 := by norm_num
  rw [e, if_pos (by constructor <;> norm_num)]
  norm_num

/-- The track made of one revolution. -/
theorem make_one {debug : Bool} {rnd : Nat → Bool} {fm : FmCodec} {x r : Rev} {t : Track} (h1 : x.decode none none = some r)
    (h2 : r.track debug rnd fm = .ok t) : make debug rnd fm none none [x] = .ok ⟨[(r, t)], 0⟩ := by
  have e : decodeAll debug rnd fm none none [x] = .ok [(r, t)] := by
    rw [decodeAll, h1]
    simp only
    rw [h2]
    rfl
  have hb : best [score t] = 0 := by
    rcases C75_best [score t] with ⟨h, _⟩ | ⟨s, h, _⟩
    · exact h
    · obtain ⟨h, _⟩ := List.getElem?_eq_some_iff.1 h
      simp only [List.length_singleton] at h
      omega
  unfold make
  rw [show synthesize [x] = [x] from rfl, e]
  simp only [List.map_cons, List.map_nil, hb]

/-- How long a turn takes by the loader's reckoning: the speed of a track at 360 rpm is the one found. -/
theorem turn_captures {ks ts : List Nat} {ch : Ch} {data : List Byte} (hd : MfiFile.times data = ts) :
    (MfiFile.At300 ks ts → Mfi.turnOf (ch, data) = Rev.ofDeltas ch (MfiFile.seconds ts) (1 / 5) ∧ Captures ks (MfiFile.seconds ts) (1 / 5)) ∧
    (MfiFile.At360 ks ts → Mfi.turnOf (ch, data) = Rev.ofDeltas ch ((MfiFile.seconds ts).map fun x => x * (5 / 6)) (60 / (36465 / 100)) ∧
      Captures ks ((MfiFile.seconds ts).map fun x => x * (5 / 6)) (60 / (36465 / 100))) := by
  subst hd
  constructor
  · intro hk
    refine ⟨?_, hk⟩
    unfold Mfi.turnOf
    rw [normalize_300 hk]
    simp only [Option.getD_none]
    norm_num
  · intro hk
    constructor
    · unfold Mfi.turnOf
      rw [normalize_360 hk]
      rfl
    · obtain ⟨q, hq, hm, he⟩ := hk.measured
      refine ⟨hk.mfm, hk.looks, hk.start, hk.whole, q, Or.inr hq, hm, ?_, he.2⟩
      intro a b
      have := he.1 a b
      rw [if_pos (by norm_num)] at this ⊢
      exact this

/-- **C94.** If the flux times of a track of a well-formed file are those of a track with the intervals `ks`, recorded at 300 rpm,
or at 360 rpm with high density, the loaded track has exactly the cells that were on the disk. -/
theorem C94_cells (inflate : Mfi.Inflate) (debug : Bool) (rnd : Nat → Bool) (fm : FmCodec) (f : List Byte)
    (h : MfiFile.WellFormed inflate f) (hfm : Mfi.FmFine inflate fm f) :
    ∃ d q, Mfi.load inflate debug rnd fm {} f = .ok (d, q) ∧
      ∀ i < MfiFile.count f, ∀ data, MfiFile.content inflate f i = some data → ∀ ks,
        MfiFile.At300 ks (MfiFile.times data) ∨ MfiFile.At360 ks (MfiFile.times data) →
        fluxCells d (MfiFile.place f i) = some (Spec.cellsOf ks) := by
  obtain ⟨q, h1, _⟩ := Mfi.load_ok h debug rnd fm hfm
  refine ⟨_, q, h1, ?_⟩
  intro i hi data hd ks hk
  have key : ∃ t, ∃ ds, Mfi.turnOf (MfiFile.place f i, data) = Rev.ofDeltas (MfiFile.place f i) ds t ∧ Captures ks ds t := by
    rcases hk with hk | hk
    · exact ⟨_, _, (turn_captures rfl).1 hk⟩
    · exact ⟨_, _, (turn_captures rfl).2 hk⟩
  obtain ⟨t, ds, e, hc⟩ := key
  obtain ⟨m, x, m1, m2, m3⟩ := C76_measured debug rnd fm (MfiFile.place f i) ks [(ds, t)] (by simp)
    (fun y hy => by rw [List.mem_singleton.1 hy]; exact hc)
  have m1' : make debug rnd fm none none [Mfi.turnOf (MfiFile.place f i, data)] = .ok m := by rw [e]; exact m1
  have := mfi_made h debug rnd fm hi hd m1'
  unfold fluxCells
  rw [this, m2]
  simp only
  rw [m3]

/-- **C94, the density.** The density that the image is described with is that of its first track: double or high, as the number of
its cells tells. -/
theorem C94_density (inflate : Mfi.Inflate) (debug : Bool) (rnd : Nat → Bool) (fm : FmCodec) (f : List Byte)
    (h : MfiFile.WellFormed inflate f) (hfm : Mfi.FmFine inflate fm f) (data : List Byte)
    (hd : MfiFile.content inflate f 0 = some data) (ks : List Nat) :
    ∃ d q, Mfi.load inflate debug rnd fm {} f = .ok (d, q) ∧
      (MfiFile.At300 ks (MfiFile.times data) →
        (84800 ≤ (Spec.cellsOf ks).length ∧ (Spec.cellsOf ks).length < 138000 → q = .double) ∧
        (170000 ≤ (Spec.cellsOf ks).length ∧ (Spec.cellsOf ks).length < 230000 → q = .high)) ∧
      (MfiFile.At360 ks (MfiFile.times data) → 140000 ≤ (Spec.cellsOf ks).length ∧ (Spec.cellsOf ks).length < 189000 → q = .high) := by
  obtain ⟨q, h1, h2⟩ := Mfi.load_ok h debug rnd fm hfm
  have key : ∀ ds t, Mfi.turnOf ((⟨0, 0⟩ : Ch), data) = Rev.ofDeltas ⟨0, 0⟩ ds t → Captures ks ds t →
      q = Kryo.densityOf (rateOf (((Spec.cellsOf ks).length : Rat) * (1 / t) / 2).floor.toNat) := by
    intro ds t e hc
    obtain ⟨r, r1, r2, r3⟩ := C73_measured ks ds t hc ⟨0, 0⟩
    obtain ⟨x, x1, _⟩ := track_cells debug rnd fm r r3
    rw [h2 data hd _ (by rw [e]; exact make_one r1 x1)]
    have := (decode_info r1).2
    unfold Scp.rateOfMade
    show Kryo.densityOf (rateOf ((r.dataRate.getD 0).floor.toNat)) = _
    rw [this, r2]
    rfl
  have fl : ∀ (x : Rat) (a b : Nat), (a : Rat) ≤ x → x < b → a ≤ x.floor.toNat ∧ x.floor.toNat < b := by
    intro x a b ha hb
    have e1 : (a : Int) ≤ x.floor := Rat.le_floor_iff.2 (by push_cast; exact ha)
    have e2 : x.floor < (b : Int) := by
      rw [Rat.floor_lt_iff]; push_cast; exact hb
    omega
  refine ⟨_, q, h1, ?_, ?_⟩
  · intro hk
    obtain ⟨e, hc⟩ := (turn_captures (ch := ⟨0, 0⟩) rfl).1 hk
    rw [key _ _ e hc]
    generalize (Spec.cellsOf ks).length = n
    constructor
    · rintro ⟨a, b⟩
      have a' : (84800 : Rat) ≤ n := by exact_mod_cast a
      have b' : (n : Rat) < 138000 := by exact_mod_cast b
      obtain ⟨u, v⟩ := fl ((n : Rat) * (1 / (1 / 5)) / 2) 212000 345000 (by push_cast; linarith) (by push_cast; linarith)
      generalize ((n : Rat) * (1 / (1 / 5)) / 2).floor.toNat = k at *
      unfold rateOf
      rw [if_neg (by omega)]
      by_cases hk : 212000 ≤ k ∧ k < 271000
      · rw [if_pos hk]; rfl
      · rw [if_neg hk, if_pos (by omega)]; rfl
    · rintro ⟨a, b⟩
      have a' : (170000 : Rat) ≤ n := by exact_mod_cast a
      have b' : (n : Rat) < 230000 := by exact_mod_cast b
      obtain ⟨u, v⟩ := fl ((n : Rat) * (1 / (1 / 5)) / 2) 425000 575000 (by push_cast; linarith) (by push_cast; linarith)
      generalize ((n : Rat) * (1 / (1 / 5)) / 2).floor.toNat = k at *
      unfold rateOf
      rw [if_neg (by omega), if_neg (by omega), if_neg (by omega), if_pos (by omega)]
      rfl
  · intro hk
    obtain ⟨e, hc⟩ := (turn_captures (ch := ⟨0, 0⟩) rfl).2 hk
    rw [key _ _ e hc]
    generalize (Spec.cellsOf ks).length = n
    rintro ⟨a, b⟩
    have a' : (140000 : Rat) ≤ n := by exact_mod_cast a
    have b' : (n : Rat) < 189000 := by exact_mod_cast b
    have ex : (n : Rat) * (1 / (60 / (36465 / 100))) / 2 = n * (36465 / 12000) := by ring
    rw [ex]
    obtain ⟨u, v⟩ := fl ((n : Rat) * (36465 / 12000)) 425000 575000 (by push_cast; linarith) (by push_cast; linarith)
    generalize ((n : Rat) * (36465 / 12000)).floor.toNat = k at *
    unfold rateOf
    rw [if_neg (by omega), if_neg (by omega), if_neg (by omega), if_pos (by omega)]
    rfl

/-- **C96 (partial).** Only the flux times count: tracks with the same flux times at the same place are loaded alike, whatever zones
their data tell.  Missing: what the zones should become. -/
theorem C96_only_flux_partial (inflate : Mfi.Inflate) (debug : Bool) (rnd : Nat → Bool) (fm : FmCodec) (f g : List Byte)
    {d e : Disk} {q r} (hf : Mfi.load inflate debug rnd fm {} f = .ok (d, q)) (hg : Mfi.load inflate debug rnd fm {} g = .ok (e, r))
    (i j : Nat) (hi : i < MfiFile.count f) (hj : j < MfiFile.count g) (hp : MfiFile.place f i = MfiFile.place g j)
    {a b : List Byte} (ha : MfiFile.content inflate f i = some a) (hb : MfiFile.content inflate g j = some b)
    (ht : MfiFile.times a = MfiFile.times b) :
    d.track (MfiFile.place f i) = e.track (MfiFile.place f i) := by
  obtain ⟨wf, ff⟩ := Mfi.wellFormed_of_ok hf
  obtain ⟨wg, fg⟩ := Mfi.wellFormed_of_ok hg
  obtain ⟨q', h1, _⟩ := Mfi.load_ok wf debug rnd fm ff
  obtain ⟨r', h2, _⟩ := Mfi.load_ok wg debug rnd fm fg
  rw [h1] at hf; cases hf
  rw [h2] at hg; cases hg
  have et : Mfi.turnOf (MfiFile.place f i, a) = Mfi.turnOf (MfiFile.place g j, b) := by
    unfold Mfi.turnOf; simp only [ht, hp]
  obtain ⟨m, hm⟩ := Scp.make_total debug rnd fm _ (ff i hi a ha)
  rw [mfi_made wf debug rnd fm hi ha hm, hp]
  rw [et] at hm
  rw [mfi_made wg debug rnd fm hj hb hm]

/-! ## Tracks that are not formatted -/

theorem blank_turn (ch : Ch) : Mfi.turnOf (ch, []) = Rev.ofDeltas ch [] (1 / 5) := by
  have : Mfi.normalize (MfiFile.seconds (MfiFile.times [])) = ([], none) := by decide +kernel
  unfold Mfi.turnOf
  rw [this]
  simp only [Option.getD_none]
  norm_num

/-- Flux with no transitions decodes to no cells. -/
theorem blank_decode (ch : Ch) : ∃ r, (Rev.ofDeltas ch [] (1 / 5)).decode none none = some r ∧ r.bits = [] ∧ r.encoding = .mfm := by
  have direct : ∀ (c : Ch) (P : Pll), (Rev.ofDeltas c [] (1 / 5)).decodeDirect P =
      ((Rev.ofDeltas ⟨0, 0⟩ [] (1 / 5)).decodeDirect P).map fun r => { r with ch := c } := by
    intro c P
    unfold Rev.decodeDirect
    rw [show (Rev.ofDeltas c [] (1 / 5)).deltas = [] from rfl, show (Rev.ofDeltas ⟨0, 0⟩ [] (1 / 5)).deltas = [] from rfl]
    cases hx : P.decode .mfm false [] with
    | none => rfl
    | some x =>
      simp only [Option.bind_eq_bind, Option.bind_some]
      by_cases h : x.2.markers = [] ∧ x.2.stats.detectEncoding = .fm
      · simp only [if_pos h]
        cases hy : x.1.decode .fm false [] with
        | none => rfl
        | some y =>
          simp only [Option.bind_some]
          by_cases h' : y.2.markers = []
          · simp only [if_pos h']; rfl
          · simp only [if_neg h']; rfl
      · simp only [if_neg h]; rfl
  have this : (Rev.ofDeltas ch [] (1 / 5)).decode none none =
      ((Rev.ofDeltas ⟨0, 0⟩ [] (1 / 5)).decode none none).map fun r => { r with ch := ch } := by
    unfold Rev.decode
    rw [show clockOf none none (Rev.ofDeltas ch [] (1 / 5)) = clockOf none none (Rev.ofDeltas ⟨0, 0⟩ [] (1 / 5)) from rfl]
    generalize Pll.new.setClock (1 / clockOf none none (Rev.ofDeltas ⟨0, 0⟩ [] (1 / 5))) none = o
    cases o with
    | none => rfl
    | some P => exact direct ch P
  rw [this]
  have hz : ((Rev.ofDeltas ⟨0, 0⟩ [] (1 / 5)).decode none none).map (fun r => (r.bits, r.encoding)) = some ([], .mfm) := by
    decide +kernel
  generalize (Rev.ofDeltas ⟨0, 0⟩ [] (1 / 5)).decode none none = o at hz
  cases o with
  | none => cases hz
  | some r =>
    injection hz with hz
    exact ⟨_, rfl, congrArg Prod.fst hz, congrArg Prod.snd hz⟩

/-- **C93, unformatted tracks.** A track that is not formatted is loaded as a flux track that holds no cells at all, not as an empty
track as long as the others. -/
theorem C93_unformatted (inflate : Mfi.Inflate) (debug : Bool) (rnd : Nat → Bool) (fm : FmCodec) (f : List Byte)
    (h : MfiFile.WellFormed inflate f) (hfm : Mfi.FmFine inflate fm f) :
    ∃ d q, Mfi.load inflate debug rnd fm {} f = .ok (d, q) ∧
      ∀ i < MfiFile.count f, MfiFile.Blank f i → fluxCells d (MfiFile.place f i) = some [] := by
  obtain ⟨q, h1, _⟩ := Mfi.load_ok h debug rnd fm hfm
  refine ⟨_, q, h1, ?_⟩
  intro i hi hb
  have hc : MfiFile.content inflate f i = some [] := by unfold MfiFile.content; rw [if_pos hb]
  obtain ⟨r, r1, r2, r3⟩ := blank_decode (MfiFile.place f i)
  obtain ⟨t, t1, t2, _⟩ := track_cells debug rnd fm r r3
  have := mfi_made h debug rnd fm hi hc (by rw [blank_turn]; exact make_one r1 t1)
  unfold fluxCells
  rw [this]
  show some t.data.bits.bits = some []
  rw [t2, r2]
  rfl

/-! ## C95: panics -/

/-- **C95 (partial).** A file whose track data hold no words of an unknown type never makes the loader panic, if the FM decoder copes
with the tracks that are taken for FM: it is loaded or refused.  Missing: the other types. -/
theorem C95_no_panic_partial (inflate : Mfi.Inflate) (debug : Bool) (rnd : Nat → Bool) (fm : FmCodec) (f : List Byte)
    (ht : ∀ i < MfiFile.count f, ∀ d, MfiFile.content inflate f i = some d → ∀ w ∈ MfiFile.words d, MfiFile.kind w < 4)
    (hfm : Mfi.FmFine inflate fm f) :
    Mfi.load inflate debug rnd fm {} f ≠ .error .panic := by
  rcases Mfi.load_stages inflate debug rnd fm f with ⟨e, h1, h2⟩ | ⟨h1, h2⟩
  · rw [h1]; intro h; injection h with h; exact h2 h
  · intro h
    refine Mfi.tracks_no_panic debug rnd fm (Mfi.items inflate f) {} none ?_ _ ((h2 _).1 h) rfl
    intro t htm
    obtain ⟨i, hi, rfl⟩ := List.mem_map.1 htm
    have hi := List.mem_range.1 hi
    obtain ⟨d, hd⟩ := h1 i hi
    rw [hd]
    exact ⟨ht i hi d hd, hfm i hi d hd⟩

/-- **C95 refuted.** Any file that is otherwise acceptable makes the loader panic, in every build, if the data of any of its tracks
hold a word whose upper four bits are 4 or more. -/
theorem C95_false_type (inflate : Mfi.Inflate) (debug : Bool) (rnd : Nat → Bool) (fm : FmCodec) (f : List Byte)
    (h : MfiFile.Layout inflate f) (hfm : Mfi.FmFine inflate fm f)
    (hbad : ∃ i < MfiFile.count f, ∃ d, MfiFile.content inflate f i = some d ∧ ∃ w ∈ MfiFile.words d, 4 ≤ MfiFile.kind w) :
    Mfi.load inflate debug rnd fm {} f = .error .panic := by
  rw [Mfi.load_layout h, Mfi.tracks_panic debug rnd fm _ {} none rfl]
  · intro t ht
    obtain ⟨i, hi, rfl⟩ := List.mem_map.1 ht
    have hi := List.mem_range.1 hi
    obtain ⟨d, hd⟩ := h.inflates i hi
    rw [hd]
    refine ⟨?_, hfm i hi d hd⟩
    show i % MfiFile.sides f < 2
    rcases h.geometry.2 with e | e <;> rw [e] <;> omega
  · obtain ⟨i, hi, d, hd, w, hw, hk⟩ := hbad
    refine ⟨_, List.mem_map.2 ⟨i, List.mem_range.2 hi, rfl⟩, ?_⟩
    rw [hd]
    intro hall
    have := hall w hw
    omega

/-! ## Files that these theorems speak of -/

/-- A file of two cylinders and one side, of which the second cylinder is not formatted. -/
def mfiFile : List Byte :=
  Mfi.signature ++ [0#8] ++ [2#8, 0#8, 0#8, 0#8] ++ [1#8, 0#8, 0#8, 0#8] ++ [0x33#8, 0x35#8, 0x20#8, 0x20#8] ++ [0#8, 0#8, 0#8, 0#8] ++
  [64#8, 0#8, 0#8, 0#8, 3#8, 0#8, 0#8, 0#8, 4#8, 0#8, 0#8, 0#8, 0#8, 0#8, 0#8, 0#8] ++
  [0#8, 0#8, 0#8, 0#8, 0#8, 0#8, 0#8, 0#8, 0#8, 0#8, 0#8, 0#8, 0#8, 0#8, 0#8, 0#8] ++ [1#8, 2#8, 3#8]

/-- Its table is sound, whatever its data become. -/
theorem mfiFile_layout (data : List Byte) : MfiFile.Layout (fun _ _ => some data) mfiFile := by
  have hc : MfiFile.count mfiFile = 2 := by decide +kernel
  refine ⟨by decide +kernel, by decide +kernel, by decide +kernel, by decide +kernel, ?_, ?_, ?_⟩
  · intro i j hij hj hp
    rw [hc] at hj
    obtain rfl : j = 1 := by omega
    exact absurd (by decide +kernel) hp
  · intro i hi
    rw [hc] at hi
    have : ∀ i ∈ List.range 2, MfiFile.offset mfiFile i ≤ mfiFile.length ∧
        (¬ MfiFile.Blank mfiFile i → MfiFile.offset mfiFile i + MfiFile.packedSize mfiFile i ≤ mfiFile.length) := by decide +kernel
    exact this i (List.mem_range.2 hi)
  · intro i _
    unfold MfiFile.content
    split <;> exact ⟨_, rfl⟩

/-- Its data are these. -/
theorem mfiFile_content (data : List Byte) : MfiFile.content (fun _ _ => some data) mfiFile 0 = some data ∧
    MfiFile.content (fun _ _ => some data) mfiFile 1 = some [] := by
  unfold MfiFile.content
  rw [if_neg (show ¬ MfiFile.Blank mfiFile 0 by decide +kernel), if_pos (show MfiFile.Blank mfiFile 1 by decide +kernel)]
  exact ⟨rfl, rfl⟩

/-- A word as the file holds it. -/
def mfiWord (n : Nat) : List Byte := [BitVec.ofNat 8 n, BitVec.ofNat 8 (n / 256), BitVec.ofNat 8 (n / 65536), BitVec.ofNat 8 (n / 16777216)]

/-- A whole track: short and medium intervals by turns, of the given length. -/
def mfiData (a b n : Nat) : List Byte := (List.replicate n (mfiWord a ++ mfiWord b)).flatten

theorem mfiData_words {a b : Nat} (ha : a < 2 ^ 28) (hb : b < 2 ^ 28) (n : Nat) : MfiFile.words (mfiData a b n) = (List.replicate n [a, b]).flatten := by
  have hw : ∀ x, x < 2 ^ 28 → (BitVec.ofNat 8 x).toNat + 256 * (BitVec.ofNat 8 (x / 256)).toNat +
      65536 * ((BitVec.ofNat 8 (x / 65536)).toNat + 256 * (BitVec.ofNat 8 (x / 16777216)).toNat) = x := by
    intro x hx
    simp only [BitVec.toNat_ofNat]
    omega
  induction n with
  | zero => exact Mfi.words_short (l := []) (by decide)
  | succ n ih =>
    unfold mfiData
    rw [flatten_succ, flatten_succ]
    show MfiFile.words (_ :: _ :: _ :: _ :: _ :: _ :: _ :: _ :: mfiData a b n) = _
    rw [Mfi.words_cons, Mfi.words_cons, ih, hw a ha, hw b hb]
    rfl

theorem mfiData_times {a b : Nat} (ha : a < 2 ^ 28) (hb : b < 2 ^ 28) (n : Nat) : MfiFile.times (mfiData a b n) = (List.replicate n [a, b]).flatten := by
  unfold MfiFile.times
  rw [mfiData_words ha hb]
  have hk : ∀ w ∈ (List.replicate n [a, b]).flatten, w < 2 ^ 28 := by
    intro w hw
    obtain ⟨l, hl, hw⟩ := List.mem_flatten.1 hw
    obtain rfl := List.eq_of_mem_replicate hl
    simp at hw
    omega
  generalize (List.replicate n [a, b]).flatten = l at hk
  induction l with
  | nil => rfl
  | cons w l ih =>
    have h1 : MfiFile.kind w = 0 := Nat.div_eq_of_lt (hk w List.mem_cons_self)
    have h2 : MfiFile.time w = w := Nat.mod_eq_of_lt (hk w List.mem_cons_self)
    rw [List.filter_cons_of_pos (p := fun w => decide (MfiFile.kind w = 0)) (by simpa using h1), List.map_cons, h2,
      ih (fun x hx => hk x (List.mem_cons_of_mem _ hx))]

theorem mfiData_measured {a b : Nat} (q s : Rat) (h1 : Near (35 / 1000 * q) ((a : Rat) / 1000000000 * s) (2 * q))
    (h2 : Near (35 / 1000 * q) ((b : Rat) / 1000000000 * s) (3 * q)) (n : Nat) :
    Measured q (35 / 1000 * q) (byTurns n) ((MfiFile.seconds (List.replicate n [a, b]).flatten).map fun x => x * s) := by
  induction n with
  | zero => exact .nil
  | succ n ih =>
    rw [byTurns, flatten_succ, flatten_succ]
    refine .cons ?_ (.cons ?_ ih)
    · exact_mod_cast h1
    · exact_mod_cast h2

theorem byTurns_start {n : Nat} (h : (2 * (2 * n) + 50) / 100 = 2 * ((2 * (2 * n) + 50) / 200)) (hn : 1250 ≤ n) : MixedWell (firstPart (byTurns n)) := by
  unfold firstPart
  rw [byTurns_length, h, byTurns_take _ _ (by omega)]
  obtain ⟨a, b⟩ := byTurns_times ((2 * (2 * n) + 50) / 200)
  unfold MixedWell
  rw [a, b, byTurns_length]
  omega

/-- A double density track at 300 rpm. -/
theorem mfi_at300 : MfiFile.At300 (byTurns 20000) (MfiFile.times (mfiData 4000 6000 20000)) := by
  rw [mfiData_times (by decide) (by decide)]
  have hl := byTurns_length 20000
  obtain ⟨_, t3⟩ := byTurns_times 20000
  refine ⟨byTurns_mem _, Or.inl (by rw [hl, t3]; omega), byTurns_start (by decide) (by omega), fun h => by rw [hl] at h; omega,
    2 / 1000000, Or.inl ⟨by norm_num, by norm_num⟩, ?_, ?_⟩
  · have := mfiData_measured (a := 4000) (b := 6000) (2 / 1000000) 1 (by constructor <;> norm_num) (by constructor <;> norm_num) 20000
    rw [show (fun x : Rat => x * 1) = id by funext x; exact mul_one x, List.map_id] at this
    exact this
  · rw [hl]
    refine ⟨fun _ _ => ?_, fun h => by omega⟩
    rw [if_neg (by norm_num)]
    constructor <;> norm_num

/-- A high density track at 360 rpm. -/
theorem mfi_at360 : MfiFile.At360 (byTurns 33300) (MfiFile.times (mfiData 2400 3600 33300)) := by
  rw [mfiData_times (by decide) (by decide)]
  have hl := byTurns_length 33300
  obtain ⟨_, t3⟩ := byTurns_times 33300
  refine ⟨byTurns_mem _, Or.inl (by rw [hl, t3]; omega), byTurns_start (by decide) (by omega), fun h => by rw [hl] at h; omega,
    1 / 1000000, ⟨by norm_num, by norm_num⟩, ?_, ?_⟩
  · exact mfiData_measured (a := 2400) (b := 3600) (1 / 1000000) (5 / 6) (by constructor <;> norm_num) (by constructor <;> norm_num) 33300
  · rw [hl]
    refine ⟨fun h h' => by omega, fun _ => ?_⟩
    constructor <;> norm_num

/-- A file with data of known types that are of a track at a known speed is well-formed, and nothing in it is taken for FM. -/
theorem mfiFile_wellFormed {data : List Byte} (ht : ∀ w ∈ MfiFile.words data, MfiFile.kind w < 4) :
    MfiFile.WellFormed (fun _ _ => some data) mfiFile := by
  have hc : MfiFile.count mfiFile = 2 := by decide +kernel
  refine ⟨mfiFile_layout data, ?_⟩
  intro i hi d hd
  rw [hc] at hi
  obtain ⟨c0, c1⟩ := mfiFile_content data
  obtain rfl | rfl : i = 0 ∨ i = 1 := by omega
  · rw [c0] at hd; cases hd; exact ht
  · rw [c1] at hd; cases hd; intro w hw; cases hw

theorem mfiFile_fine (fm : FmCodec) {data : List Byte}
    (hk : ∀ ch, ∃ r, (Mfi.turnOf (ch, data)).decode none none = some r ∧ r.encoding = .mfm) :
    Mfi.FmFine (fun _ _ => some data) fm mfiFile := by
  have hc : MfiFile.count mfiFile = 2 := by decide +kernel
  have key : ∀ t, (∃ r, (Mfi.turnOf t).decode none none = some r ∧ r.encoding = .mfm) → Flux.FmFine fm none none [Mfi.turnOf t] := by
    rintro t ⟨r, h1, h2⟩ x hx r' hd he
    obtain rfl : x = Mfi.turnOf t := List.mem_singleton.1 hx
    rw [h1] at hd
    cases hd
    rw [h2] at he
    cases he
  intro i hi d hd
  rw [hc] at hi
  obtain ⟨c0, c1⟩ := mfiFile_content data
  obtain rfl | rfl : i = 0 ∨ i = 1 := by omega
  · rw [c0] at hd; cases hd; exact key _ (hk _)
  · rw [c1] at hd; cases hd
    obtain ⟨r, r1, _, r3⟩ := blank_decode (MfiFile.place mfiFile 1)
    exact key _ ⟨r, by rw [blank_turn]; exact r1, r3⟩

theorem mfiFile_captured {ks : List Nat} {data : List Byte}
    (hk : MfiFile.At300 ks (MfiFile.times data) ∨ MfiFile.At360 ks (MfiFile.times data)) (ch : Ch) :
    ∃ r, (Mfi.turnOf (ch, data)).decode none none = some r ∧ r.encoding = .mfm := by
  rcases hk with hk | hk
  · obtain ⟨e, hc⟩ := (turn_captures (ch := ch) rfl).1 hk
    obtain ⟨r, r1, _, r3⟩ := C73_measured ks _ _ hc ch
    exact ⟨r, by rw [e]; exact r1, r3⟩
  · obtain ⟨e, hc⟩ := (turn_captures (ch := ch) rfl).2 hk
    obtain ⟨r, r1, _, r3⟩ := C73_measured ks _ _ hc ch
    exact ⟨r, by rw [e]; exact r1, r3⟩

/-- The theorems apply to this file: one track with its cells, at either speed, and one without. -/
theorem mfiFile_loads (debug : Bool) (rnd : Nat → Bool) (fm : FmCodec) {a b n : Nat} (ha : a < 2 ^ 28) (hb : b < 2 ^ 28) {ks : List Nat}
    (hk : MfiFile.At300 ks (MfiFile.times (mfiData a b n)) ∨ MfiFile.At360 ks (MfiFile.times (mfiData a b n))) :
    ∃ d q, Mfi.load (fun _ _ => some (mfiData a b n)) debug rnd fm {} mfiFile = .ok (d, q) ∧ d.geometry = ⟨2, 1⟩ ∧
      fluxCells d ⟨0, 0⟩ = some (Spec.cellsOf ks) ∧ fluxCells d ⟨1, 0⟩ = some [] ∧ d.track ⟨0, 1⟩ = .ok none := by
  have hw : MfiFile.WellFormed (fun _ _ => some (mfiData a b n)) mfiFile := mfiFile_wellFormed (by
    rw [mfiData_words ha hb]
    intro w hw
    obtain ⟨l, hl, hw⟩ := List.mem_flatten.1 hw
    obtain rfl := List.eq_of_mem_replicate hl
    have : w < 2 ^ 28 := by simp at hw; omega
    unfold MfiFile.kind
    omega)
  have hf := mfiFile_fine fm (mfiFile_captured hk)
  have hc : MfiFile.count mfiFile = 2 := by decide +kernel
  have p0 : MfiFile.place mfiFile 0 = ⟨0, 0⟩ := by decide +kernel
  have p1 : MfiFile.place mfiFile 1 = ⟨1, 0⟩ := by decide +kernel
  obtain ⟨d, q, h1, h2, h3⟩ := C93_tracks _ debug rnd fm _ hw hf
  obtain ⟨d', q', g1, g2⟩ := C94_cells _ debug rnd fm _ hw hf
  obtain ⟨e, r, k1, k2⟩ := C93_unformatted _ debug rnd fm _ hw hf
  rw [h1] at g1 k1
  cases g1; cases k1
  refine ⟨d, q, h1, ?_, ?_, ?_, (h2 ⟨0, 1⟩ (by decide)).2 (by decide +kernel)⟩
  · rw [h3]; decide +kernel
  · rw [← p0]; exact g2 0 (by omega) _ (mfiFile_content _).1 ks hk
  · rw [← p1]; exact k2 1 (by omega) (by decide +kernel)

example (debug : Bool) (rnd : Nat → Bool) (fm : FmCodec) :
    ∃ d q, Mfi.load (fun _ _ => some (mfiData 4000 6000 20000)) debug rnd fm {} mfiFile = .ok (d, q) ∧ d.geometry = ⟨2, 1⟩ ∧
      fluxCells d ⟨0, 0⟩ = some (Spec.cellsOf (byTurns 20000)) ∧ fluxCells d ⟨1, 0⟩ = some [] ∧ d.track ⟨0, 1⟩ = .ok none :=
  mfiFile_loads debug rnd fm (by decide) (by decide) (Or.inl mfi_at300)

example (debug : Bool) (rnd : Nat → Bool) (fm : FmCodec) :
    ∃ d q, Mfi.load (fun _ _ => some (mfiData 2400 3600 33300)) debug rnd fm {} mfiFile = .ok (d, q) ∧ d.geometry = ⟨2, 1⟩ ∧
      fluxCells d ⟨0, 0⟩ = some (Spec.cellsOf (byTurns 33300)) ∧ fluxCells d ⟨1, 0⟩ = some [] ∧ d.track ⟨0, 1⟩ = .ok none :=
  mfiFile_loads debug rnd fm (by decide) (by decide) (Or.inr mfi_at360)

/-- A file whose data hold one word of type 4 panics. -/
example (debug : Bool) (rnd : Nat → Bool) (fm : FmCodec) :
    Mfi.load (fun _ _ => some [0#8, 0#8, 0#8, 0x40#8]) debug rnd fm {} mfiFile = .error .panic := by
  refine C95_false_type _ debug rnd fm _ (mfiFile_layout _) (mfiFile_fine fm fun ch => ?_)
    ⟨0, by decide +kernel, _, (mfiFile_content _).1, 2 ^ 30, by decide, by decide⟩
  obtain ⟨r, r1, _, r3⟩ := blank_decode ch
  refine ⟨r, ?_, r3⟩
  have : Mfi.turnOf (ch, [0#8, 0#8, 0#8, 0x40#8]) = Mfi.turnOf (ch, []) := by
    unfold Mfi.turnOf
    rw [show MfiFile.times [0#8, 0#8, 0#8, 0x40#8] = MfiFile.times [] by decide +kernel]
  rw [this, blank_turn]
  exact r1

/-- Data with a damaged zone of 1 us before those of a whole track. -/
def zoneData : List Byte := mfiWord (2 * 2 ^ 28 + 1000) ++ mfiWord (3 * 2 ^ 28 + 1000) ++ mfiData 4000 6000 20000

/-- **C96 refuted**: whether or not a damaged zone is told of, the same track is loaded; and the interval that the zone is part of,
here of 6 us, is cut short, to 4 us. -/
theorem C96_false_zone (debug : Bool) (rnd : Nat → Bool) (fm : FmCodec) :
    ∃ rest, MfiFile.words zoneData = (2 ^ 29 + 1000) :: (3 * 2 ^ 28 + 1000) :: 4000 :: rest ∧
      MfiFile.words (mfiData 4000 6000 20000) = 4000 :: rest ∧
    ∃ d q e r, Mfi.load (fun _ _ => some zoneData) debug rnd fm {} mfiFile = .ok (d, q) ∧
      Mfi.load (fun _ _ => some (mfiData 4000 6000 20000)) debug rnd fm {} mfiFile = .ok (e, r) ∧
      fluxCells d ⟨0, 0⟩ = fluxCells e ⟨0, 0⟩ ∧ fluxCells d ⟨0, 0⟩ = some (Spec.cellsOf (byTurns 20000)) := by
  have w1 : MfiFile.words zoneData = (2 ^ 29 + 1000) :: (3 * 2 ^ 28 + 1000) :: MfiFile.words (mfiData 4000 6000 20000) := by
    unfold zoneData
    show MfiFile.words (_ :: _ :: _ :: _ :: _ :: _ :: _ :: _ :: mfiData 4000 6000 20000) = _
    rw [Mfi.words_cons, Mfi.words_cons]
    rfl
  have w2 := mfiData_words (a := 4000) (b := 6000) (by decide) (by decide) 20000
  have w3 : (List.replicate 20000 [4000, 6000]).flatten = 4000 :: 6000 :: (List.replicate 19999 [4000, 6000]).flatten := flatten_succ 19999 [4000, 6000]
  have ht : MfiFile.times zoneData = MfiFile.times (mfiData 4000 6000 20000) := by
    unfold MfiFile.times
    rw [w1]
    generalize MfiFile.words (mfiData 4000 6000 20000) = l
    rfl
  have hk : MfiFile.At300 (byTurns 20000) (MfiFile.times zoneData) := by rw [ht]; exact mfi_at300
  have hw : MfiFile.WellFormed (fun _ _ => some zoneData) mfiFile := mfiFile_wellFormed (by
    rw [w1, w2]
    intro w hw
    rcases List.mem_cons.1 hw with rfl | hw
    · decide
    rcases List.mem_cons.1 hw with rfl | hw
    · decide
    obtain ⟨l, hl, hw⟩ := List.mem_flatten.1 hw
    obtain rfl := List.eq_of_mem_replicate hl
    have : w < 2 ^ 28 := by simp at hw; omega
    unfold MfiFile.kind
    omega)
  have p0 : MfiFile.place mfiFile 0 = ⟨0, 0⟩ := by decide +kernel
  obtain ⟨d, q, g1, g2⟩ := C94_cells _ debug rnd fm _ hw (mfiFile_fine fm (mfiFile_captured (Or.inl hk)))
  have g3 := g2 0 (by decide +kernel) _ (mfiFile_content _).1 _ (Or.inl hk)
  rw [p0] at g3
  obtain ⟨e, r, h1, _, h2, _⟩ := mfiFile_loads debug rnd fm (a := 4000) (b := 6000) (n := 20000) (by decide) (by decide) (Or.inl mfi_at300)
  exact ⟨_, by rw [w1, w2, w3], by rw [w2, w3], d, q, e, r, g1, h1, by rw [g3, h2], g3⟩

end Fox
