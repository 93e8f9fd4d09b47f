import Verif.Props.FluxTrack
import Verif.Proofs.HistCluster
/-
C73 and C76 for flux that is measured with errors.
-/
namespace Fox
open Fox.Spec Fox.Pll Fox.Flux

/-- Decoding, with whatever clock is found. -/
theorem decode_with {ks : List Nat} (hl : LooksMfm ks) (hint : Option Rat) (rpm : Option Rpm) (r : Rev)
    (hre : r.encoding = .mfm) (c : Rat) (hc : clockOf hint rpm r = c) (hrate : 1 / c > 1)
    (hdec : ∀ P, Pll.new.setClock (1 / c) none = some P →
      ∃ P' o, P.decode .mfm false r.deltas = some (P', o) ∧ o.bits = Spec.cellsOf ks ∧ Counts o.stats ks) :
    ∃ r', r.decode hint rpm = some r' ∧ r'.bits = Spec.cellsOf ks ∧ r'.encoding = .mfm := by
  unfold Rev.decode
  rw [hc]
  obtain ⟨P, hP⟩ : ∃ P, Pll.new.setClock (1 / c) none = some P := by
    unfold setClock; rw [if_pos hrate]; exact ⟨_, rfl⟩
  obtain ⟨P', o, d1, d2, d3⟩ := hdec P hP
  simp only [hP, Option.bind_eq_bind, Option.bind_some]
  unfold Rev.decodeDirect
  simp only [d1, Option.bind_eq_bind, Option.bind_some]
  have hno : ¬ (o.markers = [] ∧ o.stats.detectEncoding = .fm) := by
    rintro ⟨m1, m2⟩
    rcases hl with hl | ⟨n, hn⟩
    · unfold FluxStats.detectEncoding at m2
      obtain ⟨s1, s2, s3, s4⟩ := d3
      have hpos : (0 : Rat) < o.stats.total := by
        rw [s1]
        have : 0 < ks.length := by
          rcases Nat.eq_zero_or_pos ks.length with h0 | h0
          · rw [List.length_eq_zero_iff.1 h0] at hl; simp [times] at hl
          · exact h0
        exact_mod_cast this
      rw [if_pos] at m2
      · cases m2
      · rw [gt_iff_lt, lt_div_iff₀ hpos, s1, s3]
        have : (ks.length : Rat) < 20 * (times 3 ks : Nat) := by exact_mod_cast hl
        linarith
    · have hn32 : 32 ≤ n := by have := hn.1.1; omega
      rw [← d2] at hn
      obtain ⟨m, hm, _⟩ := C68_marks_are_found P P' false _ o d1 (n - 32) (by rw [Nat.sub_add_cancel hn32]; exact hn)
      rw [m1] at hm
      cases hm
  rw [if_neg hno]
  exact ⟨_, rfl, d2, hre⟩

/-- The guess from the number of transitions is about right, or left to the histogram. -/
theorem base_cases (r : Rev) (q : Rat) (he : Expected q r.deltas.length r.indexTime) :
    About q (baseClock none none r) ∨
    ((r.deltas.length < 20000 ∨ 41666 ≤ r.deltas.length ∧ r.deltas.length < 50000) ∧
      baseClock none none r =
        match baseTransitionTime (histogram r.deltas 1) with | some t => t / 2 | none => 2 / 1000000) := by
  unfold baseClock guessClock
  simp only
  generalize r.deltas.length = n at *
  generalize r.indexTime = t at *
  by_cases g1 : 20000 ≤ n ∧ n < 41666
  · rw [if_pos g1]
    left
    have hh := he.1 g1.1 g1.2
    show About q ((guessRpm none t).adjustClock (2 / 1000000))
    unfold guessRpm
    simp only [Option.getD_none]
    by_cases r3 : 255 ≤ 60 / t ∧ 60 / t < 345
    · rw [if_pos r3]
      rw [if_neg (by rintro ⟨a, _⟩; linarith [r3.2])] at hh
      show About q (2 / 1000000)
      convert hh using 1
      norm_num
    · rw [if_neg r3]
      by_cases r6 : 345 ≤ 60 / t ∧ 60 / t < 414
      · rw [if_pos r6]
        rw [if_pos r6] at hh
        show About q (if 15 / 10000000 ≤ (2 : Rat) / 1000000 then 2 / 1000000 * (300 / 360) else 2 / 1000000)
        rw [if_pos (by norm_num)]
        convert hh using 1
        norm_num
      · rw [if_neg r6]
        rw [if_neg r6] at hh
        have : (Rpm.ofIndexTime t).getD (.r300 1) = .r300 1 := by
          unfold Rpm.ofIndexTime
          simp only
          rw [if_neg, if_neg]
          · rfl
          · rintro ⟨a, b⟩
            rcases lt_or_ge (60 / t) 345 with h | h
            · exact r3 ⟨by linarith, h⟩
            · exact r6 ⟨h, b⟩
          · rintro ⟨a, b⟩
            exact r3 ⟨by linarith, by linarith⟩
        rw [this]
        show About q (2 / 1000000)
        convert hh using 1
        norm_num
  · rw [if_neg g1]
    by_cases g2 : 50000 ≤ n
    · rw [if_pos g2]
      left
      have hh := he.2 g2
      show About q ((guessRpm none t).adjustClock (1 / 1000000))
      have : (guessRpm none t).adjustClock (1 / 1000000) = 1 / 1000000 := by
        generalize guessRpm none t = R
        cases R <;> simp only [Rpm.adjustClock]
        rw [if_neg (by norm_num)]
      rw [this]
      exact hh
    · rw [if_neg g2]
      exact Or.inr ⟨by omega, rfl⟩

/-- The bucket of every short interval of a usual length, and its middle. -/
theorem usual_middle {q : Rat} (hq : Usual q) : ∃ m : Nat, (∀ v, Near (35 / 1000 * q) v (2 * q) →
    (bucketStart (bucketOf (nanos v)) + bucketEnd (bucketOf (nanos v))) / 2 = m) ∧
    Near (35 / 1000 * q) ((m : Rat) / 1000000000 / 2) q := by
  have key : ∀ a b i : Nat, 16 ≤ a → bucketOf a = i → bucketOf b = i → ∀ v, (a : Rat) ≤ v * 1000000000 →
      v * 1000000000 < (b : Rat) + 1 → bucketOf (nanos v) = i := by
    intro a b i ha h1 h2 v hv hw
    have g1 : a ≤ nanos v := nanos_ge hv
    have g2 : nanos v ≤ b := by
      rcases nanos_lt (d := v) (n := b + 1) (by push_cast; exact hw) with h | h
      · omega
      · omega
    have u1 := bucket_mono ha g1
    have u2 := bucket_mono (Nat.le_trans ha g1) g2
    omega
  rcases hq with ⟨h1, h2⟩ | ⟨h1, h2⟩
  · refine ⟨3967, ?_, ?_, ?_⟩
    · rintro v ⟨v1, v2⟩
      rw [key 3840 4095 79 (by omega) (by decide) (by decide) v (by push_cast; linarith) (by push_cast; linarith)]
      decide
    · push_cast; linarith
    · push_cast; linarith
  · refine ⟨1983, ?_, ?_, ?_⟩
    · rintro v ⟨v1, v2⟩
      rw [key 1920 2047 71 (by omega) (by decide) (by decide) v (by push_cast; linarith) (by push_cast; linarith)]
      decide
    · push_cast; linarith
    · push_cast; linarith

theorem usual_bounds {q : Rat} (hq : Usual q) : 256 / 1000000000 ≤ q ∧ q ≤ 38 / 10000000 := by
  rcases hq with ⟨h1, h2⟩ | ⟨h1, h2⟩ <;> constructor <;> linarith

/-- **C73, measured flux.** A revolution in which every interval was measured to within 3.5 % of a cell, of a double or
high density track that turns at about the right speed (-2.2 % to +0.6 %), is decoded to exactly the track's cells, with
no hint. -/
theorem C73_measured (ks : List Nat) (ds : List Rat) (t : Rat) (h : Captures ks ds t) (ch : Ch) :
    ∃ r, (Rev.ofDeltas ch ds t).decode none none = some r ∧ r.bits = Spec.cellsOf ks ∧ r.encoding = .mfm := by
  obtain ⟨q, hq, hd, he⟩ := h.measured
  obtain ⟨h1, h2⟩ := usual_bounds hq
  obtain ⟨m, hm, n1, n2⟩ := usual_middle hq
  have hlen := measured_length hd
  have hpeak : ∀ f : Rat, MixedWell (ks.take (round (ks.length * f))) →
      baseTransitionTime (histogram ds f) = some ((m : Rat) / 1000000000) := by
    intro f hf
    obtain ⟨v, v1, v2⟩ := peak_measured h1 h2 f hd h.mfm hf
    rw [v2, hm v v1]
  have hpos : (0 : Rat) < (m : Rat) / 1000000000 / 2 := by linarith
  have hfirst := hpeak (2 / 100) (by rw [round_part]; exact h.start)
  have hclock : clockOf none none (Rev.ofDeltas ch ds t) = (m : Rat) / 1000000000 / 2 := by
    unfold clockOf
    have e : (Rev.ofDeltas ch ds t).deltas = ds := rfl
    rw [e, hfirst]
    simp only
    rcases base_cases (Rev.ofDeltas ch ds t) q (by rw [e, hlen]; exact he) with hb | ⟨hb1, hb2⟩
    · rw [if_pos]
      generalize baseClock none none (Rev.ofDeltas ch ds t) = b at *
      obtain ⟨a1, a2⟩ := hb
      have hb0 : 0 < b := by linarith
      generalize (m : Rat) / 1000000000 / 2 = c at *
      have u : (c - b) / b < 25 / 100 := by rw [div_lt_iff₀ hb0]; linarith
      have l : -(25 / 100) < (c - b) / b := by rw [lt_div_iff₀ hb0]; linarith
      unfold mag
      split <;> linarith
    · rw [e, hlen] at hb1
      rw [e, hpeak 1 (by rw [round_one, List.take_length]; exact h.whole hb1)] at hb2
      replace hb2 : baseClock none none (Rev.ofDeltas ch ds t) = (m : Rat) / 1000000000 / 2 := hb2
      rw [hb2]
      split <;> rfl
  have hr : 1 / ((m : Rat) / 1000000000 / 2) > 1 := by
    rw [gt_iff_lt, lt_div_iff₀ hpos]; linarith
  refine decode_with h.looks none none _ rfl _ hclock hr ?_
  intro P hP
  exact C67_tolerant _ P hP q (by linarith) (by rw [one_div_one_div]; exact ⟨n1, n2⟩) ks h.mfm ds hd false

/-- The revolutions of a track: what was measured in each, and how long it took. -/
def revolutions (ch : Ch) (L : List (List Rat × Rat)) : List Rev := L.map fun x => Rev.ofDeltas ch x.1 x.2

theorem revolutions_pairs (ch : Ch) (ks : List Nat) : ∀ L : List (List Rat × Rat), (∀ x ∈ L, Captures ks x.1 x.2) →
    synthPairs (revolutions ch L) = []
  | [], _ => rfl
  | [_], _ => rfl
  | x :: y :: L, h => by
    show fromAdjacentPair _ _ ++ synthPairs (revolutions ch (y :: L)) = []
    obtain ⟨_, _, m1, _⟩ := (h x List.mem_cons_self).measured
    obtain ⟨_, _, m2, _⟩ := (h y (List.mem_cons_of_mem _ List.mem_cons_self)).measured
    have l1 := measured_length m1
    have l2 := measured_length m2
    rw [revolutions_pairs ch ks (y :: L) (fun z hz => h z (List.mem_cons_of_mem _ hz)), C75_no_shift]
    · rfl
    · show x.1.length ≠ y.1.length + 2
      omega
    · show y.1.length ≠ x.1.length + 2
      omega

theorem decodeAll_measured (debug : Bool) (rnd : Nat → Bool) (fm : FmCodec) (ch : Ch) (ks : List Nat) :
    ∀ L : List (List Rat × Rat), (∀ x ∈ L, Captures ks x.1 x.2) →
    ∃ l, decodeAll debug rnd fm none none (revolutions ch L) = .ok l ∧ l.length = L.length ∧
      ∀ y ∈ l, y.1.bits = Spec.cellsOf ks ∧ y.1.encoding = .mfm ∧ y.1.track debug rnd fm = .ok y.2 := by
  intro L
  induction L with
  | nil => intro _; exact ⟨[], rfl, rfl, fun _ h => by cases h⟩
  | cons x L ih =>
    intro hL
    obtain ⟨l, h1, h2, h3⟩ := ih (fun y hy => hL y (List.mem_cons_of_mem _ hy))
    obtain ⟨r, r1, r2, r3⟩ := C73_measured ks x.1 x.2 (hL x List.mem_cons_self) ch
    obtain ⟨t, t1, _⟩ := track_cells debug rnd fm r r3
    refine ⟨(r, t) :: l, ?_, by simp [h2], ?_⟩
    · show decodeAll debug rnd fm none none (Rev.ofDeltas ch x.1 x.2 :: revolutions ch L) = _
      rw [decodeAll]
      simp only [r1, t1, h1]
    · intro y hy
      rcases List.mem_cons.1 hy with rfl | hy
      · exact ⟨r2, r3, t1⟩
      · exact h3 y hy

/-- The track made of measured revolutions is the one that the track's cells make. -/
theorem made_measured (debug : Bool) (rnd : Nat → Bool) (fm : FmCodec) (ch : Ch) (ks : List Nat) (L : List (List Rat × Rat))
    (hne : L ≠ []) (hL : ∀ x ∈ L, Captures ks x.1 x.2) :
    ∃ m t, make debug rnd fm none none (revolutions ch L) = .ok m ∧ m.bitstream = some t ∧
      Track.ofBytes debug rnd (DiskTrack.packed (Spec.cellsOf ks)) (some (Spec.cellsOf ks).length) false = .ok t ∧
      t.data.bits.bits = Spec.cellsOf ks ∧ m.revs.length = L.length ∧ m.best < L.length := by
  obtain ⟨l, h1, h2, h3⟩ := decodeAll_measured debug rnd fm ch ks L hL
  have hs : synthesize (revolutions ch L) = revolutions ch L := by
    unfold synthesize; rw [revolutions_pairs ch ks L hL, List.append_nil]
  have hpos : 0 < L.length := List.length_pos_iff.2 hne
  have hb : best (l.map fun x => score x.2) < l.length := by
    rcases C75_best (l.map fun x => score x.2) with ⟨h, _⟩ | ⟨s, h, _⟩
    · rw [h]; omega
    · obtain ⟨h, _⟩ := List.getElem?_eq_some_iff.1 h
      rw [List.length_map] at h
      exact h
  obtain ⟨g1, g2, g3⟩ := h3 _ (List.getElem_mem hb)
  refine ⟨⟨l, best (l.map fun x => score x.2)⟩, (l[best (l.map fun x => score x.2)]).2, ?_, ?_, ?_, ?_, h2, by rw [← h2]; exact hb⟩
  · unfold make
    rw [hs, h1]
  · unfold Made.bitstream
    simp only
    rw [List.getElem?_eq_getElem hb]
    rfl
  · unfold Rev.track at g3
    rw [g2, g1] at g3
    exact g3
  · obtain ⟨t, t1, t2, _⟩ := track_cells debug rnd fm _ g2
    rw [t1] at g3
    cases g3
    rw [t2, g1]
    rfl

/-- **C76, measured flux.** A track captured in any number of revolutions, in each of which every interval was measured
to within 3.5 % of a cell, holds exactly its cells, whichever revolution is chosen. -/
theorem C76_measured (debug : Bool) (rnd : Nat → Bool) (fm : FmCodec) (ch : Ch) (ks : List Nat) (L : List (List Rat × Rat))
    (hne : L ≠ []) (hL : ∀ x ∈ L, Captures ks x.1 x.2) :
    ∃ m t, make debug rnd fm none none (revolutions ch L) = .ok m ∧ m.bitstream = some t ∧
      t.data.bits.bits = Spec.cellsOf ks := by
  obtain ⟨m, t, h1, h2, _, h3, _⟩ := made_measured debug rnd fm ch ks L hne hL
  exact ⟨m, t, h1, h2, h3⟩

end Fox
