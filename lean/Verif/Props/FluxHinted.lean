import Verif.Proofs.KryoLoad
/-
C73 and C76 with a hint about the clock.
-/
namespace Fox
open Fox.Spec Fox.Pll Fox.Flux KryoSet

/-- What decoding says besides the bits. -/
theorem decode_info {hint : Option Rat} {rpm : Option Rpm} {r r' : Rev} (h : r.decode hint rpm = some r') :
    r'.indexTime = r.indexTime ∧ r'.dataRate = some ((r'.bits.length : Rat) * (1 / r.indexTime) / 2) := by
  unfold Rev.decode at h
  cases hs : Pll.new.setClock (1 / clockOf hint rpm r) none with
  | none => rw [hs] at h; cases h
  | some P =>
    rw [hs] at h
    replace h : r.decodeDirect P = some r' := h
    unfold Rev.decodeDirect at h
    simp only [Option.bind_eq_bind] at h
    cases hd : P.decode .mfm false r.deltas with
    | none => rw [hd] at h; cases h
    | some x =>
      rw [hd] at h
      simp only [Option.bind_some] at h
      split at h
      · cases hf : x.1.decode .fm false r.deltas with
        | none => rw [hf] at h; cases h
        | some y =>
          rw [hf] at h
          simp only [Option.bind_some] at h
          split at h <;> (cases h; exact ⟨rfl, rfl⟩)
      · cases h; exact ⟨rfl, rfl⟩

/-- **C73 with a hint.** With a clock that is about right, a measured revolution is decoded to its cells. -/
theorem C73_hinted (ks : List Nat) (ds : List Rat) (t : Rat) (h : Captures ks ds t) (q : Rat) (hq : Usual q)
    (hd : Measured q (35 / 1000 * q) ks ds) (ch : Ch) (hint : Option Rat) (rpm : Option Rpm)
    (hb : About q (baseClock hint rpm (Rev.ofDeltas ch ds t))) :
    ∃ r, (Rev.ofDeltas ch ds t).decode hint rpm = some r ∧ r.bits = Spec.cellsOf ks ∧ r.encoding = .mfm := by
  obtain ⟨h1, h2⟩ := usual_bounds hq
  obtain ⟨m, hm, n1, n2⟩ := usual_middle hq
  have hpos : (0 : Rat) < (m : Rat) / 1000000000 / 2 := by linarith
  have hfirst : baseTransitionTime (histogram ds (2 / 100)) = some ((m : Rat) / 1000000000) := by
    obtain ⟨v, v1, v2⟩ := peak_measured h1 h2 (2 / 100) hd h.mfm (by rw [round_part]; exact h.start)
    rw [v2, hm v v1]
  have hclock : clockOf hint rpm (Rev.ofDeltas ch ds t) = (m : Rat) / 1000000000 / 2 := by
    unfold clockOf
    have e : (Rev.ofDeltas ch ds t).deltas = ds := rfl
    rw [e, hfirst]
    simp only
    rw [if_pos]
    generalize baseClock hint rpm (Rev.ofDeltas ch ds t) = b at *
    obtain ⟨a1, a2⟩ := hb
    have hb0 : 0 < b := by linarith
    generalize (m : Rat) / 1000000000 / 2 = c at *
    have u : (c - b) / b < 25 / 100 := by rw [div_lt_iff₀ hb0]; linarith
    have l : -(25 / 100) < (c - b) / b := by rw [lt_div_iff₀ hb0]; linarith
    unfold mag
    split <;> linarith
  have hr : 1 / ((m : Rat) / 1000000000 / 2) > 1 := by
    rw [gt_iff_lt, lt_div_iff₀ hpos]; linarith
  refine decode_with h.looks hint rpm _ rfl _ hclock hr ?_
  intro P hP
  exact C67_tolerant _ P hP q (by linarith) (by rw [one_div_one_div]; exact ⟨n1, n2⟩) ks h.mfm ds hd false


theorem decode_dd (ks : List Nat) (ds : List Rat) (t : Rat) (h : DoubleDensity ks ds t) (ch : Ch) (hint : Option Rat) (rpm : Option Rpm)
    (hh : hint = none ∧ rpm = none ∨ hint = some (2 / 1000000)) :
    ∃ r, (Rev.ofDeltas ch ds t).decode hint rpm = some r ∧ r.bits = Spec.cellsOf ks ∧ r.encoding = .mfm := by
  rcases hh with ⟨rfl, rfl⟩ | rfl
  · exact C73_measured ks ds t h.captures ch
  · obtain ⟨q, q1, q2, hd⟩ := h.cells
    refine C73_hinted ks ds t h.captures q (Or.inl ⟨q1, q2⟩) hd ch _ rpm ?_
    have e : baseClock (some (2 / 1000000)) rpm (Rev.ofDeltas ch ds t) = 2 / 1000000 := by
      unfold baseClock guessClock guessRpm
      simp only
      rw [if_pos (by exact h.speed)]
      rfl
    rw [e]
    constructor <;> linarith

/-- A double density track is made right, and found to be one. -/
theorem make_dd (debug : Bool) (rnd : Nat → Bool) (fm : FmCodec) (ch : Ch) (ks : List Nat) (L : List (List Rat × Rat))
    (hne : L ≠ []) (hL : ∀ x ∈ L, DoubleDensity ks x.1 x.2) (hint : Option Rat) (rpm : Option Rpm)
    (hh : hint = none ∧ rpm = none ∨ hint = some (2 / 1000000)) :
    ∃ m r t, make debug rnd fm hint rpm (revolutions ch L) = .ok m ∧ m.revs[m.best]? = some (r, t) ∧ m.bitstream = some t ∧ t.data.bits.bits = Spec.cellsOf ks ∧
      r.bits = Spec.cellsOf ks ∧ ∃ x ∈ L, r.indexTime = x.2 ∧ r.dataRate = some ((r.bits.length : Rat) * (1 / x.2) / 2) := by
  have key : ∀ L : List (List Rat × Rat), (∀ x ∈ L, DoubleDensity ks x.1 x.2) →
      ∃ l, decodeAll debug rnd fm hint rpm (revolutions ch L) = .ok l ∧ l.length = L.length ∧
        ∀ y ∈ l, y.2.data.bits.bits = Spec.cellsOf ks ∧ y.1.bits = Spec.cellsOf ks ∧
          ∃ x ∈ L, y.1.indexTime = x.2 ∧ y.1.dataRate = some ((y.1.bits.length : Rat) * (1 / x.2) / 2) := by
    intro L
    induction L with
    | nil => intro _; exact ⟨[], rfl, rfl, fun _ h => by cases h⟩
    | cons x L ih =>
      intro hL
      obtain ⟨l, h1, h2, h3⟩ := ih (fun y hy => hL y (List.mem_cons_of_mem _ hy))
      obtain ⟨r, r1, r2, r3⟩ := decode_dd ks x.1 x.2 (hL x List.mem_cons_self) ch hint rpm hh
      obtain ⟨t, t1, t2, _⟩ := track_cells debug rnd fm r r3
      refine ⟨(r, t) :: l, ?_, by simp [h2], ?_⟩
      · show decodeAll debug rnd fm hint rpm (Rev.ofDeltas ch x.1 x.2 :: revolutions ch L) = _
        rw [decodeAll]
        simp only [r1, t1, h1]
      · intro y hy
        rcases List.mem_cons.1 hy with rfl | hy
        · obtain ⟨i1, i2⟩ := decode_info r1
          exact ⟨by rw [t2, r2]; rfl, r2, x, List.mem_cons_self, i1, i2⟩
        · obtain ⟨a, b, z, hz, c⟩ := h3 y hy
          exact ⟨a, b, z, List.mem_cons_of_mem _ hz, c⟩
  obtain ⟨l, h1, h2, h3⟩ := key L hL
  have hs : synthesize (revolutions ch L) = revolutions ch L := by
    unfold synthesize; rw [revolutions_pairs ch ks L (fun x hx => (hL x hx).captures), List.append_nil]
  have hpos : 0 < L.length := List.length_pos_iff.2 hne
  have hb : best (l.map fun x => score x.2) < l.length := by
    rcases C75_best (l.map fun x => score x.2) with ⟨h, _⟩ | ⟨s, h, _⟩
    · rw [h]; omega
    · obtain ⟨h, _⟩ := List.getElem?_eq_some_iff.1 h
      rw [List.length_map] at h
      exact h
  obtain ⟨g1, g2, g3⟩ := h3 _ (List.getElem_mem hb)
  refine ⟨⟨l, best (l.map fun x => score x.2)⟩, (l[best (l.map fun x => score x.2)]).1, (l[best (l.map fun x => score x.2)]).2,
    by unfold make; rw [hs, h1], List.getElem?_eq_getElem hb, ?_, g1, g2, g3⟩
  unfold Made.bitstream
  simp only
  rw [List.getElem?_eq_getElem hb]
  rfl

/-- The descriptor of double density disks. -/
def DdDesc (q : Kryo.Desc) : Prop := q.density = .double ∧ ∀ f, q.rpm ≠ some (.r360 f)

theorem hints_dd {q : Kryo.Desc} (h : DdDesc q) (d : Disk) :
    (Kryo.hints d q).1 = none ∧ (Kryo.hints d q).2 = none ∨ (Kryo.hints d q).1 = some (2 / 1000000) := by
  unfold Kryo.hints
  split
  · exact Or.inl ⟨rfl, rfl⟩
  · right
    show some (Kryo.baseClockOf q.density q.rpm) = _
    rw [h.1]
    cases hr : q.rpm with
    | none => rfl
    | some R =>
      cases R with
      | r360 f => exact absurd hr (h.2 f)
      | _ => rfl

theorem describe_dd {q : Kryo.Desc} (h : DdDesc q) {ks : List Nat} {m : Made} {r : Rev} {t : Track}
    (hm : m.revs[m.best]? = some (r, t)) (hbits : r.bits = Spec.cellsOf ks) {x : List Rat × Rat} (hx : DoubleDensity ks x.1 x.2)
    (h1 : r.indexTime = x.2) (h2 : r.dataRate = some ((r.bits.length : Rat) * (1 / x.2) / 2)) : DdDesc (Kryo.describe q m) := by
  unfold Kryo.describe
  rw [hm]
  simp only
  split
  · exact h
  · refine ⟨?_, ?_⟩
    · show Kryo.densityOf _ = _
      obtain ⟨s1, s2⟩ := hx.speed
      obtain ⟨b1, b2⟩ := hx.rate
      have ht : 0 < x.2 := by
        by_contra hn
        have : 60 / x.2 ≤ 0 := div_nonpos_of_nonneg_of_nonpos (by norm_num) (not_lt.1 hn)
        linarith
      have e : ((r.bits.length : Rat) * (1 / x.2) / 2) = (Spec.cellsOf ks).length / (2 * x.2) := by
        rw [hbits, mul_one_div, div_div, mul_comm x.2 2]
      rw [h2, Option.getD_some, e]
      have l1 : (212000 : Rat) ≤ (Spec.cellsOf ks).length / (2 * x.2) := by rw [le_div_iff₀ (by linarith)]; linarith
      have l2 : (Spec.cellsOf ks).length / (2 * x.2) < (271000 : Rat) := by rw [div_lt_iff₀ (by linarith)]; linarith
      generalize ((Spec.cellsOf ks).length : Rat) / (2 * x.2) = z at l1 l2
      have f1 : (212000 : Int) ≤ z.floor := Rat.le_floor_iff.2 (by exact_mod_cast l1)
      have f2 : z.floor < (271000 : Int) := Rat.floor_lt_iff.2 (by exact_mod_cast l2)
      have g1 : 212000 ≤ z.floor.toNat := by omega
      have g2 : z.floor.toNat < 271000 := by omega
      unfold rateOf
      rw [if_neg (by omega), if_pos ⟨g1, g2⟩]
      rfl
    · intro f e
      cases e

end Fox
