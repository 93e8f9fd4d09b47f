import Verif.Props.PllRun
import Verif.Props.Pll
/-
C69, more of it: what the statistics and the classifications of a decoding say, whatever was decoded.
-/
namespace Fox
open Fox.Spec Fox.Pll

/-- The statistics after a row of FM fluxes that took `ks` ticks. -/
def countAllFm (first : Bool) (s : FluxStats) : List (Nat × Rat) → FluxStats
  | [] => s
  | (k, d) :: r => countAllFm false (countFm (FluxStats.extremes s first d) k d) r

theorem flux_transitions (o : Output) (k : Nat) : (o.flux k).transitions = o.transitions := by
  have h : ∀ (l : List Bool) (o : Output), (l.foldl Output.push o).transitions = o.transitions := by
    intro l
    induction l with
    | nil => intro o; rfl
    | cons b l ih => intro o; rw [List.foldl_cons, ih]; rfl
  cases k with
  | zero => rfl
  | succ k => rw [Output.flux]; exact h _ o

theorem mfm_transitions (en : Bool) (o : Output) (k : Nat) (d t : Rat) (b : Bool) :
    (o.mfm en k d t b).transitions = o.transitions ++ if en then classMfm k else [] := by
  have hite : ∀ (c : Prop) [Decidable c] (a b : Output), a.transitions = b.transitions → (if c then a else b).transitions = b.transitions := by
    intro c _ a b h
    split
    · exact h
    · rfl
  unfold Output.mfm
  simp only
  rw [hite]
  · rw [flux_transitions]; cases en <;> simp
  · rfl

theorem fm_stats (o : Output) (k : Nat) (d t : Rat) (b : Bool) :
    (o.fm k d t b).stats = countFm (FluxStats.extremes o.stats b d) k d := by
  unfold Output.fm
  simp only
  split <;> exact (flux_rest _ _).1

/-- The cells of a flux of `k` ticks. -/
def ticked (k : Nat) : List Bool := if k = 0 then [] else List.replicate (k - 1) false ++ [true]

theorem flux_ticked (o : Output) (k : Nat) : (o.flux k).bits = o.bits ++ ticked k := by
  unfold ticked
  split
  · next h => subst h; rw [List.append_nil]; rfl
  · rw [flux_cells _ _ (by omega)]

theorem mfmLoop_ticks {en : Bool} {lo hi : Rat} : ∀ (ds : List Rat) (b : Bool) (c : MfmClock) (o : Output) (c' o'),
    mfmLoop en lo hi b c o ds = some (c', o') → ∃ l : List (Nat × Rat), l.map Prod.snd = ds ∧ o'.stats = countAll b o.stats l ∧
      o'.bits = o.bits ++ l.flatMap (fun x => ticked x.1) ∧
      o'.transitions = o.transitions ++ l.flatMap fun x => if en then classMfm x.1 else [] := by
  intro ds
  induction ds with
  | nil => intro b c o c' o' h; cases h; exact ⟨[], rfl, rfl, by simp, by simp⟩
  | cons d ds ih =>
    intro b c o c' o' h
    rw [mfmLoop] at h
    cases hs : c.step lo hi d with
    | none => rw [hs] at h; cases h
    | some r =>
      rw [hs] at h
      obtain ⟨l, h1, h2, h3, h4⟩ := ih _ _ _ _ _ h
      refine ⟨(r.1, d) :: l, by rw [List.map_cons, h1], ?_, ?_, ?_⟩
      · rw [h2, mfm_stats]; rfl
      · rw [h3, mfm_bits, flux_ticked, List.flatMap_cons, List.append_assoc]
      · rw [h4, mfm_transitions, List.flatMap_cons, List.append_assoc]

theorem fmLoop_ticks {g lo hi : Rat} : ∀ (ds : List Rat) (b : Bool) (c : FmClock) (o : Output) (c' o'),
    fmLoop g lo hi b c o ds = some (c', o') → ∃ l : List (Nat × Rat), l.map Prod.snd = ds ∧ o'.stats = countAllFm b o.stats l ∧
      o'.bits = o.bits ++ l.flatMap (fun x => ticked x.1) := by
  intro ds
  induction ds with
  | nil => intro b c o c' o' h; cases h; exact ⟨[], rfl, rfl, by simp⟩
  | cons d ds ih =>
    intro b c o c' o' h
    rw [fmLoop] at h
    cases hs : c.step g lo hi d with
    | none => rw [hs] at h; cases h
    | some r =>
      rw [hs] at h
      obtain ⟨l, h1, h2, h3⟩ := ih _ _ _ _ _ h
      refine ⟨(r.1, d) :: l, by rw [List.map_cons, h1], ?_, ?_⟩
      · rw [h2, fm_stats]; rfl
      · rw [h3, fm_bits, flux_ticked, List.flatMap_cons, List.append_assoc]

theorem decode_ticks_mfm {P P' : Pll} {en : Bool} {ds : List Rat} {o : Output} (h : P.decode .mfm en ds = some (P', o)) :
    ∃ l : List (Nat × Rat), l.map Prod.snd = ds ∧ o.stats = countAll true { total := ds.length } l ∧
      o.bits = l.flatMap (fun x => ticked x.1) ∧ o.transitions = l.flatMap fun x => if en then classMfm x.1 else [] := by
  have h : P.decodeMfm en ds = some (P', o) := h
  unfold decodeMfm at h
  cases hl : mfmLoop en (P.working - P.working * P.maxAdjust) (P.working + P.working * P.maxAdjust) true
    { time := P.period / 2, last := 0, working := P.period, phaseErr := 0, phaseAdj := 0, gate := 0 }
    { stats := { total := ds.length } } ds with
  | none => simp only [hl] at h; cases h
  | some r =>
    simp only [hl] at h
    cases h
    obtain ⟨l, h1, h2, h3, h4⟩ := mfmLoop_ticks _ _ _ _ _ _ hl
    exact ⟨l, h1, h2, h3, h4⟩

theorem decode_ticks_fm {P P' : Pll} {en : Bool} {ds : List Rat} {o : Output} (h : P.decode .fm en ds = some (P', o)) :
    ∃ l : List (Nat × Rat), l.map Prod.snd = ds ∧ o.stats = countAllFm true { total := ds.length } l ∧
      o.bits = l.flatMap (fun x => ticked x.1) := by
  have h : P.decodeFm ds = some (P', o) := h
  unfold decodeFm at h
  cases hl : fmLoop P.phaseGain (P.period * 2 - P.period * 2 * P.maxAdjust) (P.period * 2 + P.period * 2 * P.maxAdjust) true
    { time := -(P.period * 2) / 2, last := 0, working := P.period * 2, acc := 0 }
    { stats := { total := ds.length } } ds with
  | none => simp only [hl] at h; cases h
  | some r =>
    simp only [hl] at h
    cases h
    obtain ⟨l, h1, h2, h3⟩ := fmLoop_ticks _ _ _ _ _ _ hl
    exact ⟨l, h1, h2, h3⟩

/-- **C69, the account of FM.** Every flux of an FM decoding is counted under exactly one heading, and the headings account for every
bit: one for each short flux, two for each long one, three and the overrun for each that is too long; and for every set bit.  None
is counted as medium. -/
theorem C69_account_fm (P P' : Pll) (en : Bool) (ds : List Rat) (o : Output) (h : P.decode .fm en ds = some (P', o)) :
    o.stats.total = ds.length ∧ o.stats.medium = 0 ∧
    o.stats.total = o.stats.tooShort + o.stats.short + o.stats.long + o.stats.tooLong ∧
    ones o.bits = o.stats.short + o.stats.long + o.stats.tooLong ∧
    o.bits.length = o.stats.short + 2 * o.stats.long + (3 * o.stats.tooLong + o.stats.tooSlowBits) := by
  obtain ⟨l, h1, h2, h3⟩ := decode_ticks_fm h
  have key : ∀ (l : List (Nat × Rat)) (b : Bool) (s : FluxStats),
      (countAllFm b s l).total = s.total ∧ (countAllFm b s l).medium = s.medium ∧
      (countAllFm b s l).tooShort + (countAllFm b s l).short + (countAllFm b s l).long + (countAllFm b s l).tooLong =
        s.tooShort + s.short + s.long + s.tooLong + l.length ∧
      (countAllFm b s l).short + (countAllFm b s l).long + (countAllFm b s l).tooLong =
        s.short + s.long + s.tooLong + ones (l.flatMap fun x => ticked x.1) ∧
      (countAllFm b s l).short + 2 * (countAllFm b s l).long + (3 * (countAllFm b s l).tooLong + (countAllFm b s l).tooSlowBits) =
        s.short + 2 * s.long + (3 * s.tooLong + s.tooSlowBits) + (l.flatMap fun x => ticked x.1).length := by
    intro l
    induction l with
    | nil => intro b s; simp [countAllFm, ones]
    | cons x l ih =>
      intro b s
      obtain ⟨k, d⟩ := x
      obtain ⟨a1, a2, a3, a4, a5⟩ := ih false (countFm (FluxStats.extremes s b d) k d)
      rw [countAllFm, a1, a2, a3, a4, a5, List.flatMap_cons, ones_append, List.length_append, List.length_cons]
      have ht : ones (ticked k) = (if k = 0 then 0 else 1) ∧ (ticked k).length = k := by
        have := ones_flux k {}
        rw [flux_ticked] at this
        simpa [ones] using this
      rw [ht.1, ht.2]
      unfold countFm FluxStats.extremes
      rcases (show k = 0 ∨ k = 1 ∨ k = 2 ∨ 3 ≤ k by omega) with rfl | rfl | rfl | hk
      · simp; omega
      · simp; omega
      · simp; omega
      · simp only [show ¬ k = 0 by omega, show ¬ k = 1 by omega, show ¬ k = 2 by omega, if_false]
        refine ⟨trivial, trivial, by omega, by omega, by omega⟩
  obtain ⟨a1, a2, a3, a4, a5⟩ := key l true { total := ds.length }
  rw [← h2] at a1 a2 a3 a4 a5
  rw [← h3] at a4 a5
  have : l.length = ds.length := by rw [← h1, List.length_map]
  refine ⟨a1, a2, ?_, ?_, ?_⟩ <;> simp only at a1 a3 a4 a5 ⊢ <;> omega

example : ((Pll.new).decode .fm false [4 / 1000000, 8 / 1000000, 4 / 1000000, 1 / 10000]).map
    (fun r => (r.2.stats.total, r.2.stats.short + r.2.stats.long + r.2.stats.tooLong)) = some (4, 4) := by decide +kernel

/-- The extremes that a row of times leaves. -/
def Extremes (b : Bool) (s : FluxStats) (ds : List Rat) (r : FluxStats) : Prop :=
  (b = true → ds = [] ∨ (r.shortest ∈ ds ∧ ∀ d ∈ ds, r.shortest ≤ d)) ∧
  (b = false → (r.shortest = s.shortest ∨ r.shortest ∈ ds) ∧ r.shortest ≤ s.shortest ∧ ∀ d ∈ ds, r.shortest ≤ d) ∧
  (r.longest = s.longest ∨ r.longest ∈ ds) ∧ s.longest ≤ r.longest ∧ ∀ d ∈ ds, d ≤ r.longest

theorem extremes_cons (b : Bool) (s s' r : FluxStats) (d : Rat) (ds : List Rat)
    (hs : s'.shortest = (Pll.FluxStats.extremes s b d).shortest) (hl : s'.longest = (Pll.FluxStats.extremes s b d).longest) (h : Extremes false s' ds r) :
    Extremes b s (d :: ds) r := by
  obtain ⟨_, h1, h2, h3, h4⟩ := h
  obtain ⟨h1, h5, h6⟩ := h1 rfl
  unfold FluxStats.extremes at hs hl
  simp only at hs hl
  have hlong : s.longest ≤ s'.longest ∧ d ≤ s'.longest ∧ (s'.longest = s.longest ∨ s'.longest = d) := by
    rw [hl]
    split
    · next h => exact ⟨le_of_lt h, le_refl _, Or.inr rfl⟩
    · next h => exact ⟨le_refl _, not_lt.1 h, Or.inl rfl⟩
  refine ⟨fun hb => Or.inr ?_, fun hb => ?_, ?_, le_trans hlong.1 h3, fun x hx => ?_⟩
  · rw [hb, if_pos rfl] at hs
    rw [hs] at h1 h5
    refine ⟨?_, fun x hx => ?_⟩
    · rcases h1 with h1 | h1
      · rw [h1]; exact .head _
      · exact .tail _ h1
    · rcases List.mem_cons.1 hx with rfl | hx
      · exact h5
      · exact h6 x hx
  · rw [hb, if_neg (by decide)] at hs
    have hsh : s'.shortest ≤ s.shortest ∧ s'.shortest ≤ d ∧ (s'.shortest = s.shortest ∨ s'.shortest = d) := by
      rw [hs]
      split
      · next h => exact ⟨le_of_lt h, le_refl _, Or.inr rfl⟩
      · next h => exact ⟨le_refl _, not_lt.1 h, Or.inl rfl⟩
    refine ⟨?_, le_trans h5 hsh.1, fun x hx => ?_⟩
    · rcases h1 with h1 | h1
      · rcases hsh.2.2 with e | e
        · left; rw [h1, e]
        · right; rw [h1, e]; exact .head _
      · right; exact .tail _ h1
    · rcases List.mem_cons.1 hx with rfl | hx
      · exact le_trans h5 hsh.2.1
      · exact h6 x hx
  · rcases h2 with h2 | h2
    · rcases hlong.2.2 with e | e
      · left; rw [h2, e]
      · right; rw [h2, e]; exact .head _
    · right; exact .tail _ h2
  · rcases List.mem_cons.1 hx with rfl | hx
    · exact le_trans hlong.2.1 h3
    · exact h4 x hx

theorem extremes_nil (b : Bool) (s : FluxStats) : Extremes b s [] s :=
  ⟨fun _ => Or.inl rfl, fun _ => ⟨Or.inl rfl, le_refl _, fun d h => by cases h⟩, Or.inl rfl, le_refl _, fun d h => by cases h⟩

theorem count_extremes (s : FluxStats) (k : Nat) (d : Rat) : (countMfm s k d).shortest = s.shortest ∧ (countMfm s k d).longest = s.longest ∧
    (countFm s k d).shortest = s.shortest ∧ (countFm s k d).longest = s.longest := by
  unfold countMfm countFm
  refine ⟨?_, ?_, ?_, ?_⟩ <;> (repeat' split) <;> rfl

theorem countAll_extremes : ∀ (l : List (Nat × Rat)) (b : Bool) (s : FluxStats),
    Extremes b s (l.map Prod.snd) (countAll b s l) ∧ Extremes b s (l.map Prod.snd) (countAllFm b s l) := by
  intro l
  induction l with
  | nil => intro b s; exact ⟨extremes_nil b s, extremes_nil b s⟩
  | cons x l ih =>
    intro b s
    obtain ⟨k, d⟩ := x
    have hc := count_extremes (FluxStats.extremes s b d) k d
    exact ⟨extremes_cons b s _ _ d _ hc.1 hc.2.1 (ih false _).1, extremes_cons b s _ _ d _ hc.2.2.1 hc.2.2.2 (ih false _).2⟩

/-- **C69, the extremes.** The shortest and the longest time reported are the least and the greatest of the times decoded (the
longest is 0 if none is greater). -/
theorem C69_extremes (P P' : Pll) (enc : FluxEncoding) (en : Bool) (ds : List Rat) (o : Output)
    (h : P.decode enc en ds = some (P', o)) (hne : ds ≠ []) :
    (o.stats.shortest ∈ ds ∧ ∀ d ∈ ds, o.stats.shortest ≤ d) ∧
    ((o.stats.longest = 0 ∨ o.stats.longest ∈ ds) ∧ 0 ≤ o.stats.longest ∧ ∀ d ∈ ds, d ≤ o.stats.longest) := by
  have key : Extremes true { total := ds.length } ds o.stats := by
    cases enc with
    | mfm =>
      obtain ⟨l, h1, h2, _⟩ := decode_ticks_mfm h
      rw [h2]
      have := (countAll_extremes l true { total := ds.length }).1
      rwa [h1] at this
    | fm =>
      obtain ⟨l, h1, h2, _⟩ := decode_ticks_fm h
      rw [h2]
      have := (countAll_extremes l true { total := ds.length }).2
      rwa [h1] at this
  obtain ⟨h1, _, h2⟩ := key
  exact ⟨(h1 rfl).resolve_left hne, h2⟩

/-- The times of the fluxes counted as short. -/
theorem countAll_short : ∀ (l : List (Nat × Rat)) (b : Bool) (s : FluxStats) (a z : Rat),
    (∀ x ∈ l, a ≤ x.2 ∧ x.2 ≤ z) →
    ((a * s.short ≤ s.shortTime ∧ s.shortTime ≤ z * s.short) →
      (a * (countAll b s l).short ≤ (countAll b s l).shortTime ∧ (countAll b s l).shortTime ≤ z * (countAll b s l).short) ∧
      (a * (countAllFm b s l).short ≤ (countAllFm b s l).shortTime ∧ (countAllFm b s l).shortTime ≤ z * (countAllFm b s l).short)) := by
  have key : ∀ (a z d n t : Rat), a ≤ d → d ≤ z → a * n ≤ t → t ≤ z * n → a * (n + 1) ≤ t + d ∧ t + d ≤ z * (n + 1) := by
    intro a z d n t h1 h2 h3 h4
    constructor <;> linarith
  intro l b s a z hl hs
  have stepM : ∀ (s : FluxStats) (b : Bool) (x : Nat × Rat), a ≤ x.2 ∧ x.2 ≤ z → (a * s.short ≤ s.shortTime ∧ s.shortTime ≤ z * s.short) →
      (a * (countMfm (FluxStats.extremes s b x.2) x.1 x.2).short ≤ (countMfm (FluxStats.extremes s b x.2) x.1 x.2).shortTime ∧
        (countMfm (FluxStats.extremes s b x.2) x.1 x.2).shortTime ≤ z * (countMfm (FluxStats.extremes s b x.2) x.1 x.2).short) := by
    intro s b x hx hs
    have e : (FluxStats.extremes s b x.2).short = s.short ∧ (FluxStats.extremes s b x.2).shortTime = s.shortTime := ⟨rfl, rfl⟩
    generalize FluxStats.extremes s b x.2 = s' at e
    rw [← e.1, ← e.2] at hs
    unfold countMfm
    repeat' split
    all_goals try exact hs
    simp only [Nat.cast_add, Nat.cast_one]
    exact key _ _ _ _ _ hx.1 hx.2 hs.1 hs.2
  have stepF : ∀ (s : FluxStats) (b : Bool) (x : Nat × Rat), a ≤ x.2 ∧ x.2 ≤ z → (a * s.short ≤ s.shortTime ∧ s.shortTime ≤ z * s.short) →
      (a * (countFm (FluxStats.extremes s b x.2) x.1 x.2).short ≤ (countFm (FluxStats.extremes s b x.2) x.1 x.2).shortTime ∧
        (countFm (FluxStats.extremes s b x.2) x.1 x.2).shortTime ≤ z * (countFm (FluxStats.extremes s b x.2) x.1 x.2).short) := by
    intro s b x hx hs
    have e : (FluxStats.extremes s b x.2).short = s.short ∧ (FluxStats.extremes s b x.2).shortTime = s.shortTime := ⟨rfl, rfl⟩
    generalize FluxStats.extremes s b x.2 = s' at e
    rw [← e.1, ← e.2] at hs
    unfold countFm
    repeat' split
    all_goals try exact hs
    simp only [Nat.cast_add, Nat.cast_one]
    exact key _ _ _ _ _ hx.1 hx.2 hs.1 hs.2
  constructor
  · induction l generalizing b s with
    | nil => exact hs
    | cons x l ih =>
      exact ih false _ (fun y hy => hl y (.tail _ hy)) (stepM s b x (hl x (.head _)) hs)
  · induction l generalizing b s with
    | nil => exact hs
    | cons x l ih =>
      exact ih false _ (fun y hy => hl y (.tail _ hy)) (stepF s b x (hl x (.head _)) hs)

/-- **C69, the average.** The average of the short fluxes lies between the shortest and the longest time. -/
theorem C69_average (P P' : Pll) (enc : FluxEncoding) (en : Bool) (ds : List Rat) (o : Output)
    (h : P.decode enc en ds = some (P', o)) (hs : 0 < o.stats.short) (a z : Rat) (hd : ∀ d ∈ ds, a ≤ d ∧ d ≤ z) :
    a ≤ o.stats.shortAvg ∧ o.stats.shortAvg ≤ z := by
  have key : a * o.stats.short ≤ o.stats.shortTime ∧ o.stats.shortTime ≤ z * o.stats.short := by
    have h0 : a * (0 : Nat) ≤ (0 : Rat) ∧ (0 : Rat) ≤ z * (0 : Nat) := by constructor <;> simp
    cases enc with
    | mfm =>
      obtain ⟨l, h1, h2, _⟩ := decode_ticks_mfm h
      rw [h2]
      exact (countAll_short l true { total := ds.length } a z (fun x hx => hd _ (by rw [← h1]; exact List.mem_map_of_mem hx)) h0).1
    | fm =>
      obtain ⟨l, h1, h2, _⟩ := decode_ticks_fm h
      rw [h2]
      exact (countAll_short l true { total := ds.length } a z (fun x hx => hd _ (by rw [← h1]; exact List.mem_map_of_mem hx)) h0).2
  have hp : (0 : Rat) < o.stats.short := by exact_mod_cast hs
  unfold FluxStats.shortAvg
  rw [if_neg (by omega)]
  exact ⟨(le_div_iff₀ hp).2 key.1, (div_le_iff₀ hp).2 key.2⟩

/-- **C69, the classifications.** If they are asked for, there is one for every flux that is not too long, of each kind as many as are
counted; else there are none. -/
theorem C69_classes (P P' : Pll) (ds : List Rat) (o : Output) (h : P.decode .mfm true ds = some (P', o)) :
    o.transitions.count .tooShort = o.stats.tooShort ∧ o.transitions.count .short = o.stats.short ∧
    o.transitions.count .medium = o.stats.medium ∧ o.transitions.count .long = o.stats.long ∧ o.transitions.count .tooLong = 0 := by
  obtain ⟨l, _, h2, _, h4⟩ := decode_ticks_mfm h
  have key : ∀ (l : List (Nat × Rat)) (b : Bool) (s : FluxStats),
      (countAll b s l).tooShort = s.tooShort + (l.flatMap fun x => classMfm x.1).count .tooShort ∧
      (countAll b s l).short = s.short + (l.flatMap fun x => classMfm x.1).count .short ∧
      (countAll b s l).medium = s.medium + (l.flatMap fun x => classMfm x.1).count .medium ∧
      (countAll b s l).long = s.long + (l.flatMap fun x => classMfm x.1).count .long ∧
      (l.flatMap fun x => classMfm x.1).count .tooLong = 0 := by
    intro l
    induction l with
    | nil => intro b s; simp [countAll]
    | cons x l ih =>
      intro b s
      obtain ⟨k, d⟩ := x
      obtain ⟨a1, a2, a3, a4, a5⟩ := ih false (countMfm (FluxStats.extremes s b d) k d)
      rw [countAll, a1, a2, a3, a4, List.flatMap_cons]
      simp only [List.count_append, a5]
      unfold countMfm classMfm FluxStats.extremes
      repeat' split
      all_goals simp
      all_goals omega
  obtain ⟨a1, a2, a3, a4, a5⟩ := key l true { total := ds.length }
  rw [← h2] at a1 a2 a3 a4
  simp only [if_true] at h4
  rw [h4]
  exact ⟨by simpa using a1.symm, by simpa using a2.symm, by simpa using a3.symm, by simpa using a4.symm, a5⟩

theorem C69_no_classes (P P' : Pll) (ds : List Rat) (o : Output) (h : P.decode .mfm false ds = some (P', o)) : o.transitions = [] := by
  obtain ⟨l, _, _, _, h4⟩ := decode_ticks_mfm h
  rw [h4]
  simp

/-- **C69, the classifications.** If no flux is too short or too long, the bits of the classifications are those decoded; only a set bit
comes at the beginning of the bits of a classification, and at the end of those of a flux. -/
theorem C69_class_bits (P P' : Pll) (ds : List Rat) (o : Output) (h : P.decode .mfm true ds = some (P', o))
    (h1 : o.stats.tooShort = 0) (h2 : o.stats.tooLong = 0) :
    o.transitions.flatMap FluxTransition.toBits ++ [true] = true :: o.bits := by
  obtain ⟨l, a1, a2, a3, a4⟩ := decode_ticks_mfm h
  have key : ∀ (l : List (Nat × Rat)) (b : Bool) (s : FluxStats),
      s.tooShort ≤ (countAll b s l).tooShort ∧ s.tooLong ≤ (countAll b s l).tooLong ∧
      ((countAll b s l).tooShort = 0 → (countAll b s l).tooLong = 0 → ∀ x ∈ l, 2 ≤ x.1 ∧ x.1 ≤ 4) := by
    intro l
    induction l with
    | nil => intro b s; exact ⟨le_refl _, le_refl _, fun _ _ x hx => by cases hx⟩
    | cons x l ih =>
      intro b s
      obtain ⟨k, d⟩ := x
      obtain ⟨b1, b2, b3⟩ := ih false (countMfm (FluxStats.extremes s b d) k d)
      rw [countAll]
      have hc : s.tooShort ≤ (countMfm (FluxStats.extremes s b d) k d).tooShort ∧
          s.tooLong ≤ (countMfm (FluxStats.extremes s b d) k d).tooLong ∧
          ((countMfm (FluxStats.extremes s b d) k d).tooShort = 0 → (countMfm (FluxStats.extremes s b d) k d).tooLong = 0 → 2 ≤ k ∧ k ≤ 4) := by
        unfold countMfm FluxStats.extremes
        repeat' split
        all_goals simp
        all_goals omega
      refine ⟨le_trans hc.1 b1, le_trans hc.2.1 b2, fun e1 e2 x hx => ?_⟩
      rcases List.mem_cons.1 hx with rfl | hx
      · exact hc.2.2 (by omega) (by omega)
      · exact b3 e1 e2 x hx
  rw [a2] at h1 h2
  have hl := (key l true _).2.2 h1 h2
  rw [a3, a4]
  simp only [if_true]
  clear a1 a2 a3 a4 h1 h2 h key
  induction l with
  | nil => rfl
  | cons x l ih =>
    have hx := hl x (.head _)
    have ih := ih fun y hy => hl y (.tail _ hy)
    rw [List.flatMap_cons, List.flatMap_cons, List.flatMap_append, List.append_assoc, ih]
    rcases (show x.1 = 2 ∨ x.1 = 3 ∨ x.1 = 4 by omega) with e | e | e <;> rw [e] <;> rfl

/-- **C69, times without a clock.** A time within half a microsecond of two, three or four cells of 2 us is classified so, any other as
too long. -/
theorem C69_classify (d : Rat) :
    (∀ k : Nat, 2 ≤ k → k ≤ 4 → Near (5 / 10000000) d (k * (2 / 1000000)) → (classify d).toBits = true :: List.replicate (k - 1) false) ∧
    ((∀ k : Nat, 2 ≤ k → k ≤ 4 → ¬ Near (5 / 10000000) d (k * (2 / 1000000))) → classify d = .tooLong) := by
  have ha : ∀ x : Rat, x.abs ≤ 5 / 10000000 ↔ -(5 / 10000000) ≤ x ∧ x ≤ 5 / 10000000 := by
    intro x
    unfold Rat.abs
    split
    · exact ⟨fun h => ⟨by linarith, h⟩, fun h => h.2⟩
    · next h0 => exact ⟨fun h => ⟨by linarith, by linarith⟩, fun h => by linarith⟩
  unfold classify Near
  simp only [ha]
  refine ⟨fun k h2 h4 hn => ?_, fun hn => ?_⟩
  · rcases (show k = 2 ∨ k = 3 ∨ k = 4 by omega) with rfl | rfl | rfl
    all_goals
      norm_num at hn
      obtain ⟨n1, n2⟩ := hn
    · rw [if_pos ⟨by linarith, by linarith⟩]; rfl
    · rw [if_neg (by rintro ⟨_, _⟩; linarith), if_pos ⟨by linarith, by linarith⟩]; rfl
    · rw [if_neg (by rintro ⟨_, _⟩; linarith), if_neg (by rintro ⟨_, _⟩; linarith), if_pos ⟨by linarith, by linarith⟩]; rfl
  · have n2 := hn 2 (by omega) (by omega)
    have n3 := hn 3 (by omega) (by omega)
    have n4 := hn 4 (by omega) (by omega)
    norm_num at n2 n3 n4
    rw [if_neg, if_neg, if_neg]
    · rintro ⟨a, b⟩; have := n4 (by linarith); linarith
    · rintro ⟨a, b⟩; have := n3 (by linarith); linarith
    · rintro ⟨a, b⟩; have := n2 (by linarith); linarith

theorem ticks_unique : ∀ (l : List (Nat × Rat)) (ks : List Nat), (∀ x ∈ l, 1 ≤ x.1) → (∀ k ∈ ks, 1 ≤ k) →
    (l.flatMap fun x => ticked x.1) = cellsOf ks → l.map Prod.fst = ks := by
  have key : ∀ (a b : Nat) (r s : List Bool), List.replicate a false ++ true :: r = List.replicate b false ++ true :: s → a = b ∧ r = s := by
    intro a
    induction a with
    | zero =>
      intro b r s h
      cases b with
      | zero => cases h; exact ⟨rfl, rfl⟩
      | succ b => cases h
    | succ a ih =>
      intro b r s h
      cases b with
      | zero => cases h
      | succ b =>
        rw [List.replicate_succ, List.replicate_succ, List.cons_append, List.cons_append] at h
        have := ih b r s (List.cons.inj h).2
        exact ⟨by omega, this.2⟩
  intro l
  induction l with
  | nil =>
    intro ks _ hk h
    cases ks with
    | nil => rfl
    | cons k ks => simp [cellsOf] at h
  | cons x l ih =>
    intro ks hl hk h
    have hx := hl x (.head _)
    have e : ticked x.1 = List.replicate (x.1 - 1) false ++ [true] := if_neg (by omega)
    cases ks with
    | nil => rw [List.flatMap_cons, e] at h; simp [cellsOf] at h
    | cons k ks =>
      have hk1 := hk k (.head _)
      rw [List.flatMap_cons, e, List.append_assoc, List.singleton_append] at h
      have h2 : cellsOf (k :: ks) = List.replicate (k - 1) false ++ true :: cellsOf ks := by simp [cellsOf]
      rw [h2] at h
      obtain ⟨e1, e2⟩ := key _ _ _ _ h
      rw [List.map_cons, ih ks (fun y hy => hl y (.tail _ hy)) (fun y hy => hk y (.tail _ hy)) e2]
      congr 1
      omega

/-- **C69, the density.** From what C67 decodes, if there is a short flux in it, double density is told for cells of 1.6 to 2.4 us, and
high density for cells of 0.6 to 1.4 us. -/
theorem C69_density (rate : Rat) (P : Pll) (hP : Pll.new.setClock rate none = some P) (q : Rat) (hq : 0 < q)
    (hs : Near (35 / 1000 * q) (1 / rate) q) (ks : List Nat) (hk : ∀ k ∈ ks, 2 ≤ k ∧ k ≤ 4) (h2 : 2 ∈ ks) (ds : List Rat)
    (hd : Measured q (35 / 1000 * q) ks ds) (en : Bool) :
    ∃ P' o, P.decode .mfm en ds = some (P', o) ∧ o.bits = cellsOf ks ∧
      (16 / 10000000 ≤ q ∧ q ≤ 24 / 10000000 → o.stats.detectDensity false = some .double) ∧
      (6 / 10000000 ≤ q ∧ q ≤ 14 / 10000000 → o.stats.detectDensity false = some .high) := by
  obtain ⟨P', o, e1, e2, e3⟩ := C67_tolerant rate P hP q hq hs ks hk ds hd en
  refine ⟨P', o, e1, e2, ?_⟩
  obtain ⟨l, a1, a2, a3, a4⟩ := decode_ticks_mfm e1
  clear a4
  obtain ⟨m, rfl, rfl, hm⟩ := measured_zip hd
  have hge : ∀ x ∈ l, 1 ≤ x.1 := by
    have key : ∀ (l : List (Nat × Rat)) (b : Bool) (s : FluxStats), s.tooShort ≤ (countAll b s l).tooShort ∧
        ((countAll b s l).tooShort = 0 → ∀ x ∈ l, 1 ≤ x.1) := by
      intro l
      induction l with
      | nil => intro b s; exact ⟨le_refl _, fun _ x hx => by cases hx⟩
      | cons x l ih =>
        intro b s
        obtain ⟨k, d⟩ := x
        obtain ⟨b1, b3⟩ := ih false (countMfm (FluxStats.extremes s b d) k d)
        rw [countAll]
        have hc : s.tooShort ≤ (countMfm (FluxStats.extremes s b d) k d).tooShort ∧
            ((countMfm (FluxStats.extremes s b d) k d).tooShort = 0 → 1 ≤ k) := by
          unfold countMfm FluxStats.extremes
          repeat' split
          all_goals simp
          all_goals omega
        refine ⟨le_trans hc.1 b1, fun e1 x hx => ?_⟩
        rcases List.mem_cons.1 hx with rfl | hx
        · exact hc.2 (by omega)
        · exact b3 e1 x hx
    exact (key l true _).2 (by rw [← a2]; exact e3.none.1)
  have hfst := ticks_unique l _ hge (fun k hk' => by have := hk k hk'; omega) (by rw [← a3]; exact e2)
  have hlm : l = m := by
    clear a2 a3 e1 e2 e3 hge hm hd h2 hk
    induction l generalizing m with
    | nil => cases m with
      | nil => rfl
      | cons y m => cases hfst
    | cons x l ih => cases m with
      | nil => cases hfst
      | cons y m =>
        simp only [List.map_cons, List.cons.injEq] at hfst a1
        rw [ih m a1.2 hfst.2, Prod.ext hfst.1 a1.1]
  subst hlm
  have short : ∀ (l : List (Nat × Rat)) (b : Bool) (s : FluxStats), (∀ x ∈ l, x.1 = 2 → (2 * q - 35 / 1000 * q ≤ x.2 ∧ x.2 ≤ 2 * q + 35 / 1000 * q)) →
      ((2 * q - 35 / 1000 * q) * s.short ≤ s.shortTime ∧ s.shortTime ≤ (2 * q + 35 / 1000 * q) * s.short) →
      ((2 * q - 35 / 1000 * q) * (countAll b s l).short ≤ (countAll b s l).shortTime ∧
        (countAll b s l).shortTime ≤ (2 * q + 35 / 1000 * q) * (countAll b s l).short) := by
    intro l
    induction l with
    | nil => intro b s _ h; exact h
    | cons x l ih =>
      intro b s hl hs
      obtain ⟨k, d⟩ := x
      refine ih false _ (fun y hy => hl y (.tail _ hy)) ?_
      have e : (FluxStats.extremes s b d).short = s.short ∧ (FluxStats.extremes s b d).shortTime = s.shortTime := ⟨rfl, rfl⟩
      generalize FluxStats.extremes s b d = s' at e
      rw [← e.1, ← e.2] at hs
      have hx := hl (k, d) (.head _)
      simp only at hx
      unfold countMfm
      split
      · exact hs
      · split
        · next hk2 =>
          have hx := hx hk2
          simp only [Nat.cast_add, Nat.cast_one]
          constructor
          · have := hs.1; linarith
          · have := hs.2; linarith
        · split
          · exact hs
          · split <;> exact hs
  have hb := short l true { total := (l.map Prod.snd).length } (fun x hx h => by
    have := hm x hx
    rw [h] at this
    obtain ⟨t1, t2⟩ := this
    exact ⟨by linarith, by linarith⟩) (by constructor <;> simp)
  rw [← a2] at hb
  have hpos : 0 < o.stats.short := by
    rw [e3.short]
    unfold times
    exact List.length_pos_of_mem (List.mem_filter.2 ⟨h2, by simp⟩)
  have hp : (0 : Rat) < o.stats.short := by exact_mod_cast hpos
  have hlo : 2 * q - 35 / 1000 * q ≤ o.stats.shortAvg := by
    unfold FluxStats.shortAvg
    rw [if_neg (by omega)]
    exact (le_div_iff₀ hp).2 hb.1
  have hhi : o.stats.shortAvg ≤ 2 * q + 35 / 1000 * q := by
    unfold FluxStats.shortAvg
    rw [if_neg (by omega)]
    exact (div_le_iff₀ hp).2 hb.2
  unfold FluxStats.detectDensity
  simp only [Bool.false_eq_true, if_false]
  constructor
  · rintro ⟨q1, q2⟩
    rw [if_neg (by rintro ⟨_, _⟩; linarith), if_pos ⟨by linarith, by linarith⟩]
  · rintro ⟨q1, q2⟩
    rw [if_pos ⟨by linarith, by linarith⟩]

/-- Of a double density track, for example. -/
example : ∃ P P' o, Pll.new.setClock 500000 none = some P ∧ P.decode .mfm false (perfect (2 / 1000000) [2, 3, 4, 2]) = some (P', o) ∧
    o.stats.detectDensity false = some .double := by
  obtain ⟨P', o, h1, _, h2, _⟩ := C69_density 500000 _ rfl (2 / 1000000) (by norm_num) (by constructor <;> norm_num) [2, 3, 4, 2]
    (by decide) (by decide) (perfect (2 / 1000000) [2, 3, 4, 2])
    (.cons (by constructor <;> norm_num) (.cons (by constructor <;> norm_num) (.cons (by constructor <;> norm_num)
      (.cons (by constructor <;> norm_num) .nil)))) false
  exact ⟨_, P', o, rfl, h1, h2 (by constructor <;> norm_num)⟩

/-! ## Marks of FM -/

/-- An FM address mark at bit `n`: the clock bits of a byte are `C7` (11000111), and those of the three bytes before it are all set. -/
def FmMark (bits : List Bool) (n : Nat) : Prop :=
  48 ≤ n ∧ n + 16 ≤ bits.length ∧ (∀ j, j < 24 → bits.getD (n - 48 + 2 * j) false = true) ∧
    ∀ j, j < 8 → bits.getD (n + 2 * j) false = [true, true, false, false, false, true, true, true].getD j false

theorem reg_fm {o : Output} (h : RegOk o) (he : o.reg &&& 0xAAAAAAAAAAAAAAAA#64 = 0xAAAAAAAAAAAAA02A#64) :
    16 ≤ o.bits.length ∧ FmMark o.bits (o.bits.length - 16) := by
  have hb : ∀ i, i < 64 → i % 2 = 1 → o.reg.getLsbD i = Nat.testBit 0xAAAAAAAAAAAAA02A i := by
    intro i hi h2
    have := congrArg (fun x => BitVec.getLsbD x i) he
    simp only [BitVec.getLsbD_and] at this
    have m : ∀ i ∈ List.range 64, i % 2 = 1 → (0xAAAAAAAAAAAAAAAA#64).getLsbD i = true ∧
        (0xAAAAAAAAAAAAA02A#64).getLsbD i = Nat.testBit 0xAAAAAAAAAAAAA02A i := by decide
    obtain ⟨m1, m2⟩ := m i (List.mem_range.2 hi) h2
    rw [m1, Bool.and_true, m2] at this
    exact this
  have hlen : 64 ≤ o.bits.length := by
    by_cases hc : 63 < o.bits.length
    · omega
    · have h1 := h 63 (by omega)
      rw [if_neg hc, hb 63 (by omega) (by omega)] at h1
      exact absurd h1 (by decide)
  have hg : ∀ i, i < 64 → i % 2 = 1 → o.bits.getD (o.bits.length - 1 - i) false = Nat.testBit 0xAAAAAAAAAAAAA02A i := by
    intro i hi h2
    have h1 := h i hi
    rw [if_pos (by omega), hb i hi h2] at h1
    exact h1.symm
  refine ⟨by omega, by omega, by omega, fun j hj => ?_, fun j hj => ?_⟩
  · have := hg (63 - 2 * j) (by omega) (by omega)
    rw [show o.bits.length - 16 - 48 + 2 * j = o.bits.length - 1 - (63 - 2 * j) by omega, this]
    have m : ∀ j ∈ List.range 24, Nat.testBit 0xAAAAAAAAAAAAA02A (63 - 2 * j) = true := by decide
    exact m j (List.mem_range.2 hj)
  · have := hg (15 - 2 * j) (by omega) (by omega)
    rw [show o.bits.length - 16 + 2 * j = o.bits.length - 1 - (15 - 2 * j) by omega, this]
    have m : ∀ j ∈ List.range 8, Nat.testBit 0xAAAAAAAAAAAAA02A (15 - 2 * j) = [true, true, false, false, false, true, true, true].getD j false := by decide
    exact m j (List.mem_range.2 hj)

theorem fmMark_append (bits r : List Bool) (n : Nat) (h : FmMark bits n) : FmMark (bits ++ r) n := by
  obtain ⟨h1, h2, h3, h4⟩ := h
  refine ⟨h1, by rw [List.length_append]; omega, fun j hj => ?_, fun j hj => ?_⟩
  · rw [Fox.getD_append_left _ _ _ _ (by omega)]; exact h3 j hj
  · rw [Fox.getD_append_left _ _ _ _ (by omega)]; exact h4 j hj

/-- **C68, FM: nothing but address marks.** Whatever the flux, every mark that FM decoding reports stands on an address mark. -/
theorem C68_fm_marks_are_there (P P' : Pll) (en : Bool) (ds : List Rat) (o : Output)
    (h : P.decode .fm en ds = some (P', o)) : ∀ m ∈ o.markers, FmMark o.bits m.2 := by
  have key : ∀ {g lo hi : Rat} (ds : List Rat) (b : Bool) (c : FmClock) (o : Output) (c' o'),
      fmLoop g lo hi b c o ds = some (c', o') → RegOk o → (∀ m ∈ o.markers, FmMark o.bits m.2) → ∀ m ∈ o'.markers, FmMark o'.bits m.2 := by
    intro g lo hi ds
    induction ds with
    | nil => intro b c o c' o' h _ ho; cases h; exact ho
    | cons d ds ih =>
      intro b c o c' o' h hr ho
      rw [fmLoop] at h
      cases hs : c.step g lo hi d with
      | none => rw [hs] at h; cases h
      | some r =>
        rw [hs] at h
        obtain ⟨k, c1⟩ := r
        have hr1 : RegOk ((Output.mk o.bits o.reg o.markers o.transitions (countFm (FluxStats.extremes o.stats b d) k d)).flux k) := hr.upd _ _ _
        have hm1 : ((Output.mk o.bits o.reg o.markers o.transitions (countFm (FluxStats.extremes o.stats b d) k d)).flux k).markers = o.markers :=
          (flux_rest _ _).2.1
        have hb1 := flux_ticked (Output.mk o.bits o.reg o.markers o.transitions (countFm (FluxStats.extremes o.stats b d) k d)) k
        refine ih false c1 (o.fm k d c1.time b) c' o' h ?_ ?_
        · unfold Output.fm
          simp only
          split
          · exact hr1
          · exact hr1
        · unfold Output.fm
          simp only
          split
          · next he =>
            intro m hm
            rw [List.mem_append, List.mem_singleton, hm1] at hm
            rcases hm with hm | rfl
            · show FmMark (Output.flux _ k).bits m.2
              rw [hb1]
              exact fmMark_append _ _ _ (ho m hm)
            · exact (reg_fm hr1 he).2
          · intro m hm
            rw [hm1] at hm
            rw [hb1]
            exact fmMark_append _ _ _ (ho m hm)
  have h : P.decodeFm ds = some (P', o) := h
  unfold decodeFm at h
  cases hl : fmLoop P.phaseGain (P.period * 2 - P.period * 2 * P.maxAdjust) (P.period * 2 + P.period * 2 * P.maxAdjust) true
    { time := -(P.period * 2) / 2, last := 0, working := P.period * 2, acc := 0 }
    { stats := { total := ds.length } } ds with
  | none => simp only [hl] at h; cases h
  | some r =>
    simp only [hl] at h
    cases h
    exact key _ _ _ _ _ _ hl (fun i hi => by simp) (fun m hm => by cases hm)

end Fox
