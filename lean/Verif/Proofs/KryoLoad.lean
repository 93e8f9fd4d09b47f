import Verif.Proofs.KryoSet
/-
Proofs about the loading of KryoFlux sets.
-/
namespace Fox
open Spec Flux KryoFile KryoSet
namespace Kryo

/-! ## Tracks are always made, with whatever hints -/

theorem baseClockOf_bounds (x : F86.Density) (r : Option Rpm) : 0 < baseClockOf x r ∧ baseClockOf x r < 1 := by
  unfold baseClockOf
  split <;> constructor <;> norm_num

theorem hints_bounds (d : Disk) (q : Desc) : ∀ c ∈ (hints d q).1, 0 < c ∧ c < 1 := by
  intro c hc
  unfold hints at hc
  split at hc
  · cases hc
  · cases hc; exact baseClockOf_bounds _ _

theorem adjust_bounds (R : Rpm) (c : Rat) (h1 : 0 < c) (h2 : c < 1) : 0 < R.adjustClock c ∧ R.adjustClock c < 1 := by
  cases R <;> simp only [Rpm.adjustClock]
  case r360 => split <;> constructor <;> linarith
  all_goals exact ⟨h1, h2⟩

theorem baseClock_bounds' (hint : Option Rat) (hh : ∀ c ∈ hint, 0 < c ∧ c < 1) (rpm : Option Rpm) (r : Rev) :
    0 < baseClock hint rpm r ∧ baseClock hint rpm r < 1 := by
  unfold baseClock guessClock
  cases hint with
  | some c => exact adjust_bounds _ _ (hh c rfl).1 (hh c rfl).2
  | none =>
    simp only
    split
    · rename_i c hc
      split at hc
      · cases hc; exact adjust_bounds _ _ (by norm_num) (by norm_num)
      · split at hc
        · cases hc; exact adjust_bounds _ _ (by norm_num) (by norm_num)
        · cases hc
    · split
      · rename_i t ht; exact Scp.base_bounds ht
      · constructor <;> norm_num

theorem decode_total' (hint : Option Rat) (hh : ∀ c ∈ hint, 0 < c ∧ c < 1) (rpm : Option Rpm) (r : Rev) :
    ∃ r', r.decode hint rpm = some r' := by
  have hc : 0 < clockOf hint rpm r ∧ clockOf hint rpm r < 1 := by
    have hb := baseClock_bounds' hint hh rpm r
    unfold clockOf
    simp only
    split
    · rename_i t ht
      split
      · exact Scp.base_bounds ht
      · exact hb
    · exact hb
  obtain ⟨h1, h2⟩ := hc
  have hrate : 1 / clockOf hint rpm r > 1 := by rw [gt_iff_lt, lt_div_iff₀ h1]; linarith
  unfold Rev.decode
  obtain ⟨P, hP⟩ : ∃ P, Pll.new.setClock (1 / clockOf hint rpm r) none = some P := by
    unfold Pll.setClock; rw [if_pos hrate]; exact ⟨_, rfl⟩
  simp only [hP, Option.bind_eq_bind, Option.bind_some]
  have hu : Used P := Used.set _ none Used.new (fun _ h => by cases h) hP
  obtain ⟨⟨P1, o1⟩, hm⟩ := C69_always_ends P hu .mfm false r.deltas
  have hu1 : Used P1 := Used.decode hu hm
  obtain ⟨⟨P2, o2⟩, hf⟩ := C69_always_ends P1 hu1 .fm false r.deltas
  unfold Rev.decodeDirect
  simp only [hm, Option.bind_eq_bind, Option.bind_some]
  split
  · simp only [hf, Option.bind_some]
    split <;> exact ⟨_, rfl⟩
  · exact ⟨_, rfl⟩

theorem decodeAll_total' (debug : Bool) (rnd : Nat → Bool) (fm : FmCodec) (hint : Option Rat)
    (hh : ∀ c ∈ hint, 0 < c ∧ c < 1) (rpm : Option Rpm) : ∀ rs,
    (∀ r ∈ rs, ∀ r', r.decode hint rpm = some r' → r'.encoding = .fm → ∃ t, fm r'.bits = .ok t) →
    ∃ l, decodeAll debug rnd fm hint rpm rs = .ok l
  | [], _ => ⟨[], rfl⟩
  | r :: rs, hfm => by
    obtain ⟨r', h1⟩ := decode_total' hint hh rpm r
    obtain ⟨l, h3⟩ := decodeAll_total' debug rnd fm hint hh rpm rs (fun x hx => hfm x (List.mem_cons_of_mem _ hx))
    have h2 : ∃ t, r'.track debug rnd fm = .ok t := by
      cases he : r'.encoding with
      | mfm => obtain ⟨t, ht, _⟩ := track_cells debug rnd fm r' he; exact ⟨t, ht⟩
      | fm =>
        obtain ⟨t, ht⟩ := hfm r List.mem_cons_self r' h1 he
        exact ⟨t, by unfold Rev.track; rw [he]; exact ht⟩
    obtain ⟨t, h2⟩ := h2
    exact ⟨(r', t) :: l, by rw [decodeAll]; simp only [h1, h2, h3]⟩

theorem make_total' (debug : Bool) (rnd : Nat → Bool) (fm : FmCodec) (hint : Option Rat)
    (hh : ∀ c ∈ hint, 0 < c ∧ c < 1) (rpm : Option Rpm) (rs : List Rev) (hfm : Flux.FmFine fm hint rpm rs) :
    ∃ m, make debug rnd fm hint rpm rs = .ok m := by
  obtain ⟨l, h⟩ := decodeAll_total' debug rnd fm hint hh rpm (synthesize rs) hfm
  exact ⟨_, by unfold make; rw [h]⟩

/-! ## Where the tracks are -/

/-- The tracks are there in turn, `S` to a cylinder. -/
structure InTurn (S : Nat) (xs : List DiskTrack) (d : Disk) : Prop where
  pool : d.pool = xs
  map0 : d.map0 = (List.range ((xs.length + S - 1) / S)).map (S * ·)
  map1 : d.map1 = if S = 2 then (List.range (xs.length / 2)).map (2 * · + 1) else []
  chs : ∀ (i : Nat) (x : DiskTrack), xs[i]? = some x → x.ch = ⟨i / S, i % S⟩

theorem placed_new {S : Nat} (hS : S = 1 ∨ S = 2) (g : Ch) : InTurn S [] { geometry := g } := by
  refine ⟨rfl, ?_, ?_, fun i x h => by cases h⟩
  · rcases hS with rfl | rfl <;> rfl
  · rcases hS with rfl | rfl <;> rfl

theorem placed_last {S : Nat} (hS : S = 1 ∨ S = 2) {xs : List DiskTrack} {d : Disk} (h : InTurn S xs d) {k : Nat}
    (hk : xs.length = k + 1) : d.trackIdx.getLast? = some k := by
  obtain ⟨_, h0, h1, _⟩ := h
  rw [hk] at h0 h1
  unfold Disk.trackIdx
  rcases hS with rfl | rfl
  · rw [if_neg (by omega)] at h1
    rw [h0, h1]
    simp only [List.length_map, List.length_range, List.length_nil, Nat.max_zero, Nat.add_sub_cancel, Nat.div_one]
    rw [List.range_succ, List.flatMap_append, List.flatMap_singleton, List.getLast?_append]
    simp
  · rw [if_pos rfl] at h1
    have hm : max d.map0.length d.map1.length = k / 2 + 1 := by
      rw [h0, h1, List.length_map, List.length_range, List.length_map, List.length_range]; omega
    rw [hm, List.range_succ, List.flatMap_append, List.flatMap_singleton, List.getLast?_append]
    have e0 : d.map0[k / 2]? = some (2 * (k / 2)) := by
      rw [h0, List.getElem?_map, List.getElem?_range (by omega)]; rfl
    rw [e0]
    by_cases hp : k % 2 = 1
    · have e1 : d.map1[k / 2]? = some k := by
        rw [h1, List.getElem?_map, List.getElem?_range (by omega)]
        simp only [Option.map_some]
        congr 1; omega
      rw [e1]; simp
    · have e1 : d.map1[k / 2]? = none := by
        apply List.getElem?_eq_none
        rw [h1, List.length_map, List.length_range]; omega
      rw [e1]
      simp
      omega

theorem nextCh_placed {S C : Nat} (hS : S = 1 ∨ S = 2) {xs : List DiskTrack} {d : Disk} (h : InTurn S xs d)
    (hg : d.geometry = ⟨C, S⟩) (hn : xs.length < C * S) : nextCh d = ⟨xs.length / S, xs.length % S⟩ := by
  unfold nextCh
  cases hk : xs.length with
  | zero =>
    have hx := List.length_eq_zero_iff.1 hk
    subst hx
    have : d.trackIdx = [] := by
      unfold Disk.trackIdx
      rw [h.map0, h.map1]
      rcases hS with rfl | rfl <;> rfl
    rw [this, Nat.zero_div, Nat.zero_mod]
    rfl
  | succ k =>
    rw [placed_last hS h hk, h.pool]
    have hlt : k < xs.length := by omega
    simp only [List.getElem?_eq_getElem hlt, Option.elim_some]
    rw [h.chs k _ (List.getElem?_eq_getElem hlt), hg]
    unfold Ch.seekNextTrack Ch.nextTrack
    simp only
    rcases hS with rfl | rfl
    · rw [if_neg (by omega), if_neg (by omega), if_pos (by omega)]
      show (⟨k / 1 + 1, 0⟩ : Ch) = _
      congr 1 <;> omega
    · rw [if_neg (by omega)]
      by_cases hm : k % 2 < 2 - 1
      · rw [if_pos hm]
        show (⟨k / 2, k % 2 + 1⟩ : Ch) = _
        congr 1 <;> omega
      · rw [if_neg hm, if_pos (by omega)]
        show (⟨k / 2 + 1, 0⟩ : Ch) = _
        congr 1 <;> omega

theorem placed_push {S : Nat} (hS : S = 1 ∨ S = 2) {xs : List DiskTrack} {d : Disk} (h : InTurn S xs d) (r : ResSet) (x : DiskTrack)
    (hx : x.ch = ⟨xs.length / S, xs.length % S⟩) :
    InTurn S (xs ++ [x]) ({ d with res := r }.pushTrack (xs.length % S) x) := by
  have hchs : ∀ (i : Nat) (y : DiskTrack), (xs ++ [x])[i]? = some y → y.ch = ⟨i / S, i % S⟩ := by
    intro i y hy
    rcases Nat.lt_trichotomy i xs.length with hi | hi | hi
    · rw [List.getElem?_append_left hi] at hy; exact h.chs i y hy
    · subst hi
      rw [List.getElem?_append_right (Nat.le_refl _), Nat.sub_self] at hy
      cases hy; exact hx
    · rw [List.getElem?_eq_none (by simp; omega)] at hy; cases hy
  obtain ⟨h1, h2, h3, _⟩ := h
  rcases hS with rfl | rfl
  · refine ⟨?_, ?_, ?_, hchs⟩
    · show ({ d with res := r }.pushTrack (xs.length % 1) x).pool = _
      rw [Nat.mod_one]
      show d.pool ++ [x] = _
      rw [h1]
    · rw [Nat.mod_one]
      show d.map0 ++ [d.pool.length] = _
      rw [h1, h2, List.length_append]
      simp only [Nat.add_sub_cancel, Nat.div_one, List.length_singleton]
      rw [List.range_succ, List.map_append]
      simp
    · rw [Nat.mod_one]
      show d.map1 = _
      rw [h3]
      rfl
  · rcases (by omega : xs.length % 2 = 0 ∨ xs.length % 2 = 1) with e | e
    · rw [e]
      refine ⟨?_, ?_, ?_, hchs⟩
      · show d.pool ++ [x] = _
        rw [h1]
      · show d.map0 ++ [d.pool.length] = _
        rw [h1, h2, List.length_append, List.length_singleton,
          show (xs.length + 1 + 2 - 1) / 2 = (xs.length + 2 - 1) / 2 + 1 by omega, List.range_succ, List.map_append]
        congr 1
        show [_] = [_]
        congr 1
        show xs.length = 2 * ((xs.length + 2 - 1) / 2)
        omega
      · show d.map1 = _
        rw [h3, List.length_append, List.length_singleton, show (xs.length + 1) / 2 = xs.length / 2 by omega]
    · rw [e]
      refine ⟨?_, ?_, ?_, hchs⟩
      · show d.pool ++ [x] = _
        rw [h1]
      · show d.map0 = _
        rw [h2, List.length_append, List.length_singleton,
          show (xs.length + 1 + 2 - 1) / 2 = (xs.length + 2 - 1) / 2 by omega]
      · show d.map1 ++ [d.pool.length] = _
        rw [h1, h3, if_pos rfl, if_pos rfl, List.length_append, List.length_singleton,
          show (xs.length + 1) / 2 = xs.length / 2 + 1 by omega, List.range_succ, List.map_append]
        congr 1
        show [_] = [_]
        congr 1
        show xs.length = 2 * (xs.length / 2) + 1
        omega

theorem placed_at {S : Nat} (hS : S = 1 ∨ S = 2) {xs : List DiskTrack} {d : Disk} (h : InTurn S xs d) (c k : Nat) (hk : k < 2) :
    d.track ⟨c, k⟩ = .ok (if k < S then xs[S * c + k]? else none) := by
  unfold Disk.track
  rw [if_neg (by simpa using hk), h.pool]
  congr 1
  have none_of : ∀ (l : List DiskTrack) (i : Nat), l.length ≤ i → l[i]? = none := fun l i hi => List.getElem?_eq_none hi
  rcases hS with rfl | rfl
  · rcases (by omega : k = 0 ∨ k = 1) with rfl | rfl
    · show d.map0[c]?.bind _ = _
      rw [h.map0, List.getElem?_map, if_pos (by omega)]
      rcases Nat.lt_or_ge c xs.length with hc | hc
      · rw [List.getElem?_range (by omega)]; rfl
      · rw [List.getElem?_eq_none (by simp; omega), none_of xs _ (by omega)]; rfl
    · show d.map1[c]?.bind _ = _
      rw [h.map1]
      rfl
  · rcases (by omega : k = 0 ∨ k = 1) with rfl | rfl
    · show d.map0[c]?.bind _ = _
      rw [h.map0, List.getElem?_map, if_pos (by omega)]
      rcases Nat.lt_or_ge c ((xs.length + 2 - 1) / 2) with hc | hc
      · rw [List.getElem?_range (by omega)]; rfl
      · rw [List.getElem?_eq_none (by simp; omega), none_of xs _ (by omega)]; rfl
    · show d.map1[c]?.bind _ = _
      rw [h.map1, if_pos rfl, List.getElem?_map, if_pos (by omega)]
      rcases Nat.lt_or_ge c (xs.length / 2) with hc | hc
      · rw [List.getElem?_range (by omega)]; rfl
      · rw [List.getElem?_eq_none (by simp; omega), none_of xs _ (by omega)]; rfl

/-! ## Loading -/

theorem load_step (debug : Bool) (rnd : Nat → Bool) (fm : FmCodec) {S C : Nat} (hS : S = 1 ∨ S = 2)
    {xs : List DiskTrack} {d : Disk} (h : InTurn S xs d) (hg : d.geometry = ⟨C, S⟩) (hn : xs.length < C * S) (q : Desc)
    (f : List Byte) (L : List (List Rat × Rat)) (hL : revolutions debug f = .ok L) (m : Made)
    (hm : make debug rnd fm (hints d q).1 (hints d q).2 (Fox.revolutions ⟨xs.length / S, xs.length % S⟩ L) = .ok m) :
    ∃ d', load debug rnd fm d q f = ((d', describe q m), .ok ()) ∧
      InTurn S (xs ++ [.flux ⟨xs.length / S, xs.length % S⟩ m.bitstream]) d' ∧ d'.geometry = ⟨C, S⟩ := by
  have hch := nextCh_placed hS h hg hn
  refine ⟨({ d with res := ResSet.insert { flux := true } .fluxStream }.pushTrack (xs.length % S)
    (.flux ⟨xs.length / S, xs.length % S⟩ m.bitstream)), ?_, placed_push hS h _ _ rfl, ?_⟩
  · unfold load
    simp only
    rw [hL]
    simp only
    have hch' : nextCh { d with res := { flux := true } } = ⟨xs.length / S, xs.length % S⟩ := hch
    have hm' : make debug rnd fm (hints { d with res := { flux := true } } q).1 (hints { d with res := { flux := true } } q).2
        (L.map fun x => Rev.ofDeltas ⟨xs.length / S, xs.length % S⟩ x.1 x.2) = .ok m := hm
    rw [hch', hm']
    have hlt : ¬ xs.length % S ≥ 2 := by rcases hS with rfl | rfl <;> omega
    unfold Disk.addFlux
    rw [if_neg hlt, if_neg (by
      show ¬ (!d.multires && !(ResSet.isEmpty { flux := true }) && !(ResSet.has { flux := true } .fluxStream)) = true
      simp [ResSet.has])]
  · show (Disk.pushTrack _ _ _).geometry = _
    unfold Disk.pushTrack Disk.pushMap
    split <;> exact hg

/-- Loading streams: if each is made a track as `R` says, and `Q` is kept, all are put in their places. -/
theorem loadFiles_spec (debug : Bool) (rnd : Nat → Bool) (fm : FmCodec) {S C : Nat}
    (hS : S = 1 ∨ S = 2) (Q : Desc → Prop) (R : Nat → Option Track → Prop) (fs : List (Option (List Byte))) :
    ∀ (gs : List (Option (List Byte))) (xs : List DiskTrack) (d : Disk) (q : Desc), InTurn S xs d → d.geometry = ⟨C, S⟩ →
    Q q → xs.length + gs.length ≤ C * S → (∀ i f, gs[i]? = some f → fs[xs.length + i]? = some f) →
    (∀ i x, xs[i]? = some x → ∃ t, x = .flux ⟨i / S, i % S⟩ t ∧ R i t) →
    (∀ i g, fs[i]? = some g → ∃ f L, g = some f ∧ revolutions debug f = .ok L ∧ ∀ q (d : Disk), Q q → (d.pool = [] ↔ i = 0) →
      ∃ m, make debug rnd fm (hints d q).1 (hints d q).2 (Fox.revolutions ⟨i / S, i % S⟩ L) = .ok m ∧
      R i m.bitstream ∧ Q (describe q m)) →
    ∃ ys d', loadFiles debug rnd fm d q gs = .ok d' ∧ InTurn S ys d' ∧ ys.length = xs.length + gs.length ∧
      d'.geometry = ⟨C, S⟩ ∧ ∀ i x, ys[i]? = some x → ∃ t, x = .flux ⟨i / S, i % S⟩ t ∧ R i t
  | [], xs, d, q, h, hg, _, _, _, hR, _ => ⟨xs, d, rfl, h, rfl, hg, hR⟩
  | g :: gs, xs, d, q, h, hg, hQ, hn, hi, hR, hmk => by
    rw [List.length_cons] at hn
    obtain ⟨f, L, rfl, hL, hm⟩ := hmk xs.length g (hi 0 g rfl)
    obtain ⟨m, m1, r1, r2⟩ := hm q d hQ (by rw [h.pool]; exact List.length_eq_zero_iff.symm)
    obtain ⟨d', m2, m3, m4⟩ := load_step debug rnd fm hS h hg (by omega) q f L hL m m1
    obtain ⟨ys, d'', e1, e2, e3, e4, e5⟩ := loadFiles_spec debug rnd fm hS Q R fs gs _ d' _ m3 m4 r2
      (by rw [List.length_append, List.length_singleton]; omega)
      (by intro i f hf
          rw [List.length_append, List.length_singleton, Nat.add_assoc, Nat.add_comm 1 i]
          exact hi (i + 1) f hf)
      (by intro i x hx
          rcases Nat.lt_trichotomy i xs.length with hlt | rfl | hgt
          · rw [List.getElem?_append_left hlt] at hx; exact hR i x hx
          · rw [List.getElem?_append_right (Nat.le_refl _), Nat.sub_self] at hx
            cases hx; exact ⟨_, rfl, r1⟩
          · rw [List.getElem?_eq_none (by simp; omega)] at hx; cases hx)
      hmk
    refine ⟨ys, d'', ?_, e2, ?_, e4, e5⟩
    · rw [loadFiles, m2]; exact e1
    · rw [e3, List.length_append, List.length_singleton, List.length_cons]; omega

end Kryo
end Fox
