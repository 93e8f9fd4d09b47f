import Verif.Props.FluxHinted
import Verif.Props.Td0
import Verif.Proofs.KryoTimes
/-
Properties C82 to C86: KryoFlux streams and sets of them.
-/
namespace Fox
open Fox.Spec Fox.Pll Fox.Flux KryoFile KryoSet

/-! ## C82: revolutions -/

/-- **C82 (partial).** Of a stream without overflows and three-byte flux times exactly the described revolutions are read: for
each two successive index pulses the flux times between their stream positions, by the sample clock that was last told; the
time of each is what the index counters tell, by the usual index clock.  Missing: overflows and three-byte flux times, and
the index clock that the stream tells. -/
theorem C82_revolutions_partial (debug : Bool) (is : List Item) (rest : List Byte) (h : KryoFile.Good is) (hp : Plain is) :
    Kryo.revolutions debug (file is rest) = .ok (turns (fluxes 0 0 usualSck is) usualIck (pulses is)) :=
  Kryo.revolutions_file debug is rest h hp

theorem turns_flux (F : List (Nat × Rat)) (a b : Rat) : ∀ P, (turns F a P).map Prod.fst = (turns F b P).map Prod.fst
  | [] => rfl
  | [_] => rfl
  | x :: y :: l => by rw [turns, turns, List.map_cons, List.map_cons, turns_flux F a b (y :: l)]

/-- **C82 (partial).** So the flux times are those described. -/
theorem C82_flux_partial (debug : Bool) (is : List Item) (rest : List Byte) (h : KryoFile.Good is) (hp : Plain is) :
    ∃ L, Kryo.revolutions debug (file is rest) = .ok L ∧ L.map Prod.fst = (KryoFile.revolutions is).map Prod.fst :=
  ⟨_, C82_revolutions_partial debug is rest h hp, turns_flux _ _ _ _⟩

/-- **C82, flux times.** Whatever items a stream has, if it is read at all, the flux times of its revolutions one after another are a
stretch of the stream's flux times: none is lost between revolutions, doubled or changed, each being the ticks of its item and
65536 for each overflow before it, by the sample clock last told.  (Where the stretches begin and end can be wrong.) -/
theorem C82_times (debug : Bool) (is : List Item) (rest : List Byte) (hg : ∀ i ∈ is, i.Good)
    (ho : (is.countP fun i => match i with | .overflow => true | _ => false) < 65536) {L : List (List Rat × Rat)}
    (h : Kryo.revolutions debug (file is rest) = .ok L) :
    (L.map Prod.fst).flatten <:+: (fluxes 0 0 usualSck is).map Prod.snd :=
  Kryo.revolutions_times debug is rest hg ho h

/-- A decimal for the examples. -/
def someClock : Decimal := ⟨[2, 4, 0, 0, 0, 0, 0, 0], [0]⟩
def otherClock : Decimal := ⟨[3, 0, 0, 0, 0, 0, 0], [5]⟩

/-- A small stream that tells its clocks. -/
def clockItems : List Item :=
  [.note [110#8], .clocks [] someClock otherClock [], .flux1 100, .index 1 0 1000, .flux2 300, .nop1, .flux1 90, .streamInfo 5 1, .index 5 0 1501000, .flux1 80,
    .index 6 7 3001000, .streamEnd 6 0]

theorem clockItems_good : KryoFile.Good clockItems := by
  refine ⟨?_, by decide, by decide, by decide⟩
  intro i hi
  have hs : someClock.Good ∧ otherClock.Good := by unfold Decimal.Good someClock otherClock; decide
  simp only [clockItems, List.mem_cons, List.not_mem_nil, or_false] at hi
  rcases hi with rfl | rfl | rfl | rfl | rfl | rfl | rfl | rfl | rfl | rfl | rfl | rfl
  · exact ⟨by intro b hb; obtain rfl := List.mem_singleton.1 hb; decide, by decide⟩
  · exact ⟨(by intro b hb; cases hb), (by intro b hb; cases hb), hs.1, hs.2, by decide, (by intro b hb; cases hb)⟩
  all_goals (unfold Item.Good; first | trivial | decide)

theorem clockItems_plain : Plain clockItems := by
  intro i hi
  simp only [clockItems, List.mem_cons, List.not_mem_nil, or_false] at hi
  rcases hi with rfl | rfl | rfl | rfl | rfl | rfl | rfl | rfl | rfl | rfl | rfl | rfl <;> trivial

example (debug : Bool) (rest : List Byte) : Kryo.revolutions debug (file clockItems rest) = .ok
    [([300 / 24000000, 90 / 24000000], 1500000 / usualIck), ([80 / 24000000], 1500000 / usualIck)] := by
  rw [C82_revolutions_partial debug _ rest clockItems_good clockItems_plain]
  decide +kernel

/-- **C82 is false of the index clock**: the clock that a stream tells does not enter into the time of a revolution. -/
theorem C82_false_index_clock : ∃ is, KryoFile.Good is ∧ Plain is ∧
    ∀ debug rest, Kryo.revolutions debug (file is rest) ≠ .ok (KryoFile.revolutions is) := by
  refine ⟨clockItems, clockItems_good, clockItems_plain, fun debug rest h => ?_⟩
  rw [C82_revolutions_partial debug _ rest clockItems_good clockItems_plain] at h
  injection h with h
  revert h
  decide +kernel

/-- Streams with a three-byte flux time and with an overflow. -/
def longItems : List Item := [.flux1 100, .flux3 5000, .index 4 0 1000, .flux1 90, .flux1 80, .flux1 70, .flux1 60, .index 8 0 2000, .flux1 50]
def overflowItems : List Item := [.flux1 100, .overflow, .flux1 20, .index 3 0 1000, .flux1 90, .flux1 80, .flux1 70, .index 6 0 2000, .flux1 50]

theorem longItems_good : KryoFile.Good longItems := by
  refine ⟨?_, by decide, by decide, by decide⟩
  intro i hi
  simp only [longItems, List.mem_cons, List.not_mem_nil, or_false] at hi
  rcases hi with rfl | rfl | rfl | rfl | rfl | rfl | rfl | rfl | rfl <;> (unfold Item.Good; first | trivial | decide)

theorem overflowItems_good : KryoFile.Good overflowItems := by
  refine ⟨?_, by decide, by decide, by decide⟩
  intro i hi
  simp only [overflowItems, List.mem_cons, List.not_mem_nil, or_false] at hi
  rcases hi with rfl | rfl | rfl | rfl | rfl | rfl | rfl | rfl | rfl <;> (unfold Item.Good; first | trivial | decide)

/-- **C82 is false after a three-byte flux time**: the position in the stream is lost, and the revolutions are cut too late. -/
theorem C82_false_long : KryoFile.Good longItems ∧ ∀ debug,
    (Kryo.revolutions debug (file longItems [])).toOption ≠ some (KryoFile.revolutions longItems) := by
  refine ⟨longItems_good, fun debug => ?_⟩
  cases debug <;> decide +kernel

/-- **C82 is false after an overflow**, likewise. -/
theorem C82_false_overflow : KryoFile.Good overflowItems ∧ ∀ debug,
    (Kryo.revolutions debug (file overflowItems [])).toOption ≠ some (KryoFile.revolutions overflowItems) := by
  refine ⟨overflowItems_good, fun debug => ?_⟩
  cases debug <;> decide +kernel

/-- `C82_times` says something of streams with overflows. -/
example : ((Kryo.revolutions true (file [.flux1 100, .index 1 0 1000, .overflow, .overflow, .flux1 20, .flux1 30, .index 3 0 2000, .flux1 40,
    .flux1 50] [])).toOption.map fun L => L.map Prod.fst) = some [[(131072 + 20) / usualSck, 30 / usualSck]] := by decide +kernel

/-! ## C83: cells -/

/-- The revolutions of a stream, with their times by the usual index clock. -/
def seenTurns (is : List Item) : List (List Rat × Rat) := turns (fluxes 0 0 usualSck is) usualIck (pulses is)

theorem seenTurns_ne {is : List Item} (h : KryoFile.Good is) : seenTurns is ≠ [] := by
  unfold seenTurns
  have := h.two
  match hp : pulses is with
  | [] => rw [hp] at this; simp at this
  | [_] => rw [hp] at this; simp at this
  | x :: y :: l => intro e; cases e

/-- **C83.** If every revolution of a stream (without overflows and three-byte flux times) is a capture of a track with the
intervals `ks`, measured to within 3.5 % of a cell, then loading the stream gives one track, at cylinder 0 and head 0, with
exactly the cells that were on the disk. -/
theorem C83_cells (debug : Bool) (rnd : Nat → Bool) (fm : FmCodec) (is : List Item) (rest : List Byte) (h : KryoFile.Good is)
    (hp : Plain is) (ks : List Nat) (hk : ∀ x ∈ seenTurns is, Captures ks x.1 x.2) :
    ∃ d q, Kryo.load debug rnd fm {} {} (file is rest) = ((d, q), .ok ()) ∧ fluxCells d ⟨0, 0⟩ = some (Spec.cellsOf ks) ∧
      ∀ ch, ch ≠ ⟨0, 0⟩ → fluxCells d ch = none := by
  obtain ⟨m, t, m1, m2, m3⟩ := C76_measured debug rnd fm ⟨0, 0⟩ ks _ (seenTurns_ne h) hk
  have hm : make debug rnd fm none none ((seenTurns is).map fun x => Rev.ofDeltas ⟨0, 0⟩ x.1 x.2) = .ok m := m1
  refine ⟨{ res := { flux := true }, pool := [.flux ⟨0, 0⟩ (some t)], map0 := [0] }, Kryo.describe {} m, ?_, ?_, ?_⟩
  · unfold Kryo.load
    simp only
    rw [C82_revolutions_partial debug is rest h hp]
    simp only
    have e : Kryo.nextCh ({ res := { flux := true } } : Disk) = ⟨0, 0⟩ := rfl
    have e2 : Kryo.hints ({ res := { flux := true } } : Disk) {} = (none, none) := rfl
    rw [e, e2]
    simp only
    rw [show turns (fluxes 0 0 usualSck is) usualIck (pulses is) = seenTurns is from rfl, hm]
    simp only
    rw [m2]
    rfl
  · show some t.data.bits.bits = _
    rw [m3]
  · intro ch hch
    unfold fluxCells Disk.track
    by_cases h2 : ch.h ≥ 2
    · rw [if_pos h2]
    · rw [if_neg h2]
      have hn : (Disk.headMap ({ res := { flux := true }, pool := [.flux ⟨0, 0⟩ (some t)], map0 := [0] } : Disk) ch.h)[ch.c]? = none := by
        unfold Disk.headMap
        split
        · apply List.getElem?_eq_none
          show 1 ≤ ch.c
          rcases Nat.eq_zero_or_pos ch.c with h0 | h0
          · exfalso; apply hch; rcases ch with ⟨c, k⟩; simp_all
          · exact h0
        · rfl
      rw [hn]
      rfl

/-- **C83, with the clock and speed of the tracks before.** The same for a track on a double density disk at 300 rpm when the
disk has tracks already, whether or not sectors were found on them. -/
theorem C83_later (debug : Bool) (rnd : Nat → Bool) (fm : FmCodec) (ch : Ch) (ks : List Nat) (L : List (List Rat × Rat))
    (hne : L ≠ []) (hL : ∀ x ∈ L, DoubleDensity ks x.1 x.2) (d : Disk) (q : Kryo.Desc) (hq : DdDesc q) :
    ∃ m, make debug rnd fm (Kryo.hints d q).1 (Kryo.hints d q).2 (Fox.revolutions ch L) = .ok m ∧
    (∃ t, m.bitstream = some t ∧ t.data.bits.bits = Spec.cellsOf ks) ∧ DdDesc (Kryo.describe q m) := by
  obtain ⟨m, r, t, g0, g1, g2, g3, g4, x, hx, g5, g6⟩ := make_dd debug rnd fm ch ks L hne hL _ _ (hints_dd hq d)
  exact ⟨m, g0, ⟨t, g2, g3⟩, describe_dd hq g1 g4 (hL x hx) g5 g6⟩

/-! ## C84: the files of a set -/

/-- **C84.** From the name of any one of its streams the set is found: all names of streams with cylinders below the first one, of
those from 80 on, that has no stream for side 0; by cylinder, side 0 before side 1, in lower case.  The geometry is the number
of cylinders and of sides that have a stream. -/
theorem C84_expand (names : List (List Byte)) (s : List Byte) (ch : Ch) (hc : ch.c < 100) (hh : ch.h < 10) (stop : Nat)
    (h80 : 80 ≤ stop) (h100 : stop < 100) (hstop : ¬ Has names s ⟨stop, 0⟩) (hgo : ∀ c, 80 ≤ c → c < stop → Has names s ⟨c, 0⟩) :
    Kryo.expand (nameOf s ch) names =
      (((grid stop).filter fun ch => Has names s ch).map fun ch => nameOf (low s) ch,
       ⟨(cylinders names s stop).length, (sides names s stop).length⟩) :=
  Kryo.expand_spec names s ch hc hh stop h80 h100 hstop hgo

/-- **C84 (partial).** In a directory with names in lower case all these names are there.  Missing: other names. -/
theorem C84_exist_partial (names : List (List Byte)) (s : List Byte) (ch : Ch) (hc : ch.c < 100) (hh : ch.h < 10) (stop : Nat)
    (h80 : 80 ≤ stop) (h100 : stop < 100) (hstop : ¬ Has names s ⟨stop, 0⟩) (hgo : ∀ c, 80 ≤ c → c < stop → Has names s ⟨c, 0⟩)
    (hlow : ∀ f ∈ names, low f = f) : ∀ n ∈ (Kryo.expand (nameOf s ch) names).1, n ∈ names := by
  rw [C84_expand names s ch hc hh stop h80 h100 hstop hgo]
  intro n hn
  obtain ⟨x, hx, rfl⟩ := List.mem_map.1 hn
  obtain ⟨f, hf, e⟩ := of_decide_eq_true (List.mem_filter.1 hx).2
  rw [← e, hlow f hf]
  exact hf

/-- A directory with one stream, `T00.0.raw`. -/
def upperName : List Byte := [84#8, 48#8, 48#8, 46#8, 48#8, 46#8, 114#8, 97#8, 119#8]

/-- **C84 is false of names with capitals**: the name that is found does not exist, and the set is not loaded, whatever is in the
file. -/
theorem C84_false_case (debug : Bool) (rnd : Nat → Bool) (fm : FmCodec) (data : List Byte) :
    Kryo.loadDir debug rnd fm [(upperName, data)] upperName = .error .io := by
  have hn : ∀ ch : Ch, ch.c < 100 → ch.h < 2 → (Has [upperName] [84#8] ch ↔ ch = ⟨0, 0⟩) := by
    intro ch hc hh
    have : ∀ c ∈ List.range 100, ∀ h ∈ List.range 2, (Has [upperName] [84#8] ⟨c, h⟩ ↔ (⟨c, h⟩ : Ch) = ⟨0, 0⟩) := by decide +kernel
    exact this ch.c (List.mem_range.2 hc) ch.h (List.mem_range.2 hh)
  have e := C84_expand [upperName] [84#8] ⟨0, 0⟩ (by decide) (by decide) 80 (by omega) (by omega)
    (by rw [hn ⟨80, 0⟩ (by decide) (by decide)]; decide) (fun c h1 h2 => by omega)
  have e1 : ((grid 80).filter fun ch => Has [upperName] [84#8] ch).map (fun ch => nameOf (low [84#8]) ch) = [low upperName] := by
    decide +kernel
  unfold Kryo.loadDir
  simp only
  rw [show [(upperName, data)].map Prod.fst = [upperName] from rfl, show upperName = nameOf [84#8] ⟨0, 0⟩ from by decide]
  rw [show nameOf [84#8] ⟨0, 0⟩ = upperName from by decide] at *
  rw [show Kryo.expand upperName [upperName] = _ from e, e1]
  rfl

/-! ## C85: sets -/

theorem grid_filter {names : List (List Byte)} {s : List Byte} {C S : Nat} (hS : S = 1 ∨ S = 2) (h : Complete names s C S) :
    ∀ n, n ≤ 100 → (grid n).filter (fun ch => Has names s ch) = (List.range (min n C * S)).map fun i => (⟨i / S, i % S⟩ : Ch)
  | 0, _ => by rw [Nat.zero_min, Nat.zero_mul]; rfl
  | n + 1, hn => by
    have ih := grid_filter hS h n (by omega)
    have e : grid (n + 1) = grid n ++ [⟨n, 0⟩, ⟨n, 1⟩] := by
      unfold grid
      rw [List.range_succ, List.flatMap_append, List.flatMap_singleton]
    have h0 := h n 0 (by omega) (by omega)
    have h1 := h n 1 (by omega) (by omega)
    rw [e, List.filter_append, ih]
    rcases Nat.lt_or_ge n C with hc | hc
    · rw [Nat.min_eq_left (by omega), Nat.min_eq_left (by omega)]
      rcases hS with rfl | rfl
      · have g0 : Has names s ⟨n, 0⟩ := h0.2 ⟨hc, by omega⟩
        have g1 : ¬ Has names s ⟨n, 1⟩ := fun g => by have := (h1.1 g).2; omega
        rw [List.filter_cons_of_pos (by simpa using g0), List.filter_cons_of_neg (by simpa using g1), List.filter_nil,
          Nat.mul_one, Nat.mul_one, List.range_succ, List.map_append]
        congr 1
        show [_] = [_]
        congr 2 <;> omega
      · have g0 : Has names s ⟨n, 0⟩ := h0.2 ⟨hc, by omega⟩
        have g1 : Has names s ⟨n, 1⟩ := h1.2 ⟨hc, by omega⟩
        rw [List.filter_cons_of_pos (by simpa using g0), List.filter_cons_of_pos (by simpa using g1), List.filter_nil,
          show (n + 1) * 2 = n * 2 + 1 + 1 by omega, List.range_succ, List.range_succ, List.map_append, List.map_append, List.append_assoc]
        congr 1
        show [(⟨n, 0⟩ : Ch), ⟨n, 1⟩] = [⟨n * 2 / 2, n * 2 % 2⟩, ⟨(n * 2 + 1) / 2, (n * 2 + 1) % 2⟩]
        have a1 : (n * 2) / 2 = n := by omega
        have a2 : (n * 2) % 2 = 0 := by omega
        have a3 : (n * 2 + 1) / 2 = n := by omega
        have a4 : (n * 2 + 1) % 2 = 1 := by omega
        rw [a1, a2, a3, a4]
    · have g0 : ¬ Has names s ⟨n, 0⟩ := fun g => by have := (h0.1 g).1; omega
      have g1 : ¬ Has names s ⟨n, 1⟩ := fun g => by have := (h1.1 g).1; omega
      rw [Nat.min_eq_right (by omega), Nat.min_eq_right (by omega), List.filter_cons_of_neg (by simpa using g0),
        List.filter_cons_of_neg (by simpa using g1), List.filter_nil, List.append_nil]

/-- **C85.** The files and the geometry of a complete set. -/
theorem C85_files (names : List (List Byte)) (s : List Byte) (ch : Ch) (hc : ch.c < 100) (hh : ch.h < 10) {C S : Nat}
    (hS : S = 1 ∨ S = 2) (hC : 1 ≤ C ∧ C < 100) (h : Complete names s C S) :
    Kryo.expand (nameOf s ch) names =
      ((List.range (C * S)).map fun i => nameOf (low s) ⟨i / S, i % S⟩, ⟨C, S⟩) := by
  have hS0 : 0 < S := by omega
  have hmax : max 80 C < 100 := by omega
  rw [C84_expand names s ch hc hh (max 80 C) (by omega) hmax
    (fun g => by have := ((h _ 0 hmax (by omega)).1 g).1; omega)
    (fun c h1 h2 => (h c 0 (by omega) (by omega)).2 ⟨by omega, hS0⟩),
    grid_filter hS h _ (by omega), Nat.min_eq_right (by omega), List.map_map]
  have e1 : (cylinders names s (max 80 C)).length = C := by
    have : cylinders names s (max 80 C) = (List.range (max 80 C)).filter fun c => c < C := by
      unfold cylinders
      apply List.filter_congr
      intro c hc'
      have hc'' := List.mem_range.1 hc'
      rw [decide_eq_decide]
      constructor
      · rintro (g | g)
        · exact ((h c 0 (by omega) (by omega)).1 g).1
        · exact ((h c 1 (by omega) (by omega)).1 g).1
      · intro g; exact Or.inl ((h c 0 (by omega) (by omega)).2 ⟨g, hS0⟩)
    rw [this]
    have key : ∀ n, ((List.range n).filter fun c => decide (c < C)).length = min n C := by
      intro n
      induction n with
      | zero => simp
      | succ n ih =>
        rw [List.range_succ, List.filter_append, List.length_append, ih]
        by_cases g : n < C
        · rw [List.filter_cons_of_pos (by simpa using g)]; simp; omega
        · rw [List.filter_cons_of_neg (by simpa using g)]; simp; omega
    rw [key]; omega
  have e2 : (sides names s (max 80 C)).length = S := by
    have : sides names s (max 80 C) = [0, 1].filter fun k => decide (k < S) := by
      unfold sides
      apply List.filter_congr
      intro k hk
      have hk2 : k < 2 := by simp at hk; omega
      rw [Bool.eq_iff_iff, List.any_eq_true, decide_eq_true_iff]
      constructor
      · rintro ⟨c, h1, h2⟩
        have h1' := List.mem_range.1 h1
        exact ((h c k (by omega) hk2).1 (by simpa using h2)).2
      · intro g
        exact ⟨0, List.mem_range.2 (by omega), by simpa using (h 0 k (by omega) hk2).2 ⟨by omega, g⟩⟩
    rw [this]
    rcases hS with rfl | rfl <;> rfl
  rw [e1, e2]
  rfl

theorem loaded_in_turn (debug : Bool) (rnd : Nat → Bool) (fm : FmCodec)
    (dir : List (List Byte × List Byte)) (n s : List Byte) {C S : Nat} (hS : S = 1 ∨ S = 2) (P : List Ch)
    (hexp : Kryo.expand n (dir.map Prod.fst) = (P.map fun ch => nameOf (low s) ch, ⟨C, S⟩)) (hlen : P.length ≤ C * S)
    (hin : ∀ p ∈ P, ∃ x ∈ dir, x.1 = nameOf (low s) p) (streams : Ch → List Item) (ks : Ch → List Nat)
    (hgood : ∀ p ∈ P, KryoFile.Good (streams p) ∧ Plain (streams p) ∧ ∀ x ∈ seenTurns (streams p), DoubleDensity (ks p) x.1 x.2)
    (hdir : ∀ x ∈ dir, ∀ p ∈ P, x.1 = nameOf (low s) p → ∃ rest, x.2 = file (streams p) rest) :
    ∃ d, Kryo.loadDir debug rnd fm dir n = .ok d ∧ d.geometry = ⟨C, S⟩ ∧
      ∀ ch, fluxCells d ch = if ch.h < S then (P[S * ch.c + ch.h]?).map fun p => Spec.cellsOf (ks p) else none := by
  have hS0 : 0 < S := by omega
  unfold Kryo.loadDir
  simp only
  rw [hexp]
  simp only
  obtain ⟨ys, d', e1, e2, e3, e4, e5⟩ := Kryo.loadFiles_spec debug rnd fm hS DdDesc
    (fun i t => ∃ t' p, P[i]? = some p ∧ t = some t' ∧ t'.data.bits.bits = Spec.cellsOf (ks p))
    ((P.map fun ch => nameOf (low s) ch).map fun n => (dir.find? fun x => x.1 == n).map Prod.snd)
    ((P.map fun ch => nameOf (low s) ch).map fun n => (dir.find? fun x => x.1 == n).map Prod.snd)
    [] { geometry := ⟨C, S⟩ } {} (Kryo.placed_new hS _) rfl ⟨rfl, fun f e => by cases e⟩
    (by simp only [List.length_nil, List.length_map, Nat.zero_add]; exact hlen)
    (fun i f hf => by rw [List.length_nil, Nat.zero_add]; exact hf) (fun i x hx => by cases hx)
    (by
      intro i g hg
      rw [List.getElem?_map, List.getElem?_map, Option.map_map, Option.map_eq_some_iff] at hg
      obtain ⟨p, hj, hg⟩ := hg
      have hp : p ∈ P := List.mem_of_getElem? hj
      obtain ⟨y, hy, ef⟩ := hin p hp
      obtain ⟨z, hz⟩ : ∃ z, dir.find? (fun x => x.1 == nameOf (low s) p) = some z := by
        cases hq : dir.find? (fun x => x.1 == nameOf (low s) p) with
        | some z => exact ⟨z, rfl⟩
        | none => exact absurd (List.find?_eq_none.1 hq y hy) (by rw [ef]; simp)
      have hz0 := List.find?_some hz
      have hz1 : z.1 = nameOf (low s) p := eq_of_beq hz0
      obtain ⟨rest, hr⟩ := hdir z (List.mem_of_find?_eq_some hz) p hp hz1
      obtain ⟨g1, g2, g3⟩ := hgood p hp
      refine ⟨z.2, seenTurns (streams p), ?_, ?_, ?_⟩
      · rw [← hg]
        show Option.map Prod.snd (dir.find? _) = _
        rw [hz]; rfl
      · rw [hr]; exact C82_revolutions_partial debug _ rest g1 g2
      · intro q d hq _
        obtain ⟨m, hm, ⟨t, t1, t2⟩, hd⟩ := C83_later debug rnd fm _ (ks p) _ (seenTurns_ne g1) g3 d q hq
        exact ⟨m, hm, ⟨t, p, hj, t1, t2⟩, hd⟩)
  refine ⟨d', e1, e4, ?_⟩
  have hlen' : ys.length = P.length := by rw [e3]; simp
  intro ch'
  unfold fluxCells
  by_cases h2 : ch'.h < 2
  · have := Kryo.placed_at hS e2 ch'.c ch'.h h2
    rw [show (⟨ch'.c, ch'.h⟩ : Ch) = ch' from rfl] at this
    rw [this]
    by_cases hk : ch'.h < S
    · rw [if_pos hk, if_pos hk]
      cases hy : ys[S * ch'.c + ch'.h]? with
      | none =>
        rw [List.getElem?_eq_none_iff, hlen', ← List.getElem?_eq_none_iff] at hy
        rw [hy]
        rfl
      | some y =>
        obtain ⟨t, u1, t', p, u0, u2, u3⟩ := e5 _ _ hy
        rw [u0, u1, u2]
        simp only
        rw [u3]
        rfl
    · rw [if_neg hk, if_neg hk]
  · unfold Disk.track
    rw [if_pos (by omega), if_neg (by omega)]

/-- **C85 (partial).** Loading a complete set of streams with names in lower case, from the name of any one of them: the disk has
the set's geometry, at every place the cells of the track whose stream has that place's name, and no other tracks.  The tracks
are double density ones at 300 rpm, each captured in every revolution of its stream to within 3.5 % of a cell, in streams
without overflows and three-byte flux times.  Missing: incomplete sets, for which it is false. -/
theorem C85_set_partial (debug : Bool) (rnd : Nat → Bool) (fm : FmCodec)
    (dir : List (List Byte × List Byte)) (s : List Byte) (ch : Ch) (hc : ch.c < 100) (hh : ch.h < 10) {C S : Nat}
    (hS : S = 1 ∨ S = 2) (hC : 1 ≤ C ∧ C < 100) (h : Complete (dir.map Prod.fst) s C S) (hlow : ∀ x ∈ dir, low x.1 = x.1)
    (streams : Ch → List Item) (ks : Ch → List Nat)
    (hgood : ∀ ch, ch.c < C → ch.h < S → KryoFile.Good (streams ch) ∧ Plain (streams ch) ∧
      ∀ x ∈ seenTurns (streams ch), DoubleDensity (ks ch) x.1 x.2)
    (hdir : ∀ x ∈ dir, ∀ ch, ch.c < C → ch.h < S → x.1 = nameOf (low s) ch → ∃ rest, x.2 = file (streams ch) rest) :
    ∃ d, Kryo.loadDir debug rnd fm dir (nameOf s ch) = .ok d ∧ d.geometry = ⟨C, S⟩ ∧
      ∀ ch, fluxCells d ch = if ch.c < C ∧ ch.h < S then some (Spec.cellsOf (ks ch)) else none := by
  have hS0 : 0 < S := by omega
  have place : ∀ p ∈ (List.range (C * S)).map (fun i => (⟨i / S, i % S⟩ : Ch)), p.c < C ∧ p.h < S := by
    intro p hp
    obtain ⟨i, hi, rfl⟩ := List.mem_map.1 hp
    exact ⟨Nat.div_lt_of_lt_mul (by rw [Nat.mul_comm]; exact List.mem_range.1 hi), Nat.mod_lt _ hS0⟩
  obtain ⟨d, d1, d2, d3⟩ := loaded_in_turn debug rnd fm dir (nameOf s ch) s hS
    ((List.range (C * S)).map fun i => (⟨i / S, i % S⟩ : Ch))
    (by rw [C85_files _ s ch hc hh hS hC h, List.map_map]; rfl) (by simp)
    (fun p hp => by
      obtain ⟨p1, p2⟩ := place p hp
      obtain ⟨f, hf, ef⟩ := (h p.c p.h (by omega) (by omega)).2 ⟨p1, p2⟩
      obtain ⟨y, hy, rfl⟩ := List.mem_map.1 hf
      rw [hlow y hy] at ef
      exact ⟨y, hy, ef⟩)
    streams ks (fun p hp => hgood p (place p hp).1 (place p hp).2) (fun x hx p hp => hdir x hx p (place p hp).1 (place p hp).2)
  refine ⟨d, d1, d2, fun ch' => ?_⟩
  rw [d3 ch']
  by_cases hk : ch'.h < S
  · rw [if_pos hk]
    by_cases hin : ch'.c < C
    · have hlt : S * ch'.c + ch'.h < C * S := by
        have : S * (ch'.c + 1) ≤ S * C := Nat.mul_le_mul_left _ (by omega)
        rw [Nat.mul_comm C S]
        rw [Nat.mul_add, Nat.mul_one] at this
        omega
      rw [if_pos ⟨hin, hk⟩, List.getElem?_map, List.getElem?_range hlt]
      have a1 : (S * ch'.c + ch'.h) / S = ch'.c := by
        rw [Nat.mul_add_div hS0, Nat.div_eq_of_lt hk, Nat.add_zero]
      have a2 : (S * ch'.c + ch'.h) % S = ch'.h := by
        rw [Nat.mul_add_mod, Nat.mod_eq_of_lt hk]
      simp only [Option.map_some, a1, a2]
    · rw [if_neg (fun g => hin g.1)]
      have : (List.map (fun i => (⟨i / S, i % S⟩ : Ch)) (List.range (C * S)))[S * ch'.c + ch'.h]? = none := by
        apply List.getElem?_eq_none
        rw [List.length_map, List.length_range, Nat.mul_comm]
        have : S * C ≤ S * ch'.c := Nat.mul_le_mul_left _ (by omega)
        omega
      rw [this]
      rfl
  · rw [if_neg hk, if_neg (fun g => hk g.2)]

/-- The names of a set in which the stream of side 1 of cylinder 0 is missing. -/
def gapSet : List Byte := [116#8]
def gapNames : List (List Byte) := [nameOf gapSet ⟨0, 0⟩, nameOf gapSet ⟨1, 0⟩, nameOf gapSet ⟨1, 1⟩]

/-- **C85 is false of a set with a stream missing.** The stream of cylinder 1, head 0 becomes the track of cylinder 0, head 1, that of
cylinder 1, head 1 the track of cylinder 1, head 0, and there is nothing at cylinder 1, head 1, of which there is a stream. -/
theorem C85_false_gap (debug : Bool) (rnd : Nat → Bool) (fm : FmCodec)
    (streams : Ch → List Item) (ks : Ch → List Nat)
    (hgood : ∀ ch, KryoFile.Good (streams ch) ∧ Plain (streams ch) ∧ ∀ x ∈ seenTurns (streams ch), DoubleDensity (ks ch) x.1 x.2) :
    ∃ d, Kryo.loadDir debug rnd fm
        [(nameOf gapSet ⟨0, 0⟩, file (streams ⟨0, 0⟩) []), (nameOf gapSet ⟨1, 0⟩, file (streams ⟨1, 0⟩) []),
         (nameOf gapSet ⟨1, 1⟩, file (streams ⟨1, 1⟩) [])] (nameOf gapSet ⟨0, 0⟩) = .ok d ∧
      fluxCells d ⟨0, 1⟩ = some (Spec.cellsOf (ks ⟨1, 0⟩)) ∧ fluxCells d ⟨1, 0⟩ = some (Spec.cellsOf (ks ⟨1, 1⟩)) ∧
      fluxCells d ⟨1, 1⟩ = none := by
  have e := C84_expand gapNames gapSet ⟨0, 0⟩ (by decide) (by decide) 80 (by omega) (by omega) (by decide +kernel) (fun c h1 h2 => by omega)
  have e1 : (grid 80).filter (fun ch => Has gapNames gapSet ch) = [⟨0, 0⟩, ⟨1, 0⟩, ⟨1, 1⟩] := by decide +kernel
  have e2 : (cylinders gapNames gapSet 80).length = 2 := by decide +kernel
  have e3 : (sides gapNames gapSet 80).length = 2 := by decide +kernel
  rw [e1, e2, e3] at e
  have inj : ∀ a ∈ [(⟨0, 0⟩ : Ch), ⟨1, 0⟩, ⟨1, 1⟩], ∀ b ∈ [(⟨0, 0⟩ : Ch), ⟨1, 0⟩, ⟨1, 1⟩],
      nameOf gapSet a = nameOf (low gapSet) b → a = b := by decide +kernel
  have lo : low gapSet = gapSet := by decide
  obtain ⟨d, d1, d2, d3⟩ := loaded_in_turn debug rnd fm
    [(nameOf gapSet ⟨0, 0⟩, file (streams ⟨0, 0⟩) []), (nameOf gapSet ⟨1, 0⟩, file (streams ⟨1, 0⟩) []),
         (nameOf gapSet ⟨1, 1⟩, file (streams ⟨1, 1⟩) [])] (nameOf gapSet ⟨0, 0⟩) gapSet (Or.inr rfl)
    [⟨0, 0⟩, ⟨1, 0⟩, ⟨1, 1⟩] e (by decide)
    (fun p hp => by
      rw [lo]
      simp only [List.mem_cons, List.not_mem_nil, or_false] at hp
      rcases hp with rfl | rfl | rfl
      · exact ⟨_, .head _, rfl⟩
      · exact ⟨_, .tail _ (.head _), rfl⟩
      · exact ⟨_, .tail _ (.tail _ (.head _)), rfl⟩)
    streams ks (fun p _ => hgood p)
    (fun x hx p hp hn => by
      simp only [List.mem_cons, List.not_mem_nil, or_false] at hx
      rcases hx with rfl | rfl | rfl
      · obtain rfl := inj ⟨0, 0⟩ (by decide) p hp hn; exact ⟨[], rfl⟩
      · obtain rfl := inj ⟨1, 0⟩ (by decide) p hp hn; exact ⟨[], rfl⟩
      · obtain rfl := inj ⟨1, 1⟩ (by decide) p hp hn; exact ⟨[], rfl⟩)
  exact ⟨d, d1, d3 ⟨0, 1⟩, d3 ⟨1, 0⟩, d3 ⟨1, 1⟩⟩

/-- **C85 is false of a stream that cannot be read.** If the first stream is empty, the set is loaded without an error, and the disk
has no tracks, whatever is in the other stream. -/
theorem C85_false_drop (debug : Bool) (rnd : Nat → Bool) (fm : FmCodec) (data : List Byte) :
    ∃ d, Kryo.loadDir debug rnd fm [(nameOf gapSet ⟨0, 0⟩, []), (nameOf gapSet ⟨0, 1⟩, data)] (nameOf gapSet ⟨0, 0⟩) = .ok d ∧
      d.pool = [] ∧ ∀ ch, fluxCells d ch = none := by
  have e := C84_expand [nameOf gapSet ⟨0, 0⟩, nameOf gapSet ⟨0, 1⟩] gapSet ⟨0, 0⟩ (by decide) (by decide) 80 (by omega) (by omega)
    (by decide +kernel) (fun c h1 h2 => by omega)
  have e1 : (grid 80).filter (fun ch => Has [nameOf gapSet ⟨0, 0⟩, nameOf gapSet ⟨0, 1⟩] gapSet ch) = [⟨0, 0⟩, ⟨0, 1⟩] := by decide +kernel
  have e2 : (cylinders [nameOf gapSet ⟨0, 0⟩, nameOf gapSet ⟨0, 1⟩] gapSet 80).length = 1 := by decide +kernel
  have e3 : (sides [nameOf gapSet ⟨0, 0⟩, nameOf gapSet ⟨0, 1⟩] gapSet 80).length = 2 := by decide +kernel
  rw [e1, e2, e3] at e
  have lo : low gapSet = gapSet := by decide
  rw [lo] at e
  refine ⟨{ res := { flux := true }, geometry := ⟨1, 2⟩ }, ?_, ?_, ?_⟩
  rotate_left
  · rfl
  · intro ch
    unfold fluxCells Disk.track
    split
    · rename_i h
      split at h
      · cases h
      · unfold Disk.headMap at h; split at h <;> cases h
    · rfl
  · unfold Kryo.loadDir
    simp only [List.map_cons, List.map_nil]
    rw [e]
    rfl

/-! ## C86: no panics -/

theorem oob_release (r : List Byte) : Kryo.oob r ≠ .error .panic := by
  unfold Kryo.oob
  split
  all_goals (repeat' split)
  all_goals (intro h; cases h)

theorem next_release (l : List Byte) : Kryo.next l ≠ .error .panic := by
  unfold Kryo.next
  split
  · intro h; cases h
  · repeat' split
    all_goals first | exact oob_release _ | (intro h; cases h)

theorem blocksFrom_release : ∀ n l, Kryo.blocksFrom n l ≠ .error .panic
  | 0, _ => by intro h; cases h
  | n + 1, l => by
    rw [Kryo.blocksFrom]
    cases hn : Kryo.next l with
    | error e => intro h; cases h; exact next_release l hn
    | ok x =>
      obtain ⟨b, r⟩ := x
      have ih := blocksFrom_release n r
      cases hb : Kryo.blocksFrom n r with
      | error e =>
        cases b <;> simp only [hb] <;> (intro h; cases h) <;> exact ih hb
      | ok bs => cases b <;> simp only [hb] <;> (intro h; cases h)

theorem run_release (offs : List Nat) : ∀ (bs : List Kryo.Block) (s : Kryo.State), Kryo.run false offs s bs ≠ .error .panic
  | [], s => by intro h; cases h
  | b :: bs, s => by
    rw [Kryo.run]
    cases hs : (s.start offs).step false b with
    | ok s' => exact run_release offs bs s'
    | error e =>
      intro h; cases h
      revert hs
      cases b with
      | flux len n => simp [Kryo.State.step]
      | info c => cases c <;> (intro h; cases h)
      | streamEnd st => simp only [Kryo.State.step]; split <;> (intro h; cases h)
      | _ => intro h; cases h

theorem revolutions_release (f : List Byte) : Kryo.revolutions false f ≠ .error .panic := by
  unfold Kryo.revolutions
  cases hb : Kryo.blocks f with
  | error e => intro h; cases h; exact blocksFrom_release _ _ hb
  | ok bs =>
    simp only
    cases hr : Kryo.run false (Kryo.indexes none bs).1 {} bs with
    | error e => intro h; cases h; exact run_release _ _ _ hr
    | ok s =>
      simp only [Bool.false_and, Bool.false_eq_true, if_false]
      by_cases hc : (if s.cut = 0 then 2 ^ 32 - 1 else s.cut - 1) < 1 ∨ (Kryo.indexes none bs).1.length < 2
      · rw [if_pos hc]; intro h; cases h
      · rw [if_neg hc]; intro h; cases h

/-- The FM decoder copes with the revolutions of a stream that are taken for FM, whatever is known of the disk. -/
def FmFineStream (fm : FmCodec) (f : List Byte) : Prop :=
  ∀ L, Kryo.revolutions false f = .ok L → ∀ ch hint rpm, Flux.FmFine fm hint rpm (Fox.revolutions ch L)

theorem load_release (rnd : Nat → Bool) (fm : FmCodec) (d : Disk) (q : Kryo.Desc) (f : List Byte) (hfm : FmFineStream fm f) :
    (Kryo.load false rnd fm d q f).2 ≠ .error .panic := by
  unfold Kryo.load
  simp only
  cases hr : Kryo.revolutions false f with
  | error e => intro h; cases h; exact revolutions_release f hr
  | ok L =>
    simp only
    obtain ⟨m, hm⟩ := Kryo.make_total' false rnd fm _ (Kryo.hints_bounds { d with res := { flux := true } } q)
      (Kryo.hints { d with res := { flux := true } } q).2
      (L.map fun x => Rev.ofDeltas (Kryo.nextCh { d with res := { flux := true } }) x.1 x.2) (hfm L hr _ _ _)
    rw [hm]
    simp only
    have hadd : ∀ (d : Disk) ch t, (d.addFlux ch (.ok t)).2 ≠ .error .panic := by
      intro d ch t
      unfold Disk.addFlux
      split
      · intro h; cases h
      · split <;> (intro h; cases h)
    have := hadd { d with res := { flux := true } } (Kryo.nextCh { d with res := { flux := true } }) m.bitstream
    rcases hx : Disk.addFlux { d with res := { flux := true } } (Kryo.nextCh { d with res := { flux := true } }) (.ok m.bitstream) with ⟨d', r⟩
    rw [hx] at this
    cases r with
    | ok _ => intro h; cases h
    | error e => intro h; cases h; exact this rfl

/-- **C86 (partial).** With overflow unchecked, neither a stream nor a directory, whatever is in them, makes the loader panic, unless
the FM decoder panics on a revolution that is taken for FM.
Missing: builds with overflow checks (`C86_false_no_index`). -/
theorem C86_no_panic_partial (rnd : Nat → Bool) (fm : FmCodec) :
    (∀ f, FmFineStream fm f → (Kryo.load false rnd fm {} {} f).2 ≠ .error .panic) ∧
    ∀ dir : List (List Byte × List Byte), (∀ x ∈ dir, FmFineStream fm x.2) → ∀ n, Kryo.loadDir false rnd fm dir n ≠ .error .panic := by
  refine ⟨fun f hf => load_release rnd fm _ _ f hf, fun dir hdir n => ?_⟩
  have key : ∀ (fs : List (Option (List Byte))) (d : Disk) (q : Kryo.Desc), (∀ f, some f ∈ fs → FmFineStream fm f) →
      Kryo.loadFiles false rnd fm d q fs ≠ .error .panic := by
    intro fs
    induction fs with
    | nil => intro d q _ h; cases h
    | cons g fs ih =>
      intro d q hfs
      cases g with
      | none => intro h; cases h
      | some f =>
        rw [Kryo.loadFiles]
        have hl := load_release rnd fm d q f (hfs f List.mem_cons_self)
        rcases hx : Kryo.load false rnd fm d q f with ⟨⟨d', q'⟩, r⟩
        rw [hx] at hl
        cases r with
        | ok _ => exact ih d' q' (fun f hf => hfs f (List.mem_cons_of_mem _ hf))
        | error e => cases e <;> first | exact absurd rfl hl | (intro h; cases h)
  refine key _ _ _ ?_
  intro f hf
  obtain ⟨n', _, hn'⟩ := List.mem_map.1 hf
  obtain ⟨x, hx, rfl⟩ := Option.map_eq_some_iff.1 hn'
  exact hdir x (List.mem_of_find?_eq_some hx)

/-- **C86 refuted.** With overflow checked, a stream without an index pulse makes the loader panic. -/
theorem C86_false_no_index (rnd : Nat → Bool) (fm : FmCodec) : (Kryo.load true rnd fm {} {} [13#8, 13#8]).2 = .error .panic := by
  unfold Kryo.load
  simp only
  have : Kryo.revolutions true [13#8, 13#8] = .error .panic := by rfl
  rw [this]

end Fox
