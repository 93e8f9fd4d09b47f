import Verif.Props.Kryo
/-
A set of streams that the theorems about KryoFlux sets speak of.
-/
namespace Fox
open Fox.Spec Fox.Pll Fox.Flux KryoFile KryoSet

/-- Short and medium intervals by turns, and the ticks in which they are measured. -/
def byTurns (n : Nat) : List Nat := (List.replicate n [2, 3]).flatten
def byTicks (n : Nat) : List Item := (List.replicate n [Item.flux1 96, Item.flux1 144]).flatten
def byTimes (n : Nat) : List Rat := (List.replicate n [(96 : Rat) / usualSck, 144 / usualSck]).flatten

/-- A stream of one revolution of 200 ms. -/
def wholeTrack (n : Nat) : List Item := .index 0 0 0 :: (byTicks n ++ [.index (2 * n) 0 600686])

theorem flatten_succ {α : Type} (n : Nat) (l : List α) : (List.replicate (n + 1) l).flatten = l ++ (List.replicate n l).flatten := by
  rw [List.replicate_succ, List.flatten_cons]

theorem byTurns_length (n : Nat) : (byTurns n).length = 2 * n := by
  induction n with
  | zero => rfl
  | succ n ih => rw [byTurns, flatten_succ, List.length_append]; unfold byTurns at ih; rw [ih]; simp; omega

theorem byTurns_times (n : Nat) : times 2 (byTurns n) = n ∧ times 3 (byTurns n) = n := by
  induction n with
  | zero => exact ⟨rfl, rfl⟩
  | succ n ih =>
    have e : byTurns (n + 1) = 2 :: 3 :: byTurns n := by rw [byTurns, flatten_succ]; rfl
    rw [e]
    unfold times at ih ⊢
    simp [ih.1, ih.2]

theorem byTurns_mem (n : Nat) : ∀ k ∈ byTurns n, 2 ≤ k ∧ k ≤ 4 := by
  intro k hk
  obtain ⟨l, hl, hk⟩ := List.mem_flatten.1 hk
  obtain rfl := List.eq_of_mem_replicate hl
  simp at hk; omega

theorem byTurns_cells (n : Nat) : (Spec.cellsOf (byTurns n)).length = 5 * n := by
  induction n with
  | zero => rfl
  | succ n ih =>
    have e : byTurns (n + 1) = 2 :: 3 :: byTurns n := by rw [byTurns, flatten_succ]; rfl
    rw [e]
    unfold Spec.cellsOf at ih ⊢
    simp only [List.flatMap_cons, List.length_append, ih, List.length_replicate, List.length_singleton]
    omega

theorem byTurns_take (k : Nat) : ∀ n, k ≤ n → (byTurns n).take (2 * k) = byTurns k := by
  induction k with
  | zero => intro n _; rfl
  | succ k ih =>
    intro n hn
    obtain ⟨m, rfl⟩ : ∃ m, n = m + 1 := ⟨n - 1, by omega⟩
    have e : ∀ i, byTurns (i + 1) = 2 :: 3 :: byTurns i := fun i => by rw [byTurns, flatten_succ]; rfl
    rw [e, e, show 2 * (k + 1) = 2 * k + 1 + 1 by omega, List.take_succ_cons, List.take_succ_cons, ih m (by omega)]

theorem byTicks_fluxes (n : Nat) : ∀ p is, ∃ F, fluxes p 0 usualSck (byTicks n ++ is) = F ++ fluxes (p + 2 * n) 0 usualSck is ∧
    F.map Prod.snd = byTimes n ∧ ∀ x ∈ F, p ≤ x.1 ∧ x.1 < p + 2 * n := by
  induction n with
  | zero => intro p is; exact ⟨[], rfl, rfl, fun x hx => by cases hx⟩
  | succ n ih =>
    intro p is
    obtain ⟨F, h1, h2, h3⟩ := ih (p + 2) is
    refine ⟨(p, 96 / usualSck) :: (p + 1, 144 / usualSck) :: F, ?_, ?_, ?_⟩
    · have e : byTicks (n + 1) = .flux1 96 :: .flux1 144 :: byTicks n := by rw [byTicks, flatten_succ]; rfl
      rw [e, List.cons_append, List.cons_append, fluxes, fluxes, h1, show p + 2 + 2 * n = p + 2 * (n + 1) by omega]
      simp
    · have e : byTimes (n + 1) = 96 / usualSck :: 144 / usualSck :: byTimes n := by rw [byTimes, flatten_succ]; rfl
      rw [e, List.map_cons, List.map_cons, h2]
    · intro x hx
      simp only [List.mem_cons] at hx
      rcases hx with rfl | rfl | hx
      · simp; 
      · simp; omega
      · have := h3 x hx; omega

theorem byTicks_pulses (n : Nat) (is : List Item) : pulses (byTicks n ++ is) = pulses is := by
  induction n with
  | zero => rfl
  | succ n ih =>
    have e : byTicks (n + 1) = .flux1 96 :: .flux1 144 :: byTicks n := by rw [byTicks, flatten_succ]; rfl
    rw [e, List.cons_append, List.cons_append]
    exact ih

theorem byTicks_starts (n : Nat) (is : List Item) : ∀ p, ∀ x ∈ starts (p + 2 * n) is, x ∈ starts p (byTicks n ++ is) := by
  induction n with
  | zero => intro p x hx; exact hx
  | succ n ih =>
    intro p x hx
    have e : byTicks (n + 1) = .flux1 96 :: .flux1 144 :: byTicks n := by rw [byTicks, flatten_succ]; rfl
    rw [e, List.cons_append, List.cons_append, starts, starts]
    refine .tail _ (.tail _ ?_)
    exact ih (p + 1 + 1) x (by rw [show p + 1 + 1 + 2 * n = p + 2 * (n + 1) by omega]; exact hx)

theorem byTicks_mem (n : Nat) : ∀ i ∈ byTicks n, i = .flux1 96 ∨ i = .flux1 144 := by
  intro k hk
  obtain ⟨l, hl, hk⟩ := List.mem_flatten.1 hk
  obtain rfl := List.eq_of_mem_replicate hl
  simpa using hk

theorem wholeTrack_pulses (n : Nat) : pulses (wholeTrack n) = [(0, 0), (2 * n, 600686)] := by
  unfold wholeTrack
  rw [pulses, byTicks_pulses]
  rfl

theorem wholeTrack_good (n : Nat) (h0 : 0 < n) (hn : 2 * n < 2 ^ 32) : KryoFile.Good (wholeTrack n) ∧ Plain (wholeTrack n) := by
  have hm : ∀ i ∈ wholeTrack n, i = .index 0 0 0 ∨ i = .flux1 96 ∨ i = .flux1 144 ∨ i = .index (2 * n) 0 600686 := by
    intro i hi
    unfold wholeTrack at hi
    rcases List.mem_cons.1 hi with rfl | hi
    · exact Or.inl rfl
    · rcases List.mem_append.1 hi with hi | hi
      · rcases byTicks_mem n i hi with rfl | rfl
        · exact Or.inr (Or.inl rfl)
        · exact Or.inr (Or.inr (Or.inl rfl))
      · exact Or.inr (Or.inr (Or.inr (List.mem_singleton.1 hi)))
  refine ⟨⟨?_, ?_, ?_, ?_⟩, ?_⟩
  · intro i hi
    rcases hm i hi with rfl | rfl | rfl | rfl
    · unfold Item.Good; decide
    · unfold Item.Good; decide
    · unfold Item.Good; decide
    · exact ⟨hn, by decide, by decide⟩
  · rw [wholeTrack_pulses]; exact Nat.le_refl 2
  · rw [wholeTrack_pulses]; simp; omega
  · rw [wholeTrack_pulses]
    intro x hx
    unfold wholeTrack
    rw [starts]
    simp only [List.mem_cons, List.not_mem_nil, or_false] at hx
    rcases hx with rfl | rfl
    · exact .head _
    · refine .tail _ (byTicks_starts n _ _ _ ?_)
      show 2 * n ∈ starts (0 + 0 + 2 * n) _
      rw [starts, Nat.zero_add]
      exact .head _
  · intro i hi
    rcases hm i hi with rfl | rfl | rfl | rfl <;> trivial

theorem wholeTrack_turns (n : Nat) : seenTurns (wholeTrack n) = [(byTimes n, 600686 / usualIck)] := by
  unfold seenTurns
  rw [wholeTrack_pulses, turns, turns]
  obtain ⟨F, h1, h2, h3⟩ := byTicks_fluxes n 0 [.index (2 * n) 0 600686]
  have e : fluxes 0 0 usualSck (wholeTrack n) = F := by
    unfold wholeTrack
    show fluxes 0 0 usualSck (byTicks n ++ _) = _
    rw [h1]
    show F ++ [] = F
    rw [List.append_nil]
  rw [e, List.filter_eq_self.2]
  · rw [h2]
    norm_num
  · intro x hx
    have := h3 x hx
    simp; omega

theorem wholeTrack_dd : ∀ x ∈ seenTurns (wholeTrack 20000), DoubleDensity (byTurns 20000) x.1 x.2 := by
  rw [wholeTrack_turns]
  intro x hx
  obtain rfl := List.mem_singleton.1 hx
  have hl := byTurns_length 20000
  obtain ⟨t2, t3⟩ := byTurns_times 20000
  have hM : Measured (2 / 1000000) (35 / 1000 * (2 / 1000000)) (byTurns 20000) (byTimes 20000) := by
    have : ∀ n : Nat, Measured (2 / 1000000) (35 / 1000 * (2 / 1000000)) (byTurns n) (byTimes n) := by
      intro n
      induction n with
      | zero => exact .nil
      | succ n ih =>
        rw [byTurns, byTimes, flatten_succ, flatten_succ]
        refine .cons ?_ (.cons ?_ ih)
        · unfold usualSck; constructor <;> norm_num
        · unfold usualSck; constructor <;> norm_num
    exact this 20000
  have hE : Expected (2 / 1000000) 40000 (600686 / usualIck) := by
    refine ⟨fun _ _ => ?_, fun h => by omega⟩
    rw [if_neg (by unfold usualIck; norm_num)]
    constructor <;> norm_num
  have hc := byTurns_cells 20000
  refine ⟨⟨byTurns_mem _, Or.inl ?_, ?_, ?_, 2 / 1000000, Or.inl ⟨by norm_num, by norm_num⟩, hM, ?_⟩, ⟨2 / 1000000, by norm_num, by norm_num, hM⟩, ?_, ?_⟩
  · rw [hl, t3]; omega
  · unfold firstPart
    rw [hl, show (2 * (2 * 20000) + 50) / 100 = 2 * 400 by decide, byTurns_take 400 _ (by omega)]
    obtain ⟨a, b⟩ := byTurns_times 400
    unfold MixedWell
    rw [a, b, byTurns_length]
    omega
  · intro h
    rw [hl] at h; omega
  · rw [hl]; exact hE
  · show 255 ≤ 60 / (600686 / usualIck) ∧ 60 / (600686 / usualIck) < 345
    unfold usualIck
    constructor <;> norm_num
  · rw [hc]
    show 424000 * (600686 / usualIck) ≤ _ ∧ _ < 542000 * (600686 / usualIck)
    unfold usualIck
    constructor <;> norm_num

/-- A set of 2 cylinders and 2 sides. -/
def wholeDir : List (List Byte × List Byte) :=
  [(nameOf gapSet ⟨0, 0⟩, file (wholeTrack 20000) []), (nameOf gapSet ⟨0, 1⟩, file (wholeTrack 20000) []),
   (nameOf gapSet ⟨1, 0⟩, file (wholeTrack 20000) []), (nameOf gapSet ⟨1, 1⟩, file (wholeTrack 20000) [])]

theorem wholeDir_names : wholeDir.map Prod.fst =
    [nameOf gapSet ⟨0, 0⟩, nameOf gapSet ⟨0, 1⟩, nameOf gapSet ⟨1, 0⟩, nameOf gapSet ⟨1, 1⟩] := rfl

/-- What C85 says of it. -/
example (debug : Bool) (rnd : Nat → Bool) (fm : FmCodec) :
    ∃ d, Kryo.loadDir debug rnd fm wholeDir (nameOf gapSet ⟨1, 0⟩) = .ok d ∧ d.geometry = ⟨2, 2⟩ ∧
      ∀ ch, fluxCells d ch = if ch.c < 2 ∧ ch.h < 2 then some (Spec.cellsOf (byTurns 20000)) else none := by
  refine C85_set_partial debug rnd fm wholeDir gapSet ⟨1, 0⟩ (by decide) (by decide) (Or.inr rfl) (by omega) ?_ ?_
    (fun _ => wholeTrack 20000) (fun _ => byTurns 20000)
    (fun ch _ _ => ⟨(wholeTrack_good _ (by omega) (by omega)).1, (wholeTrack_good _ (by omega) (by omega)).2, wholeTrack_dd⟩) ?_
  · rw [wholeDir_names]
    intro c h hc hh
    have : ∀ c ∈ List.range 100, ∀ h ∈ List.range 2, (Has [nameOf gapSet ⟨0, 0⟩, nameOf gapSet ⟨0, 1⟩, nameOf gapSet ⟨1, 0⟩, nameOf gapSet ⟨1, 1⟩]
      gapSet ⟨c, h⟩ ↔ c < 2 ∧ h < 2) := by decide +kernel
    exact this c (List.mem_range.2 hc) h (List.mem_range.2 hh)
  · intro x hx
    have : ∀ n ∈ wholeDir.map Prod.fst, low n = n := by rw [wholeDir_names]; decide +kernel
    exact this x.1 (List.mem_map_of_mem hx)
  · intro x hx ch _ _ _
    simp only [wholeDir, List.mem_cons, List.not_mem_nil, or_false] at hx
    rcases hx with rfl | rfl | rfl | rfl <;> exact ⟨[], rfl⟩

/-- And C83. -/
example (debug : Bool) (rnd : Nat → Bool) (fm : FmCodec) :
    ∃ d q, Kryo.load debug rnd fm {} {} (file (wholeTrack 20000) []) = ((d, q), .ok ()) ∧
      fluxCells d ⟨0, 0⟩ = some (Spec.cellsOf (byTurns 20000)) := by
  obtain ⟨d, q, h1, h2, _⟩ := C83_cells debug rnd fm (wholeTrack 20000) [] (wholeTrack_good _ (by omega) (by omega)).1
    (wholeTrack_good _ (by omega) (by omega)).2 (byTurns 20000) (fun x hx => (wholeTrack_dd x hx).captures)
  exact ⟨d, q, h1, h2⟩

end Fox
