import Verif.Proofs.Kryo
import Verif.Spec.KryoSet
/-
Proofs about the finding of the files of a KryoFlux set.
-/
namespace Fox
open Spec Flux KryoFile KryoSet
namespace Kryo

theorem twoDigits_eq {c : Nat} (h : c < 100) : twoDigits c = [BitVec.ofNat 8 (48 + c / 10), BitVec.ofNat 8 (48 + c % 10)] := by
  unfold twoDigits
  by_cases h1 : c < 10
  · rw [if_pos h1, decimal, if_pos h1, Nat.div_eq_of_lt h1, Nat.mod_eq_of_lt h1]
  · rw [if_neg h1, decimal, if_neg h1, decimal, if_pos (by omega)]; rfl

theorem decimal_small {n : Nat} (h : n < 10) : decimal 5 n = [BitVec.ofNat 8 (48 + n)] := by
  rw [decimal, if_pos h]

theorem testName_eq (s : List Byte) {c h : Nat} (hc : c < 100) (hh : h < 10) : testName s c h = nameOf (low s) ⟨c, h⟩ := by
  unfold testName nameOf
  rw [twoDigits_eq hc, decimal_small hh, show lower s = low s from rfl]
  simp

theorem tail_short {l : List Byte} (h : l.length < 8) : tailMatches l = false := by
  unfold tailMatches
  split
  · simp only [List.length_cons] at h; omega
  · rfl

theorem stem_short : ∀ (l : List Byte), l.length < 8 → stem l = none
  | [], _ => rfl
  | b :: r, h => by
    rw [stem, stem_short r (by simp at h; omega)]
    simp only
    rw [tail_short h]
    rfl

theorem stem_name (ch : Ch) (hc : ch.c < 100) (hh : ch.h < 10) : ∀ s, stem (nameOf s ch) = some s
  | [] => by
    have h1 : (BitVec.ofNat 8 (48 + ch.c / 10)).toNat = 48 + ch.c / 10 := by rw [BitVec.toNat_ofNat]; omega
    have h2 : (BitVec.ofNat 8 (48 + ch.c % 10)).toNat = 48 + ch.c % 10 := by rw [BitVec.toNat_ofNat]; omega
    have h3 : (BitVec.ofNat 8 (48 + ch.h)).toNat = 48 + ch.h := by rw [BitVec.toNat_ofNat]; omega
    unfold nameOf
    rw [List.nil_append, stem, stem_short _ (by simp)]
    simp only
    rw [if_pos]
    show (isDigit _ && isDigit _ && isDigit _) = true
    unfold isDigit
    rw [h1, h2, h3]
    simp
    omega
  | b :: s => by
    show stem (b :: nameOf s ch) = _
    rw [stem, stem_name ch hc hh s]

/-! ## The loop -/

/-- Whether a stream is there, as the loop asks. -/
theorem found_iff (names : List (List Byte)) (s : List Byte) {c h : Nat} (hc : c < 100) (hh : h < 10) :
    (names.any fun f => lower f == testName s c h) = decide (Has names s ⟨c, h⟩) := by
  rw [Bool.eq_iff_iff, List.any_eq_true, decide_eq_true_iff, testName_eq s hc hh]
  unfold Has
  constructor
  · rintro ⟨f, h1, h2⟩; exact ⟨f, h1, eq_of_beq h2⟩
  · rintro ⟨f, h1, h2⟩; exact ⟨f, h1, by rw [show lower f = low f from rfl, h2]; exact beq_self_eq_true _⟩

/-- The names found among the first `n` cylinders. -/
def found (names : List (List Byte)) (s : List Byte) (n : Nat) : List (List Byte) :=
  ((grid n).filter fun ch => Has names s ch).map fun ch => nameOf (low s) ch

/-- What the loop knows about sides. -/
structure Heads (names : List (List Byte)) (s : List Byte) (n : Nat) (hs : List Nat) : Prop where
  nodup : hs.Nodup
  only : ∀ x ∈ hs, x = 0 ∨ x = 2
  zero : 0 ∈ hs ↔ ∃ c < n, Has names s ⟨c, 0⟩
  two : 2 ∈ hs ↔ ∃ c < n, Has names s ⟨c, 1⟩

theorem Heads.length {names : List (List Byte)} {s : List Byte} {n : Nat} {hs : List Nat} (h : Heads names s n hs) :
    hs.length = (sides names s n).length := by
  have ha : ∀ k, ((List.range n).any fun c => decide (Has names s ⟨c, k⟩)) = decide (∃ c < n, Has names s ⟨c, k⟩) := by
    intro k
    rw [Bool.eq_iff_iff, List.any_eq_true, decide_eq_true_iff]
    constructor
    · rintro ⟨c, h1, h2⟩; exact ⟨c, List.mem_range.1 h1, by simpa using h2⟩
    · rintro ⟨c, h1, h2⟩; exact ⟨c, List.mem_range.2 h1, by simpa using h2⟩
  have hp : hs.Perm ((sides names s n).map (2 * ·)) := by
    rw [List.perm_ext_iff_of_nodup h.nodup]
    · intro x
      unfold sides
      simp only [List.mem_map, List.mem_filter, ha, decide_eq_true_iff]
      constructor
      · intro hx
        rcases h.only x hx with rfl | rfl
        · exact ⟨0, ⟨by simp, h.zero.1 hx⟩, rfl⟩
        · exact ⟨1, ⟨by simp, h.two.1 hx⟩, rfl⟩
      · rintro ⟨k, ⟨h1, h2⟩, rfl⟩
        simp at h1
        rcases h1 with rfl | rfl
        · exact h.zero.2 h2
        · exact h.two.2 h2
    · unfold sides
      exact List.Pairwise.map _ (fun x y (h : x ≠ y) => by show 2 * x ≠ 2 * y; omega) (List.Pairwise.sublist List.filter_sublist (by decide))
  rw [hp.length_eq, List.length_map]

theorem heads_step {names : List (List Byte)} {s : List Byte} {n : Nat} {hs : List Nat} (h : Heads names s n hs) :
    Heads names s (n + 1) (let a := if Has names s ⟨n, 0⟩ then (if 0 ∈ hs then hs else hs ++ [0]) else hs
      if Has names s ⟨n, 1⟩ then (if 2 ∈ a then a else a ++ [2]) else a) := by
  have ex : ∀ k, (∃ c < n + 1, Has names s ⟨c, k⟩) ↔ (∃ c < n, Has names s ⟨c, k⟩) ∨ Has names s ⟨n, k⟩ := by
    intro k
    constructor
    · rintro ⟨c, h1, h2⟩
      rcases Nat.lt_or_ge c n with h | h
      · exact Or.inl ⟨c, h, h2⟩
      · obtain rfl : c = n := by omega
        exact Or.inr h2
    · rintro (⟨c, h1, h2⟩ | h2)
      · exact ⟨c, by omega, h2⟩
      · exact ⟨n, by omega, h2⟩
  have add : ∀ (l : List Nat) (x : Nat), l.Nodup → (if x ∈ l then l else l ++ [x]).Nodup ∧
      ∀ y, y ∈ (if x ∈ l then l else l ++ [x]) ↔ y ∈ l ∨ y = x := by
    intro l x hn
    by_cases hx : x ∈ l
    · rw [if_pos hx]
      exact ⟨hn, fun y => ⟨Or.inl, by rintro (h | rfl) <;> assumption⟩⟩
    · rw [if_neg hx]
      refine ⟨List.nodup_append.2 ⟨hn, by simp, ?_⟩, fun y => by simp⟩
      intro a ha b hb e
      simp at hb
      exact hx (by rw [← hb, ← e]; exact ha)
  simp only
  obtain ⟨a1, a2⟩ := add hs 0 h.nodup
  have hA : ∃ a, (if Has names s ⟨n, 0⟩ then (if 0 ∈ hs then hs else hs ++ [0]) else hs) = a ∧ a.Nodup ∧
      (∀ y, y ∈ a ↔ y ∈ hs ∨ (Has names s ⟨n, 0⟩ ∧ y = 0)) := by
    by_cases h0 : Has names s ⟨n, 0⟩
    · rw [if_pos h0]; exact ⟨_, rfl, a1, fun y => by rw [a2]; simp [h0]⟩
    · rw [if_neg h0]; exact ⟨_, rfl, h.nodup, fun y => by simp [h0]⟩
  obtain ⟨a, ea, an, am⟩ := hA
  rw [ea]
  obtain ⟨b1, b2⟩ := add a 2 an
  have hB : ∃ b, (if Has names s ⟨n, 1⟩ then (if 2 ∈ a then a else a ++ [2]) else a) = b ∧ b.Nodup ∧
      (∀ y, y ∈ b ↔ y ∈ a ∨ (Has names s ⟨n, 1⟩ ∧ y = 2)) := by
    by_cases h0 : Has names s ⟨n, 1⟩
    · rw [if_pos h0]; exact ⟨_, rfl, b1, fun y => by rw [b2]; simp [h0]⟩
    · rw [if_neg h0]; exact ⟨_, rfl, an, fun y => by simp [h0]⟩
  obtain ⟨b, eb, bn, bm⟩ := hB
  rw [eb]
  refine ⟨bn, ?_, ?_, ?_⟩
  · intro x hx
    rw [bm, am] at hx
    rcases hx with (hx | ⟨_, rfl⟩) | ⟨_, rfl⟩
    · exact h.only x hx
    · exact Or.inl rfl
    · exact Or.inr rfl
  · rw [bm, am, ex, h.zero]; simp
  · rw [bm, am, ex, h.two]; simp

theorem found_succ (names : List (List Byte)) (s : List Byte) (n : Nat) : found names s (n + 1) = found names s n ++
    ((if Has names s ⟨n, 0⟩ then [nameOf (low s) ⟨n, 0⟩] else []) ++ (if Has names s ⟨n, 1⟩ then [nameOf (low s) ⟨n, 1⟩] else [])) := by
  unfold found grid
  rw [List.range_succ, List.flatMap_append, List.filter_append, List.map_append]
  congr 1
  by_cases h0 : Has names s ⟨n, 0⟩ <;> by_cases h1 : Has names s ⟨n, 1⟩ <;> simp [h0, h1]

theorem cylinders_succ (names : List (List Byte)) (s : List Byte) (n : Nat) : cylinders names s (n + 1) = cylinders names s n ++
    (if Has names s ⟨n, 0⟩ ∨ Has names s ⟨n, 1⟩ then [n] else []) := by
  unfold cylinders
  rw [List.range_succ, List.filter_append]
  congr 1
  by_cases h0 : Has names s ⟨n, 0⟩ ∨ Has names s ⟨n, 1⟩
  · rw [if_pos h0, List.filter_cons_of_pos (by simpa using h0)]; rfl
  · rw [if_neg h0, List.filter_cons_of_neg (by simpa using h0)]; rfl

theorem not_cylinder (names : List (List Byte)) (s : List Byte) (n : Nat) : n ∉ cylinders names s n := by
  intro h
  have := List.mem_range.1 (List.mem_filter.1 h).1
  omega

/-- Both sides of a cylinder. -/
theorem loop_cylinder (names : List (List Byte)) (s : List Byte) (fuel n : Nat) (hn : n < 100) (hgo : Has names s ⟨n, 0⟩ ∨ n ≤ 79)
    (hs : List Nat) (h : Heads names s n hs) :
    ∃ hs', Heads names s (n + 1) hs' ∧
      searchLoop names s (fuel + 2) n 0 (found names s n, cylinders names s n, hs) =
        searchLoop names s fuel (n + 1) 0 (found names s (n + 1), cylinders names s (n + 1), hs') := by
  refine ⟨_, heads_step h, ?_⟩
  rw [searchLoop]
  simp only
  rw [found_iff names s hn (by omega)]
  have hnc := not_cylinder names s n
  have step1 : ∀ acc, searchLoop names s (fuel + 1) n 1 acc =
      searchLoop names s fuel (n + 1) 0
        (if Has names s ⟨n, 1⟩ then (acc.1 ++ [nameOf (low s) ⟨n, 1⟩], if n ∈ acc.2.1 then acc.2.1 else acc.2.1 ++ [n],
          if 2 ∈ acc.2.2 then acc.2.2 else acc.2.2 ++ [2]) else acc) := by
    rintro ⟨a, b, c⟩
    rw [searchLoop]
    simp only
    rw [found_iff names s hn (by omega), testName_eq s hn (by omega)]
    by_cases h1 : Has names s ⟨n, 1⟩
    · simp [h1]
    · simp [h1]
  rw [testName_eq s hn (by omega), found_succ, cylinders_succ]
  by_cases h0 : Has names s ⟨n, 0⟩
  · simp only [h0, decide_true, Bool.true_and, Nat.lt_irrefl, decide_false, Bool.false_eq_true, if_false, if_true, Bool.not_true,
      Bool.false_and, Nat.zero_add]
    rw [step1]
    by_cases h1 : Has names s ⟨n, 1⟩
    · simp [h1, hnc]
    · simp [h1, hnc]
  · have h79 : n ≤ 79 := hgo.resolve_left h0
    have hx : ¬ 79 < n := by omega
    simp only [h0, decide_false, Bool.false_and, Bool.false_eq_true, if_false, Bool.not_false, Bool.true_and, beq_self_eq_true, hx,
      Nat.zero_add, Nat.lt_irrefl]
    rw [step1]
    by_cases h1 : Has names s ⟨n, 1⟩
    · simp [h1, hnc]
    · simp [h1]

theorem loop_stop (names : List (List Byte)) (s : List Byte) (fuel n : Nat) (hn : n < 100) (h0 : ¬ Has names s ⟨n, 0⟩) (h80 : 80 ≤ n)
    (acc : List (List Byte) × List Nat × List Nat) : searchLoop names s (fuel + 1) n 0 acc = acc := by
  obtain ⟨a, b, c⟩ := acc
  have hx : 79 < n := by omega
  rw [searchLoop]
  rw [found_iff names s hn (by omega)]
  simp [h0, hx]

theorem loop_spec (names : List (List Byte)) (s : List Byte) (stop : Nat) (h80 : 80 ≤ stop) (h100 : stop < 100)
    (hstop : ¬ Has names s ⟨stop, 0⟩) (hgo : ∀ c, 80 ≤ c → c < stop → Has names s ⟨c, 0⟩) :
    ∀ (k n : Nat), n + k = stop → ∀ fuel, 2 * k < fuel → ∀ hs, Heads names s n hs →
    ∃ hs', Heads names s stop hs' ∧
      searchLoop names s fuel n 0 (found names s n, cylinders names s n, hs) = (found names s stop, cylinders names s stop, hs')
  | 0, n, e, fuel, hf, hs, h => by
    obtain rfl : n = stop := by omega
    obtain ⟨m, rfl⟩ : ∃ m, fuel = m + 1 := ⟨fuel - 1, by omega⟩
    exact ⟨hs, h, loop_stop names s m n h100 hstop h80 _⟩
  | k + 1, n, e, fuel, hf, hs, h => by
    obtain ⟨m, rfl⟩ : ∃ m, fuel = m + 2 := ⟨fuel - 2, by omega⟩
    obtain ⟨hs1, g1, g2⟩ := loop_cylinder names s m n (by omega)
      (by rcases Nat.lt_or_ge 79 n with h | h
          · exact Or.inl (hgo n (by omega) (by omega))
          · exact Or.inr h) hs h
    obtain ⟨hs2, g3, g4⟩ := loop_spec names s stop h80 h100 hstop hgo k (n + 1) (by omega) m (by omega) hs1 g1
    exact ⟨hs2, g3, by rw [g2, g4]⟩

/-- The files of a set. -/
theorem expand_spec (names : List (List Byte)) (s : List Byte) (ch : Ch) (hc : ch.c < 100) (hh : ch.h < 10) (stop : Nat)
    (h80 : 80 ≤ stop) (h100 : stop < 100) (hstop : ¬ Has names s ⟨stop, 0⟩) (hgo : ∀ c, 80 ≤ c → c < stop → Has names s ⟨c, 0⟩) :
    expand (nameOf s ch) names = (found names s stop, ⟨(cylinders names s stop).length, (sides names s stop).length⟩) := by
  unfold expand
  rw [stem_name ch hc hh s]
  obtain ⟨hs', g1, g2⟩ := loop_spec names s stop h80 h100 hstop hgo stop 0 (by omega) (2 * 65536) (by omega) []
    ⟨by simp, by simp, by simp, by simp⟩
  have e0 : ((found names s 0, cylinders names s 0, []) : List (List Byte) × List Nat × List Nat) = ([], [], []) := rfl
  rw [e0] at g2
  show (_, _) = _
  rw [g2, g1.length]

end Kryo
end Fox
