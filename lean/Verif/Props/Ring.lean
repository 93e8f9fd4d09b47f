import Verif.Model.BitRing
import Verif.Model.RangeCheck
import Verif.Proofs.Bits
/-
C19 (bit ring) and C20 (range checker).
-/
namespace Fox

/-! ## C19 -/

/-- A usable ring: a positive wrap length within the bits. -/
def RingOk (r : BitRing) : Prop := 0 < r.wrap ∧ r.wrap ≤ r.bits.length

/-- **C19.** Indexing: never panics; inside the wrap length the stored bit, beyond it the configured wrap
value, or the bit at the index modulo the wrap length when none is configured. -/
theorem C19_index (r : BitRing) (h : RingOk r) (i : Nat) :
    r.index i = .ok (if i < r.wrap then r.bits.getD i false
      else r.wrapValue.getD (r.bits.getD (i % r.wrap) false)) ∧
    r.index i = .ok (r.bitAt i) := by
  obtain ⟨h1, h2⟩ := h
  have hm := Nat.mod_lt i h1
  unfold BitRing.index BitRing.bitAt
  by_cases hi : i < r.wrap
  · rw [if_pos hi, if_pos (by omega), if_pos hi]
    exact ⟨rfl, by rw [if_pos hi]⟩
  · rw [if_neg hi]
    cases r.wrapValue with
    | some v => simp [hi]
    | none =>
      simp only
      rw [if_neg (by omega), if_pos (by omega), if_neg hi, if_neg hi]
      exact ⟨rfl, rfl⟩

/-- The value of position `i` after a history of `(position, bit)` updates of a ring of `n` positions:
the last update to a position congruent to `i`, or the initial value. -/
def lastSet (n : Nat) (i : Nat) (init : Bool) : List (Nat × Bool) → Bool
  | [] => init
  | (j, b) :: rest => lastSet n i (if j % n = i % n then b else init) rest

theorem set_spec (r : BitRing) (h : RingOk r) (j : Nat) (b : Bool) :
    RingOk (r.set j b) ∧ (r.set j b).wrap = r.wrap ∧ (r.set j b).wrapValue = r.wrapValue ∧
    (r.set j b).cursor = r.cursor ∧
    ∀ i, i < r.wrap → (r.set j b).bits.getD i false =
      if j % r.wrap = i % r.wrap then b else r.bits.getD i false := by
  obtain ⟨h1, h2⟩ := h
  have hm := Nat.mod_lt j h1
  have hset : r.set j b = { r with bits := r.bits.set (j % r.wrap) b } := by
    unfold BitRing.set
    by_cases hj : j < r.wrap
    · rw [if_pos hj, Nat.mod_eq_of_lt hj]
    · rw [if_neg hj]
  rw [hset]
  refine ⟨⟨h1, by simpa using h2⟩, rfl, rfl, rfl, ?_⟩
  intro i hi
  simp only [List.getD_eq_getElem?_getD, List.getElem?_set, Nat.mod_eq_of_lt hi]
  by_cases he : j % r.wrap = i
  · rw [if_pos he, if_pos he, if_pos (by omega)]; rfl
  · rw [if_neg he, if_neg he]

/-- **C19.** Updates: after any history of sets at any positions (also beyond the wrap length), every
position holds the last bit set at a position equal to it modulo the wrap length, and every other position
is unchanged. -/
theorem C19_set_history (sets : List (Nat × Bool)) (r : BitRing) (h : RingOk r) (i : Nat) :
    let r' := sets.foldl (fun r s => r.set s.1 s.2) r
    (i < r.wrap ∨ r.wrapValue = none) → r'.index i = .ok (lastSet r.wrap i (r.bitAt i) sets) := by
  have main : ∀ (sets : List (Nat × Bool)) (r : BitRing), RingOk r →
      let r' := sets.foldl (fun r s => r.set s.1 s.2) r
      RingOk r' ∧ r'.wrap = r.wrap ∧ r'.wrapValue = r.wrapValue ∧
      ∀ i, i < r.wrap → r'.bits.getD i false = lastSet r.wrap i (r.bits.getD i false) sets := by
    intro sets
    induction sets with
    | nil => intro r h; exact ⟨h, rfl, rfl, fun _ _ => rfl⟩
    | cons s rest ih =>
      intro r h
      obtain ⟨g1, g2, g3, _, g4⟩ := set_spec r h s.1 s.2
      obtain ⟨i1, i2, i3, i4⟩ := ih (r.set s.1 s.2) g1
      refine ⟨i1, i2.trans g2, i3.trans g3, ?_⟩
      intro i hi
      simp only [List.foldl_cons]
      rw [i4 i (by rw [g2]; exact hi), g2, g4 i hi]
      rfl
  intro r' hi
  obtain ⟨g1, g2, g3, g4⟩ := main sets r h
  have hmod : ∀ (l : List (Nat × Bool)) (v : Bool), lastSet r.wrap (i % r.wrap) v l = lastSet r.wrap i v l := by
    intro l
    induction l with
    | nil => intro v; rfl
    | cons s l ih => intro v; simp only [lastSet, Nat.mod_mod, ih]
  rw [(C19_index r' g1 i).2]
  congr 1
  unfold BitRing.bitAt
  rw [show r'.wrap = r.wrap from g2, show r'.wrapValue = r.wrapValue from g3]
  by_cases hlt : i < r.wrap
  · rw [if_pos hlt, if_pos hlt]; exact g4 i hlt
  · rw [if_neg hlt, if_neg hlt]
    rcases hi with hi | hi
    · exact absurd hi hlt
    · rw [hi]
      simp only
      rw [show r'.bits.getD (i % r.wrap) false = _ from g4 (i % r.wrap) (Nat.mod_lt _ h.1), hmod]

/-- **C19.** Sequential reading goes round the ring: `k` bits read from cursor `c` are the bits at
`c, c+1, …` modulo the wrap length, and the cursor ends at `c + k` modulo the wrap length. -/
theorem C19_sequential (r : BitRing) (h : RingOk r) (hc : r.cursor < r.wrap) (k : Nat) :
    r.takeBits k = .ok ((List.range k).map (fun i => r.bits.getD ((r.cursor + i) % r.wrap) false),
      { r with cursor := (r.cursor + k) % r.wrap }) := by
  induction k generalizing r with
  | zero => simp [BitRing.takeBits, Nat.mod_eq_of_lt hc]
  | succ k ih =>
    obtain ⟨h1, h2⟩ := h
    have hn : r.next = .ok (r.bits.getD r.cursor false, r.incrCursor) := by
      unfold BitRing.next; rw [if_pos ⟨by omega, by omega⟩]
    have hi := ih r.incrCursor ⟨h1, h2⟩ (Nat.mod_lt _ h1)
    simp only [BitRing.takeBits, hn, bind, Except.bind, hi]
    refine congrArg Except.ok (Prod.ext ?_ ?_)
    · simp only [BitRing.incrCursor]
      rw [List.range_succ_eq_map, List.map_cons, List.map_map,
        show (r.cursor + 0) % r.wrap = r.cursor from Nat.mod_eq_of_lt hc]
      congr 1
      refine List.map_congr_left fun i _ => ?_
      show _ = r.bits.getD ((r.cursor + (i + 1)) % r.wrap) false
      rw [Nat.mod_add_mod]; congr 2; omega
    · simp only [BitRing.incrCursor, Nat.mod_add_mod]
      congr 1; congr 1; omega

/-- **C19.** Byte reads go round the ring as well. -/
theorem C19_read_bytes (r : BitRing) (h : RingOk r) (hc : r.cursor < r.wrap) (k : Nat) :
    r.read k = .ok ((List.range k).map (fun j => byteOfBits ((List.range 8).map fun i =>
        r.bits.getD ((r.cursor + 8 * j + i) % r.wrap) false)),
      { r with cursor := (r.cursor + 8 * k) % r.wrap }) := by
  induction k generalizing r with
  | zero => simp [BitRing.read, Nat.mod_eq_of_lt hc]
  | succ k ih =>
    have hs := C19_sequential r h hc 8
    have hi := ih { r with cursor := (r.cursor + 8) % r.wrap } h (Nat.mod_lt _ h.1)
    simp only [BitRing.read, hs, bind, Except.bind, hi]
    refine congrArg Except.ok (Prod.ext ?_ ?_)
    · show _ :: _ = _
      rw [List.range_succ_eq_map (n := k), List.map_cons, List.map_map, Nat.mul_zero, Nat.add_zero]
      refine congrArg (List.cons _) ?_
      refine List.map_congr_left fun j _ => ?_
      show byteOfBits _ = byteOfBits _
      congr 1
      refine List.map_congr_left fun i _ => ?_
      show r.bits.getD _ false = r.bits.getD _ false
      congr 1
      rw [Nat.add_assoc ((r.cursor + 8) % r.wrap), Nat.mod_add_mod]
      congr 1; simp only [Nat.succ_eq_add_one]; omega
    · simp only [Nat.mod_add_mod]
      congr 1; congr 1; omega

/-- Run the borrowing iterator for `k` steps. -/
def iterRun (r : BitRing) (limit : Option Nat) : Nat → Nat → Except Err (List Bool)
  | 0, _ => .ok []
  | k + 1, c => match r.iterNext limit c with
    | .error e => .error e
    | .ok none => .ok []
    | .ok (some (b, c')) => (iterRun r limit k c').map (b :: ·)

/-- **C19.** The one-revolution iterator yields exactly the bits up to the wrap point, once. -/
theorem C19_revolution (r : BitRing) (h : RingOk r) (k : Nat) (hk : r.wrap ≤ k) :
    iterRun r (some r.wrap) k 0 = .ok (r.bits.take r.wrap) := by
  have main : ∀ k c, c ≤ r.wrap → r.wrap ≤ k + c →
      iterRun r (some r.wrap) k c = .ok ((r.bits.take r.wrap).drop c) := by
    intro k
    induction k with
    | zero =>
      intro c h1 h2
      rw [iterRun, List.drop_of_length_le (by rw [List.length_take]; omega)]
    | succ k ih =>
      intro c h1 h2
      rw [iterRun]
      unfold BitRing.iterNext
      by_cases hc : c ≥ r.wrap
      · simp only [hc, decide_true, if_true]
        rw [List.drop_of_length_le (by rw [List.length_take]; omega)]
      · have hb : c < r.bits.length := by have := h.2; omega
        simp only [hc, decide_false, Bool.false_eq_true, if_false, hb, if_true]
        rw [ih (c + 1) (by omega) (by omega)]
        simp only [Except.map]
        have hlt : c < (r.bits.take r.wrap).length := by rw [List.length_take]; have := h.2; omega
        rw [List.drop_eq_getElem_cons hlt]
        congr 2
        simp [List.getElem_take, List.getD_eq_getElem?_getD, hb]
  have := main k 0 (by omega) (by omega)
  simpa using this

/-- **C19, finding.** The iterator documented as infinite (`iter`) panics on every ring as soon as it is
asked for one more bit than the ring holds. -/
theorem C19_false_iter_infinite (r : BitRing) :
    iterRun r none (r.bits.length + 1) 0 = .error .panic := by
  have main : ∀ k c, c + k = r.bits.length → iterRun r none (k + 1) c = .error .panic := by
    intro k
    induction k with
    | zero =>
      intro c h
      rw [iterRun]
      unfold BitRing.iterNext
      simp [show ¬ c < r.bits.length by omega]
    | succ k ih =>
      intro c h
      rw [iterRun]
      unfold BitRing.iterNext
      simp only [Bool.false_eq_true, if_false, show c < r.bits.length by omega, if_true]
      rw [ih (c + 1) (by omega)]; rfl
  exact main _ 0 (by omega)

/-- **C19.** Setting a wrap length: any positive request is clamped to the stored length, so a non-empty ring
stays usable, keeps its bits, and afterwards every index reads modulo the clamped length. -/
theorem C19_set_wrap (r : BitRing) (n i : Nat) (hn : 0 < n) (hb : r.bits ≠ [])
    (hv : r.wrapValue = none) :
    RingOk (r.setWrap n) ∧ (r.setWrap n).bits = r.bits ∧
    (r.setWrap n).index i = .ok (r.bits.getD (i % min n r.bits.length) false) := by
  have hl : 0 < r.bits.length := List.length_pos_iff.mpr hb
  have hok : RingOk (r.setWrap n) := ⟨by show 0 < min n r.bits.length; omega,
    by show min n r.bits.length ≤ r.bits.length; omega⟩
  refine ⟨hok, rfl, ?_⟩
  rw [(C19_index _ hok i).1]
  have hw : (r.setWrap n).wrap = min n r.bits.length := rfl
  have hval : (r.setWrap n).wrapValue = none := hv
  rw [hval, hw]
  show Except.ok (if i < min n r.bits.length then r.bits.getD i false else _) = _
  by_cases hi : i < min n r.bits.length
  · rw [if_pos hi, Nat.mod_eq_of_lt hi]
  · rw [if_neg hi]; rfl

example : ((BitRing.ofBits [true, false, false]).setWrap 7).index 4 = .ok false := rfl

example : RingOk (BitRing.ofBits [true, false, false, true, true]) ∧
    (BitRing.ofBits [true, false, false, true, true]).index 13 = .ok true := by
  exact ⟨⟨by decide, by decide⟩, rfl⟩

/-! ## C20 -/

theorem countLoop_sum (v : Nat) : ∀ (l : List (Nat × Int)) (a : Int),
    l.Pairwise (fun x y => x.1 ≤ y.1) →
    RangeChecker.countLoop v a l = a + ((l.filter (fun e => decide (e.1 ≤ v))).map (·.2)).sum
  | [], a, _ => by simp [RangeChecker.countLoop]
  | e :: rest, a, h => by
    rw [List.pairwise_cons] at h
    rw [RangeChecker.countLoop]
    by_cases he : e.1 > v
    · rw [if_pos he, List.filter_eq_nil_iff.2]
      · simp
      · intro x hx
        rcases List.mem_cons.1 hx with rfl | hx
        · simp; omega
        · have := h.1 x hx; simp; omega
    · rw [if_neg he, countLoop_sum v rest _ h.2,
        List.filter_cons_of_pos (by simp; omega), List.map_cons, List.sum_cons]
      omega

theorem le_trans' : ∀ a b c : Nat × Int, RangeChecker.le a b = true → RangeChecker.le b c = true →
    RangeChecker.le a c = true := by
  intro a b c; simp [RangeChecker.le]; omega

theorem le_total' : ∀ a b : Nat × Int, (RangeChecker.le a b || RangeChecker.le b a) = true := by
  intro a b; simp [RangeChecker.le]; omega

theorem sum_perm {l l' : List Int} (h : l.Perm l') : l.sum = l'.sum := by
  induction h with
  | nil => rfl
  | cons x _ ih => simp [ih]
  | swap x y l => simp; omega
  | trans _ _ i1 i2 => exact i1.trans i2

/-- Balance of starts and ends at `v`, range by range. -/
theorem contains_balance (ranges : List (Nat × Nat)) (v : Nat) :
    (RangeChecker.new ranges).contains v = decide
      ((ranges.map fun r => (if r.1 ≤ v then (1 : Int) else 0) - (if r.2 + 1 ≤ v then 1 else 0)).sum > 0) := by
  unfold RangeChecker.contains RangeChecker.new
  have hsorted := List.pairwise_mergeSort le_trans' le_total'
    (ranges.flatMap fun r => [(r.1, (1 : Int)), (r.2 + 1, (-1 : Int))])
  rw [countLoop_sum v _ 0 (hsorted.imp (fun {a b} h => by simp [RangeChecker.le] at h; omega)), Int.zero_add]
  rw [sum_perm (((List.mergeSort_perm _ RangeChecker.le).filter _).map _)]
  congr 1
  have : ∀ rs : List (Nat × Nat), (((rs.flatMap fun r => [(r.1, (1 : Int)), (r.2 + 1, (-1 : Int))]).filter
      (fun e => decide (e.1 ≤ v))).map (·.2)).sum =
      (rs.map fun r => (if r.1 ≤ v then (1 : Int) else 0) - (if r.2 + 1 ≤ v then 1 else 0)).sum := by
    intro rs
    induction rs with
    | nil => rfl
    | cons r rs ih =>
      rw [List.flatMap_cons, List.filter_append, List.map_append, List.sum_append, ih, List.map_cons,
        List.sum_cons]
      congr 1
      by_cases h1 : r.1 ≤ v <;> by_cases h2 : r.2 + 1 ≤ v <;> simp [h1, h2]
  rw [this]

/-- **C20 (partial).** For ordinary ranges (start not beyond end) the checker decides exactly membership in
one of the *closed* ranges `start ..= end`.  Missing: the claimed half-open membership (refuted below). -/
theorem C20_contains_partial (ranges : List (Nat × Nat)) (hr : ∀ r ∈ ranges, r.1 ≤ r.2) (v : Nat) :
    (RangeChecker.new ranges).contains v = true ↔ ∃ r ∈ ranges, r.1 ≤ v ∧ v ≤ r.2 := by
  rw [contains_balance, decide_eq_true_eq]
  have hnn : ∀ rs : List (Nat × Nat), (∀ r ∈ rs, r.1 ≤ r.2) →
      0 ≤ (rs.map fun r => (if r.1 ≤ v then (1 : Int) else 0) - (if r.2 + 1 ≤ v then 1 else 0)).sum ∧
      (0 < (rs.map fun r => (if r.1 ≤ v then (1 : Int) else 0) - (if r.2 + 1 ≤ v then 1 else 0)).sum ↔
        ∃ r ∈ rs, r.1 ≤ v ∧ v ≤ r.2) := by
    intro rs
    induction rs with
    | nil => intro _; simp
    | cons r rs ih =>
      intro h
      obtain ⟨i1, i2⟩ := ih fun x hx => h x (by simp [hx])
      have hr := h r (by simp)
      rw [List.map_cons, List.sum_cons]
      simp only [List.mem_cons, exists_eq_or_imp]
      rw [← i2]
      generalize (rs.map fun r => (if r.1 ≤ v then (1 : Int) else 0) - (if r.2 + 1 ≤ v then 1 else 0)).sum = t at *
      by_cases h1 : r.1 ≤ v
      · rw [if_pos h1]
        by_cases h2 : r.2 + 1 ≤ v
        · rw [if_pos h2]; omega
        · rw [if_neg h2]; omega
      · rw [if_neg h1, if_neg (by omega)]; omega
  exact (hnn ranges hr).2

/-- **C20 is false of the code.** For *every* list of ordinary ranges, the checker reports the end of each
range as contained, although no half-open range `start..end` contains its own end. -/
theorem C20_false_half_open (ranges : List (Nat × Nat)) (hr : ∀ r ∈ ranges, r.1 ≤ r.2) (r : Nat × Nat)
    (hm : r ∈ ranges) : (RangeChecker.new ranges).contains r.2 = true ∧ ¬ (r.1 ≤ r.2 ∧ r.2 < r.2) :=
  ⟨(C20_contains_partial ranges hr r.2).2 ⟨r, hm, hr r hm, Nat.le_refl _⟩, by omega⟩

example : (RangeChecker.new [(3, 5), (10, 12)]).contains 5 = true ∧
    ¬ ∃ r ∈ [((3 : Nat), (5 : Nat)), (10, 12)], r.1 ≤ 5 ∧ 5 < r.2 := by
  constructor
  · exact (C20_false_half_open _ (by decide) (3, 5) (by simp)).1
  · decide

end Fox
