import Verif.Proofs.FmScan
/-
The marks of a track of whole bytes.
-/
namespace Fox.Fm
open Fox.Spec Fox.S34
open FmDisk (cellsOfByte plain mark At MarkAt First Scanned Usual Recorded record Spaced dataBits falseMark NoFalse recordedMarks)

theorem record_length (l : List Recorded) : (record l).length = 16 * l.length := by
  unfold record
  induction l with
  | nil => rfl
  | cons b bs ih => rw [List.flatMap_cons, List.length_append, ih, cells_length, List.length_cons]; omega

theorem record_append (l k : List Recorded) : record (l ++ k) = record l ++ record k := by
  unfold record; rw [List.flatMap_append]

/-- The clock byte of a recorded byte. -/
def clockOf (x : Recorded) : Byte := if x.1 then 0xC7#8 else 0xFF#8

theorem record_getD : ∀ (l : List Recorded) (i : Nat), i < 16 * l.length →
    (record l).getD i false =
      if i % 2 = 0 then (clockOf (l.getD (i / 16) (false, 0))).getMsbD (i / 2 % 8)
      else (l.getD (i / 16) (false, 0)).2.getMsbD (i / 2 % 8)
  | [], i, h => by simp at h
  | b :: bs, i, h => by
    unfold record
    rw [List.flatMap_cons, getD_app, cells_length]
    by_cases hi : i < 16
    · rw [if_pos hi, cells_getD _ _ _ hi, show i / 16 = 0 by omega, show i / 2 % 8 = i / 2 by omega]
      rfl
    · rw [if_neg hi]
      have := record_getD bs (i - 16) (by rw [List.length_cons] at h; omega)
      unfold record at this
      rw [this, show i / 16 = (i - 16) / 16 + 1 by omega, show i / 2 % 8 = (i - 16) / 2 % 8 by omega,
        show i % 2 = (i - 16) % 2 by omega, List.getD_cons_succ]

/-- A clock bit of a track of whole bytes. -/
theorem clock_bit {l : List Recorded} {m : Nat} (h : m < 8 * l.length) :
    (record l).getD (2 * m) false = !((l.getD (m / 8) (false, 0)).1 && (m % 8 == 2 || m % 8 == 3 || m % 8 == 4)) := by
  rw [record_getD _ _ (by omega), if_pos (by omega), show 2 * m / 16 = m / 8 by omega, show 2 * m / 2 % 8 = m % 8 by omega]
  generalize l.getD (m / 8) (false, 0) = x
  have : ∀ (b : Bool) (k : Fin 8), (if b then 0xC7#8 else 0xFF#8).getMsbD k.val = !(b && (k.val == 2 || k.val == 3 || k.val == 4)) := by
    decide
  exact this x.1 ⟨m % 8, by omega⟩

/-- A data bit. -/
theorem data_bit {l : List Recorded} {m : Nat} (h : m < 8 * l.length) :
    (record l).getD (2 * m + 1) false = (dataBits l).getD m false := by
  rw [record_getD _ _ (by omega), if_neg (by omega), show (2 * m + 1) / 16 = m / 8 by omega,
    show (2 * m + 1) / 2 % 8 = m % 8 by omega]
  unfold dataBits
  rw [bitsOf_getD]
  unfold dat
  congr 1
  rw [List.getD_eq_getElem?_getD, List.getD_eq_getElem?_getD, List.getElem?_map]
  cases l[m / 8]? <;> rfl

theorem falseMark_getD : ∀ k, k < 32 → falseMark.getD k false = !(k == 26 || k == 27 || k == 28) := by
  have : ∀ k : Fin 32, falseMark.getD k.val false = !(k.val == 26 || k.val == 27 || k.val == 28) := by decide
  exact fun k hk => this ⟨k, hk⟩

theorem dataBits_length (l : List Recorded) : (dataBits l).length = 8 * l.length := by
  unfold dataBits
  rw [bitsOf_length, List.length_map]

/-- The clock bits of a mark, as the bits of C7 behind 24 ones. -/
theorem mark_clocks (track : List Bool) (p : Nat) (d : Byte) (h : MarkAt track p d) :
    p + 64 ≤ track.length ∧ ∀ k, k < 32 → track.getD (p + 2 * k) false = !(k == 26 || k == 27 || k == 28) := by
  rw [markAt_iff] at h
  refine ⟨h.1, fun k hk => ?_⟩
  by_cases h24 : k < 24
  · rw [h.2.1 k h24]
    have e : ∀ a, k < 24 → 24 ≤ a → (k == a) = false := fun a _ _ => by rw [beq_eq_false_iff_ne]; omega
    rw [e 26 h24 (by omega), e 27 h24 (by omega), e 28 h24 (by omega)]
    rfl
  · have := h.2.2.1 (k - 24) (by omega)
    rw [show p + 48 + 2 * (k - 24) = p + 2 * k by omega] at this
    rw [this]
    have e : ∀ j : Fin 8, (0xC7#8).getMsbD j.val = !(j.val + 24 == 26 || j.val + 24 == 27 || j.val + 24 == 28) := by decide
    have := e ⟨k - 24, by omega⟩
    simp only at this
    rw [this, show k - 24 + 24 = k by omega]

/-- The marks in a track of whole bytes are those recorded, if its data do not look like marks. -/
theorem markAt_record {l : List Recorded} (hn : NoFalse l) (p : Nat) (d : Byte) (h : MarkAt (record l) p d) :
    ∃ i, i + 3 < l.length ∧ p = 16 * i ∧ l.getD (i + 3) (false, 0) = (true, d) := by
  obtain ⟨h1, h2⟩ := mark_clocks _ _ _ h
  rw [record_length] at h1
  by_cases he : p % 2 = 0
  · obtain ⟨m, rfl⟩ : ∃ m, p = 2 * m := ⟨p / 2, by omega⟩
    have hk : ∀ k, k < 32 → (!((l.getD ((m + k) / 8) (false, 0)).1 && ((m + k) % 8 == 2 || (m + k) % 8 == 3 || (m + k) % 8 == 4))) =
        !(k == 26 || k == 27 || k == 28) := by
      intro k hk
      rw [← clock_bit (by omega), ← h2 k hk]
      congr 1; omega
    have h26 := hk 26 (by omega)
    have h25 := hk 25 (by omega)
    simp only [Bool.not_eq_eq_eq_not, Bool.not_not] at h26 h25
    have e26 : (l.getD ((m + 26) / 8) (false, 0)).1 = true ∧ ((m + 26) % 8 = 2 ∨ (m + 26) % 8 = 3 ∨ (m + 26) % 8 = 4) := by
      simpa [or_assoc] using h26
    have e25 : ¬ ((l.getD ((m + 25) / 8) (false, 0)).1 = true ∧ ((m + 25) % 8 = 2 ∨ (m + 25) % 8 = 3 ∨ (m + 25) % 8 = 4)) := by
      intro hc
      have : ((l.getD ((m + 25) / 8) (false, 0)).1 && ((m + 25) % 8 == 2 || (m + 25) % 8 == 3 || (m + 25) % 8 == 4)) = true := by
        simpa [or_assoc] using hc
      rw [this] at h25
      exact absurd h25 (by decide)
    have hm8 : (m + 26) % 8 = 2 := by
      rcases e26.2 with h | h | h
      · exact h
      · exfalso; apply e25; rw [show (m + 25) / 8 = (m + 26) / 8 by omega]; exact ⟨e26.1, by omega⟩
      · exfalso; apply e25; rw [show (m + 25) / 8 = (m + 26) / 8 by omega]; exact ⟨e26.1, by omega⟩
    refine ⟨m / 8, by omega, by omega, ?_⟩
    have hf : (l.getD (m / 8 + 3) (false, 0)).1 = true := by
      rw [show m / 8 + 3 = (m + 26) / 8 by omega]; exact e26.1
    have hs : (l.getD (m / 8 + 3) (false, 0)).2 = d := by
      rw [markAt_iff] at h
      apply BitVec.eq_of_getMsbD_eq
      intro k hk
      rw [← h.2.2.2 k hk, record_getD _ _ (by omega), if_neg (by omega), show (2 * m + 48 + 2 * k + 1) / 16 = m / 8 + 3 by omega,
        show (2 * m + 48 + 2 * k + 1) / 2 % 8 = k by omega]
    rw [← hf, ← hs]
  · exfalso
    obtain ⟨m, rfl⟩ : ∃ m, p = 2 * m + 1 := ⟨p / 2, by omega⟩
    apply hn
    have hb : ∀ k, k < 32 → (dataBits l).getD (m + k) false = falseMark.getD k false := by
      intro k hk
      rw [falseMark_getD k hk, ← h2 k hk, ← data_bit (by omega)]
      congr 1; omega
    have ha : At (dataBits l) m falseMark := by
      rw [at_iff _ _ _ (by decide)]
      rw [show falseMark.length = 32 from rfl, dataBits_length]
      exact ⟨by omega, hb⟩
    unfold At at ha
    exact (ha.isInfix).trans (List.drop_suffix _ _).isInfix

/-- A recorded mark is there. -/
theorem record_markAt {l : List Recorded} {i : Nat} {d : Byte} (hi : i + 3 < l.length)
    (hd : l.getD (i + 3) (false, 0) = (true, d)) (hp : ∀ k < 3, (l.getD (i + k) (false, 0)).1 = false) :
    MarkAt (record l) (16 * i) d := by
  rw [markAt_iff, record_length]
  refine ⟨by omega, ?_, ?_, ?_⟩
  · intro k hk
    rw [show 16 * i + 2 * k = 2 * (8 * i + k) by omega, clock_bit (by omega), show (8 * i + k) / 8 = i + k / 8 by omega,
      hp (k / 8) (by omega)]
    rfl
  · intro k hk
    rw [record_getD _ _ (by omega), if_pos (by omega), show (16 * i + 48 + 2 * k) / 16 = i + 3 by omega,
      show (16 * i + 48 + 2 * k) / 2 % 8 = k by omega, hd]
    rfl
  · intro k hk
    rw [record_getD _ _ (by omega), if_neg (by omega), show (16 * i + 48 + 2 * k + 1) / 16 = i + 3 by omega,
      show (16 * i + 48 + 2 * k + 1) / 2 % 8 = k by omega, hd]

end Fox.Fm

namespace Fox.Fm
open Fox.Spec Fox.S34
open FmDisk (cellsOfByte plain mark At MarkAt First Scanned Usual Recorded record Spaced dataBits falseMark NoFalse recordedMarks)

/-- The marks at which a scan stops by itself. -/
def knownMark (x : Nat × Byte) : Bool := x.2 == 0xFE#8 || x.2 == 0xFB#8

theorem scanned_of {track : List Bool} : ∀ (M : List (Nat × Byte)) (off : Nat),
    (∀ p d, off ≤ p → (MarkAt track p d ↔ (p, d) ∈ M)) → (∀ x ∈ M, off ≤ x.1) → M.Pairwise (fun a b => a.1 + 64 ≤ b.1) →
    Scanned track off (M.takeWhile knownMark)
  | [], off, h, _, _ => .none fun p d hp hm => by simpa using (h p d hp).1 hm
  | (p, d) :: M, off, h, ho, hs => by
    have hp : off ≤ p := ho _ (List.mem_cons_self ..)
    rw [List.pairwise_cons] at hs
    have hf : First track off p d := by
      refine ⟨hp, (h p d hp).2 (List.mem_cons_self ..), fun q e hq hlt hm => ?_⟩
      rcases List.mem_cons.1 ((h q e hq).1 hm) with he | hm'
      · injection he with e1 e2; omega
      · have := hs.1 _ hm'; simp only at this; omega
    rw [List.takeWhile_cons]
    split
    · rename_i hk
      have hk' : d = 0xFE#8 ∨ d = 0xFB#8 := by simpa [knownMark] using hk
      refine .next hf hk' (scanned_of M (p + 64) ?_ (fun x hx => hs.1 x hx) hs.2)
      intro q e hq
      rw [h q e (by omega), List.mem_cons]
      constructor
      · rintro (he | hm)
        · injection he with e1 e2; omega
        · exact hm
      · exact Or.inr
    · rename_i hk
      have hk' : ¬ (d = 0xFE#8 ∨ d = 0xFB#8) := by simpa [knownMark] using hk
      exact .stop hf (fun e => hk' (Or.inl e)) (fun e => hk' (Or.inr e))

theorem mem_marksOf {l : List Recorded} {p : Nat} {d : Byte} :
    (p, d) ∈ recordedMarks l ↔ ∃ i, i < l.length ∧ p = 16 * i - 48 ∧ l.getD i (false, 0) = (true, d) := by
  unfold recordedMarks
  rw [List.mem_filterMap]
  constructor
  · rintro ⟨i, hi, h⟩
    split at h
    · rename_i hc
      injection h with h
      injection h with h1 h2
      exact ⟨i, List.mem_range.1 hi, h1.symm, by rw [← hc, ← h2]⟩
    · cases h
  · rintro ⟨i, hi, rfl, hl⟩
    exact ⟨i, List.mem_range.2 hi, by rw [hl]; rfl⟩

theorem marksOf_spaced {l : List Recorded} (hs : Spaced l) : (recordedMarks l).Pairwise (fun a b => a.1 + 64 ≤ b.1) := by
  unfold recordedMarks
  rw [List.pairwise_filterMap]
  refine List.Pairwise.imp_of_mem ?_ (List.pairwise_lt_range (n := l.length))
  intro i j _ _ hij x hx y hy
  split at hx
  · rename_i hi
    split at hy
    · rename_i hj
      injection hx with hx
      injection hy with hy
      subst hx hy
      obtain ⟨h3, _⟩ := hs i hi
      obtain ⟨h4, hk⟩ := hs j hj
      simp only
      apply Nat.le_of_not_lt
      intro hlt
      have := hk (i - (j - 3)) (by omega)
      rw [show j - 3 + (i - (j - 3)) = i by omega, hi] at this
      cases this
    · cases hy
  · cases hx

/-- All marks of a track of whole bytes. -/
theorem record_marks {l : List Recorded} (hs : Spaced l) (hn : NoFalse l) (p : Nat) (d : Byte) :
    MarkAt (record l) p d ↔ (p, d) ∈ recordedMarks l := by
  rw [mem_marksOf]
  constructor
  · intro h
    obtain ⟨i, hi, rfl, hd⟩ := markAt_record hn p d h
    exact ⟨i + 3, hi, by omega, hd⟩
  · rintro ⟨i, hi, rfl, hd⟩
    obtain ⟨h3, hk⟩ := hs i (by rw [hd])
    have := record_markAt (l := l) (i := i - 3) (d := d) (by omega) (by rw [show i - 3 + 3 = i by omega]; exact hd) hk
    rw [show 16 * i - 48 = 16 * (i - 3) by omega]
    exact this

/-- What the scan of a track of whole bytes finds. -/
theorem record_scanned {l : List Recorded} (hs : Spaced l) (hn : NoFalse l) :
    Scanned (record l) 0 ((recordedMarks l).takeWhile knownMark) :=
  scanned_of _ 0 (fun p d _ => record_marks hs hn p d) (fun _ _ => Nat.zero_le _) (marksOf_spaced hs)

theorem record_usual {l : List Recorded} (hs : Spaced l) (hn : NoFalse l) (h0 : (l.getD 3 (false, 0)).1 = false)
    (hfc : ∀ i, 16 * i + 16 ≤ 5000 → l.getD i (false, 0) ≠ (true, 0xFC#8)) : Usual (record l) := by
  refine ⟨fun d h => ?_, fun p hp h => ?_⟩
  · obtain ⟨i, _, h2, h3⟩ := markAt_record hn 0 d h
    have : i = 0 := by omega
    subst this
    rw [h3] at h0
    cases h0
  · obtain ⟨i, _, rfl, h3⟩ := markAt_record hn p _ h
    exact hfc (i + 3) (by omega) h3

end Fox.Fm
