import Verif.Model.F86Length
import Verif.Proofs.F86
import Mathlib.Tactic.Linarith
import Mathlib.Algebra.Order.Field.Rat
/-
C138: the length of tracks in 86F files.
-/
namespace Fox
open S34 F86

/-! ## Specification -/

/-- The speed of the disk against the nominal one, that the flags of a file state: slower by 1, 1.5 or 2 percent, or faster. -/
def StatedShift : Nat × Bool → Rat
  | (1, false) => 1 + 1 / 100
  | (2, false) => 1 + 15 / 1000
  | (3, false) => 1 + 2 / 100
  | (1, true) => 1 / (1 + 1 / 100)
  | (2, true) => 1 / (1 + 15 / 1000)
  | (3, true) => 1 / (1 + 2 / 100)
  | _ => 1

/-- The cells of a turn: two for each bit, half of them in FM; more on a slower disk. -/
def TurnCells (enc : Encoding) (rate : Rate) (rpm : Rpm) (shift : Nat × Bool) : Rat :=
  (if enc = .fm then 1 else 2) * rate.bps * (60 / rpm.value) * StatedShift shift

/-- What the flags of a file and of a track can state. -/
def Statable (rate : Rate) (rpm : Rpm) (shift : Nat × Bool) : Prop :=
  (∃ tf, trackRate tf = some rate) ∧ (∃ tf, trackRpm tf = some rpm) ∧ ∃ flags, timeShift flags = shift

/-! ## Proofs -/

def allRates : List Rate := [.r250, .r300, .r500, .r1000]
def allRpms : List Rpm := [.r300, .r360]
def allShifts : List (Nat × Bool) := [(0, false), (1, false), (2, false), (3, false), (1, true), (2, true), (3, true)]
def allEncs : List Encoding := [.fm, .mfm, .gcr]

theorem statable_mem {rate : Rate} {rpm : Rpm} {shift : Nat × Bool} (h : Statable rate rpm shift) :
    rate ∈ allRates ∧ rpm ∈ allRpms ∧ shift ∈ allShifts := by
  obtain ⟨⟨a, ha⟩, ⟨b, hb⟩, c, hc⟩ := h
  refine ⟨?_, ?_, ?_⟩
  · unfold trackRate at ha
    split at ha
    · cases ha; decide
    · split at ha
      · cases ha; decide
      · split at ha
        · cases ha; decide
        · split at ha
          · cases ha; decide
          · cases ha
  · unfold trackRpm at hb
    split at hb
    · cases hb; decide
    · split at hb
      · cases hb; decide
      · cases hb
  · unfold timeShift at hc
    split at hc
    · subst hc; decide
    · subst hc
      have h3 : c / 32 % 4 = 1 ∨ c / 32 % 4 = 2 ∨ c / 32 % 4 = 3 := by omega
      rcases h3 with h3 | h3 | h3 <;> rw [h3] <;> by_cases h4 : c / 4096 % 2 = 1 <;> simp [h4, allShifts]

theorem enc_mem (e : Encoding) : e ∈ allEncs := by cases e <;> decide

theorem length_table : ∀ e ∈ allEncs, ∀ r ∈ allRates, ∀ v ∈ allRpms, ∀ s ∈ allShifts, s ≠ (2, false) →
    (bitLength e r v s 0 : Rat) ≤ TurnCells e r v s ∧ TurnCells e r v s < bitLength e r v s 0 + 1 ∧ bitLength e r v s 0 < 2 ^ 20 := by decide +kernel

theorem satAdd_extra (a : Nat) (x : Int) (h : a < 2 ^ 20) (hx : x < 2 ^ 31) : satAdd a x = ((a : Int) + x).toNat := by
  unfold satAdd; omega

theorem bitLength_extra (enc : Encoding) (rate : Rate) (rpm : Rpm) (shift : Nat × Bool) (x : Int) (h : bitLength enc rate rpm shift 0 < 2 ^ 20)
    (hx : x < 2 ^ 31) : bitLength enc rate rpm shift x = ((bitLength enc rate rpm shift 0 : Int) + x).toNat := by
  unfold bitLength at h ⊢
  simp only at h ⊢
  generalize (Rates.fl _).floor.toNat = a at h ⊢
  have e : satAdd a 0 = a := by unfold satAdd at h ⊢; omega
  rw [e] at h ⊢
  exact satAdd_extra a x h hx

/-- A track made of a stream of bytes has the bits of the bytes, as far as the count goes. -/
theorem ofStream_bits (rnd : Nat → Bool) (data : List Byte) (n : Nat) (weak : Option (List Byte)) (t : Track) (hd : data ≠ [])
    (h : Track.ofStream rnd data n weak = .ok t) : t.data.bits.bits = (bitsOf data).take n := by
  unfold Track.ofStream at h
  rw [ite_eq_iff] at h
  rcases h with ⟨_, h⟩ | ⟨_, h⟩
  · cases h
  simp only at h
  rw [if_neg hd] at h
  cases hs : Mfm.new (bitsOf data) (some n) (weak.map bitsOf) with
  | error e => rw [hs] at h; cases h
  | ok s =>
    rw [hs] at h
    have hb : s.bits.bits = (bitsOf data).take n := by
      unfold Mfm.new at hs
      simp only at hs
      split at hs
      · cases hs
      · cases hs; rfl
    simp only at h
    rw [ite_eq_iff] at h
    rcases h with ⟨_, h⟩ | ⟨_, h⟩
    · split at h
      · cases h
      · rename_i cm _
        obtain ⟨c, h9⟩ := scanMetadata_cursor { s with clockMap := { s.clockMap with bits := cm } } rnd (scanMarkers s)
        cases h
        simp only [h9]; exact hb
    · rw [ite_eq_iff] at h
      rcases h with ⟨_, h⟩ | ⟨_, h⟩
      · split at h
        · cases h
        · cases h; exact hb
      · cases h; exact hb

/-- The words of a track that are read. -/
def wordsRead (shift : Nat × Bool) : Option Int → Nat
  | some x => (satAdd (lengthWords shift * 16) x + 15) / 16
  | none => lengthWords shift

theorem trackLength_stated (shift : Nat × Bool) (extra : Option Int) (enc : Encoding) (rate : Rate) (rpm : Rpm) (raw n cells : Nat)
    (h : trackLength bitLength shift false extra enc rate rpm raw = .ok (n, cells)) :
    cells = bitLength enc rate rpm shift (extra.getD 0) ∧
    n = 2 * wordsRead shift extra ∧ n ≤ raw := by
  unfold trackLength at h
  rw [if_neg (by decide)] at h
  simp only at h
  rw [ite_eq_iff] at h
  rcases h with ⟨_, h⟩ | ⟨hr, h⟩
  · cases h
  · injection h with h
    injection h with h1 h2
    refine ⟨h2.symm, ?_, by omega⟩
    cases extra with
    | none => simp only at h1; simp only [wordsRead]; omega
    | some x =>
      simp only at h1
      simp only [wordsRead]
      split at h1 <;> omega

/-! ## C138 -/

/-- The number of cells a track of an 86F file gets: of a file with no absolute counts, whose tracks state a rate and a speed, and a number of
cells more or less than usual. -/
def LoadedCells (rnd : Nat → Bool) (shift : Nat × Bool) (extra : Option Int) (enc : Encoding) (rate : Rate) (rpm : Rpm) (cells : Nat) : Prop :=
  ∃ raw n count data weak t, trackLength bitLength shift false extra enc rate rpm raw = .ok (n, count) ∧ data.length = n ∧ n ≠ 0 ∧
    Track.ofStream rnd data count weak = .ok t ∧ t.data.bits.bits.length = cells

theorem loaded_min {rnd : Nat → Bool} {shift : Nat × Bool} {extra : Option Int} {enc : Encoding} {rate : Rate} {rpm : Rpm} {cells : Nat}
    (h : LoadedCells rnd shift extra enc rate rpm cells) : cells = min (bitLength enc rate rpm shift (extra.getD 0))
      (16 * wordsRead shift extra) := by
  obtain ⟨raw, n, count, data, weak, t, h1, h2, h3, h4, rfl⟩ := h
  obtain ⟨a, b, _⟩ := trackLength_stated shift extra enc rate rpm raw n count h1
  rw [ofStream_bits rnd data count weak t (by rintro rfl; exact h3 (by simpa using h2.symm)) h4, List.length_take, bitsOf_length, h2, ← a]
  omega

theorem words_table : ∀ s ∈ allShifts, 12254 ≤ lengthWords s ∧ lengthWords s ≤ 12750 := by decide

/-- **C138 (partial).** A track loaded from an 86F file has the whole cells of a turn at the stated rate and speed of disk, plus the extra
cells stated.  Missing: a disk slower by 1.5 percent (`C138_false_slow`), and tracks with more cells than the words usual for double and high density
hold (`C138_false_fast`, `C138_false_rate`). -/
theorem C138_turn_partial (rnd : Nat → Bool) (shift : Nat × Bool) (extra : Option Int) (enc : Encoding) (rate : Rate) (rpm : Rpm) (cells : Nat)
    (hs : Statable rate rpm shift) (hx : ∀ x, extra = some x → -100000 ≤ x ∧ x < 2 ^ 31) (hne : shift ≠ (2, false))
    (hfit : TurnCells enc rate rpm shift ≤ 16 * lengthWords shift) (h : LoadedCells rnd shift extra enc rate rpm cells) :
    cells = ((TurnCells enc rate rpm shift).floor + extra.getD 0).toNat := by
  obtain ⟨m1, m2, m3⟩ := statable_mem hs
  obtain ⟨t1, t2, t3⟩ := length_table enc (enc_mem enc) rate m1 rpm m2 shift m3 hne
  obtain ⟨w1, w2⟩ := words_table shift m3
  have e := loaded_min h
  have hf : (TurnCells enc rate rpm shift).floor = (bitLength enc rate rpm shift 0 : Int) := by
    have a : (bitLength enc rate rpm shift 0 : Int) ≤ (TurnCells enc rate rpm shift).floor := Rat.le_floor_iff.2 (by exact_mod_cast t1)
    have b : (TurnCells enc rate rpm shift).floor < (bitLength enc rate rpm shift 0 : Int) + 1 := Rat.floor_lt_iff.2 (by exact_mod_cast t2)
    omega
  have hle : bitLength enc rate rpm shift 0 ≤ 16 * lengthWords shift := by
    have := le_trans t1 hfit
    exact_mod_cast this
  rw [hf, e]
  cases extra with
  | none =>
    simp only [Option.getD_none, wordsRead]
    omega
  | some x =>
    obtain ⟨x1, x2⟩ := hx x rfl
    simp only [Option.getD_some, wordsRead]
    rw [bitLength_extra enc rate rpm shift x t3 x2]
    unfold satAdd
    omega

/-- **C138.** At the usual rates, with no shift, these are the numbers: 100000 cells for 250 kbps at 300 RPM and 300 kbps at 360 RPM, 166666 for
500 kbps at 360 RPM, 200000 for 500 kbps at 300 RPM; in FM, half of them. -/
theorem C138_nominal (rnd : Nat → Bool) (rate : Rate) (rpm : Rpm) (cells : Nat) :
    (LoadedCells rnd (0, false) none .mfm rate rpm cells → ∀ n, ((rate, rpm), n) ∈ [((Rate.r250, Rpm.r300), 100000), ((.r300, .r360), 100000),
      ((.r500, .r360), 166666), ((.r500, .r300), 200000)] → cells = n) ∧
    (LoadedCells rnd (0, false) none .fm rate rpm cells → ∀ n, ((rate, rpm), n) ∈ [((Rate.r250, Rpm.r300), 50000), ((.r300, .r360), 50000),
      ((.r500, .r360), 83333), ((.r500, .r300), 100000)] → cells = n) := by
  constructor
  · intro h n hn
    rw [loaded_min h]
    have : ∀ y ∈ [((Rate.r250, Rpm.r300), 100000), ((.r300, .r360), 100000), ((.r500, .r360), 166666), ((.r500, .r300), 200000)],
      min (bitLength .mfm y.1.1 y.1.2 (0, false) 0) (16 * lengthWords (0, false)) = y.2 := by decide +kernel
    simpa only [Option.getD_none, wordsRead] using this _ hn
  · intro h n hn
    rw [loaded_min h]
    have : ∀ y ∈ [((Rate.r250, Rpm.r300), 50000), ((.r300, .r360), 50000), ((.r500, .r360), 83333), ((.r500, .r300), 100000)],
      min (bitLength .fm y.1.1 y.1.2 (0, false) 0) (16 * lengthWords (0, false)) = y.2 := by decide +kernel
    simpa only [Option.getD_none, wordsRead] using this _ hn

/-- **C138 is false of the code: 1.5 percent slower.** Such a disk is taken as slower by 1 percent: at 250 kbps and 300 RPM, a track has 500 cells
too few. -/
theorem C138_false_slow (rnd : Nat → Bool) (cells : Nat) (h : LoadedCells rnd (2, false) none .mfm .r250 .r300 cells) :
    cells = 101000 ∧ TurnCells .mfm .r250 .r300 (2, false) = 101500 := by
  rw [loaded_min h]
  decide +kernel

/-- **C138 is false of the code: faster disks.** The words read for a track of a faster disk do not hold its cells: at 500 kbps and 300 RPM, the last 3, 4
or 14 are missing. -/
theorem C138_false_fast (rnd : Nat → Bool) (k cells : Nat) (hk : k = 1 ∨ k = 2 ∨ k = 3)
    (h : LoadedCells rnd (k, true) none .mfm .r500 .r300 cells) :
    (cells + 3 : Rat) ≤ TurnCells .mfm .r500 .r300 (k, true) ∧ TurnCells .mfm .r500 .r300 (k, true) < cells + 15 := by
  rw [loaded_min h]
  rcases hk with rfl | rfl | rfl <;> decide +kernel

/-- **C138 is false of the code: 1000 kbps.** Of a track of extended density on a disk marked as of high density, half the cells are read. -/
theorem C138_false_rate (rnd : Nat → Bool) (cells : Nat) (h : LoadedCells rnd (0, false) none .mfm .r1000 .r300 cells) :
    cells = 200000 ∧ TurnCells .mfm .r1000 .r300 (0, false) = 400000 := by
  rw [loaded_min h]
  decide +kernel

/-- Tracks are loaded: 25000 bytes at 500 kbps, 300 RPM, with no shift. -/
example (rnd : Nat → Bool) : LoadedCells rnd (0, false) none .mfm .r500 .r300 200000 := by
  obtain ⟨t, h1, h2, _⟩ := ofStream_cells rnd (List.replicate 25000 0#8) 200000 (by rw [List.length_replicate]) none (by intro w e; cases e)
  refine ⟨25000, 25000, 200000, _, none, t, ?_, List.length_replicate, by decide, h1, ?_⟩
  · have : bitLength .mfm .r500 .r300 (0, false) 0 = 200000 := by decide +kernel
    unfold trackLength
    simp only [Option.getD_none, this]
    rfl
  · rw [h2]
    show ((bitsOf _).take _).length = _
    rw [List.length_take, bitsOf_length, List.length_replicate]; rfl

example : Statable .r500 .r300 (0, false) := ⟨⟨0, by decide⟩, ⟨0, by decide⟩, 0, by decide⟩

end Fox
