import Verif.Proofs.Chs
/-
Property theorems C12, C13, C14, C15 (disk addressing).
-/
namespace Fox
open Spec

/-! ## C12: LBA and CHS addresses are inverse bijections -/

/-- C12, for layouts whose first sector is numbered 0 or 1 (every standard format of the library).
Missing: first sector numbers of 2 and above, where the claim is false (`C12_false_high_offset`). -/
theorem C12_lba_chs_bijection_partial (g : Layout) (hoff : g.sOff ≤ 1) (hne : 0 < sectorCount g) :
    -- an LBA below the sector count converts to an address of the layout, and back
    (∀ n, n < sectorCount g → ∃ x, g.fromLbaChecked n = .ok (some x) ∧ InLayout g x ∧
        g.toLba x = n) ∧
    -- every address of the layout is reached from exactly one LBA, its own
    (∀ x, InLayout g x → g.toLba x < sectorCount g ∧
        ∀ n, g.fromLbaChecked n = .ok (some x) ↔ n = g.toLba x) ∧
    -- LBAs at or above the sector count give `None`
    (∀ n, sectorCount g ≤ n → g.fromLbaChecked n = .ok none) := by
  have hpos := hne
  unfold sectorCount at hpos
  have hs : 0 < g.s := Nat.pos_of_mul_pos_left hpos
  have hch : 0 < g.c * g.h := Nat.pos_of_mul_pos_right hpos
  have hh : 0 < g.h := Nat.pos_of_mul_pos_left hch
  have hc : 0 < g.c := Nat.pos_of_mul_pos_right hch
  have hhs : g.h * g.s ≠ 0 := Nat.ne_of_gt (Nat.mul_pos hh hs)
  have fwd : ∀ n, n < sectorCount g →
      g.fromLbaChecked n = .ok (some ⟨n / (g.h * g.s), n / g.s % g.h, n % g.s + g.sOff⟩) := by
    intro n hn
    obtain ⟨⟨h1, h2, _, _⟩, _⟩ := lba_addr g n hn
    have h3 := Nat.mod_lt n hs
    simp only at h1 h2
    unfold Layout.fromLbaChecked Layout.fromLba
    rw [if_neg hhs]
    simp only
    rw [if_neg (by omega)]
  have out : ∀ n, sectorCount g ≤ n → g.fromLbaChecked n = .ok none := by
    intro n hn
    have h1 : g.c ≤ n / (g.h * g.s) := by
      rw [Nat.le_div_iff_mul_le (Nat.mul_pos hh hs), ← Nat.mul_assoc]; exact hn
    unfold Layout.fromLbaChecked Layout.fromLba
    rw [if_neg hhs]
    simp only
    rw [if_pos (Or.inl h1)]
  refine ⟨?_, ?_, out⟩
  · intro n hn
    exact ⟨_, fwd n hn, (lba_addr g n hn).1, by rw [toLba_eq]; exact (lba_addr g n hn).2⟩
  · intro x hx
    have hlt := lbaOf_lt hx
    rw [toLba_eq]
    refine ⟨hlt, fun n => ⟨fun h => ?_, fun h => ?_⟩⟩
    · by_cases hn : n < sectorCount g
      · rw [fwd n hn] at h
        obtain ⟨ha, hb⟩ := lba_addr g n hn
        simp only [Except.ok.injEq, Option.some.injEq] at h
        rw [← hb, h]
      · rw [out n (by omega)] at h; simp at h
    · subst h
      obtain ⟨ha, hb⟩ := lba_addr g _ hlt
      rw [fwd _ hlt, lbaOf_inj ha hx hb]

-- a 3.5" 1.44M layout meets the hypotheses
example : (⟨80, 2, 18, 1, 512⟩ : Layout).sOff ≤ 1 ∧ 0 < sectorCount ⟨80, 2, 18, 1, 512⟩ := by decide

/-- C12 is false of the code when the first sector number is 2 or more: the upper bound test
`s > spt` ignores the offset, so the last sectors of a track have an LBA but no address. -/
theorem C12_false_high_offset :
    ∃ g : Layout, 0 < sectorCount g ∧ ∃ x, InLayout g x ∧
      g.fromLbaChecked (g.toLba x) = .ok none :=
  ⟨⟨40, 2, 9, 2, 512⟩, by decide, ⟨0, 0, 10⟩, by decide, by rfl⟩

/-- With an empty layout the conversion divides by zero. -/
theorem C12_empty_layout_panics (g : Layout) (h : g.h * g.s = 0) (n : Nat) :
    g.fromLbaChecked n = .error .panic := if_pos h

/-- `contains` accepts exactly the addresses of the layout plus those whose sector number lies below
the first sector number. -/
theorem C12_contains_iff (g : Layout) (x : Chs) :
    g.contains x = true ↔ InLayout g x ∨ (x.c < g.c ∧ x.h < g.h ∧ 0 < g.s ∧ x.s < g.sOff) := by
  unfold Layout.contains InLayout
  simp only [Bool.and_eq_true, decide_eq_true_eq]
  omega

/-- So `contains` is not injective under `to_lba`: sector 0 of a 1-based layout is "contained" and
shares the LBA of sector 1. -/
theorem C12_false_contains :
    ∃ g : Layout, ∃ x y : Chs, g.contains x ∧ g.contains y ∧ x ≠ y ∧ g.toLba x = g.toLba y :=
  ⟨⟨40, 2, 9, 1, 512⟩, ⟨0, 0, 0⟩, ⟨0, 0, 1⟩, by decide, by decide, by decide, by decide⟩

/-! ## C13: CHS iteration visits every sector exactly once in LBA order -/

/-- C13 for sectors: iterating a layout yields `sectorCount` addresses, the k-th being the address of
the layout with LBA k, and then ends.  (`fuel` is the number of `next` calls made by the loop.) -/
theorem C13_chs_iter (g : Layout) (hne : 0 < sectorCount g) (hfit : g.s - 1 + g.sOff ≤ 255) :
    ∃ xs, g.iterTake (sectorCount g + 1) none = .ok (xs, true) ∧
      xs.length = sectorCount g ∧
      (∀ k (hk : k < xs.length), InLayout g xs[k] ∧ g.toLba xs[k] = k) ∧
      (∀ x, InLayout g x → x ∈ xs) ∧ xs.Nodup := by
  obtain ⟨h0, e0⟩ := lba_addr g 0 hne
  simp only [Nat.zero_div, Nat.zero_mod, Nat.zero_add] at h0 e0
  obtain ⟨ys, h1, h2, h3⟩ := iterTake_from hfit (sectorCount g - 1) ⟨0, 0, g.sOff⟩ h0 (by omega)
  have hlen : sectorCount g - 1 + 1 = sectorCount g := by omega
  rw [hlen] at h1
  have key : ∀ k (hk : k < ((⟨0, 0, g.sOff⟩ : Chs) :: ys).length),
      InLayout g ((⟨0, 0, g.sOff⟩ : Chs) :: ys)[k] ∧
        lbaOf g ((⟨0, 0, g.sOff⟩ : Chs) :: ys)[k] = k := by
    intro k hk
    cases k with
    | zero => exact ⟨h0, e0⟩
    | succ k =>
      have := h3 k (by simpa using hk)
      refine ⟨by simpa using this.1, ?_⟩
      have := this.2
      simp only [List.getElem_cons_succ]; omega
  refine ⟨⟨0, 0, g.sOff⟩ :: ys, ?_, by simp [h2]; omega, ?_, ?_, ?_⟩
  · rw [Layout.iterTake]; simp [Layout.iterNext, h1]
  · intro k hk; rw [toLba_eq]; exact key k hk
  · intro x hx
    have hlt := lbaOf_lt hx
    have hk : lbaOf g x < ((⟨0, 0, g.sOff⟩ : Chs) :: ys).length := by simp [h2]; omega
    have := key _ hk
    rw [← lbaOf_inj this.1 hx this.2]
    exact List.getElem_mem hk
  · rw [List.nodup_iff_pairwise_ne, List.pairwise_iff_getElem]
    intro i j hi hj hij e
    have a := (key i hi).2
    have b := (key j hj).2
    rw [e, b] at a
    omega

example : 0 < sectorCount ⟨80, 2, 11, 0, 512⟩ ∧ (11 : Nat) - 1 + 0 ≤ 255 := by decide

/-- C13 for tracks. -/
theorem C13_ch_iter (geom : Ch) (hc : 0 < geom.c) (hh : 0 < geom.h) :
    ∃ xs, Ch.iterTake geom (geom.c * geom.h + 1) none = (xs, true) ∧
      xs.length = geom.c * geom.h ∧
      (∀ k (hk : k < xs.length), (xs[k]).c < geom.c ∧ (xs[k]).h < geom.h ∧
        (xs[k]).c * geom.h + (xs[k]).h = k) := by
  have step : ∀ (m : Nat) (x : Ch), x.c < geom.c → x.h < geom.h →
      x.c * geom.h + x.h + m + 1 = geom.c * geom.h →
      ∃ xs, Ch.iterTake geom (m + 1) (some x) = (xs, true) ∧ xs.length = m ∧
        ∀ k (hk : k < xs.length), (xs[k]).c < geom.c ∧ (xs[k]).h < geom.h ∧
          (xs[k]).c * geom.h + (xs[k]).h = x.c * geom.h + x.h + 1 + k := by
    have nxt : ∀ x : Ch, x.c < geom.c → x.h < geom.h →
        (∃ y, x.nextTrack geom = some y ∧ y.c < geom.c ∧ y.h < geom.h ∧
          y.c * geom.h + y.h = x.c * geom.h + x.h + 1) ∨
        (x.nextTrack geom = none ∧ x.c * geom.h + x.h + 1 = geom.c * geom.h) := by
      intro x h1 h2
      unfold Ch.nextTrack
      by_cases c1 : x.h < geom.h - 1
      · left; exact ⟨_, if_pos c1, h1, by show x.h + 1 < _; omega, by show x.c * geom.h + (x.h + 1) = _; omega⟩
      · rw [if_neg c1]
        have e : x.h + 1 = geom.h := by omega
        by_cases c2 : x.c < geom.c - 1
        · left
          refine ⟨_, if_pos c2, by show x.c + 1 < _; omega, by show 0 < _; omega, ?_⟩
          show (x.c + 1) * geom.h + 0 = _
          rw [Nat.add_mul]; omega
        · right
          refine ⟨if_neg c2, ?_⟩
          have e4 : x.c + 1 = geom.c := by omega
          rw [← e4, Nat.add_mul]; omega
    have lt : ∀ y : Ch, y.c < geom.c → y.h < geom.h → y.c * geom.h + y.h < geom.c * geom.h := by
      intro y h1 h2
      have := Nat.mul_le_mul_right geom.h (Nat.succ_le_of_lt h1)
      rw [Nat.succ_mul] at this
      omega
    intro m
    induction m with
    | zero =>
      intro x h1 h2 e
      rcases nxt x h1 h2 with ⟨y, _, g1, g2, e2⟩ | ⟨e1, _⟩
      · have := lt y g1 g2; omega
      · exact ⟨[], by simp [Ch.iterTake, Ch.iterNext, e1], rfl, by simp⟩
    | succ m ih =>
      intro x h1 h2 e
      rcases nxt x h1 h2 with ⟨y, e1, g1, g2, e2⟩ | ⟨_, e2⟩
      · obtain ⟨ys, p1, p2, p3⟩ := ih y g1 g2 (by omega)
        refine ⟨y :: ys, ?_, by simp [p2], ?_⟩
        · rw [Ch.iterTake]; simp [Ch.iterNext, e1, p1]
        · intro k hk
          cases k with
          | zero => exact ⟨g1, g2, by simpa using e2⟩
          | succ k =>
            have := p3 k (by simpa using hk)
            simp only [List.getElem_cons_succ]; omega
      · omega
  have hpos := Nat.mul_pos hc hh
  obtain ⟨ys, h1, h2, h3⟩ := step (geom.c * geom.h - 1) ⟨0, 0⟩ hc hh (by simp; omega)
  have hlen : geom.c * geom.h - 1 + 1 = geom.c * geom.h := by omega
  rw [hlen] at h1
  refine ⟨⟨0, 0⟩ :: ys, ?_, by simp [h2]; omega, ?_⟩
  · rw [Ch.iterTake]; simp [Ch.iterNext, h1]
  · intro k hk
    cases k with
    | zero => exact ⟨hc, hh, by simp⟩
    | succ k =>
      have := h3 k (by simpa using hk)
      simp only [List.getElem_cons_succ]
      simp only [Nat.zero_mul, Nat.zero_add] at this
      omega

/-- Skipping `k` sectors with `offset_sectors` is adding `k` to the LBA, and gives `None` exactly
when that leaves the disk. -/
theorem C13_offset_sectors (g : Layout) (hfit : g.s - 1 + g.sOff ≤ 255) :
    ∀ (k : Nat) (x : Chs), InLayout g x →
      (g.toLba x + k < sectorCount g →
        ∃ y, g.offsetSectors k x = .ok (some y) ∧ InLayout g y ∧ g.toLba y = g.toLba x + k) ∧
      (sectorCount g ≤ g.toLba x + k → g.offsetSectors k x = .ok none) := by
  intro k
  induction k with
  | zero =>
    intro x hx
    refine ⟨fun _ => ⟨x, rfl, hx, rfl⟩, fun h => ?_⟩
    rw [toLba_eq] at h
    have := lbaOf_lt hx
    omega
  | succ k ih =>
    intro x hx
    simp only [toLba_eq] at *
    rcases nextSector_spec hx hfit with ⟨y, e1, hy, e2⟩ | ⟨e1, e2⟩
    · obtain ⟨p, q⟩ := ih y hy
      refine ⟨fun h => ?_, fun h => ?_⟩
      · obtain ⟨z, z1, z2, z3⟩ := p (by omega)
        exact ⟨z, by simp [Layout.offsetSectors, e1, z1], z2, by omega⟩
      · simp [Layout.offsetSectors, e1, q (by omega)]
    · refine ⟨fun h => by omega, fun _ => by simp [Layout.offsetSectors, e1]⟩

/-! ## C14: sector size codes -/

/-- The byte size of every legal or over-large code below 57 is `128 * 2^n` capped at 8192; larger
codes overflow the shift (`C14_false_large_codes`). Together: every `u8` code. -/
theorem C14_n_size_partial (n : Nat) (h : n < 57) : nSize n = min 8192 (128 * 2 ^ n) := by
  unfold nSize maxSectorSize
  have h1 : 2 ^ n ≤ 2 ^ 56 := Nat.pow_le_pow_right (by omega) (by omega)
  rw [Nat.mod_eq_of_lt (show n < 64 by omega), Nat.mod_eq_of_lt (by omega)]

/-- Codes 57..63 give size 0 and codes from 64 wrap around (64 behaves like 0): the capped formula
is false for them. -/
theorem C14_false_large_codes :
    (∀ n, 57 ≤ n → n < 64 → nSize n = 0) ∧ (∀ n, nSize (n + 64) = nSize n) ∧
    nSize 64 = 128 ∧ nSize 255 = 0 := by
  refine ⟨?_, ?_, by decide, by decide⟩
  · intro n h1 h2
    obtain rfl | rfl | rfl | rfl | rfl | rfl | rfl : n = 57 ∨ n = 58 ∨ n = 59 ∨ n = 60 ∨ n = 61 ∨
      n = 62 ∨ n = 63 := by omega
    all_goals decide
  · intro n; unfold nSize; rw [Nat.add_mod_right]

/-- Exact behaviour of `bytes_to_n`: the smallest code `n` with `size < 129 * 2^n`. -/
theorem C14_bytesToN_least (size n : Nat) : bytesToN size ≤ n ↔ size < 129 * 2 ^ n := by
  induction n generalizing size with
  | zero =>
    rw [bytesToN]; split
    · omega
    · omega
  | succ n ih =>
    rw [bytesToN]; split
    · have := ih (size / 2)
      rw [Nat.pow_succ]; omega
    · have : 0 < 2 ^ n := Nat.pow_pos (by omega)
      rw [Nat.pow_succ]; omega

/-- Round trip for the legal codes 0..6, i.e. every code whose size is not capped. -/
theorem C14_round_trip (n : Nat) (h : n ≤ 6) : bytesToN (nSize n) = n := by
  obtain rfl | rfl | rfl | rfl | rfl | rfl | rfl : n = 0 ∨ n = 1 ∨ n = 2 ∨ n = 3 ∨ n = 4 ∨ n = 5 ∨
    n = 6 := by omega
  all_goals (apply Nat.le_antisymm
             · rw [C14_bytesToN_least]; decide
             · apply Nat.le_of_not_lt
               intro h
               have h := Nat.le_sub_one_of_lt h
               revert h
               first
                 | (rw [C14_bytesToN_least]; decide)
                 | (intro h; omega))

/-- For a size that is 128 times a power of two the code found is exactly the right one. -/
theorem C14_bytesToN_pow (n : Nat) : bytesToN (128 * 2 ^ n) = n := by
  apply Nat.le_antisymm
  · rw [C14_bytesToN_least]
    have : 0 < 2 ^ n := Nat.pow_pos (by omega)
    omega
  · apply Nat.le_of_not_lt
    intro h
    obtain ⟨m, rfl⟩ : ∃ m, n = m + 1 := ⟨n - 1, by omega⟩
    have h : bytesToN (128 * 2 ^ (m + 1)) ≤ m := by omega
    rw [C14_bytesToN_least, Nat.pow_succ] at h
    have : 0 < 2 ^ m := Nat.pow_pos (by omega)
    omega

/-- "A size converts to the smallest code that holds it" is false: 257 bytes get code 1, whose
sectors hold 256. -/
theorem C14_false_holds : ∃ size, nSize (bytesToN size) < size ∧ size ≤ 8192 := by
  refine ⟨257, ?_, by omega⟩
  have : bytesToN 257 = 1 := by
    apply Nat.le_antisymm
    · rw [C14_bytesToN_least]; decide
    · apply Nat.le_of_not_lt
      intro h
      have h : bytesToN 257 ≤ 0 := by omega
      rw [C14_bytesToN_least] at h; simp at h
  rw [this]; decide

/-! ## C15: raw offsets and CHS agree -/

/-- C15 for first sector numbers 0 and 1 (see C12 for the others). -/
theorem C15_raw_offset_partial (g : Layout) (hoff : g.sOff ≤ 1) (hsz : 0 < g.size) :
    (∀ off, off < sectorCount g * g.size →
      ∃ x r, g.fromRawOffset off = some (x, r) ∧ InLayout g x ∧ r < g.size ∧
        g.toRawOffset x = some (off - r) ∧ r ≤ off) ∧
    (∀ x, ¬ InLayout g x → g.sOff ≤ x.s → g.toRawOffset x = none) ∧
    (∀ off, 0 < sectorCount g → sectorCount g * g.size ≤ off → g.fromRawOffset off = none) := by
  refine ⟨?_, ?_, ?_⟩
  · intro off hlt
    have hn : off / g.size < sectorCount g := by
      rw [Nat.div_lt_iff_lt_mul hsz]; exact hlt
    obtain ⟨b, _, _⟩ := C12_lba_chs_bijection_partial g hoff (Nat.lt_of_le_of_lt (Nat.zero_le _) hn)
    obtain ⟨x, hx, hin, hl⟩ := b _ hn
    have hx' : g.fromLba (off / g.size) = some x := by
      unfold Layout.fromLbaChecked at hx
      split at hx
      · simp at hx
      · simpa using hx
    have hm := Nat.div_add_mod off g.size
    refine ⟨x, off % g.size, by simp [Layout.fromRawOffset, hx'], hin, Nat.mod_lt _ hsz, ?_, Nat.mod_le _ _⟩
    unfold Layout.toRawOffset
    rw [if_pos ((C12_contains_iff g x).2 (Or.inl hin)), hl, Nat.mul_comm]
    congr 1; omega
  · intro x hx hs
    unfold Layout.toRawOffset
    rw [if_neg]
    rw [C12_contains_iff]
    rintro (h | h)
    · exact hx h
    · omega
  · intro off hne hle
    obtain ⟨_, _, b⟩ := C12_lba_chs_bijection_partial g hoff hne
    have hn : sectorCount g ≤ off / g.size := by rw [Nat.le_div_iff_mul_le hsz]; exact hle
    have hx := b _ hn
    have hx' : g.fromLba (off / g.size) = none := by
      unfold Layout.fromLbaChecked at hx
      split at hx
      · simp at hx
      · simpa using hx
    simp [Layout.fromRawOffset, hx']

example : (⟨80, 2, 18, 1, 512⟩ : Layout).sOff ≤ 1 ∧ 0 < (512 : Nat) ∧
    1474559 < sectorCount ⟨80, 2, 18, 1, 512⟩ * 512 := by decide

/-- "Addresses outside the layout have no raw offset" fails for sector numbers below the first one. -/
theorem C15_false_sector_zero : ∃ g : Layout, ∃ x, ¬ InLayout g x ∧ (g.toRawOffset x).isSome :=
  ⟨⟨40, 2, 9, 1, 512⟩, ⟨0, 0, 0⟩, by decide, by decide⟩

end Fox
