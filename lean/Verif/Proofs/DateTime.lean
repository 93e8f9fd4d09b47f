import Verif.Spec.DateTime

/-! Lemmas about the calendar. -/

namespace Fox

open DateTime

theorem isLeap_iff (y : Nat) : isLeap y = true ↔ IsLeapYear y := by
  unfold isLeap IsLeapYear
  split
  · constructor <;> intro <;> first | rfl | omega
  · split
    · constructor <;> intro h
      · cases h
      · omega
    · split
      · constructor <;> intro <;> first | rfl | omega
      · constructor <;> intro h
        · cases h
        · omega

theorem daysInYear_eq (y : Nat) : daysInYear y = if IsLeapYear y then 366 else 365 := by
  unfold daysInYear
  by_cases h : IsLeapYear y
  · rw [if_pos h, if_pos ((isLeap_iff y).2 h)]
  · rw [if_neg h, if_neg (fun h' => h ((isLeap_iff y).1 h'))]

theorem daysBefore_succ (y : Nat) (hy : 1 ≤ y) : daysBeforeYear (y + 1) = daysBeforeYear y + daysInYear y := by
  rw [daysInYear_eq]
  unfold daysBeforeYear
  obtain ⟨k, rfl⟩ : ∃ k, y = k + 1 := ⟨y - 1, by omega⟩
  simp only [Nat.add_sub_cancel]
  by_cases h : IsLeapYear (k + 1)
  · rw [if_pos h]; unfold IsLeapYear at h; omega
  · rw [if_neg h]; unfold IsLeapYear at h; omega

theorem daysBefore_mono : ∀ (k y : Nat), 1 ≤ y → daysBeforeYear y ≤ daysBeforeYear (y + k)
  | 0, _, _ => Nat.le_refl _
  | k + 1, y, hy => by
    have := daysBefore_mono k y hy
    have h := daysBefore_succ (y + k) (by omega)
    rw [← Nat.add_assoc, h]
    omega

theorem daysBefore_lt {y y' : Nat} (hy : 1 ≤ y) (h : y < y') : daysBeforeYear y + daysInYear y ≤ daysBeforeYear y' := by
  rw [← daysBefore_succ y hy]
  have := daysBefore_mono (y' - (y + 1)) (y + 1) (by omega)
  rw [show y + 1 + (y' - (y + 1)) = y' by omega] at this
  exact this

/-- The month table, and where each month begins. -/
theorem monthTable (y : Nat) : ((if isLeap y then [31, 29, 31, 30, 31, 30, 31, 31, 30, 31, 30, 31]
     else [31, 28, 31, 30, 31, 30, 31, 31, 30, 31, 30, 31]) : List Nat) = (List.range 12).map fun i => monthLength y (i + 1) := by
  unfold monthLength
  by_cases h : IsLeapYear y
  · rw [if_pos ((isLeap_iff y).2 h)]
    simp only [h, if_true]
    decide
  · rw [if_neg (fun h' => h ((isLeap_iff y).1 h'))]
    simp only [h, if_false]
    decide

theorem beforeMonth_succ (y m : Nat) (hm : 1 ≤ m) : daysBeforeMonth y (m + 1) = daysBeforeMonth y m + monthLength y m := by
  obtain ⟨k, rfl⟩ : ∃ k, m = k + 1 := ⟨m - 1, by omega⟩
  unfold daysBeforeMonth
  simp only [Nat.add_sub_cancel, List.range_succ, List.map_append, List.map_cons, List.map_nil, List.sum_append,
    List.sum_cons, List.sum_nil, Nat.add_zero]

theorem beforeMonth_mono (y : Nat) : ∀ (k m : Nat), 1 ≤ m → daysBeforeMonth y m ≤ daysBeforeMonth y (m + k)
  | 0, _, _ => Nat.le_refl _
  | k + 1, m, hm => by
    have := beforeMonth_mono y k m hm
    rw [← Nat.add_assoc, beforeMonth_succ y (m + k) (by omega)]
    omega

theorem beforeMonth_lt (y : Nat) {m m' : Nat} (hm : 1 ≤ m) (h : m < m') :
    daysBeforeMonth y m + monthLength y m ≤ daysBeforeMonth y m' := by
  rw [← beforeMonth_succ y m hm]
  have := beforeMonth_mono y (m' - (m + 1)) (m + 1) (by omega)
  rw [show m + 1 + (m' - (m + 1)) = m' by omega] at this
  exact this

theorem beforeMonth_all (y : Nat) : daysBeforeMonth y 13 = daysInYear y := by
  rw [daysInYear_eq]
  unfold daysBeforeMonth monthLength
  by_cases h : IsLeapYear y
  · simp only [h, if_true]; decide
  · simp only [h, if_false]; decide

theorem monthLoop_spec : ∀ (ms : List Nat) (i x : Nat), x < ms.sum →
    ∃ k, k < ms.length ∧ (ms.take k).sum ≤ x ∧ x < (ms.take (k + 1)).sum ∧
      monthLoop i x ms = .ok (i + k + 1, x - (ms.take k).sum + 1)
  | [], _, x, h => absurd h (Nat.not_lt_zero x)
  | a :: ms, i, x, h => by
    rw [monthLoop]
    rw [List.sum_cons] at h
    by_cases hx : x < a
    · refine ⟨0, by simp, by simp, by simpa using hx, ?_⟩
      rw [if_pos hx]
      rfl
    · obtain ⟨k, h1, h2, h3, h4⟩ := monthLoop_spec ms (i + 1) (x - a) (by omega)
      refine ⟨k + 1, by simpa using h1, ?_, ?_, ?_⟩
      · rw [List.take_succ_cons, List.sum_cons]; omega
      · rw [List.take_succ_cons, List.sum_cons]; omega
      · rw [if_neg hx, h4, List.take_succ_cons, List.sum_cons]
        congr 2
        · omega
        · omega

theorem monthDay_spec (y x : Nat) (h : x < daysInYear y) :
    ∃ m d, monthDay y x = .ok (m, d) ∧ 1 ≤ m ∧ m ≤ 12 ∧ 1 ≤ d ∧ d ≤ monthLength y m ∧
      x = daysBeforeMonth y m + (d - 1) := by
  have hlen : ((List.range 12).map fun i => monthLength y (i + 1)).length = 12 := by simp
  have hsum : ((List.range 12).map fun i => monthLength y (i + 1)).sum = daysInYear y := beforeMonth_all y
  obtain ⟨k, h1, h2, h3, h4⟩ := monthLoop_spec _ 0 x (by rw [hsum]; exact h)
  rw [hlen] at h1
  have htake : ∀ j, j ≤ 12 → (((List.range 12).map fun i => monthLength y (i + 1)).take j).sum = daysBeforeMonth y (j + 1) := by
    intro j hj
    rw [← List.map_take, List.take_range, Nat.min_eq_left hj]
    rfl
  rw [htake k (by omega)] at h2 h4
  rw [htake (k + 1) (by omega), beforeMonth_succ y (k + 1) (by omega)] at h3
  refine ⟨k + 1, x - daysBeforeMonth y (k + 1) + 1, ?_, by omega, by omega, by omega, by omega, by omega⟩
  unfold monthDay
  rw [monthTable, h4, Nat.zero_add]

theorem daysToYmd_spec (y x : Nat) (hy : 1 ≤ y) (hle : y ≤ 65535) :
    (∃ y' r, daysToYmd y x = .ok (y', r) ∧ y ≤ y' ∧ y' ≤ 65535 ∧ r < daysInYear y' ∧
      daysBeforeYear y + x = daysBeforeYear y' + r) ∨
    (daysToYmd y x = .error .yearTooLarge ∧ daysBeforeYear 65536 ≤ daysBeforeYear y + x) := by
  rw [daysToYmd]
  by_cases h : x < daysInYear y
  · rw [if_pos h]
    exact Or.inl ⟨y, x, rfl, Nat.le_refl _, hle, h, rfl⟩
  · rw [if_neg h]
    have hs := daysBefore_succ y hy
    by_cases hm : y ≥ 65535
    · rw [if_pos hm]
      have : y = 65535 := by omega
      subst this
      exact Or.inr ⟨rfl, by rw [show 65536 = 65535 + 1 from rfl, hs]; omega⟩
    · rw [if_neg hm]
      rcases daysToYmd_spec (y + 1) (x - daysInYear y) (by omega) (by omega) with ⟨y', r, h1, h2, h3, h4, h5⟩ | ⟨h1, h2⟩
      · exact Or.inl ⟨y', r, h1, by omega, h3, h4, by omega⟩
      · exact Or.inr ⟨h1, by omega⟩
termination_by 65535 - y

/-- The day number of a date. -/
theorem day_lt_year {y m d : Nat} (hm : 1 ≤ m ∧ m ≤ 12) (hd : 1 ≤ d ∧ d ≤ monthLength y m) :
    daysBeforeMonth y m + (d - 1) < daysInYear y := by
  have := beforeMonth_lt y (m := m) (m' := 13) hm.1 (by omega)
  rw [beforeMonth_all] at this
  omega

theorem base1970 (y : Nat) (h : 1970 ≤ y) : daysBeforeYear 1970 ≤ daysBeforeYear y := by
  have := daysBefore_mono (y - 1970) 1970 (by omega)
  rwa [show 1970 + (y - 1970) = y by omega] at this

/-- The date's day counted from 1970. -/
def FsDateTime.dayNo (d : FsDateTime) : Nat :=
  daysBeforeYear d.year - daysBeforeYear 1970 + daysBeforeMonth d.year d.month + (d.day - 1)

theorem millis_eq (d : FsDateTime) : d.millis =
    d.dayNo * 86400000 + d.hour * 3600000 + d.minute * 60000 + d.second * 1000 + d.millisecond := by
  unfold FsDateTime.millis FsDateTime.dayNo
  omega

theorem earlier_millis {a b : FsDateTime} (ha : a.Exists) (hb : b.Exists) (h : a.Earlier b) : a.millis < b.millis := by
  rw [millis_eq, millis_eq]
  have := ha.hour
  have := ha.minute
  have := ha.second
  have := ha.millisecond
  have key : a.dayNo < b.dayNo ∨ (a.dayNo = b.dayNo ∧ (a.hour < b.hour ∨ a.hour = b.hour ∧ (a.minute < b.minute ∨
      a.minute = b.minute ∧ (a.second < b.second ∨ a.second = b.second ∧ a.millisecond < b.millisecond)))) := by
    rcases h with h | ⟨h1, h | ⟨h2, h | ⟨h3, h⟩⟩⟩
    · left
      have h1 := day_lt_year ha.month ha.day
      have h2 := daysBefore_lt (by have := ha.year; omega) h
      have h3 := base1970 _ ha.year
      have h4 := base1970 _ hb.year
      unfold FsDateTime.dayNo
      omega
    · left
      have h2 := beforeMonth_lt a.year ha.month.1 h
      have h3 := ha.day
      unfold FsDateTime.dayNo
      rw [← h1]
      omega
    · left
      have h3 := ha.day
      unfold FsDateTime.dayNo
      rw [← h1, ← h2]
      omega
    · right
      refine ⟨?_, h⟩
      unfold FsDateTime.dayNo
      rw [h1, h2, h3]
  omega

theorem earlier_total (a b : FsDateTime) : a.Earlier b ∨ a = b ∨ b.Earlier a := by
  obtain ⟨y, mo, d, h, mi, s, ms⟩ := a
  obtain ⟨y', mo', d', h', mi', s', ms'⟩ := b
  unfold FsDateTime.Earlier
  simp only [FsDateTime.mk.injEq]
  omega

theorem millis_inj {a b : FsDateTime} (ha : a.Exists) (hb : b.Exists) (h : a.millis = b.millis) : a = b := by
  rcases earlier_total a b with h' | h' | h'
  · have := earlier_millis ha hb h'; omega
  · exact h'
  · have := earlier_millis hb ha h'; omega

theorem ofSystemTime_spec (ns : Int) (h0 : 0 ≤ ns) :
    (∃ d, ofSystemTime ns = .ok d ∧ d.Exists ∧ d.year ≤ 65535 ∧ d.millis = ns.toNat / 1000000) ∨
    (ofSystemTime ns = .error .yearTooLarge ∧
      (daysBeforeYear 65536 - daysBeforeYear 1970) * 86400000 ≤ ns.toNat / 1000000) := by
  unfold ofSystemTime
  rw [if_neg (by omega)]
  simp only
  generalize ns.toNat = n
  have hb := base1970 65536 (by omega)
  rcases daysToYmd_spec 1970 (n / 1000000000 / 86400) (by omega) (by omega) with ⟨y, r, h1, h2, h3, h4, h5⟩ | ⟨h1, h2⟩
  · obtain ⟨m, d, g1, g2, g3, g4, g5, g6⟩ := monthDay_spec y r h4
    left
    rw [h1]
    simp only [bind, Except.bind, g1]
    refine ⟨⟨y, m, d, n / 1000000000 % 86400 / 3600, n / 1000000000 % 86400 % 3600 / 60,
      n / 1000000000 % 86400 % 3600 % 60, n % 1000000000 / 1000000⟩, rfl, ⟨h2, ⟨g2, g3⟩, ⟨g4, g5⟩, ?_, ?_, ?_, ?_⟩, h3, ?_⟩
    · show n / 1000000000 % 86400 / 3600 < 24; omega
    · show n / 1000000000 % 86400 % 3600 / 60 < 60; omega
    · show n / 1000000000 % 86400 % 3600 % 60 < 60; omega
    · show n % 1000000000 / 1000000 < 1000; omega
    · rw [millis_eq]
      unfold FsDateTime.dayNo
      simp only
      have hy := base1970 y h2
      omega
  · right
    rw [h1]
    refine ⟨rfl, ?_⟩
    generalize daysBeforeYear 65536 = A at h2 hb ⊢
    generalize daysBeforeYear 1970 = B at h2 hb ⊢
    clear h1
    omega

theorem exists_before_end {d : FsDateTime} (h2 : d.Exists) (h3 : d.year ≤ 65535) :
    d.millis < (daysBeforeYear 65536 - daysBeforeYear 1970) * 86400000 := by
  have h5 := day_lt_year h2.month h2.day
  have h6 := daysBefore_lt (y := d.year) (y' := 65536) (by have := h2.year; omega) (by omega)
  have h7 := base1970 _ h2.year
  have h8 := h2.hour
  have h9 := h2.minute
  have h10 := h2.second
  have h11 := h2.millisecond
  rw [millis_eq]
  unfold FsDateTime.dayNo
  generalize daysBeforeYear 65536 = A at h6 ⊢
  generalize daysBeforeYear 1970 = B at h7 ⊢
  generalize daysBeforeYear d.year = C at *
  generalize daysBeforeMonth d.year d.month = D at *
  generalize daysInYear d.year = E at *
  omega

/-! ### The text -/

theorem digit_char (k : Nat) (h : k < 10) : (Char.ofNat (48 + k)).toNat = 48 + k := by
  have : ∀ k ∈ List.range 10, (Char.ofNat (48 + k)).toNat = 48 + k := by decide
  exact this k (List.mem_range.2 h)

/-- The number digits are read as. -/
def valueOf (l : List Char) : Nat := l.foldl (fun a c => a * 10 + (c.toNat - 48)) 0

theorem valueOf_snoc (l : List Char) (c : Char) : valueOf (l ++ [c]) = valueOf l * 10 + (c.toNat - 48) := by
  unfold valueOf; rw [List.foldl_append]; rfl

theorem digits_value (n : Nat) : valueOf (digits n) = n := by
  rw [digits]
  by_cases h : n < 10
  · rw [if_pos h]
    show 0 * 10 + ((Char.ofNat (48 + n)).toNat - 48) = n
    rw [digit_char n h]; omega
  · rw [if_neg h, valueOf_snoc, digits_value (n / 10), digit_char _ (by omega)]
    omega
termination_by n

theorem value_zeros (l : List Char) : ∀ k, valueOf (List.replicate k '0' ++ l) = valueOf l
  | 0 => rfl
  | k + 1 => by
    rw [← value_zeros l k, List.replicate_succ]
    rfl

theorem padded_value (w n : Nat) : valueOf (padded w n) = n := by
  unfold padded; rw [value_zeros, digits_value]

theorem digits_range (n : Nat) : ∀ c ∈ digits n, 48 ≤ c.toNat ∧ c.toNat < 58 := by
  rw [digits]
  by_cases h : n < 10
  · rw [if_pos h]
    intro c hc
    rw [List.mem_singleton.1 hc, digit_char n h]; omega
  · rw [if_neg h]
    intro c hc
    rcases List.mem_append.1 hc with hc | hc
    · exact digits_range (n / 10) c hc
    · rw [List.mem_singleton.1 hc, digit_char _ (by omega)]; omega
termination_by n

theorem padded_range (w n : Nat) : ∀ c ∈ padded w n, 48 ≤ c.toNat ∧ c.toNat < 58 := by
  intro c hc
  rcases List.mem_append.1 hc with hc | hc
  · rw [(List.mem_replicate.1 hc).2]; decide
  · exact digits_range n c hc

theorem split_inj {s : Char} : ∀ (a a' : List Char) {b b' : List Char}, (∀ c ∈ a, c ≠ s) → (∀ c ∈ a', c ≠ s) →
    a ++ s :: b = a' ++ s :: b' → a = a' ∧ b = b'
  | [], [], _, _, _, _, h => ⟨rfl, (List.cons.inj h).2⟩
  | [], c :: _, _, _, _, h2, h => absurd (List.cons.inj h).1.symm (h2 c (by simp))
  | c :: _, [], _, _, h1, _, h => absurd (List.cons.inj h).1 (h1 c (by simp))
  | c :: a, c' :: a', _, _, h1, h2, h => by
    obtain ⟨e1, e2⟩ := List.cons.inj h
    obtain ⟨e3, e4⟩ := split_inj a a' (fun x hx => h1 x (by simp [hx])) (fun x hx => h2 x (by simp [hx])) e2
    exact ⟨by rw [e1, e3], e4⟩

theorem padded_inj {w n n' : Nat} (h : padded w n = padded w n') : n = n' := by
  rw [← padded_value w n, h, padded_value]

theorem padded_no (w n : Nat) (s : Char) (hs : s.toNat < 48 ∨ 58 ≤ s.toNat) : ∀ c ∈ padded w n, c ≠ s := by
  intro c hc e
  have := padded_range w n c hc
  rw [e] at this
  omega

end Fox
