import Verif.Proofs.DateTime

/-! # C63: the dates of files -/

namespace Fox

open DateTime

/-- **C63.** A system time is given a date exactly when the date exists, its year fits 16 bits, and it lies as many
milliseconds after the beginning of 1970 as the time does. -/
theorem C63_date (ns : Int) (d : FsDateTime) :
    ofSystemTime ns = .ok d ↔ 0 ≤ ns ∧ d.Exists ∧ d.year ≤ 65535 ∧ d.millis = ns.toNat / 1000000 := by
  constructor
  · intro h
    by_cases h0 : ns < 0
    · unfold ofSystemTime at h
      rw [if_pos h0] at h
      cases h
    · rcases ofSystemTime_spec ns (Int.not_lt.1 h0) with ⟨d', h1, h2, h3, h4⟩ | ⟨h1, _⟩
      · rw [h1] at h
        cases h
        exact ⟨Int.not_lt.1 h0, h2, h3, h4⟩
      · rw [h1] at h; cases h
  · rintro ⟨h0, h2, h3, h4⟩
    rcases ofSystemTime_spec ns h0 with ⟨d', g1, g2, g3, g4⟩ | ⟨_, g2⟩
    · rw [g1, millis_inj g2 h2 (g4.trans h4.symm)]
    · exact absurd (h4 ▸ g2) (Nat.not_le.2 (exists_before_end h2 h3))

/-- Leap day of the year 2000: 951,782,400 seconds after the epoch. -/
example : ofSystemTime 951782400123456789 = .ok ⟨2000, 2, 29, 0, 0, 0, 123⟩ := by
  rw [C63_date]
  exact ⟨by decide, ⟨by decide, by decide, by decide, by decide, by decide, by decide, by decide⟩, by decide, by decide⟩

/-- **C63.** The only refusals: times before 1970, and times after the last day of the year 65535. -/
theorem C63_refused (ns : Int) (e : DateErr) : ofSystemTime ns = .error e ↔
    (e = .before1970 ∧ ns < 0) ∨
    (e = .yearTooLarge ∧ 0 ≤ ns ∧ (daysBeforeYear 65536 - daysBeforeYear 1970) * 86400000 ≤ ns.toNat / 1000000) := by
  by_cases h0 : ns < 0
  · unfold ofSystemTime
    rw [if_pos h0]
    constructor
    · intro h
      cases h
      exact Or.inl ⟨rfl, h0⟩
    · rintro (⟨rfl, _⟩ | ⟨_, h, _⟩)
      · rfl
      · omega
  · constructor
    · intro h
      rcases ofSystemTime_spec ns (Int.not_lt.1 h0) with ⟨d, h1, _⟩ | ⟨h1, h2⟩
      · rw [h1] at h; cases h
      · rw [h1] at h
        cases h
        exact Or.inr ⟨rfl, Int.not_lt.1 h0, h2⟩
    · rintro (⟨_, h⟩ | ⟨rfl, _, h⟩)
      · exact absurd h h0
      · cases hr : ofSystemTime ns with
        | ok d =>
          obtain ⟨_, g2, g3, g4⟩ := (C63_date ns d).1 hr
          exact absurd (g4 ▸ h) (Nat.not_le.2 (exists_before_end g2 g3))
        | error e =>
          rcases ofSystemTime_spec ns (Int.not_lt.1 h0) with ⟨d, h1, _⟩ | ⟨h1, _⟩
          · rw [h1] at hr; cases hr
          · rw [h1] at hr; cases hr; rfl

/-- **C63.** Dates are in the order of the times: a time is earlier, by whole milliseconds, exactly when its date is
earlier in the calendar. -/
theorem C63_order (s t : Int) (a b : FsDateTime) (ha : ofSystemTime s = .ok a) (hb : ofSystemTime t = .ok b) :
    a.Earlier b ↔ s.toNat / 1000000 < t.toNat / 1000000 := by
  obtain ⟨_, a2, _, a4⟩ := (C63_date s a).1 ha
  obtain ⟨_, b2, _, b4⟩ := (C63_date t b).1 hb
  rw [← a4, ← b4]
  constructor
  · exact earlier_millis a2 b2
  · intro h
    rcases earlier_total a b with h' | h' | h'
    · exact h'
    · rw [h'] at h; exact absurd h (Nat.lt_irrefl _)
    · exact absurd h (Nat.lt_asymm (earlier_millis b2 a2 h'))

/-- **C63.** Two dates are shown by the same text exactly when they agree to the second. -/
theorem C63_text (a b : FsDateTime) : display a = display b ↔
    a.year = b.year ∧ a.month = b.month ∧ a.day = b.day ∧ a.hour = b.hour ∧ a.minute = b.minute ∧ a.second = b.second := by
  constructor
  · intro h
    unfold display at h
    obtain ⟨h1, h⟩ := split_inj _ _ (padded_no _ _ _ (by decide)) (padded_no _ _ _ (by decide)) h
    obtain ⟨h2, h⟩ := split_inj _ _ (padded_no _ _ _ (by decide)) (padded_no _ _ _ (by decide)) h
    obtain ⟨h3, h⟩ := split_inj _ _ (padded_no _ _ _ (by decide)) (padded_no _ _ _ (by decide)) h
    obtain ⟨h4, h⟩ := split_inj _ _ (padded_no _ _ _ (by decide)) (padded_no _ _ _ (by decide)) h
    obtain ⟨h5, h⟩ := split_inj _ _ (padded_no _ _ _ (by decide)) (padded_no _ _ _ (by decide)) h
    exact ⟨padded_inj h1, padded_inj h2, padded_inj h3, padded_inj h4, padded_inj h5, padded_inj h⟩
  · rintro ⟨h1, h2, h3, h4, h5, h6⟩
    unfold display
    rw [h1, h2, h3, h4, h5, h6]

example : String.ofList (display ⟨2000, 2, 29, 7, 5, 0, 123⟩) = "2000/02/29 07:05:00" := by decide +kernel

end Fox
