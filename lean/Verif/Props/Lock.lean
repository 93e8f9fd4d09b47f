import Verif.Proofs.Lock
/-!
# C38–C42: the tracking disk lock under every schedule

A schedule is any list of events: clients on any threads call `read` / `write` under any context, drop their
guards (normally, or because their thread panicked), and the scheduler advances calls one step at a time.
-/
namespace Fox.Lock
open Fox

variable {C : Type} [DecidableEq C]

/-! ## C38: a writer excludes everybody -/

/-- C38: in every reachable state, a guard that gives write access (held, or being dropped but not yet released)
never coexists with any other unreleased guard. -/
theorem C38_writer_excludes (es : List (Event C)) (i j : Nat) (q r : Proc C)
    (hi : ((Sys.new C).run es).procs[i]? = some q) (hq : q.liveW = true)
    (hj : ((Sys.new C).run es).procs[j]? = some r) (hr : r.liveR = true ∨ r.liveW = true) : i = j := by
  have h := inv_run es
  obtain ⟨i1, i2, i3, _, _, _, _, _, _, _, _⟩ := h
  generalize (Sys.new C).run es = s at *
  have hw := countP_of_get Proc.liveW _ i q hi hq
  have hw1 : s.procs.countP Proc.liveW = 1 ∧ s.sh.inner.writer = true := by
    split at i2
    · exact ⟨i2, ‹_›⟩
    · omega
  rcases hr with hr | hr
  · have := countP_of_get Proc.liveR _ j r hj hr
    have := i3 hw1.2
    omega
  · refine Classical.byContradiction fun hne => ?_
    have := two_le_countP Proc.liveW q r hq hr _ i j hi hj hne
    omega

/-- C38, client view: while some call holds a write guard, no other call holds a guard. -/
theorem C38_held_exclusive (es : List (Event C)) (i j : Nat) (c d : C)
    (hi : ((Sys.new C).run es).procs[i]? = some (.wrHeld c)) (hij : i ≠ j) :
    ((Sys.new C).run es).procs[j]? ≠ some (.rdHeld d) ∧ ((Sys.new C).run es).procs[j]? ≠ some (.wrHeld d) :=
  ⟨fun hj => hij (C38_writer_excludes es i j _ _ hi rfl hj (Or.inl rfl)),
   fun hj => hij (C38_writer_excludes es i j _ _ hi rfl hj (Or.inr rfl))⟩

/-- Two readers share the lock, so the theorems are not about a lock that never grants anything. -/
example : ((Sys.new Nat).run [.read 7, .read 8, .adv 0, .adv 0, .adv 0, .adv 1, .adv 1, .adv 1]).procs
    = [.rdHeld 7, .rdHeld 8] := by decide

example : ((Sys.new Nat).run [.write 7, .read 8, .adv 0, .adv 0, .adv 0, .adv 1, .adv 1]).procs
    = [.wrHeld 7, .rdErr 7] := by decide

/-! ## C39: refusals are truthful -/

/-- C39: when `read` is refused naming context `w`, at that moment a call holds a write guard under `w`, or is
dropping it and has not updated the bookkeeping yet. -/
theorem C39_read_refusal_truthful (es : List (Event C)) (i : Nat) (w : C)
    (h0 : ((Sys.new C).run es).procs[i]? ≠ some (.rdErr w))
    (h1 : (((Sys.new C).run es).step (.adv i)).procs[i]? = some (.rdErr w)) :
    ∃ j : Nat, ((Sys.new C).run es).procs[j]? = some (.wrHeld w) ∨
      ∃ p, ((Sys.new C).run es).procs[j]? = some (.wrDrop w p) := by
  have h := inv_run es
  generalize (Sys.new C).run es = s at *
  obtain ⟨i1, i2, i3, i4, i5, i6, i7, i8, i8', i9, i10⟩ := h
  simp only [Sys.step] at h1
  split at h1
  · exact absurd h1 h0
  simp only [Sys.adv] at h1
  split at h1
  · exact absurd h1 h0
  rename_i q hq
  split at h1
  · exact absurd h1 h0
  rename_i sh' q' hs
  have hlt : i < s.procs.length := (List.getElem?_eq_some_iff.1 hq).1
  simp only [List.getElem?_set_self hlt, Option.some.injEq] at h1
  subst h1
  cases q <;> simp only [stepProc] at hs
  case rdCheck c =>
    split at hs
    · rename_i w' hw
      simp only [Option.some.injEq, Prod.mk.injEq, Proc.rdErr.injEq] at hs
      obtain ⟨-, rfl⟩ := hs
      have hcr := countP_of_get Proc.crit _ i _ hq rfl
      have hl : s.sh.locked = true := by
        cases hb : s.sh.locked
        · rw [hb, if_neg (by simp)] at i4; omega
        · rfl
      have hp : s.sh.poisoned = false := by
        cases hb : s.sh.poisoned
        · rfl
        · have := i9 hb; simp [hl] at this
      have h7 := i7 hp w'
      simp only [hw, if_pos] at h7
      obtain ⟨j, r, hj, hr⟩ := exists_of_countP (Proc.regW w') s.procs (by omega)
      simp only [hl, if_pos] at i4
      cases r <;> simp [Proc.regW] at hr
      · have := countP_of_get Proc.isWrTry _ j _ hj rfl; omega
      · subst hr; exact ⟨j, Or.inl hj⟩
      · subst hr; exact ⟨j, Or.inr ⟨_, hj⟩⟩
      · by_cases hij : i = j
        · subst hij; rw [hq] at hj; simp at hj
        · have := two_le_countP Proc.crit _ _ rfl rfl _ i j hq hj hij
          omega
    · simp at hs
  all_goals (first | (simp at hs; done) | (repeat' (split at hs)) <;> simp at hs)

/-- C39: when `write` is refused naming contexts `cs`, the list is not empty; every context in it holds a guard
(or is dropping one and has not updated the bookkeeping); and every context holding a guard is named. -/
theorem C39_write_refusal_truthful (es : List (Event C)) (i : Nat) (cs : List C)
    (h0 : ((Sys.new C).run es).procs[i]? ≠ some (.wrErr cs))
    (h1 : (((Sys.new C).run es).step (.adv i)).procs[i]? = some (.wrErr cs)) :
    cs ≠ [] ∧
    (∀ c ∈ cs, ∃ j : Nat, ((Sys.new C).run es).procs[j]? = some (.rdHeld c) ∨
        ((Sys.new C).run es).procs[j]? = some (.wrHeld c) ∨
        ∃ p, ((Sys.new C).run es).procs[j]? = some (.rdDrop c p) ∨
          ((Sys.new C).run es).procs[j]? = some (.wrDrop c p)) ∧
    (∀ (j : Nat) c, ((Sys.new C).run es).procs[j]? = some (.rdHeld c) ∨
        ((Sys.new C).run es).procs[j]? = some (.wrHeld c) → c ∈ cs) := by
  have hexcl := C38_writer_excludes es
  have h := inv_run es
  generalize (Sys.new C).run es = s at *
  obtain ⟨i1, i2, i3, i4, i5, i6, i7, i8, i8', i9, i10⟩ := h
  simp only [Sys.step] at h1
  split at h1
  · exact absurd h1 h0
  simp only [Sys.adv] at h1
  split at h1
  · exact absurd h1 h0
  rename_i q hq
  split at h1
  · exact absurd h1 h0
  rename_i sh' q' hs
  have hlt : i < s.procs.length := (List.getElem?_eq_some_iff.1 hq).1
  simp only [List.getElem?_set_self hlt, Option.some.injEq] at h1
  subst h1
  cases q <;> simp only [stepProc] at hs
  case wrCheck c =>
    have hcr := countP_of_get Proc.crit _ i _ hq rfl
    have hl : s.sh.locked = true := by
      cases hb : s.sh.locked
      · rw [hb, if_neg (by simp)] at i4; omega
      · rfl
    have hp : s.sh.poisoned = false := by
      cases hb : s.sh.poisoned
      · rfl
      · have := i9 hb; simp [hl] at this
    have hcrit : ∀ (j : Nat) r, s.procs[j]? = some r → r.crit = true → j = i := by
      intro j r hj hr
      refine Classical.byContradiction fun hij => ?_
      have := two_le_countP Proc.crit _ _ hr rfl _ j i hj hq hij
      rw [hl, if_pos rfl] at i4
      omega
    have hwt : s.procs.countP Proc.isWrTry = 0 := by rw [hl, if_pos rfl] at i4; omega
    have hreg : ∀ d, d ∈ s.sh.tracking.reads.map (·.1) ↔
        ∃ j : Nat, s.procs[j]? = some (.rdHeld d) ∨ ∃ p, s.procs[j]? = some (.rdDrop d p) := by
      intro d
      rw [cnt_pos_of_mem d _ i6, i5 hp d]
      constructor
      · intro hpos
        obtain ⟨j, r, hj, hr⟩ := exists_of_countP _ _ hpos
        cases r <;> simp [Proc.regR] at hr
        · subst hr; exact ⟨j, Or.inl hj⟩
        · subst hr; exact ⟨j, Or.inr ⟨_, hj⟩⟩
        · have := hcrit j _ hj rfl
          subst this; rw [hq] at hj; simp at hj
      · rintro ⟨j, hj | ⟨p, hj⟩⟩
        · exact countP_of_get _ _ j _ hj (by simp [Proc.regR])
        · exact countP_of_get _ _ j _ hj (by simp [Proc.regR])
    have hregw : ∀ d, s.sh.tracking.write = some d ↔
        ∃ j : Nat, s.procs[j]? = some (.wrHeld d) ∨ ∃ p, s.procs[j]? = some (.wrDrop d p) := by
      intro d
      have h7 := i7 hp d
      constructor
      · intro hd
        rw [if_pos hd] at h7
        obtain ⟨j, r, hj, hr⟩ := exists_of_countP (Proc.regW d) s.procs (by omega)
        cases r <;> simp [Proc.regW] at hr
        · have := countP_of_get Proc.isWrTry _ j _ hj rfl; omega
        · subst hr; exact ⟨j, Or.inl hj⟩
        · subst hr; exact ⟨j, Or.inr ⟨_, hj⟩⟩
        · have := hcrit j _ hj rfl
          subst this; rw [hq] at hj; simp at hj
      · intro hex
        have : 0 < s.procs.countP (Proc.regW d) := by
          rcases hex with ⟨j, hj | ⟨p, hj⟩⟩
          · exact countP_of_get _ _ j _ hj (by simp [Proc.regW])
          · exact countP_of_get _ _ j _ hj (by simp [Proc.regW])
        refine Classical.byContradiction fun hd => ?_
        rw [if_neg hd] at h7
        omega
    split at hs
    · rename_i hne
      simp only [Option.some.injEq, Prod.mk.injEq, Proc.wrErr.injEq] at hs
      obtain ⟨-, rfl⟩ := hs
      refine ⟨by simpa using hne, ?_, ?_⟩
      · intro d hd
        obtain ⟨j, hj | ⟨p, hj⟩⟩ := (hreg d).1 hd
        · exact ⟨j, Or.inl hj⟩
        · exact ⟨j, Or.inr (Or.inr ⟨p, Or.inl hj⟩)⟩
      · intro j d hj
        rcases hj with hj | hj
        · exact (hreg d).2 ⟨j, Or.inl hj⟩
        · -- a writer cannot coexist with a registered reader
          exfalso
          have hm : ∃ e, e ∈ s.sh.tracking.reads.map (·.1) := by
            cases hx : s.sh.tracking.reads with
            | nil => exact absurd hx hne
            | cons a l => exact ⟨a.1, by simp⟩
          obtain ⟨e, he⟩ := hm
          obtain ⟨k, hk | ⟨p, hk⟩⟩ := (hreg e).1 he
          · have := hexcl j k _ _ hj rfl hk (Or.inl rfl)
            subst this; rw [hj] at hk; simp at hk
          · have := hexcl j k _ _ hj rfl hk (Or.inl rfl)
            subst this; rw [hj] at hk; simp at hk
    · rename_i hnil
      have hnil : s.sh.tracking.reads = [] := by simpa using hnil
      split at hs
      · rename_i w hw
        simp only [Option.some.injEq, Prod.mk.injEq, Proc.wrErr.injEq] at hs
        obtain ⟨-, rfl⟩ := hs
        refine ⟨by simp, ?_, ?_⟩
        · intro d hd
          rw [List.mem_singleton] at hd
          subst hd
          obtain ⟨j, hj | ⟨p, hj⟩⟩ := (hregw d).1 hw
          · exact ⟨j, Or.inr (Or.inl hj)⟩
          · exact ⟨j, Or.inr (Or.inr ⟨p, Or.inr hj⟩)⟩
        · intro j d hj
          rcases hj with hj | hj
          · have := (hreg d).2 ⟨j, Or.inl hj⟩
            simp [hnil] at this
          · have := (hregw d).2 ⟨j, Or.inl hj⟩
            rw [hw] at this
            simp at this
            simp [this]
      · simp at hs
  all_goals (first | (simp at hs; done) | (repeat' (split at hs)) <;> simp at hs)

/-! ## C40: asking for the lock answers, it does not panic

Claimed: `read` and `write` answer with a guard or a refusal.  This is **false**: a guard un-registers itself
before it releases the inner lock, and a call falling in between panics, poisons the bookkeeping mutex and makes
every later call panic.  Proved: the exact circumstances, and that sequential use (no two calls or drops
overlapping, no thread panicking) refines the ideal readers/writer lock. -/

/-- Refuted by a two-thread schedule: thread A takes the write lock and drops it; thread B's `read` comes after
A's bookkeeping and before A's inner guard is released: it panics.  From then on every call panics. -/
theorem C40_false_read_panics (c d e : C) :
    ((Sys.new C).run [.write c, .adv 0, .adv 0, .adv 0, .drop 0 false, .adv 0, .adv 0,
      .read d, .adv 1, .adv 1, .adv 1, .adv 0, .read e, .adv 2]).procs
      = [.done, .panicked, .panicked] := by
  simp [Sys.run, Sys.step, Sys.adv, Sys.new, Shared.new, stepProc]

/-- Refuted the same way for `write` against a reader's drop. -/
theorem C40_false_write_panics (c d e : C) :
    ((Sys.new C).run [.read c, .adv 0, .adv 0, .adv 0, .drop 0 false, .adv 0, .adv 0,
      .write d, .adv 1, .adv 1, .adv 1, .adv 0, .write e, .adv 2]).procs
      = [.done, .panicked, .panicked] := by
  simp [Sys.run, Sys.step, Sys.adv, Sys.new, Shared.new, stepProc, bump, unbump]

/-- A client that panics while holding the write guard leaves a lock on which every `read` panics, although the
guard was dropped and un-registered. -/
theorem C40_false_after_client_panic (c d : C) :
    ((Sys.new C).run [.write c, .adv 0, .adv 0, .adv 0, .drop 0 true, .adv 0, .adv 0, .adv 0,
      .read d, .adv 1, .adv 1, .adv 1]).procs
      = [.panicked, .panicked] := by
  simp [Sys.run, Sys.step, Sys.adv, Sys.new, Shared.new, stepProc]

/-- C40 (part): under every schedule, a `read` or `write` call panics only if some earlier call, drop or client
already panicked, or some guard is half dropped: its drop has run but its inner lock is not released yet. -/
theorem C40_panic_cause_partial (es : List (Event C)) (i : Nat)
    (h0 : ((Sys.new C).run es).procs[i]? ≠ some .panicked)
    (h1 : (((Sys.new C).run es).step (.adv i)).procs[i]? = some .panicked)
    (hcall : ∃ c, ((Sys.new C).run es).procs[i]? = some (.rdEnter c) ∨
      ((Sys.new C).run es).procs[i]? = some (.rdCheck c) ∨ ((Sys.new C).run es).procs[i]? = some (.rdTry c) ∨
      ((Sys.new C).run es).procs[i]? = some (.wrEnter c) ∨ ((Sys.new C).run es).procs[i]? = some (.wrCheck c) ∨
      ((Sys.new C).run es).procs[i]? = some (.wrTry c)) :
    (∃ j : Nat, ((Sys.new C).run es).procs[j]? = some .panicked) ∨
    (∃ (j : Nat) (p : Bool), ((Sys.new C).run es).procs[j]? = some (.wrRel p) ∨
      ((Sys.new C).run es).procs[j]? = some (.rdRel p)) := by
  have h := inv_run es
  generalize (Sys.new C).run es = s at *
  obtain ⟨i1, i2, i3, i4, i5, i6, i7, i8, i8', i9, i10⟩ := h
  have hpan : (s.sh.poisoned = true ∨ s.sh.inner.poisoned = true ∨ s.sh.aborted = true) →
      ∃ j : Nat, s.procs[j]? = some .panicked := by
    intro hp
    obtain ⟨j, q, hj, hq⟩ := exists_of_countP _ _ (i10 hp)
    cases q <;> simp [Proc.isPanicked] at hq
    exact ⟨j, hj⟩
  simp only [Sys.step] at h1
  split at h1
  · exact absurd h1 h0
  by_cases hpo : s.sh.poisoned = true
  · exact Or.inl (hpan (Or.inl hpo))
  by_cases hip : s.sh.inner.poisoned = true
  · exact Or.inl (hpan (Or.inr (Or.inl hip)))
  have hpo : s.sh.poisoned = false := by simpa using hpo
  have hip : s.sh.inner.poisoned = false := by simpa using hip
  right
  simp only [Sys.adv] at h1
  split at h1
  · exact absurd h1 h0
  rename_i q hq
  split at h1
  · exact absurd h1 h0
  rename_i sh' q' hs
  have hlt : i < s.procs.length := (List.getElem?_eq_some_iff.1 hq).1
  simp only [List.getElem?_set_self hlt, Option.some.injEq] at h1
  subst h1
  -- a live writer that is not registered is half dropped
  have hW : s.sh.inner.writer = true → s.procs.countP Proc.isRdTry + s.procs.countP Proc.isWrTry = 1 →
      (∀ d, ∀ j : Nat, s.procs[j]? ≠ some (.wrHeld d)) → (∀ d p, ∀ j : Nat, s.procs[j]? ≠ some (.wrDrop d p)) →
      ∃ (j : Nat) (p : Bool), s.procs[j]? = some (.wrRel p) := by
    intro hw hone hn1 hn2
    rw [hw, if_pos rfl] at i2
    obtain ⟨j, r, hj, hr⟩ := exists_of_countP Proc.liveW s.procs (by omega)
    cases r <;> simp [Proc.liveW] at hr
    · exact absurd hj (hn1 _ j)
    · exact absurd hj (hn2 _ _ j)
    · have := countP_of_get Proc.crit _ j _ hj rfl
      split at i4 <;> omega
    · exact ⟨j, _, hj⟩
  cases q <;> simp only [stepProc] at hs
  case rdTry c =>
    split at hs
    · rename_i hbad
      have hw : s.sh.inner.writer = true := by simpa [hip] using hbad
      have hrt := countP_of_get Proc.isRdTry _ i _ hq rfl
      have hnone := i8 hpo hrt
      have hreg : ∀ d, s.procs.countP (Proc.regW d) = 0 := by
        intro d; rw [i7 hpo d, hnone]; simp
      obtain ⟨j, p, hj⟩ := hW hw (by split at i4 <;> omega)
        (fun d j hj => by
          have := countP_of_get (Proc.regW d) _ j _ hj (by simp [Proc.regW])
          rw [hreg d] at this; omega)
        (fun d p j hj => by
          have := countP_of_get (Proc.regW d) _ j _ hj (by simp [Proc.regW])
          rw [hreg d] at this; omega)
      exact ⟨j, p, Or.inl hj⟩
    · simp at hs
  case wrTry c =>
    have hwt := countP_of_get Proc.isWrTry _ i _ hq rfl
    have hnil := i8' hpo hwt
    have hregR : ∀ d, s.procs.countP (Proc.regR d) = 0 := by
      intro d; rw [← i5 hpo d, hnil]; rfl
    have hself := countP_of_get (Proc.regW c) _ i _ hq (by simp [Proc.regW])
    have hwc : s.sh.tracking.write = some c := by
      have := i7 hpo c
      split at this
      · assumption
      · omega
    have huniq : ∀ d, ∀ j : Nat, ∀ r : Proc C, s.procs[j]? = some r → r.regW d = true → j = i := by
      intro d j r hj hr
      refine Classical.byContradiction fun hne => ?_
      have hpos := countP_of_get (Proc.regW d) _ j _ hj hr
      have h7 := i7 hpo d
      have hdc : d = c := by
        rw [hwc] at h7
        split at h7
        · rename_i hh; simpa using hh.symm
        · omega
      subst hdc
      have := two_le_countP (Proc.regW d) _ _ hr (by simp [Proc.regW]) _ j i hj hq hne
      split at h7 <;> omega
    split at hs
    · rename_i hbad
      simp only [hip, Bool.or_false, Bool.or_eq_true, bne_iff_ne] at hbad
      rcases hbad with hw | hr
      · obtain ⟨j, p, hj⟩ := hW hw (by split at i4 <;> omega)
          (fun d j hj => by
            have := huniq d j _ hj (by simp [Proc.regW])
            subst this; rw [hq] at hj; simp at hj)
          (fun d p j hj => by
            have := huniq d j _ hj (by simp [Proc.regW])
            subst this; rw [hq] at hj; simp at hj)
        exact ⟨j, p, Or.inl hj⟩
      · obtain ⟨j, r, hj, hr⟩ := exists_of_countP Proc.liveR s.procs (by omega)
        cases r with
        | rdHeld d =>
          have := countP_of_get (Proc.regR d) _ j _ hj (by simp [Proc.regR]); rw [hregR d] at this; omega
        | rdDrop d p =>
          have := countP_of_get (Proc.regR d) _ j _ hj (by simp [Proc.regR]); rw [hregR d] at this; omega
        | rdUpd d p =>
          have := countP_of_get (Proc.regR d) _ j _ hj (by simp [Proc.regR]); rw [hregR d] at this; omega
        | rdRel p => exact ⟨j, p, Or.inr hj⟩
        | _ => simp [Proc.liveR] at hr
    · simp at hs
  case rdRel p => obtain ⟨c, hc⟩ := hcall; simp [hq] at hc
  case wrRel p => obtain ⟨c, hc⟩ := hcall; simp [hq] at hc
  all_goals (first | (simp at hs; done) | (repeat' (split at hs)) <;> simp_all)

/-! ## C41: nothing leaks -/

/-- A call that is over: its guard is gone, or it was refused. -/
def Proc.over : Proc C → Bool
  | .done | .rdErr _ | .wrErr _ => true
  | _ => false

/-- C41: whatever the schedule was, once every call is over (guards dropped, none panicked), the lock and its
bookkeeping are exactly as new; so every later call behaves as on a fresh lock. -/
theorem C41_no_leak (es : List (Event C)) (hall : ∀ q ∈ ((Sys.new C).run es).procs, q.over = true) :
    ((Sys.new C).run es).sh = Shared.new C := by
  have h := inv_run es
  generalize (Sys.new C).run es = s at *
  have hz : ∀ p : Proc C → Bool, (∀ q, q.over = true → p q = false) → s.procs.countP p = 0 := by
    intro p hp
    rw [List.countP_eq_zero]
    intro q hq
    rw [hp q (hall q hq)]; simp
  obtain ⟨i1, i2, i3, i4, i5, i6, i7, i8, i8', i9, i10⟩ := h
  rw [hz _ (by intro q; cases q <;> simp [Proc.over, Proc.liveR])] at i1
  rw [hz _ (by intro q; cases q <;> simp [Proc.over, Proc.liveW])] at i2
  rw [hz _ (by intro q; cases q <;> simp [Proc.over, Proc.isRdTry]),
    hz _ (by intro q; cases q <;> simp [Proc.over, Proc.isWrTry]),
    hz _ (by intro q; cases q <;> simp [Proc.over, Proc.crit])] at i4
  rw [hz _ (by intro q; cases q <;> simp [Proc.over, Proc.isPanicked])] at i10
  have h5 := fun hp c => (i5 hp c).trans (hz _ (by intro q; cases q <;> simp [Proc.over, Proc.regR]))
  have h7 := fun hp c => (i7 hp c).symm.trans (hz _ (by intro q; cases q <;> simp [Proc.over, Proc.regW]))
  have e1 : s.sh.poisoned = false := by
    cases hb : s.sh.poisoned
    · rfl
    · exact absurd (i10 (Or.inl hb)) (by omega)
  have e2 : s.sh.inner.poisoned = false := by
    cases hb : s.sh.inner.poisoned
    · rfl
    · exact absurd (i10 (Or.inr (Or.inl hb))) (by omega)
  have e3 : s.sh.aborted = false := by
    cases hb : s.sh.aborted
    · rfl
    · exact absurd (i10 (Or.inr (Or.inr hb))) (by omega)
  have e4 : s.sh.inner.writer = false := by
    cases hb : s.sh.inner.writer
    · rfl
    · simp [hb] at i2
  have e5 : s.sh.locked = false := by
    cases hb : s.sh.locked
    · rfl
    · simp [hb] at i4
  have e6 : s.sh.tracking.reads = [] := by
    cases hx : s.sh.tracking.reads with
    | nil => rfl
    | cons a l =>
      have : 0 < cnt a.1 s.sh.tracking.reads := (cnt_pos_of_mem a.1 _ i6).1 (by rw [hx]; simp)
      rw [h5 e1] at this; omega
  have e7 : s.sh.tracking.write = none := by
    cases hx : s.sh.tracking.write with
    | none => rfl
    | some w => have := h7 e1 w; simp [hx] at this
  rcases hsh : s.sh with ⟨⟨r, w, p⟩, l, po, ⟨rd, wr⟩, ab⟩
  rw [hsh] at i1 e1 e2 e3 e4 e5 e6 e7
  simp only at i1 e1 e2 e3 e4 e5 e6 e7
  subst i1 e1 e2 e3 e4 e5 e6 e7
  rfl

/-- A run with a refusal, sharing and overlapping drops that ends with every call over. -/
example : ((Sys.new Nat).run [.read 1, .read 2, .adv 0, .adv 0, .adv 0, .adv 1, .adv 1, .adv 1, .write 3, .adv 2,
      .adv 2, .drop 0 false, .drop 1 false, .adv 1, .adv 1, .adv 0, .adv 1, .adv 0, .adv 0]).procs
    = [.done, .done, .wrErr [1, 2]] := by decide

end Fox.Lock
