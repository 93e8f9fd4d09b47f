import Verif.Props.Lock
/-!
# C40 (sequential use refines the ideal lock) and C42 (no deadlock, every call finishes)
-/
namespace Fox.Lock
open Fox
set_option linter.unusedSectionVars false

variable {C : Type} [DecidableEq C]

/-! ## C42 -/

/-- How many steps a call can still take by itself. -/
def Proc.rank : Proc C → Nat
  | .rdEnter _ | .wrEnter _ | .rdDrop _ _ | .wrDrop _ _ => 3
  | .rdCheck _ | .wrCheck _ | .rdUpd _ _ | .wrUpd _ _ => 2
  | .rdTry _ | .wrTry _ | .rdRel _ | .wrRel _ => 1
  | _ => 0

/-- All steps the pending calls can still take. -/
def Sys.work (s : Sys C) : Nat := (s.procs.map Proc.rank).sum

/-- A call that is waiting for the lock code, not for its client: it has been called and has not returned, or
its guard's drop has begun and has not finished. -/
def Proc.pending (q : Proc C) : Bool := q.rank != 0

theorem rank_stepProc {sh sh' : Shared C} {q q' : Proc C} (hs : stepProc sh q = some (sh', q')) :
    q'.rank < q.rank ∨ sh'.aborted = true := by
  cases q <;> simp only [stepProc] at hs
  all_goals (repeat' (split at hs))
  all_goals (first | (simp at hs; done) | (obtain ⟨rfl, rfl⟩ := by simpa using hs))
  all_goals (first | (left; simp [Proc.rank]; done) | (right; rfl) | (left; split <;> simp [Proc.rank]))

theorem sum_map_set (l : List (Proc C)) (i : Nat) (q q' : Proc C) (h : l[i]? = some q) :
    ((l.set i q').map Proc.rank).sum + q.rank = (l.map Proc.rank).sum + q'.rank := by
  induction l generalizing i with
  | nil => simp at h
  | cons a l ih =>
    cases i with
    | zero =>
      simp only [List.getElem?_cons_zero, Option.some.injEq] at h
      subst h
      simp; omega
    | succ i =>
      simp only [List.getElem?_cons_succ] at h
      have := ih i h
      simp only [List.set_cons_succ, List.map_cons, List.sum_cons]
      omega

/-- C42: each effective step of a call uses up work, unless it aborts the process (a panic while panicking);
a step that is not effective leaves everything unchanged. -/
theorem C42_step_uses_work (s : Sys C) (i : Nat) :
    s.step (.adv i) = s ∨ (s.step (.adv i)).work < s.work ∨ (s.step (.adv i)).sh.aborted = true := by
  simp only [Sys.step]
  split
  · exact Or.inl rfl
  simp only [Sys.adv]
  split
  · exact Or.inl rfl
  rename_i q hq
  split
  · exact Or.inl rfl
  rename_i sh' q' hs
  right
  rcases rank_stepProc hs with h | h
  · left
    have := sum_map_set s.procs i q q' hq
    simp only [Sys.work]
    omega
  · exact Or.inr h

/-- C42: no deadlock.  In every reachable state of a process that was not aborted, if some call is pending then
some call can take a step that uses up work (or aborts the process).  With `C42_step_uses_work`: under any
scheduler that keeps running calls that can run, every call returns and every drop finishes, after at most
`work` steps. -/
theorem C42_no_deadlock (es : List (Event C)) (hna : ((Sys.new C).run es).sh.aborted = false)
    (q : Proc C) (hq : q ∈ ((Sys.new C).run es).procs) (hp : q.pending = true) :
    ∃ i, ((((Sys.new C).run es).step (.adv i)).work < ((Sys.new C).run es).work ∨
      (((Sys.new C).run es).step (.adv i)).sh.aborted = true) := by
  have h := inv_run es
  generalize (Sys.new C).run es = s at *
  obtain ⟨i1, i2, i3, i4, i5, i6, i7, i8, i8', i9, i10⟩ := h
  have key : ∀ (i : Nat) (r : Proc C) (o : Shared C × Proc C), s.procs[i]? = some r →
      stepProc s.sh r = some o →
      ((s.step (.adv i)).work < s.work ∨ (s.step (.adv i)).sh.aborted = true) := by
    intro i r o hi ho
    have hstep : s.step (.adv i) = ⟨o.1, s.procs.set i o.2⟩ := by
      simp only [Sys.step, hna, Sys.adv, hi, ho]
      simp
    rw [hstep]
    rcases rank_stepProc (sh' := o.1) (q' := o.2) ho with h | h
    · left
      have := sum_map_set s.procs i r o.2 hi
      simp only [Sys.work]
      omega
    · exact Or.inr h
  cases hl : s.sh.locked with
  | true =>
    rw [hl, if_pos rfl] at i4
    have : 0 < s.procs.countP Proc.isRdTry ∨ 0 < s.procs.countP Proc.isWrTry ∨ 0 < s.procs.countP Proc.crit := by
      omega
    rcases this with h | h | h
    · obtain ⟨i, r, hi, hr⟩ := exists_of_countP _ _ h
      cases r <;> simp [Proc.isRdTry] at hr
      refine ⟨i, ?_⟩
      rename_i c
      cases ho : stepProc s.sh (.rdTry c) with
      | none => simp only [stepProc] at ho; split at ho <;> simp at ho
      | some o => exact key i _ o hi ho
    · obtain ⟨i, r, hi, hr⟩ := exists_of_countP _ _ h
      cases r <;> simp [Proc.isWrTry] at hr
      refine ⟨i, ?_⟩
      rename_i c
      cases ho : stepProc s.sh (.wrTry c) with
      | none => simp only [stepProc] at ho; split at ho <;> simp at ho
      | some o => exact key i _ o hi ho
    · obtain ⟨i, r, hi, hr⟩ := exists_of_countP _ _ h
      refine ⟨i, ?_⟩
      cases ho : stepProc s.sh r with
      | none =>
        cases r <;> simp [Proc.crit] at hr <;> simp only [stepProc] at ho
        all_goals (repeat' (split at ho))
        all_goals simp at ho
      | some o => exact key i _ o hi ho
  | false =>
    obtain ⟨i, hi⟩ := List.getElem?_of_mem hq
    refine ⟨i, ?_⟩
    cases ho : stepProc s.sh q with
    | none =>
      cases q <;> simp [Proc.pending, Proc.rank] at hp <;> simp only [stepProc, hl] at ho
      all_goals (repeat' (split at ho))
      all_goals simp at ho
      all_goals simp_all
    | some o => exact key i _ o hi ho

/-- A state with two pending calls, one of which waits for the mutex. -/
example : ((Sys.new Nat).run [.read 1, .read 2, .adv 0]).work = 5 ∧
    ((Sys.new Nat).run [.read 1, .read 2, .adv 0]).step (.adv 1) = (Sys.new Nat).run [.read 1, .read 2, .adv 0] := by
  decide

/-! ## C40, sequential use -/

/-- What the client of call `i` was answered. -/
def answer : Option (Proc C) → Spec.Lock.Ans C
  | some (.rdHeld _) | some (.wrHeld _) => .granted
  | some (.rdErr w) => .refused [w]
  | some (.wrErr cs) => .refused cs
  | some .panicked => .panic
  | _ => .unit

/-- Run one operation to its end before the next begins. -/
def seqOp (s : Sys C) : Spec.Lock.Op C → Sys C × Spec.Lock.Ans C
  | .read c =>
    let i := s.procs.length
    let s' := s.run [.read c, .adv i, .adv i, .adv i]
    (s', answer s'.procs[i]?)
  | .write c =>
    let i := s.procs.length
    let s' := s.run [.write c, .adv i, .adv i, .adv i]
    (s', answer s'.procs[i]?)
  | .drop k =>
    let s' := s.run [.drop k false, .adv k, .adv k, .adv k]
    (s', match s'.procs[k]? with | some .panicked => .panic | _ => .unit)

/-- The answers of a sequential program. -/
def seqAnswers : Sys C → List (Spec.Lock.Op C) → List (Spec.Lock.Ans C)
  | _, [] => []
  | s, op :: ops => (seqOp s op).2 :: seqAnswers (seqOp s op).1 ops

/-- What a call holds, as the specification sees it. -/
def view : Proc C → Option (Bool × C)
  | .rdHeld c => some (false, c)
  | .wrHeld c => some (true, c)
  | _ => none

def Proc.quiet : Proc C → Bool
  | .rdHeld _ | .wrHeld _ | .done | .rdErr _ | .wrErr _ => true
  | _ => false

structure Quiet (s : Sys C) : Prop where
  inv : Inv s
  all : ∀ q ∈ s.procs, q.quiet = true

section
variable {s : Sys C} (h : Quiet s)
include h

theorem Quiet.zero (p : Proc C → Bool) (hp : ∀ q : Proc C, q.quiet = true → p q = false) :
    s.procs.countP p = 0 := by
  rw [List.countP_eq_zero]
  intro q hq
  rw [hp q (h.all q hq)]; simp

theorem Quiet.flags : s.sh.poisoned = false ∧ s.sh.inner.poisoned = false ∧ s.sh.aborted = false
    ∧ s.sh.locked = false := by
  obtain ⟨i1, i2, i3, i4, i5, i6, i7, i8, i8', i9, i10⟩ := h.inv
  rw [h.zero _ (by intro q; cases q <;> simp [Proc.quiet, Proc.isRdTry]),
    h.zero _ (by intro q; cases q <;> simp [Proc.quiet, Proc.isWrTry]),
    h.zero _ (by intro q; cases q <;> simp [Proc.quiet, Proc.crit])] at i4
  rw [h.zero _ (by intro q; cases q <;> simp [Proc.quiet, Proc.isPanicked])] at i10
  refine ⟨?_, ?_, ?_, ?_⟩
  · cases hb : s.sh.poisoned
    · rfl
    · exact absurd (i10 (Or.inl hb)) (by omega)
  · cases hb : s.sh.inner.poisoned
    · rfl
    · exact absurd (i10 (Or.inr (Or.inl hb))) (by omega)
  · cases hb : s.sh.aborted
    · rfl
    · exact absurd (i10 (Or.inr (Or.inr hb))) (by omega)
  · cases hb : s.sh.locked
    · rfl
    · simp [hb] at i4

/-- The write registration is exactly the held write guard. -/
theorem Quiet.write (c : C) : s.sh.tracking.write = some c ↔ Proc.wrHeld c ∈ s.procs := by
  have h7 := h.inv.i7 h.flags.1 c
  constructor
  · intro hw
    rw [if_pos hw] at h7
    obtain ⟨q, hq, hr⟩ := List.countP_pos_iff.1 (show 0 < s.procs.countP (Proc.regW c) by omega)
    have := h.all q hq
    cases q <;> simp [Proc.quiet] at this <;> simp [Proc.regW] at hr
    subst hr; exact hq
  · intro hm
    have : 0 < s.procs.countP (Proc.regW c) := List.countP_pos_iff.2 ⟨_, hm, by simp [Proc.regW]⟩
    refine Classical.byContradiction fun hn => ?_
    rw [if_neg hn] at h7; omega

/-- The read registrations are exactly the held read guards. -/
theorem Quiet.read (c : C) : c ∈ s.sh.tracking.reads.map (·.1) ↔ Proc.rdHeld c ∈ s.procs := by
  rw [cnt_pos_of_mem c _ h.inv.i6, h.inv.i5 h.flags.1 c, List.countP_pos_iff]
  constructor
  · rintro ⟨q, hq, hr⟩
    have := h.all q hq
    cases q <;> simp [Proc.quiet] at this <;> simp [Proc.regR] at hr
    subst hr; exact hq
  · intro hm
    exact ⟨_, hm, by simp [Proc.regR]⟩

theorem Quiet.innerWriter (hw : s.sh.tracking.write = none) : s.sh.inner.writer = false := by
  cases hb : s.sh.inner.writer
  · rfl
  · have i2 := h.inv.i2
    rw [hb, if_pos rfl] at i2
    obtain ⟨q, hq, hr⟩ := List.countP_pos_iff.1 (show 0 < s.procs.countP Proc.liveW by omega)
    have := h.all q hq
    cases q <;> simp [Proc.quiet] at this <;> simp [Proc.liveW] at hr
    rw [(h.write _).2 hq] at hw
    simp at hw

theorem Quiet.innerReaders (hr : s.sh.tracking.reads = []) : s.sh.inner.readers = 0 := by
  have i1 := h.inv.i1
  rw [i1, List.countP_eq_zero]
  intro q hq hl
  have := h.all q hq
  cases q <;> simp [Proc.quiet] at this <;> simp [Proc.liveR] at hl
  have := (h.read _).2 hq
  simp [hr] at this

theorem Quiet.noMix (hr : s.sh.tracking.reads ≠ []) : s.sh.tracking.write = none := by
  cases hw : s.sh.tracking.write with
  | none => rfl
  | some w =>
    exfalso
    have hm := (h.write w).1 hw
    have hlw : 0 < s.procs.countP Proc.liveW := List.countP_pos_iff.2 ⟨_, hm, rfl⟩
    have hwr : s.sh.inner.writer = true := by
      have := h.inv.i2
      split at this
      · assumption
      · omega
    have hrd := h.inv.i3 hwr
    cases hx : s.sh.tracking.reads with
    | nil => exact hr hx
    | cons a l =>
      have hm := (h.read a.1).1 (by rw [hx]; simp)
      have : 0 < s.procs.countP Proc.liveR := List.countP_pos_iff.2 ⟨_, hm, rfl⟩
      rw [← h.inv.i1] at this
      omega

end

theorem step_adv {s : Sys C} {i : Nat} {q q' : Proc C} {sh' : Shared C} (ha : s.sh.aborted = false)
    (hq : s.procs[i]? = some q) (hs : stepProc s.sh q = some (sh', q')) :
    s.step (.adv i) = ⟨sh', s.procs.set i q'⟩ := by
  simp [Sys.step, ha, Sys.adv, hq, hs]

theorem step_adv_none {s : Sys C} {i : Nat} {q : Proc C}
    (hq : s.procs[i]? = some q) (hs : stepProc s.sh q = none) : s.step (.adv i) = s := by
  simp [Sys.step, Sys.adv, hq, hs]

theorem mem_writers (l : List (Proc C)) (c : C) :
    c ∈ Spec.Lock.writers (l.map view) ↔ Proc.wrHeld c ∈ l := by
  simp only [Spec.Lock.writers, List.mem_filterMap, List.mem_map]
  constructor
  · rintro ⟨o, ⟨q, hq, rfl⟩, ho⟩
    cases q <;> simp [view] at ho
    subst ho; exact hq
  · intro hm
    exact ⟨_, ⟨_, hm, rfl⟩, rfl⟩

theorem mem_anyone (l : List (Proc C)) (c : C) :
    c ∈ Spec.Lock.anyone (l.map view) ↔ (Proc.rdHeld c ∈ l ∨ Proc.wrHeld c ∈ l) := by
  simp only [Spec.Lock.anyone, List.mem_filterMap, List.mem_map]
  constructor
  · rintro ⟨o, ⟨q, hq, rfl⟩, ho⟩
    cases q <;> simp [view] at ho
    · subst ho; exact Or.inl hq
    · subst ho; exact Or.inr hq
  · rintro (hm | hm)
    · exact ⟨_, ⟨_, hm, rfl⟩, rfl⟩
    · exact ⟨_, ⟨_, hm, rfl⟩, rfl⟩

theorem set_last (l : List (Proc C)) (a b : Proc C) : (l ++ [a]).set l.length b = l ++ [b] := by
  simp

theorem get_last (l : List (Proc C)) (a : Proc C) : (l ++ [a])[l.length]? = some a := by simp

theorem step_last {sh sh' : Shared C} {l : List (Proc C)} {q q' : Proc C} (ha : sh.aborted = false)
    (hs : stepProc sh q = some (sh', q')) :
    (⟨sh, l ++ [q]⟩ : Sys C).step (.adv l.length) = ⟨sh', l ++ [q']⟩ := by
  have := step_adv (s := ⟨sh, l ++ [q]⟩) (i := l.length) ha (get_last l q) hs
  rw [this, set_last]

theorem Quiet.snoc {s : Sys C} (h : Quiet s) {es : List (Event C)} {sh' : Shared C} {q : Proc C}
    (hr : s.run es = ⟨sh', s.procs ++ [q]⟩) (hq : q.quiet = true) : Quiet (⟨sh', s.procs ++ [q]⟩ : Sys C) := by
  refine ⟨hr ▸ h.inv.run es, ?_⟩
  intro r hm
  rcases List.mem_append.1 hm with hm | hm
  · exact h.all r hm
  · simp at hm; subst hm; exact hq

/-- One sequential operation refines the specification. -/
theorem seqOp_refines {s : Sys C} (h : Quiet s) (op : Spec.Lock.Op C) :
    Quiet (seqOp s op).1 ∧ (seqOp s op).1.procs.map view = (Spec.Lock.apply (s.procs.map view) op).1 ∧
    (seqOp s op).2.Same (Spec.Lock.apply (s.procs.map view) op).2 := by
  obtain ⟨f1, f2, f3, f4⟩ := h.flags
  cases op with
  | read c =>
    have e1 : s.step (.read c) = ⟨s.sh, s.procs ++ [.rdEnter c]⟩ := by simp [Sys.step, f3]
    have e2 : (⟨s.sh, s.procs ++ [.rdEnter c]⟩ : Sys C).step (.adv s.procs.length)
        = ⟨{ s.sh with locked := true }, s.procs ++ [.rdCheck c]⟩ := step_last f3 (by simp [stepProc, f1, f4])
    cases hw : s.sh.tracking.write with
    | some w =>
      have e3 : (⟨{ s.sh with locked := true }, s.procs ++ [.rdCheck c]⟩ : Sys C).step (.adv s.procs.length)
          = ⟨{ s.sh with locked := false }, s.procs ++ [.rdErr w]⟩ := step_last f3 (by simp [stepProc, hw])
      have e4 : (⟨{ s.sh with locked := false }, s.procs ++ [.rdErr w]⟩ : Sys C).step (.adv s.procs.length)
          = ⟨{ s.sh with locked := false }, s.procs ++ [.rdErr w]⟩ := step_adv_none (get_last _ _) rfl
      have er : s.run [.read c, .adv s.procs.length, .adv s.procs.length, .adv s.procs.length]
          = ⟨{ s.sh with locked := false }, s.procs ++ [.rdErr w]⟩ := by
        simp only [Sys.run, List.foldl_cons, List.foldl_nil, e1, e2, e3, e4]
      have hmw : ∀ x, x ∈ Spec.Lock.writers (s.procs.map view) ↔ x = w := by
        intro x
        rw [mem_writers, ← h.write x, hw]; simp [eq_comm]
      simp only [seqOp, er, Spec.Lock.apply]
      cases hws : Spec.Lock.writers (s.procs.map view) with
      | nil => have := (hmw w).2 rfl; rw [hws] at this; simp at this
      | cons a l =>
        refine ⟨h.snoc er rfl, by simp [view], ?_⟩
        simp only [get_last, answer, Spec.Lock.Ans.Same]
        intro x
        rw [← hws, hmw x]; simp
    | none =>
      have hiw := h.innerWriter hw
      have e3 : (⟨{ s.sh with locked := true }, s.procs ++ [.rdCheck c]⟩ : Sys C).step (.adv s.procs.length)
          = ⟨{ s.sh with locked := true }, s.procs ++ [.rdTry c]⟩ := step_last f3 (by simp [stepProc, hw])
      have e4 : ∃ sh', stepProc { s.sh with locked := true } (.rdTry c) = some (sh', .rdHeld c) := by
        simp [stepProc, hiw, f2]
      obtain ⟨sh', e4⟩ := e4
      have e4 := step_last (l := s.procs) (sh := { s.sh with locked := true }) f3 e4
      have er : s.run [.read c, .adv s.procs.length, .adv s.procs.length, .adv s.procs.length]
          = ⟨sh', s.procs ++ [.rdHeld c]⟩ := by
        simp only [Sys.run, List.foldl_cons, List.foldl_nil, e1, e2, e3, e4]
      have hws : Spec.Lock.writers (s.procs.map view) = [] := by
        rw [List.eq_nil_iff_forall_not_mem]
        intro x
        rw [mem_writers, ← h.write x, hw]; simp
      simp only [seqOp, er, Spec.Lock.apply, hws]
      exact ⟨h.snoc er rfl, by simp [view], by simp [get_last, answer, Spec.Lock.Ans.Same]⟩
  | write c =>
    have e1 : s.step (.write c) = ⟨s.sh, s.procs ++ [.wrEnter c]⟩ := by simp [Sys.step, f3]
    have e2 : (⟨s.sh, s.procs ++ [.wrEnter c]⟩ : Sys C).step (.adv s.procs.length)
        = ⟨{ s.sh with locked := true }, s.procs ++ [.wrCheck c]⟩ := step_last f3 (by simp [stepProc, f1, f4])
    have refuse : ∀ cs, stepProc { s.sh with locked := true } (.wrCheck c) = some ({ s.sh with locked := false }, .wrErr cs) →
        cs ≠ [] → (∀ x, x ∈ cs ↔ x ∈ Spec.Lock.anyone (s.procs.map view)) →
        Quiet (seqOp s (.write c)).1 ∧
        (seqOp s (.write c)).1.procs.map view = (Spec.Lock.apply (s.procs.map view) (.write c)).1 ∧
        (seqOp s (.write c)).2.Same (Spec.Lock.apply (s.procs.map view) (.write c)).2 := by
      intro cs hs hne hmem
      have e3 : (⟨{ s.sh with locked := true }, s.procs ++ [.wrCheck c]⟩ : Sys C).step (.adv s.procs.length)
          = ⟨{ s.sh with locked := false }, s.procs ++ [.wrErr cs]⟩ := by
        exact step_last f3 hs
      have e4 : (⟨{ s.sh with locked := false }, s.procs ++ [.wrErr cs]⟩ : Sys C).step (.adv s.procs.length)
          = ⟨{ s.sh with locked := false }, s.procs ++ [.wrErr cs]⟩ := step_adv_none (get_last _ _) rfl
      have er : s.run [.write c, .adv s.procs.length, .adv s.procs.length, .adv s.procs.length]
          = ⟨{ s.sh with locked := false }, s.procs ++ [.wrErr cs]⟩ := by
        simp only [Sys.run, List.foldl_cons, List.foldl_nil, e1, e2, e3, e4]
      simp only [seqOp, er, Spec.Lock.apply]
      cases hws : Spec.Lock.anyone (s.procs.map view) with
      | nil =>
        cases cs with
        | nil => exact absurd rfl hne
        | cons a l => have := (hmem a).1 (by simp); rw [hws] at this; simp at this
      | cons a l =>
        refine ⟨h.snoc er rfl, by simp [view], ?_⟩
        simp only [get_last, answer, Spec.Lock.Ans.Same]
        intro x
        rw [← hws, hmem x]
    by_cases hr : s.sh.tracking.reads = []
    · cases hw : s.sh.tracking.write with
      | some w =>
        refine refuse [w] (by simp [stepProc, hr, hw]) (by simp) ?_
        intro x
        rw [mem_anyone, ← h.read x, ← h.write x, hw, hr]; simp [eq_comm]
      | none =>
        have hiw := h.innerWriter hw
        have hir := h.innerReaders hr
        have e3 : ∃ sh1, stepProc { s.sh with locked := true } (.wrCheck c) = some (sh1, .wrTry c) ∧
            sh1.inner = s.sh.inner ∧ sh1.aborted = false := by
          simp [stepProc, hr, hw, f3]
        obtain ⟨sh1, e3, g1, g2⟩ := e3
        have e3 := step_last (l := s.procs) (sh := { s.sh with locked := true }) f3 e3
        have e4 : ∃ sh', stepProc sh1 (.wrTry c) = some (sh', .wrHeld c) := by
          simp [stepProc, g1, hiw, f2, hir]
        obtain ⟨sh', e4⟩ := e4
        have e4 := step_last (l := s.procs) g2 e4
        have er : s.run [.write c, .adv s.procs.length, .adv s.procs.length, .adv s.procs.length]
            = ⟨sh', s.procs ++ [.wrHeld c]⟩ := by
          simp only [Sys.run, List.foldl_cons, List.foldl_nil, e1, e2, e3, e4]
        have hws : Spec.Lock.anyone (s.procs.map view) = [] := by
          rw [List.eq_nil_iff_forall_not_mem]
          intro x
          rw [mem_anyone, ← h.read x, ← h.write x, hw, hr]; simp
        simp only [seqOp, er, Spec.Lock.apply, hws]
        exact ⟨h.snoc er rfl, by simp [view], by simp [get_last, answer, Spec.Lock.Ans.Same]⟩
    · refine refuse (s.sh.tracking.reads.map (·.1)) (by simp [stepProc, hr]) (by simpa using hr) ?_
      intro x
      rw [mem_anyone, ← h.read x, ← h.write x, h.noMix hr]; simp
  | drop k =>
    -- a guard that is dropped completely
    have dropped : ∀ (q d1 d2 d3 : Proc C) (s1 s2 s3 : Shared C), s.procs[k]? = some q →
        s.step (.drop k false) = ⟨s.sh, s.procs.set k d1⟩ →
        stepProc s.sh d1 = some (s1, d2) → stepProc s1 d2 = some (s2, d3) →
        stepProc s2 d3 = some (s3, .done) → s1.aborted = false → s2.aborted = false →
        Quiet (seqOp s (.drop k)).1 ∧
        (seqOp s (.drop k)).1.procs.map view = (Spec.Lock.apply (s.procs.map view) (.drop k)).1 ∧
        (seqOp s (.drop k)).2.Same (Spec.Lock.apply (s.procs.map view) (.drop k)).2 := by
      intro q d1 d2 d3 s1 s2 s3 hk e1 p1 p2 p3 a1 a2
      have hlt : k < s.procs.length := (List.getElem?_eq_some_iff.1 hk).1
      have g : ∀ d : Proc C, (s.procs.set k d)[k]? = some d := fun d => List.getElem?_set_self hlt
      have e2 : (⟨s.sh, s.procs.set k d1⟩ : Sys C).step (.adv k) = ⟨s1, s.procs.set k d2⟩ := by
        rw [step_adv (s := ⟨s.sh, s.procs.set k d1⟩) f3 (g d1) p1, List.set_set]
      have e3 : (⟨s1, s.procs.set k d2⟩ : Sys C).step (.adv k) = ⟨s2, s.procs.set k d3⟩ := by
        rw [step_adv (s := ⟨s1, s.procs.set k d2⟩) a1 (g d2) p2, List.set_set]
      have e4 : (⟨s2, s.procs.set k d3⟩ : Sys C).step (.adv k) = ⟨s3, s.procs.set k .done⟩ := by
        rw [step_adv (s := ⟨s2, s.procs.set k d3⟩) a2 (g d3) p3, List.set_set]
      have er : s.run [.drop k false, .adv k, .adv k, .adv k] = ⟨s3, s.procs.set k .done⟩ := by
        simp only [Sys.run, List.foldl_cons, List.foldl_nil, e1, e2, e3, e4]
      simp only [seqOp, er, Spec.Lock.apply, g]
      refine ⟨⟨er ▸ h.inv.run _, ?_⟩, ?_, ?_⟩
      · intro r hr
        rcases List.mem_or_eq_of_mem_set hr with hr | rfl
        · exact h.all r hr
        · rfl
      · rw [List.map_set]; rfl
      · simp [Spec.Lock.Ans.Same]
    -- nothing to drop
    have nothing : s.step (.drop k false) = s → s.step (.adv k) = s → (s.procs.map view).set k none = s.procs.map view →
        s.procs[k]? ≠ some .panicked →
        Quiet (seqOp s (.drop k)).1 ∧
        (seqOp s (.drop k)).1.procs.map view = (Spec.Lock.apply (s.procs.map view) (.drop k)).1 ∧
        (seqOp s (.drop k)).2.Same (Spec.Lock.apply (s.procs.map view) (.drop k)).2 := by
      intro e1 e2 e3 e4
      have er : s.run [.drop k false, .adv k, .adv k, .adv k] = s := by
        simp only [Sys.run, List.foldl_cons, List.foldl_nil, e1, e2]
      simp only [seqOp, er, Spec.Lock.apply]
      refine ⟨h, e3.symm, ?_⟩
      rcases hk : s.procs[k]? with _ | q
      · simp [Spec.Lock.Ans.Same]
      · rw [hk] at e4
        cases q <;> first | exact absurd rfl e4 | simp [Spec.Lock.Ans.Same]
    cases hk : s.procs[k]? with
    | none =>
      apply nothing
      · simp [Sys.step, hk]
      · simp [Sys.step, Sys.adv, hk]
      · rw [List.set_eq_of_length_le]
        rw [List.length_map]
        exact List.getElem?_eq_none_iff.1 hk
      · simp [hk]
    | some q =>
      have hqq := h.all q (List.mem_of_getElem? hk)
      have hv : view q = none → (s.procs.map view).set k none = s.procs.map view := by
        intro hv
        apply List.ext_getElem?
        intro j
        rw [List.getElem?_set]
        split
        · rename_i hj; subst hj
          rw [List.getElem?_map, hk]
          have hlt : k < s.procs.length := (List.getElem?_eq_some_iff.1 hk).1
          simp [hlt, hv]
        · rfl
      cases q with
      | rdHeld c =>
        refine dropped (.rdHeld c) (.rdDrop c false) (.rdUpd c false) (.rdRel false) { s.sh with locked := true }
          { s.sh with tracking := { s.sh.tracking with reads := unbump c s.sh.tracking.reads }, locked := false }
          _ hk (by simp [Sys.step, f3, hk]) (by simp [stepProc, f1, f4]) (by simp [stepProc])
          (by simp [stepProc]; rfl) f3 f3
      | wrHeld c =>
        refine dropped (.wrHeld c) (.wrDrop c false) (.wrUpd c false) (.wrRel false) { s.sh with locked := true }
          { s.sh with tracking := ⟨s.sh.tracking.reads, if s.sh.tracking.write = some c then none else s.sh.tracking.write⟩, locked := false }
          _ hk (by simp [Sys.step, f3, hk]) (by simp [stepProc, f1, f4]) (by simp [stepProc])
          (by simp [stepProc]; rfl) f3 f3
      | done => exact nothing (by simp [Sys.step, hk]) (step_adv_none hk rfl) (hv rfl) (by simp [hk])
      | rdErr c => exact nothing (by simp [Sys.step, hk]) (step_adv_none hk rfl) (hv rfl) (by simp [hk])
      | wrErr c => exact nothing (by simp [Sys.step, hk]) (step_adv_none hk rfl) (hv rfl) (by simp [hk])
      | _ => simp [Proc.quiet] at hqq

theorem seqAnswers_refines (ops : List (Spec.Lock.Op C)) : ∀ (s : Sys C), Quiet s →
    Spec.Lock.SameAll (seqAnswers s ops) (Spec.Lock.answers (s.procs.map view) ops) := by
  induction ops with
  | nil => intro s _; trivial
  | cons op ops ih =>
    intro s hs
    obtain ⟨h1, h2, h3⟩ := seqOp_refines hs op
    refine ⟨h3, ?_⟩
    rw [← h2]
    exact ih _ h1

/-- C40 (part): used sequentially (each call or drop runs to its end before the next begins, no thread panics), a
new lock answers every program exactly as the ideal readers/writer lock does: it grants when the ideal lock
grants, refuses naming exactly the holders in the way otherwise, and never panics. -/
theorem C40_sequential_partial (ops : List (Spec.Lock.Op C)) :
    Spec.Lock.SameAll (seqAnswers (Sys.new C) ops) (Spec.Lock.answers [] ops) :=
  seqAnswers_refines ops (Sys.new C) ⟨inv_new, by simp [Sys.new]⟩

end Fox.Lock
