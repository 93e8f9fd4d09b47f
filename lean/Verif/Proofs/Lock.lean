import Verif.Model.Lock
import Verif.Spec.Lock
/-! Invariant of the tracking lock over all schedules. -/
namespace Fox.Lock
open Fox
set_option linter.unusedSectionVars false

variable {C : Type} [DecidableEq C]

def Proc.liveR : Proc C → Bool
  | .rdHeld _ | .rdDrop _ _ | .rdUpd _ _ | .rdRel _ => true
  | _ => false
def Proc.liveW : Proc C → Bool
  | .wrHeld _ | .wrDrop _ _ | .wrUpd _ _ | .wrRel _ => true
  | _ => false
def Proc.isRdTry : Proc C → Bool
  | .rdTry _ => true
  | _ => false
def Proc.isWrTry : Proc C → Bool
  | .wrTry _ => true
  | _ => false
def Proc.crit : Proc C → Bool
  | .rdCheck _ | .wrCheck _ | .rdUpd _ _ | .wrUpd _ _ => true
  | _ => false
def Proc.regR (c : C) : Proc C → Bool
  | .rdHeld d | .rdDrop d _ | .rdUpd d _ => d = c
  | _ => false
def Proc.regW (c : C) : Proc C → Bool
  | .wrTry d | .wrHeld d | .wrDrop d _ | .wrUpd d _ => d = c
  | _ => false
def Proc.isPanicked : Proc C → Bool
  | .panicked => true
  | _ => false

/-- Count recorded for a context. -/
def cnt (c : C) : List (C × Nat) → Nat
  | [] => 0
  | (d, n) :: m => (if d = c then n else 0) + cnt c m

def WF (m : List (C × Nat)) : Prop := (m.map (·.1)).Nodup ∧ ∀ p ∈ m, 0 < p.2

/-- The invariant over counts: live readers / writers, calls about to `try_`, other calls inside the mutex,
panicked calls, and registered readers / writers per context. -/
structure InvC (sh : Shared C) (LR LW RT WT CR P : Nat) (RR RW : C → Nat) : Prop where
  i1 : sh.inner.readers = LR
  i2 : LW = if sh.inner.writer then 1 else 0
  i3 : sh.inner.writer = true → sh.inner.readers = 0
  i4 : RT + WT + CR = if sh.locked then 1 else 0
  i5 : sh.poisoned = false → ∀ c, cnt c sh.tracking.reads = RR c
  i6 : WF sh.tracking.reads
  i7 : sh.poisoned = false → ∀ c, RW c = if sh.tracking.write = some c then 1 else 0
  i8 : sh.poisoned = false → 0 < RT → sh.tracking.write = none
  i8' : sh.poisoned = false → 0 < WT → sh.tracking.reads = []
  i9 : sh.poisoned = true → sh.locked = false
  i10 : sh.poisoned = true ∨ sh.inner.poisoned = true ∨ sh.aborted = true → 0 < P

def Inv (s : Sys C) : Prop :=
  InvC s.sh (s.procs.countP Proc.liveR) (s.procs.countP Proc.liveW) (s.procs.countP Proc.isRdTry)
    (s.procs.countP Proc.isWrTry) (s.procs.countP Proc.crit) (s.procs.countP Proc.isPanicked)
    (fun c => s.procs.countP (Proc.regR c)) (fun c => s.procs.countP (Proc.regW c))

theorem cnt_bump (c d : C) : ∀ m, cnt d (bump c m) = cnt d m + if c = d then 1 else 0
  | [] => by simp [bump, cnt]
  | (e, n) :: m => by
    have ih := cnt_bump c d m
    simp only [bump]
    by_cases h : e = c
    · subst h; simp [cnt]; split <;> omega
    · rw [if_neg h]; simp only [cnt, ih]; omega

theorem keys_bump (c : C) : ∀ m : List (C × Nat), ∀ x, x ∈ (bump c m).map (·.1) ↔ x ∈ m.map (·.1) ∨ x = c
  | [], x => by simp [bump]
  | (e, n) :: m, x => by
    have ih := keys_bump c m x
    simp only [bump]
    by_cases h : e = c
    · subst h; simp only [if_pos, List.map_cons, List.mem_cons]; grind
    · rw [if_neg h]; simp only [List.map_cons, List.mem_cons, ih]; grind

theorem WF_bump (c : C) : ∀ m : List (C × Nat), WF m → WF (bump c m)
  | [], _ => by simp [bump, WF]
  | (e, n) :: m, h => by
    obtain ⟨h1, h2⟩ := h
    simp only [List.map_cons, List.nodup_cons] at h1
    simp only [bump]
    by_cases hc : e = c
    · rw [if_pos hc]
      refine ⟨by simpa using h1, ?_⟩
      intro p hp
      rcases List.mem_cons.1 hp with rfl | hp
      · simp
      · exact h2 p (List.mem_cons_of_mem _ hp)
    · rw [if_neg hc]
      have ih := WF_bump c m ⟨h1.2, fun p hp => h2 p (List.mem_cons_of_mem _ hp)⟩
      refine ⟨?_, ?_⟩
      · simp only [List.map_cons, List.nodup_cons]
        refine ⟨?_, ih.1⟩
        rw [keys_bump]
        intro hh
        rcases hh with hh | hh
        · exact h1.1 hh
        · exact hc hh
      · intro p hp
        rcases List.mem_cons.1 hp with rfl | hp
        · exact h2 _ (List.mem_cons_self ..)
        · exact ih.2 p hp

theorem keys_unbump (c : C) : ∀ m : List (C × Nat), ∀ x, x ∈ (unbump c m).map (·.1) → x ∈ m.map (·.1)
  | [], x => by simp [unbump]
  | (e, n) :: m, x => by
    have ih := keys_unbump c m x
    simp only [unbump]
    by_cases h : e = c
    · rw [if_pos h]; split
      · intro hx; simp only [List.map_cons, List.mem_cons]; exact Or.inr hx
      · simp
    · rw [if_neg h]; simp only [List.map_cons, List.mem_cons]
      rintro (h | h)
      · exact Or.inl h
      · exact Or.inr (ih h)

theorem WF_unbump (c : C) : ∀ m : List (C × Nat), WF m → WF (unbump c m)
  | [], h => h
  | (e, n) :: m, h => by
    obtain ⟨h1, h2⟩ := h
    simp only [List.map_cons, List.nodup_cons] at h1
    have hm : WF m := ⟨h1.2, fun p hp => h2 p (List.mem_cons_of_mem _ hp)⟩
    simp only [unbump]
    by_cases hc : e = c
    · rw [if_pos hc]
      split
      · exact hm
      · refine ⟨by simpa using h1, ?_⟩
        intro p hp
        rcases List.mem_cons.1 hp with rfl | hp
        · show 0 < n - 1; omega
        · exact hm.2 p hp
    · rw [if_neg hc]
      have ih := WF_unbump c m hm
      refine ⟨?_, ?_⟩
      · simp only [List.map_cons, List.nodup_cons]
        exact ⟨fun hh => h1.1 (keys_unbump c m _ hh), ih.1⟩
      · intro p hp
        rcases List.mem_cons.1 hp with rfl | hp
        · exact h2 _ (List.mem_cons_self ..)
        · exact ih.2 p hp

theorem cnt_notMem (c : C) : ∀ m : List (C × Nat), c ∉ m.map (·.1) → cnt c m = 0
  | [], _ => rfl
  | (e, n) :: m, h => by
    simp only [List.map_cons, List.mem_cons, not_or] at h
    simp only [cnt, cnt_notMem c m h.2]
    rw [if_neg (Ne.symm h.1)]

theorem cnt_unbump (c d : C) : ∀ m, WF m → cnt d (unbump c m) = cnt d m - if c = d then 1 else 0
  | [], _ => by simp [unbump, cnt]
  | (e, n) :: m, h => by
    have hm : WF m := ⟨(List.nodup_cons.1 h.1).2, fun p hp => h.2 p (List.mem_cons_of_mem _ hp)⟩
    have hn : e ∉ m.map (·.1) := (List.nodup_cons.1 h.1).1
    have hp : 0 < n := h.2 (e, n) (List.mem_cons_self ..)
    have ih := cnt_unbump c d m hm
    simp only [unbump]
    by_cases h : e = c
    · subst h
      rw [if_pos rfl]
      by_cases hd : e = d
      · subst hd
        have := cnt_notMem e m hn
        split <;> simp [cnt, this]; omega
      · split <;> simp [cnt, hd]
    · rw [if_neg h]; simp only [cnt, ih]
      by_cases hd : e = d
      · subst hd; simp [Ne.symm h]
      · simp [hd]

theorem cnt_pos_of_mem (c : C) : ∀ m : List (C × Nat), WF m → (c ∈ m.map (·.1) ↔ 0 < cnt c m)
  | [], _ => by simp [cnt]
  | (e, n) :: m, h => by
    have hm : WF m := ⟨(List.nodup_cons.1 h.1).2, fun p hp => h.2 p (List.mem_cons_of_mem _ hp)⟩
    have hp : 0 < n := h.2 (e, n) (List.mem_cons_self ..)
    have ih := cnt_pos_of_mem c m hm
    simp only [List.map_cons, List.mem_cons, cnt, ih]
    by_cases h : e = c
    · subst h; simp; omega
    · simp [h, Ne.symm h]

theorem countP_set' (p : Proc C → Bool) (l : List (Proc C)) (i : Nat) (q q' : Proc C)
    (h : l[i]? = some q) :
    (l.set i q').countP p + (if p q then 1 else 0) = l.countP p + (if p q' then 1 else 0) := by
  obtain ⟨hi, hq⟩ := List.getElem?_eq_some_iff.1 h
  rw [List.countP_set hi, hq]
  have : p q = true → 0 < l.countP p := by
    intro hp
    exact List.countP_pos_iff.2 ⟨q, hq ▸ List.getElem_mem hi, hp⟩
  split
  · have := this ‹_›; omega
  · omega

theorem exists_of_countP (p : Proc C → Bool) (l : List (Proc C)) (h : 0 < l.countP p) :
    ∃ (i : Nat) (q : Proc C), l[i]? = some q ∧ p q = true := by
  obtain ⟨q, hq, hp⟩ := List.countP_pos_iff.1 h
  obtain ⟨i, hi⟩ := List.getElem?_of_mem hq
  exact ⟨i, q, hi, hp⟩

theorem countP_of_get (p : Proc C → Bool) (l : List (Proc C)) (i : Nat) (q : Proc C)
    (h : l[i]? = some q) (hp : p q = true) : 0 < l.countP p :=
  List.countP_pos_iff.2 ⟨q, List.mem_of_getElem? h, hp⟩

theorem two_le_countP (p : Proc C → Bool) (q r : Proc C) (hq : p q = true) (hr : p r = true) :
    ∀ (l : List (Proc C)) (i j : Nat), l[i]? = some q → l[j]? = some r → i ≠ j → 2 ≤ l.countP p
  | [], _, _, hi, _, _ => by simp at hi
  | a :: l, 0, 0, _, _, h => absurd rfl h
  | a :: l, 0, j + 1, hi, hj, _ => by
    simp only [List.getElem?_cons_zero, Option.some.injEq] at hi
    simp only [List.getElem?_cons_succ] at hj
    have := countP_of_get p l j r hj hr
    rw [List.countP_cons, hi, if_pos hq]; omega
  | a :: l, i + 1, 0, hi, hj, _ => by
    simp only [List.getElem?_cons_zero, Option.some.injEq] at hj
    simp only [List.getElem?_cons_succ] at hi
    have := countP_of_get p l i q hi hq
    rw [List.countP_cons, hj, if_pos hr]; omega
  | a :: l, i + 1, j + 1, hi, hj, h => by
    simp only [List.getElem?_cons_succ] at hi hj
    have := two_le_countP p q r hq hr l i j hi hj (by omega)
    rw [List.countP_cons]; omega

theorem inv_new : Inv (Sys.new C) := by
  constructor <;> simp [Sys.new, Shared.new, cnt, WF]

local macro "fin" : tactic => `(tactic| (constructor <;> first | assumption | (simp_all; done) | (simp_all; omega) | grind))

theorem InvC.stepProc {sh sh' : Shared C} {q q' : Proc C} {LR LW RT WT CR P LR' LW' RT' WT' CR' P' : Nat}
    {RR RW RR' RW' : C → Nat} (h : InvC sh LR LW RT WT CR P RR RW) (hs : stepProc sh q = some (sh', q'))
    (cLR : LR' + (if q.liveR then 1 else 0) = LR + (if q'.liveR then 1 else 0))
    (cLW : LW' + (if q.liveW then 1 else 0) = LW + (if q'.liveW then 1 else 0))
    (cRT : RT' + (if q.isRdTry then 1 else 0) = RT + (if q'.isRdTry then 1 else 0))
    (cWT : WT' + (if q.isWrTry then 1 else 0) = WT + (if q'.isWrTry then 1 else 0))
    (cCR : CR' + (if q.crit then 1 else 0) = CR + (if q'.crit then 1 else 0))
    (cP : P' + (if q.isPanicked then 1 else 0) = P + (if q'.isPanicked then 1 else 0))
    (cRR : ∀ c, RR' c + (if q.regR c then 1 else 0) = RR c + (if q'.regR c then 1 else 0))
    (cRW : ∀ c, RW' c + (if q.regW c then 1 else 0) = RW c + (if q'.regW c then 1 else 0))
    (pLR : q.liveR → 0 < LR) (pLW : q.liveW → 0 < LW) (pRT : q.isRdTry → 0 < RT) (pWT : q.isWrTry → 0 < WT)
    (pCR : q.crit → 0 < CR) (pRR : ∀ c, q.regR c → 0 < RR c) (pRW : ∀ c, q.regW c → 0 < RW c) :
    InvC sh' LR' LW' RT' WT' CR' P' RR' RW' := by
  obtain ⟨i1, i2, i3, i4, i5, i6, i7, i8, i8', i9, i10⟩ := h
  cases q <;> simp only [Lock.stepProc] at hs
  case rdEnter c =>
    split at hs
    · simp at hs
    · split at hs
      · obtain ⟨rfl, rfl⟩ := by simpa using hs
        simp [Proc.liveR, Proc.liveW, Proc.isRdTry, Proc.isWrTry, Proc.crit, Proc.isPanicked, Proc.regR, Proc.regW] at *
        fin
      · obtain ⟨rfl, rfl⟩ := by simpa using hs
        simp [Proc.liveR, Proc.liveW, Proc.isRdTry, Proc.isWrTry, Proc.crit, Proc.isPanicked, Proc.regR, Proc.regW] at *
        fin
  case rdCheck c =>
    split at hs
    · obtain ⟨rfl, rfl⟩ := by simpa using hs
      simp [Proc.liveR, Proc.liveW, Proc.isRdTry, Proc.isWrTry, Proc.crit, Proc.isPanicked, Proc.regR, Proc.regW] at *
      fin
    · obtain ⟨rfl, rfl⟩ := by simpa using hs
      simp [Proc.liveR, Proc.liveW, Proc.isRdTry, Proc.isWrTry, Proc.crit, Proc.isPanicked, Proc.regR, Proc.regW] at *
      fin
  case rdTry c =>
    split at hs
    · obtain ⟨rfl, rfl⟩ := by simpa using hs
      simp [Proc.liveR, Proc.liveW, Proc.isRdTry, Proc.isWrTry, Proc.crit, Proc.isPanicked, Proc.regR, Proc.regW] at *
      fin
    · obtain ⟨rfl, rfl⟩ := by simpa using hs
      simp [Proc.liveR, Proc.liveW, Proc.isRdTry, Proc.isWrTry, Proc.crit, Proc.isPanicked, Proc.regR, Proc.regW] at *
      have := WF_bump c _ i6
      have := fun d => cnt_bump c d sh.tracking.reads
      fin
  case rdHeld c => simp at hs
  case rdDrop c p =>
    split at hs
    · simp at hs
    · split at hs
      · split at hs
        · obtain ⟨rfl, rfl⟩ := by simpa using hs
          simp [Proc.liveR, Proc.liveW, Proc.isRdTry, Proc.isWrTry, Proc.crit, Proc.isPanicked, Proc.regR, Proc.regW] at *
          fin
        · obtain ⟨rfl, rfl⟩ := by simpa using hs
          simp [Proc.liveR, Proc.liveW, Proc.isRdTry, Proc.isWrTry, Proc.crit, Proc.isPanicked, Proc.regR, Proc.regW] at *
          fin
      · obtain ⟨rfl, rfl⟩ := by simpa using hs
        simp [Proc.liveR, Proc.liveW, Proc.isRdTry, Proc.isWrTry, Proc.crit, Proc.isPanicked, Proc.regR, Proc.regW] at *
        fin
  case rdUpd c p =>
    · obtain ⟨rfl, rfl⟩ := by simpa using hs
      simp [Proc.liveR, Proc.liveW, Proc.isRdTry, Proc.isWrTry, Proc.crit, Proc.isPanicked, Proc.regR, Proc.regW] at *
      have := WF_unbump c _ i6
      have := fun d => cnt_unbump c d sh.tracking.reads i6
      fin
  case rdRel p =>
    cases p
    · obtain ⟨rfl, rfl⟩ := by simpa using hs
      simp [Proc.liveR, Proc.liveW, Proc.isRdTry, Proc.isWrTry, Proc.crit, Proc.isPanicked, Proc.regR, Proc.regW] at *
      fin
    · obtain ⟨rfl, rfl⟩ := by simpa using hs
      simp [Proc.liveR, Proc.liveW, Proc.isRdTry, Proc.isWrTry, Proc.crit, Proc.isPanicked, Proc.regR, Proc.regW] at *
      fin
  case rdErr c => simp at hs
  case wrEnter c =>
    split at hs
    · simp at hs
    · split at hs
      · obtain ⟨rfl, rfl⟩ := by simpa using hs
        simp [Proc.liveR, Proc.liveW, Proc.isRdTry, Proc.isWrTry, Proc.crit, Proc.isPanicked, Proc.regR, Proc.regW] at *
        fin
      · obtain ⟨rfl, rfl⟩ := by simpa using hs
        simp [Proc.liveR, Proc.liveW, Proc.isRdTry, Proc.isWrTry, Proc.crit, Proc.isPanicked, Proc.regR, Proc.regW] at *
        fin
  case wrCheck c =>
    split at hs
    · obtain ⟨rfl, rfl⟩ := by simpa using hs
      simp [Proc.liveR, Proc.liveW, Proc.isRdTry, Proc.isWrTry, Proc.crit, Proc.isPanicked, Proc.regR, Proc.regW] at *
      fin
    · split at hs
      · obtain ⟨rfl, rfl⟩ := by simpa using hs
        simp [Proc.liveR, Proc.liveW, Proc.isRdTry, Proc.isWrTry, Proc.crit, Proc.isPanicked, Proc.regR, Proc.regW] at *
        fin
      · obtain ⟨rfl, rfl⟩ := by simpa using hs
        simp [Proc.liveR, Proc.liveW, Proc.isRdTry, Proc.isWrTry, Proc.crit, Proc.isPanicked, Proc.regR, Proc.regW] at *
        fin
  case wrTry c =>
    split at hs
    · obtain ⟨rfl, rfl⟩ := by simpa using hs
      simp [Proc.liveR, Proc.liveW, Proc.isRdTry, Proc.isWrTry, Proc.crit, Proc.isPanicked, Proc.regR, Proc.regW] at *
      fin
    · obtain ⟨rfl, rfl⟩ := by simpa using hs
      simp [Proc.liveR, Proc.liveW, Proc.isRdTry, Proc.isWrTry, Proc.crit, Proc.isPanicked, Proc.regR, Proc.regW] at *
      fin
  case wrHeld c => simp at hs
  case wrDrop c p =>
    split at hs
    · simp at hs
    · split at hs
      · split at hs
        · obtain ⟨rfl, rfl⟩ := by simpa using hs
          simp [Proc.liveR, Proc.liveW, Proc.isRdTry, Proc.isWrTry, Proc.crit, Proc.isPanicked, Proc.regR, Proc.regW] at *
          fin
        · obtain ⟨rfl, rfl⟩ := by simpa using hs
          simp [Proc.liveR, Proc.liveW, Proc.isRdTry, Proc.isWrTry, Proc.crit, Proc.isPanicked, Proc.regR, Proc.regW] at *
          fin
      · obtain ⟨rfl, rfl⟩ := by simpa using hs
        simp [Proc.liveR, Proc.liveW, Proc.isRdTry, Proc.isWrTry, Proc.crit, Proc.isPanicked, Proc.regR, Proc.regW] at *
        fin
  case wrUpd c p =>
    · obtain ⟨rfl, rfl⟩ := by simpa using hs
      simp [Proc.liveR, Proc.liveW, Proc.isRdTry, Proc.isWrTry, Proc.crit, Proc.isPanicked, Proc.regR, Proc.regW] at *
      fin
  case wrRel p =>
    cases p
    · obtain ⟨rfl, rfl⟩ := by simpa using hs
      simp [Proc.liveR, Proc.liveW, Proc.isRdTry, Proc.isWrTry, Proc.crit, Proc.isPanicked, Proc.regR, Proc.regW] at *
      fin
    · obtain ⟨rfl, rfl⟩ := by simpa using hs
      simp [Proc.liveR, Proc.liveW, Proc.isRdTry, Proc.isWrTry, Proc.crit, Proc.isPanicked, Proc.regR, Proc.regW] at *
      fin
  case wrErr c => simp at hs
  case done => simp at hs
  case panicked => simp at hs

theorem Inv.stepProc {s : Sys C} (h : Inv s) {i : Nat} {q q' : Proc C} {sh' : Shared C}
    (hq : s.procs[i]? = some q) (hs : Lock.stepProc s.sh q = some (sh', q')) :
    Inv ⟨sh', s.procs.set i q'⟩ :=
  InvC.stepProc h hs (countP_set' _ s.procs i q q' hq) (countP_set' _ s.procs i q q' hq)
    (countP_set' _ s.procs i q q' hq) (countP_set' _ s.procs i q q' hq) (countP_set' _ s.procs i q q' hq)
    (countP_set' _ s.procs i q q' hq) (fun _ => countP_set' _ s.procs i q q' hq)
    (fun _ => countP_set' _ s.procs i q q' hq)
    (countP_of_get _ s.procs i q hq) (countP_of_get _ s.procs i q hq) (countP_of_get _ s.procs i q hq)
    (countP_of_get _ s.procs i q hq) (countP_of_get _ s.procs i q hq) (fun _ => countP_of_get _ s.procs i q hq)
    (fun _ => countP_of_get _ s.procs i q hq)

theorem Inv.adv {s : Sys C} (h : Inv s) (i : Nat) : Inv (s.adv i) := by
  unfold Sys.adv
  split
  · exact h
  · rename_i q hq
    split
    · exact h
    · exact h.stepProc hq ‹_›

theorem Inv.swap {s : Sys C} (h : Inv s) {i : Nat} {q q' : Proc C} (hq : s.procs[i]? = some q)
    (e1 : q.liveR = q'.liveR) (e2 : q.liveW = q'.liveW) (e3 : q.isRdTry = q'.isRdTry)
    (e4 : q.isWrTry = q'.isWrTry) (e5 : q.crit = q'.crit) (e6 : q.isPanicked = q'.isPanicked)
    (e7 : ∀ c, q.regR c = q'.regR c) (e8 : ∀ c, q.regW c = q'.regW c) :
    Inv { s with procs := s.procs.set i q' } := by
  have c1 := countP_set' Proc.liveR s.procs i q q' hq
  have c2 := countP_set' Proc.liveW s.procs i q q' hq
  have c3 := countP_set' Proc.isRdTry s.procs i q q' hq
  have c4 := countP_set' Proc.isWrTry s.procs i q q' hq
  have c5 := countP_set' Proc.crit s.procs i q q' hq
  have c6 := countP_set' Proc.isPanicked s.procs i q q' hq
  have c7 := fun c => countP_set' (Proc.regR c) s.procs i q q' hq
  have c8 := fun c => countP_set' (Proc.regW c) s.procs i q q' hq
  rw [e1] at c1; rw [e2] at c2; rw [e3] at c3; rw [e4] at c4; rw [e5] at c5; rw [e6] at c6
  simp only [e7] at c7; simp only [e8] at c8
  unfold Inv
  simp only [Nat.add_right_cancel c1, Nat.add_right_cancel c2, Nat.add_right_cancel c3,
    Nat.add_right_cancel c4, Nat.add_right_cancel c5, Nat.add_right_cancel c6,
    fun c => Nat.add_right_cancel (c7 c), fun c => Nat.add_right_cancel (c8 c)]
  exact h

theorem Inv.step {s : Sys C} (h : Inv s) (e : Event C) : Inv (s.step e) := by
  unfold Sys.step
  split
  · exact h
  · cases e with
    | read c => unfold Inv at *; simpa [List.countP_append, Proc.liveR, Proc.liveW, Proc.isRdTry, Proc.isWrTry, Proc.crit, Proc.isPanicked, Proc.regR, Proc.regW] using h
    | write c => unfold Inv at *; simpa [List.countP_append, Proc.liveR, Proc.liveW, Proc.isRdTry, Proc.isWrTry, Proc.crit, Proc.isPanicked, Proc.regR, Proc.regW] using h
    | drop i p =>
      simp only
      split
      · rename_i c hc
        exact h.swap (q := .rdHeld c) hc rfl rfl rfl rfl rfl rfl (fun _ => rfl) (fun _ => rfl)
      · rename_i c hc
        exact h.swap (q := .wrHeld c) hc rfl rfl rfl rfl rfl rfl (fun _ => rfl) (fun _ => rfl)
      · exact h
    | adv i => exact h.adv i

theorem Inv.run {s : Sys C} (h : Inv s) (es : List (Event C)) : Inv (s.run es) := by
  unfold Sys.run
  induction es generalizing s with
  | nil => exact h
  | cons e es ih => exact ih (h.step e)

theorem inv_run (es : List (Event C)) : Inv ((Sys.new C).run es) := inv_new.run es

end Fox.Lock
