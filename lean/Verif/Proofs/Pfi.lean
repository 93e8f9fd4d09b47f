import Verif.Spec.Pfi
import Verif.Proofs.Psi
/-
Lemmas for C51: PFI files.
-/
namespace Fox
open Spec Pce

theorem time_bytes (f : PfiForm) (t : Nat) (h : f.fits t) (tail : List Byte) :
    ∃ b bs, f.bytes t = b :: bs ∧ Pfi.time b (bs ++ tail) = .ok (t, tail) := by
  cases f
  · replace h : 8 ≤ t ∧ t < 256 := h
    refine ⟨byteOf t, [], rfl, ?_⟩
    have hb := byteOf_toNat h.2
    have hn : ∀ n : Nat, n < 8 → byteOf t ≠ BitVec.ofNat 8 n := by
      intro n hn e
      rw [e, BitVec.toNat_ofNat] at hb
      omega
    unfold Pfi.time
    rw [if_neg (hn 0 (by omega)), if_neg (hn 1 (by omega)), if_neg (hn 2 (by omega)), if_neg (hn 3 (by omega)),
      if_neg (by rw [hb]; omega), hb]
    rfl
  · replace h : t < 1024 := h
    refine ⟨byteOf (4 + t / 256), [byteOf (t % 256)], rfl, ?_⟩
    have hb := byteOf_toNat (show 4 + t / 256 < 256 by omega)
    have hn : ∀ n : Nat, n < 4 → byteOf (4 + t / 256) ≠ BitVec.ofNat 8 n := by
      intro n hn e
      rw [e, BitVec.toNat_ofNat] at hb
      omega
    unfold Pfi.time
    rw [if_neg (hn 0 (by omega)), if_neg (hn 1 (by omega)), if_neg (hn 2 (by omega)), if_neg (hn 3 (by omega)),
      if_pos (by rw [hb]; omega), hb]
    simp only [List.cons_append, List.nil_append]
    rw [byteOf_toNat (by omega), show (4 + t / 256 - 4) * 256 + t % 256 = t by omega]
  · replace h : t < 2 ^ 16 := h
    refine ⟨_, _, rfl, ?_⟩
    unfold Pfi.time
    rw [if_neg (by decide), if_pos rfl]
    simp only [List.cons_append, List.nil_append]
    rw [byteOf_toNat (by omega), byteOf_toNat (by omega), show t / 256 * 256 + t % 256 = t by omega]
  · replace h : t < 2 ^ 24 := h
    refine ⟨_, _, rfl, ?_⟩
    unfold Pfi.time
    rw [if_neg (by decide), if_neg (by decide), if_pos rfl]
    simp only [List.cons_append, List.nil_append]
    rw [byteOf_toNat (by omega), byteOf_toNat (by omega), byteOf_toNat (by omega),
      show (t / 65536 * 256 + t / 256 % 256) * 256 + t % 256 = t by omega]
  · replace h : t < 2 ^ 32 := h
    refine ⟨_, _, rfl, ?_⟩
    unfold Pfi.time
    rw [if_neg (by decide), if_neg (by decide), if_neg (by decide), if_pos rfl]
    simp only [List.cons_append, List.nil_append]
    rw [byteOf_toNat (by omega), byteOf_toNat (by omega), byteOf_toNat (by omega), byteOf_toNat (by omega),
      show ((t / 16777216 * 256 + t / 65536 % 256) * 256 + t / 256 % 256) * 256 + t % 256 = t by omega]

/-- A transition cut short. -/
theorem time_cut (f : PfiForm) (t : Nat) (h : f.fits t) (k : Nat) (h0 : 0 < k) (hk : k < (f.bytes t).length) :
    ∃ b bs, (f.bytes t).take k = b :: bs ∧ Pfi.time b bs = .error .io := by
  cases f
  · simp only [PfiForm.bytes, List.length_cons, List.length_nil] at hk; omega
  · replace h : t < 1024 := h
    simp only [PfiForm.bytes, List.length_cons, List.length_nil] at hk
    obtain rfl : k = 1 := by omega
    refine ⟨byteOf (4 + t / 256), [], rfl, ?_⟩
    have hb := byteOf_toNat (show 4 + t / 256 < 256 by omega)
    have hn : ∀ n : Nat, n < 4 → byteOf (4 + t / 256) ≠ BitVec.ofNat 8 n := by
      intro n hn e
      rw [e, BitVec.toNat_ofNat] at hb
      omega
    unfold Pfi.time
    rw [if_neg (hn 0 (by omega)), if_neg (hn 1 (by omega)), if_neg (hn 2 (by omega)), if_neg (hn 3 (by omega)),
      if_pos (by rw [hb]; omega)]
  · simp only [PfiForm.bytes, List.length_cons, List.length_nil] at hk
    rcases (by omega : k = 1 ∨ k = 2) with rfl | rfl <;> exact ⟨_, _, rfl, rfl⟩
  · simp only [PfiForm.bytes, List.length_cons, List.length_nil] at hk
    rcases (by omega : k = 1 ∨ k = 2 ∨ k = 3) with rfl | rfl | rfl <;> exact ⟨_, _, rfl, rfl⟩
  · simp only [PfiForm.bytes, List.length_cons, List.length_nil] at hk
    rcases (by omega : k = 1 ∨ k = 2 ∨ k = 3 ∨ k = 4) with rfl | rfl | rfl | rfl <;> exact ⟨_, _, rfl, rfl⟩

/-! ### The loop over transitions -/

/-- What is left after some transitions: either the loop has ended, or its variables. -/
inductive Walked where
  | stopped (revs : List Pfi.Rev)
  | going (i : Nat) (is : List Nat) (revs : List Pfi.Rev) (clocks last : Nat)

/-- The loop over times instead of bytes. -/
def walk : List Nat → Nat → List Nat → List Pfi.Rev → Nat → Nat → Walked
  | [], i, is, revs, clocks, last => .going i is revs clocks last
  | t :: ts, i, is, revs, clocks, last =>
    if i ≤ clocks then
      match is with
      | [] => .stopped (Pfi.close revs (clocks - last))
      | j :: js => walk ts j js (Pfi.push (Pfi.close revs (clocks - last) ++ [⟨[], 0⟩]) t) (clocks + t) clocks
    else walk ts i is (Pfi.push revs t) (clocks + t) last

/-- The revolutions at the end of the data. -/
def Walked.finish : Walked → List Pfi.Rev
  | .stopped revs => revs
  | .going _ _ revs clocks last => Pfi.close revs (clocks - last)

theorem run_walk (debug : Bool) : ∀ (fl : List (PfiForm × Nat)) (f : Nat) (tail : List Byte) (i : Nat) (is : List Nat)
    (revs : List Pfi.Rev) (clocks last : Nat), (∀ x ∈ fl, x.1.fits x.2) →
    clocks + (fl.map (·.2)).sum < 2 ^ 32 → last ≤ clocks → fl.length < f →
    Pfi.run debug f (fluxBytes fl ++ tail) i is revs clocks last =
      match walk (fl.map (·.2)) i is revs clocks last with
      | .stopped revs => .ok revs
      | .going i is revs clocks last => Pfi.run debug (f - fl.length) tail i is revs clocks last
  | fl, 0, _, _, _, _, _, _, _, _, _, hf => by omega
  | [], f + 1, tail, i, is, revs, clocks, last, _, _, _, _ => rfl
  | x :: fl, f + 1, tail, i, is, revs, clocks, last, hfit, hs, hl, hf => by
    obtain ⟨b, bs, e1, e2⟩ := time_bytes x.1 x.2 (hfit x (by simp)) (fluxBytes fl ++ tail)
    rw [List.map_cons, List.sum_cons] at hs
    have e3 : fluxBytes (x :: fl) ++ tail = b :: (bs ++ (fluxBytes fl ++ tail)) := by
      unfold fluxBytes
      rw [List.flatMap_cons, e1]
      simp
    have hm : (clocks + 2 ^ 32 - last) % 2 ^ 32 = clocks - last := by omega
    have hm2 : (clocks + x.2) % 2 ^ 32 = clocks + x.2 := Nat.mod_eq_of_lt (by omega)
    have hd : (debug && decide (2 ^ 32 ≤ clocks + x.2)) = false := by
      rw [decide_eq_false (by omega), Bool.and_false]
    have hsub : f + 1 - (x :: fl).length = f - fl.length := by rw [List.length_cons]; omega
    rw [e3, hsub]
    conv => lhs; unfold Pfi.run
    simp only [e2, hm, hm2, hd, Bool.false_eq_true, if_false]
    rw [List.map_cons]
    unfold walk
    by_cases hi : i ≤ clocks
    · rw [if_pos hi, if_pos hi]
      cases is with
      | nil => rfl
      | cons j js =>
        simp only
        exact run_walk debug fl f tail j js _ (clocks + x.2) clocks (fun y hy => hfit y (by simp [hy])) (by omega)
          (by omega) (by rw [List.length_cons] at hf; omega)
    · rw [if_neg hi, if_neg hi]
      exact run_walk debug fl f tail i is _ (clocks + x.2) last (fun y hy => hfit y (by simp [hy])) (by omega)
          (by omega) (by rw [List.length_cons] at hf; omega)

/-! ### Which transitions belong to a revolution -/

/-- The transitions that start between two clocks, the first at `p`. -/
def within (p : Nat) (ts : List Nat) (a b : Nat) : List Nat :=
  ((starts p ts).filter fun x => a ≤ x.1 ∧ x.1 < b).map (·.2)

theorem starts_ge : ∀ (ts : List Nat) (p : Nat), ∀ x ∈ starts p ts, p ≤ x.1
  | [], _, _, h => by simp [starts] at h
  | t :: ts, p, x, h => by
    simp only [starts, List.mem_cons] at h
    rcases h with rfl | h
    · exact Nat.le_refl _
    · have := starts_ge ts (p + t) x h; omega

theorem within_cons (p t : Nat) (ts : List Nat) (a b : Nat) :
    within p (t :: ts) a b = if a ≤ p ∧ p < b then t :: within (p + t) ts a b else within (p + t) ts a b := by
  unfold within
  rw [starts, List.filter_cons]
  by_cases h : a ≤ p ∧ p < b
  · rw [if_pos (by simpa using h), if_pos h]; rfl
  · rw [if_neg (by simpa using h), if_neg h]

theorem within_none {p : Nat} {ts : List Nat} {a b : Nat} (h : b ≤ p) : within p ts a b = [] := by
  unfold within
  rw [List.filter_eq_nil_iff.2]
  · rfl
  · intro x hx
    have := starts_ge ts p x hx
    simp; omega

theorem within_low {p : Nat} {ts : List Nat} {a a' b : Nat} (h : a ≤ p) (h' : a' ≤ p) :
    within p ts a b = within p ts a' b := by
  unfold within
  congr 1
  apply List.filter_congr
  intro x hx
  have := starts_ge ts p x hx
  simp only [decide_eq_decide]
  constructor
  · rintro ⟨_, h⟩; exact ⟨by omega, h⟩
  · rintro ⟨_, h⟩; exact ⟨by omega, h⟩

theorem within_ne {p : Nat} {ts : List Nat} {a b : Nat} (h : within p ts a b ≠ []) : p < b ∧ a < b := by
  constructor
  · apply Classical.byContradiction
    intro hc
    exact h (within_none (by omega))
  · obtain ⟨x, hx⟩ := List.exists_mem_of_ne_nil _ h
    unfold within at hx
    obtain ⟨y, hy, _⟩ := List.mem_map.1 hx
    have := (List.mem_filter.1 hy).2
    simp only [Bool.decide_and, Bool.and_eq_true, decide_eq_true_eq] at this
    omega

theorem neighbours_ge : ∀ (is : List Nat) (i : Nat), (∀ x ∈ neighbours (i :: is), x.1 < x.2) →
    ∀ x ∈ neighbours (i :: is), i ≤ x.1
  | [], _, _, _, h => by simp [neighbours] at h
  | j :: js, i, hlt, x, h => by
    rw [neighbours, List.mem_cons] at h
    have h1 := hlt (i, j) (by rw [neighbours]; simp)
    rcases h with rfl | h
    · exact Nat.le_refl _
    · have := neighbours_ge js j (fun y hy => hlt y (by rw [neighbours]; simp [hy])) x h
      replace h1 : i < j := h1
      omega

/-- The revolution made of given transitions. -/
def revOf (l : List Nat) : Pfi.Rev := ⟨l, l.sum⟩

theorem push_last (R : List Pfi.Rev) (r : Pfi.Rev) (t : Nat) :
    Pfi.push (R ++ [r]) t = R ++ [{ r with transitions := r.transitions ++ [t] }] := by
  unfold Pfi.push; simp

theorem close_last (R : List Pfi.Rev) (r : Pfi.Rev) (d : Nat) :
    Pfi.close (R ++ [r]) d = R ++ [{ r with indexTime := d }] := by
  unfold Pfi.close; simp

theorem walk_in : ∀ (ts : List Nat) (i : Nat) (is : List Nat) (R : List Pfi.Rev) (r : Pfi.Rev) (clocks last : Nat),
    last ≤ clocks → r.transitions.sum = clocks - last →
    (∀ x ∈ neighbours (i :: is), within clocks ts x.1 x.2 ≠ []) →
    (walk ts i is (R ++ [r]) clocks last).finish =
      R ++ revOf (r.transitions ++ within clocks ts 0 i) ::
        (neighbours (i :: is)).map fun x => revOf (within clocks ts x.1 x.2)
  | [], i, is, R, r, clocks, last, hl, hs, hn => by
    have : neighbours (i :: is) = [] := by
      cases hh : neighbours (i :: is) with
      | nil => rfl
      | cons x l => exact absurd rfl (hn x (by rw [hh]; simp))
    rw [this]
    show Pfi.close _ _ = _
    rw [close_last]
    unfold revOf within
    simp [starts, hs]
  | t :: ts, i, is, R, r, clocks, last, hl, hs, hn => by
    have hlt : ∀ x ∈ neighbours (i :: is), x.1 < x.2 := fun x hx => (within_ne (hn x hx)).2
    unfold walk
    by_cases hi : i ≤ clocks
    · rw [if_pos hi]
      cases is with
      | nil =>
        simp only
        show Pfi.close _ _ = _
        rw [close_last, within_none hi, List.append_nil]
        unfold revOf
        rw [hs]
        rfl
      | cons j js =>
        simp only
        have hj := (within_ne (hn (i, j) (by rw [neighbours]; simp))).1
        replace hj : clocks < j := hj
        have hge : ∀ x ∈ neighbours (j :: js), j ≤ x.1 :=
          neighbours_ge js j fun x hx => hlt x (by rw [neighbours]; simp [hx])
        have hdrop : ∀ x ∈ neighbours (j :: js), within clocks (t :: ts) x.1 x.2 = within (clocks + t) ts x.1 x.2 := by
          intro x hx
          have := hge x hx
          rw [within_cons, if_neg (by omega)]
        rw [close_last, push_last, walk_in ts j js _ ⟨[] ++ [t], 0⟩ (clocks + t) clocks (by omega) (by simp) (by
          intro x hx
          rw [← hdrop x hx]
          exact hn x (by rw [neighbours]; simp [hx])), within_none hi, List.append_nil, neighbours, List.map_cons,
          List.append_assoc, List.singleton_append]
        have e1 : within clocks (t :: ts) i j = t :: within (clocks + t) ts 0 j := by
          rw [within_cons, if_pos ⟨hi, hj⟩, within_low (show i ≤ clocks + t by omega) (show 0 ≤ clocks + t by omega)]
        congr 1
        congr 1
        · unfold revOf; rw [hs]
        · congr 1
          · rw [e1]; rfl
          · apply List.map_congr_left
            intro x hx
            rw [hdrop x hx]
    · rw [if_neg hi, push_last, walk_in ts i is R _ (clocks + t) last (by omega) (by
          show (r.transitions ++ [t]).sum = _
          rw [List.sum_append, hs]; simp; omega) (by
        intro x hx
        have := neighbours_ge is i hlt x hx
        have := hn x hx
        rw [within_cons, if_neg (by omega)] at this
        exact this)]
      have e1 : within clocks (t :: ts) 0 i = t :: within (clocks + t) ts 0 i := by
        rw [within_cons, if_pos ⟨by omega, by omega⟩]
      congr 1
      congr 1
      · rw [e1]; simp
      · apply List.map_congr_left
        intro x hx
        have := neighbours_ge is i hlt x hx
        rw [within_cons, if_neg (by omega)]

theorem walk_before : ∀ (ts : List Nat) (i : Nat) (is : List Nat) (clocks : Nat),
    (∀ x ∈ neighbours (i :: is), within clocks ts x.1 x.2 ≠ []) →
    (walk ts i is [] clocks 0).finish = (neighbours (i :: is)).map fun x => revOf (within clocks ts x.1 x.2)
  | [], i, is, clocks, hn => by
    have : neighbours (i :: is) = [] := by
      cases hh : neighbours (i :: is) with
      | nil => rfl
      | cons x l => exact absurd rfl (hn x (by rw [hh]; simp))
    rw [this]
    rfl
  | t :: ts, i, is, clocks, hn => by
    have hlt : ∀ x ∈ neighbours (i :: is), x.1 < x.2 := fun x hx => (within_ne (hn x hx)).2
    unfold walk
    by_cases hi : i ≤ clocks
    · rw [if_pos hi]
      cases is with
      | nil => rfl
      | cons j js =>
        simp only
        have hj := (within_ne (hn (i, j) (by rw [neighbours]; simp))).1
        replace hj : clocks < j := hj
        have hge : ∀ x ∈ neighbours (j :: js), j ≤ x.1 :=
          neighbours_ge js j fun x hx => hlt x (by rw [neighbours]; simp [hx])
        have hdrop : ∀ x ∈ neighbours (j :: js), within clocks (t :: ts) x.1 x.2 = within (clocks + t) ts x.1 x.2 := by
          intro x hx
          have := hge x hx
          rw [within_cons, if_neg (by omega)]
        have hc : Pfi.close [] (clocks - 0) = [] := rfl
        rw [hc, push_last, walk_in ts j js _ ⟨[] ++ [t], 0⟩ (clocks + t) clocks (by omega) (by simp) (by
          intro x hx
          rw [← hdrop x hx]
          exact hn x (by rw [neighbours]; simp [hx])), neighbours, List.map_cons, List.nil_append]
        have e1 : within clocks (t :: ts) i j = t :: within (clocks + t) ts 0 j := by
          rw [within_cons, if_pos ⟨hi, hj⟩, within_low (show i ≤ clocks + t by omega) (show 0 ≤ clocks + t by omega)]
        congr 1
        · rw [e1]; rfl
        · apply List.map_congr_left
          intro x hx
          rw [hdrop x hx]
    · have hp : Pfi.push [] t = [] := rfl
      rw [if_neg hi, hp, walk_before ts i is (clocks + t) (by
        intro x hx
        have := neighbours_ge is i hlt x hx
        have := hn x hx
        rw [within_cons, if_neg (by omega)] at this
        exact this)]
      apply List.map_congr_left
      intro x hx
      have := neighbours_ge is i hlt x hx
      rw [within_cons, if_neg (by omega)]

/-- The loop goes on as long as the clock is below the last index time. -/
theorem walk_going : ∀ (ts : List Nat) (i : Nat) (is : List Nat) (revs : List Pfi.Rev) (clocks last : Nat),
    last ≤ clocks → clocks + ts.sum < (i :: is).getLast (by simp) →
    ∃ i' is' revs' last', walk ts i is revs clocks last = .going i' is' revs' (clocks + ts.sum) last' ∧
      last' ≤ clocks + ts.sum ∧ clocks + ts.sum < (i' :: is').getLast (by simp)
  | [], i, is, revs, clocks, last, hl, h => ⟨i, is, revs, last, rfl, by simpa using hl, h⟩
  | t :: ts, i, is, revs, clocks, last, hl, h => by
    rw [List.sum_cons] at h ⊢
    unfold walk
    by_cases hi : i ≤ clocks
    · rw [if_pos hi]
      cases is with
      | nil => simp only [List.getLast_singleton] at h; omega
      | cons j js =>
        simp only
        rw [List.getLast_cons (by simp)] at h
        have := walk_going ts j js (Pfi.push (Pfi.close revs (clocks - last) ++ [⟨[], 0⟩]) t) (clocks + t) clocks
          (by omega) (by omega)
        rw [show clocks + t + ts.sum = clocks + (t + ts.sum) by omega] at this
        exact this
    · rw [if_neg hi]
      have := walk_going ts i is (Pfi.push revs t) (clocks + t) last (by omega) (by omega)
      rw [show clocks + t + ts.sum = clocks + (t + ts.sum) by omega] at this
      exact this

theorem form_bytes_pos (f : PfiForm) (t : Nat) : 0 < (f.bytes t).length := by
  cases f <;> simp [PfiForm.bytes]

theorem fluxBytes_length : ∀ fl : List (PfiForm × Nat), fl.length ≤ (fluxBytes fl).length
  | [] => by simp
  | x :: fl => by
    unfold fluxBytes
    rw [List.flatMap_cons, List.length_append, List.length_cons]
    have := form_bytes_pos x.1 x.2
    have := fluxBytes_length fl
    unfold fluxBytes at this
    omega

/-! ### Chunks -/

/-- The loader's steps over a list of chunks. -/
def runPfi (debug : Bool) : Pfi.State → List Chunk → Except Err Pfi.State
  | st, [] => .ok st
  | st, c :: cs => match Pfi.step debug st c with
    | .error e => .error e
    | .ok st => runPfi debug st cs

theorem runPfi_append (debug : Bool) : ∀ (a : List Chunk) (st : Pfi.State) (b : List Chunk),
    runPfi debug st (a ++ b) = match runPfi debug st a with
      | .error e => .error e
      | .ok st => runPfi debug st b
  | [], st, b => rfl
  | c :: a, st, b => by
    simp only [List.cons_append, runPfi]
    rcases hs : Pfi.step debug st c with e | st1
    · rfl
    · simp only; exact runPfi_append debug a st1 b

theorem pfi_loop_chunks (debug : Bool) : ∀ (cs : List Chunk) (f : Nat) (st : Pfi.State) (c : Chunk),
      (∀ x ∈ c :: cs, x.id ≠ idEnd ∧ x.data.length ≤ maxChunkPfi) → cs.length + 1 < f →
      Pfi.loop debug f (cs.flatMap writeChunk ++ footer) st c = runPfi debug st (c :: cs)
  | cs, 0, st, c, _, hf => by omega
  | [], f + 1, st, c, h, hf => by
    unfold Pfi.loop runPfi
    rw [if_neg (h c (by simp)).1]
    rcases Pfi.step debug st c with e | st'
    · rfl
    · simp only [List.flatMap_nil, List.nil_append]
      rw [readChunk_footer]
      obtain ⟨g, rfl⟩ : ∃ g, f = g + 1 := ⟨f - 1, by simp only [List.length_nil] at hf; omega⟩
      simp only [Pfi.loop, if_true]
      rfl
  | x :: cs, f + 1, st, c, h, hf => by
    unfold Pfi.loop runPfi
    rw [if_neg (h c (by simp)).1]
    rcases Pfi.step debug st c with e | st'
    · rfl
    · simp only
      have hx := h x (by simp)
      rw [List.flatMap_cons, List.append_assoc, C46_round_trip maxChunkPfi x _ hx.2
        (by have := hx.2; unfold maxChunkPfi at this; omega)]
      simp only
      exact pfi_loop_chunks debug cs f st' x (fun y hy => h y (by
        rw [List.mem_cons] at hy ⊢; right; rw [List.mem_cons]; exact hy)) (by simp only [List.length_cons] at hf; omega)

/-- What loading a file of chunks amounts to. -/
theorem pfi_load_file (debug : Bool) (cs : List Chunk)
    (h : ∀ x ∈ cs, x.id ≠ idEnd ∧ x.data.length ≤ maxChunkPfi) :
    Pfi.load debug (pfiFile cs) = match runPfi debug {} cs with
        | .error e => .error e
        | .ok st => .ok (st.image, ⟨st.cyls.length % 65536, st.heads.length % 256⟩) := by
  have h4 : ([0#8, 0#8, 0#8, 0#8] : List Byte).length ≤ maxChunkPfi := by show 4 ≤ 16777216; omega
  have e1 : pfiFile cs = writeChunk ⟨idPfi, [0#8, 0#8, 0#8, 0#8]⟩ ++ (cs.flatMap writeChunk ++ footer) := by
    unfold pfiFile; rw [List.flatMap_cons, List.append_assoc]
  have e2 : readChunk maxChunkPfi (pfiFile cs) = .ok (⟨idPfi, [0#8, 0#8, 0#8, 0#8]⟩, cs.flatMap writeChunk ++ footer) := by
    rw [e1]; exact C46_round_trip maxChunkPfi _ _ h4 (by show 4 < _; omega)
  unfold Pfi.load
  rw [e2]
  simp only
  rw [if_neg (by decide), if_neg (by decide)]
  have hl := flatMap_writeChunk_length cs
  rw [pfi_loop_chunks debug cs _ _ _ (by
      intro x hx
      rw [List.mem_cons] at hx
      rcases hx with rfl | hx
      · exact ⟨show idPfi ≠ idEnd by decide, h4⟩
      · exact h x hx) (by
      rw [e1, List.length_append, List.length_append, writeChunk_length, footer_length]; omega)]
  rfl

theorem be4_value {n : Nat} (h : n < 2 ^ 32) : (((byteOf (n / 16777216)).toNat * 256 + (byteOf (n / 65536 % 256)).toNat) * 256 +
    (byteOf (n / 256 % 256)).toNat) * 256 + (byteOf (n % 256)).toNat = n := by
  rw [byteOf_toNat (by omega), byteOf_toNat (by omega), byteOf_toNat (by omega), byteOf_toNat (by omega)]
  omega

theorem words_be4 : ∀ l : List Nat, (∀ i ∈ l, i < 2 ^ 32) → Pfi.words (l.flatMap be4) = l
  | [], _ => rfl
  | i :: l, h => by
    rw [List.flatMap_cons]
    show Pfi.words (byteOf (i / 16777216) :: byteOf (i / 65536 % 256) :: byteOf (i / 256 % 256) :: byteOf (i % 256) :: l.flatMap be4) = _
    rw [Pfi.words, be4_value (h i (by simp)), words_be4 l (fun j hj => h j (by simp [hj]))]

theorem flatMap_be4_length (l : List Nat) : (l.flatMap be4).length = 4 * l.length := by
  induction l with
  | nil => rfl
  | cons i l ih => rw [List.flatMap_cons, List.length_append, ih, List.length_cons]; simp [be4]; omega

/-! ### Placing the tracks -/

/-- The image after `n` tracks of which the `j`-th has revolutions `rv j`, on `s` sides. -/
structure Placed (s : Nat) (d : Pfi.Image) (rv : Nat → List Pfi.Rev) (n : Nat) : Prop where
  len0 : d.map0.length = (n + s - 1) / s
  len1 : d.map1.length = if s = 2 then n / 2 else 0
  at0 : ∀ c : Nat, c * s < n → d.map0[c]? = some (⟨c, 0⟩, rv (c * s))
  at1 : s = 2 → ∀ c : Nat, 2 * c + 1 < n → d.map1[c]? = some (⟨c, 1⟩, rv (2 * c + 1))

theorem placed_last {s : Nat} (hs : s = 1 ∨ s = 2) {d : Pfi.Image} {rv : Nat → List Pfi.Rev} {n : Nat}
    (h : Placed s d rv n) : d.chs.getLast? = if n = 0 then none else some ⟨(n - 1) / s, (n - 1) % s⟩ := by
  have l0 := h.len0
  have l1 := h.len1
  unfold Pfi.Image.chs
  by_cases hn : n = 0
  · subst hn
    have : max d.map0.length d.map1.length = 0 := by
      rcases hs with rfl | rfl <;> simp only [l0, l1] <;> rfl
    rw [this, if_pos rfl]
    rfl
  · rw [if_neg hn]
    have hm : max d.map0.length d.map1.length = (n - 1) / s + 1 := by
      rcases hs with rfl | rfl
      · simp only [l0, l1, show ¬ (1 = 2) by omega, if_false]; omega
      · simp only [l0, l1, if_true]; omega
    rw [hm, List.range_succ, List.flatMap_append, List.map_append, List.getLast?_append]
    have a0 := h.at0 ((n - 1) / s) (by rcases hs with rfl | rfl <;> omega)
    rw [List.flatMap_cons, List.flatMap_nil, List.append_nil, a0]
    rcases hs with rfl | rfl
    · have : d.map1[(n - 1) / 1]? = none := List.getElem?_eq_none (by simp only [l1, show ¬ (1 = 2) by omega, if_false]; omega)
      rw [this]
      simp
      omega
    · by_cases hp : (n - 1) % 2 = 1
      · rw [h.at1 rfl ((n - 1) / 2) (by omega), hp]
        simp
      · have : d.map1[(n - 1) / 2]? = none := List.getElem?_eq_none (by simp only [l1, if_true]; omega)
        rw [this, show (n - 1) % 2 = 0 by omega]
        simp

theorem placed_add {s : Nat} (hs : s = 1 ∨ s = 2) {d : Pfi.Image} {rv : Nat → List Pfi.Rev} {n : Nat}
    (h : Placed s d rv n) : ∃ d', d.add ⟨n / s, n % s⟩ (rv n) = .ok d' ∧ Placed s d' rv (n + 1) := by
  have l0 := h.len0
  have l1 := h.len1
  unfold Pfi.Image.add
  rcases hs with rfl | rfl
  · rw [if_neg (show ¬ (n % 1 ≥ 2) by omega), if_pos (show n % 1 = 0 by omega)]
    refine ⟨_, rfl, ?_, ?_, ?_, ?_⟩
    · show (d.map0 ++ _).length = _
      rw [List.length_append, l0, List.length_singleton]; omega
    · exact l1
    · intro c hc
      show (d.map0 ++ _)[c]? = _
      by_cases hcn : c * 1 < n
      · rw [List.getElem?_append_left (by omega)]; exact h.at0 c hcn
      · have e : c = d.map0.length := by omega
        rw [List.getElem?_append_right (by omega), show c - d.map0.length = 0 by omega]
        simp only [List.getElem?_cons_zero]
        rw [show n / 1 = c by omega, show n % 1 = 0 by omega, show c * 1 = n by omega]
    · intro h; omega
  · rw [if_neg (show ¬ (n % 2 ≥ 2) by omega)]
    by_cases hp : n % 2 = 0
    · rw [if_pos hp]
      refine ⟨_, rfl, ?_, ?_, ?_, ?_⟩
      · show (d.map0 ++ _).length = _
        rw [List.length_append, l0, List.length_singleton]; omega
      · show d.map1.length = _
        rw [l1]; simp only [if_true]; omega
      · intro c hc
        show (d.map0 ++ _)[c]? = _
        by_cases hcn : c * 2 < n
        · rw [List.getElem?_append_left (by omega)]; exact h.at0 c hcn
        · have e : c = d.map0.length := by omega
          rw [List.getElem?_append_right (by omega), show c - d.map0.length = 0 by omega]
          simp only [List.getElem?_cons_zero]
          rw [show n / 2 = c by omega, hp, show c * 2 = n by omega]
      · intro _ c hc
        exact h.at1 rfl c (by omega)
    · rw [if_neg hp]
      simp only [if_true] at l1
      refine ⟨_, rfl, ?_, ?_, ?_, ?_⟩
      · show d.map0.length = _
        rw [l0]; omega
      · show (d.map1 ++ _).length = _
        rw [List.length_append, l1, List.length_singleton]; simp only [if_true]; omega
      · intro c hc
        exact h.at0 c (by omega)
      · intro _ c hc
        show (d.map1 ++ _)[c]? = _
        by_cases hcn : 2 * c + 1 < n
        · rw [List.getElem?_append_left (by omega)]; exact h.at1 rfl c hcn
        · have e : c = d.map1.length := by omega
          rw [List.getElem?_append_right (by omega), show c - d.map1.length = 0 by omega]
          simp only [List.getElem?_cons_zero]
          rw [show n / 2 = c by omega, show n % 2 = 1 by omega, show 2 * c + 1 = n by omega]

/-- The loader after `n` tracks on `s` sides. -/
structure FInv (s : Nat) (st : Pfi.State) (rv : Nat → List Pfi.Rev) (cyl : Nat → Nat) (n : Nat) : Prop where
  placed : Placed s st.image rv n
  heads : st.heads = List.range (min n s)
  cyls : st.cyls = ((List.range n).map cyl).foldl Pri.insertNat []

theorem readTrackData_ok (debug : Bool) (t : PfiTrack) (h : t.Ok) :
    Pfi.readTrackData debug (fluxBytes t.flux) t.index = .ok t.revs := by
  obtain ⟨hne, _⟩ := h.index
  have htot := h.total
  have htn := h.turning
  unfold PfiTrack.revs
  match hi : t.index, hne with
  | i :: is, _ =>
    rw [hi] at htn
    unfold Pfi.readTrackData
    simp only
    have hl := fluxBytes_length t.flux
    have hw := run_walk debug t.flux ((fluxBytes t.flux).length + 1) [] i is [] 0 0 h.flux (by omega) (Nat.le_refl _)
      (by omega)
    rw [List.append_nil] at hw
    rw [hw]
    have hf := walk_before (t.flux.map (fun x : PfiForm × Nat => x.2)) i is 0 htn
    have hr : revolutions (t.flux.map (·.2)) (i :: is) = (walk (t.flux.map (·.2)) i is [] 0 0).finish := by
      rw [hf]; rfl
    rw [hr]
    have hgo : ∀ i' is' revs' c' l', walk (t.flux.map (·.2)) i is [] 0 0 = .going i' is' revs' c' l' →
        c' < 2 ^ 32 ∧ l' ≤ c' := by
      have key : ∀ (ts : List Nat) (i : Nat) (is : List Nat) (revs : List Pfi.Rev) (c l : Nat) (i' : Nat) (is' : List Nat)
          (revs' : List Pfi.Rev) (c' l' : Nat), l ≤ c → c + ts.sum < 2 ^ 32 →
          walk ts i is revs c l = .going i' is' revs' c' l' → c' < 2 ^ 32 ∧ l' ≤ c' := by
        intro ts
        induction ts with
        | nil => intro i is revs c l i' is' revs' c' l' h1 h2 h3; unfold walk at h3; cases h3; exact ⟨by simpa using h2, h1⟩
        | cons t ts ih =>
          intro i is revs c l i' is' revs' c' l' h1 h2 h3
          rw [List.sum_cons] at h2
          unfold walk at h3
          split at h3
          · cases is with
            | nil => cases h3
            | cons j js => exact ih _ _ _ _ _ _ _ _ _ _ (by omega) (by omega) h3
          · exact ih _ _ _ _ _ _ _ _ _ _ (by omega) (by omega) h3
      intro i' is' revs' c' l' hh
      exact key _ _ _ _ _ _ _ _ _ _ _ (Nat.le_refl _) (by omega) hh
    rcases hwk : walk (t.flux.map (·.2)) i is [] 0 0 with revs | ⟨i', is', revs', c', l'⟩
    · rw [hwk]; rfl
    · rw [hwk]
      obtain ⟨g1, g2⟩ := hgo _ _ _ _ _ hwk
      obtain ⟨g, hg⟩ : ∃ g, (fluxBytes t.flux).length + 1 - t.flux.length = g + 1 :=
        ⟨(fluxBytes t.flux).length - t.flux.length, by omega⟩
      simp only
      rw [hg]
      unfold Pfi.run
      simp only
      rw [show (c' + 2 ^ 32 - l') % 2 ^ 32 = c' - l' by omega]
      rfl

theorem pfi_track (debug : Bool) {s : Nat} (hs : s = 1 ∨ s = 2) {st : Pfi.State} {rv : Nat → List Pfi.Rev}
    {cyl : Nat → Nat} {n : Nat} (h : FInv s st rv cyl n) (t : PfiTrack) (ht : t.Ok) (hh : t.ch.h = n % s)
    (hr : rv n = t.revs) (hc : cyl n = t.ch.c) :
    ∃ st', runPfi debug st t.chunks = .ok st' ∧ FInv s st' rv cyl (n + 1) := by
  have hcyl := ht.cyl
  have hhd := ht.head
  have h1 : Pfi.step debug st ⟨idTrak, be4 t.ch.c ++ be4 t.ch.h ++ be4 t.rate⟩ = .ok { st with
      heads := Pri.insertNat st.heads t.ch.h, cyls := Pri.insertNat st.cyls t.ch.c } := by
    unfold Pfi.step
    rw [if_pos rfl]
    simp only [be4, List.cons_append, List.nil_append]
    rw [be4_value (by omega), be4_value (by omega), Nat.mod_eq_of_lt hcyl, Nat.mod_eq_of_lt (show t.ch.h < 256 by omega)]
  have h2 : ∀ st : Pfi.State, Pfi.step debug st ⟨idIndx, t.index.flatMap be4⟩ = .ok { st with index := t.index } := by
    intro st
    unfold Pfi.step
    rw [if_neg (show idIndx ≠ idTrak by decide), if_pos rfl]
    simp only
    rw [words_be4 _ ht.index.2]
  have hheads : Pri.insertNat st.heads t.ch.h = List.range (min (n + 1) s) := by
    rw [h.heads, hh]
    rcases hs with rfl | rfl
    · cases n with
      | zero => rfl
      | succ n => rw [show min (n + 1) 1 = 1 by omega, show min (n + 1 + 1) 1 = 1 by omega, show (n + 1) % 1 = 0 by omega]; rfl
    · match n with
      | 0 => rfl
      | 1 => rfl
      | n + 2 =>
        rw [show min (n + 2) 2 = 2 by omega, show min (n + 2 + 1) 2 = 2 by omega]
        rcases (by omega : (n + 2) % 2 = 0 ∨ (n + 2) % 2 = 1) with e | e <;> rw [e] <;> rfl
  obtain ⟨d', p1, p2⟩ := placed_add hs h.placed
  have hnext : ∀ st' : Pfi.State, st'.image = st.image → st'.heads = List.range (min (n + 1) s) →
      Pfi.nextCh st' = ⟨n / s, n % s⟩ := by
    intro st' e1 e2
    unfold Pfi.nextCh
    rw [e1, placed_last hs h.placed, e2]
    by_cases hn : n = 0
    · subst hn
      rw [if_pos rfl]
      rcases hs with rfl | rfl <;> rfl
    · rw [if_neg hn]
      simp only
      unfold Ch.nextTrackUnchecked
      rw [List.length_range]
      rcases hs with rfl | rfl
      · rw [show min (n + 1) 1 % 256 = 1 by omega]
        simp only
        rw [if_neg (by omega)]
        congr 1 <;> omega
      · rw [show min (n + 1) 2 % 256 = 2 by omega]
        simp only
        split
        · congr 1 <;> omega
        · congr 1 <;> omega
  unfold PfiTrack.chunks
  rw [runPfi, h1]
  simp only
  rw [runPfi, h2]
  simp only
  rw [runPfi]
  unfold Pfi.step
  rw [if_neg (show idData ≠ idTrak by decide), if_neg (show idData ≠ idIndx by decide), if_pos rfl]
  simp only
  rw [readTrackData_ok debug t ht]
  simp only
  rw [hnext { st with heads := Pri.insertNat st.heads t.ch.h, cyls := Pri.insertNat st.cyls t.ch.c, index := t.index }
    rfl hheads, ← hr, p1]
  refine ⟨_, rfl, p2, ?_, ?_⟩
  · exact hheads
  · show Pri.insertNat st.cyls t.ch.c = _
    rw [h.cyls, List.range_succ, List.map_append, List.foldl_append, ← hc]
    rfl

end Fox
