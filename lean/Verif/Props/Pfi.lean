import Verif.Proofs.Pfi
/-
C51: PFI images.
-/
namespace Fox
open Spec Pce

/-- **C51.** The revolutions read from track data are those the index times mark: each transition that starts
at or after one index time and before the next belongs to that revolution, in order, and the length of the
revolution is that of its transitions. -/
theorem C51_track_data (debug : Bool) (t : PfiTrack) (h : t.Ok) :
    Pfi.readTrackData debug (fluxBytes t.flux) t.index = .ok (revolutions (t.flux.map (·.2)) t.index) :=
  readTrackData_ok debug t h

/-- **C51.** Track data without index times is refused. -/
theorem C51_no_index (debug : Bool) (data : List Byte) : Pfi.readTrackData debug data [] = .error .formatParse := rfl

theorem run_into (debug : Bool) (fl : List (PfiForm × Nat)) (hfl : ∀ x ∈ fl, x.1.fits x.2) (i : Nat) (is : List Nat)
    (hsum : (fl.map (·.2)).sum < (i :: is).getLast (by simp)) (hidx : ∀ j ∈ i :: is, j < 2 ^ 32)
    (b : Byte) (bs : List Byte) (e : Err) (hb : Pfi.time b bs = .error e) :
    Pfi.readTrackData debug (fluxBytes fl ++ b :: bs) (i :: is) = .error e := by
  have hlast := hidx _ (List.getLast_mem (show i :: is ≠ [] by simp))
  have hl := fluxBytes_length fl
  obtain ⟨i', is', revs', last', hw, h1, h2⟩ := walk_going (fl.map (·.2)) i is [] 0 0 (Nat.le_refl _) (by omega)
  unfold Pfi.readTrackData
  simp only
  rw [run_walk debug fl _ (b :: bs) i is [] 0 0 hfl (by omega) (Nat.le_refl _)
    (by rw [List.length_append]; omega), hw]
  simp only
  obtain ⟨g, hg⟩ : ∃ g, (fluxBytes fl ++ b :: bs).length + 1 - fl.length = g + 1 :=
    ⟨(fluxBytes fl ++ b :: bs).length - fl.length, by rw [List.length_append]; omega⟩
  rw [hg]
  unfold Pfi.run
  simp only [hb]
  split
  · cases is' with
    | nil => simp only [List.getLast_singleton] at h2; omega
    | cons j js => rfl
  · rfl

/-- **C51.** A zero byte where a transition should start, before the last index time, is refused. -/
theorem C51_invalid (debug : Bool) (fl : List (PfiForm × Nat)) (hfl : ∀ x ∈ fl, x.1.fits x.2) (i : Nat) (is : List Nat)
    (hsum : (fl.map (·.2)).sum < (i :: is).getLast (by simp)) (hidx : ∀ j ∈ i :: is, j < 2 ^ 32) (bs : List Byte) :
    Pfi.readTrackData debug (fluxBytes fl ++ 0#8 :: bs) (i :: is) = .error .formatParse :=
  run_into debug fl hfl i is hsum hidx 0#8 bs _ rfl

/-- **C51.** Track data cut inside a transition, before the last index time, is refused with an IO error. -/
theorem C51_cut_transition (debug : Bool) (fl : List (PfiForm × Nat)) (hfl : ∀ x ∈ fl, x.1.fits x.2) (i : Nat)
    (is : List Nat) (hsum : (fl.map (·.2)).sum < (i :: is).getLast (by simp)) (hidx : ∀ j ∈ i :: is, j < 2 ^ 32)
    (x : PfiForm × Nat) (hx : x.1.fits x.2) (k : Nat) (h0 : 0 < k) (hk : k < (x.1.bytes x.2).length) :
    Pfi.readTrackData debug (fluxBytes fl ++ (x.1.bytes x.2).take k) (i :: is) = .error .io := by
  obtain ⟨b, bs, e1, e2⟩ := time_cut x.1 x.2 hx k h0 hk
  rw [e1]
  exact run_into debug fl hfl i is hsum hidx b bs _ e2

/-- **C51 is false of the code: long recordings.** A transition that ends at clock 2^32 or later panics in a
build with overflow checks. -/
theorem C51_false_overflow (fl : List (PfiForm × Nat)) (hfl : ∀ x ∈ fl, x.1.fits x.2) (i : Nat)
    (is : List Nat) (hsum : (fl.map (·.2)).sum < (i :: is).getLast (by simp)) (hidx : ∀ j ∈ i :: is, j < 2 ^ 32)
    (x : PfiForm × Nat) (hx : x.1.fits x.2) (hbig : 2 ^ 32 ≤ (fl.map (·.2)).sum + x.2) (tail : List Byte) :
    Pfi.readTrackData true (fluxBytes fl ++ (x.1.bytes x.2 ++ tail)) (i :: is) = .error .panic := by
  have hlast := hidx _ (List.getLast_mem (show i :: is ≠ [] by simp))
  have hl := fluxBytes_length fl
  obtain ⟨i', is', revs', last', hw, h1, h2⟩ := walk_going (fl.map (·.2)) i is [] 0 0 (Nat.le_refl _) (by omega)
  obtain ⟨b, bs, e1, e2⟩ := time_bytes x.1 x.2 hx tail
  rw [e1, List.cons_append]
  unfold Pfi.readTrackData
  simp only
  rw [run_walk true fl _ (b :: (bs ++ tail)) i is [] 0 0 hfl (by omega) (Nat.le_refl _)
    (by rw [List.length_append]; omega), hw]
  simp only
  obtain ⟨g, hg⟩ : ∃ g, (fluxBytes fl ++ b :: (bs ++ tail)).length + 1 - fl.length = g + 1 :=
    ⟨(fluxBytes fl ++ b :: (bs ++ tail)).length - fl.length, by rw [List.length_append]; omega⟩
  rw [hg]
  unfold Pfi.run
  have hd : (true && decide (2 ^ 32 ≤ 0 + (fl.map (·.2)).sum + x.2)) = true := by
    rw [Bool.true_and, decide_eq_true_eq]; omega
  simp only [e2, hd, if_true]
  split
  · cases is' with
    | nil => simp only [List.getLast_singleton] at h2; omega
    | cons j js => rfl
  · rfl

/-- **C51 is false of the code: an index time passed in the middle of a transition that passes another one.**
Transitions at clocks 0, 10 and 20 and index times 0, 3, 5 and 30: the transition at 10 starts after index
time 5, but is put into the revolution from 3 to 5. -/
theorem C51_false_skipped : Pfi.readTrackData true [10#8, 10#8, 10#8] [0, 3, 5, 30] =
      .ok [⟨[10], 10⟩, ⟨[10], 10⟩, ⟨[10], 10⟩] ∧
    revolutions [10, 10, 10] [0, 3, 5, 30] = [⟨[10], 10⟩, ⟨[], 0⟩, ⟨[10, 10], 20⟩] := by decide

/-! ### Files -/

/-- The tracks fit the format and their heads go around `s` sides. -/
structure PfiOk (s : Nat) (ts : List PfiTrack) : Prop where
  sides : s = 1 ∨ s = 2
  ok : ∀ t ∈ ts, t.Ok
  heads : ∀ (j : Nat) t, ts[j]? = some t → t.ch.h = j % s

theorem pfi_tracks (debug : Bool) {s : Nat} (hs : s = 1 ∨ s = 2) (rv : Nat → List Pfi.Rev) (cyl : Nat → Nat) :
    ∀ (ts : List PfiTrack) (st : Pfi.State) (n : Nat), FInv s st rv cyl n → (∀ t ∈ ts, t.Ok) →
    (∀ (j : Nat) t, ts[j]? = some t → t.ch.h = (n + j) % s ∧ rv (n + j) = t.revs ∧ cyl (n + j) = t.ch.c) →
    ∃ st', runPfi debug st (ts.flatMap PfiTrack.chunks) = .ok st' ∧ FInv s st' rv cyl (n + ts.length)
  | [], st, n, h, _, _ => ⟨st, rfl, h⟩
  | t :: ts, st, n, h, hok, hj => by
    obtain ⟨a, b, c⟩ := hj 0 t rfl
    obtain ⟨st1, e1, h1⟩ := pfi_track debug hs h t (hok t (by simp)) a b c
    obtain ⟨st2, e2, h2⟩ := pfi_tracks debug hs rv cyl ts st1 (n + 1) h1 (fun u hu => hok u (by simp [hu])) (by
      intro j u hu
      have := hj (j + 1) u (by simpa using hu)
      rw [show n + (j + 1) = n + 1 + j by omega] at this
      exact this)
    refine ⟨st2, ?_, by rw [List.length_cons, show n + (ts.length + 1) = n + 1 + ts.length by omega]; exact h2⟩
    rw [List.flatMap_cons, runPfi_append, e1]
    exact e2

theorem pfiChunks_small {t : PfiTrack} (h : t.Ok) : ∀ c ∈ t.chunks, c.id ≠ idEnd ∧ c.data.length ≤ maxChunkPfi := by
  intro c hc
  unfold PfiTrack.chunks at hc
  simp only [List.mem_cons, List.not_mem_nil, or_false] at hc
  rcases hc with rfl | rfl | rfl
  · exact ⟨show idTrak ≠ idEnd by decide, by show (be4 _ ++ be4 _ ++ be4 _).length ≤ 16777216; simp [be4]⟩
  · refine ⟨show idIndx ≠ idEnd by decide, ?_⟩
    show (t.index.flatMap be4).length ≤ _
    rw [flatMap_be4_length]
    exact h.size.2
  · exact ⟨show idData ≠ idEnd by decide, h.size.1⟩

theorem PfiOk.small {s : Nat} {ts : List PfiTrack} (h : PfiOk s ts) :
    ∀ c ∈ ts.flatMap PfiTrack.chunks, c.id ≠ idEnd ∧ c.data.length ≤ maxChunkPfi := by
  intro c hc
  obtain ⟨t, ht, hc⟩ := List.mem_flatMap.1 hc
  exact pfiChunks_small (h.ok t ht) c hc

/-- Address and revolutions by position, with a default past the end. -/
def revsAt (ts : List PfiTrack) (j : Nat) : List Pfi.Rev := match ts[j]? with
  | some t => t.revs
  | none => []

def cylAt (ts : List PfiTrack) (j : Nat) : Nat := match ts[j]? with
  | some t => t.ch.c
  | none => 0

theorem PfiOk.run {s : Nat} {ts : List PfiTrack} (h : PfiOk s ts) (debug : Bool) :
    ∃ st, runPfi debug {} (ts.flatMap PfiTrack.chunks) = .ok st ∧ FInv s st (revsAt ts) (cylAt ts) ts.length := by
  have h0 : FInv s {} (revsAt ts) (cylAt ts) 0 := by
    refine ⟨⟨?_, ?_, fun c hc => by omega, fun _ c hc => by omega⟩, ?_, rfl⟩
    · rcases h.sides with rfl | rfl <;> rfl
    · rcases h.sides with rfl | rfl <;> rfl
    · rw [Nat.zero_min]; rfl
  have := pfi_tracks debug h.sides (revsAt ts) (cylAt ts) ts {} 0 h0 h.ok (by
    intro j t ht
    rw [Nat.zero_add]
    exact ⟨h.heads j t ht, by unfold revsAt; rw [ht], by unfold cylAt; rw [ht]⟩)
  rw [Nat.zero_add] at this
  exact this

theorem placed_track {s : Nat} (hs : s = 1 ∨ s = 2) {d : Pfi.Image} {rv : Nat → List Pfi.Rev} {n : Nat}
    (h : Placed s d rv n) (j : Nat) (hj : j < n) :
    d.track ⟨j / s, j % s⟩ = some (⟨j / s, j % s⟩, rv j) := by
  unfold Pfi.Image.track
  rcases hs with rfl | rfl
  · rw [if_pos (show j % 1 = 0 by omega)]
    show d.map0[j / 1]? = _
    have := h.at0 (j / 1) (by omega)
    rw [this, show j % 1 = 0 by omega, show j / 1 * 1 = j by omega]
  · by_cases hp : j % 2 = 0
    · rw [if_pos hp]
      show d.map0[j / 2]? = _
      rw [h.at0 (j / 2) (by omega), hp, show j / 2 * 2 = j by omega]
    · rw [if_neg hp, if_pos (show j % 2 = 1 by omega)]
      show d.map1[j / 2]? = _
      rw [h.at1 rfl (j / 2) (by omega), show j % 2 = 1 by omega, show 2 * (j / 2) + 1 = j by omega]

theorem placed_only {s : Nat} (hs : s = 1 ∨ s = 2) {d : Pfi.Image} {rv : Nat → List Pfi.Rev} {n : Nat}
    (h : Placed s d rv n) (ch : Ch) (hd : (d.track ch).isSome) : ∃ j, j < n ∧ ch = ⟨j / s, j % s⟩ := by
  have l0 := h.len0
  have l1 := h.len1
  unfold Pfi.Image.track at hd
  split at hd
  · next e =>
    have hc : ch.c < d.map0.length := by
      have := hd
      rw [Option.isSome_iff_exists] at this
      obtain ⟨x, hx⟩ := this
      exact (List.getElem?_eq_some_iff.1 hx).1
    refine ⟨ch.c * s, ?_, ?_⟩
    · rcases hs with rfl | rfl <;> omega
    · obtain ⟨c, hh⟩ := ch
      replace e : hh = 0 := e
      subst e
      rcases hs with rfl | rfl
      · show (⟨c, 0⟩ : Ch) = ⟨c * 1 / 1, c * 1 % 1⟩
        rw [show c * 1 / 1 = c by omega, show c * 1 % 1 = 0 by omega]
      · show (⟨c, 0⟩ : Ch) = ⟨c * 2 / 2, c * 2 % 2⟩
        rw [show c * 2 / 2 = c by omega, show c * 2 % 2 = 0 by omega]
  · split at hd
    · next e =>
      have hc : ch.c < d.map1.length := by
        have := hd
        rw [Option.isSome_iff_exists] at this
        obtain ⟨x, hx⟩ := this
        exact (List.getElem?_eq_some_iff.1 hx).1
      rcases hs with rfl | rfl
      · simp only [show ¬ (1 = 2) by omega, if_false] at l1; omega
      · simp only [if_true] at l1
        refine ⟨2 * ch.c + 1, by omega, ?_⟩
        obtain ⟨c, hh⟩ := ch
        replace e : hh = 1 := e
        subst e
        show (⟨c, 1⟩ : Ch) = ⟨(2 * c + 1) / 2, (2 * c + 1) % 2⟩
        rw [show (2 * c + 1) / 2 = c by omega, show (2 * c + 1) % 2 = 1 by omega]
    · simp at hd

/-- **C51 is false of the code: track addresses.** The cylinder a track header gives is not used: whatever the
cylinders are, the tracks are put at successive addresses, the `j`-th at cylinder `j / s`. -/
theorem C51_false_position (debug : Bool) (s : Nat) (ts : List PfiTrack) (h : PfiOk s ts) :
    ∃ d g, Pfi.load debug (pfiFile (ts.flatMap PfiTrack.chunks)) = .ok (d, g) ∧
      (∀ (j : Nat) t, ts[j]? = some t → d.track ⟨j / s, j % s⟩ = some (⟨j / s, j % s⟩, t.revs)) ∧
      (∀ ch, (d.track ch).isSome → ∃ j, j < ts.length ∧ ch = ⟨j / s, j % s⟩) := by
  obtain ⟨st, e1, h1⟩ := h.run debug
  rw [pfi_load_file debug _ h.small, e1]
  refine ⟨_, _, rfl, ?_, placed_only h.sides h1.placed⟩
  intro j t ht
  have hj : j < ts.length := (List.getElem?_eq_some_iff.1 ht).1
  rw [placed_track h.sides h1.placed j hj]
  unfold revsAt
  rw [ht]

theorem cyls_div {s : Nat} (hs : s = 1 ∨ s = 2) : ∀ n : Nat,
    ((List.range n).map fun j => j / s).foldl Pri.insertNat [] = List.range ((n + s - 1) / s)
  | 0 => by rcases hs with rfl | rfl <;> rfl
  | n + 1 => by
    rw [List.range_succ, List.map_append, List.foldl_append, cyls_div hs n]
    show Pri.insertNat _ (n / s) = _
    unfold Pri.insertNat
    rcases hs with rfl | rfl
    · rw [if_neg (by simp), show (n + 1 - 1) / 1 = n by omega, show n / 1 = n by omega,
        show (n + 1 + 1 - 1) / 1 = n + 1 by omega, List.range_succ]
    · by_cases hp : n % 2 = 0
      · rw [if_neg (by simp; omega), show (n + 2 - 1) / 2 = n / 2 by omega,
          show (n + 1 + 2 - 1) / 2 = n / 2 + 1 by omega, List.range_succ]
      · rw [if_pos (by simp; omega)]
        congr 1
        omega

/-- **C51 (partial).** A PFI file of tracks that stand in order, cylinder by cylinder on one or two sides with
none left out, loads as exactly these tracks with their revolutions; the geometry counts cylinders and sides.
Missing: tracks that are not in order (`C51_false_position`), 2^32 clocks or more, revolutions in which no
transition starts. -/
theorem C51_load_partial (debug : Bool) (s : Nat) (ts : List PfiTrack) (h : PfiOk s ts)
    (hpos : ∀ (j : Nat) t, ts[j]? = some t → t.ch = ⟨j / s, j % s⟩) (hn : ts.length < 65536) :
    ∃ d, Pfi.load debug (pfiFile (ts.flatMap PfiTrack.chunks)) =
        .ok (d, ⟨(ts.length + s - 1) / s, min ts.length s⟩) ∧
      (∀ t ∈ ts, d.track t.ch = some (t.ch, t.revs)) ∧
      (∀ ch, (d.track ch).isSome → ∃ t ∈ ts, ch = t.ch) := by
  obtain ⟨st, e1, h1⟩ := h.run debug
  rw [pfi_load_file debug _ h.small, e1]
  have hc : st.cyls.length = (ts.length + s - 1) / s := by
    rw [h1.cyls]
    have : (List.range ts.length).map (cylAt ts) = (List.range ts.length).map fun j => j / s := by
      apply List.map_congr_left
      intro j hj
      rw [List.mem_range] at hj
      unfold cylAt
      rw [List.getElem?_eq_getElem hj]
      simp only
      rw [hpos j ts[j] (List.getElem?_eq_getElem hj)]
    rw [this, cyls_div h.sides, List.length_range]
  have hh : st.heads.length = min ts.length s := by rw [h1.heads, List.length_range]
  refine ⟨st.image, ?_, ?_, ?_⟩
  · simp only
    rw [hc, hh]
    have a1 : (ts.length + s - 1) / s % 65536 = (ts.length + s - 1) / s := by
      apply Nat.mod_eq_of_lt
      rcases h.sides with rfl | rfl <;> omega
    have a2 : min ts.length s % 256 = min ts.length s := by
      apply Nat.mod_eq_of_lt
      rcases h.sides with rfl | rfl <;> omega
    rw [a1, a2]
  · intro t ht
    obtain ⟨j, hj⟩ := List.getElem?_of_mem ht
    have hlt : j < ts.length := (List.getElem?_eq_some_iff.1 hj).1
    rw [hpos j t hj, placed_track h.sides h1.placed j hlt]
    unfold revsAt
    rw [hj]
  · intro ch hd
    obtain ⟨j, hj, e⟩ := placed_only h.sides h1.placed ch hd
    refine ⟨ts[j], List.getElem_mem hj, ?_⟩
    rw [e, hpos j ts[j] (List.getElem?_eq_getElem hj)]

theorem pfi_loop_cut (debug : Bool) : ∀ (cs : List Chunk) (f : Nat) (st : Pfi.State) (c : Chunk) (k : Nat),
      (∀ x ∈ c :: cs, x.id ≠ idEnd ∧ x.data.length ≤ maxChunkPfi) → (∃ st', runPfi debug st (c :: cs) = .ok st') →
      k < f → k < (cs.flatMap writeChunk ++ footer).length →
      Pfi.loop debug f ((cs.flatMap writeChunk ++ footer).take k) st c = .error .io
  | cs, 0, st, c, k, _, _, hf, _ => by omega
  | [], f + 1, st, c, k, h, hr, hf, hk => by
    obtain ⟨st', hr⟩ := hr
    unfold runPfi at hr
    unfold Pfi.loop
    rw [if_neg (h c (by simp)).1]
    rcases hstep : Pfi.step debug st c with e | st1
    · rw [hstep] at hr; cases hr
    · simp only [List.flatMap_nil, List.nil_append] at hk ⊢
      rw [C46_footer] at hk ⊢
      rw [C46_truncated maxChunkPfi ⟨idEnd, []⟩ (by simp) (by simp) k hk]
  | x :: cs, f + 1, st, c, k, h, hr, hf, hk => by
    obtain ⟨st', hr⟩ := hr
    rw [runPfi] at hr
    unfold Pfi.loop
    rw [if_neg (h c (by simp)).1]
    rcases hstep : Pfi.step debug st c with e | st1
    · rw [hstep] at hr; cases hr
    · rw [hstep] at hr
      simp only at hr ⊢
      have hx := h x (by simp)
      have hmx : maxChunkPfi = 16777216 := rfl
      rw [List.flatMap_cons, List.append_assoc] at hk ⊢
      by_cases hlt : k < (writeChunk x).length
      · rw [List.take_append_of_le_length (by omega), C46_truncated maxChunkPfi x hx.2 (by omega) k hlt]
      · rw [List.take_append, List.take_of_length_le (by omega), C46_round_trip maxChunkPfi x _ hx.2 (by omega)]
        simp only
        have := writeChunk_length x
        exact pfi_loop_cut debug cs f st1 x _ (fun y hy => h y (by
          rw [List.mem_cons] at hy ⊢; right; rw [List.mem_cons]; exact hy)) ⟨st', hr⟩ (by omega)
          (by rw [List.length_append] at hk ⊢; rw [List.length_append] at hk; omega)

/-- **C51.** No proper prefix of such a file loads: each is refused with an IO error. -/
theorem C51_truncated (debug : Bool) (s : Nat) (ts : List PfiTrack) (h : PfiOk s ts) (k : Nat)
    (hk : k < (pfiFile (ts.flatMap PfiTrack.chunks)).length) :
    Pfi.load debug ((pfiFile (ts.flatMap PfiTrack.chunks)).take k) = .error .io := by
  obtain ⟨st, h1, _⟩ := h.run debug
  generalize hcs : ts.flatMap PfiTrack.chunks = cs at *
  have hsm : ∀ c ∈ cs, c.id ≠ idEnd ∧ c.data.length ≤ maxChunkPfi := by rw [← hcs]; exact h.small
  have e1 : pfiFile cs = writeChunk ⟨idPfi, [0#8, 0#8, 0#8, 0#8]⟩ ++ (cs.flatMap writeChunk ++ footer) := by
    unfold pfiFile; rw [List.flatMap_cons, List.append_assoc]
  have h4 : ([0#8, 0#8, 0#8, 0#8] : List Byte).length ≤ maxChunkPfi := by show 4 ≤ 16777216; omega
  rw [e1] at hk ⊢
  unfold Pfi.load
  by_cases hlt : k < (writeChunk ⟨idPfi, [0#8, 0#8, 0#8, 0#8]⟩).length
  · rw [List.take_append_of_le_length (by omega), C46_truncated maxChunkPfi _ h4 (by show 4 < _; omega) k hlt]
  · rw [List.take_append, List.take_of_length_le (by omega), C46_round_trip maxChunkPfi _ _ h4 (by show 4 < _; omega)]
    simp only
    rw [if_neg (by decide), if_neg (by decide)]
    have h16 := writeChunk_length ⟨idPfi, [0#8, 0#8, 0#8, 0#8]⟩
    rw [pfi_loop_cut debug cs _ _ _ _ (by
      intro x hx
      rw [List.mem_cons] at hx
      rcases hx with rfl | hx
      · exact ⟨show idPfi ≠ idEnd by decide, h4⟩
      · exact hsm x hx) ⟨st, h1⟩ (by
        rw [List.length_append, List.length_take]; rw [List.length_append] at hk; omega) (by
        rw [List.length_append] at hk; omega)]

/-! ### Examples -/

/-- Two sides; two revolutions on the first; a transition before the first index time and one after the
last. -/
def pfiExample : List PfiTrack :=
  [⟨⟨0, 0⟩, 16000000, [8, 300, 600], [(.one, 8), (.one, 200), (.short, 300), (.word, 300), (.three, 9)]⟩,
   ⟨⟨0, 1⟩, 16000000, [0, 10], [(.four, 5), (.one, 9), (.one, 10)]⟩]

example : pfiExample.map PfiTrack.revs = [[⟨[200, 300], 500⟩, ⟨[300], 300⟩], [⟨[5, 9], 14⟩]] := by decide

theorem pfiExample_ok : PfiOk 2 pfiExample := by
  refine ⟨Or.inr rfl, ?_, ?_⟩
  · intro t ht
    simp only [pfiExample, List.mem_cons, List.not_mem_nil, or_false] at ht
    rcases ht with rfl | rfl
    · refine ⟨by decide, by decide, by decide, ⟨by decide, by decide⟩, ?_, by decide, ?_, by decide, by decide⟩
      · intro x hx
        simp only [List.mem_cons, List.not_mem_nil, or_false] at hx
        rcases hx with rfl | rfl | rfl | rfl | rfl <;> simp [PfiForm.fits]
      · intro x hx
        simp only [neighbours, List.mem_cons, List.not_mem_nil, or_false] at hx
        rcases hx with rfl | rfl <;> decide
    · refine ⟨by decide, by decide, by decide, ⟨by decide, by decide⟩, ?_, by decide, ?_, by decide, by decide⟩
      · intro x hx
        simp only [List.mem_cons, List.not_mem_nil, or_false] at hx
        rcases hx with rfl | rfl | rfl <;> simp [PfiForm.fits]
      · intro x hx
        simp only [neighbours, List.mem_cons, List.not_mem_nil, or_false] at hx
        subst hx; decide
  · intro j t ht
    match j, ht with
    | 0, ht => simp only [pfiExample, List.getElem?_cons_zero, Option.some.injEq] at ht; subst ht; rfl
    | 1, ht => simp only [pfiExample, List.getElem?_cons_succ, List.getElem?_cons_zero, Option.some.injEq] at ht; subst ht; rfl
    | j + 2, ht => simp [pfiExample] at ht

example : ∃ d, Pfi.load true (pfiFile (pfiExample.flatMap PfiTrack.chunks)) = .ok (d, ⟨1, 2⟩) ∧
    (∀ t ∈ pfiExample, d.track t.ch = some (t.ch, t.revs)) ∧ (∀ ch, (d.track ch).isSome → ∃ t ∈ pfiExample, ch = t.ch) :=
  C51_load_partial true 2 pfiExample pfiExample_ok (by
    intro j t ht
    match j, ht with
    | 0, ht => simp only [pfiExample, List.getElem?_cons_zero, Option.some.injEq] at ht; subst ht; rfl
    | 1, ht => simp only [pfiExample, List.getElem?_cons_succ, List.getElem?_cons_zero, Option.some.injEq] at ht; subst ht; rfl
    | j + 2, ht => simp [pfiExample] at ht) (by decide)

end Fox
