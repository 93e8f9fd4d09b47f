import Verif.Proofs.SauceLoad
/-
The Applesauce loaders: maps with gaps, and panics.
-/
namespace Fox
namespace Sauce
open Flux Spec
open SauceFile (Drive Tables)

theorem withAny_rejects {d : Disk} (hd : d.rejects .bitStream = false) {x : DiskTrack} (hx : x.resolution = .bitStream) :
    (withAny d x).rejects .bitStream = false := by
  have : withAny d x = withTrack d x.ch.h x := by unfold withAny withTrack; rw [hx]
  rw [this]
  exact withTrack_rejects hd _ _

/-- Whether a place has a track. -/
def taken (T : Tables) (v : Drive) (j : Nat) : Bool :=
  decide (SauceFile.entry T.map T.fluxMap (v.slot ⟨j / v.sides, j % v.sides⟩) ≠ .empty)

theorem made_bit {debug : Bool} {rnd : Nat → Bool} {fm : FmCodec} {f : List Byte} {T : Tables} {v : Drive} {blank : Nat} {ch : Ch} {e : Nat}
    (he : SauceFile.entry T.map T.fluxMap (v.slot ch) = .bits e) :
    ∃ t, bitTrack debug rnd (if v.mfm then .mfm else .gcr) (SauceFile.data f T.table e) (SauceFile.count T.table e) = .ok t ∧
      made debug rnd fm f T v blank ch = .bit ch t := by
  unfold made
  rw [he]
  simp only
  cases v.mfm with
  | false => exact ⟨_, rfl, rfl⟩
  | true =>
    obtain ⟨t, t1, _⟩ := ofBytes_cells debug rnd (SauceFile.data f T.table e) (some (SauceFile.count T.table e)) false (fun h => by cases h)
    have : bitTrack debug rnd .mfm (SauceFile.data f T.table e) (SauceFile.count T.table e) = .ok t := t1
    simp only [if_true, this]
    exact ⟨t, rfl, rfl⟩

theorem tracks_gaps {debug : Bool} {rnd : Nat → Bool} {fm : FmCodec} {f : List Byte} {T : Tables} {v : Drive} {p : Plan} {C : Nat}
    (hp : Follows f T v p) (hgeom : p.geom = ⟨C, v.sides⟩) (hS : v.sides = 1 ∨ v.sides = 2) (hq : v.quarter = false) (hx : T.fluxMap = none)
    (hg : ∀ ch, v.Place ch → T.Good f (v.slot ch)) (hC : v.cylinders < C) :
    ∀ (m i : Nat) (d : Disk), i + m ≤ v.cylinders * v.sides → d.rejects .bitStream = false →
    tracks debug rnd fm f p ((List.range' i m).map fun j => v.slot ⟨j / v.sides, j % v.sides⟩) (Scp.before v.sides i) d =
      .ok (pushAny d (((List.range' i m).filter (taken T v)).map fun j => made debug rnd fm f T v p.blank ⟨j / v.sides, j % v.sides⟩),
        Scp.before v.sides (i + m))
  | 0, i, d, _, _ => rfl
  | m + 1, i, d, hm, hd => by
    have hS0 : 0 < v.sides := by omega
    have hpl : v.Place ⟨i / v.sides, i % v.sides⟩ :=
      ⟨(Nat.div_lt_iff_lt_mul hS0).2 (by omega), Nat.mod_lt _ hS0⟩
    have hslt : v.slot ⟨i / v.sides, i % v.sides⟩ < 160 := by
      obtain ⟨h1, h2⟩ := hpl
      unfold Drive.slot
      unfold Drive.cylinders at h1
      rw [hq] at h1 ⊢
      simp only [Bool.false_eq_true, if_false] at h1 h2 ⊢
      omega
    rw [List.range'_succ, List.map_cons, tracks]
    have hin : i < C * v.sides := by
      have := Nat.mul_lt_mul_of_pos_right hC hS0
      omega
    have hb : ¬ (u8At f (p.tmap + v.slot ⟨i / v.sides, i % v.sides⟩) ≠ 255 ∧ 160 ≤ u8At f (p.tmap + v.slot ⟨i / v.sides, i % v.sides⟩)) := by
      rintro ⟨b1, b2⟩
      rw [hp.map _ hslt] at b1 b2
      have := ((hg _ hpl).bits _ (by unfold SauceFile.entry; rw [if_pos b1])).1
      omega
    rw [if_neg hb, hgeom, iter_place hS i hin]
    simp only
    have hstep : addSlot debug rnd fm f p (v.slot ⟨i / v.sides, i % v.sides⟩) d ⟨i / v.sides, i % v.sides⟩ =
        .ok (if taken T v i then withAny d (made debug rnd fm f T v p.blank ⟨i / v.sides, i % v.sides⟩) else d) ∧
        (taken T v i = true → (made debug rnd fm f T v p.blank ⟨i / v.sides, i % v.sides⟩).resolution = .bitStream) := by
      unfold addSlot
      rw [hp.map _ hslt]
      by_cases h255 : ScpFile.byte T.map (v.slot ⟨i / v.sides, i % v.sides⟩) ≠ 255
      · have he : SauceFile.entry T.map T.fluxMap (v.slot ⟨i / v.sides, i % v.sides⟩) = .bits (ScpFile.byte T.map (v.slot ⟨i / v.sides, i % v.sides⟩)) := by
          unfold SauceFile.entry; rw [if_pos h255]
        have ht : taken T v i = true := by unfold taken; rw [he]; rfl
        rw [if_pos h255, if_pos ht]
        obtain ⟨g1, g2, g3, g4⟩ := (hg _ hpl).bits _ he
        obtain ⟨t, t1, t2⟩ := made_bit (debug := debug) (rnd := rnd) (fm := fm) (f := f) (blank := p.blank) he
        rw [hp.table _ g1]
        unfold addBits
        have r1 : readAt f (SauceFile.start T.table (ScpFile.byte T.map (v.slot ⟨i / v.sides, i % v.sides⟩)))
            (SauceFile.size T.table (ScpFile.byte T.map (v.slot ⟨i / v.sides, i % v.sides⟩))) =
            .ok (SauceFile.data f T.table (ScpFile.byte T.map (v.slot ⟨i / v.sides, i % v.sides⟩))) := by
          unfold readAt SauceFile.data
          rw [if_pos (Or.inr g3)]
        simp only [r1]
        rw [hp.enc, t1, t2]
        refine ⟨?_, fun _ => rfl⟩
        unfold Disk.addBit
        have : i % v.sides < 2 := by rcases hS with e | e <;> rw [e] <;> omega
        rw [if_neg (show ¬ i % v.sides ≥ 2 by omega), hd]
        rfl
      · have he : SauceFile.entry T.map T.fluxMap (v.slot ⟨i / v.sides, i % v.sides⟩) = .empty := by
          unfold SauceFile.entry; rw [if_neg h255, hx]
        have ht : taken T v i = false := by unfold taken; rw [he]; rfl
        rw [if_neg h255, ht, hp.noFlux hx]
        simp only
        rw [hp.always, hq]
        exact ⟨rfl, fun h => by cases h⟩
    rw [hstep.1]
    simp only
    rw [show (some (⟨i / v.sides, i % v.sides⟩ : Ch)) = Scp.before v.sides (i + 1) from rfl, List.filter_cons]
    cases ht : taken T v i with
    | true =>
      simp only [if_true]
      rw [tracks_gaps hp hgeom hS hq hx hg hC m (i + 1) _ (by omega) (withAny_rejects hd (hstep.2 ht)), List.map_cons,
        show i + 1 + m = i + (m + 1) by omega]
      rfl
    | false =>
      simp only [Bool.false_eq_true, if_false]
      rw [tracks_gaps hp hgeom hS hq hx hg hC m (i + 1) _ (by omega) hd, show i + 1 + m = i + (m + 1) by omega]

/-- The disk that becomes of maps with gaps, without a FLUX chunk. -/
def gapped (debug : Bool) (rnd : Nat → Bool) (fm : FmCodec) (f : List Byte) (T : Tables) (v : Drive) : Disk :=
  { pushAny (if T.announced then ({} : Disk).setMultires true else {})
      (((List.range (v.cylinders * v.sides)).filter (taken T v)).map fun j => made debug rnd fm f T v 0 ⟨j / v.sides, j % v.sides⟩) with
    geometry := ⟨v.cylinders, v.sides⟩ }

theorem finish_gaps {debug : Bool} {rnd : Nat → Bool} {fm : FmCodec} {f : List Byte} {T : Tables} {v : Drive} {p : Plan} {C : Nat} {slots : List Nat}
    (hp : Follows f T v p) (hgeom : p.geom = ⟨C, v.sides⟩) (hS : v.sides = 1 ∨ v.sides = 2) (hq : v.quarter = false) (hx : T.fluxMap = none)
    (hg : ∀ ch, v.Place ch → T.Good f (v.slot ch)) (hC : v.cylinders < C) (hblank : p.blank = 0)
    (hs : slots = (List.range (v.cylinders * v.sides)).map fun j => v.slot ⟨j / v.sides, j % v.sides⟩) (w : Bool) :
    finish debug rnd fm f p slots v.sides w (if T.announced then ({} : Disk).setMultires true else {}) =
      .ok (gapped debug rnd fm f T v, w) := by
  have h := tracks_gaps (debug := debug) (rnd := rnd) (fm := fm) hp hgeom hS hq hx hg hC (v.cylinders * v.sides) 0 _ (by omega)
    (ready_accepts (ready_first T hS))
  rw [← List.range_eq_range', ← hs, Nat.zero_add] at h
  unfold finish
  rw [show (none : Option Ch) = Scp.before v.sides 0 from rfl, h]
  simp only
  have hS0 : 0 < v.sides := by omega
  rw [hgeom, iter_place hS _ (Nat.mul_lt_mul_of_pos_right hC hS0)]
  simp only
  rw [Nat.mul_div_cancel _ hS0, hblank]
  rfl

/-- Where the tracks are: each on the next free cylinder of its side. -/
theorem gapped_at {debug : Bool} {rnd : Nat → Bool} {fm : FmCodec} {f : List Byte} {T : Tables} {v : Drive} (hS : v.sides = 1 ∨ v.sides = 2)
    {h : Nat} (hh : h < v.sides) (c : Nat) :
    (gapped debug rnd fm f T v).track ⟨c, h⟩ =
      .ok ((((List.range v.cylinders).filter fun a => taken T v (v.sides * a + h))[c]?).map fun a => made debug rnd fm f T v 0 ⟨a, h⟩) := by
  have hS0 : 0 < v.sides := by omega
  have hlt : h < 2 := by omega
  generalize hxs : ((List.range (v.cylinders * v.sides)).filter (taken T v)).map
    (fun j => made debug rnd fm f T v 0 ⟨j / v.sides, j % v.sides⟩) = xs
  obtain ⟨p1, p2, p3⟩ := pushAny_same xs (if T.announced then ({} : Disk).setMultires true else {}) {} (by split <;> rfl) (by split <;> rfl)
    (by split <;> rfl)
  have hside : ∀ x ∈ xs, x.ch.h < 2 := by
    intro x hx
    rw [← hxs] at hx
    obtain ⟨j, _, rfl⟩ := List.mem_map.1 hx
    rw [made_ch]
    show j % v.sides < 2
    rcases hS with e | e <;> rw [e] <;> omega
  obtain ⟨q1, q2, _⟩ := pushAll_spec xs {} empty_bounded hside
  have hat : at? (gapped debug rnd fm f T v) h c = at? (pushAll {} xs) h c := by
    unfold at? gapped Disk.headMap
    rw [hxs]
    simp only [p1, p2, p3]
  have key : (xs.filter fun x => x.ch.h = h) =
      ((List.range v.cylinders).filter fun a => taken T v (v.sides * a + h)).map fun a => made debug rnd fm f T v 0 ⟨a, h⟩ := by
    rw [← hxs, List.filter_map, List.filter_filter]
    have gen : ∀ n, ((List.range (n * v.sides)).filter fun j =>
        ((fun x : DiskTrack => decide (x.ch.h = h)) ∘ fun j => made debug rnd fm f T v 0 ⟨j / v.sides, j % v.sides⟩) j && taken T v j) =
        ((List.range n).filter fun a => taken T v (v.sides * a + h)).map fun a => v.sides * a + h := by
      intro n
      induction n with
      | zero => rw [Nat.zero_mul]; rfl
      | succ n ih =>
        rw [Nat.succ_mul, List.range_add, List.filter_append, ih, List.range_succ, List.filter_append, List.map_append]
        congr 1
        rw [List.filter_map, List.filter_cons, List.filter_nil]
        have one : ∀ (b : Bool), (if b then [n] else []).map (fun a => v.sides * a + h) = if b then [v.sides * n + h] else [] := by
          intro b; cases b <;> rfl
        rw [one]
        have hcomp : ∀ k, k < v.sides → (((fun j => ((fun x : DiskTrack => decide (x.ch.h = h)) ∘
            fun j => made debug rnd fm f T v 0 ⟨j / v.sides, j % v.sides⟩) j && taken T v j)) ∘ fun x => n * v.sides + x) k =
            (decide (k = h) && taken T v (v.sides * n + k)) := by
          intro k hk
          simp only [Function.comp, made_ch]
          rw [Nat.mul_comm n, Nat.mul_add_mod, Nat.mod_eq_of_lt hk]
        have hf : (List.range v.sides).filter (((fun j => ((fun x : DiskTrack => decide (x.ch.h = h)) ∘
            fun j => made debug rnd fm f T v 0 ⟨j / v.sides, j % v.sides⟩) j && taken T v j)) ∘ fun x => n * v.sides + x) =
            (List.range v.sides).filter fun k => decide (k = h) && taken T v (v.sides * n + k) := by
          apply List.filter_congr
          intro k hk
          exact hcomp k (List.mem_range.1 hk)
        rw [hf]
        rcases hS with e | e
        · have : h = 0 := by omega
          subst this
          rw [e]
          simp only [List.range_one, List.filter_cons, List.filter_nil, decide_true, Bool.true_and]
          split
          · simp [Nat.mul_comm]
          · rfl
        · rw [e]
          have : h = 0 ∨ h = 1 := by omega
          rcases this with rfl | rfl
          · simp only [show List.range 2 = [0, 1] from rfl, List.filter_cons, List.filter_nil, decide_true, Bool.true_and, Nat.one_ne_zero,
              decide_false, Bool.false_and, Bool.false_eq_true, if_false]
            split
            · simp [Nat.mul_comm]
            · rfl
          · simp only [show List.range 2 = [0, 1] from rfl, List.filter_cons, List.filter_nil, decide_true, Bool.true_and, Nat.zero_ne_one,
              decide_false, Bool.false_and, Bool.false_eq_true, if_false]
            split
            · simp [Nat.mul_comm]
            · rfl
    rw [gen, List.map_map]
    apply List.map_congr_left
    intro a _
    simp only [Function.comp]
    rw [Nat.mul_add_div hS0, Nat.div_eq_of_lt hh, Nat.mul_add_mod, Nat.mod_eq_of_lt hh]
    rfl
  unfold Disk.track
  rw [if_neg (show ¬ h ≥ 2 by omega)]
  show Except.ok (at? (gapped debug rnd fm f T v) h c) = _
  rw [hat, ← side_get _ q1 hlt, q2 _ hlt, empty_side, List.nil_append, key, List.getElem?_map]

theorem load_gaps {f : List Byte} {cs : List SauceFile.Chunk} {v : Drive} {T : Tables} {k : Kind}
    (h : (k = .moof ∧ SauceFile.Moof f cs v T) ∨ (k = .woz ∧ SauceFile.Woz f cs v T)) (debug : Bool) (rnd : Nat → Bool) (fm : FmCodec)
    (hq : v.quarter = false) (hx : T.fluxMap = none) :
    (v.sides = 1 ∨ v.sides = 2) ∧ ∃ w, load k debug rnd fm {} f = .ok (gapped debug rnd fm f T v, w) := by
  rcases h with ⟨rfl, h⟩ | ⟨rfl, h⟩
  · obtain ⟨i, p, i1, s1, s2, q3, g, b, e⟩ := start_moof h debug rnd fm
    refine ⟨s1, ScpFile.byte i 2 != 0, ?_⟩
    rw [e, finish_gaps q3 g s1 hq hx h.tables.good (show v.cylinders < 160 by unfold Drive.cylinders; rw [hq]; decide) b (pair_slots hq s1)]
  · obtain ⟨i, p, i1, s1, s2, _, q3, g, b, e⟩ := start_woz h debug rnd fm
    refine ⟨s1, ScpFile.byte i 2 != 0, ?_⟩
    rw [hq] at b e
    rw [e]
    simp only [Bool.false_eq_true, if_false]
    rw [finish_gaps q3 g s1 hq hx h.tables.good (show v.cylinders < 161 by unfold Drive.cylinders; rw [hq]; decide) b (pair_slots hq s1)]

/-! Panics -/

/-- The tables begin where their names say. -/
structure Named (f : List Byte) (P : Parts) : Prop where
  trks : ∀ x, P.trks = some x → ∃ o, x = o + 8 ∧ (f.drop o).take 4 = SauceFile.trks
  flux : ∀ x, P.flux = some x → ∃ o, x = o + 8 ∧ (f.drop o).take 4 = SauceFile.flux

theorem chunks_named {k : Kind} {f : List Byte} : ∀ (n o : Nat) (P : Parts), Named f P →
    (∃ Q, chunks k f n o P = .ok Q ∧ Named f Q) ∨ chunks k f n o P = .error .incompatible
  | 0, o, P, h => Or.inl ⟨P, rfl, h⟩
  | n + 1, o, P, h => by
    rw [chunks]
    split
    · exact Or.inl ⟨P, rfl, h⟩
    split
    · exact Or.inl ⟨P, rfl, h⟩
    simp only
    split
    · split
      · exact Or.inl ⟨P, rfl, h⟩
      · split
        · exact chunks_named n _ _ ⟨h.trks, h.flux⟩
        · exact Or.inr rfl
    split
    · split
      · exact Or.inl ⟨P, rfl, h⟩
      · exact chunks_named n _ _ ⟨h.trks, h.flux⟩
    split
    · rename_i e
      split
      · exact Or.inl ⟨P, rfl, h⟩
      · exact chunks_named n _ _ ⟨fun x hx => ⟨o, by cases hx; rfl, e⟩, h.flux⟩
    split
    · rename_i e
      split
      · exact Or.inl ⟨P, rfl, h⟩
      · exact chunks_named n _ _ ⟨h.trks, fun x hx => ⟨o, by cases hx; rfl, e⟩⟩
    split
    · split
      · exact Or.inl ⟨P, rfl, h⟩
      · exact chunks_named n _ _ h
    · exact chunks_named n _ _ h

theorem bitTrack_ok (debug : Bool) (rnd : Nat → Bool) (enc : Encoding) (data : List Byte) (cells : Nat) : ∃ t, bitTrack debug rnd enc data cells = .ok t := by
  cases enc with
  | mfm =>
    obtain ⟨t, t1, _⟩ := ofBytes_cells debug rnd data (some cells) false (fun h => by cases h)
    exact ⟨t, t1⟩
  | _ => exact ⟨_, rfl⟩

theorem addBits_no_panic (debug : Bool) (rnd : Nat → Bool) (f : List Byte) (enc : Encoding) (d : Disk) (ch : Ch) (t : Trk) :
    addBits debug rnd f enc d ch t ≠ .error .panic := by
  unfold addBits readAt
  split
  · rename_i h
    split at h
    · cases h
    · cases h; intro h; cases h
  · rename_i data h
    obtain ⟨x, hx⟩ := bitTrack_ok debug rnd enc data t.cells
    rw [hx]
    unfold Disk.addBit
    split
    · rename_i h; split at h
      · cases h; intro h; cases h
      · split at h
        · cases h; intro h; cases h
        · cases h
    · intro h; cases h

theorem addBlank_no_panic (p : Plan) (hp : p.enc = .mfm ∨ p.enc = .gcr) (d : Disk) (ch : Ch) : addBlank p d ch ≠ .error .panic := by
  obtain ⟨t, t1, _⟩ : ∃ t, Disk.emptyBit ch p.enc p.blank none = .ok t ∧ True := by
    rcases hp with e | e
    · obtain ⟨t, t1, _⟩ := emptyBit_ok ch true p.blank
      exact ⟨t, by rw [e]; exact t1, True.intro⟩
    · obtain ⟨t, t1, _⟩ := emptyBit_ok ch false p.blank
      exact ⟨t, by rw [e]; exact t1, True.intro⟩
  unfold addBlank Disk.addEmpty
  rw [t1]
  split
  · rename_i h
    split at h
    · cases h; intro h; cases h
    · simp only at h
      split at h
      · cases h; intro h; cases h
      · split at h
        · split at h <;> cases h
          intro h; cases h
        · split at h <;> cases h
          intro h; cases h
        · cases h; intro h; cases h
  · intro h; cases h

theorem addTimes_no_panic (debug : Bool) (rnd : Nat → Bool) (fm : FmCodec) (hfm : ∀ ch ts, Flux.FmFine fm none none [Rev.ofDeltas ch ts (1 / 5)])
    (f : List Byte) (d : Disk) (ch : Ch) (t : Trk) (ht : t.bytes ≠ 0) : addTimes debug rnd fm f d ch t ≠ .error .panic := by
  unfold addTimes readAt
  split
  · rename_i h
    split at h
    · cases h
    · cases h; intro h; cases h
  · rename_i data h
    split at h
    · rename_i hr
      cases h
      unfold decodeFlux
      have hne : (f.drop t.start).take t.bytes ≠ [] := by
        intro hc
        have := congrArg List.length hc
        rw [List.length_take, List.length_drop, List.length_nil] at this
        omega
      rw [if_neg hne]
      simp only
      obtain ⟨m, hm⟩ := Scp.make_total debug rnd fm _ (hfm ch ((fluxTicks 0 ((f.drop t.start).take t.bytes)).map fun (n : Nat) => (n : Rat) * (125 / 1000000000)))
      rw [hm]
      simp only
      unfold Disk.addFlux
      split
      · rename_i h; split at h
        · cases h; intro h; cases h
        · split at h
          · cases h; intro h; cases h
          · cases h
      · intro h; cases h
    · cases h

/-- How far the iterator is. -/
def done (S : Nat) : Option Ch → Nat
  | none => 0
  | some ch => (if S ≤ 1 then ch.c else ch.c * S + ch.h) + 1

theorem iter_some {C S : Nat} (place : Option Ch) (hh : ∀ ch, place = some ch → ch.h < S ∨ S = 0 ∧ ch.h = 0) (h : done S place < C * max 1 S) :
    ∃ ch, Ch.iterNext ⟨C, S⟩ place = some ch ∧ done S (some ch) = done S place + 1 ∧ (ch.h < S ∨ S = 0 ∧ ch.h = 0) := by
  cases place with
  | none =>
    refine ⟨⟨0, 0⟩, rfl, ?_, ?_⟩
    · unfold done; simp
    · show 0 < S ∨ S = 0 ∧ 0 = 0
      omega
  | some ch =>
    have hch := hh ch rfl
    unfold done at h
    unfold Ch.iterNext Ch.nextTrack done
    simp only at h ⊢
    by_cases h1 : ch.h < S - 1
    · rw [if_pos h1]
      refine ⟨_, rfl, ?_, ?_⟩
      · simp only
        rw [if_neg (by omega), if_neg (by omega)]
        omega
      · simp only; omega
    · rw [if_neg h1]
      have hc : ch.c < C - 1 := by
        by_cases hS : S ≤ 1
        · rw [if_pos hS, Nat.max_eq_left hS] at h; omega
        · rw [if_neg hS, Nat.max_eq_right (by omega)] at h
          have h2 : (ch.c + 1) * S < C * S := by rw [Nat.succ_mul]; omega
          have := Nat.lt_of_mul_lt_mul_right h2
          omega
      rw [if_pos hc]
      refine ⟨_, rfl, ?_, ?_⟩
      · simp only
        split
        · rfl
        · rw [Nat.succ_mul]; omega
      · show 0 < S ∨ S = 0 ∧ 0 = 0
        omega

theorem tracks_no_panic (debug : Bool) (rnd : Nat → Bool) (fm : FmCodec) (hfm : ∀ ch ts, Flux.FmFine fm none none [Rev.ofDeltas ch ts (1 / 5)])
    (f : List Byte) (p : Plan) (C S : Nat) (hg : p.geom = ⟨C, S⟩) (he : p.enc = .mfm ∨ p.enc = .gcr)
    (hz : ∀ q, p.flux = some q → ∀ s < 160, u8At f (q + s) < 160 → (trkAt f p.trks (u8At f (q + s))).bytes ≠ 0) :
    ∀ (slots : List Nat) (place : Option Ch) (d : Disk), (∀ s ∈ slots, s < 160) → done S place + slots.length < C * max 1 S →
      (∀ ch, place = some ch → ch.h < S ∨ S = 0 ∧ ch.h = 0) →
      tracks debug rnd fm f p slots place d ≠ .error .panic ∧
      ∀ r, tracks debug rnd fm f p slots place d = .ok r → ∃ ch, Ch.iterNext ⟨C, S⟩ r.2 = some ch
  | [], place, d, _, hn, hh => by
    rw [tracks]
    refine ⟨(fun h => by cases h), fun r hr => ?_⟩
    cases hr
    obtain ⟨ch, h1, _⟩ := iter_some (C := C) place hh (by simpa using hn)
    exact ⟨ch, h1⟩
  | s :: slots, place, d, hs, hn, hh => by
    rw [tracks]
    split
    · exact ⟨fun h => (by cases h), fun r hr => (by cases hr)⟩
    obtain ⟨ch, h1, h2, h3⟩ := iter_some (C := C) place hh (by simp only [List.length_cons] at hn; omega)
    rw [hg, h1]
    simp only
    have hslot : addSlot debug rnd fm f p s d ch ≠ .error .panic := by
      unfold addSlot
      split
      · exact addBits_no_panic debug rnd f _ d ch _
      · split
        · rename_i q hq
          split
          · rename_i hb
            exact addTimes_no_panic debug rnd fm hfm f d ch _ (hz q hq s (hs s List.mem_cons_self) hb)
          · exact addBlank_no_panic p he d ch
        · split
          · exact addBlank_no_panic p he d ch
          · intro h; cases h
    cases ha : addSlot debug rnd fm f p s d ch with
    | error x =>
      rw [ha] at hslot
      exact ⟨fun h => hslot (by injection h with h; rw [h]), fun r hr => (by cases hr)⟩
    | ok d' =>
      exact tracks_no_panic debug rnd fm hfm f p C S hg he hz slots (some ch) d' (fun s hs' => hs s (List.mem_cons_of_mem _ hs'))
        (by rw [h2]; simp only [List.length_cons] at hn; omega) (fun c hc => by cases hc; exact h3)

theorem finish_no_panic (debug : Bool) (rnd : Nat → Bool) (fm : FmCodec) (hfm : ∀ ch ts, Flux.FmFine fm none none [Rev.ofDeltas ch ts (1 / 5)])
    (f : List Byte) (p : Plan) (C S : Nat) (hg : p.geom = ⟨C, S⟩) (he : p.enc = .mfm ∨ p.enc = .gcr)
    (hz : ∀ q, p.flux = some q → ∀ s < 160, u8At f (q + s) < 160 → (trkAt f p.trks (u8At f (q + s))).bytes ≠ 0)
    (slots : List Nat) (hs : ∀ s ∈ slots, s < 160) (hn : slots.length < C * max 1 S) (sides : Nat) (w : Bool) (d : Disk) :
    finish debug rnd fm f p slots sides w d ≠ .error .panic := by
  obtain ⟨t1, t2⟩ := tracks_no_panic debug rnd fm hfm f p C S hg he hz slots none d hs (show 0 + slots.length < _ by omega) (fun ch h => by cases h)
  unfold finish
  cases ht : tracks debug rnd fm f p slots none d with
  | error e => rw [ht] at t1; exact fun h => t1 (by injection h with h; rw [h])
  | ok r =>
    obtain ⟨ch, hc⟩ := t2 r ht
    simp only
    rw [hg, hc]
    intro h; cases h

theorem pairSlots_spec (S : Nat) : (∀ s ∈ pairSlots S, s < 160) ∧ (pairSlots S).length ≤ 160 ∧ (pairSlots 1).length = 80 := by
  refine ⟨fun s hs => List.mem_range.1 (List.mem_filter.1 hs).1, ?_, by decide +kernel⟩
  unfold pairSlots
  exact Nat.le_trans (List.length_filter_le _ _) (by rw [List.length_range])

end Sauce
end Fox
