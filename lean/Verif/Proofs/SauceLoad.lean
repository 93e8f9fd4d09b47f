import Verif.Proofs.Sauce
import Verif.Proofs.BitDisk
/-
The Applesauce loaders add the tracks that the maps tell of.
-/
namespace Fox
namespace Sauce
open Flux Spec
open SauceFile (Drive Tables)

/-- Adding a track of any kind. -/
def withAny (d : Disk) (x : DiskTrack) : Disk := { d with res := d.res.insert x.resolution }.pushTrack x.ch.h x

/-- Adding tracks one after another. -/
def pushAny (d : Disk) (xs : List DiskTrack) : Disk := xs.foldl withAny d

theorem pushAny_same : ∀ (xs : List DiskTrack) (d d' : Disk), d.pool = d'.pool → d.map0 = d'.map0 → d.map1 = d'.map1 →
    (pushAny d xs).pool = (pushAll d' xs).pool ∧ (pushAny d xs).map0 = (pushAll d' xs).map0 ∧
    (pushAny d xs).map1 = (pushAll d' xs).map1
  | [], d, d', h1, h2, h3 => ⟨h1, h2, h3⟩
  | x :: xs, d, d', h1, h2, h3 => by
    show (pushAny (withAny d x) xs).pool = (pushAll (withTrack d' x.ch.h x) xs).pool ∧ _
    refine pushAny_same xs (withAny d x) (withTrack d' x.ch.h x) ?_ ?_ ?_
    all_goals
      unfold withAny withTrack Disk.pushTrack Disk.pushMap
      simp only [h1]
      split <;> simp [h1, h2, h3]

theorem withAny_multires (d : Disk) (x : DiskTrack) : (withAny d x).multires = d.multires := by
  unfold withAny Disk.pushTrack Disk.pushMap; split <;> rfl

theorem withAny_res (d : Disk) (x : DiskTrack) : (withAny d x).res = d.res.insert x.resolution := by
  unfold withAny Disk.pushTrack Disk.pushMap; split <;> rfl

theorem withAny_map (d : Disk) (x : DiskTrack) (h : Nat) (hh : h < 2) (hx : x.ch.h < 2) :
    ((withAny d x).headMap h).length = (d.headMap h).length + if x.ch.h = h then 1 else 0 := by
  unfold withAny Disk.pushTrack Disk.pushMap Disk.headMap
  have e1 : h = 0 ∨ h = 1 := by omega
  have e2 : x.ch.h = 0 ∨ x.ch.h = 1 := by omega
  rcases e1 with rfl | rfl <;> rcases e2 with e | e <;> rw [e] <;> simp

theorem iter_place {C S : Nat} (hS : S = 1 ∨ S = 2) (i : Nat) (h : i < C * S) :
    Ch.iterNext ⟨C, S⟩ (Scp.before S i) = some ⟨i / S, i % S⟩ := by
  cases i with
  | zero =>
    show some _ = some _
    rw [Nat.zero_div, Nat.zero_mod]
  | succ i =>
    unfold Scp.before Ch.iterNext Ch.nextTrack
    simp only
    rcases hS with rfl | rfl
    · rw [if_neg (by omega), if_pos (by omega)]
      congr 2 <;> omega
    · by_cases hm : i % 2 < 2 - 1
      · rw [if_pos hm]; congr 2 <;> omega
      · rw [if_neg hm, if_pos (by omega)]; congr 2 <;> omega

/-- The plan is that of the tables. -/
structure Follows (f : List Byte) (T : Tables) (v : Drive) (p : Plan) : Prop where
  map : ∀ s < 160, u8At f (p.tmap + s) = ScpFile.byte T.map s
  table : ∀ e < 160, trkAt f p.trks e = ⟨SauceFile.start T.table e, SauceFile.size T.table e, SauceFile.count T.table e⟩
  noFlux : T.fluxMap = none → p.flux = none
  flux : ∀ x, T.fluxMap = some x → ∃ q, p.flux = some q ∧ ∀ s < 160, u8At f (q + s) = ScpFile.byte x s
  enc : p.enc = if v.mfm then .mfm else .gcr
  always : p.always = v.quarter

/-- The times of a flux track. -/
def times (b : List Byte) : List Rat := (fluxTicks 0 b).map fun (n : Nat) => (n : Rat) * (125 / 1000000000)

/-- What becomes of a place. -/
def made (debug : Bool) (rnd : Nat → Bool) (fm : FmCodec) (f : List Byte) (T : Tables) (v : Drive) (blank : Nat) (ch : Ch) : DiskTrack :=
  match SauceFile.entry T.map T.fluxMap (v.slot ch) with
  | .bits e =>
    match bitTrack debug rnd (if v.mfm then .mfm else .gcr) (SauceFile.data f T.table e) (SauceFile.count T.table e) with
    | .ok t => .bit ch t
    | .error _ => .other ch
  | .flux e =>
    match make debug rnd fm none none [Rev.ofDeltas ch (times (SauceFile.data f T.table e)) (1 / 5)] with
    | .ok m => .flux ch m.bitstream
    | .error _ => .other ch
  | .empty =>
    match Disk.emptyBit ch (if v.mfm then .mfm else .gcr) blank none with
    | .ok t => t
    | .error _ => .other ch

theorem emptyBit_ok (ch : Ch) (b : Bool) (n : Nat) :
    ∃ t, Disk.emptyBit ch (if b then .mfm else .gcr) n none = .ok t ∧ t.ch = ch ∧ t.resolution = .bitStream ∧ t.sectorCt = 0 := by
  cases b with
  | false => exact ⟨.other ch, rfl, rfl, rfl, rfl⟩
  | true =>
    unfold Disk.emptyBit Mfm.new
    simp only [Option.getD_none, List.length_replicate, Nat.lt_irrefl, if_false, if_true]
    exact ⟨_, rfl, rfl, rfl, rfl⟩

theorem made_ch (debug : Bool) (rnd : Nat → Bool) (fm : FmCodec) (f : List Byte) (T : Tables) (v : Drive) (blank : Nat) (ch : Ch) :
    (made debug rnd fm f T v blank ch).ch = ch := by
  unfold made
  split
  · split <;> rfl
  · split <;> rfl
  · obtain ⟨t, h1, h2, _⟩ := emptyBit_ok ch v.mfm blank
    rw [h1]; exact h2

/-- The FM codec copes with what is taken for FM. -/
def FmFine (fm : FmCodec) (f : List Byte) (T : Tables) (v : Drive) : Prop :=
  ∀ ch, v.Place ch → ∀ e, SauceFile.entry T.map T.fluxMap (v.slot ch) = .flux e →
    Flux.FmFine fm none none [Rev.ofDeltas ch (times (SauceFile.data f T.table e)) (1 / 5)]

/-- The disk before track `i`. -/
structure Ready (T : Tables) (S i : Nat) (d : Disk) : Prop where
  sect : d.res.sect = false
  flux : T.announced = false → d.res.flux = false
  multires : d.multires = T.announced
  maps : ∀ h < S, (d.headMap h).length = (i + S - 1 - h) / S

theorem ready_accepts {T : Tables} {S i : Nat} {d : Disk} (h : Ready T S i d) : d.rejects .bitStream = false := by
  unfold Disk.rejects
  rw [h.multires]
  cases ha : T.announced with
  | true => rfl
  | false =>
    have h1 := h.flux ha
    have h2 := h.sect
    unfold ResSet.isEmpty ResSet.has
    rw [h1, h2]
    cases d.res.bit <;> rfl

theorem ready_next {T : Tables} {S i : Nat} {d : Disk} (hS : S = 1 ∨ S = 2) (h : Ready T S i d) {x : DiskTrack} (hx : x.ch = ⟨i / S, i % S⟩)
    (hr : x.resolution = .bitStream ∨ x.resolution = .fluxStream ∧ T.announced = true) : Ready T S (i + 1) (withAny d x) := by
  have hxh : x.ch.h = i % S := by rw [hx]
  refine ⟨?_, ?_, ?_, ?_⟩
  · rw [withAny_res]
    rcases hr with e | ⟨e, _⟩ <;> rw [e] <;> exact h.sect
  · intro ha
    rw [withAny_res]
    rcases hr with e | ⟨e, e'⟩
    · rw [e]; exact h.flux ha
    · rw [ha] at e'; cases e'
  · rw [withAny_multires]; exact h.multires
  · intro k hk
    rw [withAny_map d x k (by omega) (by rw [hxh]; rcases hS with rfl | rfl <;> omega), h.maps k hk, hxh]
    rcases hS with rfl | rfl
    · have : k = 0 := by omega
      subst this
      rw [if_pos (by omega)]
      omega
    · split <;> omega

theorem step_ok {debug : Bool} {rnd : Nat → Bool} {fm : FmCodec} {f : List Byte} {T : Tables} {v : Drive} {p : Plan} {S i : Nat} {d : Disk}
    (hp : Follows f T v p) (hS : S = 1 ∨ S = 2) (hd : Ready T S i d) {s : Nat} (hs : s < 160) (hslot : v.slot ⟨i / S, i % S⟩ = s)
    (hv : v.Place ⟨i / S, i % S⟩) (hg : T.Good f s) (hfm : FmFine fm f T v) (hn : T.NoHoles v) :
    addSlot debug rnd fm f p s d ⟨i / S, i % S⟩ =
      .ok (withAny d (made debug rnd fm f T v p.blank ⟨i / S, i % S⟩)) ∧
    ((made debug rnd fm f T v p.blank ⟨i / S, i % S⟩).resolution = .bitStream ∨
      (made debug rnd fm f T v p.blank ⟨i / S, i % S⟩).resolution = .fluxStream ∧ T.announced = true) := by
  unfold addSlot
  have hmod : i % S < 2 := by rcases hS with rfl | rfl <;> omega
  have hmap := hp.map s hs
  have hread : ∀ e, 0 < SauceFile.size T.table e → SauceFile.start T.table e + SauceFile.size T.table e ≤ f.length →
      readAt f (SauceFile.start T.table e) (SauceFile.size T.table e) = .ok (SauceFile.data f T.table e) ∧ SauceFile.data f T.table e ≠ [] := by
    intro e h1 h2
    unfold readAt SauceFile.data
    rw [if_pos (Or.inr h2)]
    refine ⟨rfl, ?_⟩
    intro hc
    have := congrArg List.length hc
    rw [List.length_take, List.length_drop] at this
    simp only [List.length_nil] at this
    omega
  have hblank : SauceFile.entry T.map T.fluxMap s = .empty →
      addBlank p d ⟨i / S, i % S⟩ = .ok (withAny d (made debug rnd fm f T v p.blank ⟨i / S, i % S⟩)) ∧
      (made debug rnd fm f T v p.blank ⟨i / S, i % S⟩).resolution = .bitStream := by
    intro he
    obtain ⟨t, t1, t2, t3, _⟩ := emptyBit_ok ⟨i / S, i % S⟩ v.mfm p.blank
    have hm : made debug rnd fm f T v p.blank ⟨i / S, i % S⟩ = t := by
      unfold made; rw [hslot, he]; simp only; rw [t1]
    rw [hm]
    refine ⟨?_, t3⟩
    unfold addBlank Disk.addEmpty
    rw [if_neg (show ¬ i % S ≥ 2 by omega)]
    simp only [ready_accepts hd]
    have hmin : (d.res.insert .bitStream).min = some .bitStream := by
      unfold ResSet.min ResSet.insert
      simp only [hd.sect]
      rfl
    rw [if_neg (by decide), hmin]
    simp only
    have hlen : (({ d with res := d.res.insert .bitStream } : Disk).headMap (i % S)).length = i / S := by
      show (d.headMap (i % S)).length = _
      rw [hd.maps _ (Nat.mod_lt _ (by omega))]
      rcases hS with rfl | rfl <;> omega
    rw [if_neg (by rw [hlen]; simp), hp.enc, t1]
    simp only
    unfold withAny
    rw [t3, t2]
  by_cases h255 : ScpFile.byte T.map s ≠ 255
  · have he : SauceFile.entry T.map T.fluxMap s = .bits (ScpFile.byte T.map s) := by
      unfold SauceFile.entry; rw [if_pos h255]
    rw [hmap, if_pos h255]
    obtain ⟨g1, g2, g3, g4⟩ := hg.bits _ he
    generalize ScpFile.byte T.map s = e at *
    rw [hp.table e g1]
    obtain ⟨r1, r2⟩ := hread e g2 g3
    unfold addBits
    simp only [r1]
    have hmade : ∃ t, bitTrack debug rnd p.enc (SauceFile.data f T.table e) (SauceFile.count T.table e) = .ok t ∧
        made debug rnd fm f T v p.blank ⟨i / S, i % S⟩ = .bit ⟨i / S, i % S⟩ t := by
      rw [hp.enc]
      unfold made
      rw [hslot, he]
      simp only
      cases hv : v.mfm with
      | false => exact ⟨_, rfl, rfl⟩
      | true =>
        obtain ⟨t, t1, _⟩ := ofBytes_cells debug rnd (SauceFile.data f T.table e) (some (SauceFile.count T.table e)) false (fun h => by cases h)
        have : bitTrack debug rnd .mfm (SauceFile.data f T.table e) (SauceFile.count T.table e) = .ok t := t1
        simp only [if_true, this]
        exact ⟨t, rfl, rfl⟩
    obtain ⟨t, t1, t2⟩ := hmade
    rw [t1, t2]
    refine ⟨?_, Or.inl rfl⟩
    unfold Disk.addBit
    rw [if_neg (show ¬ i % S ≥ 2 by omega), ready_accepts hd]
    rfl
  · rw [hmap, if_neg h255]
    cases hx : T.fluxMap with
    | none =>
      have he : SauceFile.entry T.map T.fluxMap s = .empty := by
        unfold SauceFile.entry; rw [if_neg h255, hx]
      rw [hp.noFlux hx]
      simp only
      have hq : v.quarter = true := by
        rcases hn with h | h | h
        · exact h
        · exact absurd hx h
        · exact absurd (by rw [hslot]; exact he) (h _ hv)
      rw [hp.always, if_pos hq]
      obtain ⟨b1, b2⟩ := hblank he
      exact ⟨b1, Or.inl b2⟩
    | some x =>
      obtain ⟨q, q1, q2⟩ := hp.flux x hx
      rw [q1]
      simp only
      rw [q2 s hs]
      by_cases hb : ScpFile.byte x s ≠ 255
      · have he : SauceFile.entry T.map T.fluxMap s = .flux (ScpFile.byte x s) := by
          unfold SauceFile.entry; rw [if_neg h255, hx]; simp only; rw [if_pos hb]
        obtain ⟨g1, g2, g3, g4⟩ := hg.flux _ he
        have hfine := hfm _ hv _ (by rw [hslot]; exact he)
        generalize ScpFile.byte x s = e at *
        rw [if_pos g1, hp.table e g1]
        obtain ⟨r1, r2⟩ := hread e g2 g3
        obtain ⟨m, hm⟩ := Scp.make_total debug rnd fm _ hfine
        have hmd : made debug rnd fm f T v p.blank ⟨i / S, i % S⟩ = .flux ⟨i / S, i % S⟩ m.bitstream := by
          unfold made
          rw [hslot, he]
          simp only
          rw [hm]
        rw [hmd]
        refine ⟨?_, Or.inr ⟨rfl, g4⟩⟩
        unfold addTimes
        simp only [r1]
        unfold decodeFlux
        rw [if_neg r2]
        simp only
        rw [show (fluxTicks 0 (SauceFile.data f T.table e)).map (fun (n : Nat) => (n : Rat) * (125 / 1000000000)) =
          times (SauceFile.data f T.table e) from rfl, hm]
        simp only
        unfold Disk.addFlux
        have hrej : d.rejects .fluxStream = false := by
          unfold Disk.rejects; rw [hd.multires, g4]; rfl
        rw [if_neg (show ¬ i % S ≥ 2 by omega), hrej]
        rfl
      · have he : SauceFile.entry T.map T.fluxMap s = .empty := by
          unfold SauceFile.entry; rw [if_neg h255, hx]; simp only; rw [if_neg hb]
        rw [if_neg (by omega)]
        obtain ⟨b1, b2⟩ := hblank he
        exact ⟨b1, Or.inl b2⟩

theorem tracks_ok {debug : Bool} {rnd : Nat → Bool} {fm : FmCodec} {f : List Byte} {T : Tables} {v : Drive} {p : Plan} {C : Nat}
    (hp : Follows f T v p) (hgeom : p.geom = ⟨C, v.sides⟩) (hS : v.sides = 1 ∨ v.sides = 2) (hq : v.quarter = true → v.sides = 1)
    (hg : ∀ ch, v.Place ch → T.Good f (v.slot ch)) (hfm : FmFine fm f T v) (hn : T.NoHoles v) (hC : v.cylinders < C) :
    ∀ (m i : Nat) (d : Disk), i + m ≤ v.cylinders * v.sides → Ready T v.sides i d →
    tracks debug rnd fm f p ((List.range' i m).map fun j => v.slot ⟨j / v.sides, j % v.sides⟩) (Scp.before v.sides i) d =
      .ok (pushAny d ((List.range' i m).map fun j => made debug rnd fm f T v p.blank ⟨j / v.sides, j % v.sides⟩), Scp.before v.sides (i + m))
  | 0, i, d, _, _ => rfl
  | m + 1, i, d, hm, hd => by
    have hS0 : 0 < v.sides := by omega
    have hpl : v.Place ⟨i / v.sides, i % v.sides⟩ :=
      ⟨(Nat.div_lt_iff_lt_mul hS0).2 (by omega), Nat.mod_lt _ hS0⟩
    have hslt : v.slot ⟨i / v.sides, i % v.sides⟩ < 160 := by
      obtain ⟨h1, h2⟩ := hpl
      unfold Drive.slot
      unfold Drive.cylinders at h1
      split
      · rename_i h; rw [if_pos h] at h1; exact h1
      · rename_i h; rw [if_neg h] at h1; simp only at h1 h2 ⊢; omega
    obtain ⟨s1, s2⟩ := step_ok (debug := debug) (rnd := rnd) hp hS hd hslt rfl hpl (hg _ hpl) hfm hn
    have hnext := ready_next hS hd (made_ch debug rnd fm f T v p.blank ⟨i / v.sides, i % v.sides⟩) s2
    have ih := tracks_ok (debug := debug) (rnd := rnd) hp hgeom hS hq hg hfm hn hC m (i + 1) _ (by omega) hnext
    rw [List.range'_succ, List.map_cons, List.map_cons, tracks]
    have hin : i < C * v.sides := by
      have := Nat.mul_lt_mul_of_pos_right hC hS0
      omega
    have hb : ¬ (u8At f (p.tmap + v.slot ⟨i / v.sides, i % v.sides⟩) ≠ 255 ∧ 160 ≤ u8At f (p.tmap + v.slot ⟨i / v.sides, i % v.sides⟩)) := by
      rintro ⟨b1, b2⟩
      rw [hp.map _ hslt] at b1 b2
      have := ((hg _ hpl).bits _ (by unfold SauceFile.entry; rw [if_pos b1])).1
      omega
    rw [if_neg hb, hgeom, iter_place hS i hin]
    simp only
    rw [s1]
    simp only
    rw [show (some (⟨i / v.sides, i % v.sides⟩ : Ch)) = Scp.before v.sides (i + 1) from rfl, ih]
    show Except.ok _ = Except.ok _
    rw [show i + 1 + m = i + (m + 1) by omega]
    rfl

/-- The disk that becomes of the tables. -/
def loaded (debug : Bool) (rnd : Nat → Bool) (fm : FmCodec) (f : List Byte) (T : Tables) (v : Drive) (blank : Nat) : Disk :=
  { pushAny (if T.announced then ({} : Disk).setMultires true else {})
      ((List.range (v.cylinders * v.sides)).map fun j => made debug rnd fm f T v blank ⟨j / v.sides, j % v.sides⟩) with
    geometry := ⟨v.cylinders, v.sides⟩ }

theorem ready_first (T : Tables) {S : Nat} (hS : S = 1 ∨ S = 2) : Ready T S 0 (if T.announced then ({} : Disk).setMultires true else {}) := by
  have hm : ∀ h < S, ((if T.announced then ({} : Disk).setMultires true else {}).headMap h).length = (0 + S - 1 - h) / S := by
    intro h hh
    have : (0 + S - 1 - h) / S = 0 := Nat.div_eq_of_lt (by omega)
    rw [this]
    unfold Disk.headMap Disk.setMultires
    split <;> split <;> rfl
  cases ha : T.announced with
  | true => rw [ha] at hm; exact ⟨rfl, fun h => (rfl : (({} : Disk).setMultires true).res.flux = false), ha.symm ▸ rfl, hm⟩
  | false => rw [ha] at hm; exact ⟨rfl, fun _ => rfl, ha.symm ▸ rfl, hm⟩

theorem finish_ok {debug : Bool} {rnd : Nat → Bool} {fm : FmCodec} {f : List Byte} {T : Tables} {v : Drive} {p : Plan} {C : Nat} {slots : List Nat}
    (hp : Follows f T v p) (hgeom : p.geom = ⟨C, v.sides⟩) (hS : v.sides = 1 ∨ v.sides = 2) (hq : v.quarter = true → v.sides = 1)
    (hg : ∀ ch, v.Place ch → T.Good f (v.slot ch)) (hfm : FmFine fm f T v) (hn : T.NoHoles v) (hC : v.cylinders < C)
    (hs : slots = (List.range (v.cylinders * v.sides)).map fun j => v.slot ⟨j / v.sides, j % v.sides⟩) (w : Bool) :
    finish debug rnd fm f p slots v.sides w (if T.announced then ({} : Disk).setMultires true else {}) =
      .ok (loaded debug rnd fm f T v p.blank, w) := by
  have h := tracks_ok (debug := debug) (rnd := rnd) hp hgeom hS hq hg hfm hn hC (v.cylinders * v.sides) 0 _ (by omega) (ready_first T hS)
  rw [← List.range_eq_range', ← hs, Nat.zero_add] at h
  unfold finish
  rw [show (none : Option Ch) = Scp.before v.sides 0 from rfl, h]
  simp only
  have hS0 : 0 < v.sides := by omega
  rw [hgeom, iter_place hS _ (Nat.mul_lt_mul_of_pos_right hC hS0)]
  simp only
  rw [Nat.mul_div_cancel _ hS0]
  rfl

theorem follows_of {k : Kind} {f : List Byte} {cs : List SauceFile.Chunk} {P : Parts} {T : Tables} {v : Drive} (hk : Kept k f cs P)
    (hT : T.WellFormed f cs v) (geom : Ch) (blank : Nat) (always : Bool) (ha : always = v.quarter) :
    ∃ tmap trks, P.tmap = some tmap ∧ P.trks = some trks ∧
      Follows f T v ⟨geom, if v.mfm then .mfm else .gcr, blank, always, tmap, trks, P.flux⟩ := by
  have len : ∀ {id : List Byte} {d : List Byte} {n : Nat}, SauceFile.part cs id = some d →
      (∀ c ∈ cs, c.id = id → n ≤ c.data.length) → n ≤ d.length := by
    intro id d n hd hc
    unfold SauceFile.part at hd
    rw [Option.map_eq_some_iff] at hd
    obtain ⟨c, c1, rfl⟩ := hd
    have := List.mem_filter.1 (List.mem_of_getLast? c1)
    exact hc c this.1 (by simpa using this.2)
  have l1 : 160 ≤ T.map.length := len hT.map (fun c hc h => Nat.le_of_eq ((hT.sizes c hc).1 (Or.inl h)).symm)
  have l2 : 1280 ≤ T.table.length := len hT.table (fun c hc h => (hT.sizes c hc).2 h)
  have t1 := hk.tmap
  have t2 := hk.trks
  have t3 := hk.flux
  rw [hT.map] at t1
  rw [hT.table] at t2
  rw [hT.fluxMap] at t3
  cases h1 : P.tmap with
  | none => rw [h1] at t1; exact t1.elim
  | some tmap =>
    cases h2 : P.trks with
    | none => rw [h2] at t2; exact t2.elim
    | some trks =>
      rw [h1] at t1
      rw [h2] at t2
      obtain ⟨r1, t1⟩ := t1
      obtain ⟨r2, t2⟩ := t2
      refine ⟨tmap, trks, rfl, rfl, ?_, ?_, ?_, ?_, rfl, ha⟩
      · intro s hs
        exact byte_of_drop t1 (by omega)
      · intro e he
        unfold trkAt
        simp only
        rw [word_of_drop t2 (by omega), show trks + 8 * e + 2 = trks + (8 * e + 2) by omega, word_of_drop t2 (by omega),
          show trks + 8 * e + 4 = trks + (8 * e + 4) by omega, dword_of_drop t2 (by omega)]
        unfold SauceFile.start SauceFile.size SauceFile.count
        rw [Nat.mul_comm 512, Nat.mul_comm 512]
      · intro hx
        rw [hx] at t3
        cases h3 : P.flux with
        | none => rfl
        | some q => rw [h3] at t3; exact t3.elim
      · intro x hx
        have l3 : 160 ≤ x.length := len (by rw [← hx]; exact hT.fluxMap) (fun c hc h => Nat.le_of_eq ((hT.sizes c hc).1 (Or.inr h)).symm)
        rw [hx] at t3
        cases h3 : P.flux with
        | none => rw [h3] at t3; exact t3.elim
        | some q =>
          rw [h3] at t3
          obtain ⟨r3, t3⟩ := t3
          exact ⟨q, rfl, fun s hs => byte_of_drop t3 (by omega)⟩

theorem header_ok {k : Kind} {f : List Byte} {cs : List SauceFile.Chunk} (h : SauceFile.Consists k.magic f cs) (hc : ∀ c ∈ cs, Proper k c)
    (debug : Bool) (rnd : Nat → Bool) (fm : FmCodec) (d : Disk) :
    ∃ P, Kept k f cs P ∧ load k debug rnd fm d f = build k debug rnd fm f d P := by
  have hcount : cs.length < f.length + 1 := by
    have h1 := congrArg List.length h.chunks
    rw [List.length_drop] at h1
    have : cs.length ≤ (cs.flatMap SauceFile.Chunk.bytes).length := by
      rw [List.length_flatMap]
      have : ∀ l : List SauceFile.Chunk, l.length ≤ (l.map fun c => c.bytes.length).sum := by
        intro l
        induction l with
        | nil => simp
        | cons c l ih =>
          rw [List.length_cons, List.map_cons, List.sum_cons]
          have : 1 ≤ c.bytes.length := by
            unfold SauceFile.Chunk.bytes
            rw [List.length_append, List.length_append, four_length]
            omega
          omega
      exact this cs
    omega
  obtain ⟨P, p1, p2⟩ := chunks_ok (k := k) cs [] (f.length + 1) 12 {} h.long h.chunks hcount hc ⟨rfl, True.intro, True.intro, True.intro⟩
  refine ⟨P, p2, ?_⟩
  have hcrc : (crc32 (f.drop 12) 0#32).toNat = le32At f 8 := by
    have h1 := h.crc
    rw [C97_is_crc32, ← crc32_eq] at h1
    rw [h1, BitVec.toNat_ofNat]
    refine Nat.mod_eq_of_lt ?_
    have hb : ∀ i, ScpFile.byte f i < 256 := fun i => (f.getD i 0#8).isLt
    have := hb 8; have := hb 9; have := hb 10; have := hb 11
    unfold ScpFile.dword ScpFile.word
    simp only [Nat.reduceAdd]
    omega
  unfold load
  rw [if_neg (fun hh => hh.2 h.magic), if_neg (fun hh => hh.2 hcrc), if_pos h.long, p1]

theorem proper_of {k : Kind} {f : List Byte} {cs : List SauceFile.Chunk} {T : Tables} {v : Drive} (hf : SauceFile.Consists k.magic f cs)
    (hT : T.WellFormed f cs v) (hi : ∀ c ∈ cs, c.id = SauceFile.info → ∃ i, infoAt k c.data 0 = some i ∧ k.accepts i.version = true) :
    ∀ c ∈ cs, Proper k c := by
  intro c hc
  refine ⟨(hf.sizes c hc).1, (hf.sizes c hc).2, hi c hc, ?_, (hT.sizes c hc).2⟩
  intro h
  rw [(hT.sizes c hc).1 h]

theorem part_mem {cs : List SauceFile.Chunk} {id d : List Byte} (h : SauceFile.part cs id = some d) : ∃ c ∈ cs, c.id = id ∧ c.data = d := by
  unfold SauceFile.part at h
  rw [Option.map_eq_some_iff] at h
  obtain ⟨c, c1, rfl⟩ := h
  have := List.mem_filter.1 (List.mem_of_getLast? c1)
  exact ⟨c, this.1, by simpa using this.2, rfl⟩

theorem pair_slots {v : Drive} (hq : v.quarter = false) (hS : v.sides = 1 ∨ v.sides = 2) :
    pairSlots v.sides = (List.range (v.cylinders * v.sides)).map fun j => v.slot ⟨j / v.sides, j % v.sides⟩ := by
  obtain ⟨S, m, q⟩ := v
  simp only at hq hS
  subst hq
  rcases hS with rfl | rfl
  · show pairSlots 1 = (List.range 80).map fun j => 2 * (j / 1) + j % 1
    decide +kernel
  · show pairSlots 2 = (List.range 160).map fun j => 2 * (j / 2) + j % 2
    decide +kernel

/-- A well-formed MOOF. -/
theorem start_moof {f : List Byte} {cs : List SauceFile.Chunk} {v : Drive} {T : Tables} (h : SauceFile.Moof f cs v T) (debug : Bool)
    (rnd : Nat → Bool) (fm : FmCodec) :
    ∃ i p, SauceFile.part cs SauceFile.info = some i ∧ (v.sides = 1 ∨ v.sides = 2) ∧ v.quarter = false ∧ Follows f T v p ∧
      p.geom = ⟨160, v.sides⟩ ∧ p.blank = 0 ∧
      load .moof debug rnd fm {} f = finish debug rnd fm f p (pairSlots v.sides) v.sides (ScpFile.byte i 2 != 0)
        (if T.announced then ({} : Disk).setMultires true else {}) := by
  obtain ⟨i, i1, i2, i3⟩ := h.info
  have hinfo : ∀ c ∈ cs, c.id = SauceFile.info → infoAt .moof c.data 0 = some
      ⟨1, ScpFile.byte c.data 1, ScpFile.byte c.data 2 != 0, 0, ScpFile.word c.data 40, ScpFile.word c.data 42⟩ := by
    intro c hc hid
    obtain ⟨l, hv⟩ := h.versions c hc hid
    unfold infoAt
    simp only [Nat.zero_add]
    rw [if_neg (by omega), show u8At c.data 0 = 1 from hv]
    rfl
  obtain ⟨P, p1, p2⟩ := header_ok (k := .moof) h.file (proper_of (k := .moof) h.file h.tables
    (fun c hc hid => ⟨_, hinfo c hc hid, rfl⟩)) debug rnd fm {}
  obtain ⟨c, c1, c2, c3⟩ := part_mem i1
  have hpi := p1.info
  rw [i1, Option.bind_some, ← c3, hinfo c c1 c2, c3] at hpi
  have hsides : (v.sides = 1 ∨ v.sides = 2) ∧ v.quarter = false ∧
      moofDisk (ScpFile.byte i 1) = some (v.sides, if v.mfm then .mfm else .gcr) := by
    unfold SauceFile.moofDrive at i2
    unfold moofDisk
    split at i2
    · rename_i e; cases i2; rw [if_pos e]; exact ⟨Or.inl rfl, rfl, rfl⟩
    · rename_i e1
      split at i2
      · rename_i e; cases i2
        refine ⟨Or.inr rfl, rfl, ?_⟩
        rw [if_neg e1]
        rcases e with e | e
        · rw [if_pos e]; rfl
        · rw [if_neg (by omega), if_neg (by omega), if_pos e]; rfl
      · rename_i e2
        split at i2
        · rename_i e; cases i2
          refine ⟨Or.inr rfl, rfl, ?_⟩
          rw [if_neg e1, if_neg (by omega), if_pos e]; rfl
        · cases i2
  obtain ⟨s1, s2, s3⟩ := hsides
  obtain ⟨tmap, trks, q1, q2, q3⟩ := follows_of p1 h.tables ⟨160, v.sides⟩ 0 false s2.symm
  refine ⟨i, _, i1, s1, s2, q3, rfl, rfl, ?_⟩
  rw [p2]
  unfold build
  rw [hpi]
  simp only
  rw [s3]
  simp only
  rw [q1, q2]
  simp only
  rw [i3]
  congr 1
  by_cases hh : 0 < ScpFile.word i 40 ∧ 0 < ScpFile.word i 42
  · rw [if_pos hh, decide_eq_true hh]; rfl
  · rw [if_neg hh, decide_eq_false hh]; rfl

theorem load_moof {f : List Byte} {cs : List SauceFile.Chunk} {v : Drive} {T : Tables} (h : SauceFile.Moof f cs v T) (debug : Bool)
    (rnd : Nat → Bool) (fm : FmCodec) (hfm : FmFine fm f T v) (hn : T.NoHoles v) :
    ∃ i, SauceFile.part cs SauceFile.info = some i ∧ load .moof debug rnd fm {} f = .ok (loaded debug rnd fm f T v 0, ScpFile.byte i 2 != 0) := by
  obtain ⟨i, p, i1, s1, s2, q3, g, b, e⟩ := start_moof h debug rnd fm
  refine ⟨i, i1, ?_⟩
  rw [e, finish_ok q3 g s1 (fun hq => by rw [s2] at hq; cases hq) h.tables.good hfm hn
    (show v.cylinders < 160 by unfold Drive.cylinders; rw [s2]; decide) (pair_slots s2 s1), b]

/-- A well-formed WOZ. -/
theorem start_woz {f : List Byte} {cs : List SauceFile.Chunk} {v : Drive} {T : Tables} (h : SauceFile.Woz f cs v T) (debug : Bool)
    (rnd : Nat → Bool) (fm : FmCodec) :
    ∃ i p, SauceFile.part cs SauceFile.info = some i ∧ (v.sides = 1 ∨ v.sides = 2) ∧ (v.quarter = true → v.sides = 1) ∧ v.mfm = false ∧
      Follows f T v p ∧ p.geom = ⟨161, v.sides⟩ ∧ p.blank = (if v.quarter then 51000 else 0) ∧
      load .woz debug rnd fm {} f = finish debug rnd fm f p (if v.quarter then List.range 160 else pairSlots v.sides) v.sides
        (ScpFile.byte i 2 != 0) (if T.announced then ({} : Disk).setMultires true else {}) := by
  obtain ⟨i, i1, i2, i3⟩ := h.info
  have hinfo : ∀ c ∈ cs, c.id = SauceFile.info → infoAt .woz c.data 0 = some
      ⟨ScpFile.byte c.data 0, ScpFile.byte c.data 1, ScpFile.byte c.data 2 != 0, ScpFile.byte c.data 37,
        if ScpFile.byte c.data 0 = 3 then ScpFile.word c.data 46 else 0, if ScpFile.byte c.data 0 = 3 then ScpFile.word c.data 48 else 0⟩ ∧
      ScpFile.byte c.data 0 ≤ 3 := by
    intro c hc hid
    unfold infoAt
    simp only [Nat.zero_add]
    rcases h.versions c hc hid with ⟨l, hv⟩ | ⟨l, hv⟩
    · have hv' : u8At c.data 0 = 2 := hv
      rw [if_neg (by omega), if_neg (by omega), if_neg (by omega), if_pos (by omega), hv', hv]
      exact ⟨rfl, by omega⟩
    · have hv' : u8At c.data 0 = 3 := hv
      rw [if_neg (by omega), if_neg (by omega), if_neg (by omega), if_neg (by omega), if_neg (by omega), hv', hv]
      exact ⟨rfl, by omega⟩
  obtain ⟨P, p1, p2⟩ := header_ok (k := .woz) h.file (proper_of (k := .woz) h.file h.tables
    (fun c hc hid => ⟨_, (hinfo c hc hid).1, by
      show decide (ScpFile.byte c.data 0 ≤ 3) = true
      exact decide_eq_true (hinfo c hc hid).2⟩)) debug rnd fm {}
  obtain ⟨c, c1, c2, c3⟩ := part_mem i1
  have hpi := p1.info
  rw [i1, Option.bind_some, ← c3, (hinfo c c1 c2).1, c3] at hpi
  have hdrive : (v.sides = 1 ∨ v.sides = 2) ∧ (v.quarter = true → v.sides = 1) ∧ v.mfm = false ∧ ScpFile.byte i 37 = v.sides ∧
      ScpFile.byte i 1 = if v.quarter then 1 else 2 := by
    unfold SauceFile.wozDrive at i2
    split at i2
    · rename_i e; cases i2; exact ⟨Or.inl rfl, fun _ => rfl, rfl, e.2, e.1⟩
    · split at i2
      · rename_i e; cases i2; exact ⟨e.2, (fun h => by cases h), rfl, rfl, e.1⟩
      · cases i2
  obtain ⟨s1, s2, s3, s4, s5⟩ := hdrive
  have hd : (if 0 < (if ScpFile.byte i 0 = 3 then ScpFile.word i 46 else 0) ∧ 0 < (if ScpFile.byte i 0 = 3 then ScpFile.word i 48 else 0)
      then ({} : Disk).setMultires true else {}) = if T.announced = true then ({} : Disk).setMultires true else {} := by
    rw [i3]
    by_cases h3 : ScpFile.byte i 0 = 3
    · by_cases hh : 0 < ScpFile.word i 46 ∧ 0 < ScpFile.word i 48
      · rw [if_pos h3, if_pos h3, if_pos hh, decide_eq_true ⟨h3, hh.1, hh.2⟩]; rfl
      · rw [if_pos h3, if_pos h3, if_neg hh, decide_eq_false (fun g => hh ⟨g.2.1, g.2.2⟩)]; rfl
    · simp only [h3, false_and, decide_false, Nat.lt_irrefl, if_false]
      rfl
  cases hq : v.quarter with
  | false =>
    obtain ⟨tmap, trks, q1, q2, q3⟩ := follows_of p1 h.tables ⟨161, v.sides⟩ 0 false hq.symm
    rw [s3] at q3
    refine ⟨i, _, i1, s1, (fun h => by cases h), s3, q3, rfl, rfl, ?_⟩
    rw [p2]
    unfold build
    rw [hpi]
    simp only
    rw [hd, s4, s5, hq, q1, q2]
    rfl
  | true =>
    obtain ⟨tmap, trks, q1, q2, q3⟩ := follows_of p1 h.tables ⟨161, v.sides⟩ 51000 true hq.symm
    rw [s3] at q3
    refine ⟨i, _, i1, s1, fun _ => s2 hq, s3, q3, rfl, rfl, ?_⟩
    rw [p2]
    unfold build
    rw [hpi]
    simp only
    rw [hd, s4, s5, hq, q1, q2]
    rfl

theorem load_woz {f : List Byte} {cs : List SauceFile.Chunk} {v : Drive} {T : Tables} (h : SauceFile.Woz f cs v T) (debug : Bool)
    (rnd : Nat → Bool) (fm : FmCodec) (hfm : FmFine fm f T v) (hn : T.NoHoles v) :
    ∃ i, SauceFile.part cs SauceFile.info = some i ∧
      load .woz debug rnd fm {} f = .ok (loaded debug rnd fm f T v (if v.quarter then 51000 else 0), ScpFile.byte i 2 != 0) := by
  obtain ⟨i, p, i1, s1, s2, _, q3, g, b, e⟩ := start_woz h debug rnd fm
  refine ⟨i, i1, ?_⟩
  rw [e, finish_ok q3 g s1 s2 h.tables.good hfm hn (show v.cylinders < 161 by unfold Drive.cylinders; split <;> decide) ?_, b]
  cases hq : v.quarter with
  | false => exact pair_slots hq s1
  | true =>
    unfold Drive.cylinders Drive.slot
    rw [hq, s2 hq]
    simp

/-- Where the tracks are. -/
theorem loaded_at {debug : Bool} {rnd : Nat → Bool} {fm : FmCodec} {f : List Byte} {T : Tables} {v : Drive} {blank : Nat}
    (hS : v.sides = 1 ∨ v.sides = 2) {ch : Ch} (hh : ch.h < 2) (x : DiskTrack) :
    (loaded debug rnd fm f T v blank).track ch = .ok (some x) ↔ v.Place ch ∧ x = made debug rnd fm f T v blank ch := by
  have hS0 : 0 < v.sides := by omega
  have hat : at? (loaded debug rnd fm f T v blank) ch.h ch.c = some x ↔ v.Place ch ∧ x = made debug rnd fm f T v blank ch := by
    obtain ⟨p1, p2, p3⟩ := pushAny_same
      ((List.range (v.cylinders * v.sides)).map fun j => made debug rnd fm f T v blank ⟨j / v.sides, j % v.sides⟩)
      (if T.announced then ({} : Disk).setMultires true else {}) {} (by split <;> rfl) (by split <;> rfl) (by split <;> rfl)
    have e : at? (loaded debug rnd fm f T v blank) ch.h ch.c =
        at? (pushAll {} ((List.range (v.cylinders * v.sides)).map fun j => made debug rnd fm f T v blank ⟨j / v.sides, j % v.sides⟩)) ch.h ch.c := by
      unfold at? loaded Disk.headMap
      simp only [p1, p2, p3]
    have hord : OrderedChs (((List.range (v.cylinders * v.sides)).map fun j => made debug rnd fm f T v blank ⟨j / v.sides, j % v.sides⟩).map
        DiskTrack.ch) := by
      rw [List.map_map]
      have : (DiskTrack.ch ∘ fun j => made debug rnd fm f T v blank ⟨j / v.sides, j % v.sides⟩) = fun j => (⟨j / v.sides, j % v.sides⟩ : Ch) := by
        funext j; exact made_ch ..
      rw [this]
      exact Scp.divmod_ordered' _ hS _
    rw [e, pushAll_at hord hh]
    constructor
    · rintro ⟨hx, hc⟩
      obtain ⟨j, hj, rfl⟩ := List.mem_map.1 hx
      rw [made_ch] at hc
      subst hc
      rw [List.mem_range] at hj
      exact ⟨⟨(Nat.div_lt_iff_lt_mul hS0).2 hj, Nat.mod_lt _ hS0⟩, rfl⟩
    · rintro ⟨⟨h1, h2⟩, rfl⟩
      refine ⟨List.mem_map.2 ⟨v.sides * ch.c + ch.h, ?_, ?_⟩, made_ch ..⟩
      · rw [List.mem_range]
        have : v.sides * (ch.c + 1) ≤ v.sides * v.cylinders := Nat.mul_le_mul_left _ h1
        rw [Nat.mul_comm v.cylinders]
        rw [Nat.mul_succ] at this
        omega
      · rw [Nat.mul_add_div hS0, Nat.div_eq_of_lt h2, Nat.mul_add_mod, Nat.mod_eq_of_lt h2]
        rfl
  rw [← hat]
  unfold Disk.track
  rw [if_neg (by omega)]
  unfold at?
  constructor
  · intro h; injection h
  · intro h; rw [h]

end Sauce
end Fox
