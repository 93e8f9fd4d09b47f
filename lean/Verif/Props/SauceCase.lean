import Verif.Proofs.SauceMore
import Verif.Props.Sauce
import Verif.Props.Hfe
/-
MOOF and WOZ images: what the loaders get wrong, sectors, and examples.
-/
namespace Fox
open Spec Flux
open SauceFile (Drive Tables)

/-- The cylinders of a side that have a track, in order. -/
def sauceTaken (T : Tables) (v : Drive) (h : Nat) : List Nat :=
  (List.range v.cylinders).filter fun c => SauceFile.entry T.map T.fluxMap (v.slot ⟨c, h⟩) ≠ .empty

theorem taken_eq {T : Tables} {v : Drive} {h : Nat} (hh : h < v.sides) (c : Nat) :
    Sauce.taken T v (v.sides * c + h) = decide (SauceFile.entry T.map T.fluxMap (v.slot ⟨c, h⟩) ≠ .empty) := by
  unfold Sauce.taken
  rw [Nat.mul_add_div (by omega), Nat.div_eq_of_lt hh, Nat.mul_add_mod, Nat.mod_eq_of_lt hh]
  rfl

/-- A well-formed MOOF or 3.5" WOZ without a FLUX chunk: on each side the tracks there are stand on the first cylinders, in their order,
each with its cells, whatever cylinders the map gives them. -/
theorem C104_gaps_partial (debug : Bool) (rnd : Nat → Bool) (fm : FmCodec) (f : List Byte) (cs : List SauceFile.Chunk) (v : Drive) (T : Tables)
    (k : Sauce.Kind) (h : (k = .moof ∧ SauceFile.Moof f cs v T) ∨ (k = .woz ∧ SauceFile.Woz f cs v T))
    (hq : v.quarter = false) (hx : T.fluxMap = none) :
    ∃ d w, Sauce.load k debug rnd fm {} f = .ok (d, w) ∧ ∀ s, s < v.sides →
      (∀ c, (sauceTaken T v s)[c]? = none → d.track ⟨c, s⟩ = .ok none) ∧
      ∀ c a e, (sauceTaken T v s)[c]? = some a → SauceFile.entry T.map T.fluxMap (v.slot ⟨a, s⟩) = .bits e →
        ∃ t, d.track ⟨c, s⟩ = .ok (some (.bit ⟨a, s⟩ t)) ∧ t.data.bits.bits = SauceFile.cells f T.table e := by
  obtain ⟨hS, w, hl⟩ := Sauce.load_gaps h debug rnd fm hq hx
  have hgood : ∀ ch, v.Place ch → T.Good f (v.slot ch) := by
    rcases h with ⟨_, h⟩ | ⟨_, h⟩ <;> exact h.tables.good
  refine ⟨_, w, hl, fun s hs => ?_⟩
  have hlist : ((List.range v.cylinders).filter fun a => Sauce.taken T v (v.sides * a + s)) = sauceTaken T v s := by
    unfold sauceTaken
    apply List.filter_congr
    intro c _
    exact taken_eq hs c
  refine ⟨fun c hc => ?_, fun c a e hc he => ?_⟩
  · rw [Sauce.gapped_at hS hs, hlist, hc]; rfl
  · have hm := List.mem_filter.1 (List.mem_of_getElem? hc)
    have hp : v.Place ⟨a, s⟩ := ⟨List.mem_range.1 hm.1, hs⟩
    obtain ⟨g1, g2, g3, g4⟩ := (hgood _ hp).bits e he
    obtain ⟨t, t1, t2, _⟩ := sauce_track (debug := debug) (rnd := rnd) (v := v) g2 g3 g4
    refine ⟨t, ?_, t2⟩
    rw [Sauce.gapped_at hS hs, hlist, hc, Option.map_some]
    unfold Sauce.made
    rw [he]
    simp only
    rw [t1]

theorem filter_first {p : Nat → Bool} {a b n : Nat} (ha : p a = false) (hb : p b = true) (hab : a < b) (hn : b < n)
    (hbefore : ∀ c < a, p c = true) : ∃ c, a < c ∧ ((List.range n).filter p)[a]? = some c ∧ p c = true := by
  have h1 : (List.range n).filter p = List.range a ++ ((List.range' a (n - a)).filter p) := by
    have : List.range n = List.range a ++ List.range' a (n - a) := by
      rw [List.range_eq_range', List.range_eq_range', show List.range' 0 n = List.range' 0 (a + (n - a)) by rw [show a + (n - a) = n by omega],
        ← List.range'_append_1, Nat.zero_add]
    rw [this, List.filter_append]
    congr 1
    rw [List.filter_eq_self]
    intro c hc
    exact hbefore c (List.mem_range.1 hc)
  have hmem : b ∈ (List.range' a (n - a)).filter p := List.mem_filter.2 ⟨List.mem_range'_1.2 ⟨by omega, by omega⟩, hb⟩
  cases hl : (List.range' a (n - a)).filter p with
  | nil => rw [hl] at hmem; cases hmem
  | cons c l =>
    have hc : c ∈ (List.range' a (n - a)).filter p := by rw [hl]; exact List.mem_cons_self
    obtain ⟨c1, c2⟩ := List.mem_filter.1 hc
    refine ⟨c, ?_, ?_, c2⟩
    · have := (List.mem_range'_1.1 c1).1
      rcases Nat.lt_or_eq_of_le this with h | h
      · exact h
      · rw [← h, ha] at c2; cases c2
    · rw [h1, hl, List.getElem?_append_right (by rw [List.length_range]), List.length_range, Nat.sub_self]
      rfl

/-- **C104 and C105 fail** for maps with gaps: if, without a FLUX chunk, a MOOF or a 3.5" WOZ has on any side a first cylinder `a` without a
track, and a later one with a track, then at cylinder `a` there is the track of a later cylinder. -/
theorem C104_false_hole (debug : Bool) (rnd : Nat → Bool) (fm : FmCodec) (f : List Byte) (cs : List SauceFile.Chunk) (v : Drive) (T : Tables)
    (k : Sauce.Kind) (h : (k = .moof ∧ SauceFile.Moof f cs v T) ∨ (k = .woz ∧ SauceFile.Woz f cs v T))
    (hq : v.quarter = false) (hx : T.fluxMap = none) (s a b : Nat) (hs : s < v.sides) (hab : a < b) (hb : b < v.cylinders)
    (ha : SauceFile.entry T.map T.fluxMap (v.slot ⟨a, s⟩) = .empty) (hbe : SauceFile.entry T.map T.fluxMap (v.slot ⟨b, s⟩) ≠ .empty)
    (hfirst : ∀ c < a, SauceFile.entry T.map T.fluxMap (v.slot ⟨c, s⟩) ≠ .empty) :
    ∃ d w, Sauce.load k debug rnd fm {} f = .ok (d, w) ∧ ¬ SauceTracks d f T v ∧
      ∃ c t, a < c ∧ d.track ⟨a, s⟩ = .ok (some (.bit ⟨c, s⟩ t)) := by
  obtain ⟨d, w, h1, h2⟩ := C104_gaps_partial debug rnd fm f cs v T k h hq hx
  obtain ⟨c, c1, c2, c3⟩ := filter_first (p := fun c => decide (SauceFile.entry T.map T.fluxMap (v.slot ⟨c, s⟩) ≠ .empty)) (n := v.cylinders)
    (by simpa using ha) (by simpa using hbe) hab hb (fun c hc => by simpa using hfirst c hc)
  have hbits : ∃ e, SauceFile.entry T.map T.fluxMap (v.slot ⟨c, s⟩) = .bits e := by
    have hne : SauceFile.entry T.map T.fluxMap (v.slot ⟨c, s⟩) ≠ .empty := by simpa using c3
    unfold SauceFile.entry at hne ⊢
    rw [hx] at hne ⊢
    split
    · exact ⟨_, rfl⟩
    · rename_i hh; rw [if_neg hh] at hne; exact absurd rfl hne
  obtain ⟨e, he⟩ := hbits
  obtain ⟨t, t1, _⟩ := (h2 s hs).2 a c e c2 he
  refine ⟨d, w, h1, ?_, c, t, c1, t1⟩
  intro hst
  obtain ⟨x, x1, x2, _⟩ := hst.empty ⟨a, s⟩ ⟨show a < v.cylinders by omega, hs⟩ ha
  rw [t1] at x1
  cases x1
  have : c = a := congrArg Ch.c x2
  omega

/-- C105 fails likewise. -/
theorem C105_false_hole (debug : Bool) (rnd : Nat → Bool) (fm : FmCodec) (f : List Byte) (cs : List SauceFile.Chunk) (v : Drive) (T : Tables)
    (h : SauceFile.Woz f cs v T) (hq : v.quarter = false) (hx : T.fluxMap = none) (s a b : Nat) (hs : s < v.sides) (hab : a < b)
    (hb : b < v.cylinders) (ha : SauceFile.entry T.map T.fluxMap (v.slot ⟨a, s⟩) = .empty)
    (hbe : SauceFile.entry T.map T.fluxMap (v.slot ⟨b, s⟩) ≠ .empty)
    (hfirst : ∀ c < a, SauceFile.entry T.map T.fluxMap (v.slot ⟨c, s⟩) ≠ .empty) :
    ∃ d w, Sauce.load .woz debug rnd fm {} f = .ok (d, w) ∧ ¬ SauceTracks d f T v ∧
      ∃ c t, a < c ∧ d.track ⟨a, s⟩ = .ok (some (.bit ⟨c, s⟩ t)) :=
  C104_false_hole debug rnd fm f cs v T .woz (Or.inr ⟨rfl, h⟩) hq hx s a b hs hab hb ha hbe hfirst

/-- **C107 (partial).** Loading never panics, whatever the bytes are, provided no track of the table that a flux map refers to has zero
blocks, and the FM codec copes with what is taken for FM.  Missing: these (`C107_false_blocks`). -/
theorem C107_no_panic_partial (k : Sauce.Kind) (debug : Bool) (rnd : Nat → Bool) (fm : FmCodec) (f : List Byte)
    (hz : ∀ o q s, (f.drop o).take 4 = SauceFile.trks → (f.drop q).take 4 = SauceFile.flux → s < 160 → ScpFile.byte f (q + 8 + s) < 160 →
      ScpFile.word f (o + 8 + 8 * ScpFile.byte f (q + 8 + s) + 2) ≠ 0)
    (hfm : ∀ ch ts, Flux.FmFine fm none none [Rev.ofDeltas ch ts (1 / 5)]) : Sauce.load k debug rnd fm {} f ≠ .error .panic := by
  unfold Sauce.load
  split
  · intro h; cases h
  split
  · intro h; cases h
  rcases Sauce.chunks_named (k := k) (f := f) (f.length + 1) (if 12 ≤ f.length then 12 else 0) {} ⟨fun x h => (by cases h), fun x h => (by cases h)⟩
    with ⟨P, h1, h2⟩ | h1
  · rw [h1]
    simp only
    have hzero : ∀ x, P.trks = some x → ∀ q, P.flux = some q → ∀ s < 160, u8At f (q + s) < 160 →
        (Sauce.trkAt f x (u8At f (q + s))).bytes ≠ 0 := by
      intro x hx q hq s hs hb
      obtain ⟨o, rfl, ho⟩ := h2.trks x hx
      obtain ⟨o', rfl, ho'⟩ := h2.flux q hq
      have := hz o o' s ho ho' hs hb
      unfold Sauce.trkAt
      show le16At f _ * 512 ≠ 0
      have e : le16At f (o + 8 + 8 * u8At f (o' + 8 + s) + 2) = ScpFile.word f (o + 8 + 8 * ScpFile.byte f (o' + 8 + s) + 2) := rfl
      omega
    unfold Sauce.build
    split
    · intro h; cases h
    rename_i i hi
    simp only
    generalize (if 0 < i.fluxBlock ∧ 0 < i.largestFlux then ({} : Disk).setMultires true else {}) = d
    split
    · split
      · intro h; cases h
      · rename_i heads enc hm
        have hm' : (heads = 1 ∨ heads = 2) ∧ (enc = .mfm ∨ enc = .gcr) := by
          unfold Sauce.moofDisk at hm
          split at hm
          · cases hm; exact ⟨Or.inl rfl, Or.inr rfl⟩
          split at hm
          · cases hm; exact ⟨Or.inr rfl, Or.inr rfl⟩
          split at hm
          · cases hm; exact ⟨Or.inr rfl, Or.inl rfl⟩
          split at hm
          · cases hm; exact ⟨Or.inr rfl, Or.inr rfl⟩
          · cases hm
        split
        · rename_i tmap trks ht hk
          obtain ⟨s1, s2, s3⟩ := Sauce.pairSlots_spec heads
          refine Sauce.finish_no_panic debug rnd fm hfm f _ 160 heads rfl hm'.2 (hzero trks hk) _ s1 ?_ _ _ _
          rcases hm'.1 with rfl | rfl
          · rw [s3]; decide
          · rw [Nat.max_eq_right (by decide)]; omega
        · intro h; cases h
    · split
      · rename_i tmap trks ht hk
        have big : ∀ n S, n ≤ 160 → n < 161 * max 1 S := by
          intro n S hn
          have := Nat.le_max_left 1 S
          omega
        split
        · obtain ⟨s1, s2, _⟩ := Sauce.pairSlots_spec i.sides
          exact Sauce.finish_no_panic debug rnd fm hfm f _ 161 i.sides rfl (Or.inr rfl) (hzero trks hk) _ s1 (big _ _ s2) _ _ _
        · refine Sauce.finish_no_panic debug rnd fm hfm f _ 161 i.sides rfl (Or.inr rfl) (hzero trks hk) _ ?_ ?_ _ _ _
          · split
            · intro s hs; exact List.mem_range.1 hs
            · intro s hs; cases hs
          · split
            · exact big _ _ (by rw [List.length_range])
            · exact big _ _ (Nat.zero_le _)
      · intro h; cases h
  · rw [h1]; intro h; cases h

/-- **C108 fails** for GCR, that is for every WOZ and for every MOOF but those of MFM disks: whatever the cells of a track are, reading
any sector is an error. -/
theorem C108_false_gcr (debug : Bool) (rnd : Nat → Bool) (fm : FmCodec) (f : List Byte) (cs : List SauceFile.Chunk) (v : Drive) (T : Tables)
    (k : Sauce.Kind) (h : (k = .moof ∧ SauceFile.Moof f cs v T) ∨ (k = .woz ∧ SauceFile.Woz f cs v T)) (hm : v.mfm = false)
    (hn : T.NoHoles v) (hfm : Sauce.FmFine fm f T v) :
    ∃ d w, Sauce.load k debug rnd fm {} f = .ok (d, w) ∧
      ∀ ch, v.Place ch → ∀ e, SauceFile.entry T.map T.fluxMap (v.slot ch) = .bits e → ∀ nz q n offset scope dbg,
        ∃ x, d.readSector nz ch q n offset scope dbg = .error x := by
  have key : ∀ blank, (v.sides = 1 ∨ v.sides = 2) →
      ∀ ch, v.Place ch → ∀ e, SauceFile.entry T.map T.fluxMap (v.slot ch) = .bits e → ∀ nz q n offset scope dbg,
        ∃ x, (Sauce.loaded debug rnd fm f T v blank).readSector nz ch q n offset scope dbg = .error x := by
    intro blank hS ch hp e he nz q n offset scope dbg
    have hlt := drive_sides hS hp
    have ht := (Sauce.loaded_at (debug := debug) (rnd := rnd) (fm := fm) (f := f) (T := T) (blank := blank) hS hlt
      (Sauce.made debug rnd fm f T v blank ch)).2 ⟨hp, rfl⟩
    unfold Disk.readSector
    cases hs : (Sauce.loaded debug rnd fm f T v blank).seek ch with
    | error x => exact ⟨x, rfl⟩
    | ok r =>
      obtain ⟨i, t⟩ := r
      simp only
      have : t = Sauce.made debug rnd fm f T v blank ch := by
        unfold Disk.seek at hs
        unfold Disk.track at ht
        rw [if_neg (by omega)] at ht
        rw [if_neg (by omega)] at hs
        cases hc : ((Sauce.loaded debug rnd fm f T v blank).headMap ch.h)[ch.c]? with
        | none => rw [hc] at ht; cases ht
        | some j =>
          rw [hc] at ht hs
          simp only [Option.bind_some] at ht hs
          injection ht with ht
          rw [ht] at hs
          cases hs
          rfl
      rw [this]
      unfold Sauce.made
      rw [he, hm]
      exact ⟨.schema, rfl⟩
  rcases h with ⟨rfl, h⟩ | ⟨rfl, h⟩
  · obtain ⟨i, i1, i2⟩ := Sauce.load_moof h debug rnd fm hfm hn
    obtain ⟨j, j1, j2, _⟩ := h.info
    exact ⟨_, _, i2, key _ (moof_sides j2)⟩
  · obtain ⟨i, i1, i2⟩ := Sauce.load_woz h debug rnd fm hfm hn
    obtain ⟨j, j1, j2, _⟩ := h.info
    exact ⟨_, _, i2, key _ (woz_sides j2)⟩

/-- The tracks of a disk all of whose places have a track of cells. -/
def sauceTracks (f : List Byte) (T : Tables) (v : Drive) : List CellTrack :=
  (List.range (v.cylinders * v.sides)).map fun j =>
    let ch : Ch := ⟨j / v.sides, j % v.sides⟩
    (ch, SauceFile.cells f T.table (ScpFile.byte T.map (v.slot ch)), solid (SauceFile.cells f T.table (ScpFile.byte T.map (v.slot ch))))

/-- **C108 (partial).** Sectors survive in MOOFs of MFM disks: take any PC sector image, use it in any way, and describe the cells of the
outcome in a MOOF.  The loaded file then answers every further history of sector reads and writes as the image itself would have.
Missing: GCR disks (`C108_false_gcr`). -/
theorem C108_sectors_partial (g : StdFormat) (hg : g.isPc = true) (file : List Byte) (hl : file.length = g.diskSize)
    (H : List Byte → Nat) (nz : Noise) (ops ops' : List SectorOp) (debug : Bool) (rnd : Nat → Bool) (fm : FmCodec) :
    ∃ d0, Raw.loadImage nz file = .ok d0 ∧ (NoCollision H d0 → ∃ d, Raw.load H nz file = .ok d ∧
      basicRun d ops = DiskMap.run (imgDisk g.layout file) ops ∧
      ∀ f cs v T, SauceFile.Moof f cs v T → v.mfm = true →
        (∀ ch, v.Place ch → ∃ e, SauceFile.entry T.map T.fluxMap (v.slot ch) = .bits e) → Describes (sauceTracks f T v) (afterOps d ops) →
        ∃ d' w, Sauce.load .moof debug rnd fm {} f = .ok (d', w) ∧
          basicRun d' ops' = DiskMap.run (mapAfter (imgDisk g.layout file) ops) ops') := by
  obtain ⟨d0, h1, hx⟩ := pc_used g hg file hl H nz ops
  refine ⟨d0, h1, fun hH => ?_⟩
  obtain ⟨d, k1, k2, k3, k4, k5, k6⟩ := hx hH
  refine ⟨d, k1, k2, ?_⟩
  intro f cs v T hf hm hb hD
  have hn : T.NoHoles v := Or.inr (Or.inr fun ch hp => by
    obtain ⟨e, he⟩ := hb ch hp
    rw [he]; intro h; cases h)
  obtain ⟨i, i1, i2⟩ := Sauce.load_moof hf debug rnd fm (by
    intro ch hp e he
    obtain ⟨e', he'⟩ := hb ch hp
    rw [he] at he'; cases he') hn
  refine ⟨_, _, i2, ?_⟩
  obtain ⟨j, j1, j2, _⟩ := hf.info
  have hS := moof_sides j2
  have hS0 : 0 < v.sides := by omega
  have place : ∀ a ∈ List.range (v.cylinders * v.sides), v.Place ⟨a / v.sides, a % v.sides⟩ := by
    intro a ha
    exact ⟨(Nat.div_lt_iff_lt_mul hS0).2 (List.mem_range.1 ha), Nat.mod_lt _ hS0⟩
  have hent : ∀ ch, v.Place ch → SauceFile.entry T.map T.fluxMap (v.slot ch) = .bits (ScpFile.byte T.map (v.slot ch)) := by
    intro ch hp
    obtain ⟨e, he⟩ := hb ch hp
    rw [he]
    unfold SauceFile.entry at he
    split at he
    · cases he; rfl
    · split at he
      · cases he
      · split at he <;> cases he
  let xs : List BitEntry := (List.range (v.cylinders * v.sides)).map fun a =>
    ⟨⟨a / v.sides, a % v.sides⟩, SauceFile.data f T.table (ScpFile.byte T.map (v.slot ⟨a / v.sides, a % v.sides⟩)),
      some (SauceFile.count T.table (ScpFile.byte T.map (v.slot ⟨a / v.sides, a % v.sides⟩)))⟩
  have hmade : ((List.range (v.cylinders * v.sides)).map fun a => Sauce.made debug rnd fm f T v 0 ⟨a / v.sides, a % v.sides⟩) =
      xs.map (·.made debug rnd false) := by
    rw [List.map_map]
    apply List.map_congr_left
    intro a ha
    simp only [Function.comp]
    unfold Sauce.made
    rw [hent _ (place a ha), hm]
    rfl
  have hcells : (xs.map fun x => (x.ch, cellsOf x.data x.cells, maskOf false (cellsOf x.data x.cells))) = sauceTracks f T v := by
    unfold sauceTracks
    rw [List.map_map]
    apply List.map_congr_left
    intro a ha
    simp only [Function.comp]
    obtain ⟨g1, g2, g3, g4⟩ := (hf.tables.good _ (place a ha)).bits _ (hent _ (place a ha))
    have hc : cellsOf (SauceFile.data f T.table (ScpFile.byte T.map (v.slot ⟨a / v.sides, a % v.sides⟩)))
        (some (SauceFile.count T.table (ScpFile.byte T.map (v.slot ⟨a / v.sides, a % v.sides⟩)))) =
        SauceFile.cells f T.table (ScpFile.byte T.map (v.slot ⟨a / v.sides, a % v.sides⟩)) := by
      unfold cellsOf; simp only; rw [if_neg (sauce_data_ne g2 g3), sauce_cells g3 g4]
    rw [hc]
    rfl
  have hord : OrderedChs (xs.map BitEntry.ch) := by
    rw [List.map_map]
    exact Scp.divmod_ordered' _ hS _
  have hgood : ∀ x ∈ xs, x.Good debug := by
    intro x hx
    obtain ⟨a, ha, rfl⟩ := List.mem_map.1 hx
    refine ⟨?_, fun h => by cases h⟩
    show a % v.sides < 2
    rcases hS with e | e <;> rw [e] <;> omega
  rw [← hcells] at hD
  have hrel := bits_rel' (rnd := rnd) (detect := false) k3 k4 hord hgood hD (by
    intro x _ b hb
    exact List.eq_of_mem_replicate hb)
  obtain ⟨p1, p2, p3⟩ := Sauce.pushAny_same (xs.map (·.made debug rnd false)) (if T.announced then ({} : Disk).setMultires true else {}) {}
    (by split <;> rfl) (by split <;> rfl) (by split <;> rfl)
  have hrel' : DiskRel true (Sauce.loaded debug rnd fm f T v 0) (mapAfter (imgDisk g.layout file) ops) := by
    unfold Sauce.loaded
    rw [hmade]
    have hmap : ∀ h, (Sauce.pushAny (if T.announced then ({} : Disk).setMultires true else {}) (xs.map (·.made debug rnd false))).headMap h =
        (pushAll {} (xs.map (·.made debug rnd false))).headMap h := by
      intro h; unfold Disk.headMap; rw [p2, p3]
    refine ⟨hrel.bad, ?_, ?_, ?_⟩
    · intro ch hh hg
      exact hrel.gone ch hh ((congrArg (fun l => l[ch.c]?) (hmap ch.h)).symm.trans hg)
    · intro ch i hh hg
      obtain ⟨t, m, r1, r2⟩ := hrel.held ch i hh ((congrArg (fun l => l[ch.c]?) (hmap ch.h)).symm.trans hg)
      exact ⟨t, m, by rw [← p1] at r1; exact r1, r2⟩
    · intro a b i ha hb h1 h2
      exact hrel.apart a b i ha hb ((congrArg (fun l => l[a.c]?) (hmap a.h)).symm.trans h1)
        ((congrArg (fun l => l[b.c]?) (hmap b.h)).symm.trans h2)
  exact hrel'.run ops'

/-! Examples. -/

/-- A file of chunks, with its CRC. -/
def sauceFile (magic check : List Byte) (cs : List SauceFile.Chunk) : List Byte :=
  magic ++ (check ++ (SauceFile.four (Ipf.crc (cs.flatMap SauceFile.Chunk.bytes)).toNat ++ cs.flatMap SauceFile.Chunk.bytes))

theorem sauceFile_consists {magic check : List Byte} (hm : magic.length = 4) (hk : check.length = 4) {cs : List SauceFile.Chunk}
    (hc : ∀ c ∈ cs, c.id.length = 4 ∧ c.data.length < 2 ^ 32) : SauceFile.Consists magic (sauceFile magic check cs) cs := by
  have hdrop : (sauceFile magic check cs).drop 12 = cs.flatMap SauceFile.Chunk.bytes := by
    unfold sauceFile
    rw [← List.append_assoc, ← List.append_assoc]
    exact List.drop_left' (by rw [List.length_append, List.length_append, Sauce.four_length]; omega)
  have hd8 : (sauceFile magic check cs).drop 8 = SauceFile.four (Ipf.crc (cs.flatMap SauceFile.Chunk.bytes)).toNat ++ cs.flatMap SauceFile.Chunk.bytes := by
    unfold sauceFile
    rw [← List.append_assoc]
    exact List.drop_left' (by rw [List.length_append]; omega)
  refine ⟨?_, ?_, ?_, hdrop, hc⟩
  · unfold sauceFile
    simp only [List.length_append, Sauce.four_length]
    omega
  · unfold sauceFile
    exact List.take_left' hm
  · rw [hdrop, C97_is_crc32]
    have : ScpFile.dword (sauceFile magic check cs) 8 = (Ipf.crc (cs.flatMap SauceFile.Chunk.bytes)).toNat := by
      have h1 := Sauce.dword_of_drop (i := 0) hd8 (by rw [Sauce.four_length]; decide)
      rw [Sauce.four_value (BitVec.isLt _)] at h1
      exact Eq.trans (by rfl) h1
    rw [this, BitVec.ofNat_toNat, BitVec.setWidth_eq]

end Fox
