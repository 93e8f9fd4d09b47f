import Verif.Props.Adf
import Verif.Spec.Disk
/-
C44: what a disk says about its own format.  C45: post-processing drops no data.
More on C16 (what is saved) and C37 (basic reads are checked).
-/
namespace Fox
open Fox.Spec Fox.S34

/-! ## C44 -/

theorem mem_trackIdx (d : Disk) (i : Nat) : i ∈ d.trackIdx ↔ i ∈ d.map0 ++ d.map1 := by
  unfold Disk.trackIdx
  rw [List.mem_flatMap]
  simp only [List.mem_append, Option.mem_toList, List.mem_range]
  constructor
  · rintro ⟨c, _, h | h⟩
    · exact Or.inl (List.mem_of_getElem? h)
    · exact Or.inr (List.mem_of_getElem? h)
  · rintro (h | h)
    · obtain ⟨c, hc, rfl⟩ := List.getElem_of_mem h
      exact ⟨c, by omega, Or.inl (List.getElem?_eq_getElem hc)⟩
    · obtain ⟨c, hc, rfl⟩ := List.getElem_of_mem h
      exact ⟨c, by omega, Or.inr (List.getElem?_eq_getElem hc)⟩

theorem mem_sptList (d : Disk) (n : Nat) :
    n ∈ d.sptList ↔ 0 < n ∧ ∃ t, Listed d t ∧ t.analysisCt = some n := by
  unfold Disk.sptList
  rw [List.mem_filterMap]
  constructor
  · rintro ⟨i, hi, h⟩
    cases hp : d.pool[i]? with
    | none => rw [hp] at h; cases h
    | some t =>
      rw [hp] at h
      simp only at h
      cases ha : t.analysisCt with
      | none => rw [ha] at h; cases h
      | some m =>
        rw [ha] at h
        simp only at h
        split at h
        · cases h
          exact ⟨by assumption, t, ⟨i, (mem_trackIdx d i).1 hi, hp⟩, ha⟩
        · cases h
  · rintro ⟨hn, t, ⟨i, hi, hp⟩, ha⟩
    refine ⟨i, (mem_trackIdx d i).2 hi, ?_⟩
    simp only [hp, ha, gt_iff_lt, if_pos hn]

theorem analyze_counts (d : Disk) : CountsAs d d.analyze.spt := by
  unfold Disk.analyze
  cases hl : d.sptList with
  | nil =>
    intro t n ht hn
    refine Classical.byContradiction fun hne => ?_
    have := (mem_sptList d n).2 ⟨by omega, t, ht, hn⟩
    rw [hl] at this
    cases this
  | cons n rest =>
    obtain ⟨hn, t, ht, hc⟩ := (mem_sptList d n).1 (by rw [hl]; simp)
    simp only
    by_cases hall : rest.all (· == n) = true
    · rw [if_pos hall]
      obtain ⟨k, rfl⟩ : ∃ k, n = k + 1 := ⟨n - 1, by omega⟩
      refine ⟨⟨t, ht, hc⟩, ?_⟩
      intro t' m ht' hm
      refine Classical.byContradiction fun hne => ?_
      have hmem := (mem_sptList d m).2 ⟨by omega, t', ht', hm⟩
      rw [hl] at hmem
      rcases List.mem_cons.1 hmem with h | h
      · omega
      · have := List.all_eq_true.1 hall m h
        rw [beq_iff_eq] at this
        omega
    · rw [if_neg hall]
      rw [List.all_eq_true] at hall
      have : ∃ m ∈ rest, m ≠ n := by
        refine Classical.byContradiction fun hno => hall fun m hm => ?_
        rw [beq_iff_eq]
        exact Classical.byContradiction fun hne => hno ⟨m, hm, hne⟩
      obtain ⟨m, hm, hne⟩ := this
      obtain ⟨hm0, t', ht', hc'⟩ := (mem_sptList d m).1 (by rw [hl]; simp [hm])
      exact ⟨t', t, m, n, ht', ht, hc', hc, hm0, hn, hne⟩

/-- The analysis reads only tables and tracks. -/
theorem counts_congr {d d' : Disk} (h0 : d'.map0 = d.map0) (h1 : d'.map1 = d.map1) (hp : d'.pool = d.pool)
    {spt : Option Nat} (h : CountsAs d spt) : CountsAs d' spt := by
  have hl : ∀ t, Listed d' t ↔ Listed d t := by intro t; unfold Listed; rw [h0, h1, hp]
  unfold CountsAs at *
  simp only [hl]
  exact h

/-- **C44.** After formatting a track, on any disk, the disk's own sectors-per-track figure is right: the common
number of the tracks that have sectors, none if two differ. -/
theorem C44_after_format (d d' : Disk) (nz : Noise) (ch : Ch) (ids : List Chsn) (pat : List Byte) (gap3 : Nat)
    (h : d.formatTrack nz ch ids pat gap3 = (d', .ok ())) : CountsAs d' d'.spt := by
  unfold Disk.formatTrack at h
  split at h
  · cases h
  · split at h
    · cases h
    · cases h
      exact analyze_counts _

theorem finish_keeps (d : Disk) : ∃ s, Disk.examineBoot.finish d = { d with standardFormat := s } ∧
    (∀ f, d.standardFormat = some f → s = some f) ∧
    (d.standardFormat = none → s = d.boot.bind (·.standardFormat)) := by
  rcases d with ⟨mr, r, p, m0, m1, g, sp, b, sf⟩
  unfold Disk.examineBoot.finish
  simp only
  cases hb : b.bind (·.standardFormat) with
  | none =>
    refine ⟨sf, ?_, fun f hf => hf, fun h => h⟩
    cases sf <;> rfl
  | some f =>
    cases sf with
    | none => exact ⟨some f, rfl, fun _ h => (by cases h), fun _ => rfl⟩
    | some g => exact ⟨some g, rfl, fun _ h => h, fun h => by cases h⟩

/-- **C44.** After loading, on whatever disk the parser produced, the sectors-per-track figure is right, a
format known from the file is kept, and an unknown one is that of the boot sector found. -/
theorem C44_after_load (d d' : Disk) (H : List Byte → Nat) (nz : Noise) (h : d.postLoad H nz = .ok d') :
    CountsAs d' d'.spt ∧ (∀ f, d.standardFormat = some f → d'.standardFormat = some f) ∧
    (d.standardFormat = none → d'.standardFormat = d'.boot.bind (·.standardFormat)) := by
  have hn : (d.normalize H nz).standardFormat = d.standardFormat := by
    unfold Disk.normalize
    simp only
    split
    · rfl
    · split <;> rfl
  unfold Disk.postLoad at h
  generalize d.normalize H nz = N at h hn
  have key : ∀ x : Disk, x.map0 = N.map0 → x.map1 = N.map1 → x.pool = N.pool → x.spt = N.analyze.spt →
      x.standardFormat = d.standardFormat → d' = Disk.examineBoot.finish x →
      CountsAs d' d'.spt ∧ (∀ f, d.standardFormat = some f → d'.standardFormat = some f) ∧
      (d.standardFormat = none → d'.standardFormat = d'.boot.bind (·.standardFormat)) := by
    intro x h0 h1 h2 h3 h4 h5
    obtain ⟨s, e1, e2, e3⟩ := finish_keeps x
    rw [e1] at h5
    subst h5
    refine ⟨?_, ?_, ?_⟩
    · show CountsAs _ x.spt
      rw [h3]
      exact counts_congr h0 h1 h2 (analyze_counts _)
    · intro f hf; exact e2 f (by rw [h4]; exact hf)
    · intro hf; exact e3 (by rw [h4]; exact hf)
  have ha : N.analyze.map0 = N.map0 ∧ N.analyze.map1 = N.map1 ∧ N.analyze.pool = N.pool ∧
      N.analyze.standardFormat = N.standardFormat := ⟨rfl, rfl, rfl, rfl⟩
  obtain ⟨a0, a1, a2, a3⟩ := ha
  have hspt : ∃ A, A = N.analyze := ⟨_, rfl⟩
  obtain ⟨A, hA⟩ := hspt
  rw [← hA] at h key a0 a1 a2 a3
  unfold Disk.examineBoot at h
  split at h
  · cases h
  · exact key A a0 a1 a2 rfl (a3.trans hn) (Except.ok.inj h).symm
  · split at h
    · exact key A a0 a1 a2 rfl (a3.trans hn) (Except.ok.inj h).symm
    · rename_i b _
      exact key { A with boot := some b } a0 a1 a2 rfl (a3.trans hn) (Except.ok.inj h).symm

/-- **C44.** The guessed format: of the one the boot sector names and the one the geometry gives, the one there
is; if there are two different ones, the boot sector's if the caller trusts it, else the geometry's. -/
theorem C44_closest_format (d : Disk) (trust : Bool) :
    let boot := d.boot.bind (·.standardFormat)
    let geo := d.spt.bind (geometryFormat d)
    d.closestFormat trust = match boot, geo with
      | none, none => none
      | some b, none => some b
      | none, some g => some g
      | some b, some g => if trust then some b else some g := by
  intro boot geo
  have hgeo : (d.spt.bind fun spt => (StdFormat.normalizedTrackCt d.map0.length).bind fun c =>
      StdFormat.ofChs ⟨c, d.geometry.h, spt % 256⟩) = geo := by
    show _ = d.spt.bind (geometryFormat d)
    congr 1
    funext spt
    unfold geometryFormat
    cases StdFormat.normalizedTrackCt d.map0.length <;> rfl
  unfold Disk.closestFormat
  simp only [hgeo]
  change (if ((boot.isSome || geo.isSome) && boot != geo) = true then
      (if (trust && boot.isSome) = true then boot else if geo.isSome = true then geo else boot.or geo)
      else boot.or geo) = _
  clear hgeo
  clear_value boot geo
  cases boot with
  | none => cases geo <;> simp
  | some b =>
    cases geo with
    | none => cases trust <;> simp
    | some g =>
      by_cases hbg : b = g
      · subst hbg; cases trust <;> simp
      · cases trust <;> simp [hbg]

/-! ## C45 -/

theorem countPairs (p : Nat × Nat → Bool) (l : List (Nat × Nat)) (x : Nat × Nat) (hx : x ∈ l) (hp : p x = false) :
    (l.filter p).length < l.length := by
  rw [List.length_filter_lt_length_iff_exists]
  exact ⟨x, hx, by rw [hp]; simp⟩

theorem pairs_get : ∀ (l : List Nat) (i a b : Nat), l[2 * i]? = some a → l[2 * i + 1]? = some b →
    (a, b) ∈ Disk.pairs l
  | [], i, a, b, h, _ => by simp at h
  | [x], i, a, b, h, h' => by simp at h'
  | x :: y :: l, 0, a, b, h, h' => by
    simp at h h'
    rw [Disk.pairs, h, h']; simp
  | x :: y :: l, i + 1, a, b, h, h' => by
    rw [Disk.pairs]
    refine List.mem_cons_of_mem _ (pairs_get l i a b ?_ ?_)
    · rw [show 2 * (i + 1) = 2 * i + 1 + 1 by omega, List.getElem?_cons_succ, List.getElem?_cons_succ] at h; exact h
    · rw [show 2 * (i + 1) + 1 = 2 * i + 1 + 1 + 1 by omega, List.getElem?_cons_succ, List.getElem?_cons_succ] at h'
      exact h'

theorem trackIdx_length (d : Disk) (n : Nat) (h0 : d.map0.length = n) (h1 : d.map1.length = 0 ∨ d.map1.length = n) :
    d.trackIdx.length = n + d.map1.length := by
  unfold Disk.trackIdx
  have key : ∀ (a b : List Nat) (k : Nat), k ≤ a.length → (b.length = 0 ∨ b.length = a.length) →
      ((List.range k).flatMap fun c => a[c]?.toList ++ b[c]?.toList).length = k + (if b.length = 0 then 0 else k) := by
    intro a b k hk hb
    induction k with
    | zero => simp
    | succ k ih =>
      rw [List.range_succ, List.flatMap_append, List.length_append, ih (by omega)]
      simp only [List.flatMap_cons, List.flatMap_nil, List.append_nil, List.length_append]
      rw [List.getElem?_eq_getElem (show k < a.length by omega)]
      rcases hb with hb | hb
      · rw [List.getElem?_eq_none (by omega)]
        simp [hb]
      · by_cases hz : b.length = 0
        · omega
        · rw [List.getElem?_eq_getElem (show k < b.length by omega), if_neg hz, if_neg hz]
          simp; omega
  have hmax : max d.map0.length d.map1.length = n := by omega
  rw [hmax, key d.map0 d.map1 n (by omega) (by omega)]
  split <;> omega

/-- **C45 (partial).** Post-processing leaves a disk of 80 cylinders (one or two sides) alone as soon as one odd
cylinder of the first side has sectors and does not hash like the even cylinder before it.  Missing: disks
whose other odd cylinders — or second side — carry data while this test fails (`C45_false_second_side`). -/
theorem C45_eighty_partial (H : List Byte → Nat) (nz : Noise) (d : Disk) (h0 : d.map0.length = 80)
    (h1 : d.map1.length = 0 ∨ d.map1.length = 80) (i a b : Nat) (ta tb : DiskTrack)
    (ha : d.map0[2 * i]? = some a) (hb : d.map0[2 * i + 1]? = some b)
    (hta : d.pool[a]? = some ta) (htb : d.pool[b]? = some tb)
    (hfull : 0 < tb.sectorCt) (hdiff : ta.hash H nz ≠ tb.hash H nz) : d.normalize H nz = d := by
  have hmem := pairs_get d.map0 i a b ha hb
  have hp : (Disk.pairs d.map0).length = 40 := by rw [pairs_length, h0]
  have hlen := trackIdx_length d 80 h0 h1
  have hn : Disk.normCyl d.trackIdx.length / 2 = 40 := by
    rcases h1 with h1 | h1 <;> rw [hlen, h1] <;> decide
  have he : d.emptyOdd 0 < 40 := by
    rw [← hp]
    exact countPairs _ _ _ hmem (by simp only [hta, htb]; simp; omega)
  have hdup : d.duplicateOdd H nz 0 < 40 := by
    rw [← hp]
    exact countPairs _ _ _ hmem (by simp only [hta, htb]; simp [hdiff])
  unfold Disk.normalize
  simp only
  rw [if_neg (by rw [hn]; omega), if_neg (by
    rw [h0, show Disk.normCyl 80 / 2 = 40 by decide]; omega)]

/-- **C45 (partial).** Post-processing leaves a disk of 80 cylinders alone if one even cylinder of the first side
has no sectors — in particular a wholly unformatted disk. -/
theorem C45_empty_even_partial (H : List Byte → Nat) (nz : Noise) (d : Disk) (h0 : d.map0.length = 80)
    (h1 : d.map1.length = 0 ∨ d.map1.length = 80) (i a b : Nat) (ta : DiskTrack)
    (ha : d.map0[2 * i]? = some a) (hb : d.map0[2 * i + 1]? = some b)
    (hta : d.pool[a]? = some ta) (hempty : ta.sectorCt = 0) : d.normalize H nz = d := by
  have hmem := pairs_get d.map0 i a b ha hb
  have hp : (Disk.pairs d.map0).length = 40 := by rw [pairs_length, h0]
  have hlen := trackIdx_length d 80 h0 h1
  have hn : Disk.normCyl d.trackIdx.length / 2 = 40 := by
    rcases h1 with h1 | h1 <;> rw [hlen, h1] <;> decide
  have he : d.emptyOdd 0 < 40 := by
    rw [← hp]
    refine countPairs _ _ _ hmem ?_
    cases d.pool[b]? <;> simp [hta, hempty]
  have hdup : d.duplicateOdd H nz 0 < 40 := by
    rw [← hp]
    refine countPairs _ _ _ hmem ?_
    cases d.pool[b]? <;> simp [hta, hempty]
  unfold Disk.normalize
  simp only
  rw [if_neg (by rw [hn]; omega), if_neg (by
    rw [h0, show Disk.normCyl 80 / 2 = 40 by decide]; omega)]

/-- **C45 (partial).** Post-processing leaves every disk of at most 40 cylinders alone. -/
theorem C45_forty_partial (H : List Byte → Nat) (nz : Noise) (d : Disk) (h0 : d.map0.length ≤ 40)
    (h1 : d.map1.length = 0 ∨ d.map1.length = d.map0.length) : d.normalize H nz = d := by
  have hlen := trackIdx_length d d.map0.length rfl h1
  have hp : d.emptyOdd 0 ≤ d.map0.length / 2 := by
    rw [← pairs_length]
    exact List.length_filter_le _ _
  have hsmall : d.trackIdx.length > 50 → d.emptyOdd 0 ≥ Disk.normCyl d.trackIdx.length / 2 →
      d.emptyOdd 0 = 20 ∧ d.trackIdx.length < 80 := by
    intro hgt hge
    have hle : d.trackIdx.length ≤ 80 := by rw [hlen]; omega
    unfold Disk.normCyl at hge
    split at hge
    · omega
    · split at hge <;> omega
  unfold Disk.normalize
  simp only
  rw [if_neg (by
    rintro ⟨a, b⟩
    obtain ⟨c1, c2⟩ := hsmall a b
    have hle : d.trackIdx.length ≤ 2 * d.map0.length := by rw [hlen]; omega
    have : d.map0.length = 40 := by omega
    rw [hlen] at c2
    rcases h1 with h1 | h1
    · rw [hlen, h1] at a; omega
    · omega), if_neg (by omega)]

/-- A single-sided list of sector tracks: track `c` has one sector, unless `c` is odd. -/
def sidedTrack (c h : Nat) : DiskTrack := .sect (⟨⟨c, h⟩,
  if c % 2 = 1 ∧ h = 0 then [] else [MetaTrack.newSector { id := ⟨c, h, 1, 0⟩, data := List.replicate 128 (BitVec.ofNat 8 c) }]⟩)

/-- Two sides of 80 cylinders: the odd cylinders of side 0 are empty, everything else has a sector. -/
def halfEmpty : Disk where
  res := ResSet.insert {} .metaSector
  pool := (List.range 160).map fun j => sidedTrack (j / 2) (j % 2)
  map0 := (List.range 80).map fun c => 2 * c
  map1 := (List.range 80).map fun c => 2 * c + 1
  geometry := ⟨80, 2⟩

theorem sided_holds (c h : Nat) (hh : ¬ (c % 2 = 1 ∧ h = 0)) :
    Holds (sidedTrack c h) [(⟨c, h, 1, 0⟩, List.replicate 128 (BitVec.ofNat 8 c))] := by
  unfold sidedTrack
  rw [if_neg hh]
  refine Holds.sect (t := ⟨⟨c, h⟩, [MetaTrack.newSector { id := ⟨c, h, 1, 0⟩, data := List.replicate 128 (BitVec.ofNat 8 c) }]⟩)
    (newSector_sound _ _ _ (by rw [List.length_replicate]; show 128 = nSize 0; decide)) ?_
  intro s hs
  rw [List.mem_singleton.1 hs]
  exact ⟨rfl, rfl, rfl⟩

theorem readBasic_at (d : Disk) (nz : Noise) (ch : Ch) (i : Nat) (t : DiskTrack) (c : Ch) (m : SectorMap)
    (hh : ch.h < 2) (hi : (d.headMap ch.h)[ch.c]? = some i) (hp : d.pool[i]? = some (t.setCh c)) (hm : Holds t m)
    (q : Query) : d.readBasic nz ch q none = match m.lookup q with
      | none => .error .idError
      | some l => .ok l := by
  have hs : d.seek ch = .ok (i, t.setCh c) := by
    unfold Disk.seek
    rw [if_neg (by omega), hi]
    simp only [hp]
  unfold Disk.readBasic
  obtain ⟨r, g1, g2, g3⟩ := hm.read nz q q.n (Or.inr rfl) false
  simp only [hs, (setCh_keeps t c).2, g1, g2]
  cases hl : m.lookup q with
  | none => simp
  | some l =>
    obtain ⟨k1, k2, k3, k4, _⟩ := g3 l hl
    simp only [k1, k2, k4, Option.isNone_some, Bool.or_self, Bool.false_eq_true, if_false]
    rw [if_neg (by omega)]

set_option maxRecDepth 20000 in
/-- **C45 is false of the code.** Only the first side is looked at: on a two-sided disk whose odd cylinders are
empty on side 0 but hold a sector on side 1, post-processing throws the sectors of side 1 away — cylinder 1,
head 1 afterwards answers with cylinder 2's sector. -/
theorem C45_false_second_side (H : List Byte → Nat) (nz : Noise) :
    halfEmpty.readBasic nz ⟨1, 1⟩ (.ofChsn ⟨1, 1, 1, 0⟩) none = .ok (List.replicate 128 1#8) ∧
    (halfEmpty.normalize H nz).readBasic nz ⟨1, 1⟩ (.ofChsn ⟨1, 1, 1, 0⟩) none = .error .idError ∧
    (halfEmpty.normalize H nz).readBasic nz ⟨1, 1⟩ (.ofChsn ⟨2, 1, 1, 0⟩) none = .ok (List.replicate 128 2#8) := by
  have hcond : halfEmpty.trackIdx.length > 50 ∧ halfEmpty.emptyOdd 0 ≥ Disk.normCyl halfEmpty.trackIdx.length / 2 := by
    decide +kernel
  have hn : halfEmpty.normalize H nz = { halfEmpty.removeOdd with geometry := ⟨halfEmpty.removeOdd.map0.length % 65536,
      halfEmpty.removeOdd.geometry.h⟩ }.remap := by
    unfold Disk.normalize
    simp only
    rw [if_pos hcond]
  have hpool : ∀ (i : Nat) (t : DiskTrack), halfEmpty.pool[i]? = some t →
      ∃ ch, (halved halfEmpty).pool[i]? = some (t.setCh ch) := by
    intro i t hi
    show ∃ ch, (Disk.remapHead 0 (Disk.evens halfEmpty.map1) (Disk.remapHead 0 (Disk.evens halfEmpty.map0) halfEmpty.pool))[i]? = _
    obtain ⟨c1, e1⟩ := remapHead_spec (Disk.evens halfEmpty.map0) 0 halfEmpty.pool i t hi
    obtain ⟨c2, e2⟩ := remapHead_spec (Disk.evens halfEmpty.map1) 0 _ i _ e1
    exact ⟨c2, by rw [e2]; cases t <;> rfl⟩
  have hn : halfEmpty.normalize H nz = halved halfEmpty := hn
  rw [hn]
  refine ⟨?_, ?_, ?_⟩
  · rw [readBasic_at halfEmpty nz ⟨1, 1⟩ 3 (sidedTrack 1 1) ⟨1, 1⟩ _ (by decide) rfl rfl (sided_holds 1 1 (by decide))]
    rfl
  · obtain ⟨ch, hch⟩ := hpool 5 (sidedTrack 2 1) rfl
    rw [readBasic_at _ nz ⟨1, 1⟩ 5 (sidedTrack 2 1) ch _ (by decide) rfl hch (sided_holds 2 1 (by decide))]
    rfl
  · obtain ⟨ch, hch⟩ := hpool 5 (sidedTrack 2 1) rfl
    rw [readBasic_at _ nz ⟨1, 1⟩ 5 (sidedTrack 2 1) ch _ (by decide) rfl hch (sided_holds 2 1 (by decide))]
    rfl

/-! ## More on C37: basic reads are checked -/

/-- **C37.** A basic read succeeds only if the full read of the same sector found it, with a good header and
data, and then returns that read's bytes. -/
theorem C37_basic_read_checked (d : Disk) (nz : Noise) (ch : Ch) (q : Query) (off : Option Nat) (buf : List Byte)
    (h : d.readBasic nz ch q off = .ok buf) :
    ∃ r, d.readSector nz ch q q.n off .dataOnly false = .ok r ∧ r.notFound = false ∧
      r.addressCrcError = false ∧ r.noDam = false ∧ buf = r.bytes := by
  unfold Disk.readBasic at h
  unfold Disk.readSector
  cases hs : d.seek ch with
  | error e => rw [hs] at h; cases h
  | ok p =>
    obtain ⟨i, t⟩ := p
    rw [hs] at h
    simp only at h ⊢
    cases hr : t.readSector nz q q.n off .dataOnly false with
    | error e => rw [hr] at h; cases h
    | ok r =>
      rw [hr] at h
      simp only at h
      split at h
      · cases h
      · rename_i hf
        split at h
        · cases h
        · cases h
          simp only [Bool.or_eq_true, not_or, Bool.not_eq_true] at hf
          exact ⟨r, rfl, hf.1.1, hf.1.2, hf.2, rfl⟩

/-- **C37.** The bytes of a sector stored with a bad header are never handed out by a basic read, on any disk
holding it on a sector-list track. -/
theorem C37_bad_header_refused (d : Disk) (nz : Noise) (ch : Ch) (i : Nat) (t : MetaTrack) (q : Query)
    (s : MetaSector) (rest : List MetaSector) (hs : d.seek ch = .ok (i, .sect t)) (hm : t.matching q = s :: rest)
    (hbad : s.addressError = true) (buf : List Byte) (off : Option Nat) : d.readBasic nz ch q off ≠ .ok buf := by
  intro h
  obtain ⟨r, h1, _, h3, _⟩ := C37_basic_read_checked d nz ch q off buf h
  unfold Disk.readSector at h1
  rw [hs] at h1
  simp only [DiskTrack.readSector, MetaTrack.readSector, hm] at h1
  split at h1
  · cases h1
  · cases h1
    simp only [hbad] at h3
    cases h3

/-! ## More on C16: what is saved -/

/-- `buf` cut or padded with zeros to `n` bytes. -/
def padTo (n : Nat) (buf : List Byte) : List Byte := (buf ++ List.replicate n 0).take n

theorem fit_eq (n : Nat) (l : List Byte) : Raw.fit n l = padTo n l := by
  unfold Raw.fit padTo
  rw [List.take_append]
  congr 1
  rw [List.take_replicate]
  congr 1
  omega

theorem saveLoop_slices (nz : Noise) (n : Nat) (d : Disk) : ∀ (xs : List Chs) (out : List Byte),
    Raw.saveLoop nz n d xs = .ok out → ∀ k (hk : k < xs.length),
      ∃ buf, d.readBasic nz ⟨xs[k].c, xs[k].h⟩ (.ofChsn ⟨xs[k].c, xs[k].h, xs[k].s, n⟩) none = .ok buf ∧
        slice out (k * nSize n) (nSize n) = padTo (nSize n) buf
  | [], _, _, k, hk => by simp at hk
  | x :: xs, out, h, k, hk => by
    unfold Raw.saveLoop at h
    split at h
    · cases h
    · cases h
    · rename_i buf hb
      split at h
      · cases h
      · rename_i out' ho
        cases h
        cases k with
        | zero =>
          refine ⟨buf, hb, ?_⟩
          rw [← fit_eq]
          unfold slice
          rw [Nat.zero_mul, List.drop_zero, List.take_append_of_le_length (by rw [fit_length]),
            List.take_of_length_le (by rw [fit_length])]
        | succ k =>
          obtain ⟨b, b1, b2⟩ := saveLoop_slices nz n d xs out' ho k (by simpa using hk)
          refine ⟨b, b1, ?_⟩
          rw [← b2]
          unfold slice
          congr 1
          rw [List.drop_append, List.drop_eq_nil_of_le (by
            rw [fit_length, Nat.succ_mul]; omega), fit_length, List.nil_append, Nat.succ_mul]
          congr 1
          omega

/-- **C16.** Whatever the disk, what a save writes is the sectors of the chosen format in order: at the place of
sector `x` stands what a basic read of `x` returns, cut or padded with zeros to 512 bytes. -/
theorem C16_saved_sectors (nz : Noise) (d : Disk) (g : StdFormat) (hc : d.closestFormat true = some g)
    (out : List Byte) (h : Raw.save nz d = .ok out) (x : Chs) (hx : InLayout g.layout x) :
    out.length = g.diskSize ∧ ∃ buf, d.readBasic nz ⟨x.c, x.h⟩ (.ofChsn ⟨x.c, x.h, x.s, 2⟩) none = .ok buf ∧
      fileSector out 512 (lbaOf g.layout x) = padTo 512 buf := by
  refine ⟨save_length nz d g hc out h, ?_⟩
  obtain ⟨xs, i1, i2, i3, i4⟩ := C13_chs_iter g.layout (by cases g <;> decide) (by cases g <;> decide)
  have i1 : g.layout.iterTake (g.layout.totalSectors + 1) none = .ok (xs, true) := i1
  unfold Raw.save at h
  rw [hc] at h
  simp only [i1] at h
  have hlt : lbaOf g.layout x < xs.length := by
    rw [i2]; exact lbaOf_lt hx
  obtain ⟨buf, b1, b2⟩ := saveLoop_slices nz _ d xs out h (lbaOf g.layout x) hlt
  have he : xs[lbaOf g.layout x] = x := by
    apply lbaOf_inj (i3 _ hlt).1 hx
    rw [← toLba_eq]
    exact (i3 _ hlt).2
  rw [he, layout_n] at b1
  rw [layout_nSize, (C31_sizes g g).2.2.2] at b2
  exact ⟨buf, b1, b2⟩

/-! ### The hypotheses can be met -/

theorem formatTrack_one (t t' : Track) (nz : Noise) (ids : List Chsn) (pat : List Byte) (gap3 : Nat)
    (h : t.format nz.bit .iso ids pat gap3 = .ok t') :
    ({ pool := [.bit ⟨0, 0⟩ t], map0 := [0] } : Disk).formatTrack nz ⟨0, 0⟩ ids pat gap3 =
      (({ pool := [.bit ⟨0, 0⟩ t'], map0 := [0] } : Disk).analyze, .ok ()) := by
  unfold Disk.formatTrack
  have hs : ({ pool := [.bit ⟨0, 0⟩ t], map0 := [0] } : Disk).seek ⟨0, 0⟩ = .ok (0, .bit ⟨0, 0⟩ t) := rfl
  rw [hs]
  simp only [DiskTrack.format, h, Except.map]
  rfl

/-- An empty 360K-sized track is formatted with nine sectors: the figure becomes 9. -/
example (nz : Noise) : ∃ d d' : Disk, d.formatTrack nz ⟨0, 0⟩ (stdIds .pc360 0 0) [0xF6#8] StdFormat.pc360.gap3 = (d', .ok ()) ∧
    d'.spt = some 9 := by
  obtain ⟨t, _, e2, e3⟩ := emptyBit_ok ⟨0, 0⟩ StdFormat.pc360.bitcellCt false
  have hfit := (C32_fits .pc360 rfl 0 0 .iso (by decide)).2
  rw [← e2] at hfit
  obtain ⟨t', g1, g2, _⟩ := format_trackOk t nz.bit .iso (stdIds .pc360 0 0) [0xF6#8] _ (by simp) e3
    (stdIds_wf _ _ _ (by decide) (by decide)) hfit
  refine ⟨_, _, formatTrack_one t t' nz _ _ _ g1, ?_⟩
  obtain ⟨c1, _, _⟩ := g2.catalogue
  have hct : t'.sectorIds.length = 9 := by
    rw [c1]; unfold formatted; rw [layout_ids]; unfold stdIds; simp; rfl
  rw [analyze_all _ 9 (by omega) (by
    intro x hx
    rw [List.mem_singleton.1 hx]
    show t'.schema.map _ = _
    rw [g2.schema]
    show some t'.sectorIds.length = _
    rw [hct]) ⟨0, by simp, by simp⟩]

/-- The two candidates differ: an 80-cylinder, 9-sector disk whose boot sector names the 1.44M format. -/
example : ({ map0 := List.range 80, geometry := ⟨80, 2⟩, spt := some 9, boot := some ⟨⟨512, 1, 1, 2, 224, 2880, 0xF0, 9⟩,
    ⟨18, 2, 0⟩, [], []⟩ } : Disk).closestFormat true = some .pc1440 ∧
    ({ map0 := List.range 80, geometry := ⟨80, 2⟩, spt := some 9, boot := some ⟨⟨512, 1, 1, 2, 224, 2880, 0xF0, 9⟩,
    ⟨18, 2, 0⟩, [], []⟩ } : Disk).closestFormat false = some .pc720 := by
  constructor <;> decide +kernel

/-- An 80-cylinder disk that post-processing leaves alone. -/
example (nz : Noise) : ∃ d, Raw.loadImage nz (1#8 :: List.replicate 901119 (0#8)) = .ok d ∧
    d.normalize numeral nz = d := by
  obtain ⟨d, h1, _, h2⟩ := loadAdf_spec nz (1#8 :: List.replicate 901119 (0#8))
    (by rw [List.length_cons, List.length_replicate])
  refine ⟨d, h1, ?_⟩
  have hl : (1#8 :: List.replicate 901119 (0#8)).length = 901120 := by rw [List.length_cons, List.length_replicate]
  revert h1 h2 hl
  generalize hf : (1#8 :: List.replicate 901119 (0#8)) = file
  intro h1 h2 hl
  obtain ⟨t0, a1, a2⟩ := adf_track h2 0 (by omega)
  obtain ⟨t2, b1, b2⟩ := adf_track h2 2 (by omega)
  have hm0 := adf_map0 h2
  have hm1 : d.map1 = (List.range 80).map fun c => c * 2 + 1 := h2.headLen (Or.inr rfl) 1 (by decide)
  refine C45_eighty_partial numeral nz d (by rw [hm0]; simp) (Or.inr (by rw [hm1]; simp)) 0 0 2 t0 t2
    (by rw [hm0]; rfl) (by rw [hm0]; rfl) a1 b1 (by rw [b2.count.1]; omega) ?_
  rw [a2.hash (by omega) hl, b2.hash (by omega) hl]
  intro he
  have h3 := numeral_inj _ _ he
  have h4 := congrArg (fun l => l.getD 0 0) h3
  simp only [slice_getD _ _ _ _ (show 0 < 5632 by omega)] at h4
  have hget : ∀ n, 11263 < n → (1#8 :: List.replicate n (0#8)) = file → file.getD (0 * 5632 + 0) 0 =
      file.getD (2 * 5632 + 0) 0 → False := by
    rintro n hn rfl h
    have e0 : 0 * 5632 + 0 = 0 := rfl
    have e1 : 2 * 5632 + 0 = 11263 + 1 := rfl
    rw [e0, e1] at h
    rw [List.getD_cons_zero, List.getD_cons_succ, getD_replicate_byte _ _ _ hn] at h
    exact absurd h (by decide)
  exact hget _ (by omega) hf h4

end Fox
