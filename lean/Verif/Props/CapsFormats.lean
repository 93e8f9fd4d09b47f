import Verif.Props.Caps
import Verif.Props.F86
import Verif.Props.Pri
import Verif.Props.Raw
/-
C110: the formats an image is offered.  C111: saving in an offered format.  C112: formats by file extension.  C113: `ImageWriter`.
-/
namespace Fox
open Fox.Spec Fox.Detect

/-! ## C110 -/

/-- Every flag of the one set is in the other. -/
def Covers (a b : Caps) : Prop := ∀ i, b.getLsbD i = true → a.getLsbD i = true

theorem contains_iff (a b : Caps) : a.contains b = true ↔ Covers a b := by
  unfold Caps.contains Covers
  rw [beq_iff_eq]
  constructor
  · intro h i hi
    rw [← h, BitVec.getLsbD_and, Bool.and_eq_true] at hi
    exact hi.1
  · intro h
    apply BitVec.eq_of_getLsbD_eq
    intro i _
    rw [BitVec.getLsbD_and]
    cases hb : b.getLsbD i with
    | false => simp
    | true => rw [h i hb]; rfl

theorem covers_zero (a : Caps) : Covers a 0#32 := fun i h => by simp at h

/-- The place of a format in the enumeration of the formats. -/
def place (f : Format) : Nat := Format.all.idxOf f

/-- The formats are listed best first, and in the order of the enumeration if equally good. -/
def Before (a b : Format × List (List Char)) : Prop :=
  b.1.priority < a.1.priority ∨ (a.1.priority = b.1.priority ∧ place a.1 < place b.1)

theorem mem_insertBy (x y : Format × List (List Char)) : ∀ l, y ∈ Format.insertBy x l ↔ y = x ∨ y ∈ l
  | [] => by simp [Format.insertBy]
  | z :: rest => by
    rw [Format.insertBy]
    split
    · simp
    · rw [List.mem_cons, mem_insertBy x y rest, List.mem_cons]
      constructor
      · rintro (h | h | h)
        · exact Or.inr (Or.inl h)
        · exact Or.inl h
        · exact Or.inr (Or.inr h)
      · rintro (h | h | h)
        · exact Or.inr (Or.inl h)
        · exact Or.inl h
        · exact Or.inr (Or.inr h)

theorem insertBy_sorted (x : Format × List (List Char)) : ∀ l, (∀ y ∈ l, place x.1 < place y.1) → l.Pairwise Before →
    (Format.insertBy x l).Pairwise Before
  | [], _, _ => by simp [Format.insertBy]
  | z :: rest, hp, hs => by
    rw [Format.insertBy]
    obtain ⟨h1, h2⟩ := List.pairwise_cons.1 hs
    split
    · next hle =>
      refine List.pairwise_cons.2 ⟨fun y hy => ?_, hs⟩
      rcases List.mem_cons.1 hy with rfl | hy
      · have := hp y (by simp)
        unfold Before
        omega
      · have := hp y (by simp [hy])
        have := h1 y hy
        unfold Before at this ⊢
        omega
    · next hle =>
      refine List.pairwise_cons.2 ⟨fun y hy => ?_, insertBy_sorted x rest (fun y hy => hp y (by simp [hy])) h2⟩
      rcases (mem_insertBy x y rest).1 hy with rfl | hy
      · left; omega
      · exact h1 y hy

theorem mem_sortBy (l : List (Format × List (List Char))) (y : Format × List (List Char)) : y ∈ Format.sortBy l ↔ y ∈ l := by
  unfold Format.sortBy
  induction l with
  | nil => simp
  | cons x rest ih => rw [List.foldr_cons, mem_insertBy, ih, List.mem_cons]

theorem sortBy_sorted (l : List (Format × List (List Char))) (h : l.Pairwise fun a b => place a.1 < place b.1) :
    (Format.sortBy l).Pairwise Before := by
  induction l with
  | nil => exact List.Pairwise.nil
  | cons x rest ih =>
    obtain ⟨h1, h2⟩ := List.pairwise_cons.1 h
    exact insertBy_sorted x _ (fun y hy => h1 y ((mem_sortBy rest y).1 hy)) (ih h2)

theorem all_formats (f : Format) : f ∈ Format.all := by cases f <;> decide

theorem ofCaps_mem (c : Caps) (f : Format) (e : List (List Char)) : (f, e) ∈ Format.ofCaps c ↔ e = f.extensions ∧ Covers f.caps c := by
  unfold Format.ofCaps
  rw [List.mem_map]
  constructor
  · rintro ⟨g, hg, he⟩
    cases he
    rw [List.mem_filter, Bool.or_eq_true, beq_iff_eq] at hg
    refine ⟨rfl, ?_⟩
    rcases hg.2 with h | h
    · rw [h]; exact covers_zero _
    · exact (contains_iff _ _).1 h
  · rintro ⟨rfl, h⟩
    refine ⟨f, ?_, rfl⟩
    rw [List.mem_filter, Bool.or_eq_true]
    exact ⟨all_formats f, Or.inr ((contains_iff _ _).2 h)⟩

theorem ofCaps_placed (c : Caps) : (Format.ofCaps c).Pairwise fun a b => place a.1 < place b.1 := by
  unfold Format.ofCaps
  rw [List.pairwise_map]
  refine List.Pairwise.filter _ ?_
  show Format.all.Pairwise fun a b => place a < place b
  decide

/-- **C110.** Of every image, `compatible_formats(false)` gives every format whose capabilities cover the required ones of the last
analysis, with its extensions, and no other; best priority first, then in the order of the enumeration — so none twice. -/
theorem C110_listed (m : Image) :
    (∀ f e, (f, e) ∈ Format.compatible m false ↔ e = f.extensions ∧ Covers f.caps m.found.caps) ∧
    (Format.compatible m false).Pairwise Before := by
  refine ⟨fun f e => ?_, sortBy_sorted _ (ofCaps_placed _)⟩
  show (f, e) ∈ Format.sortBy _ ↔ _
  rw [mem_sortBy]
  exact ofCaps_mem _ f e

/-- **C110.** `compatible_formats(true)` gives, in the same order: the raw format exactly if no capability is required; PRI and 86F exactly if
all that is required is covered and the tracks are bitstreams; and no other format. -/
theorem C110_writable (m : Image) :
    (∀ f e, (f, e) ∈ Format.compatible m true ↔ e = f.extensions ∧
      (f = .raw ∧ m.found.caps = 0#32 ∨ (f = .pri ∨ f = .f86) ∧ Covers f.caps m.found.caps ∧ m.disk.res = { bit := true })) ∧
    (Format.compatible m true).Pairwise Before := by
  refine ⟨fun f e => ?_, sortBy_sorted _ (List.Pairwise.filter _ (ofCaps_placed _))⟩
  show (f, e) ∈ Format.sortBy (List.filter _ _) ↔ _
  rw [mem_sortBy, List.mem_filter, ofCaps_mem]
  have hw : (Format.filterWritable m ((Format.ofCaps m.found.caps).map (·.1))).contains f = true ↔
      Covers f.caps m.found.caps ∧ f.canWrite (some m) = .ok := by
    unfold Format.filterWritable
    rw [List.contains_iff_mem, List.mem_filter, List.mem_map, beq_iff_eq]
    constructor
    · rintro ⟨⟨⟨g, e'⟩, hg, rfl⟩, h⟩
      exact ⟨((ofCaps_mem _ _ _).1 hg).2, h⟩
    · rintro ⟨h, h'⟩
      exact ⟨⟨(f, f.extensions), (ofCaps_mem _ _ _).2 ⟨rfl, h⟩, rfl⟩, h'⟩
  simp only [hw]
  constructor
  · rintro ⟨⟨he, hc⟩, -, hw⟩
    refine ⟨he, ?_⟩
    cases f <;> simp only [Format.canWrite] at hw
    case raw =>
      left
      refine ⟨rfl, ?_⟩
      split at hw
      · cases hw
      · next h => exact Classical.not_not.1 h
    case pri =>
      right
      refine ⟨Or.inl rfl, hc, ?_⟩
      split at hw
      · cases hw
      · next h => exact Classical.not_not.1 h
    case f86 =>
      right
      refine ⟨Or.inr rfl, hc, ?_⟩
      split at hw
      · cases hw
      · next h => exact Classical.not_not.1 h
    all_goals cases hw
  · rintro ⟨he, ⟨rfl, h0⟩ | ⟨hf, hc, hr⟩⟩
    · have hc : Covers (Format.caps .raw) m.found.caps := by rw [h0]; exact covers_zero _
      exact ⟨⟨he, hc⟩, hc, by simp [Format.canWrite, h0]⟩
    · refine ⟨⟨he, hc⟩, hc, ?_⟩
      rcases hf with rfl | rfl
      · simp only [Format.canWrite]
        rw [if_neg (by simp [hr]), if_pos ((contains_iff _ _).2 hc)]
      · simp only [Format.canWrite]
        rw [if_neg (by simp [hr])]

/-- An image requiring "deleted data" and "variable sector size". -/
example : Format.compatible ⟨{ res := { bit := true } }, { caps := 0x12#32 }⟩ true =
    [(.f86, Format.f86.extensions), (.pri, Format.pri.extensions)] := by decide

/-! ## C111 -/

/-- The image is offered the format for saving. -/
def Offered (m : Image) (f : Format) : Prop := (f, f.extensions) ∈ Format.compatible m true

/-- **C111 (partial).** A format that is not offered because it has no writer, or because the tracks are not bitstreams, refuses to save. -/
theorem C111_refused (e : Format.Extras) (f : Format) (m : Image)
    (h : f ≠ .raw ∧ (f = .pri ∨ f = .f86 → m.disk.res ≠ { bit := true })) : Format.save e f m = .error .unsupported := by
  obtain ⟨h1, h2⟩ := h
  cases f
  case raw => exact absurd rfl h1
  case pri => exact C47_refused m.disk (h2 (Or.inl rfl)) _ _
  case f86 => exact C52_refused m.disk (h2 (Or.inr rfl)) _
  all_goals rfl

theorem tracksChunks_ok (rate : DiskTrack → BitVec 32) : ∀ l : List DiskTrack, (∀ x ∈ l, ∃ ch t, x = .bit ch t) →
    ∃ cs, Pri.tracksChunks rate l = .ok cs
  | [], _ => ⟨[], rfl⟩
  | x :: xs, h => by
    obtain ⟨ch, t, rfl⟩ := h x (by simp)
    obtain ⟨b, hb⟩ := tracksChunks_ok rate xs fun y hy => h y (by simp [hy])
    rw [Pri.tracksChunks]
    simp only [Pri.trackChunks, hb]
    exact ⟨_, rfl⟩

/-- **C111 (partial).** PRI: of every image it is offered for, with MFM tracks only and no comment of more than 1000 bytes, saving
succeeds.  Missing: longer comments, where it panics (C47). -/
theorem C111_pri_partial (e : Format.Extras) (m : Image) (h : Offered m .pri) (hb : ∀ t, Listed m.disk t → ∃ ch x, t = .bit ch x)
    (hc : ∀ t, e.comment = some t → t.length ≤ 1000) : ∃ bs, Format.save e .pri m = .ok bs := by
  have hr : m.disk.res = { bit := true } := by
    obtain ⟨-, ⟨h, -⟩ | ⟨-, -, h⟩⟩ := ((C110_writable m).1 _ _).1 h
    · cases h
    · exact h
  have hl : ∀ x ∈ m.disk.trackList, ∃ ch t, x = .bit ch t := by
    intro x hx
    obtain ⟨i, hi, hp⟩ := List.mem_filterMap.1 hx
    exact hb x ⟨i, (mem_trackIdx m.disk i).1 hi, hp⟩
  obtain ⟨cs, hcs⟩ := tracksChunks_ok e.rate _ hl
  have key : ∀ text, ∃ bs, Pri.saveChunks e.rate m.disk text = .ok bs := fun text => by
    unfold Pri.saveChunks
    rw [hcs]
    exact ⟨_, rfl⟩
  show ∃ bs, Pri.save e.rate e.comment m.disk = .ok bs
  unfold Pri.save
  rw [if_neg (by rw [hr]; simp)]
  cases he : e.comment with
  | none => exact key []
  | some t =>
    have := hc t he
    simp only
    rw [if_neg (by omega)]
    exact key _

/-- **C111 (partial).** Raw: of the disk loaded from any sector image of a PC format whose boot sector names no format or its own, the image
— requiring nothing — is offered the raw format, and saving in it gives the file back.
Missing: all other images, for example `C111_false_raw`. -/
theorem C111_raw_partial (f : StdFormat) (hf : f.isPc = true) (file : List Byte) (hl : file.length = f.diskSize) (H : List Byte → Nat)
    (nz : Noise) (e : Format.Extras) (hb : bootFormat file = none ∨ bootFormat file = some f) :
    ∃ d0, Raw.loadImage nz file = .ok d0 ∧ (NoCollision H d0 → ∃ d, Raw.load H nz file = .ok d ∧
      ∀ a : DiskAnalysis, a.caps = 0#32 → Offered ⟨d, a⟩ .raw ∧ Format.save e .raw ⟨d, a⟩ = .ok file) := by
  obtain ⟨d0, h0, h⟩ := C16_round_trip_partial f hf file hl H nz e.nz
  refine ⟨d0, h0, fun hH => ?_⟩
  obtain ⟨d, h1, h2⟩ := h hH
  refine ⟨d, h1, fun a ha => ⟨((C110_writable ⟨d, a⟩).1 _ _).2 ⟨rfl, Or.inl ⟨rfl, ha⟩⟩, h2.2 hb⟩⟩

/-- **C111 fails** for the raw format: it is offered for every image that requires nothing, and if neither its boot sector nor its geometry
is that of a standard format, saving fails. -/
theorem C111_false_raw (e : Format.Extras) (m : Image) (h : m.found.caps = 0#32) (hn : m.disk.closestFormat true = none) :
    Offered m .raw ∧ Format.save e .raw m = .error .unsupported := by
  refine ⟨((C110_writable m).1 _ _).2 ⟨rfl, Or.inl ⟨rfl, h⟩⟩, ?_⟩
  show Raw.save e.nz m.disk = _
  unfold Raw.save
  rw [hn]

/-- The disk with the two sizes is an instance, with its true analysis. -/
example : ∃ a, twoSizes.analysis true {} = .ok a ∧ a.caps = 0#32 ∧ twoSizes.closestFormat true = none :=
  ⟨_, rfl, by decide, by decide⟩

/-- **C111 fails** for 86F: a one-sided image of bitstreams requiring nothing more than 86F has is offered the format, and saving fails. -/
theorem C111_false_f86 (e : Format.Extras) (m : Image) (hr : m.disk.res = { bit := true }) (hc : Covers Format.f86.caps m.found.caps)
    (hg : 0 < m.disk.geometry.c) (h1 : m.disk.headMap 1 = []) : Offered m .f86 ∧ Format.save e .f86 m = .error .unsupported :=
  ⟨((C110_writable m).1 _ _).2 ⟨rfl, Or.inr ⟨Or.inr rfl, hc, hr⟩⟩, C52_false_one_sided m.disk e.desc hg h1⟩

theorem saveLoop_congr (nz : Noise) (n : Nat) (d d' : Disk) : ∀ xs : List Chs, (∀ x ∈ xs, d.seek ⟨x.c, x.h⟩ = d'.seek ⟨x.c, x.h⟩) →
    Raw.saveLoop nz n d xs = Raw.saveLoop nz n d' xs
  | [], _ => rfl
  | x :: rest, h => by
    rw [Raw.saveLoop, Raw.saveLoop, saveLoop_congr nz n d d' rest fun y hy => h y (by simp [hy])]
    unfold Disk.readBasic
    rw [h x (by simp)]

/-- **C111 fails** for the raw format by losing data: tracks beyond the cylinders of the standard format are not written.  If two images agree
on the cylinders of the format, they save the same file, whatever else is on them. -/
theorem C111_false_lost (e : Format.Extras) (m m' : Image) (g : StdFormat) (hg : m.disk.closestFormat true = some g)
    (hg' : m'.disk.closestFormat true = some g) (hs : ∀ ch, ch.c < g.layout.c → m.disk.seek ch = m'.disk.seek ch) :
    Format.save e .raw m = Format.save e .raw m' := by
  show Raw.save e.nz m.disk = Raw.save e.nz m'.disk
  unfold Raw.save
  rw [hg, hg']
  simp only
  obtain ⟨xs, i1, i2, i3, i4⟩ := C13_chs_iter g.layout (by cases g <;> decide) (by cases g <;> decide)
  have i1 : g.layout.iterTake (g.layout.totalSectors + 1) none = .ok (xs, true) := i1
  simp only [i1]
  apply saveLoop_congr
  intro x hx
  obtain ⟨k, hk, rfl⟩ := List.getElem_of_mem hx
  exact hs _ (i3 k hk).1.1

end Fox
