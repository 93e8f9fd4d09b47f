import Verif.Props.DetectSaved
import Verif.Props.KryoCase
/-
C90: KryoFlux sets in zip files.
-/
namespace Fox
open Spec Spec.FileKind Detect Fox.Flux Spec.KryoSet Spec.KryoFile

/-- The names, regardless of case. -/
def SameNames (a b : List (List Byte)) : Prop := ∀ n, (∃ f ∈ a, low f = n) ↔ ∃ f ∈ b, low f = n

theorem expand_same (file : List Byte) (a b : List (List Byte)) (h : SameNames a b) : Kryo.expand file a = Kryo.expand file b := by
  have hany : ∀ n, (a.any fun f => Kryo.lower f == n) = b.any fun f => Kryo.lower f == n := by
    intro n
    rw [Bool.eq_iff_iff, List.any_eq_true, List.any_eq_true]
    simp only [beq_iff_eq]
    exact h n
  have hl : ∀ base fuel c h acc, Kryo.searchLoop a base fuel c h acc = Kryo.searchLoop b base fuel c h acc := by
    intro base fuel
    induction fuel with
    | zero => intro c h acc; rfl
    | succ fuel ih =>
      intro c h acc
      obtain ⟨s, cs, hs⟩ := acc
      rw [Kryo.searchLoop, Kryo.searchLoop]
      simp only [hany, ih]
  unfold Kryo.expand
  split
  · rfl
  · simp only [hl]

/-- The files of one directory of an archive. -/
def folder (es : List (Path × List Byte)) (p : List Byte) : List (List Byte × List Byte) :=
  (es.filter fun x => x.1.dir == p).map fun x => (x.1.name, x.2)

theorem folder_find (es : List (Path × List Byte)) (p n : List Byte) :
    (es.find? fun x => x.1 == ⟨p, n⟩).map Prod.snd = ((folder es p).find? fun x => x.1 == n).map Prod.snd := by
  induction es with
  | nil => rfl
  | cons x es ih =>
    obtain ⟨⟨d, m⟩, b⟩ := x
    unfold folder at *
    by_cases hd : d = p
    · subst hd
      rw [List.filter_cons_of_pos (by simp), List.map_cons, List.find?_cons, List.find?_cons]
      by_cases hm : m = n
      · subst hm; simp
      · have h1 : ((⟨d, m⟩ : Path) == ⟨d, n⟩) = false := by
          rw [beq_eq_false_iff_ne]; intro h; cases h; exact hm rfl
        have h2 : (m == n) = false := by rw [beq_eq_false_iff_ne]; exact hm
        simp only [h1, h2]
        exact ih
    · have h1 : ((⟨d, m⟩ : Path) == ⟨p, n⟩) = false := by
        rw [beq_eq_false_iff_ne]; intro h; cases h; exact hd rfl
      rw [List.filter_cons_of_neg (by simpa using hd), List.find?_cons]
      simp only [h1]
      exact ih

/-- A set chosen from an archive loads like the directory, if the other directories have no other names. -/
theorem loadSet_dir (debug : Bool) (rnd : Nat → Bool) (fm : FmCodec) (es : List (Path × List Byte)) (p n : List Byte)
    (h : SameNames (es.map fun x => x.1.name) ((folder es p).map Prod.fst)) :
    loadSet debug rnd fm es
      ⟨p, (Kryo.expand n (es.map fun x => x.1.name)).1, (Kryo.expand n (es.map fun x => x.1.name)).2⟩ =
      Kryo.loadDir debug rnd fm (folder es p) n := by
  unfold loadSet Kryo.loadDir
  simp only
  rw [expand_same n _ _ h]
  congr 1
  exact List.map_congr_left fun m _ => folder_find es p m

theorem endsWith_iff (s l : List Byte) : endsWith s l = true ↔ ∃ a, l = a ++ s := by
  unfold endsWith
  rw [Bool.and_eq_true, decide_eq_true_eq, beq_iff_eq]
  constructor
  · rintro ⟨h1, h2⟩
    exact ⟨l.take (l.length - s.length), by conv => lhs; rw [← List.take_append_drop (l.length - s.length) l, h2]⟩
  · rintro ⟨a, rfl⟩
    rw [List.length_append]
    refine ⟨by omega, ?_⟩
    rw [Nat.add_sub_cancel, List.drop_left]

/-- The name of the first stream of a set. -/
def First (n : List Byte) : Prop := ∃ a, n = a ++ text ['0', '0', '.', '0', '.', 'r', 'a', 'w']

theorem first_iff (n : List Byte) : endsWith firstName n = true ↔ First n := endsWith_iff _ _

/-- A zip file with these entries, more than one file and more than 5,000,000 bytes. -/
def BigZip (u : Unpack) (f : List Byte) (es : List (Path × List Byte)) : Prop :=
  (∃ r, f = text ['P', 'K'] ++ [3#8, 4#8] ++ r) ∧ 2 ≤ es.length ∧ ∃ n, 5000000 < n ∧ u.unzip f = some ⟨es, n⟩

theorem big_container (u : Unpack) (sort : List Path → List Path) (f : List Byte) (es : List (Path × List Byte)) (h : BigZip u f es)
    (hs : ∀ l, (sort l).Perm l) (h1 : ∃ x ∈ es, First x.1.name) :
    container u sort f = .ok (.zipped (setsOf sort (es.map Prod.fst))) := by
  obtain ⟨⟨r, rfl⟩, h2, n, hn, hu⟩ := h
  obtain ⟨x, y, zs, rfl⟩ : ∃ x y zs, es = x :: y :: zs := by
    match es, h2 with
    | x :: y :: zs, _ => exact ⟨x, y, zs, rfl⟩
  unfold container
  rw [if_pos (by simp [Detect.starts, text]), hu]
  simp only
  rw [if_pos hn]
  have hne : setsOf sort ((x :: y :: zs).map Prod.fst) ≠ [] := by
    obtain ⟨w, hw, hw1⟩ := h1
    have hm : w.1 ∈ sort (((x :: y :: zs).map Prod.fst).filter fun p => endsWith firstName p.name) :=
      (hs _).mem_iff.2 (List.mem_filter.2 ⟨List.mem_map.2 ⟨w, hw, rfl⟩, (first_iff _).2 hw1⟩)
    unfold setsOf
    intro he
    rw [List.map_eq_nil_iff] at he
    rw [he] at hm
    cases hm
  cases hq : setsOf sort ((x :: y :: zs).map Prod.fst) with
  | nil => exact absurd hq hne
  | cons s ss => rfl

theorem set_entry (sort : List Path → List Path) (es : List (Path × List Byte)) (hs : ∀ l, (sort l).Perm l) (s : KfSet)
    (h : s ∈ setsOf sort (es.map Prod.fst)) : ∃ x ∈ es, First x.1.name ∧
      s = ⟨x.1.dir, (Kryo.expand x.1.name (es.map fun x => x.1.name)).1, (Kryo.expand x.1.name (es.map fun x => x.1.name)).2⟩ := by
  unfold setsOf at h
  obtain ⟨q, hq, rfl⟩ := List.mem_map.1 h
  have hq := List.mem_filter.1 ((hs _).mem_iff.1 hq)
  obtain ⟨x, hx, rfl⟩ := List.mem_map.1 hq.1
  refine ⟨x, hx, (first_iff _).1 hq.2, ?_⟩
  simp only [List.map_map]
  rfl

/-- **C90 (partial).** From a zip file with KryoFlux sets in its directories the set of the directory `p` is loaded as it would be
from the directory itself.  Missing: directories in which there are not the same names (`C90_false_names`), more than one set in the
directory, and small archives (`C89_false_several`). -/
theorem C90_zipped_partial (debug : Bool) (rnd : Nat → Bool) (fm : FmCodec) (u : Unpack) (sort : List Path → List Path)
    (hs : ∀ l, (sort l).Perm l) (L : Loaders) (hL : L.zipped = loadSet debug rnd fm) (f : List Byte) (es : List (Path × List Byte))
    (h : BigZip u f es) (p n : List Byte) (hn : ∃ x ∈ es, x.1 = ⟨p, n⟩) (hf : First n)
    (ho : ∀ x ∈ es, x.1.dir = p → First x.1.name → x.1.name = n)
    (hsame : SameNames (es.map fun x => x.1.name) ((folder es p).map Prod.fst)) :
    Detect.load u sort L (some (.path p)) f = Kryo.loadDir debug rnd fm (folder es p) n := by
  obtain ⟨x, hx, hxn⟩ := hn
  have hc := big_container u sort f es h hs ⟨x, hx, by rw [hxn]; exact hf⟩
  obtain ⟨_, _, m, hm, hu⟩ := h
  unfold Detect.load
  rw [hc]
  simp only
  have hmem : ∃ s ∈ setsOf sort (es.map Prod.fst), s.dir = p := by
    refine ⟨_, List.mem_map.2 ⟨x.1, (hs _).mem_iff.2 (List.mem_filter.2 ⟨List.mem_map.2 ⟨x, hx, rfl⟩, ?_⟩), rfl⟩, by rw [hxn]⟩
    rw [hxn]; exact (first_iff n).2 hf
  cases hq : (setsOf sort (es.map Prod.fst)).find? fun s => s.dir == p with
  | none =>
    obtain ⟨s, s1, s2⟩ := hmem
    have := List.find?_eq_none.1 hq s s1
    simp [s2] at this
  | some s =>
    have hsd := List.find?_some (p := fun s : KfSet => s.dir == p) hq
    simp only [beq_iff_eq] at hsd
    obtain ⟨y, hy, hyf, e⟩ := set_entry sort es hs s (List.mem_of_find?_eq_some hq)
    have hyd : y.1.dir = p := by rw [e] at hsd; exact hsd
    rw [ho y hy hyd hyf, hyd] at e
    unfold choose
    simp only [hq, hu, hL]
    rw [e]
    exact loadSet_dir debug rnd fm es p n hsame

/-- **C90 (partial).** If there is but one set, it needs no selection. -/
theorem C90_alone_partial (debug : Bool) (rnd : Nat → Bool) (fm : FmCodec) (u : Unpack) (sort : List Path → List Path)
    (hs : ∀ l, (sort l).Perm l) (L : Loaders) (hL : L.zipped = loadSet debug rnd fm) (f : List Byte) (es as bs : List (Path × List Byte))
    (p n data : List Byte) (he : es = as ++ (⟨p, n⟩, data) :: bs) (hn : First n) (ho : ∀ x ∈ as ++ bs, ¬ First x.1.name)
    (h : BigZip u f es) (hsame : SameNames (es.map fun x => x.1.name) ((folder es p).map Prod.fst)) :
    Detect.load u sort L none f = Kryo.loadDir debug rnd fm (folder es p) n := by
  have hc := big_container u sort f es h hs ⟨(⟨p, n⟩, data), by rw [he]; simp, hn⟩
  have hnone : ∀ l : List (Path × List Byte), (∀ x ∈ l, ¬ First x.1.name) →
      (l.map Prod.fst).filter (fun q => endsWith firstName q.name) = [] := by
    intro l hl
    rw [List.filter_eq_nil_iff]
    intro q hq
    obtain ⟨x, hx, rfl⟩ := List.mem_map.1 hq
    rw [first_iff]
    exact hl x hx
  have hfil : (es.map Prod.fst).filter (fun q => endsWith firstName q.name) = [⟨p, n⟩] := by
    rw [he, List.map_append, List.map_cons, List.filter_append, List.filter_cons_of_pos (p := fun q : Path => endsWith firstName q.name) ((first_iff n).2 hn),
      hnone as fun x hx => ho x (List.mem_append_left _ hx), hnone bs fun x hx => ho x (List.mem_append_right _ hx)]
    rfl
  have hsets : setsOf sort (es.map Prod.fst) =
      [⟨p, (Kryo.expand n (es.map fun x => x.1.name)).1, (Kryo.expand n (es.map fun x => x.1.name)).2⟩] := by
    unfold setsOf
    rw [hfil, List.perm_singleton.1 (hs [⟨p, n⟩])]
    simp only [List.map_cons, List.map_nil, List.map_map]
    rfl
  obtain ⟨_, _, m, hm, hu⟩ := h
  unfold Detect.load
  rw [hc]
  simp only
  rw [hsets]
  unfold choose
  simp only [hu, hL]
  exact loadSet_dir debug rnd fm es p n hsame

/-- **C90.** A selection that is not among the sets is an error, and so is none at all if there is more than one set. -/
theorem C90_selection (u : Unpack) (sort : List Path → List Path) (hs : ∀ l, (sort l).Perm l) (L : Loaders) (f : List Byte)
    (es : List (Path × List Byte)) (h : BigZip u f es) (h1 : ∃ x ∈ es, First x.1.name) :
    (∀ p, (∀ x ∈ es, First x.1.name → x.1.dir ≠ p) → Detect.load u sort L (some (.path p)) f = .error .dataError) ∧
    (∀ i, es.countP (fun x => endsWith firstName x.1.name) ≤ i → Detect.load u sort L (some (.index i)) f = .error .dataError) ∧
    (2 ≤ es.countP (fun x => endsWith firstName x.1.name) → Detect.load u sort L none f = .error .dataError) := by
  have hc := big_container u sort f es h hs h1
  have hlen : (setsOf sort (es.map Prod.fst)).length = es.countP fun x => endsWith firstName x.1.name := by
    unfold setsOf
    rw [List.length_map, (hs _).length_eq, ← List.countP_eq_length_filter, List.countP_map]
    rfl
  refine ⟨fun p hp => ?_, fun i hi => ?_, fun h2 => ?_⟩
  · unfold Detect.load
    rw [hc]
    simp only
    have : (setsOf sort (es.map Prod.fst)).find? (fun s => s.dir == p) = none := by
      rw [List.find?_eq_none]
      intro s hs'
      obtain ⟨x, hx, hf, rfl⟩ := set_entry sort es hs s hs'
      simpa using hp x hx hf
    unfold choose
    simp only [this]
  · unfold Detect.load
    rw [hc]
    simp only
    have : (setsOf sort (es.map Prod.fst))[i]? = none := List.getElem?_eq_none (by omega)
    unfold choose
    simp only [this]
  · unfold Detect.load
    rw [hc]
    simp only
    cases hq : setsOf sort (es.map Prod.fst) with
    | nil => rfl
    | cons a l => cases l with
      | nil => rw [hq, List.length_singleton] at hlen; omega
      | cons b l => rfl

/-- Two directories of an archive: in `a` a set of one track, in `b` one of two sides, all with the same contents. -/
def twoSets (data : List Byte) : List (Path × List Byte) :=
  [(⟨text ['a'], nameOf gapSet ⟨0, 0⟩⟩, data), (⟨text ['b'], nameOf gapSet ⟨0, 0⟩⟩, data), (⟨text ['b'], nameOf gapSet ⟨0, 1⟩⟩, data)]

theorem twoSets_folder (data : List Byte) : folder (twoSets data) (text ['a']) = [(nameOf gapSet ⟨0, 0⟩, data)] := rfl

/-- **C90 is false of the code: names.** There is a directory with a set of one track that loads as it should; in an archive with
another directory beside it it does not load at all: the names are looked for in all directories. -/
theorem C90_false_names (debug : Bool) (rnd : Nat → Bool) (fm : FmCodec) (u : Unpack)
    (sort : List Path → List Path) (hs : ∀ l, (sort l).Perm l) (L : Loaders) (hL : L.zipped = loadSet debug rnd fm) (f : List Byte)
    (is : List Item) (ks : List Nat) (hg : KryoFile.Good is) (hp : Plain is) (hd : ∀ x ∈ seenTurns is, DoubleDensity ks x.1 x.2)
    (h : BigZip u f (twoSets (file is []))) :
    (∃ d, Kryo.loadDir debug rnd fm (folder (twoSets (file is [])) (text ['a'])) (nameOf gapSet ⟨0, 0⟩) = .ok d ∧
      fluxCells d ⟨0, 0⟩ = some (Spec.cellsOf ks)) ∧
      Detect.load u sort L (some (.path (text ['a']))) f = .error .io := by
  constructor
  · rw [twoSets_folder]
    obtain ⟨d, d1, _, d3⟩ := C85_set_partial debug rnd fm [(nameOf gapSet ⟨0, 0⟩, file is [])] gapSet ⟨0, 0⟩ (by decide) (by decide)
      (C := 1) (S := 1) (Or.inl rfl) (by omega)
      (by
        intro c h hc hh
        have : ∀ c ∈ List.range 100, ∀ h ∈ List.range 2, (Has [nameOf gapSet ⟨0, 0⟩] gapSet ⟨c, h⟩ ↔ c < 1 ∧ h < 1) := by decide +kernel
        exact this c (List.mem_range.2 hc) h (List.mem_range.2 hh))
      (by intro x hx; obtain rfl := List.mem_singleton.1 hx; show low (nameOf gapSet ⟨0, 0⟩) = nameOf gapSet ⟨0, 0⟩; decide)
      (fun _ => is) (fun _ => ks) (fun _ _ _ => ⟨hg, hp, hd⟩)
      (by intro x hx ch _ _ _; obtain rfl := List.mem_singleton.1 hx; exact ⟨[], rfl⟩)
    exact ⟨d, d1, d3 ⟨0, 0⟩⟩
  · have e := C84_expand [nameOf gapSet ⟨0, 0⟩, nameOf gapSet ⟨0, 0⟩, nameOf gapSet ⟨0, 1⟩] gapSet ⟨0, 0⟩ (by decide) (by decide) 80
      (by omega) (by omega) (by decide +kernel) (fun c h1 h2 => by omega)
    have e1 : (grid 80).filter (fun ch => Has [nameOf gapSet ⟨0, 0⟩, nameOf gapSet ⟨0, 0⟩, nameOf gapSet ⟨0, 1⟩] gapSet ch) =
      [⟨0, 0⟩, ⟨0, 1⟩] := by decide +kernel
    have e2 : (cylinders [nameOf gapSet ⟨0, 0⟩, nameOf gapSet ⟨0, 0⟩, nameOf gapSet ⟨0, 1⟩] gapSet 80).length = 1 := by decide +kernel
    have e3 : (KryoSet.sides [nameOf gapSet ⟨0, 0⟩, nameOf gapSet ⟨0, 0⟩, nameOf gapSet ⟨0, 1⟩] gapSet 80).length = 2 := by decide +kernel
    have lo : low gapSet = gapSet := by decide
    rw [e1, e2, e3, lo] at e
    have hc := big_container u sort f _ h hs ⟨_, .head _, ⟨gapSet, rfl⟩⟩
    obtain ⟨_, _, m, hm, hu⟩ := h
    unfold Detect.load
    rw [hc]
    simp only
    cases hq : (setsOf sort ((twoSets (file is [])).map Prod.fst)).find? fun s => s.dir == text ['a'] with
    | none =>
      have hm : (⟨text ['a'], nameOf gapSet ⟨0, 0⟩⟩ : Path) ∈
          sort (((twoSets (file is [])).map Prod.fst).filter fun p => endsWith firstName p.name) :=
        (hs _).mem_iff.2 (List.mem_filter.2 ⟨.head _, (first_iff _).2 ⟨gapSet, rfl⟩⟩)
      have := List.find?_eq_none.1 hq _ (List.mem_map.2 ⟨_, hm, rfl⟩)
      simp at this
    | some s =>
      have hsd := List.find?_some (p := fun s : KfSet => s.dir == text ['a']) hq
      simp only [beq_iff_eq] at hsd
      obtain ⟨y, hy, hyf, ey⟩ := set_entry sort _ hs s (List.mem_of_find?_eq_some hq)
      have hyd : y.1.dir = text ['a'] := by rw [ey] at hsd; exact hsd
      have hy' : y = (⟨text ['a'], nameOf gapSet ⟨0, 0⟩⟩, file is []) := by
        simp only [twoSets, List.mem_cons, List.not_mem_nil, or_false] at hy
        rcases hy with rfl | rfl | rfl
        · rfl
        · exact absurd hyd (show ¬ text ['b'] = text ['a'] from by decide)
        · exact absurd hyd (show ¬ text ['b'] = text ['a'] from by decide)
      subst hy'
      have hn : ((twoSets (file is [])).map fun x => x.1.name) = [nameOf gapSet ⟨0, 0⟩, nameOf gapSet ⟨0, 0⟩, nameOf gapSet ⟨0, 1⟩] := rfl
      simp only [hn] at ey
      rw [e] at ey
      unfold choose
      simp only [hq, hu, hL]
      rw [ey]
      obtain ⟨m', hm', _⟩ := C83_later debug rnd fm ⟨0 / 2, 0 % 2⟩ ks _ (seenTurns_ne hg) hd { geometry := ⟨1, 2⟩ } {}
        ⟨rfl, fun f e => by cases e⟩
      obtain ⟨d', m2, _⟩ := Kryo.load_step debug rnd fm (S := 2) (C := 1) (Or.inr rfl) (xs := [])
        (Kryo.placed_new (Or.inr rfl) ⟨1, 2⟩) rfl (by decide) {} (file is []) _ (C82_revolutions_partial debug is [] hg hp) m' hm'
      have hfs : (([(⟨0, 0⟩ : Ch), ⟨0, 1⟩].map fun ch => nameOf gapSet ch).map fun n =>
          ((twoSets (file is [])).find? fun x => x.1 == ⟨text ['a'], n⟩).map Prod.snd) = [some (file is []), none] := rfl
      unfold loadSet
      simp only
      rw [hfs, Kryo.loadFiles, m2]
      rfl

/-- Such an archive: the streams are those of `wholeTrack` (the archive itself stands for them). -/
example (debug : Bool) (rnd : Nat → Bool) (fm : FmCodec) :
    ∃ u f, BigZip u f (twoSets (file (wholeTrack 20000) [])) ∧
      Detect.load u id ⟨fun _ _ => .error .io, .error .io, loadSet debug rnd fm⟩ (some (.path (text ['a']))) f = .error .io := by
  have h : BigZip ⟨fun _ => some ⟨twoSets (file (wholeTrack 20000) []), 5000001⟩, fun _ => none⟩ (text ['P', 'K'] ++ [3#8, 4#8])
      (twoSets (file (wholeTrack 20000) [])) := ⟨⟨[], rfl⟩, by decide, 5000001, by omega, rfl⟩
  exact ⟨_, _, h, (C90_false_names debug rnd fm _ id (fun l => .refl l) _ rfl _ (wholeTrack 20000) (byTurns 20000)
    (wholeTrack_good _ (by omega) (by omega)).1 (wholeTrack_good _ (by omega) (by omega)).2 wholeTrack_dd h).2⟩

/-- And one in which `C90_zipped_partial` applies: two sets with the same names. -/
example (debug : Bool) (rnd : Nat → Bool) (fm : FmCodec) (data data' : List Byte) :
    ∃ u f, Detect.load u id ⟨fun _ _ => .error .io, .error .io, loadSet debug rnd fm⟩ (some (.path (text ['b']))) f =
      Kryo.loadDir debug rnd fm [(nameOf gapSet ⟨0, 0⟩, data')] (nameOf gapSet ⟨0, 0⟩) := by
  generalize hes : [((⟨text ['a'], nameOf gapSet ⟨0, 0⟩⟩ : Path), data), (⟨text ['b'], nameOf gapSet ⟨0, 0⟩⟩, data')] = es
  have h : BigZip ⟨fun _ => some ⟨es, 5000001⟩, fun _ => none⟩ (text ['P', 'K'] ++ [3#8, 4#8]) es :=
    ⟨⟨[], rfl⟩, by rw [← hes]; exact Nat.le_refl 2, 5000001, by omega, rfl⟩
  refine ⟨⟨fun _ => some ⟨es, 5000001⟩, fun _ => none⟩, text ['P', 'K'] ++ [3#8, 4#8], ?_⟩
  have hfo : [(nameOf gapSet ⟨0, 0⟩, data')] = folder es (text ['b']) := by rw [← hes]; rfl
  rw [hfo]
  refine C90_zipped_partial debug rnd fm _ id (fun l => .refl l) _ rfl _ es h
    (text ['b']) (nameOf gapSet ⟨0, 0⟩) (by rw [← hes]; exact ⟨_, .tail _ (.head _), rfl⟩) ⟨gapSet, rfl⟩ ?_ ?_
  · intro x hx _ _
    rw [← hes] at hx
    simp only [List.mem_cons, List.not_mem_nil, or_false] at hx
    rcases hx with rfl | rfl <;> rfl
  · rw [← hes]
    intro n
    show (∃ f ∈ [nameOf gapSet ⟨0, 0⟩, nameOf gapSet ⟨0, 0⟩], low f = n) ↔ ∃ f ∈ [nameOf gapSet ⟨0, 0⟩], low f = n
    simp

end Fox
