import Verif.Model.Async
import Verif.Props.DetectSets
/-
C133: `load_async` and `load`.
-/
namespace Fox
open Spec Spec.FileKind Spec.KryoFile Spec.KryoSet Detect Flux

/-- All the streams load, one after the other, from one state of the disk to another. -/
inductive AllLoad (debug : Bool) (rnd : Nat → Bool) (fm : FmCodec) : Disk × Kryo.Desc → List (Option (List Byte)) → Disk → Prop where
  | done (d : Disk) (q : Kryo.Desc) : AllLoad debug rnd fm (d, q) [] d
  | step (x y : Disk × Kryo.Desc) (f : List Byte) (fs : List (Option (List Byte))) (d : Disk)
      (h : Kryo.load debug rnd fm x.1 x.2 f = (y, .ok ())) (r : AllLoad debug rnd fm y fs d) : AllLoad debug rnd fm x (some f :: fs) d

theorem async_files_iff (debug : Bool) (rnd : Nat → Bool) (fm : FmCodec) : ∀ (fs : List (Option (List Byte))) (d : Disk) (q : Kryo.Desc) (d' : Disk),
    Async.loadFiles debug rnd fm d q fs = .ok d' ↔ AllLoad debug rnd fm (d, q) fs d'
  | [], d, q, d' => by
    rw [Async.loadFiles]
    constructor
    · intro h; cases h; exact .done _ _
    · intro h; cases h; rfl
  | none :: fs, d, q, d' => by
    rw [Async.loadFiles]
    constructor
    · intro h; cases h
    · intro h; cases h
  | some f :: fs, d, q, d' => by
    rw [Async.loadFiles, Async.loadImage]
    constructor
    · intro h
      cases hl : Kryo.load debug rnd fm d q f with
      | mk y r =>
        rw [hl] at h
        cases r with
        | error e => cases e <;> cases h
        | ok w => exact .step _ y _ _ _ hl ((async_files_iff debug rnd fm fs _ _ _).1 h)
    · intro h
      cases h with
      | step x y f fs d h r =>
        rw [h]
        exact (async_files_iff debug rnd fm fs _ _ _).2 r

theorem sync_of_all (debug : Bool) (rnd : Nat → Bool) (fm : FmCodec) {x : Disk × Kryo.Desc} {fs : List (Option (List Byte))} {d : Disk}
    (h : AllLoad debug rnd fm x fs d) : Kryo.loadFiles debug rnd fm x.1 x.2 fs = .ok d := by
  induction h with
  | done d q => rfl
  | step x y f fs d h r ih => rw [Kryo.loadFiles, h]; exact ih

theorem sync_panic (debug : Bool) (rnd : Nat → Bool) (fm : FmCodec) : ∀ (fs : List (Option (List Byte))) (d : Disk) (q : Kryo.Desc),
    Kryo.loadFiles debug rnd fm d q fs = .error .panic → Async.loadFiles debug rnd fm d q fs = .error .io
  | [], d, q, h => by cases h
  | none :: fs, d, q, h => by cases h
  | some f :: fs, d, q, h => by
    rw [Async.loadFiles, Async.loadImage]
    rw [Kryo.loadFiles] at h
    cases hl : Kryo.load debug rnd fm d q f with
    | mk y r =>
      rw [hl] at h
      cases r with
      | error e => cases e <;> first | rfl | cases h
      | ok w => exact sync_panic debug rnd fm fs _ _ h

theorem async_release (debug : Bool) (rnd : Nat → Bool) (fm : FmCodec) : ∀ (fs : List (Option (List Byte))) (d : Disk) (q : Kryo.Desc),
    Async.loadFiles debug rnd fm d q fs ≠ .error .panic
  | [], d, q, h => by cases h
  | none :: fs, d, q, h => by cases h
  | some f :: fs, d, q, h => by
    rw [Async.loadFiles, Async.loadImage] at h
    cases hl : Kryo.load debug rnd fm d q f with
    | mk y r =>
      rw [hl] at h
      cases r with
      | error e => cases e <;> cases h
      | ok w => exact async_release debug rnd fm fs _ _ h

/-- **C133 (partial).** Whatever `load_async` loads, `load` loads with the same result, from whatever file with whatever selection.
Missing: the converse fails for sets in archives (`C133_false_damaged`). -/
theorem C133_same_partial (debug : Bool) (rnd : Nat → Bool) (fm : FmCodec) (u : Unpack) (sort : List Path → List Path)
    (L : Loaders) (hL : L.zipped = loadSet debug rnd fm) (sel : Option Selection) (f : List Byte) (d : Disk)
    (h : Async.load debug rnd fm u sort L sel f = .ok d) : Detect.load u sort L sel f = .ok d := by
  unfold Async.load at h
  unfold Detect.load
  cases hc : container u sort f with
  | error e => rw [hc] at h; cases h
  | ok c =>
    rw [hc] at h
    cases c with
    | file F => exact h
    | resolved F x => exact h
    | kryo => exact h
    | zipped sets =>
      simp only at h ⊢
      cases hs : choose sets sel with
      | error e => rw [hs] at h; cases h
      | ok s =>
        rw [hs] at h
        simp only at h ⊢
        cases hu : u.unzip f with
        | none => rw [hu] at h; cases h
        | some z =>
          rw [hu] at h
          simp only [hL] at h ⊢
          exact sync_of_all debug rnd fm ((async_files_iff debug rnd fm _ _ _ _).1 h)

/-- **C133.** Unless the file is an archive of KryoFlux sets, the two do the same, errors included. -/
theorem C133_single (debug : Bool) (rnd : Nat → Bool) (fm : FmCodec) (u : Unpack) (sort : List Path → List Path)
    (L : Loaders) (sel : Option Selection) (f : List Byte) (h : ∀ sets, container u sort f ≠ .ok (.zipped sets)) :
    Async.load debug rnd fm u sort L sel f = Detect.load u sort L sel f := by
  unfold Async.load Detect.load
  cases hc : container u sort f with
  | error e => rfl
  | ok c =>
    cases c with
    | zipped sets => exact absurd hc (h sets)
    | _ => rfl

/-- **C133.** The set of an archive is loaded by `load_async` exactly if all its streams are there and load in turn; the disk is
the one they make. -/
theorem C133_all (debug : Bool) (rnd : Nat → Bool) (fm : FmCodec) (entries : List (Path × List Byte)) (s : KfSet) (d : Disk) :
    Async.loadSet debug rnd fm entries s = .ok d ↔
      AllLoad debug rnd fm ({ geometry := s.geometry }, {}) (s.files.map fun n => (entries.find? fun x => x.1 == ⟨s.dir, n⟩).map Prod.snd) d :=
  async_files_iff debug rnd fm _ _ _ _

/-- **C133.** A set of an archive never makes `load_async` panic: where `load` panics, it returns an error. -/
theorem C133_no_panic (debug : Bool) (rnd : Nat → Bool) (fm : FmCodec) (entries : List (Path × List Byte)) (s : KfSet) :
    Async.loadSet debug rnd fm entries s ≠ .error .panic ∧
    (loadSet debug rnd fm entries s = .error .panic → Async.loadSet debug rnd fm entries s = .error .io) :=
  ⟨async_release debug rnd fm _ _ _, sync_panic debug rnd fm _ _ _⟩

/-- Two streams of a set in an archive, the first of which is empty. -/
def damagedSet (data : List Byte) : List (Path × List Byte) :=
  [(⟨text ['a'], nameOf gapSet ⟨0, 0⟩⟩, []), (⟨text ['a'], nameOf gapSet ⟨0, 1⟩⟩, data)]

/-- **C133 is false of the code.** In an archive with a set, the first stream of which is empty, `load` loads a disk without tracks
and `load_async` returns an error. -/
theorem C133_false_damaged (debug : Bool) (rnd : Nat → Bool) (fm : FmCodec) (u : Unpack)
    (sort : List Path → List Path) (hs : ∀ l, (sort l).Perm l) (L : Loaders) (hL : L.zipped = loadSet debug rnd fm) (f data : List Byte)
    (h : BigZip u f (damagedSet data)) :
    (∃ d, Detect.load u sort L none f = .ok d ∧ d.pool = []) ∧ ∃ e, Async.load debug rnd fm u sort L none f = .error e := by
  have e := C84_expand [nameOf gapSet ⟨0, 0⟩, nameOf gapSet ⟨0, 1⟩] gapSet ⟨0, 0⟩ (by decide) (by decide) 80 (by omega) (by omega)
    (by decide +kernel) (fun c h1 h2 => by omega)
  have e1 : (grid 80).filter (fun ch => Has [nameOf gapSet ⟨0, 0⟩, nameOf gapSet ⟨0, 1⟩] gapSet ch) = [⟨0, 0⟩, ⟨0, 1⟩] := by decide +kernel
  have e2 : (cylinders [nameOf gapSet ⟨0, 0⟩, nameOf gapSet ⟨0, 1⟩] gapSet 80).length = 1 := by decide +kernel
  have e3 : (KryoSet.sides [nameOf gapSet ⟨0, 0⟩, nameOf gapSet ⟨0, 1⟩] gapSet 80).length = 2 := by decide +kernel
  have lo : low gapSet = gapSet := by decide
  rw [e1, e2, e3, lo] at e
  have hc := big_container u sort f _ h hs ⟨_, .head _, ⟨gapSet, rfl⟩⟩
  obtain ⟨_, _, m, hm, hu⟩ := h
  have hse : setsOf sort ((damagedSet data).map Prod.fst) = [⟨text ['a'], [nameOf gapSet ⟨0, 0⟩, nameOf gapSet ⟨0, 1⟩], ⟨1, 2⟩⟩] := by
    have hf : ((damagedSet data).map Prod.fst).filter (fun p => endsWith firstName p.name) = [⟨text ['a'], nameOf gapSet ⟨0, 0⟩⟩] := by
      show [(⟨text ['a'], nameOf gapSet ⟨0, 0⟩⟩ : Path), ⟨text ['a'], nameOf gapSet ⟨0, 1⟩⟩].filter _ = _
      decide +kernel
    unfold setsOf
    rw [hf, List.perm_singleton.1 (hs _)]
    have : ((damagedSet data).map Prod.fst).map Path.name = [nameOf gapSet ⟨0, 0⟩, nameOf gapSet ⟨0, 1⟩] := rfl
    simp only [List.map_cons, List.map_nil, this, e]
  rw [hse] at hc
  constructor
  · refine ⟨{ res := { flux := true }, geometry := ⟨1, 2⟩ }, ?_, rfl⟩
    unfold Detect.load
    rw [hc]
    simp only [choose, hu, hL]
    rfl
  · refine ⟨.io, ?_⟩
    unfold Async.load
    rw [hc]
    simp only [choose, hu]
    rfl

/-- Such an archive. -/
example (debug : Bool) (rnd : Nat → Bool) (fm : FmCodec) (data : List Byte) :
    ∃ u f, (∃ d, Detect.load u id ⟨fun _ _ => .error .io, .error .io, loadSet debug rnd fm⟩ none f = .ok d ∧ d.pool = []) ∧
      ∃ e, Async.load debug rnd fm u id ⟨fun _ _ => .error .io, .error .io, loadSet debug rnd fm⟩ none f = .error e := by
  have h : BigZip ⟨fun _ => some ⟨damagedSet data, 5000001⟩, fun _ => none⟩ (text ['P', 'K'] ++ [3#8, 4#8]) (damagedSet data) :=
    ⟨⟨[], rfl⟩, by show 2 ≤ 2; omega, 5000001, by omega, rfl⟩
  exact ⟨_, _, C133_false_damaged debug rnd fm _ id (fun l => .refl l) _ rfl _ _ h⟩

/-- A set that loads: the stream of a whole track. -/
example (debug : Bool) (rnd : Nat → Bool) (fm : FmCodec) :
    ∃ d, Async.loadSet debug rnd fm [(⟨[], nameOf gapSet ⟨0, 0⟩⟩, file (wholeTrack 20000) [])] ⟨[], [nameOf gapSet ⟨0, 0⟩], ⟨1, 1⟩⟩ = .ok d := by
  obtain ⟨m', hm', _⟩ := C83_later debug rnd fm ⟨0 / 1, 0 % 1⟩ (byTurns 20000) _ (seenTurns_ne (wholeTrack_good 20000 (by omega) (by omega)).1)
    wholeTrack_dd { geometry := ⟨1, 1⟩ } {} ⟨rfl, fun f e => by cases e⟩
  obtain ⟨d', m2, _⟩ := Kryo.load_step debug rnd fm (S := 1) (C := 1) (Or.inl rfl) (xs := [])
    (Kryo.placed_new (Or.inl rfl) ⟨1, 1⟩) rfl (by decide) {} (file (wholeTrack 20000) []) _
    (C82_revolutions_partial debug _ [] (wholeTrack_good _ (by omega) (by omega)).1 (wholeTrack_good _ (by omega) (by omega)).2) m' hm'
  have hf : ([nameOf gapSet ⟨0, 0⟩].map fun n =>
      (([((⟨[], nameOf gapSet ⟨0, 0⟩⟩ : Path), file (wholeTrack 20000) [])]).find? fun x => x.1 == ⟨[], n⟩).map Prod.snd) =
      [some (file (wholeTrack 20000) [])] := rfl
  refine ⟨d', ?_⟩
  unfold Async.loadSet
  simp only
  rw [hf, Async.loadFiles, Async.loadImage, m2]
  rfl

end Fox
