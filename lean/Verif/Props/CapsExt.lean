import Verif.Props.CapsFormats
/-
C111: an image that loses data.  C112: formats by file extension.  C113: `ImageWriter`.
-/
namespace Fox
open Fox.Spec Fox.Detect

/-! ## C111 -/

/-- A sector of 512 bytes. -/
def filled (c s : Nat) (b : Byte) : MetaSector :=
  { id := ⟨c, 0, s, 2⟩, data := List.replicate 512 b, weak := .empty 512, hole := .empty 512 }

/-- A track of eight sectors. -/
def filledTrack (c : Nat) (b : Byte) : DiskTrack := .sect ⟨⟨c, 0⟩, (List.range 8).map fun s => filled c (s + 1) b⟩

/-- A one-sided disk of 42 cylinders; the last one is filled with `b`. -/
def fortyTwo (b : Byte) : Disk :=
  { res := { sect := true }, pool := (List.range 41).map (fun c => filledTrack c 0#8) ++ [filledTrack 41 b], map0 := List.range 42,
    geometry := ⟨42, 1⟩, spt := some 8 }

/-- No noise. -/
def quiet : Noise := ⟨fun _ => false, fun _ => 0#8⟩

theorem fortyTwo_format (b : Byte) : (fortyTwo b).closestFormat true = some .pc160 := rfl

/-- Two such disks: both require nothing, the one reads 1s where the other reads 2s, and saving succeeds. -/
theorem fortyTwo_fine : ((fortyTwo 1#8).analysis true {}).toOption.map (·.caps) = some 0#32 ∧
    ((fortyTwo 2#8).analysis true {}).toOption.map (·.caps) = some 0#32 ∧
    ((fortyTwo 1#8).readBasic quiet ⟨41, 0⟩ ⟨none, none, 1, none⟩ none).toOption = some (List.replicate 512 1#8) ∧
    ((fortyTwo 2#8).readBasic quiet ⟨41, 0⟩ ⟨none, none, 1, none⟩ none).toOption = some (List.replicate 512 2#8) ∧
    (Raw.save quiet (fortyTwo 1#8)).toOption.isSome = true := by decide +kernel

/-- **C111 fails**, an instance: the disks of 42 cylinders require nothing and are offered the raw format, and the file saved is the same
whatever is on the last cylinder. -/
theorem C111_false_cylinders (e : Format.Extras) (a : DiskAnalysis) (b b' : Byte) (ha : a.caps = 0#32) :
    Offered ⟨fortyTwo b, a⟩ .raw ∧ Format.save e .raw ⟨fortyTwo b, a⟩ = Format.save e .raw ⟨fortyTwo b', a⟩ := by
  refine ⟨((C110_writable _).1 _ _).2 ⟨rfl, Or.inl ⟨rfl, ha⟩⟩, ?_⟩
  · refine C111_false_lost e _ _ .pc160 (fortyTwo_format b) (fortyTwo_format b') fun ch hc => ?_
    replace hc : ch.c < 40 := hc
    show (fortyTwo b).seek ch = (fortyTwo b').seek ch
    unfold Disk.seek Disk.headMap
    by_cases h : ch.h = 0
    · have h1 : ¬ ch.h > 1 := by omega
      simp only [if_neg h1, if_pos h]
      have hm : ∀ b, (fortyTwo b).map0[ch.c]? = some ch.c := fun b => by
        show (List.range 42)[ch.c]? = _
        rw [List.getElem?_range (by omega)]
      have hp : ∀ b, (fortyTwo b).pool[ch.c]? = some (filledTrack ch.c 0#8) := fun b => by
        show ((List.range 41).map (fun c => filledTrack c 0#8) ++ [filledTrack 41 b])[ch.c]? = _
        rw [List.getElem?_append_left (by simp; omega), List.getElem?_map, List.getElem?_range (by omega)]
        rfl
      rw [hm, hm]
      simp only [hp]
    · simp only [if_neg h]
      rfl

/-! ## C112 -/

/-- Every ASCII text is mapped character by character. -/
def Lowers (lower : List Char → List Char) : Prop := ∀ s, (∀ c ∈ s, c.toNat < 128) → lower s = s.map Char.toLower

/-- **C112.** An extension names the one format that advertises it, whatever the case of its letters; an extension no format advertises
names none. -/
theorem C112_by_extension (lower : List Char → List Char) (hl : Lowers lower) (ext : List Char) (ha : ∀ c ∈ ext, c.toNat < 128) (f : Format) :
    Format.ofExt lower ext = some f ↔ ext.map Char.toLower ∈ f.extensions := by
  unfold Format.ofExt
  rw [hl ext ha]
  generalize ext.map Char.toLower = e
  have disjoint : ∀ f g : Format, ∀ x ∈ f.extensions, x ∈ g.extensions → f = g := by
    intro f g
    cases f <;> cases g <;> decide
  constructor
  · intro h
    have := List.find?_some h
    exact List.contains_iff_mem.1 this
  · intro h
    cases hf : Format.all.find? fun f => f.extensions.contains e with
    | none =>
      have := List.find?_eq_none.1 hf f (all_formats f)
      exact absurd (List.contains_iff_mem.2 h) this
    | some g =>
      have hg : g.extensions.contains e = true := List.find?_some (p := fun (f : Format) => f.extensions.contains e) hf
      have := List.contains_iff_mem.1 hg
      rw [disjoint g f e this h]

theorem mem_extInsert (e x : List Char) : ∀ l, x ∈ Format.extInsert e l ↔ x = e ∨ x ∈ l
  | [] => by simp [Format.extInsert]
  | y :: rest => by
    rw [Format.extInsert]
    split
    · simp
    · rw [List.mem_cons, mem_extInsert e x rest, List.mem_cons]
      constructor
      · rintro (h | h | h)
        · exact Or.inr (Or.inl h)
        · exact Or.inl h
        · exact Or.inr (Or.inr h)
      · rintro (h | h | h)
        · exact Or.inr (Or.inl h)
        · exact Or.inl h
        · exact Or.inr (Or.inr h)

theorem mem_extDedup (x : List Char) : ∀ l, x ∈ Format.extDedup l ↔ x ∈ l
  | [] => by simp [Format.extDedup]
  | [a] => by simp [Format.extDedup]
  | a :: b :: rest => by
    rw [Format.extDedup]
    split
    · next h =>
      rw [mem_extDedup x (b :: rest), h]
      simp
    · rw [List.mem_cons, mem_extDedup x (b :: rest)]
      simp

/-- **C112.** The list of the supported extensions: exactly those some format advertises, each once, and each of them names a format. -/
theorem C112_supported (lower : List Char → List Char) (hl : Lowers lower) :
    (∀ e, e ∈ Format.supported ↔ ∃ f : Format, e ∈ f.extensions) ∧ Format.supported.Nodup ∧
    ∀ e ∈ Format.supported, ∃ f, Format.ofExt lower e = some f ∧ e ∈ f.extensions := by
  have h1 : ∀ e, e ∈ Format.supported ↔ ∃ f : Format, e ∈ f.extensions := by
    intro e
    unfold Format.supported
    rw [mem_extDedup]
    have : ∀ l : List (List Char), e ∈ l.foldr Format.extInsert [] ↔ e ∈ l := by
      intro l
      induction l with
      | nil => simp
      | cons x rest ih => rw [List.foldr_cons, mem_extInsert, ih, List.mem_cons]
    rw [this, List.mem_flatMap]
    exact ⟨fun ⟨f, _, h⟩ => ⟨f, h⟩, fun ⟨f, h⟩ => ⟨f, all_formats f, h⟩⟩
  refine ⟨h1, by decide +kernel, fun e he => ?_⟩
  obtain ⟨f, hf⟩ := (h1 e).1 he
  have hlow : ∀ x ∈ f.extensions, (∀ c ∈ x, c.toNat < 128) ∧ x.map Char.toLower = x := by cases f <;> decide
  exact ⟨f, (C112_by_extension lower hl e (hlow e hf).1 f).2 (by rw [(hlow e hf).2]; exact hf), hf⟩

example (lower : List Char → List Char) (hl : Lowers lower) : Format.ofExt lower ['8', '6', 'F'] = some .f86 ∧
    Format.ofExt lower ['A', 'd', 'f'] = some .raw ∧ Format.ofExt lower ['t', 'x', 't'] = none := by
  refine ⟨(C112_by_extension lower hl _ (by decide) _).2 (by decide), (C112_by_extension lower hl _ (by decide) _).2 (by decide), ?_⟩
  cases h : Format.ofExt lower ['t', 'x', 't'] with
  | none => rfl
  | some f =>
    have := (C112_by_extension lower hl _ (by decide) f).1 h
    revert this
    cases f <;> decide

/-! ## C113 -/

/-- What `std::fs::write` promises: if it succeeds the file at the path has the contents given; other files are left alone in any case. -/
def Stores {Path : Type} (store : Path → List Byte → (Path → Option (List Byte)) → (Path → Option (List Byte)) × Except Err Unit) : Prop :=
  ∀ p bs fs, ((store p bs fs).2 = .ok () → (store p bs fs).1 p = some bs) ∧ ∀ q, q ≠ p → (store p bs fs).1 q = fs q

/-- **C113 (partial).** For every image, format, path and file system: a writer without destination or format is refused; if saving fails, no
file changes — one already at the path stays as it was —; given a path and no writer, success means that the file at the path is
what saving in the format gives, and all other files are as before; given a writer, it has received what saving in the format gives.
Missing: both (`C113_false_both`). -/
theorem C113_write_partial {Path : Type} (w : Writer Path) (e : Format.Extras) (m : Image)
    (store : Path → List Byte → (Path → Option (List Byte)) → (Path → Option (List Byte)) × Except Err Unit) (hst : Stores store)
    (files : Path → Option (List Byte)) :
    (w.format = none ∨ (w.path = none ∧ w.writer = false) → w.write e m store files = ({ files }, .error .parameter)) ∧
    (∀ f x, w.format = some f → Format.save e f m = .error x → ((w.write e m store files).1.files = files ∧
      ∃ y, (w.write e m store files).2 = .error y)) ∧
    (∀ f p, w.format = some f → w.path = some p → w.writer = false → (w.write e m store files).2 = .ok () →
      ∃ bs, Format.save e f m = .ok bs ∧ (w.write e m store files).1.files p = some bs ∧
        ∀ q, q ≠ p → (w.write e m store files).1.files q = files q) ∧
    (∀ f, w.format = some f → w.writer = true → (w.write e m store files).2 = .ok () →
      ∃ bs, Format.save e f m = .ok bs ∧ (w.write e m store files).1.received = some bs) := by
  obtain ⟨wr, path, format⟩ := w
  refine ⟨?_, ?_, ?_, ?_⟩
  · rintro (h | ⟨h1, h2⟩)
    · cases (show format = none from h)
      unfold Writer.write
      simp only [ite_self]
    · cases (show path = none from h1)
      cases (show wr = false from h2)
      rfl
  · intro f x hf hs
    cases (show format = some f from hf)
    unfold Writer.write
    cases wr <;> cases path <;> simp [hs]
  · intro f p hf hp hw ho
    cases (show format = some f from hf)
    cases (show path = some p from hp)
    cases (show wr = false from hw)
    unfold Writer.write at ho ⊢
    simp only [Option.isNone_some, Bool.false_and, Bool.false_eq_true, if_false] at ho ⊢
    cases hs : Format.save e f m with
    | error x => simp only [hs] at ho; cases ho
    | ok bs =>
      simp only [hs] at ho ⊢
      exact ⟨bs, rfl, (hst p bs files).1 ho, (hst p bs files).2⟩
  · intro f hf hw ho
    cases (show format = some f from hf)
    cases (show wr = true from hw)
    unfold Writer.write at ho ⊢
    simp only [Bool.not_true, Bool.and_false, Bool.false_eq_true, if_false, if_true] at ho ⊢
    cases hs : Format.save e f m with
    | error x => simp only [hs] at ho; cases ho
    | ok bs => simp only [hs] at ho ⊢; exact ⟨bs, rfl, rfl⟩

/-- **C113 fails** if both a writer and a path are given: the path is ignored, no file is ever written. -/
theorem C113_false_both {Path : Type} (w : Writer Path) (hw : w.writer = true) (e : Format.Extras) (m : Image)
    (store : Path → List Byte → (Path → Option (List Byte)) → (Path → Option (List Byte)) × Except Err Unit)
    (files : Path → Option (List Byte)) : (w.write e m store files).1.files = files := by
  obtain ⟨wr, path, format⟩ := w
  cases (show wr = true from hw)
  unfold Writer.write
  cases format with
  | none => simp
  | some f =>
    simp only [Bool.not_true, Bool.and_false, Bool.false_eq_true, if_false, if_true]
    cases Format.save e f m <;> rfl

/-- Saving an empty image of bitstreams as PRI to a path and to a writer succeeds and writes no file. -/
example (e : Format.Extras) (hc : e.comment = none) (store : Nat → List Byte → (Nat → Option (List Byte)) → (Nat → Option (List Byte)) × Except Err Unit) :
    let r := ((({} : Writer Nat).withFormat .pri).withPath 0).withWriter.write e ⟨{ res := { bit := true } }, {}⟩ store fun _ => none
    r.2 = .ok () ∧ r.1.files 0 = none := by
  have : Format.save e .pri ⟨{ res := { bit := true } }, {}⟩ = Pri.save e.rate none { res := { bit := true } } := by
    show Pri.save e.rate e.comment _ = _
    rw [hc]
  obtain ⟨bs, hbs, -⟩ := C47_false_empty e.rate (fun a _ => a) (fun _ => false)
  rw [hbs] at this
  unfold Writer.write Writer.withWriter Writer.withPath Writer.withFormat
  simp only [this]
  exact ⟨rfl, rfl⟩

/-- A file system in which every write succeeds. -/
example : Stores (Path := Nat) fun p bs fs => (fun q => if q = p then some bs else fs q, .ok ()) :=
  fun p bs fs => ⟨fun _ => by simp, fun q hq => by simp [hq]⟩

end Fox
