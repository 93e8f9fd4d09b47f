import Verif.Proofs.Detect
import Verif.Props.Pri
import Verif.Props.Psi
import Verif.Props.Pfi
import Verif.Props.F86
import Verif.Props.Raw
import Verif.Props.Td0
import Verif.Props.Hfe
import Verif.Props.Tc
import Verif.Props.Scp
/-
C87: what a file is.  C88: saved images are known again.  C89: archives of one file.
-/
namespace Fox
open Spec Spec.FileKind Detect

/-! ## C87 -/

/-- **C87.** No file begins with the marks of two formats. -/
theorem C87_one_mark (f : List Byte) (F G : Format) (hF : Bears f F) (hG : Bears f G) : F = G := bears_unique f F G hF hG

/-- What a file of a format is taken for. -/
def taken : Format → Container
  | .kryo => .kryo
  | F => .file F

theorem plain_ok (f : List Byte) (F : Format) : plain f = .ok (taken F) ↔ detect f = some F := by
  unfold plain taken
  cases h : detect f with
  | none => simp
  | some G => cases G <;> cases F <;> simp

theorem plain_unknown (f : List Byte) : plain f = .error .unknownFormat ↔ detect f = none := by
  unfold plain
  cases h : detect f with
  | none => simp
  | some G => cases G <;> simp

/-- **C87 (partial).** A file that is no archive is taken for a raw image exactly if it has the size of one; else for an ImageDisk
file exactly if the text at its beginning has the line of one; else for a file of another format exactly if it bears its mark; and
it is unknown exactly if none of these.  Missing: the size and the text come before the marks, so that a file of another format
is mistaken if it happens to have the size of a raw image (`C87_false_size`) or such a line in its text
(`C87_false_text`). -/
theorem C87_told_apart_partial (u : Unpack) (sort : List Path → List Path) (f : List Byte) (ha : ¬ Archive f) :
    (container u sort f = .ok (.file .raw) ↔ f.length ∈ rawSizes) ∧
    (container u sort f = .ok (.file .imd) ↔ f.length ∉ rawSizes ∧ HasImdLine f) ∧
    (∀ F, F ≠ .raw → F ≠ .imd → (container u sort f = .ok (taken F) ↔ f.length ∉ rawSizes ∧ ¬ HasImdLine f ∧ Bears f F)) ∧
    (container u sort f = .error .unknownFormat ↔ f.length ∉ rawSizes ∧ ¬ HasImdLine f ∧ ∀ F, ¬ Bears f F) := by
  rw [container_plain u sort f ha]
  refine ⟨?_, ?_, fun F h1 h2 => ?_, ?_⟩
  · rw [← detect_raw]; exact plain_ok f .raw
  · rw [← detect_imd]; exact plain_ok f .imd
  · rw [← detect_mark f F h1 h2]; exact plain_ok f F
  · rw [← detect_none]; exact plain_unknown f

theorem bears_append (f r : List Byte) (F : Format) (h : Bears f F) : Bears (f ++ r) F := by
  obtain ⟨hl, m, hm, s, e⟩ := h
  exact ⟨by rw [List.length_append]; omega, m, hm, s ++ r, by rw [e, List.append_assoc]⟩

/-- The mark of a format, filled up to `n` bytes with zeros. -/
def bare (F : Format) (n : Nat) : List Byte := (marks F).headD [] ++ List.replicate (n - ((marks F).headD []).length) 0#8

theorem bare_length (F : Format) (n : Nat) (h : 32 ≤ n) : (bare F n).length = n := by
  have : ((marks F).headD []).length ≤ 32 := by cases F <;> decide
  unfold bare
  rw [List.length_append, List.length_replicate]
  omega

theorem bare_bears (F : Format) (n : Nat) (h1 : F ≠ .raw) (h2 : F ≠ .imd) (h : 256 ≤ n) : Bears (bare F n) F := by
  refine ⟨?_, (marks F).headD [], ?_, _, rfl⟩
  · rw [bare_length F n (by omega)]
    have : headerSize F ≤ 256 := by cases F <;> decide
    omega
  · cases F <;> simp_all [marks]

theorem no_mark_archive : ∀ F ∈ Format.all, ∀ m ∈ marks F, m.take (text ['P', 'K'] ++ [3#8, 4#8]).length ≠ (text ['P', 'K'] ++ [3#8, 4#8]).take m.length ∧
    m.take [0x1F#8, 0x8B#8, 8#8].length ≠ [0x1F#8, 0x8B#8, 8#8].take m.length := by decide +kernel

theorem bears_no_archive (f : List Byte) (F : Format) (h : Bears f F) : ¬ Archive f := by
  obtain ⟨_, m, hm, s, e⟩ := h
  rintro (⟨r, e'⟩ | ⟨r, e'⟩)
  · exact (no_mark_archive F (mem_all F) m hm).1 (prefix_cases (e.symm.trans e'))
  · exact (no_mark_archive F (mem_all F) m hm).2 (prefix_cases (e.symm.trans e'))

/-- **C87 is false of the code: sizes.** Whatever the format, a file that begins with its mark is taken for a raw image if it has
the size of one. -/
theorem C87_false_size (u : Unpack) (sort : List Path → List Path) (F : Format) (h1 : F ≠ .raw) (h2 : F ≠ .imd) :
    (∀ f, Bears f F → f.length ∈ rawSizes → container u sort f = .ok (.file .raw)) ∧
    ∃ f, Bears f F ∧ f.length ∈ rawSizes := by
  refine ⟨fun f hb hl => ?_, bare F (360 * 1024), bare_bears F _ h1 h2 (by decide), ?_⟩
  · exact (C87_told_apart_partial u sort f (bears_no_archive f F hb)).1.2 hl
  · rw [bare_length F _ (by decide)]; decide

/-- A TransCopy file, the comment of which is `IMD 1.18: 1/02/2003 4:05:06`. -/
def tcComment : List Byte :=
  [0x5A#8, 0xA5#8] ++ text ['I', 'M', 'D', ' ', '1', '.', '1', '8', ':', ' ', '1', '/', '0', '2', '/', '2', '0', '0', '3', ' ', '4', ':',
    '0', '5', ':', '0', '6'] ++ List.replicate 300 0#8

/-- **C87 is false of the code: texts.** A file with the mark of TransCopy and a line of ImageDisk in its comment is taken for an
ImageDisk file. -/
theorem C87_false_text (u : Unpack) (sort : List Path → List Path) :
    Bears tcComment .tc ∧ container u sort tcComment = .ok (.file .imd) := by
  have hb : Bears tcComment .tc := ⟨by decide +kernel, [0x5A#8, 0xA5#8], by decide, _, rfl⟩
  refine ⟨hb, (C87_told_apart_partial u sort tcComment (bears_no_archive _ _ hb)).2.1.2 ⟨by decide +kernel, ?_⟩⟩
  rw [← detects_imd]
  decide +kernel

/-- **C87.** The loaders that look at the mark of their format load nothing that does not bear it: whatever they load is found
out to be of their format, if it is so at all, by `C87_told_apart_partial`. -/
theorem C87_accepted (f : List Byte) (debug trace : Bool) (rnd : Nat → Bool) (alt : BitVec 32 → BitVec 32 → BitVec 32)
    (fm : Flux.FmCodec) (d : Disk) :
    ((∃ x, Pri.load alt rnd d f = .ok x) → Bears f .pri) ∧
    ((∃ x, Psi.load d f = .ok x) → Bears f .psi) ∧
    ((∃ x, Pfi.load debug f = .ok x) → Bears f .pfi) ∧
    ((∃ x, Td0.load d f = .ok x) → Bears f .td0) ∧
    ((∃ x, Hfe.load debug rnd d f = .ok x) → Bears f .hfe) ∧
    ((∃ x, Tc.load debug trace rnd d f = .ok x) → Bears f .tc) ∧
    ((∃ x, Scp.load debug rnd fm d f = .ok x) → Bears f .scp) := by
  have chunk : ∀ (mx : Nat) (c : Pce.Chunk) (rest : List Byte), Pce.readChunk mx f = .ok (c, rest) →
      8 ≤ f.length ∧ ∃ r, f = c.id.bytes ++ r := by
    intro mx c rest h
    unfold Pce.readChunk at h
    split at h
    · simp only at h
      split at h
      · cases h
      · split at h
        · cases h
        · split at h
          · cases h
          · split at h
            · cases h
            · cases h
              exact ⟨by simp only [List.length_cons]; omega, _, rfl⟩
    · cases h
  refine ⟨?_, ?_, ?_, ?_, ?_, ?_, ?_⟩
  · rintro ⟨x, h⟩
    unfold Pri.load at h
    cases hc : Pce.readChunk Pce.maxChunk f with
    | error e => rw [hc] at h; cases h
    | ok y =>
      obtain ⟨c, rest⟩ := y
      rw [hc] at h
      simp only at h
      by_cases hi : c.id ≠ Pce.idPri
      · rw [if_pos hi] at h; cases h
      · obtain ⟨hl, r, e⟩ := chunk _ _ _ hc
        rw [Decidable.not_not.1 hi] at e
        exact ⟨hl, _, List.mem_singleton.2 rfl, r, e⟩
  · rintro ⟨x, h⟩
    unfold Psi.load at h
    cases hc : Pce.readChunk Pce.maxChunk f with
    | error e => rw [hc] at h; cases h
    | ok y =>
      obtain ⟨c, rest⟩ := y
      rw [hc] at h
      simp only at h
      by_cases hi : c.id ≠ Pce.idPsi
      · rw [if_pos hi] at h; cases h
      · obtain ⟨hl, r, e⟩ := chunk _ _ _ hc
        rw [Decidable.not_not.1 hi] at e
        exact ⟨hl, _, List.mem_singleton.2 rfl, r, e⟩
  · rintro ⟨x, h⟩
    unfold Pfi.load at h
    cases hc : Pce.readChunk Pce.maxChunkPfi f with
    | error e => rw [hc] at h; cases h
    | ok y =>
      obtain ⟨c, rest⟩ := y
      rw [hc] at h
      simp only at h
      by_cases hi : c.id ≠ Pce.idPfi
      · rw [if_pos hi] at h; cases h
      · obtain ⟨hl, r, e⟩ := chunk _ _ _ hc
        rw [Decidable.not_not.1 hi] at e
        exact ⟨hl, _, List.mem_singleton.2 rfl, r, e⟩
  · rintro ⟨x, h⟩
    rw [Td0.load.eq_def] at h
    split at h
    · rename_i i0 i1 _ _ _ _ _ _ _ _ _ _ rest
      by_cases hs : ¬ ((i0 = 0x54#8 ∧ i1 = 0x44#8) ∨ (i0 = 0x74#8 ∧ i1 = 0x64#8))
      · rw [if_pos hs] at h; cases h
      · refine ⟨by simp only [List.length_cons, headerSize]; omega, ?_⟩
        rcases Decidable.not_not.1 hs with ⟨rfl, rfl⟩ | ⟨rfl, rfl⟩
        · exact ⟨text ['T', 'D'], by simp [marks], _, rfl⟩
        · exact ⟨text ['t', 'd'], by simp [marks], _, rfl⟩
    · cases h
  · rintro ⟨x, h⟩
    unfold Hfe.load readAt at h
    by_cases hl : 26 = 0 ∨ 0 + 26 ≤ f.length
    · rw [if_pos hl] at h
      simp only at h
      by_cases hs : f.take 8 ≠ Hfe.signature
      · rw [if_pos hs] at h; cases h
      · refine ⟨by show 26 ≤ f.length; omega, _, List.mem_singleton.2 rfl, f.drop 8, ?_⟩
        conv => lhs; rw [← List.take_append_drop 8 f, Decidable.not_not.1 hs]
        rfl
    · rw [if_neg hl] at h; cases h
  · rintro ⟨x, h⟩
    unfold Tc.load at h
    by_cases hl : f.length < 256
    · rw [if_pos hl] at h; cases h
    · rw [if_neg hl] at h
      by_cases hs : u8At f 0 ≠ 0x5A ∨ u8At f 1 ≠ 0xA5
      · rw [if_pos hs] at h; cases h
      · refine ⟨by show 256 ≤ f.length; omega, _, List.mem_singleton.2 rfl, ?_⟩
        match f, hl, hs with
        | a :: b :: r, _, hs =>
          refine ⟨r, ?_⟩
          have h0 : a.toNat = 0x5A := Decidable.byContradiction fun e => hs (.inl e)
          have h1 : b.toNat = 0xA5 := Decidable.byContradiction fun e => hs (.inr e)
          rw [show a = 0x5A#8 from BitVec.eq_of_toNat_eq h0, show b = 0xA5#8 from BitVec.eq_of_toNat_eq h1]
          rfl
        | [_], hl, _ => simp at hl
        | [], hl, _ => simp at hl
  · rintro ⟨x, h⟩
    unfold Scp.load at h
    cases hh : Scp.header f with
    | error e => rw [hh] at h; cases h
    | ok y =>
      unfold Scp.header at hh
      by_cases hl : f.length < 16
      · rw [if_pos hl] at hh; cases hh
      · rw [if_neg hl] at hh
        by_cases hs : f.take 3 ≠ Scp.signature
        · rw [if_pos hs] at hh; cases hh
        · refine ⟨by show 16 ≤ f.length; omega, _, List.mem_singleton.2 rfl, f.drop 3, ?_⟩
          conv => lhs; rw [← List.take_append_drop 3 f, Decidable.not_not.1 hs]
          rfl

/-- Not vacuous: a line of ImageDisk, and files of all the formats. -/
example : ImdLine (text ['I', 'M', 'D', ' ', '1', '.', '1', '8', ':', ' ', '1', '/', '0', '2', '/', '2', '0', '0', '3', ' ', ' ', '1', '4', ':',
    '0', '5', ':', '0', '6']) :=
  ⟨text ['1'], text ['1', '8'], text [' '], text ['1'], text ['0', '2'], text ['2', '0', '0', '3'], text [' ', ' '], text ['1', '4'],
    text ['0', '5'], text ['0', '6'], by unfold Digits; decide, by unfold Digits; decide, by unfold Blanks; decide,
    .inl (by unfold Digits; decide), by unfold Digits; decide, by unfold Digits; decide, by unfold Blanks; decide,
    .inr (by unfold Digits; decide), by unfold Digits; decide, by unfold Digits; decide, by decide⟩

example : ∀ F ∈ Format.all, F ≠ .raw → F ≠ .imd → detect (bare F 300) = some F := by decide +kernel

end Fox
