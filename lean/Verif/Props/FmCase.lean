import Verif.Props.Fm
/-
Single density tracks, concretely.
-/
namespace Fox.Fm
open Fox.Spec Fox.S34
open FmDisk (cellsOfByte plain mark At MarkAt First Scanned Usual idField dataField Room Recorded record Spaced dataBits
  falseMark NoFalse recordedMarks gapOf bytesOf sectorOf)

instance (l : List Recorded) : Decidable (NoFalse l) := by unfold NoFalse; infer_instance

theorem spaced_of {l : List Recorded} (h : ∀ i ∈ List.range l.length, (l.getD i (false, 0)).1 = true → 3 ≤ i ∧
    ∀ k ∈ List.range 3, (l.getD (i - 3 + k) (false, 0)).1 = false) : Spaced l := by
  intro i hi
  by_cases hl : i < l.length
  · obtain ⟨h1, h2⟩ := h i (List.mem_range.2 hl) hi
    exact ⟨h1, fun k hk => h2 k (List.mem_range.2 hk)⟩
  · rw [List.getD_eq_getElem?_getD, List.getElem?_eq_none (by omega)] at hi
    cases hi

/-- A track of one sector, and one of two. -/
def oneSector : List Recorded := gapOf 16 0xFF#8 ++ sectorOf 0 0 1 0 0xFB#8 (List.replicate 128 0xE5#8)
def twoSectors (d : Byte) : List Recorded :=
  gapOf 16 0xFF#8 ++ sectorOf 0 0 1 0 d (List.replicate 128 0xE5#8) ++ sectorOf 0 0 2 0 0xFB#8 (List.replicate 128 0xE5#8)

theorem one_spaced : Spaced oneSector := spaced_of (by decide +kernel)
theorem one_clean : NoFalse oneSector := by decide +kernel
theorem one_marks : recordedMarks oneSector = [(304, 0xFE#8), (688, 0xFB#8)] := by decide +kernel
theorem two_spaced : Spaced (twoSectors 0xFB#8) := spaced_of (by decide +kernel)
theorem two_clean : NoFalse (twoSectors 0xFB#8) := by decide +kernel
theorem two_marks : recordedMarks (twoSectors 0xFB#8) = [(304, 0xFE#8), (688, 0xFB#8), (3312, 0xFE#8), (3696, 0xFB#8)] := by
  decide +kernel
theorem del_spaced : Spaced (twoSectors 0xF8#8) := spaced_of (by decide +kernel)
theorem del_clean : NoFalse (twoSectors 0xF8#8) := by decide +kernel
theorem del_marks : recordedMarks (twoSectors 0xF8#8) = [(304, 0xFE#8), (688, 0xF8#8), (3312, 0xFE#8), (3696, 0xFB#8)] := by
  decide +kernel

theorem usual_of {l : List Recorded} (hs : Spaced l) (hn : NoFalse l)
    (hm : ∀ x ∈ recordedMarks l, x.1 ≠ 0 ∧ x.2 ≠ 0xFC#8) : Usual (record l) := by
  refine ⟨fun d h => ?_, fun p _ h => ?_⟩
  · exact (hm _ ((record_marks hs hn _ _).1 h)).1 rfl
  · exact (hm _ ((record_marks hs hn _ _).1 h)).2 rfl

theorem one_usual : Usual (record oneSector) := usual_of one_spaced one_clean (by rw [one_marks]; decide)
theorem two_usual : Usual (record (twoSectors 0xFB#8)) := usual_of two_spaced two_clean (by rw [two_marks]; decide)
theorem del_usual : Usual (record (twoSectors 0xF8#8)) := usual_of del_spaced del_clean (by rw [del_marks]; decide)

theorem one_scanned : Scanned (record oneSector) 0 [(304, 0xFE#8), (688, 0xFB#8)] := by
  have := (C91_standard one_spaced one_clean).2
  rw [one_marks] at this
  exact this

theorem two_scanned : Scanned (record (twoSectors 0xFB#8)) 0 [(304, 0xFE#8), (688, 0xFB#8), (3312, 0xFE#8), (3696, 0xFB#8)] := by
  have := (C91_standard two_spaced two_clean).2
  rw [two_marks] at this
  exact this

/-- The track of one sector loads. -/
theorem one_loads (debug : Bool) (rnd : Nat → Bool) (amiga : AmigaScan) :
    ∃ t, load debug rnd amiga (record oneSector) = .ok t := by
  refine (C91_loads_partial one_usual one_scanned (by decide)).1 ?_
  rw [record_length, show oneSector.length = 204 by decide +kernel]
  refine ⟨fun _ => by omega, fun h => absurd h (by decide), fun h => absurd h (by decide), fun _ _ => by omega, trivial⟩

/-- **C91 is false of the code: the second half.** A standard track of two sectors of 128 bytes is not loaded: the
program panics. -/
theorem C91_false_half (debug : Bool) (rnd : Nat → Bool) (amiga : AmigaScan) :
    load debug rnd amiga (record (gapOf 16 0xFF#8 ++ sectorOf 0 0 1 0 0xFB#8 (List.replicate 128 0xE5#8) ++
      sectorOf 0 0 2 0 0xFB#8 (List.replicate 128 0xE5#8))) = .error .panic := by
  refine (C91_loads_partial (bits := record (twoSectors 0xFB#8)) two_usual two_scanned (by decide)).2 ?_
  rw [record_length, show (twoSectors 0xFB#8).length = 392 by decide +kernel]
  intro h
  have := h.2.2.2.2.2.2.2.1 rfl rfl
  omega

/-- The id field of the sector is there in the standard way. -/
theorem one_id : At (record oneSector) 304 (idField 0 0 1 0 ++ plain (List.replicate 6 0xFF#8)) := by
  unfold At
  decide +kernel

/-- The theorems on ids and on reading apply to it. -/
example (debug : Bool) (rnd : Nat → Bool) (amiga : AmigaScan) (q : Query) (n offset : Option Nat) (scope : Scope) :
    ∃ t r, load debug rnd amiga (record oneSector) = .ok t ∧
      (∃ x ∈ t.items, x.start = 304 ∧ ∃ bad miss, x.elem = .header ⟨0, 0, 1, 0⟩ bad miss) ∧
      t.readSector q n offset scope false = .ok r ∧ r.readBuf = [] := by
  obtain ⟨t, ht⟩ := one_loads debug rnd amiga
  obtain ⟨r, h1, h2⟩ := C91_false_read one_usual one_scanned (by decide) ht (by
    intro p hp
    simp only [List.mem_cons, List.not_mem_nil, or_false] at hp
    rcases hp with h | h
    · injection h with h _
      subst h
      exact ⟨0, 0, 1, 0, _, rfl, one_id⟩
    · injection h with _ h
      cases h) q n offset scope
  exact ⟨t, r, ht, C91_ids one_usual one_scanned ht (by simp) rfl one_id, h1, h2⟩

/-- The track with a deleted sector: it loads, and the second sector is lost. -/
example (debug : Bool) (rnd : Nat → Bool) (amiga : AmigaScan) :
    ∃ t, load debug rnd amiga (record (twoSectors 0xF8#8)) = .ok t ∧ ∀ x ∈ t.items, x.start < 688 := by
  have hs : Scanned (record (twoSectors 0xF8#8)) 0 [(304, 0xFE#8)] := by
    have := (C91_standard del_spaced del_clean).2
    rw [del_marks] at this
    exact this
  obtain ⟨t, ht⟩ := (C91_loads_partial (debug := debug) (rnd := rnd) (amiga := amiga) del_usual hs (by decide)).1 (by
    rw [record_length, show (twoSectors 0xF8#8).length = 392 by decide +kernel]
    exact ⟨fun _ => by omega, fun h => absurd h (by decide), trivial⟩)
  exact ⟨t, ht, C91_false_deleted del_spaced del_clean del_usual (by rw [del_marks]; simp) ht (by rw [del_marks]; rfl)⟩

/-- A sector whose data are FF FF FF FF C7 and so on: what comes behind is lost. -/
example : ∃ a b x, sectorOf 0 0 1 0 0xFB#8 ([0xFF#8, 0xFF#8, 0xFF#8, 0xFF#8, 0xC7#8] ++ List.replicate 123 0xE5#8) =
    a ++ [(false, 0xFF#8), (false, 0xFF#8), (false, 0xFF#8), (false, 0xFF#8), (false, 0xC7#8), (false, x)] ++ b := by
  let w := sectorOf 0 0 1 0 0xFB#8 ([0xFF#8, 0xFF#8, 0xFF#8, 0xFF#8, 0xC7#8] ++ List.replicate 123 0xE5#8)
  exact ⟨w.take 31, w.drop 37, 0xE5#8, by decide +kernel⟩

end Fox.Fm
