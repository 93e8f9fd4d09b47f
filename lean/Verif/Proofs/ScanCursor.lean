import Verif.Model.BitTrack
import Verif.Model.Disk
namespace Fox
open S34

/-! ### Scanning moves the cursor only -/

theorem nextBits_cursor (rnd : Nat → Bool) : ∀ (k : Nat) (s : Mfm), ∃ c, (s.nextBits rnd k).2 = { s with cursor := c }
  | 0, s => ⟨s.cursor, rfl⟩
  | k + 1, s => by
    obtain ⟨c, h⟩ := nextBits_cursor rnd k (s.next rnd).2
    exact ⟨c, h⟩

theorem readBytes_cursor (rnd : Nat → Bool) : ∀ (k : Nat) (s : Mfm), ∃ c, (s.readBytes rnd k).2 = { s with cursor := c }
  | 0, s => ⟨s.cursor, rfl⟩
  | k + 1, s => by
    obtain ⟨c1, h1⟩ := nextBits_cursor rnd 8 s
    obtain ⟨c, h⟩ := readBytes_cursor rnd k (s.nextBits rnd 8).2
    refine ⟨c, ?_⟩
    show ((s.nextBits rnd 8).2.readBytes rnd k).2 = _
    rw [h, h1]

theorem crc16_cursor (s : Mfm) (rnd : Nat → Bool) (a b : Nat) : ∃ c, (crc16 s rnd a b).2 = { s with cursor := c } := by
  obtain ⟨c, h⟩ := readBytes_cursor rnd ((b - a) / 16 + 2) (s.seekStart a)
  exact ⟨c, h⟩

theorem scanStep_cursor (rnd : Nat → Bool) (st : ScanState) (m : MarkerItem) :
    ∃ c, (scanStep rnd st m).stream = { st.stream with cursor := c } := by
  have key : ∀ (p : Option Marker) (k : Marker), st.lastMarker = p → m.kind = k →
      ∃ c, (scanStep rnd st m).stream = { st.stream with cursor := c } := by
    intro p k hp hk
    unfold scanStep
    rw [hp, hk]
    rcases p with _ | p
    · cases k <;> exact ⟨st.stream.cursor, rfl⟩
    · cases p <;> cases k <;> first
        | exact ⟨st.stream.cursor, rfl⟩
        | exact crc16_cursor _ _ _ _
  exact key _ _ rfl rfl

theorem scanFold_cursor (rnd : Nat → Bool) : ∀ (ms : List MarkerItem) (st : ScanState),
    ∃ c, (ms.foldl (scanStep rnd) st).stream = { st.stream with cursor := c }
  | [], st => ⟨st.stream.cursor, rfl⟩
  | m :: ms, st => by
    obtain ⟨c1, h1⟩ := scanStep_cursor rnd st m
    obtain ⟨c, h⟩ := scanFold_cursor rnd ms (scanStep rnd st m)
    refine ⟨c, ?_⟩
    rw [List.foldl_cons, h, h1]

theorem scanMetadata_cursor (s : Mfm) (rnd : Nat → Bool) (ms : List MarkerItem) :
    ∃ c, (scanMetadata s rnd ms).2 = { s with cursor := c } := scanFold_cursor rnd ms { stream := s }

theorem markers_keep (ms : List (Marker × Nat)) : ∀ s : Mfm, (setTrackMarkers s ms).weakMask = s.weakMask := by
  induction ms with
  | nil => intro s; rfl
  | cons m ms ih =>
    intro s
    unfold setTrackMarkers at ih ⊢
    rw [List.foldl_cons, ih]
    simp only [Mfm.writeRawBuf]

theorem format_weakMask {t t' : Track} {rnd : Nat → Bool} {std : Standard} {ids : List Chsn} {pat : List Byte} {g : Nat}
    (h : t.format rnd std ids pat g = .ok t') : t'.data.weakMask = t.data.weakMask := by
  unfold Track.format at h
  split at h
  · cases h
  · rename_i bytes ms _
    simp only at h
    split at h
    · cases h
    · rename_i cm _
      cases h
      simp only
      obtain ⟨c, hc⟩ := scanMetadata_cursor { setTrackMarkers (t.data.replace (encode bytes false)) ms with
        clockMap := { (setTrackMarkers (t.data.replace (encode bytes false)) ms).clockMap with bits := cm } } rnd
        (scanMarkers (setTrackMarkers (t.data.replace (encode bytes false)) ms))
      rw [hc]
      simp only [markers_keep]
      rfl

theorem emptyBit_clear {ch : Ch} {cells : Nat} {b : Bool} {t : Track}
    (h : Disk.emptyBit ch .mfm cells (some b) = .ok (.bit ch t)) : ∀ x ∈ t.data.weakMask.bits, x = false := by
  unfold Disk.emptyBit Mfm.new at h
  simp only [List.length_replicate, Option.getD_none, Nat.lt_irrefl, if_false] at h
  cases h
  intro x hx
  exact (List.mem_replicate.1 hx).2

theorem emptyBit_mask {ch : Ch} {cells : Nat} {b : Bool} {t : Track}
    (h : Disk.emptyBit ch .mfm cells (some b) = .ok (.bit ch t)) : t.data.weakMask.bits.length = cells := by
  unfold Disk.emptyBit Mfm.new at h
  simp only [List.length_replicate, Option.getD_none, Nat.lt_irrefl, if_false] at h
  cases h
  show (List.replicate _ false).length = cells
  rw [List.length_replicate]; simp

end Fox
