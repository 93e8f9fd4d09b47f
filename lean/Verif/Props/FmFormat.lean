import Verif.Model.FmFormat
import Verif.Model.BitTrack
import Verif.Props.FmCodec
import Verif.Proofs.Pri
import Verif.Proofs.ScanCursor
/-
C152: formatting a track of a single density disk.
-/
namespace Fox.Fm
open Fox.Spec Fox.S34

theorem setAll_ring {r : BitRing} (hr : r.wrap = r.bits.length) (bs : List Bool) (off : Nat) {l : List Bool} (h : setAll r.bits off bs = .ok l) (hne : bs ≠ []) :
    (r.setMany off bs).bits = l ∧ (r.setMany off bs).wrap = (r.setMany off bs).bits.length := by
  have hfit : off + bs.length ≤ r.bits.length := by
    by_contra hc
    rw [setAll_panic bs r.bits off (by omega) hne] at h
    cases h
  obtain ⟨l', h1, h2, h3⟩ := setAll_ok bs r.bits off hfit
  rw [h1] at h
  injection h with h
  subst h
  obtain ⟨g1, g2, g3, g4⟩ := setMany_spec bs r off hr hfit
  refine ⟨ext_getD _ _ false (by rw [g3, h2]) fun i _ => by rw [g4, h3], by rw [g1, g3, hr]⟩

theorem bitsOf_be64 (x : BitVec 64) : bitsOf (be64 x) ≠ [] := by
  intro e
  have := bitsOf_length (be64 x)
  rw [e] at this
  simp [be64] at this

theorem marks_ring : ∀ (ms : List (Marker × Nat)) (s s' : Fm) (m : Mfm), m.bits.bits = s.bits → m.bits.wrap = m.bits.bits.length →
    setTrackMarkers s ms = .ok s' → (S34.setTrackMarkers m ms).bits.bits = s'.bits
  | [], s, s', m, hb, hw, h => by
    injection h with h
    subst h
    exact hb
  | (k, off) :: ms, s, s', m, hb, hw, h => by
    rw [setTrackMarkers] at h
    unfold writeRawBuf at h
    cases hs : setAll s.bits (off * 16) (bitsOf (be64 k.code)) with
    | error e => simp only [hs] at h; cases h
    | ok l =>
      simp only [hs] at h
      rw [← hb] at hs
      obtain ⟨g1, g2⟩ := setAll_ring hw _ _ hs (bitsOf_be64 _)
      unfold S34.setTrackMarkers
      rw [List.foldl_cons]
      exact marks_ring ms { s with bits := l } s' (m.writeRawBuf (be64 k.code) (off * 16)) g1 g2 h

theorem seekStart_bits {s s1 : Fm} {a : Nat} (h : s.seekStart a = .ok s1) : s1.bits = s.bits := by
  unfold seekStart at h
  by_cases h1 : 2 * a < s.clockMap.length
  · rw [if_pos h1] at h
    simp only at h
    generalize (if s.clockMap.getD (2 * a) false = true then 2 * a else 2 * a + 1) = c at h
    by_cases h2 : c > s.bits.length
    · rw [if_pos h2] at h; injection h
    · rw [if_neg h2] at h
      injection h with h
      rw [← h]
  · rw [if_neg h1] at h; injection h

theorem crc16_bits {s s' : Fm} {rnd : Nat → Bool} {a b : Nat} {x : BitVec 16 × BitVec 16} (h : crc16 s rnd a b = .ok (x, s')) : s'.bits = s.bits := by
  unfold crc16 at h
  cases hs : s.seekStart a with
  | error e => rw [hs] at h; injection h
  | ok s1 =>
    rw [hs] at h
    simp only at h
    obtain ⟨c, hc⟩ := readBytes_keep rnd ((b - a) / 16 + 2) s1
    injection h with h
    injection h with h1 h2
    rw [← h2, hc]
    exact (seekStart_bits hs : s1.bits = s.bits)

theorem scanStep_bits {rnd : Nat → Bool} {st st' : ScanState} {m : MarkerItem} (h : scanStep rnd st m = .ok st') : st'.stream.bits = st.stream.bits := by
  unfold scanStep at h
  split at h
  · split at h
    · cases h
    · cases h; rfl
  · split at h
    · cases h
    · simp only at h
      split at h
      · cases h
      · rename_i r hr
        cases h
        exact crc16_bits (x := r.1) (s' := r.2) hr
  · split at h
    · cases h
    · simp only at h
      split at h
      · cases h
      · rename_i r hr
        cases h
        exact crc16_bits (x := r.1) (s' := r.2) hr
  · cases h; rfl

theorem scanAll_bits {rnd : Nat → Bool} : ∀ (ms : List MarkerItem) (st st' : ScanState), scanAll rnd st ms = .ok st' → st'.stream.bits = st.stream.bits
  | [], st, st', h => by cases h; rfl
  | m :: ms, st, st', h => by
    rw [scanAll] at h
    cases hs : scanStep rnd st m with
    | error e => rw [hs] at h; cases h
    | ok s1 =>
      rw [hs] at h
      rw [scanAll_bits ms s1 st' h, scanStep_bits hs]

theorem scanMetadata_bits {s s' : Fm} {rnd : Nat → Bool} {ms : List MarkerItem} {l : List Inst} (h : scanMetadata s rnd ms = .ok (l, s')) : s'.bits = s.bits := by
  unfold scanMetadata at h
  cases hs : scanAll rnd { stream := s } ms with
  | error e => rw [hs] at h; cases h
  | ok st =>
    rw [hs] at h
    injection h with h
    injection h with h1 h2
    rw [← h2, scanAll_bits ms _ _ hs]

/-- What formatting is made of. -/
theorem format_split {debug : Bool} {rnd : Nat → Bool} {t t' : FmTrack} {std : Standard} {ids : List Chsn} {pat : List Byte} {gap3 : Nat}
    (h : t.format debug rnd std ids pat gap3 = .ok t') : ∃ bytes ms s, formatTrackAsBytes std t.data.len ids pat gap3 = .ok (bytes, ms) ∧
      setTrackMarkers (t.data.replace (encode bytes false)) ms = .ok s ∧ t'.data.bits = s.bits := by
  unfold FmTrack.format at h
  split at h
  · cases h
  · rename_i bytes ms hb
    split at h
    · cases h
    · rename_i s hs
      refine ⟨bytes, ms, s, hb, hs, ?_⟩
      split at h
      · cases h
      · split at h
        · cases h
        · split at h
          · cases h
          · rename_i items s2 hm
            injection h with h
            rw [← h]
            exact (scanMetadata_bits hm).trans rfl

/-- **C152 is false of the code: the recording.**  Formatting a track of a single density disk puts the very same cells on it as formatting one
of as many cells of a double density disk. -/
theorem C152_false_cells {debug : Bool} {rnd rnd' : Nat → Bool} {t t' : FmTrack} {m m' : Track} {std : Standard} {ids : List Chsn} {pat : List Byte} {gap3 : Nat}
    (hlen : m.data.len = t.data.len) (hf : t.format debug rnd std ids pat gap3 = .ok t') (hm : m.format rnd' std ids pat gap3 = .ok m') :
    t'.data.bits = m'.data.bits.bits := by
  obtain ⟨bytes, ms, s, hb, hs, e⟩ := format_split hf
  rw [e]
  unfold Track.format at hm
  rw [hlen, hb] at hm
  simp only at hm
  split at hm
  · cases hm
  · cases hm
    simp only
    obtain ⟨c, hc⟩ := scanMetadata_cursor { S34.setTrackMarkers (m.data.replace (Fox.encode bytes false)) ms with
        clockMap := { (S34.setTrackMarkers (m.data.replace (Fox.encode bytes false)) ms).clockMap with bits := _ } } rnd'
        (S34.scanMarkers (S34.setTrackMarkers (m.data.replace (Fox.encode bytes false)) ms))
    rw [hc]
    exact (marks_ring ms (t.data.replace (encode bytes false)) s (m.data.replace (Fox.encode bytes false)) rfl rfl hs).symm

/-! No byte of a formatted track is recorded in single density. -/

theorem setAll_before {bs l l' : List Bool} {i : Nat} (h : setAll l i bs = .ok l') (hne : bs ≠ []) {j : Nat} (hj : j < i) : l'.getD j false = l.getD j false := by
  have hfit : i + bs.length ≤ l.length := by
    by_contra hc
    rw [setAll_panic bs l i (by omega) hne] at h
    cases h
  obtain ⟨l2, h1, h2, h3⟩ := setAll_ok bs l i hfit
  rw [h1] at h
  injection h with h
  rw [← h, h3, if_neg (by omega)]

theorem marks_before : ∀ (ms : List (Marker × Nat)) (s s' : Fm), (∀ m ∈ ms, 1 ≤ m.2) → setTrackMarkers s ms = .ok s' →
    ∀ j < 16, s'.bits.getD j false = s.bits.getD j false
  | [], s, s', _, h, j, _ => by cases h; rfl
  | m :: ms, s, s', hm, h, j, hj => by
    rw [setTrackMarkers] at h
    unfold writeRawBuf at h
    cases hs : setAll s.bits (m.2 * 16) (bitsOf (be64 m.1.code)) with
    | error e => simp only [hs] at h; cases h
    | ok l =>
      simp only [hs] at h
      rw [marks_before ms _ s' (fun x hx => hm x (List.mem_cons_of_mem _ hx)) h j hj]
      exact setAll_before hs (bitsOf_be64 _) (by have := hm m List.mem_cons_self; omega)

theorem fmt_start (std : Standard) (pat : List Byte) (gap3 : Nat) : ∀ (ids : List Chsn) (st : FmtState), st.bytes.head? = some gapByte → (∀ m ∈ st.markers, 1 ≤ m.2) →
    (ids.foldl (formatSector std pat gap3) st).bytes.head? = some gapByte ∧ ∀ m ∈ (ids.foldl (formatSector std pat gap3) st).markers, 1 ≤ m.2
  | [], _, h1, h2 => ⟨h1, h2⟩
  | x :: ids, st, h1, h2 => by
    rw [List.foldl_cons]
    obtain ⟨r, hr⟩ : ∃ r, st.bytes = gapByte :: r := by
      cases hb : st.bytes with
      | nil => rw [hb] at h1; cases h1
      | cons a r => rw [hb] at h1; injection h1 with h1; exact ⟨r, by rw [h1]⟩
    refine fmt_start std pat gap3 ids _ ?_ ?_
    · unfold formatSector; simp only [hr, List.cons_append, List.head?_cons]
    · unfold formatSector
      simp only [hr, List.cons_append, List.length_cons]
      intro m hm
      simp only [List.mem_append, List.mem_singleton] at hm
      rcases hm with (hm | hm) | hm
      · exact h2 m hm
      · rw [hm]; simp only; omega
      · rw [hm]; simp only; omega

/-- **C152 is false of the code: single density.**  After a track of a single density disk has been formatted, not even its first byte is
recorded in single density: whatever the byte, its clock bits are not all there. -/
theorem C152_false_density {debug : Bool} {rnd : Nat → Bool} {t t' : FmTrack} {std : Standard} {ids : List Chsn} {pat : List Byte} {gap3 : Nat}
    (hpos : 0 < t.data.len) (hf : t.format debug rnd std ids pat gap3 = .ok t') (b : Byte) : t'.data.bits.take 16 ≠ FmDisk.cellsOfByte 0xFF#8 b := by
  obtain ⟨bytes, ms, s, hb, hs, e⟩ := format_split hf
  have hpre : (formatPreamble std).bytes.head? = some gapByte ∧ ∀ m ∈ (formatPreamble std).markers, 1 ≤ m.2 := by
    cases std <;> decide
  obtain ⟨g1, g2⟩ := fmt_start std pat gap3 ids _ hpre.1 hpre.2
  have hb2 : bytes.head? = some gapByte ∧ ∀ m ∈ ms, 1 ≤ m.2 := by
    unfold formatTrackAsBytes at hb
    split at hb
    · cases hb
    · injection hb with hb
      injection hb with e1 e2
      refine ⟨?_, by rw [← e2]; exact g2⟩
      rw [← e1]
      have hk : (t.data.len + 16 - 1) / 16 ≠ 0 := by omega
      rw [List.head?_take, if_neg hk]
      split
      · rw [List.head?_append, g1]; rfl
      · exact g1
  obtain ⟨r, hr⟩ : ∃ r, bytes = gapByte :: r := by
    cases hb' : bytes with
    | nil => rw [hb'] at hb2; cases hb2.1
    | cons a r => rw [hb'] at hb2; have := hb2.1; injection this with this; exact ⟨r, by rw [this]⟩
  have h2 : t'.data.bits.getD 2 false = false := by
    rw [e, marks_before ms _ s hb2.2 hs 2 (by omega), hr]
    rfl
  intro hc
  have : (t'.data.bits.take 16).getD 2 false = true := by rw [hc]; rfl
  rw [List.getD_eq_getElem?_getD, List.getElem?_take, if_pos (by omega), ← List.getD_eq_getElem?_getD, h2] at this
  cases this

/-- A blank track of `n` cells. -/
def blankFm (n : Nat) : FmTrack :=
  { data := { bits := List.replicate n false, clockMap := List.replicate n false, weakMask := List.replicate n false } }

set_option maxRecDepth 20000 in
theorem blank_formats : (match (blankFm 320).format false (fun _ => false) .iso [] [0xF6#8] 4 with
    | .ok t' => t'.items.isEmpty | .error _ => false) = true := by decide +kernel

/-- The hypotheses of `C152_false_density` are met. -/
example : ∃ t', 0 < (blankFm 320).data.len ∧ (blankFm 320).format false (fun _ => false) .iso [] [0xF6#8] 4 = .ok t' := by
  have h := blank_formats
  cases hf : (blankFm 320).format false (fun _ => false) .iso [] [0xF6#8] 4 with
  | ok t' => exact ⟨t', by decide +kernel, rfl⟩
  | error e => rw [hf] at h; cases h

/-- **C152, what is refused.**  A fill pattern without bytes is refused, whatever the track. -/
theorem C152_refused_partial (debug : Bool) (rnd : Nat → Bool) (t : FmTrack) (std : Standard) (ids : List Chsn) (gap3 : Nat) :
    ∃ e, t.format debug rnd std ids [] gap3 = .error e := by
  cases hf : t.format debug rnd std ids [] gap3 with
  | error e => exact ⟨e, rfl⟩
  | ok t' =>
    obtain ⟨bytes, ms, s, hb, -, -⟩ := format_split hf
    simp [formatTrackAsBytes] at hb

theorem marks_panic : ∀ (ms : List (Marker × Nat)) (s : Fm) (m : Marker × Nat), m ∈ ms → s.bits.length < m.2 * 16 + 64 → setTrackMarkers s ms = .error .panic
  | k :: ms, s, m, hm, hl => by
    rw [setTrackMarkers]
    unfold writeRawBuf
    have h64 : ∀ x : BitVec 64, (bitsOf (be64 x)).length = 64 := fun x => by rw [bitsOf_length]; simp [be64]
    by_cases hk : s.bits.length < k.2 * 16 + 64
    · rw [setAll_panic _ _ _ (by rw [h64]; exact hk) (bitsOf_be64 _)]
    · obtain ⟨l, h1, h2, -⟩ := setAll_ok (bitsOf (be64 k.1.code)) s.bits (k.2 * 16) (by rw [h64]; omega)
      rw [h1]
      simp only
      rcases List.mem_cons.mp hm with e | e
      · subst e; exact absurd hl hk
      · exact marks_panic ms { s with bits := l } m e (by rw [h2]; exact hl)

theorem fmt_room (std : Standard) (pat : List Byte) (gap3 : Nat) : ∀ (ids : List Chsn) (st : FmtState), st.bytes.length ≤ (ids.foldl (formatSector std pat gap3) st).bytes.length ∧
    (∀ m ∈ st.markers, m ∈ (ids.foldl (formatSector std pat gap3) st).markers) ∧
    (ids ≠ [] → ∃ m ∈ (ids.foldl (formatSector std pat gap3) st).markers, st.bytes.length + 50 * ids.length ≤ m.2)
  | [], st => ⟨le_refl _, fun _ h => h, fun h => absurd rfl h⟩
  | x :: ids, st => by
    rw [List.foldl_cons]
    obtain ⟨g1, g2, g3⟩ := fmt_room std pat gap3 ids (formatSector std pat gap3 st x)
    have hg : 22 ≤ std.gap2 := by cases std <;> decide
    have hlen : st.bytes.length + 50 ≤ (formatSector std pat gap3 st x).bytes.length := by
      simp [formatSector, withCrc, idamBytes, idBytes, syncLen]; omega
    have hd : ∃ m ∈ (formatSector std pat gap3 st x).markers, st.bytes.length + 50 ≤ m.2 := by
      refine ⟨_, by unfold formatSector; simp only; exact List.mem_append_right _ List.mem_cons_self, ?_⟩
      simp [withCrc, idamBytes, idBytes, syncLen]; omega
    refine ⟨by omega, fun m hm => g2 m (by unfold formatSector; simp only; exact List.mem_append_left _ (List.mem_append_left _ hm)), fun _ => ?_⟩
    by_cases hi : ids = []
    · subst hi
      obtain ⟨m, h1, h2⟩ := hd
      exact ⟨m, g2 m h1, by simpa using h2⟩
    · obtain ⟨m, h1, h2⟩ := g3 hi
      exact ⟨m, h1, by rw [List.length_cons]; omega⟩

/-- **C152 is false of the code: the room.**  Asked for more sectors than there is room for (here: not even 50 bytes for each), formatting a
single density track does not fail but panics, whatever the sectors, the fill pattern and the gap. -/
theorem C152_false_room (debug : Bool) (rnd : Nat → Bool) (t : FmTrack) (std : Standard) (ids : List Chsn) (pat : List Byte) (gap3 : Nat)
    (hne : ids ≠ []) (hp : pat ≠ []) (hl : t.data.len ≤ 16 * (50 * ids.length)) : t.format debug rnd std ids pat gap3 = .error .panic := by
  obtain ⟨-, -, g⟩ := fmt_room std pat gap3 ids (formatPreamble std)
  obtain ⟨m, h1, h2⟩ := g hne
  unfold FmTrack.format formatTrackAsBytes
  rw [if_neg hp]
  simp only
  rw [marks_panic _ _ m h1]
  generalize hb : (List.take ((t.data.len + 16 - 1) / 16) _) = bytes
  have hbl : bytes.length ≤ 50 * ids.length := by rw [← hb, List.length_take]; omega
  have : (t.data.replace (encode bytes false)).bits.length = bytes.length * 16 := by
    show (Fox.encode bytes false).length = _
    rw [encode_length]; omega
  rw [this]; omega

example : [(⟨0, 0, 1, 0⟩ : Chsn)] ≠ [] ∧ [0xF6#8] ≠ [] ∧ (blankFm 800).data.len ≤ 16 * (50 * [(⟨0, 0, 1, 0⟩ : Chsn)].length) := by
  refine ⟨by decide, by decide, by show (List.replicate 800 false).length ≤ _; rw [List.length_replicate]; decide⟩

end Fox.Fm
