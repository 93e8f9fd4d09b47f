import Verif.Proofs.Exists
/-
C09: writes to sectors under a deleted data mark.
-/
namespace Fox
open Fox.Spec Fox.S34

theorem zipWith_xor_self : ∀ bs : List Bool,
    List.zipWith (· ^^ ·) bs bs = List.replicate bs.length false
  | [] => rfl
  | x :: bs => by
    rw [List.zipWith_cons_cons, zipWith_xor_self bs, Bool.xor_self]; rfl

/-- Feeding the same bits to two different registers leaves them different. -/
theorem crcOfBits_inj (bs : List Bool) {a b : BitVec 16} (h : crcOfBits a bs = crcOfBits b bs) : a = b := by
  have h1 := crcOfBits_linear bs bs rfl a b
  rw [h, BitVec.xor_self, zipWith_xor_self, crcOfBits_zeros] at h1
  have := crcSteps_eq_zero h1
  have h2 : a ^^^ b ^^^ b = 0#16 ^^^ b := by rw [this]
  rw [BitVec.xor_assoc, BitVec.xor_self] at h2
  simpa using h2

/-- The CRC a write to a deleted sector records is never the CRC of the sector. -/
theorem deleted_crc_wrong {x : Sec} (hdel : x.del = true) (buf : List Byte) :
    (x.written buf).crc ≠ (x.written buf).goodCrc := by
  intro h
  have e1 : (x.written buf).crc = crc3740 buf (some (crc3740 idamBytes)) := by
    unfold Sec.written; simp only [hdel, if_true]
  have e2 : (x.written buf).goodCrc = crc3740 buf (some (crc3740 ddamBytes)) := by
    have : (x.written buf).goodCrc = crc3740 (ddamBytes ++ buf) := by
      unfold Sec.goodCrc Sec.written; simp only [hdel, dataMark, if_true]; rfl
    rw [this, C10_incremental]
  rw [e1, e2, (C10_is_crc16_3740 buf _).1, (C10_is_crc16_3740 buf _).1] at h
  have := crcOfBits_inj _ h
  exact absurd this (by decide +kernel)

/-- **C09 is false of the code.** On *every* well-formed track, for *every* sector under a deleted data
mark and *every* buffer of the sector's size: the write reports success; reading back returns the written
bytes, but the recorded CRC differs from the computed one (while the flag `data_crc_error` is not
raised); and after a rescan the sector is reported with a data CRC error. -/
theorem C09_false_deleted_crc {t : Track} {iam : Option Nat} {a b : List Sec} {x : Sec}
    (h : TrackOk t iam (a ++ x :: b)) (hdel : x.del = true) (q : Query)
    (ha : ∀ y ∈ a, agrees q y.id = false) (hx : agrees q x.id = true) (buf : List Byte)
    (hl : buf.length = x.data.length) (debug : Bool) :
    ∃ t', t.writeSector q none buf true debug = .ok ({}, t') ∧
      (∀ rnd, ∃ r, t'.readSector rnd q none none .dataOnly debug = .ok r ∧ r.bytes = buf ∧
        r.dataCrcError = false ∧ ∃ recorded computed, r.dataCrc = some (recorded, computed) ∧
          recorded ≠ computed) ∧
      ∀ rnd, ∃ t2, t'.rescan34 rnd = .ok t2 ∧
        ∀ rnd', ∃ r, t2.readSector rnd' q none none .dataOnly debug = .ok r ∧ r.bytes = buf ∧
          r.dataCrcError = true := by
  have ha' : ∀ y ∈ a, ¬ Hit q ((none : Option Nat).getD 0) y := by
    intro y hy; rw [hit_none, ha y hy]; simp
  have hx' : Hit q ((none : Option Nat).getD 0) x := (hit_none _ _).2 hx
  have hx2 : Hit q ((none : Option Nat).getD 0) (x.written buf) := (hit_none _ _).2 hx
  obtain ⟨t', h1, h2, _⟩ := h.writeSector q none ha' hx' debug buf hl
  rw [hdel] at h1
  have hbad := deleted_crc_wrong hdel buf
  refine ⟨t', h1, ?_, ?_⟩
  · intro rnd
    refine ⟨_, h2.readSector rnd q none ha' hx2 debug, ?_, rfl, _, _, rfl, hbad⟩
    rw [readOk_bytes]; rfl
  · intro rnd
    obtain ⟨t2, g1, g2, _⟩ := h2.rescan rnd
    refine ⟨t2, g1, ?_⟩
    intro rnd'
    rw [List.map_append, List.map_cons] at g2
    have := g2.readSector rnd' q none (by
      intro y hy
      obtain ⟨z, hz, rfl⟩ := List.mem_map.1 hy
      rw [hit_none]
      show ¬ agrees q z.id = true
      rw [ha z hz]; simp) (x := (x.written buf).rescanned) ((hit_none _ _).2 hx) debug
    refine ⟨_, this, ?_, ?_⟩
    · rw [readOk_bytes]; rfl
    · show ((x.written buf).crc != (x.written buf).goodCrc) = true
      simpa using hbad

/-- **C09, the part that holds.** On every well-formed track, a successful write to a sector under a
*normal* data mark is read back with equal checksums, before and after a rescan; the contents of a
deleted sector are read back as written too.  Missing: a valid checksum for deleted sectors (refuted
above). -/
theorem C09_partial {t : Track} {iam : Option Nat} {a b : List Sec} {x : Sec}
    (h : TrackOk t iam (a ++ x :: b)) (q : Query)
    (ha : ∀ y ∈ a, agrees q y.id = false) (hx : agrees q x.id = true) (buf : List Byte)
    (hl : buf.length = x.data.length) (debug : Bool) :
    ∃ t', t.writeSector q none buf x.del debug = .ok ({}, t') ∧
      ∀ rnd, ∃ r, t'.readSector rnd q none none .dataOnly debug = .ok r ∧ r.bytes = buf ∧
        r.deletedMark = x.del ∧ (x.del = false → cleanRead r = true) := by
  have ha' : ∀ y ∈ a, ¬ Hit q ((none : Option Nat).getD 0) y := by
    intro y hy; rw [hit_none, ha y hy]; simp
  have hx' : Hit q ((none : Option Nat).getD 0) x := (hit_none _ _).2 hx
  have hx2 : Hit q ((none : Option Nat).getD 0) (x.written buf) := (hit_none _ _).2 hx
  obtain ⟨t', h1, h2, _⟩ := h.writeSector q none ha' hx' debug buf hl
  refine ⟨t', h1, fun rnd => ⟨_, h2.readSector rnd q none ha' hx2 debug, ?_, rfl, ?_⟩⟩
  · rw [readOk_bytes]; rfl
  · intro hd
    obtain ⟨c1, c2, c3⟩ := clean_written hd buf
    unfold cleanRead readOk
    simp [c1, c2, c3]

/-! ### A track with a deleted sector -/

def exDeleted : Sec := ⟨12, 60, ⟨0, 0, 1, 0⟩, List.replicate 128 0xE5#8,
  crc3740 (markBytes .ddam ++ List.replicate 128 0xE5#8), true, false⟩

def exDeletedBytes : List Byte :=
  List.replicate 12 syncByte ++ withCrc (markBytes .idam ++ idBytes exDeleted.id) ++
    List.replicate 38 gapByte ++ withCrc (markBytes .ddam ++ exDeleted.data) ++ List.replicate 20 gapByte

/-- The hypotheses of both theorems hold of some track with a deleted sector. -/
theorem exDeleted_ok : ∃ t, TrackOk t none ([] ++ exDeleted :: []) ∧ exDeleted.del = true ∧
    agrees (.ofChsn ⟨0, 0, 1, 0⟩) exDeleted.id = true ∧ exDeleted.data.length = 128 := by
  have hsz : exDeleted.data.length = 128 := List.length_replicate
  have hlen : exDeletedBytes.length = 214 := by
    simp [exDeletedBytes, withCrc_length, markBytes_length, idBytes_length, hsz]
  have hstop : exDeleted.stop = 194 := by
    unfold Sec.stop
    rw [hsz]; rfl
  obtain ⟨t, ht⟩ := trackOk_exists exDeletedBytes [exDeleted] 1 (by decide) (by simp) (by
    intro x hx
    rw [List.mem_singleton.1 hx]
    refine ⟨⟨by decide, by decide, by decide, by decide⟩, hsz, ?_, ?_⟩
    · unfold exDeletedBytes
      simp only [List.append_assoc]
      rw [← List.append_assoc (List.replicate 12 syncByte)]
      refine slice_append_mid _ _ _ _ _ (by rw [List.length_replicate]; rfl) rfl
    · rw [hsz]
      have e : markBytes (dataMark exDeleted.del) ++ exDeleted.data ++ be16 exDeleted.crc =
          withCrc (markBytes .ddam ++ exDeleted.data) := by
        simp only [withCrc, exDeleted, dataMark, if_true]
      rw [e]
      unfold exDeletedBytes
      refine slice_append_mid _ _ _ _ _ ?_ (by simp [withCrc_length, markBytes_length, hsz])
      simp [withCrc_length, markBytes_length, idBytes_length]; rfl) (by
    refine ⟨by decide, by decide, ?_⟩
    show exDeleted.stop ≤ _
    rw [hstop, hlen]; decide) (by
    intro x hx _
    rw [List.mem_singleton.1 hx, hstop]
    left
    unfold exDeletedBytes
    rw [getD_append_right _ _ _ _ (by simp [withCrc_length, markBytes_length, idBytes_length, hsz]),
      getD_replicate]
    simp [withCrc_length, markBytes_length, idBytes_length, hsz])
  exact ⟨t, ht, rfl, by decide, hsz⟩

end Fox
