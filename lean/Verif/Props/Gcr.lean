import Verif.Model.Gcr
import Verif.Model.Sauce
import Verif.Proofs.Pri
import Verif.Props.Mfm
/-
C151: what can be done with a GCR track.
-/
namespace Fox
open Spec S34

theorem gcr_writes (ms : List (Marker × Nat)) (s : Mfm) :
    ms.foldl (fun s m => (Gcr.writeRawBuf s (be64 m.1.code) (m.2 * 16)).1) s = s := by
  induction ms generalizing s with
  | nil => rfl
  | cons m ms ih => rw [List.foldl_cons, ih]; rfl

/-- **C151 is false of the code: formatting.**  Formatting a GCR track, with any sectors, is reported as done, but
leaves a track without a single cell, without sectors, and of which no byte can be read. -/
theorem C151_false_format (t : Track) (std : Standard) (ids : List Chsn) (pat : List Byte) (gap3 : Nat)
    (hp : pat ≠ []) (hc : t.data.clockMap.bits ≠ []) :
    ∃ t', Gcr.format t std ids pat gap3 = .ok t' ∧ t'.data.bits.bits = [] ∧ t'.sectorIds = [] ∧
      DiskTrack.packed t'.data.bits.bits = [] ∧ Gcr.read t' none none = .ok ([], 0, 0) := by
  obtain ⟨r, hr, -⟩ := createClockMap_total [] t.data.clockMap.bits hc .nil (by simp)
  obtain ⟨bytes, ms, hb⟩ : ∃ bytes ms, formatTrackAsBytes std t.data.len ids pat gap3 = .ok (bytes, ms) := by
    unfold formatTrackAsBytes; rw [if_neg hp]; exact ⟨_, _, rfl⟩
  unfold Gcr.format
  simp only [hb, gcr_writes, Gcr.scanMarkers, Gcr.encode, List.map_nil, Mfm.replace, hr]
  exact ⟨_, rfl, rfl, rfl, by simp [DiskTrack.packed, BitRing.ofBits], by simp [Gcr.read, Mfm.len, BitRing.ofBits, Gcr.readDecodedBuf, BitRing.len]⟩

/-- **C151 (partial).**  Formatting a GCR track is refused, and then changes nothing, when there is no fill pattern. -/
theorem C151_refused (t : Track) (std : Standard) (ids : List Chsn) (gap3 : Nat) : Gcr.format t std ids [] gap3 = .error .parameter := rfl

/-- **C151 is false of the code: writing bytes.**  Of bytes written at a place of a GCR track, none arrive: the cells are as
before, and so what is read there is what was there before. -/
theorem C151_false_write (s : Mfm) (buf : List Byte) (off : Nat) :
    (Gcr.writeRawBuf s buf off).2 = 0 ∧ (Gcr.writeRawBuf s buf off).1.readRawBuf buf.length off = s.readRawBuf buf.length off := ⟨rfl, rfl⟩

/-- **C151 is false of the code: reading a track.**  A GCR track is read as zeros, whatever its cells, for every place in it. -/
theorem C151_false_zeros (t : Track) (i : Nat) (hi : i < t.data.len) (overdump : Option Nat) :
    ∃ n, Gcr.read t (some i) overdump = .ok (List.replicate (n + overdump.getD 0) 0, n, t.data.len) ∧
      16 * n < t.data.len + 16 ∧ t.data.len ≤ 16 * n := by
  refine ⟨t.data.len / 16 + if t.data.len % 16 > 0 then 1 else 0, ?_, ?_, ?_⟩
  · unfold Gcr.read
    have h0 : ¬ ((i : Int) < 0) := by omega
    have h1 : ¬ ((i : Int).toNat ≥ t.data.len) := by simpa using hi
    simp only [if_neg h0, if_neg h1, Gcr.readDecodedBuf]
  · split <;> omega
  · split <;> omega

/-- **C151 (partial).**  Places outside the track are refused: at or beyond its end, or before its start. -/
theorem C151_outside (t : Track) (overdump : Option Nat) (o : Int) (h : t.data.len ≤ o ∨ o < -(t.data.len : Int)) :
    Gcr.read t (some o) overdump = .error .parameter := by
  unfold Gcr.read
  rcases h with h | h
  · have h0 : ¬ (o < 0) := by omega
    have h1 : o.toNat ≥ t.data.len := by omega
    simp only [if_neg h0, if_pos h1]
  · have h0 : o < 0 := by omega
    have h1 : (t.data.len : Int) + o < 0 := by omega
    simp only [if_pos h0, if_pos h1]

/-- **C151 (partial).**  The cells of a GCR track, eight to a byte, are read as they are. -/
theorem C151_raw_partial (s : Mfm) (hf : s.bits.wrap = s.bits.len) (n off : Nat) (hfit : off + 8 * n ≤ s.len) (i k : Nat) (hi : i < n) (hk : k < 8) :
    ((s.readRawBuf n off).getD i 0).getMsbD k = s.bits.bits.getD (off + 8 * i + k) false := by
  unfold Mfm.readRawBuf
  rw [getD_map_range _ _ _ _ hi]
  unfold Mfm.readRawU8
  rw [byteOfBits_getMsbD _ _ hk]
  unfold Mfm.len BitRing.len at hfit
  unfold BitRing.len at hf
  rw [BitRing.bitAt_lt hf (by omega), Nat.mul_comm i 8]

/-- **C151.**  A single byte written to the cells of a GCR track is read from there, and no other cell changes. -/
theorem C151_byte (s : Mfm) (hf : s.bits.wrap = s.bits.len) (off : Nat) (b : Byte) (hfit : off + 8 ≤ s.len) :
    (Gcr.writeRawU8 s off b).readRawU8 off = b ∧
    ∀ i, i < off ∨ off + 8 ≤ i → (Gcr.writeRawU8 s off b).bits.bits.getD i false = s.bits.bits.getD i false := by
  unfold Mfm.len BitRing.len at hfit
  unfold BitRing.len at hf
  have hl : (byteBits b).length = 8 := by simp [byteBits]
  obtain ⟨g1, g2, g3, g4⟩ := setMany_spec (byteBits b) s.bits off hf (by omega)
  constructor
  · have key : ∀ k < 8, (s.bits.setMany off (byteBits b)).bitAt (off + k) = b.getMsbD k := fun k hk => by
      rw [BitRing.bitAt_lt (by rw [g1, g3]; exact hf) (by omega), g4, if_pos (by omega), Nat.add_sub_cancel_left, byteBits_getD b k hk]
    unfold Mfm.readRawU8 Gcr.writeRawU8
    generalize s.bits.setMany off (byteBits b) = R at key
    dsimp only
    exact byteOfBits_eq (fun k => R.bitAt (off + k)) b key
  · intro i hi
    unfold Gcr.writeRawU8
    rw [g4, if_neg (by omega)]

/-- **C151.**  Read as a stream of bytes, a GCR track of `n` clear clock cells gives every other cell: the decoding of MFM. -/
theorem C151_stream (s : Mfm) (rnd : Nat → Bool) (hc : ∀ i, s.clockMap.bitAt i = false) (hw : ∀ i, s.weakMask.bitAt i = false) (n c i k : Nat)
    (hi : i < n) (hk : k < 8) :
    ((({ s with cursor := c } : Mfm).readBytes rnd n).1.getD i 0).getMsbD k = s.bits.bitAt (c + 16 * i + 2 * k + 1) := by
  rw [readBytes_aligned n c (fun j _ => .inr (hc _))]
  unfold Mfm.readDecodedBuf
  simp only
  rw [getD_map_range _ _ _ _ hi]
  unfold Mfm.readDecodedU8
  rw [byteOfBits_getMsbD _ _ hk]
  unfold Mfm.nudge Mfm.cell
  simp only [hc, hw, Bool.and_false, Bool.false_eq_true, if_false]
  congr 1; omega

/-- The hypotheses are met by the tracks that are loaded: 16 cells of a GCR disk. -/
example : (Sauce.gcrTrack [0xD5, 0xAA] 16).data.clockMap.bits ≠ [] ∧ (Sauce.gcrTrack [0xD5, 0xAA] 16).data.bits.wrap = (Sauce.gcrTrack [0xD5, 0xAA] 16).data.bits.len ∧
    0 + 8 * 2 ≤ (Sauce.gcrTrack [0xD5, 0xAA] 16).data.len ∧ (Sauce.gcrTrack [0xD5, 0xAA] 16).data.readRawBuf 2 0 = [0xD5, 0xAA] ∧
    Gcr.read (Sauce.gcrTrack [0xD5, 0xAA] 16) (some 0) none = .ok ([0], 1, 16) := by decide

theorem bitAt_clear (n i : Nat) : (BitRing.ofBits (List.replicate n false)).bitAt i = false := by
  unfold BitRing.bitAt BitRing.ofBits
  simp only [List.length_replicate, List.getD_eq_getElem?_getD, List.getElem?_replicate]
  split
  · rfl
  · split <;> rfl

/-- The hypotheses of `C151_stream` are met by every track that is loaded. -/
example (data : List Byte) (cells : Nat) : (∀ i, (Sauce.gcrTrack data cells).data.clockMap.bitAt i = false) ∧
    ∀ i, (Sauce.gcrTrack data cells).data.weakMask.bitAt i = false := ⟨bitAt_clear _, bitAt_clear _⟩

end Fox
