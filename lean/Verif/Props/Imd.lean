import Verif.Proofs.Imd
import Verif.Props.Psi
/-
C49: IMD images.
-/
namespace Fox
open Spec

/-- Tracks that fit the format, in order; in a build with overflow checks none has more than 127 sectors. -/
structure ImdOk (debug : Bool) (ts : List (Ch × ImdTrk)) : Prop where
  order : InOrder ts
  fits : ∀ t ∈ ts, t.1.c < 256 ∧ t.2.Ok ∧ (debug = true → t.2.secs.length < 128)
  count : ts.length < 65536

theorem imdTracks_chs (ts : List (Ch × ImdTrk)) : (imdTracks ts).map (·.1) = ts.map (·.1) := by
  simp [imdTracks]

theorem imdTracks_inOrder {ts : List (Ch × ImdTrk)} (h : InOrder ts) : InOrder (imdTracks ts) := by
  rw [inOrder_chs, imdTracks_chs, ← inOrder_chs]; exact h

theorem sides_imdTracks (ts : List (Ch × ImdTrk)) : sides (imdTracks ts) = sides ts := by
  have h : ∀ k, (∃ t ∈ imdTracks ts, t.1.h = k) ↔ ∃ t ∈ ts, t.1.h = k := by
    intro k
    constructor
    · rintro ⟨t, ht, e⟩
      obtain ⟨y, hy, rfl⟩ := List.mem_map.1 ht
      exact ⟨y, hy, e⟩
    · rintro ⟨t, ht, e⟩
      exact ⟨_, List.mem_map.2 ⟨t, ht, rfl⟩, e⟩
  unfold sides
  simp only [h]

theorem IInv.sides {st : Imd.State} {ts : List (Ch × List MetaSector)} (h : IInv st ts) (ho : InOrder ts) :
    st.heads.length = Fox.sides ts := by
  rw [h.heads, heads_length]
  · unfold Fox.sides
    simp only [List.mem_map]
  · intro x hx
    obtain ⟨t, ht, rfl⟩ := List.mem_map.1 hx
    obtain ⟨i, hi⟩ := List.getElem?_of_mem ht
    exact (ho i t.1 t.2 hi).1

/-- The tracks that have at least one sector. -/
def withSectors (ts : List (Ch × ImdTrk)) : Nat := (ts.filter fun t => t.2.secs ≠ []).length

theorem imdTracks_withSectors (ts : List (Ch × ImdTrk)) :
    ((imdTracks ts).filter fun t => t.2 ≠ []).length = withSectors ts := by
  unfold imdTracks withSectors
  rw [List.filter_map, List.length_map]
  congr 2
  funext t
  simp

theorem ImdOk.fit {debug : Bool} {ts : List (Ch × ImdTrk)} (h : ImdOk debug ts) :
    ∀ t ∈ ts, t.1.c < 256 ∧ t.1.h < 2 ∧ t.2.Ok ∧ (debug = true → t.2.secs.length < 128) := by
  intro t ht
  obtain ⟨a, b, c⟩ := h.fits t ht
  obtain ⟨i, hi⟩ := List.getElem?_of_mem ht
  exact ⟨a, (h.order i t.1 t.2 hi).1, b, c⟩

theorem imd_file_length (text : List Byte) (ts : List (Ch × ImdTrk)) : ts.length < (imdFile text ts).length := by
  have := flatMap_imd_length ts
  unfold imdFile
  rw [List.length_append, List.length_cons]
  omega

/-- **C49 (partial).** An IMD file loads as exactly the tracks it describes, each with exactly its sectors in
order, with ids (from the maps if there are any), contents, deleted and error flags.  Fewer than five bytes
after the last track are ignored.  The geometry is the number of tracks that have sectors over the number of
sides.  Missing: tracks of more than 127 sectors in a debug build, record types 7 and 8, files without tracks
(see the `C49_false` theorems). -/
theorem C49_load_partial (debug : Bool) (text : List Byte) (htext : ImdText text) (ts : List (Ch × ImdTrk))
    (hts : ImdOk debug ts) (hne : ts ≠ []) (tail : List Byte) (htail : tail.length < 5) :
    ∃ d, Imd.load debug {} (imdFile text ts ++ tail) = .ok d ∧ HasTracks d (imdTracks ts) ∧
      d.geometry = ⟨withSectors ts / sides ts, sides ts⟩ := by
  have e1 : imdFile text ts ++ tail = text ++ 0x1A#8 :: (ts.flatMap (fun t => t.2.bytes t.1) ++ tail) := by
    unfold imdFile; rw [List.append_assoc, List.cons_append]
  have hlen := imd_file_length text ts
  obtain ⟨st, h1, h2⟩ := imd_loop debug ts ((imdFile text ts ++ tail).length + 1) _ _ tail IInv.start hts.fit
    (by rw [List.length_append]; omega) htail
  rw [List.nil_append] at h2
  have ho := imdTracks_inOrder hts.order
  have hsd := h2.sides ho
  rw [sides_imdTracks] at hsd
  have hpos := sides_pos hts.order hne
  have hw : withSectors ts ≤ ts.length := List.length_filter_le _ _
  have hcnt := hts.count
  unfold Imd.load
  rw [show Imd.skipAscii 0x1A#8 (imdFile text ts ++ tail) = ts.flatMap (fun t => t.2.bytes t.1) ++ tail by
    rw [e1]; exact skip_text _ _ htext, h1]
  simp only
  rw [if_neg (by omega)]
  refine ⟨_, rfl, ?_, ?_⟩
  · have := h2.built.hasTracks ho
    exact ⟨this.there, this.only⟩
  · show (⟨_, _⟩ : Ch) = _
    rw [h2.tracks, imdTracks_withSectors, hsd, Nat.mod_eq_of_lt (show withSectors ts < 65536 by omega),
      Nat.mod_eq_of_lt (show sides ts < 256 by omega)]

/-- **C49.** What reading then shows: a query answered by the first sector of the track that agrees with it
gives its contents and its flags. -/
theorem C49_reads (debug : Bool) (text : List Byte) (htext : ImdText text) (ts : List (Ch × ImdTrk))
    (hts : ImdOk debug ts) (tail : List Byte) (htail : tail.length < 5) (ch : Ch) (t : ImdTrk) (ht : (ch, t) ∈ ts)
    (pre post : List ImdSec) (x : ImdSec) (hx : t.secs = pre ++ x :: post) (q : Query)
    (hq : agrees q (t.sector ch x).id = true) (hpre : ∀ y ∈ pre, agrees q (t.sector ch y).id = false) :
    ∃ d, Imd.load debug {} (imdFile text ts ++ tail) = .ok d ∧ ∀ nz n off dbg,
      ∃ r, d.readSector nz ch q n off .dataOnly dbg = .ok r ∧ r.notFound = false ∧
        r.idChsn = some (t.sector ch x).id ∧ r.readBuf = x.body.contents t.n ∧
        r.deletedMark = x.body.deleted ∧ r.addressCrcError = false ∧ r.dataCrcError = x.body.error := by
  obtain ⟨d, h1, h2, _⟩ := C49_load_partial debug text htext ts hts (List.ne_nil_of_mem ht) tail htail
  refine ⟨d, h1, fun nz n off dbg => ?_⟩
  have hm : (ch, pre.map (t.sector ch) ++ t.sector ch x :: post.map (t.sector ch)) ∈ imdTracks ts := by
    unfold imdTracks
    exact List.mem_map.2 ⟨_, ht, by simp [hx]⟩
  have hz : ∀ k, ∀ b ∈ (MetaMask.empty k).mask, b = 0#8 := by
    intro k b hb
    exact (List.mem_replicate.1 hb).2
  obtain ⟨r, r1, r2, r3, r4, r5, r6, r7, r8, r9⟩ := HasTracks.read h2 hm nz q n off dbg (by
    intro y hy
    obtain ⟨z, hz, rfl⟩ := List.mem_map.1 hy
    exact hpre z hz) hq rfl (hz _) (hz _)
  exact ⟨r, r1, r2, r4, r5, r7, r8, r9⟩

theorem imd_loop_cut (debug : Bool) : ∀ (ts : List (Ch × ImdTrk)) (f : Nat) (st : Imd.State)
    (done : List (Ch × List MetaSector)) (ch : Ch) (t : ImdTrk) (k : Nat), IInv st done →
    (∀ t ∈ ts, t.1.c < 256 ∧ t.1.h < 2 ∧ t.2.Ok ∧ (debug = true → t.2.secs.length < 128)) →
    ch.c < 256 → ch.h < 2 → t.Ok → (debug = true → t.secs.length < 128) →
    ts.length < f → 5 ≤ k → k < (t.bytes ch).length →
    Imd.loop debug f st (ts.flatMap (fun t => t.2.bytes t.1) ++ (t.bytes ch).take k) = .error .io
  | ts, 0, st, done, ch, t, k, _, _, _, _, _, _, hf, _, _ => by omega
  | [], f + 1, st, done, ch, t, k, h, _, hc, hh, hk1, hk2, _, h5, hk => by
    obtain ⟨m, c, hb, n, z, rest, e1, e2⟩ := imd_track_cut h debug ch hc hh t hk1 hk2 k h5 hk
    rw [List.flatMap_nil, List.nil_append, e1]
    unfold Imd.loop
    rw [e2]
  | u :: ts, f + 1, st, done, ch, t, k, h, ht, hc, hh, hk1, hk2, hf, h5, hk => by
    obtain ⟨t1, t2, t3, t4⟩ := ht u (by simp)
    obtain ⟨m, c, hb, n, z, rest, st', e1, e2, e3⟩ := imd_track h debug u.1 t1 t2 u.2 t3 t4
      (ts.flatMap (fun t => t.2.bytes t.1) ++ (t.bytes ch).take k)
    rw [List.flatMap_cons, List.append_assoc, e1]
    unfold Imd.loop
    rw [e2]
    exact imd_loop_cut debug ts f st' _ ch t k e3 (fun y hy => ht y (by simp [hy])) hc hh hk1 hk2
      (by simp only [List.length_cons] at hf; omega) h5 hk

/-- **C49.** A file cut inside a track, anywhere after its five-byte header, is refused with an IO error. -/
theorem C49_truncated (debug : Bool) (text : List Byte) (htext : ImdText text) (ts : List (Ch × ImdTrk))
    (ch : Ch) (t : ImdTrk) (hts : ImdOk debug (ts ++ [(ch, t)])) (k : Nat) (h5 : 5 ≤ k)
    (hk : k < (t.bytes ch).length) :
    Imd.load debug {} (imdFile text ts ++ (t.bytes ch).take k) = .error .io := by
  have hfit := hts.fit
  obtain ⟨a, b, c, d⟩ := hfit (ch, t) (by simp)
  have hlen := imd_file_length text ts
  have e1 : imdFile text ts ++ (t.bytes ch).take k =
      text ++ 0x1A#8 :: (ts.flatMap (fun t => t.2.bytes t.1) ++ (t.bytes ch).take k) := by
    unfold imdFile; rw [List.append_assoc, List.cons_append]
  unfold Imd.load
  rw [show Imd.skipAscii 0x1A#8 (imdFile text ts ++ (t.bytes ch).take k) =
      ts.flatMap (fun t => t.2.bytes t.1) ++ (t.bytes ch).take k by rw [e1]; exact skip_text _ _ htext,
    imd_loop_cut debug ts _ _ _ ch t k IInv.start (fun y hy => hfit y (by simp [hy])) a b c d
      (by rw [List.length_append]; omega) h5 hk]

/-- **C49 is false of the code: truncation.** A file cut between two tracks, or inside a track header, loads
without an error as the image of the tracks before the cut. -/
theorem C49_false_truncated (debug : Bool) (text : List Byte) (htext : ImdText text) (ts : List (Ch × ImdTrk))
    (ch : Ch) (t : ImdTrk) (hts : ImdOk debug ts) (hne : ts ≠ []) (k : Nat) (hk : k < 5) :
    ∃ d, Imd.load debug {} (imdFile text ts ++ (t.bytes ch).take k) = .ok d ∧ HasTracks d (imdTracks ts) := by
  obtain ⟨d, h1, h2, _⟩ := C49_load_partial debug text htext ts hts hne ((t.bytes ch).take k)
    (by rw [List.length_take]; omega)
  exact ⟨d, h1, h2⟩

/-- **C49 is false of the code: no tracks.** A header with no track after it panics (division by the number of
sides). -/
theorem C49_false_empty (debug : Bool) (d : Disk) (text : List Byte) (htext : ImdText text) :
    Imd.load debug d (imdFile text []) = .error .panic := by
  unfold Imd.load
  rw [show Imd.skipAscii 0x1A#8 (imdFile text []) = [] from skip_text text [] htext]
  rfl

/-- **C49 is false of the code: a file that is not IMD** or is cut inside its text: with no terminator or zero
byte in it, it is read to the end and the loader panics, whatever it holds. -/
theorem C49_false_not_imd (debug : Bool) (d : Disk) (bs : List Byte) (h : ImdText bs) :
    Imd.load debug d bs = .error .panic := by
  have key : ∀ l : List Byte, ImdText l → Imd.skipAscii 0x1A#8 l = [] := by
    intro l
    induction l with
    | nil => intro _; rfl
    | cons b l ih =>
      intro h
      have hb := h b (by simp)
      rw [Imd.skipAscii, if_neg (by simp [hb.1, hb.2])]
      exact ih fun y hy => h y (by simp [hy])
  unfold Imd.load
  rw [key bs h]
  rfl

/-- **C49 is false of the code: many sectors.** A valid track header announcing 128 or more sectors panics in
a build with overflow checks. -/
theorem C49_false_many (st : Imd.State) (x : Imd.Header) (hv : x.valid = true) (hc : 128 ≤ x.count.toNat)
    (bs : List Byte) : Imd.track true st x bs = .error .panic := by
  unfold Imd.track
  rw [if_neg (by rw [hv]; decide), if_pos (by simp [hc])]

/-- **C49 is false of the code: deleted data with an error.** Record types 7 and 8 of the format are refused. -/
theorem C49_false_deleted_error (marker : Byte) (h : marker = 7#8 ∨ marker = 8#8) (size : Nat) (bs : List Byte) :
    Imd.readData marker size bs = .error .formatParse := by
  rcases h with rfl | rfl <;> rfl

/-- **C49.** A track header that is not valid is refused, and record types above 8 are refused. -/
theorem C49_refuses (debug : Bool) (st : Imd.State) (x : Imd.Header) (bs : List Byte) :
    (6 ≤ x.mode.toNat ∨ 7 ≤ x.size.toNat ∨ 2 ≤ x.h.toNat % 64) → Imd.track debug st x bs = .error .formatParse := by
  intro h
  unfold Imd.track
  have : x.valid = false := by
    unfold Imd.Header.valid
    rw [BitVec.toNat_and, show (0x3F#8).toNat = 2 ^ 6 - 1 from rfl, Nat.and_two_pow_sub_one_eq_mod]
    rcases h with h | h | h
    · rw [decide_eq_false (show ¬ x.mode.toNat < 6 by omega)]; rfl
    · rw [decide_eq_false (show ¬ x.size.toNat < 7 by omega), Bool.and_false]
    · rw [decide_eq_false (show ¬ x.h.toNat % 2 ^ 6 < 2 by omega), Bool.and_false, Bool.false_and]
  rw [if_pos (by rw [this]; rfl)]

/-! ### Examples -/

/-- Two sides; a plain, a filled deleted and a missing sector, then a track with both maps. -/
def imdExample : List (Ch × ImdTrk) :=
  [(⟨0, 0⟩, ⟨5, 0, false, false, [⟨1, 0, 0, .data (List.replicate 128 7#8) false false⟩,
      ⟨2, 0, 0, .fill 0xE5#8 true false⟩, ⟨3, 0, 0, .missing⟩]⟩),
   (⟨0, 1⟩, ⟨5, 2, true, true, [⟨9, 4, 3, .fill 1#8 false true⟩]⟩)]

theorem imdExample_ok : ImdOk true imdExample := by
  refine ⟨?_, ?_, by decide⟩
  · intro i ch x hi
    match i, hi with
    | 0, hi => simp only [imdExample, List.getElem?_cons_zero, Option.some.injEq, Prod.mk.injEq] at hi; obtain ⟨rfl, _⟩ := hi; exact ⟨by decide, by decide⟩
    | 1, hi => simp only [imdExample, List.getElem?_cons_succ, List.getElem?_cons_zero, Option.some.injEq, Prod.mk.injEq] at hi; obtain ⟨rfl, _⟩ := hi; exact ⟨by decide, by decide⟩
    | i + 2, hi => simp [imdExample] at hi
  · intro t ht
    simp only [imdExample, List.mem_cons, List.not_mem_nil, or_false] at ht
    rcases ht with rfl | rfl
    · refine ⟨by decide, ⟨by decide, by decide, by decide, ?_⟩, fun _ => by decide⟩
      intro x hx
      simp only [List.mem_cons, List.not_mem_nil, or_false] at hx
      rcases hx with rfl | rfl | rfl
      · refine ⟨by decide, by decide, by decide, by decide, ?_⟩
        intro d del err e
        cases e
        exact List.length_replicate
      · exact ⟨by decide, by decide, by decide, by decide, by intro d del err e; cases e⟩
      · exact ⟨by decide, by decide, by decide, by decide, by intro d del err e; cases e⟩
    · refine ⟨by decide, ⟨by decide, by decide, by decide, ?_⟩, fun _ => by decide⟩
      intro x hx
      simp only [List.mem_cons, List.not_mem_nil, or_false] at hx
      subst hx
      exact ⟨by decide, by decide, by decide, by decide, by intro d del err e; cases e⟩

example : ImdText [0x49#8, 0x4D#8, 0x44#8] := by
  intro b hb
  simp only [List.mem_cons, List.not_mem_nil, or_false] at hb
  rcases hb with rfl | rfl | rfl <;> decide

example : ∃ d, Imd.load true {} (imdFile [] imdExample ++ []) = .ok d ∧ HasTracks d (imdTracks imdExample) ∧
    d.geometry = ⟨withSectors imdExample / sides imdExample, sides imdExample⟩ :=
  C49_load_partial true [] (by intro b hb; simp at hb) imdExample imdExample_ok (by decide) [] (by decide)

end Fox
