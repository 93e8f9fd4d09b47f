import Verif.Proofs.Td0Load
import Verif.Props.Lzw
import Verif.Props.Lzhuf
/-
C55: TeleDisk images.
-/
namespace Fox
open Spec Td0

/-- A described disk that fits the format: tracks in order, a comment that the header announces. -/
structure Td0Ok (x : Td0Header) (cm : Option Td0Comment) (ts : List (Ch × List Td0Sec)) : Prop where
  order : InOrder ts
  tracks : ∀ t ∈ ts, t.1.c < 256 ∧ t.2.length < 255 ∧ ∀ s ∈ t.2, s.Ok
  comment : ∀ c, cm = some c → c.Ok
  fits : x.Fits cm

theorem Td0Ok.track {x : Td0Header} {cm : Option Td0Comment} {ts : List (Ch × List Td0Sec)} (h : Td0Ok x cm ts) :
    ∀ t ∈ ts, TrackFits t := by
  intro t ht
  obtain ⟨a, b, c⟩ := h.tracks t ht
  obtain ⟨i, hi⟩ := List.getElem?_of_mem ht
  exact ⟨a, (h.order i t.1 t.2 hi).1, b, c⟩

/-- The disk is the one described: exactly these tracks, each with exactly its sectors that have contents, in
order; the number of different cylinders; the number of heads of the header. -/
def Td0Loads (x : Td0Header) (ts : List (Ch × List Td0Sec)) (r : Except Err Disk) : Prop :=
  ∃ d, r = .ok d ∧ HasTracks d (td0Tracks ts) ∧ d.geometry = ⟨td0Cylinders ts, x.heads.toNat⟩

/-- **C55 (partial).** An uncompressed file loads as the described disk; what follows the end mark is ignored, and
so is a missing end mark.  Missing: sectors without contents are dropped, pairs of different bytes (see the
`C55_false` theorems). -/
theorem C55_load_partial (x : Td0Header) (cm : Option Td0Comment) (ts : List (Ch × List Td0Sec)) (h : Td0Ok x cm ts)
    (tail : List Byte) (he : tail.length < 4 ∨ ∃ a b c rest, tail = td0End a b c ++ rest) :
    Td0Loads x ts (Td0.load {} (x.bytes false ++ (td0Body cm ts ++ tail))) := by
  rw [load_plain, step_bit x cm h.fits]
  exact loadBody_ok cm h.comment x.heads _ ts h.order h.track tail he (by omega)

/-- The same for a file compressed by TeleDisk 1: any LZW data that stands for the contents. -/
theorem C55_load_lzw_partial (x : Td0Header) (hv : x.version.toNat < 20) (cm : Option Td0Comment) (ts : List (Ch × List Td0Sec))
    (h : Td0Ok x cm ts) (tail : List Byte) (he : tail.length < 4 ∨ ∃ a b c rest, tail = td0End a b c ++ rest)
    (z : List Byte) (hz : z.length ≤ 3000000) (outs : List (List Byte))
    (hd : (Spec.Lzw.chunks (Spec.Lzw.bits z)).map Spec.Lzw.decodeChunk = outs.map some) (hb : outs.flatten = td0Body cm ts ++ tail) :
    Td0Loads x ts (Td0.load {} (x.bytes true ++ z)) := by
  rw [load_packed x {} z (td0Body cm ts ++ tail) (by rw [if_pos (by omega), ← hb]; exact C54_expand_ok z hz outs hd),
    step_bit x cm h.fits]
  exact loadBody_ok cm h.comment x.heads _ ts h.order h.track tail he (Nat.le_refl _)

/-- Compressing with the crate's own compressor gives such data. -/
theorem C55_load_lzw_own_partial (x : Td0Header) (hv : x.version.toNat < 20) (cm : Option Td0Comment) (ts : List (Ch × List Td0Sec))
    (h : Td0Ok x cm ts) (tail : List Byte) (he : tail.length < 4 ∨ ∃ a b c rest, tail = td0End a b c ++ rest)
    (hsz : (td0Body cm ts ++ tail).length ≤ 1998000) :
    ∃ z, Lzw.compress (td0Body cm ts ++ tail) = .ok z ∧ Td0Loads x ts (Td0.load {} (x.bytes true ++ z)) := by
  obtain ⟨z, h1, h2⟩ := C54_round_trip _ hsz
  refine ⟨z, h1, ?_⟩
  rw [load_packed x {} z (td0Body cm ts ++ tail) (by rw [if_pos (by omega), h2]), step_bit x cm h.fits]
  exact loadBody_ok cm h.comment x.heads _ ts h.order h.track tail he (Nat.le_refl _)

/-- The same for a file compressed by TeleDisk 2: any LZHUF tokens that stand for the contents with the end mark;
the bits after them, which may stand for more tokens, do no harm. -/
theorem C55_load_lzhuf_partial (x : Td0Header) (hv : 20 ≤ x.version.toNat) (cm : Option Td0Comment) (ts : List (Ch × List Td0Sec))
    (h : Td0Ok x cm ts) (a b c : Byte) (toks : List Spec.Lz.Token) (htok : ∀ k ∈ toks, k.Valid) (bits pad : List Bool) (z : List Byte)
    (he : Lzhuf.encode toks = .ok bits) (hz : bitsOf z = bits ++ pad) (hb : Spec.Lz.unpack toks = td0Body cm ts ++ td0End a b c)
    (hsz : (Spec.Lz.unpack toks).length + 13 < 2 ^ 32) : Td0Loads x ts (Td0.load {} (x.bytes true ++ z)) := by
  obtain ⟨more, _, _, h3, rest, h4⟩ := C53_round_trip toks htok bits pad z he hz hsz
  rw [← h4, hb, List.append_assoc] at h3
  rw [load_packed x {} z _ (by rw [if_neg (by omega)]; exact h3), step_bit x cm h.fits]
  exact loadBody_ok cm h.comment x.heads _ ts h.order h.track _ (.inr ⟨a, b, c, rest, rfl⟩) (Nat.le_refl _)

/-- Every described disk can be put in such a file. -/
theorem C55_expressible (x : Td0Header) (hv : 20 ≤ x.version.toNat) (cm : Option Td0Comment) (ts : List (Ch × List Td0Sec))
    (h : Td0Ok x cm ts) (hsz : (td0Body cm ts).length + 17 < 2 ^ 32) :
    ∃ z, Td0Loads x ts (Td0.load {} (x.bytes true ++ z)) := by
  have lits : ∀ (l hist : List Byte), (l.map Spec.Lz.Token.lit).foldl Spec.Lz.Token.apply hist = hist ++ l := by
    intro l
    induction l with
    | nil => intro hist; simp
    | cons b l ih => intro hist; simp only [List.map_cons, List.foldl_cons]; rw [ih]; simp [Spec.Lz.Token.apply]
  have hu : Spec.Lz.unpack ((td0Body cm ts ++ td0End 0#8 0#8 0#8).map .lit) = td0Body cm ts ++ td0End 0#8 0#8 0#8 := by
    unfold Spec.Lz.unpack
    rw [lits, List.drop_left' (by rw [Spec.Lz.history, List.length_append, List.length_replicate, List.length_replicate])]
  have hval : ∀ k ∈ (td0Body cm ts ++ td0End 0#8 0#8 0#8).map Spec.Lz.Token.lit, k.Valid := by
    intro k hk
    obtain ⟨b, _, rfl⟩ := List.mem_map.1 hk
    trivial
  obtain ⟨bits, h1, _⟩ := C53_encode_total _ hval
  obtain ⟨z, pad, h2, _⟩ := bits_to_bytes bits.length bits (Nat.le_refl _)
  refine ⟨z, C55_load_lzhuf_partial x hv cm ts h 0#8 0#8 0#8 _ hval bits pad z h1 h2 hu ?_⟩
  rw [hu, List.length_append]
  show (td0Body cm ts).length + 4 + 13 < _
  omega

/-- **C55.** What reading then shows: a query answered by the first sector with contents that agrees with it gives
its contents and flags. -/
theorem C55_reads {d : Disk} {ts : List (Ch × List Td0Sec)} (hd : HasTracks d (td0Tracks ts)) (ch : Ch) (secs : List Td0Sec)
    (ht : (ch, secs) ∈ ts) (pre post : List Td0Sec) (s : Td0Sec) (hs : secs = pre ++ s :: post) (hth : s.body.there = true)
    (q : Query) (hq : agrees q ⟨s.c, s.h, s.s, s.n⟩ = true)
    (hpre : ∀ y ∈ pre, y.body.there = true → agrees q ⟨y.c, y.h, y.s, y.n⟩ = false) (nz : Noise) (n off : Option Nat) (dbg : Bool) :
    ∃ r, d.readSector nz ch q n off .dataOnly dbg = .ok r ∧ r.notFound = false ∧ r.idChsn = some ⟨s.c, s.h, s.s, s.n⟩ ∧
      r.readBuf = s.body.contents ∧ r.deletedMark = s.del ∧ r.addressCrcError = false ∧ r.dataCrcError = s.err := by
  have hm : (ch, (pre.filter fun x => x.body.there).map Td0Sec.sector ++ s.sector ::
      (post.filter fun x => x.body.there).map Td0Sec.sector) ∈ td0Tracks ts := by
    unfold td0Tracks
    exact List.mem_map.2 ⟨_, ht, by simp [hs, hth]⟩
  have hz : ∀ k, ∀ b ∈ (MetaMask.empty k).mask, b = 0#8 := by
    intro k b hb
    exact (List.mem_replicate.1 hb).2
  obtain ⟨r, r1, r2, r3, r4, r5, r6, r7, r8, r9⟩ := HasTracks.read hd hm nz q n off dbg (by
    intro y hy
    obtain ⟨z, hz, rfl⟩ := List.mem_map.1 hy
    obtain ⟨z1, z2⟩ := List.mem_filter.1 hz
    exact hpre z z1 z2) hq rfl (hz _) (hz _)
  exact ⟨r, r1, r2, r4, r5, r7, r8, r9⟩

theorem plain_body (x : Td0Header) (cm : Option Td0Comment) (ts : List (Ch × List Td0Sec)) (h : Td0Ok x cm ts) (tail : List Byte) :
    ∃ st f, TInv st (td0Tracks ts) ∧ Td0.load {} (x.bytes false ++ (td0Body cm ts ++ tail)) =
      match Td0.loop (f + 1) st tail with
      | .error e => .error e
      | .ok st => .ok { st.disk with geometry := ⟨st.cyls.length % 65536, x.heads.toNat⟩ } := by
  have hl := flatMap_length_ge td0Track ts fun t _ => track_pos t
  obtain ⟨st, h1, h2⟩ := loop_tracks ts ((ts.flatMap td0Track ++ tail).length - ts.length + 1) _ _ tail TInv.start h.track
  rw [List.nil_append] at h1
  refine ⟨st, (ts.flatMap td0Track ++ tail).length - ts.length, h1, ?_⟩
  rw [load_plain, step_bit x cm h.fits, loadBody_comment cm h.comment {} x.heads _ ts tail (by omega)]
  rw [show (ts.flatMap td0Track ++ tail).length + 1 = ts.length + ((ts.flatMap td0Track ++ tail).length - ts.length + 1) by
    rw [List.length_append]; omega, h2]
  rfl

/-- **C55.** A file cut inside a track, anywhere after its four-byte header, is refused with an IO error. -/
theorem C55_truncated (x : Td0Header) (cm : Option Td0Comment) (ts : List (Ch × List Td0Sec)) (t : Ch × List Td0Sec)
    (h : Td0Ok x cm (ts ++ [t])) (k : Nat) (h4 : 4 ≤ k) (hk : k < (td0Track t).length) :
    Td0.load {} (x.bytes false ++ (td0Body cm ts ++ (td0Track t).take k)) = .error .io := by
  have h' : Td0Ok x cm ts := by
    refine ⟨?_, fun y hy => h.tracks y (by simp [hy]), h.comment, h.fits⟩
    have := (inOrder_chs _).1 h.order
    rw [List.map_append, List.map_singleton] at this
    exact (inOrder_chs _).2 this.init
  obtain ⟨st, f, h1, h2⟩ := plain_body x cm ts h' ((td0Track t).take k)
  rw [h2, loop_cut f h1 t (h.track t (by simp)) k h4 hk]

/-- **C55 is false of the code: truncation.** A file cut between two tracks, or inside a track header, loads
without an error as the image of the tracks before the cut. -/
theorem C55_false_truncated (x : Td0Header) (cm : Option Td0Comment) (ts : List (Ch × List Td0Sec)) (t : Ch × List Td0Sec)
    (h : Td0Ok x cm ts) (k : Nat) (h4 : k < 4) :
    Td0Loads x ts (Td0.load {} (x.bytes false ++ (td0Body cm ts ++ (td0Track t).take k))) :=
  C55_load_partial x cm ts h _ (.inl (by rw [List.length_take]; omega))

/-- **C55.** A sector whose checksum byte is not the one of its contents makes the file be refused as corrupt,
whatever follows. -/
theorem C55_bad_sector (x : Td0Header) (cm : Option Td0Comment) (ts : List (Ch × List Td0Sec)) (ch : Ch) (pre post : List Td0Sec)
    (s : Td0Sec) (h : Td0Ok x cm (ts ++ [(ch, pre ++ s :: post)])) (hs : s.body.there = true) (ck : Byte) (hck : ck ≠ s.check)
    (tail : List Byte) :
    Td0.load {} (x.bytes false ++ (td0Body cm ts ++ (td0TrackHeader (pre ++ s :: post).length ch.c ch.h ++
      (pre.flatMap Td0Sec.bytes ++ (s.bytesWith ck ++ tail))))) = .error .corrupt := by
  have h' : Td0Ok x cm ts := by
    refine ⟨?_, fun y hy => h.tracks y (by simp [hy]), h.comment, h.fits⟩
    have := (inOrder_chs _).1 h.order
    rw [List.map_append, List.map_singleton] at this
    exact (inOrder_chs _).2 this.init
  obtain ⟨st, f, h1, h2⟩ := plain_body x cm ts h' (td0TrackHeader (pre ++ s :: post).length ch.c ch.h ++
      (pre.flatMap Td0Sec.bytes ++ (s.bytesWith ck ++ tail)))
  rw [h2, loop_bad f h1 ch pre post s (h.track _ (by simp)) hs ck hck tail]

/-- **C55.** A compressed image whose data the expander refuses is refused as corrupt, whatever the expander's own error was
(a panic stays a panic). -/
theorem C55_not_expandable (x : Td0Header) (d : Disk) (z : List Byte) (e : Err)
    (h : (if x.version.toNat / 10 < 2 then Lzw.expand z else Lzhuf.expand z) = .error e) :
    Td0.load d (x.bytes true ++ z) = .error (if e = .panic then .panic else .corrupt) := by
  unfold Td0Header.bytes word
  simp only [if_true, List.cons_append, List.nil_append]
  unfold Td0.load
  simp only
  rw [if_neg (by simp), Td0.crc_eq, Td0.le16_word, if_neg (by simp), if_pos (by simp), h]
  cases e <;> rfl

/-- Such data exist: everything too large for the LZW expander. -/
example : Lzw.expand (List.replicate 3000001 0#8) = .error .unsupported :=
  C54_too_large _ (by rw [List.length_replicate]; omega)

/-- **C55.** A file header with one changed byte is refused: as corrupt, or as unknown if its first two bytes are
no longer those of the format. -/
theorem C55_header_changed (d : Disk) (hd rest : List Byte) (h12 : hd.length = 12)
    (hok : Td0.load d (hd ++ rest) ≠ .error .corrupt ∧ Td0.load d (hd ++ rest) ≠ .error .unknownFormat)
    (pre post : List Byte) (a b : Byte) (hh : hd = pre ++ a :: post) (hne : b ≠ a) (rest' : List Byte) :
    Td0.load d (pre ++ b :: post ++ rest') = .error .corrupt ∨ Td0.load d (pre ++ b :: post ++ rest') = .error .unknownFormat := by
  have parse : ∀ l : List Byte, l.length = 12 → ∃ i0 i1 c d e f g h i j lo hi, l = [i0, i1, c, d, e, f, g, h, i, j, lo, hi] := by
    intro l hl
    match l, hl with
    | [i0, i1, c, d, e, f, g, h, i, j, lo, hi], _ => exact ⟨i0, i1, c, d, e, f, g, h, i, j, lo, hi, rfl⟩
  have good : ∀ (l r : List Byte), l.length = 12 → (Td0.load d (l ++ r) = .error .corrupt ∨ Td0.load d (l ++ r) = .error .unknownFormat) ∨
      ∃ lo hi, l = l.take 10 ++ [lo, hi] ∧ Td0.le16 lo hi = Td0.crc (l.take 10) 0#16 := by
    intro l r hl
    obtain ⟨i0, i1, c, d, e, f, g, h, i, j, lo, hi, rfl⟩ := parse l hl
    by_cases c1 : (i0 = 0x54#8 ∧ i1 = 0x44#8) ∨ (i0 = 0x74#8 ∧ i1 = 0x64#8)
    · by_cases c2 : Td0.le16 lo hi = Td0.crc [i0, i1, c, d, e, f, g, h, i, j] 0#16
      · exact .inr ⟨lo, hi, rfl, c2⟩
      · left; left
        simp only [List.cons_append, List.nil_append]
        unfold Td0.load
        simp only
        rw [if_neg (fun hn => hn c1), if_pos c2]
    · left; right
      simp only [List.cons_append, List.nil_append]
      unfold Td0.load
      simp only
      rw [if_pos c1]
  have hl2 : (pre ++ b :: post).length = 12 := by rw [← h12, hh]; simp
  rcases good hd rest h12 with h | ⟨lo, hi, e1, e2⟩
  · rcases h with h | h
    · exact absurd h hok.1
    · exact absurd h hok.2
  rcases good (pre ++ b :: post) rest' hl2 with h | ⟨lo', hi', f1, f2⟩
  · exact h
  exfalso
  rw [hh] at e1 e2
  by_cases hp : pre.length < 10
  · -- the change is in the first ten bytes
    have t1 : ∀ y : Byte, (pre ++ y :: post).take 10 = pre ++ y :: post.take (9 - pre.length) := by
      intro y
      rw [List.take_append, List.take_of_length_le (by omega)]
      obtain ⟨m, hm⟩ : ∃ m, 10 - pre.length = m + 1 := ⟨9 - pre.length, by omega⟩
      rw [hm, List.take_succ_cons, show 9 - pre.length = m by omega]
    have t2 : ∀ y lo hi : Byte, pre ++ y :: post = (pre ++ y :: post).take 10 ++ [lo, hi] → post.drop (9 - pre.length) = [lo, hi] := by
      intro y lo hi h
      rw [t1] at h
      have h3 : post = post.take (9 - pre.length) ++ [lo, hi] := by simpa using h
      have h4 := List.take_append_drop (9 - pre.length) post
      rw [← h4] at h3
      have := congrArg (List.drop (9 - pre.length)) h3
      have hpl : 9 - pre.length ≤ post.length := by
        simp only [List.length_append, List.length_cons] at hl2; omega
      rw [h4] at this
      rw [this, List.drop_append, List.length_take, Nat.min_eq_left hpl, Nat.sub_self, List.drop_zero, List.drop_of_length_le (by simp),
        List.nil_append]
    have g1 := t2 _ _ _ e1
    have g2 := t2 _ _ _ f1
    rw [g1] at g2
    simp only [List.cons.injEq, and_true] at g2
    rw [t1] at e2 f2
    rw [← g2.1, ← g2.2, e2] at f2
    exact hne (crc_byte_changed pre _ a b 0#16 f2).symm
  · -- the change is in the checksum
    have t1 : ∀ y : Byte, (pre ++ y :: post).take 10 = pre.take 10 := by
      intro y
      rw [List.take_append, show 10 - pre.length = 0 by omega, List.take_zero, List.append_nil]
    rw [t1] at e1 e2 f1 f2
    rw [← f2] at e2
    obtain ⟨r1, r2⟩ := le16_inj e2
    rw [r1, r2, ← f1] at e1
    have := List.append_cancel_left e1
    simp only [List.cons.injEq, and_true] at this
    exact hne this.symm

/-- **C55 is false of the code: pairs.** A repeated pair is expanded with its two bytes exchanged. -/
theorem C55_false_pairs (l : List Td0Pair) (size : Nat) (hl : ∀ p ∈ l, 0 < p.count) (hs : (l.flatMap Td0Pair.contents).length = size)
    (hsz : size < 65536) (tail : List Byte) :
    Td0.decode 1#8 size (l.flatMap Td0Pair.bytes ++ tail) =
      .ok (l.flatMap fun p => ({ count := p.count, a := p.b, b := p.a } : Td0Pair).contents, tail) := by
  have e : (l.flatMap swapped).length = (l.flatMap Td0Pair.contents).length := by
    clear hs hl
    induction l with
    | nil => rfl
    | cons p l ih => rw [List.flatMap_cons, List.flatMap_cons, List.length_append, List.length_append, ih, swapped_length, contents_length]
  show Td0.repeated size ((l.flatMap Td0Pair.bytes ++ tail).length + 1) [] (l.flatMap Td0Pair.bytes ++ tail) = _
  rw [repeated_ok size l _ [] tail hl (by rw [e, hs]; simp) hsz (by
    have := flatMap_length_ge Td0Pair.bytes l fun p _ => pair_bytes_pos p
    rw [List.length_append]; omega), List.nil_append]
  rfl

/-- Failing with a given error, as a test. -/
def failsWith (e : Err) : Except Err Disk → Bool
  | .error e' => e == e'
  | .ok _ => false

theorem fails_eq {e : Err} {r : Except Err Disk} (h : failsWith e r = true) : r = .error e := by
  cases r with
  | ok d => cases h
  | error e' =>
    have : (e == e') = true := h
    rw [beq_iff_eq] at this
    rw [this]

/-- A sector of the pair 1, 2. -/
def pairSector : Td0Sec := { c := 0, h := 0, s := 1, n := 0, body := .pairs [⟨64, 1#8, 2#8⟩] }

/-- So a good file with such a sector is refused as corrupt. -/
theorem C55_false_pair_refused : Td0.load {} ((⟨0#8, 0#8, 21#8, 0#8, 0#8, 0#8, 0#8, 1#8⟩ : Td0Header).bytes false ++
    (td0Body none [(⟨0, 0⟩, [pairSector])] ++ td0End 0#8 0#8 0#8)) = .error .corrupt := by
  exact fails_eq (by decide +kernel : failsWith .corrupt (Td0.load {} ((⟨0#8, 0#8, 21#8, 0#8, 0#8, 0#8, 0#8, 1#8⟩ : Td0Header).bytes false ++
    (td0Body none [(⟨0, 0⟩, [pairSector])] ++ td0End 0#8 0#8 0#8))) = true)

/-- **C55 is false of the code: run-length overrun.** A literal block longer than what is left of the sector, or a
pattern that does not fit, panics. -/
theorem C55_false_rle_panics (size : Nat) (out rest : List Byte) (len : Byte) (h : size < out.length + len.toNat) :
    Td0.rleEntry size out (0#8 :: len :: rest) = .error .panic := by
  rw [Td0.rleEntry, if_pos rfl, if_pos h]

theorem C55_false_rle_pattern_panics (size : Nat) (out pat rest : List Byte) (code count : Byte) (h0 : code ≠ 0#8) (hc : count ≠ 0#8)
    (hp : pat.length = code.toNat * 2) (h1 : out.length < size) (h2 : size < out.length + pat.length) :
    Td0.rleEntry size out (code :: count :: (pat ++ rest)) = .error .panic := by
  rw [Td0.rleEntry, if_neg h0, take_ok _ _ _ hp]
  simp only
  obtain ⟨k, hk⟩ : ∃ k, count.toNat = k + 1 := by
    refine ⟨count.toNat - 1, ?_⟩
    have : count.toNat ≠ 0 := fun e => hc (BitVec.eq_of_toNat_eq e)
    omega
  rw [hk, Td0.runs, if_pos h1, if_pos h2]

/-- A file of 28 bytes that panics. -/
theorem C55_false_panics : ∃ file : List Byte, file.length = 28 ∧ Td0.load {} file = .error .panic := by
  refine ⟨(⟨0#8, 0#8, 21#8, 0#8, 0#8, 0#8, 0#8, 1#8⟩ : Td0Header).bytes false ++ (td0TrackHeader 1 0 0 ++
    [0#8, 0#8, 1#8, 0#8, 0#8, 0#8, 0#8, 0#8, 2#8, 0#8, 129#8, 0#8]), by decide +kernel, ?_⟩
  exact fails_eq (by decide +kernel : failsWith .panic (Td0.load {} ((⟨0#8, 0#8, 21#8, 0#8, 0#8, 0#8, 0#8, 1#8⟩ : Td0Header).bytes false ++ (td0TrackHeader 1 0 0 ++
    [0#8, 0#8, 1#8, 0#8, 0#8, 0#8, 0#8, 0#8, 2#8, 0#8, 129#8, 0#8]))) = true)

/-- A compressed file that panics: the LZW data starts with the code of a string. -/
theorem C55_false_lzw_panics (d : Disk) (x : Td0Header) (hv : x.version.toNat < 20) :
    Td0.load d (x.bytes true ++ [3#8, 0#8, 0#8, 1#8]) = .error .panic := by
  unfold Td0Header.bytes word
  simp only [if_true, List.cons_append, List.nil_append]
  unfold Td0.load
  simp only
  rw [if_neg (by simp), crc_eq, le16_word, if_neg (by simp), if_pos (by simp), if_pos (by omega), C54_false_no_panic]
  rfl

/-- **C55 is false of the code: sectors without contents** are dropped: a track all of whose sectors were skipped
loads as a track without sectors, and reading any of them by its id says it is not there. -/
theorem C55_false_dropped (x : Td0Header) (cm : Option Td0Comment) (ts : List (Ch × List Td0Sec)) (h : Td0Ok x cm ts)
    (ch : Ch) (secs : List Td0Sec) (ht : (ch, secs) ∈ ts) (habs : ∀ s ∈ secs, s.body.there = false) (tail : List Byte)
    (he : tail.length < 4) :
    ∃ d, Td0.load {} (x.bytes false ++ (td0Body cm ts ++ tail)) = .ok d ∧
      d.track ch = .ok (some (.sect { ch := ch, sectors := [] })) := by
  obtain ⟨d, h1, h2, _⟩ := C55_load_partial x cm ts h tail (.inl he)
  refine ⟨d, h1, h2.there ch [] ?_⟩
  unfold td0Tracks
  refine List.mem_map.2 ⟨_, ht, ?_⟩
  rw [List.filter_eq_nil_iff.2]
  · rfl
  · intro s hs
    rw [habs s hs]; decide

/-- **C55 is false of the code: FM tracks.** The format marks a track recorded in FM by the highest bit of its head
number; such a track is refused. -/
theorem C55_false_fm (f : Nat) (st : Td0.State) (n c h : Nat) (hn : n < 255) (bs : List Byte) :
    Td0.loop (f + 1) st (td0TrackHeader n c (0x80 + h % 128) ++ bs) = .error .seek := by
  unfold td0TrackHeader
  simp only [List.cons_append, List.nil_append]
  rw [Td0.loop, if_neg (ne_end hn)]
  unfold Td0.track
  rw [if_neg (by rw [check3]; simp), byteOf_toNat (show 0x80 + h % 128 < 256 by omega)]
  unfold Disk.addMeta
  rw [if_pos (by show 0x80 + h % 128 ≥ 2; omega)]

/-- **C55 is false of the code: comments.** A comment that is not UTF-8, such as one with an umlaut in the character
set TeleDisk used, makes the file be refused. -/
theorem C55_false_comment (x : Td0Header) (hx : x.stepping.getMsbD 0 = true) (d : Disk) (check : BitVec 16) (date text rest : List Byte)
    (hd : date.length = 6) (ht : text.length < 65536) (hu : Td0.utf8 (text.map fun b => if b = 0#8 then 0x0A#8 else b) = false) :
    Td0.load d (x.bytes false ++ (word check ++ word (BitVec.ofNat 16 text.length) ++ date ++ text ++ rest)) = .error .formatParse := by
  have hs : (x.stepping &&& 0x80#8 != 0#8) = true := by
    have : ∀ b : Byte, (b &&& 0x80#8 != 0#8) = b.getMsbD 0 := by decide
    rw [this, hx]
  obtain ⟨d0, d1, d2, d3, d4, d5, rfl⟩ : ∃ d0 d1 d2 d3 d4 d5, date = [d0, d1, d2, d3, d4, d5] := by
    match date, hd with
    | [d0, d1, d2, d3, d4, d5], _ => exact ⟨d0, d1, d2, d3, d4, d5, rfl⟩
  rw [load_plain, hs]
  generalize htot : (word check ++ word (BitVec.ofNat 16 text.length) ++ [d0, d1, d2, d3, d4, d5] ++ text ++ rest).length + 12 = total
  have hle : 10 + text.length ≤ total := by
    rw [← htot]; unfold word
    simp only [List.cons_append, List.nil_append, List.length_cons, List.length_append]; omega
  unfold Td0.loadBody word
  simp only [List.cons_append, List.nil_append, if_true]
  have : Td0.comment total (check.setWidth 8 :: (check >>> 8).setWidth 8 :: (BitVec.ofNat 16 text.length).setWidth 8 ::
      (BitVec.ofNat 16 text.length >>> 8).setWidth 8 :: d0 :: d1 :: d2 :: d3 :: d4 :: d5 :: (text ++ rest)) = .error .formatParse := by
    unfold Td0.comment
    simp only [List.drop_succ_cons, List.drop_zero]
    rw [le16_word, u16 _ ht]
    unfold Imd.take
    rw [if_neg (by simp only [List.length_cons, List.length_append]; omega)]
    simp only
    rw [if_neg (by omega), if_neg (by rw [List.length_append]; omega)]
    simp only
    rw [List.take_left, hu, if_neg (by decide)]
  rw [this]

/-- **C55 is false of the code: detection.** Only the low byte of the checksum of a sector is kept: contents that
differ in one byte can have the same. -/
theorem C55_false_detect (pre : List Byte) (a b : Byte) :
    (td0Check (pre ++ [a ^^^ 171#8, b])).setWidth 8 = (td0Check (pre ++ [a, b])).setWidth 8 := by
  rw [← crc_eq, ← crc_eq]
  unfold Td0.crc
  rw [List.foldl_append, List.foldl_append]
  generalize pre.foldl Td0.crcByte 0#16 = c
  simp only [List.foldl_cons, List.foldl_nil, crcByte_steps]
  have e : (a ^^^ 171#8).setWidth 16 <<< 8 = (a.setWidth 16 <<< 8) ^^^ (171#8).setWidth 16 <<< 8 := by
    rw [BitVec.setWidth_xor, BitVec.shiftLeft_xor_distrib]
  rw [e, ← BitVec.xor_assoc, steps_xor 8 _ ((171#8).setWidth 16 <<< 8)]
  generalize steps 8 (c ^^^ a.setWidth 16 <<< 8) = s
  rw [show s ^^^ steps 8 ((171#8).setWidth 16 <<< 8) ^^^ b.setWidth 16 <<< 8 =
    (s ^^^ b.setWidth 16 <<< 8) ^^^ steps 8 ((171#8).setWidth 16 <<< 8) by ac_rfl, steps_xor, BitVec.setWidth_xor]
  rw [show (steps 8 (steps 8 ((171#8).setWidth 16 <<< 8))).setWidth 8 = 0#8 by decide, BitVec.xor_zero]

/-- The checksum of the code is the one of the format. -/
theorem C55_checksum (data : List Byte) : Td0.crc data 0#16 = td0Check data := crc_eq data

/-! ### Examples -/

/-- Two sides; raw, run-length coded, pairs, a skipped sector; a comment. -/
def td0Example : List (Ch × List Td0Sec) :=
  [(⟨0, 0⟩, [{ c := 0, h := 0, s := 1, n := 0, body := .raw (List.replicate 128 7#8) },
      { c := 0, h := 0, s := 2, n := 0, del := true, body := .rle [.literal [1#8, 2#8, 3#8, 4#8], .run [5#8, 6#8] 62] },
      { c := 0, h := 0, s := 3, n := 0, body := .absent true false 0#8 }]),
   (⟨0, 1⟩, [{ c := 0, h := 1, s := 1, n := 1, err := true, body := .pairs [⟨28, 9#8, 9#8⟩, ⟨100, 0xE5#8, 0xE5#8⟩] }])]

def td0ExampleHeader : Td0Header := ⟨0#8, 0#8, 21#8, 0#8, 0#8, 0x80#8, 0#8, 2#8⟩
def td0ExampleComment : Td0Comment := ⟨0#16, [1#8, 2#8, 3#8, 4#8, 5#8, 6#8], ['h', 'i', 'ü', Char.ofNat 0]⟩

theorem td0Example_ok : Td0Ok td0ExampleHeader (some td0ExampleComment) td0Example := by
  refine ⟨?_, ?_, ?_, rfl⟩
  · intro i ch x hi
    match i, hi with
    | 0, hi => simp only [td0Example, List.getElem?_cons_zero, Option.some.injEq, Prod.mk.injEq] at hi; obtain ⟨rfl, _⟩ := hi; exact ⟨by decide, by decide⟩
    | 1, hi => simp only [td0Example, List.getElem?_cons_succ, List.getElem?_cons_zero, Option.some.injEq, Prod.mk.injEq] at hi; obtain ⟨rfl, _⟩ := hi; exact ⟨by decide, by decide⟩
    | i + 2, hi => simp [td0Example] at hi
  · intro t ht
    simp only [td0Example, List.mem_cons, List.not_mem_nil, or_false] at ht
    rcases ht with rfl | rfl
    · refine ⟨by decide, by decide, ?_⟩
      intro x hx
      simp only [List.mem_cons, List.not_mem_nil, or_false] at hx
      rcases hx with rfl | rfl | rfl
      · exact ⟨by decide, by decide, by decide, by decide, (by intro _ _ _ e; cases e), (fun _ => List.length_replicate), (by intro _ e; cases e),
          (by intro _ e; cases e)⟩
      · refine ⟨by decide, by decide, by decide, by decide, (by intro _ _ _ e; cases e), (fun _ => by decide +kernel), (by intro _ e; cases e), ?_⟩
        intro l e r hr
        cases e
        simp only [List.mem_cons, List.not_mem_nil, or_false] at hr
        rcases hr with rfl | rfl
        · exact ⟨by decide, by decide⟩
        · exact ⟨by decide, by decide, by decide, by decide, by decide⟩
      · exact ⟨by decide, by decide, by decide, by decide, (by intro _ _ _ e; cases e; rfl), (fun e => by cases e), (by intro _ e; cases e),
          (by intro _ e; cases e)⟩
    · refine ⟨by decide, by decide, ?_⟩
      intro x hx
      simp only [List.mem_cons, List.not_mem_nil, or_false] at hx
      subst hx
      refine ⟨by decide, by decide, by decide, by decide, (by intro _ _ _ e; cases e), (fun _ => by decide +kernel), ?_, (by intro _ e; cases e)⟩
      intro l e p hp
      cases e
      simp only [List.mem_cons, List.not_mem_nil, or_false] at hp
      rcases hp with rfl | rfl <;> exact ⟨rfl, by decide⟩
  · intro c hc
    cases hc
    exact ⟨by decide, by decide⟩

example : Td0Loads td0ExampleHeader td0Example (Td0.load {} (td0ExampleHeader.bytes false ++
    (td0Body (some td0ExampleComment) td0Example ++ td0End 1#8 2#8 3#8))) :=
  C55_load_partial _ _ _ td0Example_ok _ (.inr ⟨1#8, 2#8, 3#8, [], by simp⟩)

example : ∃ z, Td0Loads td0ExampleHeader td0Example (Td0.load {} (td0ExampleHeader.bytes true ++ z)) :=
  C55_expressible _ (by decide) _ _ td0Example_ok (by decide +kernel)

-- a comment in the character set of TeleDisk
example : Td0.utf8 (([0x81#8, 0#8] : List Byte).map fun b => if b = 0#8 then 0x0A#8 else b) = false := by decide +kernel

end Fox
