import Verif.Proofs.Td0
import Verif.Proofs.LzhufRebuild
/-
Loading TeleDisk files: tracks, the comment, the file header.
-/
namespace Fox
namespace Td0
open Spec

theorem adds_eq (secs : List Td0Sec) : secs.flatMap adds = (secs.filter fun x => x.body.there).map Td0Sec.sector := by
  induction secs with
  | nil => rfl
  | cons x secs ih =>
    rw [List.flatMap_cons, ih, List.filter_cons]
    unfold adds
    cases x.body.there <;> simp

/-- The loader between two tracks. -/
structure TInv (st : Td0.State) (ts : List (Ch × List MetaSector)) : Prop where
  built : BuiltSect st.disk ts
  cyls : st.cyls = (ts.map (·.1.c)).foldl Pri.insertNat []

theorem TInv.start : TInv { disk := {} } [] := ⟨.empty, rfl⟩

/-- A track that fits. -/
structure TrackFits (t : Ch × List Td0Sec) : Prop where
  c : t.1.c < 256
  h : t.1.h < 2
  count : t.2.length < 255
  secs : ∀ x ∈ t.2, x.Ok

theorem check3 (n c h : Byte) : low (Td0.crc [n, c, h] 0#16) = (td0Check [n, c, h]).setWidth 8 := by
  rw [crc_eq]; rfl

/-- A track up to its sectors. -/
theorem track_sectors {st : Td0.State} {ts : List (Ch × List MetaSector)} (h : TInv st ts) (ch : Ch) (hc : ch.c < 256)
    (hh : ch.h < 2) (n : Nat) (hn : n < 256) :
    ∃ d', BuiltSect d' (ts ++ [(ch, [])]) ∧ ∀ bs,
      track st (byteOf n) (byteOf ch.c) (byteOf ch.h) ((td0Check [byteOf n, byteOf ch.c, byteOf ch.h]).setWidth 8) bs =
      match sectors n bs { ch := ch } with
      | .error e => .error e
      | .ok (t, bs) =>
        .ok ({ disk := { d' with pool := d'.pool.set ts.length (.sect t) }, cyls := Pri.insertNat st.cyls ch.c }, bs) := by
  obtain ⟨d', m1, m2⟩ := h.built.addMeta ch hh
  refine ⟨d', m2, ?_⟩
  intro bs
  unfold track
  rw [if_neg (by rw [check3]; simp), byteOf_toNat hc, byteOf_toNat (show ch.h < 256 by omega), byteOf_toNat hn]
  have m1' : st.disk.addMeta ⟨ch.c, ch.h⟩ = (d', .ok ts.length) := m1
  rw [m1']
  simp only
  cases sectors n bs { ch := ⟨ch.c, ch.h⟩ } <;> rfl

theorem track_ok {st : Td0.State} {ts : List (Ch × List MetaSector)} (h : TInv st ts) (t : Ch × List Td0Sec)
    (ht : TrackFits t) (tail : List Byte) :
    ∃ st', track st (byteOf t.2.length) (byteOf t.1.c) (byteOf t.1.h)
        ((td0Check [byteOf t.2.length, byteOf t.1.c, byteOf t.1.h]).setWidth 8) (t.2.flatMap Td0Sec.bytes ++ tail) = .ok (st', tail) ∧
      TInv st' (ts ++ td0Tracks [t]) := by
  have hc := ht.count
  obtain ⟨d', m1, m2⟩ := track_sectors h t.1 ht.c ht.h t.2.length (by omega)
  refine ⟨{ disk := { d' with pool := d'.pool.set ts.length (.sect { ch := t.1, sectors := (t.2.filter fun x => x.body.there).map Td0Sec.sector }) }, cyls := Pri.insertNat st.cyls t.1.c }, ?_, m1.setLast, ?_⟩
  · rw [m2, sectors_all t.2 ht.secs, adds_eq]
    rfl
  · show Pri.insertNat st.cyls t.1.c = _
    rw [h.cyls, List.map_append, List.foldl_append]
    rfl

theorem ne_end {n : Nat} (h : n < 255) : byteOf n ≠ 0xFF#8 := by
  intro e
  have := byteOf_toNat (show n < 256 by omega)
  rw [e] at this
  have : 255 = n := this
  omega

theorem track_bytes (t : Ch × List Td0Sec) : td0Track t =
    byteOf t.2.length :: byteOf t.1.c :: byteOf t.1.h :: (td0Check [byteOf t.2.length, byteOf t.1.c, byteOf t.1.h]).setWidth 8 ::
      t.2.flatMap Td0Sec.bytes := rfl

/-- Tracks that load. -/
theorem loop_tracks : ∀ (ts : List (Ch × List Td0Sec)) (f : Nat) (st : Td0.State) (done : List (Ch × List MetaSector)) (tail : List Byte),
    TInv st done → (∀ t ∈ ts, TrackFits t) →
    ∃ st', TInv st' (done ++ td0Tracks ts) ∧ loop (ts.length + f) st (ts.flatMap td0Track ++ tail) = loop f st' tail
  | [], f, st, done, tail, h, _ => ⟨st, by simpa [td0Tracks] using h, by simp⟩
  | t :: ts, f, st, done, tail, h, ht => by
    have h1 := ht t (by simp)
    obtain ⟨st1, e1, e2⟩ := track_ok h t h1 (ts.flatMap td0Track ++ tail)
    obtain ⟨st2, g1, g2⟩ := loop_tracks ts f st1 _ tail e2 (fun y hy => ht y (by simp [hy]))
    refine ⟨st2, by simpa [td0Tracks] using g1, ?_⟩
    rw [List.flatMap_cons, List.append_assoc, track_bytes, List.length_cons,
      show ts.length + 1 + f = (ts.length + f) + 1 by omega]
    simp only [List.cons_append]
    rw [loop, if_neg (ne_end h1.count), e1]
    exact g2

/-- What ends the tracks: the end mark, or too little for a track header. -/
def Ends (tail : List Byte) : Prop := tail.length < 4 ∨ ∃ a b c rest, tail = td0End a b c ++ rest

theorem loop_end (f : Nat) (st : Td0.State) (tail : List Byte) (h : Ends tail) : loop (f + 1) st tail = .ok st := by
  rcases h with h | ⟨a, b, c, rest, rfl⟩
  · match tail, h with
    | [], _ => rfl
    | [_], _ => rfl
    | [_, _], _ => rfl
    | [_, _, _], _ => rfl
    | _ :: _ :: _ :: _ :: _, h => simp at h; omega
  · show loop (f + 1) st (0xFF#8 :: a :: b :: c :: rest) = _
    rw [loop, if_pos rfl]

theorem track_pos (t : Ch × List Td0Sec) : 0 < (td0Track t).length := by
  rw [track_bytes]; simp

theorem loop_all (ts : List (Ch × List Td0Sec)) (tail : List Byte) (ht : ∀ t ∈ ts, TrackFits t) (he : Ends tail) :
    ∃ st, TInv st (td0Tracks ts) ∧ loop ((ts.flatMap td0Track ++ tail).length + 1) { disk := {} } (ts.flatMap td0Track ++ tail) = .ok st := by
  have hl := flatMap_length_ge td0Track ts fun t _ => track_pos t
  obtain ⟨st, h1, h2⟩ := loop_tracks ts ((ts.flatMap td0Track ++ tail).length - ts.length + 1) _ _ tail TInv.start ht
  rw [List.nil_append] at h1
  refine ⟨st, h1, ?_⟩
  rw [show (ts.flatMap td0Track ++ tail).length + 1 = ts.length + ((ts.flatMap td0Track ++ tail).length - ts.length + 1) by
    rw [List.length_append]; omega, h2, loop_end _ _ _ he]

/-! ### Cut tracks -/

theorem loop_cut (f : Nat) {st : Td0.State} {ts : List (Ch × List MetaSector)} (h : TInv st ts) (t : Ch × List Td0Sec)
    (ht : TrackFits t) (k : Nat) (h4 : 4 ≤ k) (hk : k < (td0Track t).length) : loop (f + 1) st ((td0Track t).take k) = .error .io := by
  have hc := ht.count
  obtain ⟨d', m1, m2⟩ := track_sectors h t.1 ht.c ht.h t.2.length (by omega)
  rw [track_bytes] at hk ⊢
  obtain ⟨j, rfl⟩ : ∃ j, k = j + 4 := ⟨k - 4, by omega⟩
  simp only [List.take_succ_cons]
  simp only [List.length_cons] at hk
  rw [loop, if_neg (ne_end ht.count), m2, sectors_cut t.2 ht.secs j _ (by omega)]

theorem loop_bad (f : Nat) {st : Td0.State} {ts : List (Ch × List MetaSector)} (h : TInv st ts) (ch : Ch) (pre post : List Td0Sec)
    (x : Td0Sec) (ht : TrackFits (ch, pre ++ x :: post)) (hx : x.body.there = true) (ck : Byte) (hck : ck ≠ x.check) (tail : List Byte) :
    loop (f + 1) st (td0TrackHeader (pre ++ x :: post).length ch.c ch.h ++ (pre.flatMap Td0Sec.bytes ++ (x.bytesWith ck ++ tail))) =
      .error .corrupt := by
  have hc := ht.count
  obtain ⟨d', m1, m2⟩ := track_sectors h ch ht.c ht.h (pre ++ x :: post).length (by simp only at hc; omega)
  unfold td0TrackHeader
  simp only [List.cons_append, List.nil_append]
  rw [loop, if_neg (ne_end ht.count), m2, show (pre ++ x :: post).length = pre.length + (post.length + 1) by simp,
    sectors_after pre (fun y hy => ht.secs y (by simp [hy])), bytesWith_eq]
  simp only [List.cons_append]
  rw [sectors]
  rw [sector_bad x (ht.secs x (by simp)) hx ck hck]

/-! ### The comment -/

/-- Zero bytes become newlines. -/
def nl (b : Byte) : Byte := if b = 0#8 then 0x0A#8 else b

theorem nl_char (c : Char) : ∃ c' : Char, ((String.utf8EncodeChar c).map fun b => UInt8.ofBitVec (nl b.toBitVec)) = String.utf8EncodeChar c' := by
  by_cases h0 : c.val.toNat = 0
  · refine ⟨'\n', ?_⟩
    have : c = Char.ofNat 0 := by
      apply Char.ext
      apply UInt32.toNat_inj.1
      rw [h0]; rfl
    subst this
    decide
  · refine ⟨c, ?_⟩
    have key : ∀ k : Nat, 0 < k → k < 256 → UInt8.ofBitVec (nl (UInt8.ofNat k).toBitVec) = UInt8.ofNat k := by
      intro k h1 h2
      have hz : (UInt8.ofNat k).toBitVec ≠ 0#8 := by
        intro e
        have := congrArg BitVec.toNat e
        have e2 : k % 256 = 0 := this
        omega
      unfold nl
      rw [if_neg hz]
    have hu := c.val.toNat_lt
    unfold String.utf8EncodeChar
    simp only
    generalize c.val.toNat = v at *
    split
    · rw [List.map_singleton, key v (by omega) (by omega)]
    · split
      · simp only [List.map_cons, List.map_nil]
        rw [key _ (by omega) (by omega), key _ (by omega) (by omega)]
      · split
        · simp only [List.map_cons, List.map_nil]
          rw [key _ (by omega) (by omega), key _ (by omega) (by omega), key _ (by omega) (by omega)]
        · simp only [List.map_cons, List.map_nil]
          rw [key _ (by omega) (by omega), key _ (by omega) (by omega), key _ (by omega) (by omega), key _ (by omega) (by omega)]

theorem utf8_text (cs : List Char) : utf8 ((utf8Bytes cs).map fun b => if b = 0#8 then 0x0A#8 else b) = true := by
  have : ∃ ds : List Char, ((utf8Bytes cs).map nl).map UInt8.ofBitVec = ds.flatMap String.utf8EncodeChar := by
    unfold utf8Bytes
    induction cs with
    | nil => exact ⟨[], rfl⟩
    | cons c cs ih =>
      obtain ⟨ds, hd⟩ := ih
      obtain ⟨c', hc⟩ := nl_char c
      refine ⟨c' :: ds, ?_⟩
      rw [List.flatMap_cons, List.flatMap_cons, List.map_append, List.map_append, List.map_append, hd, ← hc]
      simp
  obtain ⟨ds, hd⟩ := this
  unfold utf8
  rw [ByteArray.validateUTF8_eq_true_iff]
  refine ⟨ds, ?_⟩
  unfold List.utf8Encode
  rw [← hd]
  apply ByteArray.ext
  rw [List.data_toByteArray]
  rfl

/-- Reading past a comment. -/
theorem comment_ok (x : Td0Comment) (h : x.Ok) (total : Nat) (rest : List Byte) (ht : (x.bytes ++ rest).length ≤ total) :
    comment total (x.bytes ++ rest) = .ok rest := by
  obtain ⟨h1, h2⟩ := h
  obtain ⟨d0, d1, d2, d3, d4, d5, hd⟩ : ∃ d0 d1 d2 d3 d4 d5, x.date = [d0, d1, d2, d3, d4, d5] := by
    match x.date, h1 with
    | [d0, d1, d2, d3, d4, d5], _ => exact ⟨d0, d1, d2, d3, d4, d5, rfl⟩
  have ht : 10 + (utf8Bytes x.text).length ≤ total := by
    unfold Td0Comment.bytes word at ht
    rw [hd] at ht
    simp only [List.cons_append, List.nil_append, List.length_cons, List.length_append] at ht
    omega
  unfold Td0Comment.bytes word
  rw [hd]
  simp only [List.cons_append, List.nil_append, List.append_assoc]
  unfold comment
  simp only [List.drop_succ_cons, List.drop_zero]
  rw [le16_word, u16 _ h2]
  have hl : ¬ (BitVec.setWidth 8 (BitVec.ofNat 16 (utf8Bytes x.text).length) ::
      BitVec.setWidth 8 (BitVec.ofNat 16 (utf8Bytes x.text).length >>> 8) :: d0 :: d1 :: d2 :: d3 :: d4 :: d5 ::
      (utf8Bytes x.text ++ rest)).length < 8 + (utf8Bytes x.text).length := by
    simp only [List.length_cons, List.length_append]; omega
  unfold Imd.take
  rw [if_neg hl]
  simp only
  rw [if_neg (by omega), if_neg (by rw [List.length_append]; omega)]
  simp only
  rw [List.take_left, List.drop_left, utf8_text, if_pos rfl]

/-! ### The number of cylinders -/

theorem insertNat_nodup : ∀ (l s : List Nat), s.Nodup → (l.foldl Pri.insertNat s).Nodup ∧
    ∀ x, x ∈ l.foldl Pri.insertNat s ↔ x ∈ s ∨ x ∈ l
  | [], s, h => ⟨h, by simp⟩
  | y :: l, s, h => by
    have hn : (Pri.insertNat s y).Nodup ∧ ∀ x, x ∈ Pri.insertNat s y ↔ x ∈ s ∨ x = y := by
      unfold Pri.insertNat
      split
      · refine ⟨h, fun x => ⟨Or.inl, ?_⟩⟩
        rintro (h | rfl)
        · exact h
        · assumption
      · rename_i hy
        refine ⟨List.nodup_append.2 ⟨h, by simp, ?_⟩, by simp⟩
        intro a ha b hb e
        rw [List.mem_singleton] at hb
        subst hb; subst e
        exact hy ha
    obtain ⟨i1, i2⟩ := insertNat_nodup l _ hn.1
    refine ⟨i1, fun x => ?_⟩
    rw [List.foldl_cons, i2, hn.2, List.mem_cons, or_assoc]

theorem nodup_length_eq {a b : List Nat} (ha : a.Nodup) (hb : b.Nodup) (h : ∀ x, x ∈ a ↔ x ∈ b) : a.length = b.length := by
  have aux : ∀ {a b : List Nat}, a.Nodup → (∀ x ∈ a, x ∈ b) → a.length ≤ b.length := by
    intro a
    induction a with
    | nil => intro b _ _; simp
    | cons x a ih =>
      intro b hn hs
      rw [List.nodup_cons] at hn
      have hx : x ∈ b := hs x (by simp)
      have := ih (b := b.erase x) hn.2 (by
        intro y hy
        rw [List.mem_erase_of_ne (by intro e; subst e; exact hn.1 hy)]
        exact hs y (by simp [hy]))
      rw [List.length_erase_of_mem hx] at this
      have : 0 < b.length := List.length_pos_of_mem hx
      rw [List.length_cons]; omega
  exact Nat.le_antisymm (aux ha fun x hx => (h x).1 hx) (aux hb fun x hx => (h x).2 hx)

theorem cylinders_eq {st : Td0.State} {ts : List (Ch × List Td0Sec)} (h : TInv st (td0Tracks ts)) (ht : ∀ t ∈ ts, TrackFits t) :
    st.cyls.length = td0Cylinders ts := by
  rw [h.cyls]
  unfold td0Cylinders
  obtain ⟨n1, n2⟩ := insertNat_nodup ((td0Tracks ts).map (·.1.c)) [] List.nodup_nil
  apply nodup_length_eq n1
  · exact List.nodup_range.filter _
  · intro x
    rw [n2, List.mem_filter, List.mem_range]
    simp only [List.not_mem_nil, false_or, List.mem_map, td0Tracks, List.any_eq_true, beq_iff_eq]
    constructor
    · rintro ⟨y, ⟨t, ht', rfl⟩, rfl⟩
      exact ⟨(ht t ht').c, t, ht', rfl⟩
    · rintro ⟨_, t, ht', rfl⟩
      exact ⟨_, ⟨t, ht', rfl⟩, rfl⟩

theorem td0Cylinders_le (ts : List (Ch × List Td0Sec)) : td0Cylinders ts ≤ 256 := by
  unfold td0Cylinders
  exact Nat.le_trans (List.length_filter_le _ _) (by simp)

/-! ### From the comment on -/

theorem td0Tracks_chs (ts : List (Ch × List Td0Sec)) : (td0Tracks ts).map (·.1) = ts.map (·.1) := by
  simp [td0Tracks]

theorem td0Tracks_inOrder {ts : List (Ch × List Td0Sec)} (h : InOrder ts) : InOrder (td0Tracks ts) := by
  rw [inOrder_chs, td0Tracks_chs, ← inOrder_chs]; exact h

theorem loadBody_comment (cm : Option Td0Comment) (hcm : ∀ x, cm = some x → x.Ok) (d : Disk) (heads : Byte) (total : Nat)
    (ts : List (Ch × List Td0Sec)) (tail : List Byte) (htot : (td0Body cm ts ++ tail).length ≤ total) :
    loadBody d cm.isSome heads total (td0Body cm ts ++ tail) =
      match loop ((ts.flatMap td0Track ++ tail).length + 1) { disk := d } (ts.flatMap td0Track ++ tail) with
      | .error e => .error e
      | .ok st => .ok { st.disk with geometry := ⟨st.cyls.length % 65536, heads.toNat⟩ } := by
  unfold loadBody td0Body
  cases cm with
  | none => rfl
  | some x =>
    have htot : ((x.bytes ++ ts.flatMap td0Track) ++ tail).length ≤ total := htot
    rw [List.append_assoc] at htot
    simp only [Option.isSome_some, if_true]
    rw [List.append_assoc, comment_ok x (hcm x rfl) total _ htot]
    rfl

theorem loadBody_ok (cm : Option Td0Comment) (hcm : ∀ x, cm = some x → x.Ok) (heads : Byte) (total : Nat)
    (ts : List (Ch × List Td0Sec)) (ho : InOrder ts) (ht : ∀ t ∈ ts, TrackFits t) (tail : List Byte) (he : Ends tail)
    (htot : (td0Body cm ts ++ tail).length ≤ total) :
    ∃ d, loadBody {} cm.isSome heads total (td0Body cm ts ++ tail) = .ok d ∧ HasTracks d (td0Tracks ts) ∧
      d.geometry = ⟨td0Cylinders ts, heads.toNat⟩ := by
  obtain ⟨st, h1, h2⟩ := loop_all ts tail ht he
  rw [loadBody_comment cm hcm {} heads total ts tail htot, h2]
  refine ⟨_, rfl, ?_, ?_⟩
  · have := h1.built.hasTracks (td0Tracks_inOrder ho)
    exact ⟨this.there, this.only⟩
  · show (⟨_, _⟩ : Ch) = _
    have := td0Cylinders_le ts
    rw [cylinders_eq h1 ht, Nat.mod_eq_of_lt (by omega)]

/-! ### The file header -/

theorem step_bit (x : Td0Header) (cm : Option Td0Comment) (h : x.Fits cm) : (x.stepping &&& 0x80#8 != 0#8) = cm.isSome := by
  rw [← h]
  have : ∀ b : Byte, (b &&& 0x80#8 != 0#8) = b.getMsbD 0 := by decide
  exact this _

theorem load_plain (x : Td0Header) (d : Disk) (body : List Byte) :
    load d (x.bytes false ++ body) = loadBody d (x.stepping &&& 0x80#8 != 0#8) x.heads (body.length + 12) body := by
  unfold Td0Header.bytes word
  simp only [Bool.false_eq_true, if_false, List.cons_append, List.nil_append]
  unfold load
  simp only
  rw [if_neg (by simp), crc_eq, le16_word, if_neg (by simp), if_neg (by decide)]
  rfl

theorem load_packed (x : Td0Header) (d : Disk) (z body : List Byte)
    (h : (if x.version.toNat / 10 < 2 then Lzw.expand z else Lzhuf.expand z) = .ok body) :
    load d (x.bytes true ++ z) = loadBody d (x.stepping &&& 0x80#8 != 0#8) x.heads body.length body := by
  unfold Td0Header.bytes word
  simp only [if_true, List.cons_append, List.nil_append]
  unfold load
  simp only
  rw [if_neg (by simp), crc_eq, le16_word, if_neg (by simp), if_pos (by simp), h]
  rfl

end Td0
end Fox
