import Verif.Spec.Imd
import Verif.Proofs.Psi
/-
Loading IMD files.
-/
namespace Fox
open Spec

theorem take_ok (a b : List Byte) (n : Nat) (h : a.length = n) : Imd.take n (a ++ b) = .ok (a, b) := by
  unfold Imd.take
  rw [if_neg (by rw [List.length_append]; omega), List.take_append_of_le_length (by omega),
    List.take_of_length_le (by omega), ← h, List.drop_left]

/-- One sector record. -/
theorem readData_body (n : Nat) (x : ImdBody) (tail : List Byte) (hx : (x.deleted && x.error) = false)
    (hd : ∀ d del err, x = .data d del err → d.length = 128 * 2 ^ n) :
    ∃ m rest, x.bytes ++ tail = m :: rest ∧ ¬ m.toNat > 8 ∧
      Imd.readData m (128 * 2 ^ n) rest = .ok ((x.contents n, x.deleted, x.error), tail) := by
  rcases x with _ | ⟨d, del, err⟩ | ⟨b, del, err⟩
  · exact ⟨0#8, tail, rfl, by decide, rfl⟩
  · have hl := hd d del err rfl
    have hx : (del && err) = false := hx
    refine ⟨_, d ++ tail, rfl, by cases del <;> cases err <;> decide, ?_⟩
    have := take_ok d tail _ hl
    cases del <;> cases err
    · show (match Imd.take _ _ with | .error e => (Except.error e : Except Err _) | .ok (d, r) => .ok ((d, false, false), r)) = _
      rw [this]; rfl
    · show (match Imd.take _ _ with | .error e => (Except.error e : Except Err _) | .ok (d, r) => .ok ((d, false, true), r)) = _
      rw [this]; rfl
    · show (match Imd.take _ _ with | .error e => (Except.error e : Except Err _) | .ok (d, r) => .ok ((d, true, false), r)) = _
      rw [this]; rfl
    · simp at hx
  · have hx : (del && err) = false := hx
    refine ⟨_, b :: tail, rfl, by cases del <;> cases err <;> decide, ?_⟩
    cases del <;> cases err
    · rfl
    · rfl
    · rfl
    · simp at hx

/-- The records of a track. -/
theorem sectors_ok (ch : Ch) (t : ImdTrk) : ∀ (secs : List ImdSec),
    (∀ x ∈ secs, x.s < 256 ∧ x.c < 256 ∧ x.h < 256 ∧ (x.body.deleted && x.body.error) = false ∧
      ∀ d del err, x.body = .data d del err → d.length = 128 * 2 ^ t.n) → ch.c < 256 → ch.h < 256 →
    ∀ (tail : List Byte) (mt : MetaTrack),
      Imd.sectors (128 * 2 ^ t.n) (secs.map fun x => (byteOf x.s, byteOf (if t.cylMap then x.c else ch.c),
        byteOf (if t.headMap then x.h else ch.h))) (secs.flatMap (fun x => x.body.bytes) ++ tail) mt =
      .ok ({ mt with sectors := mt.sectors ++ secs.map (t.sector ch) }, tail)
  | [], _, _, _, tail, mt => by simp [Imd.sectors]
  | x :: secs, h, hc, hh, tail, mt => by
    obtain ⟨h1, h2, h3, h4, h5⟩ := h x (by simp)
    rw [List.map_cons, List.flatMap_cons, List.append_assoc]
    obtain ⟨m, rest, e1, e2, e3⟩ := readData_body t.n x.body (secs.flatMap (fun x => x.body.bytes) ++ tail) h4 h5
    rw [e1]
    unfold Imd.sectors
    simp only
    rw [if_neg e2, e3]
    simp only
    unfold MetaTrack.addSector
    rw [if_neg (by simp)]
    simp only
    rw [sectors_ok ch t secs (fun y hy => h y (by simp [hy])) hc hh tail _]
    have hid : MetaTrack.newSector
        { id := ⟨(byteOf (if t.cylMap = true then x.c else ch.c)).toNat,
            (byteOf (if t.headMap = true then x.h else ch.h)).toNat, (byteOf x.s).toNat, bytesToN (128 * 2 ^ t.n)⟩,
          data := x.body.contents t.n, dataError := x.body.error, deletedMark := x.body.deleted } = t.sector ch x := by
      rw [byteOf_toNat (by split <;> assumption), byteOf_toNat (by split <;> assumption), byteOf_toNat h1,
        C14_bytesToN_pow]
      rfl
    rw [hid]
    simp

theorem zip3_map {α β γ δ : Type} (f : α → β) (g : α → γ) (h : α → δ) : ∀ l : List α,
    (l.map f).zip ((l.map g).zip (l.map h)) = l.map fun x => (f x, g x, h x)
  | [] => rfl
  | x :: l => by simp [zip3_map f g h l]

theorem replicate_map {α β : Type} (b : β) (l : List α) : List.replicate l.length b = l.map fun _ => b := by
  simp [List.map_const']

theorem head_byte (h : Nat) (hh : h < 2) (a b : Bool) :
    ((byteOf (h + (if a then 0x80 else 0) + (if b then 0x40 else 0)) &&& 0x3F#8).toNat < 2) ∧
    (byteOf (h + (if a then 0x80 else 0) + (if b then 0x40 else 0)) &&& 0x0F#8) = byteOf h ∧
    ((byteOf (h + (if a then 0x80 else 0) + (if b then 0x40 else 0)) &&& 0x80#8 != 0#8) = a) ∧
    ((byteOf (h + (if a then 0x80 else 0) + (if b then 0x40 else 0)) &&& 0x40#8 != 0#8) = b) := by
  rcases (by omega : h = 0 ∨ h = 1) with rfl | rfl <;> cases a <;> cases b <;> decide

/-- The loader between two tracks. -/
structure IInv (st : Imd.State) (ts : List (Ch × List MetaSector)) : Prop where
  built : BuiltSect st.disk ts
  heads : st.heads = (ts.map (·.1.h)).foldl Pri.insertNat []
  tracks : st.tracks = (ts.filter fun t => t.2 ≠ []).length

/-- One track of the file. -/
theorem imd_track {st : Imd.State} {ts : List (Ch × List MetaSector)} (h : IInv st ts) (debug : Bool) (ch : Ch)
    (hc : ch.c < 256) (hh : ch.h < 2) (t : ImdTrk) (ht : t.Ok) (hd : debug = true → t.secs.length < 128)
    (tail : List Byte) :
    ∃ m c hb n z rest st', t.bytes ch ++ tail = m :: c :: hb :: n :: z :: rest ∧
      Imd.track debug st ⟨m, c, hb, n, z⟩ rest = .ok (st', tail) ∧
      IInv st' (ts ++ [(ch, t.secs.map (t.sector ch))]) := by
  obtain ⟨b1, b2, b3, b4⟩ := head_byte ch.h hh t.cylMap t.headMap
  obtain ⟨d', m1, m2⟩ := h.built.addMeta ch hh
  have hcnt := ht.count
  have hlast := m2.last
  refine ⟨byteOf t.mode, byteOf ch.c, byteOf (ch.h + (if t.cylMap then 0x80 else 0) + (if t.headMap then 0x40 else 0)),
    byteOf t.secs.length, byteOf t.n,
    t.secs.map (fun x => byteOf x.s) ++ ((if t.cylMap then t.secs.map (fun x => byteOf x.c) else []) ++
      ((if t.headMap then t.secs.map (fun x => byteOf x.h) else []) ++ (t.secs.flatMap (fun x => x.body.bytes) ++ tail))),
    { disk := { d' with pool := d'.pool.set ts.length (.sect { ch := ch, sectors := t.secs.map (t.sector ch) }) },
      heads := Pri.insertNat st.heads ch.h,
      tracks := if t.secs = [] then st.tracks else st.tracks + 1 }, ?_, ?_, ?_⟩
  · unfold ImdTrk.bytes
    simp only [List.append_assoc]
    rfl
  · unfold Imd.track
    have hv : Imd.Header.valid ⟨byteOf t.mode, byteOf ch.c, byteOf (ch.h + (if t.cylMap then 0x80 else 0) + (if t.headMap then 0x40 else 0)),
        byteOf t.secs.length, byteOf t.n⟩ = true := by
      unfold Imd.Header.valid
      have h1 := ht.mode
      have h2 := ht.n
      simp only
      rw [byteOf_toNat (show t.mode < 256 by omega), byteOf_toNat (show t.n < 256 by omega)]
      simp only [decide_eq_true h1, decide_eq_true b1, decide_eq_true h2, Bool.and_self]
    have hhead : Imd.Header.head ⟨byteOf t.mode, byteOf ch.c, byteOf (ch.h + (if t.cylMap then 0x80 else 0) + (if t.headMap then 0x40 else 0)),
        byteOf t.secs.length, byteOf t.n⟩ = ch.h := by
      unfold Imd.Header.head
      rw [b2, byteOf_toNat (by omega)]
    have hby : Imd.Header.bytes ⟨byteOf t.mode, byteOf ch.c, byteOf (ch.h + (if t.cylMap then 0x80 else 0) + (if t.headMap then 0x40 else 0)),
        byteOf t.secs.length, byteOf t.n⟩ = 128 * 2 ^ t.n := by
      unfold Imd.Header.bytes
      have h2 := ht.n
      rw [byteOf_toNat (show t.n < 256 by omega)]
    rw [if_neg (by rw [hv]; decide), hhead, hby]
    simp only
    rw [byteOf_toNat hcnt, byteOf_toNat hc, if_neg (by
      rcases debug with _ | _
      · simp
      · have := hd rfl; simp; omega)]
    rw [take_ok _ _ _ (by simp)]
    simp only
    rw [b3, b4, b2]
    have hcyl : (if t.cylMap = true then Imd.take t.secs.length ((if t.cylMap then t.secs.map (fun x => byteOf x.c) else []) ++
        ((if t.headMap then t.secs.map (fun x => byteOf x.h) else []) ++ (t.secs.flatMap (fun x => x.body.bytes) ++ tail)))
      else (.ok (List.replicate t.secs.length (byteOf ch.c), (if t.cylMap then t.secs.map (fun x => byteOf x.c) else []) ++
        ((if t.headMap then t.secs.map (fun x => byteOf x.h) else []) ++ (t.secs.flatMap (fun x => x.body.bytes) ++ tail))) : Except Err _)) =
      .ok (t.secs.map fun x => byteOf (if t.cylMap then x.c else ch.c),
        (if t.headMap then t.secs.map (fun x => byteOf x.h) else []) ++ (t.secs.flatMap (fun x => x.body.bytes) ++ tail)) := by
      cases t.cylMap
      · simp [replicate_map]
      · simp only [if_true]; exact take_ok _ _ _ (by simp)
    rw [hcyl]
    simp only
    have hhd : (if t.headMap = true then Imd.take t.secs.length ((if t.headMap then t.secs.map (fun x => byteOf x.h) else []) ++ (t.secs.flatMap (fun x => x.body.bytes) ++ tail))
      else (.ok (List.replicate t.secs.length (byteOf ch.h), (if t.headMap then t.secs.map (fun x => byteOf x.h) else []) ++ (t.secs.flatMap (fun x => x.body.bytes) ++ tail)) : Except Err _)) =
      .ok (t.secs.map fun x => byteOf (if t.headMap then x.h else ch.h), t.secs.flatMap (fun x => x.body.bytes) ++ tail) := by
      cases t.headMap
      · simp [replicate_map]
      · simp only [if_true]; exact take_ok _ _ _ (by simp)
    rw [hhd]
    simp only
    have m1' : st.disk.addMeta ⟨ch.c, ch.h⟩ = (d', .ok ts.length) := m1
    rw [m1', zip3_map]
    simp only
    rw [sectors_ok ch t t.secs ht.secs hc (by omega) tail _]
    simp only [List.nil_append]
    have hz : (byteOf t.secs.length = 0#8) ↔ t.secs = [] := by
      constructor
      · intro e
        have := byteOf_toNat hcnt
        rw [e] at this
        exact List.length_eq_zero_iff.1 this.symm
      · intro e; rw [e]; rfl
    simp only [hz]
  · refine ⟨m2.setLast, ?_, ?_⟩
    · simp [h.heads]
    · show (if t.secs = [] then st.tracks else st.tracks + 1) = _
      rw [h.tracks, List.filter_append, List.length_append]
      by_cases e : t.secs = [] <;> simp [e]

/-- All tracks, and what follows them: too little for a track header. -/
theorem imd_loop (debug : Bool) : ∀ (ts : List (Ch × ImdTrk)) (f : Nat) (st : Imd.State)
    (done : List (Ch × List MetaSector)) (tail : List Byte), IInv st done →
    (∀ t ∈ ts, t.1.c < 256 ∧ t.1.h < 2 ∧ t.2.Ok ∧ (debug = true → t.2.secs.length < 128)) →
    ts.length < f → tail.length < 5 →
    ∃ st', Imd.loop debug f st (ts.flatMap (fun t => t.2.bytes t.1) ++ tail) = .ok st' ∧
      IInv st' (done ++ imdTracks ts)
  | ts, 0, st, done, tail, _, _, hf, _ => by omega
  | [], f + 1, st, done, tail, h, _, _, htl => by
    refine ⟨st, ?_, by simpa [imdTracks] using h⟩
    rw [List.flatMap_nil, List.nil_append]
    match tail, htl with
    | [], _ => rfl
    | [_], _ => rfl
    | [_, _], _ => rfl
    | [_, _, _], _ => rfl
    | [_, _, _, _], _ => rfl
    | _ :: _ :: _ :: _ :: _ :: _, h => simp at h; omega
  | t :: ts, f + 1, st, done, tail, h, ht, hf, htl => by
    obtain ⟨t1, t2, t3, t4⟩ := ht t (by simp)
    obtain ⟨m, c, hb, n, z, rest, st', e1, e2, e3⟩ := imd_track h debug t.1 t1 t2 t.2 t3 t4
      (ts.flatMap (fun t => t.2.bytes t.1) ++ tail)
    rw [List.flatMap_cons, List.append_assoc, e1]
    unfold Imd.loop
    rw [e2]
    simp only
    obtain ⟨st2, g1, g2⟩ := imd_loop debug ts f st' _ tail e3 (fun y hy => ht y (by simp [hy]))
      (by simp only [List.length_cons] at hf; omega) htl
    exact ⟨st2, g1, by simpa [imdTracks] using g2⟩

theorem skip_text : ∀ (text rest : List Byte), ImdText text → Imd.skipAscii 0x1A#8 (text ++ 0x1A#8 :: rest) = rest
  | [], rest, _ => by rw [List.nil_append, Imd.skipAscii, if_pos (Or.inl rfl)]
  | b :: text, rest, h => by
    have := h b (by simp)
    rw [List.cons_append, Imd.skipAscii, if_neg (by simp [this.1, this.2])]
    exact skip_text text rest fun y hy => h y (by simp [hy])

theorem imdTrk_long (ch : Ch) (t : ImdTrk) : 5 ≤ (t.bytes ch).length := by
  unfold ImdTrk.bytes
  simp only [List.length_append, List.length_cons]
  omega

theorem flatMap_imd_length : ∀ ts : List (Ch × ImdTrk), ts.length ≤ (ts.flatMap fun t => t.2.bytes t.1).length
  | [] => by simp
  | t :: ts => by
    rw [List.flatMap_cons, List.length_append, List.length_cons]
    have := imdTrk_long t.1 t.2
    have := flatMap_imd_length ts
    omega

/-! ### Cut files -/

theorem take_short (bs : List Byte) (n : Nat) (h : bs.length < n) : Imd.take n bs = .error .io := by
  unfold Imd.take; rw [if_pos h]

theorem readData_cut (n : Nat) (x : ImdBody) (hx : (x.deleted && x.error) = false)
    (hd : ∀ d del err, x = .data d del err → d.length = 128 * 2 ^ n) (k : Nat) (hk : k < x.bytes.length) :
    x.bytes.take k = [] ∨ ∃ m rest, x.bytes.take k = m :: rest ∧ ¬ m.toNat > 8 ∧
      Imd.readData m (128 * 2 ^ n) rest = .error .io := by
  rcases k with _ | k
  · left; rfl
  right
  rcases x with _ | ⟨d, del, err⟩ | ⟨b, del, err⟩
  · have hk : k + 1 < 1 := hk
    omega
  · have hl := hd d del err rfl
    have hx : (del && err) = false := hx
    have hk : k + 1 < d.length + 1 := hk
    refine ⟨_, d.take k, rfl, by cases del <;> cases err <;> decide, ?_⟩
    have := take_short (d.take k) (128 * 2 ^ n) (by rw [List.length_take]; omega)
    cases del <;> cases err
    · show (match Imd.take _ _ with | .error e => (Except.error e : Except Err _) | .ok (d, r) => .ok ((d, false, false), r)) = _
      rw [this]
    · show (match Imd.take _ _ with | .error e => (Except.error e : Except Err _) | .ok (d, r) => .ok ((d, false, true), r)) = _
      rw [this]
    · show (match Imd.take _ _ with | .error e => (Except.error e : Except Err _) | .ok (d, r) => .ok ((d, true, false), r)) = _
      rw [this]
    · simp at hx
  · have hx : (del && err) = false := hx
    have hk : k + 1 < 2 := hk
    have : k = 0 := by omega
    subst this
    refine ⟨_, [], rfl, by cases del <;> cases err <;> decide, ?_⟩
    cases del <;> cases err
    · rfl
    · rfl
    · rfl
    · simp at hx

theorem sectors_cut (ch : Ch) (t : ImdTrk) : ∀ (secs : List ImdSec),
    (∀ x ∈ secs, x.s < 256 ∧ x.c < 256 ∧ x.h < 256 ∧ (x.body.deleted && x.body.error) = false ∧
      ∀ d del err, x.body = .data d del err → d.length = 128 * 2 ^ t.n) →
    ∀ (k : Nat) (mt : MetaTrack), k < (secs.flatMap fun x => x.body.bytes).length →
      Imd.sectors (128 * 2 ^ t.n) (secs.map fun x => (byteOf x.s, byteOf (if t.cylMap then x.c else ch.c),
        byteOf (if t.headMap then x.h else ch.h))) ((secs.flatMap fun x => x.body.bytes).take k) mt = .error .io
  | [], _, k, mt, hk => by simp at hk
  | x :: secs, h, k, mt, hk => by
    obtain ⟨h1, h2, h3, h4, h5⟩ := h x (by simp)
    rw [List.flatMap_cons] at hk ⊢
    rw [List.map_cons]
    by_cases hlt : k < x.body.bytes.length
    · rw [List.take_append_of_le_length (by omega)]
      rcases readData_cut t.n x.body h4 h5 k hlt with e | ⟨m, rest, e1, e2, e3⟩
      · rw [e]; rfl
      · rw [e1]
        unfold Imd.sectors
        simp only
        rw [if_neg e2, e3]
    · rw [List.take_append, List.take_of_length_le (by omega)]
      obtain ⟨m, rest, e1, e2, e3⟩ := readData_body t.n x.body
        ((secs.flatMap fun x => x.body.bytes).take (k - x.body.bytes.length)) h4 h5
      rw [e1]
      unfold Imd.sectors
      simp only
      rw [if_neg e2, e3]
      simp only
      unfold MetaTrack.addSector
      rw [if_neg (by simp)]
      simp only
      exact sectors_cut ch t secs (fun y hy => h y (by simp [hy])) _ _ (by rw [List.length_append] at hk; omega)

/-- A track cut anywhere after its header. -/
theorem imd_track_cut {st : Imd.State} {ts : List (Ch × List MetaSector)} (h : IInv st ts) (debug : Bool) (ch : Ch)
    (hc : ch.c < 256) (hh : ch.h < 2) (t : ImdTrk) (ht : t.Ok) (hd : debug = true → t.secs.length < 128)
    (k : Nat) (h5 : 5 ≤ k) (hk : k < (t.bytes ch).length) :
    ∃ m c hb n z rest, (t.bytes ch).take k = m :: c :: hb :: n :: z :: rest ∧
      Imd.track debug st ⟨m, c, hb, n, z⟩ rest = .error .io := by
  obtain ⟨b1, b2, b3, b4⟩ := head_byte ch.h hh t.cylMap t.headMap
  obtain ⟨d', m1, m2⟩ := h.built.addMeta ch hh
  have hcnt := ht.count
  obtain ⟨j, rfl⟩ : ∃ j, k = j + 5 := ⟨k - 5, by omega⟩
  generalize hA : t.secs.map (fun x => byteOf x.s) = A
  generalize hB : (if t.cylMap then t.secs.map (fun x => byteOf x.c) else []) = B
  generalize hC : (if t.headMap then t.secs.map (fun x => byteOf x.h) else []) = C
  generalize hD : (t.secs.flatMap fun x => x.body.bytes) = D
  have hbytes : t.bytes ch = byteOf t.mode :: byteOf ch.c :: byteOf (ch.h + (if t.cylMap then 0x80 else 0) + (if t.headMap then 0x40 else 0)) ::
      byteOf t.secs.length :: byteOf t.n :: (A ++ (B ++ (C ++ D))) := by
    unfold ImdTrk.bytes
    rw [hA, hB, hC, hD]
    simp only [List.append_assoc]
    rfl
  have hAl : A.length = t.secs.length := by rw [← hA]; simp
  have hBl : t.cylMap = true → B.length = t.secs.length := by intro e; rw [← hB, if_pos e]; simp
  have hCl : t.headMap = true → C.length = t.secs.length := by intro e; rw [← hC, if_pos e]; simp
  rw [hbytes] at hk
  simp only [List.length_cons, List.length_append] at hk
  refine ⟨byteOf t.mode, byteOf ch.c, byteOf (ch.h + (if t.cylMap then 0x80 else 0) + (if t.headMap then 0x40 else 0)),
    byteOf t.secs.length, byteOf t.n, (A ++ (B ++ (C ++ D))).take j, by rw [hbytes]; rfl, ?_⟩
  unfold Imd.track
  have hv : Imd.Header.valid ⟨byteOf t.mode, byteOf ch.c, byteOf (ch.h + (if t.cylMap then 0x80 else 0) + (if t.headMap then 0x40 else 0)),
      byteOf t.secs.length, byteOf t.n⟩ = true := by
    unfold Imd.Header.valid
    have h1 := ht.mode
    have h2 := ht.n
    simp only
    rw [byteOf_toNat (show t.mode < 256 by omega), byteOf_toNat (show t.n < 256 by omega)]
    simp only [decide_eq_true h1, decide_eq_true b1, decide_eq_true h2, Bool.and_self]
  have hhead : Imd.Header.head ⟨byteOf t.mode, byteOf ch.c, byteOf (ch.h + (if t.cylMap then 0x80 else 0) + (if t.headMap then 0x40 else 0)),
      byteOf t.secs.length, byteOf t.n⟩ = ch.h := by
    unfold Imd.Header.head
    rw [b2, byteOf_toNat (by omega)]
  have hby : Imd.Header.bytes ⟨byteOf t.mode, byteOf ch.c, byteOf (ch.h + (if t.cylMap then 0x80 else 0) + (if t.headMap then 0x40 else 0)),
      byteOf t.secs.length, byteOf t.n⟩ = 128 * 2 ^ t.n := by
    unfold Imd.Header.bytes
    have h2 := ht.n
    rw [byteOf_toNat (show t.n < 256 by omega)]
  rw [if_neg (by rw [hv]; decide), hhead, hby]
  simp only
  rw [byteOf_toNat hcnt, byteOf_toNat hc, if_neg (by
    rcases debug with _ | _
    · simp
    · have := hd rfl; simp; omega)]
  by_cases c1 : j < A.length
  · rw [take_short _ _ (by rw [List.length_take]; omega)]
  rw [List.take_append, List.take_of_length_le (by omega), take_ok _ _ _ hAl]
  simp only
  rw [b3, b4, b2]
  generalize hj1 : j - A.length = j1
  by_cases c2 : t.cylMap = true ∧ j1 < B.length
  · rw [if_pos c2.1, take_short _ _ (by rw [List.length_take]; have := hBl c2.1; omega)]
  have hcyl : (if t.cylMap = true then Imd.take t.secs.length ((B ++ (C ++ D)).take j1)
      else (.ok (List.replicate t.secs.length (byteOf ch.c), (B ++ (C ++ D)).take j1) : Except Err _)) =
      .ok (t.secs.map fun x => byteOf (if t.cylMap then x.c else ch.c), (C ++ D).take (j1 - B.length)) := by
    by_cases e : t.cylMap = true
    · rw [if_pos e, List.take_append, List.take_of_length_le (by
        have : ¬ j1 < B.length := fun hc => c2 ⟨e, hc⟩
        omega), take_ok _ _ _ (hBl e)]
      rw [← hB, if_pos e]
      simp only [e, if_true]
    · rw [if_neg e]
      have hBn : B = [] := by rw [← hB, if_neg e]
      rw [hBn]
      simp [e, replicate_map]
  rw [hcyl]
  simp only
  generalize hj2 : j1 - B.length = j2
  have hBz : ¬ j1 < B.length := by
    intro hc
    by_cases e : t.cylMap = true
    · exact c2 ⟨e, hc⟩
    · have hBn : B = [] := by rw [← hB, if_neg e]
      rw [hBn] at hc; simp at hc
  by_cases c3 : t.headMap = true ∧ j2 < C.length
  · rw [if_pos c3.1, take_short _ _ (by rw [List.length_take]; have := hCl c3.1; omega)]
  have hhd : (if t.headMap = true then Imd.take t.secs.length ((C ++ D).take j2)
      else (.ok (List.replicate t.secs.length (byteOf ch.h), (C ++ D).take j2) : Except Err _)) =
      .ok (t.secs.map fun x => byteOf (if t.headMap then x.h else ch.h), D.take (j2 - C.length)) := by
    by_cases e : t.headMap = true
    · rw [if_pos e, List.take_append, List.take_of_length_le (by
        have : ¬ j2 < C.length := fun hc => c3 ⟨e, hc⟩
        omega), take_ok _ _ _ (hCl e)]
      rw [← hC, if_pos e]
      simp only [e, if_true]
    · rw [if_neg e]
      have hCn : C = [] := by rw [← hC, if_neg e]
      rw [hCn]
      simp [e, replicate_map]
  rw [hhd]
  simp only
  have hCz : ¬ j2 < C.length := by
    intro hc
    by_cases e : t.headMap = true
    · exact c3 ⟨e, hc⟩
    · have hCn : C = [] := by rw [← hC, if_neg e]
      rw [hCn] at hc; simp at hc
  have m1' : st.disk.addMeta ⟨ch.c, ch.h⟩ = (d', .ok ts.length) := m1
  rw [m1', ← hA, zip3_map, ← hD]
  simp only
  rw [sectors_cut ch t t.secs ht.secs _ _ (by rw [hD]; omega)]

theorem IInv.start : IInv { disk := {} } [] := ⟨.empty, rfl, rfl⟩

end Fox
