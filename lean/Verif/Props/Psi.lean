import Verif.Proofs.Psi
/-
C48: PSI images.
-/
namespace Fox
open Spec Pce

/-- The number of sides a list of tracks uses. -/
def sides {α : Type} (ts : List (Ch × α)) : Nat :=
  (if ∃ t ∈ ts, t.1.h = 0 then 1 else 0) + (if ∃ t ∈ ts, t.1.h = 1 then 1 else 0)

theorem PInv.start : PInv { disk := {} } [] :=
  ⟨rfl, .empty, rfl, rfl, by intro pre x h; simp at h⟩

theorem psiTracks_chs (ts : List (Ch × List PsiSec)) : (psiTracks ts).map (·.1) = ts.map (·.1) := by
  simp [psiTracks]

theorem psiTracks_inOrder {ts : List (Ch × List PsiSec)} (h : InOrder ts) : InOrder (psiTracks ts) := by
  rw [inOrder_chs, psiTracks_chs, ← inOrder_chs]; exact h

/-- The chunks of the tracks, with others the loader ignores, as a file. -/
structure PsiHolds (cs : List Chunk) (ts : List (Ch × List PsiSec)) : Prop where
  same : cs.filter (fun c => ¬ PsiIgnored c) = psiChunks ts
  size : ∀ c ∈ cs, c.data.length ≤ maxChunk

/-- Tracks that fit the format: in order, none of them empty. -/
structure PsiOk (ts : List (Ch × List PsiSec)) : Prop where
  order : InOrder ts
  fits : ∀ t ∈ ts, t.1.c < 65536 ∧ t.2 ≠ [] ∧ ∀ x ∈ t.2, x.Ok
  count : ts.length < 65536

theorem not_end_of_ignored {c : Chunk} (h : PsiIgnored c) : c.id ≠ idEnd := h.2.2.2.1

theorem PsiHolds.small {cs : List Chunk} {ts : List (Ch × List PsiSec)} (h : PsiHolds cs ts) (ho : PsiOk ts) :
    ∀ c ∈ cs, c.id ≠ idEnd ∧ c.data.length ≤ maxChunk := by
  intro c hc
  refine ⟨?_, h.size c hc⟩
  by_cases hi : PsiIgnored c
  · exact not_end_of_ignored hi
  · have : c ∈ psiChunks ts := by rw [← h.same]; exact List.mem_filter.2 ⟨hc, by simpa using hi⟩
    exact (psiChunks_small ts (fun t ht x hx => (ho.fits t ht).2.2 x hx) c this).1

theorem PsiOk.run {ts : List (Ch × List PsiSec)} (ho : PsiOk ts) :
    ∃ st, runPsi { disk := {} } (psiChunks ts) = .ok st ∧ PInv st (psiTracks ts) := by
  have hnd := ((inOrder_chs ts).1 ho.order).nodup
  have := run_psiTracks ts (st := { disk := {} }) (done := []) (fun t ht => by
    obtain ⟨a, b, c⟩ := ho.fits t ht
    obtain ⟨i, hi⟩ := List.getElem?_of_mem ht
    exact ⟨a, (ho.order i t.1 t.2 hi).1, b, c⟩) PInv.start (by simpa using hnd)
  simpa using this

theorem PInv.sides {st : Psi.State} {ts : List (Ch × List MetaSector)} (h : PInv st ts) (ho : InOrder ts) :
    st.heads.length = Fox.sides ts := by
  rw [h.heads, heads_length]
  · unfold Fox.sides
    simp only [List.mem_map]
  · intro x hx
    obtain ⟨t, ht, rfl⟩ := List.mem_map.1 hx
    obtain ⟨i, hi⟩ := List.getElem?_of_mem ht
    exact (ho i t.1 t.2 hi).1

theorem sides_psiTracks (ts : List (Ch × List PsiSec)) : sides (psiTracks ts) = sides ts := by
  have h : ∀ k, (∃ t ∈ psiTracks ts, t.1.h = k) ↔ ∃ t ∈ ts, t.1.h = k := by
    intro k
    constructor
    · rintro ⟨t, ht, e⟩
      obtain ⟨y, hy, rfl⟩ := List.mem_map.1 ht
      exact ⟨y, hy, e⟩
    · rintro ⟨t, ht, e⟩
      exact ⟨_, List.mem_map.2 ⟨t, ht, rfl⟩, e⟩
  unfold sides
  simp only [h]

theorem sides_pos {α : Type} {ts : List (Ch × α)} (ho : InOrder ts) (hne : ts ≠ []) : 0 < sides ts ∧ sides ts ≤ 2 := by
  unfold sides
  obtain ⟨t, ht⟩ := List.exists_mem_of_ne_nil ts hne
  obtain ⟨i, hi⟩ := List.getElem?_of_mem ht
  have hh := (ho i t.1 t.2 hi).1
  refine ⟨?_, by split <;> split <;> omega⟩
  rcases (by omega : t.1.h = 0 ∨ t.1.h = 1) with e | e
  · rw [if_pos ⟨t, ht, e⟩]; omega
  · rw [if_pos (⟨t, ht, e⟩ : ∃ t ∈ ts, t.1.h = 1)]; omega

/-- **C48 (partial).** A PSI file whose sectors are grouped by track, each track at the next free cylinder of
its side, loads as exactly those tracks, each with exactly those sectors, in order, with their ids, contents
and flags; chunks the loader does not know may stand anywhere between.  The geometry is the number of tracks
over the number of sides.  Missing: alternate copies, weak bits, files that return to a track
(see the `C48_false` theorems). -/
theorem C48_load_partial (ts : List (Ch × List PsiSec)) (hts : PsiOk ts) (hne : ts ≠ []) (cs : List Chunk)
    (hcs : PsiHolds cs ts) (a b : Byte) (f : Encoding × Nat) (hf : Psi.decodeFormat a b = some f) :
    ∃ d, Psi.load {} (psiFile a b cs) = .ok (d, f) ∧ HasTracks d (psiTracks ts) ∧
      d.geometry = ⟨ts.length / sides ts, sides ts⟩ := by
  obtain ⟨st, h1, h2⟩ := hts.run
  have ho := psiTracks_inOrder hts.order
  have hsd := h2.sides ho
  rw [sides_psiTracks] at hsd
  have hpos := sides_pos hts.order hne
  have hn : st.tracks.length = ts.length := by rw [h2.tracks, psiTracks_chs, List.length_map]
  have hlt := hts.count
  rw [psi_load_file _ _ _ _ (hcs.small hts), hf]
  simp only
  rw [← runPsi_filter, hcs.same, h1]
  simp only
  rw [if_neg (by omega)]
  refine ⟨_, rfl, ?_, ?_⟩
  · have := h2.built.hasTracks ho
    exact ⟨this.there, this.only⟩
  · show (⟨_, _⟩ : Ch) = _
    rw [hn, hsd, Nat.mod_eq_of_lt hlt, Nat.mod_eq_of_lt (show sides ts < 256 by omega)]

/-- **C48.** What reading then shows: a query answered by the first sector of the track that agrees with it
gives its contents and its flags. -/
theorem C48_reads (ts : List (Ch × List PsiSec)) (hts : PsiOk ts) (cs : List Chunk)
    (hcs : PsiHolds cs ts) (a b : Byte) (f : Encoding × Nat) (hf : Psi.decodeFormat a b = some f)
    (ch : Ch) (pre post : List PsiSec) (x : PsiSec) (hx : (ch, pre ++ x :: post) ∈ ts) (q : Query)
    (hq : agrees q (x.sector ch).id = true) (hpre : ∀ y ∈ pre, agrees q (y.sector ch).id = false)
    (hd : (x.sector ch).noDam = false) :
    ∃ d, Psi.load {} (psiFile a b cs) = .ok (d, f) ∧ ∀ nz n off dbg,
      ∃ r, d.readSector nz ch q n off .dataOnly dbg = .ok r ∧ r.notFound = false ∧
        r.idChsn = some (x.sector ch).id ∧ r.readBuf = (x.sector ch).data ∧
        r.deletedMark = (x.sector ch).deletedMark ∧ r.addressCrcError = (x.sector ch).addressError ∧
        r.dataCrcError = (x.sector ch).dataError := by
  obtain ⟨d, h1, h2, _⟩ := C48_load_partial ts hts (List.ne_nil_of_mem hx) cs hcs a b f hf
  refine ⟨d, h1, fun nz n off dbg => ?_⟩
  have hm : (ch, pre.map (PsiSec.sector ch) ++ x.sector ch :: post.map (PsiSec.sector ch)) ∈ psiTracks ts := by
    unfold psiTracks
    exact List.mem_map.2 ⟨_, hx, by simp⟩
  have hz : ∀ k, ∀ b ∈ (MetaMask.empty k).mask, b = 0#8 := by
    intro k b hb
    exact (List.mem_replicate.1 hb).2
  have hmask : (∀ b ∈ (x.sector ch).weak.mask, b = 0#8) ∧ ∀ b ∈ (x.sector ch).hole.mask, b = 0#8 := by
    unfold PsiSec.sector
    rcases x.body with _ | _ | _ <;> exact ⟨hz _, hz _⟩
  obtain ⟨r, r1, r2, r3, r4, r5, r6, r7, r8, r9⟩ := HasTracks.read h2 hm nz q n off dbg (by
    intro y hy
    obtain ⟨z, hz, rfl⟩ := List.mem_map.1 hy
    exact hpre z hz) hq hd hmask.1 hmask.2
  exact ⟨r, r1, r2, r4, r5, r7, r8, r9⟩

/-- **C48.** Ignored chunks make no difference to any file. -/
theorem C48_ignored (d : Disk) (a b : Byte) (cs : List Chunk)
    (h : ∀ x ∈ cs, x.id ≠ idEnd ∧ x.data.length ≤ maxChunk) :
    Psi.load d (psiFile a b cs) = Psi.load d (psiFile a b (cs.filter fun c => ¬ PsiIgnored c)) := by
  rw [psi_load_file _ _ _ _ h, psi_load_file _ _ _ _ (fun x hx => h x (List.mem_filter.1 hx).1), runPsi_filter]

/-- **C48 is false of the code: weak bits.** A WEAK chunk, wherever it stands and whatever it says, changes
nothing: the loaded image has no weak bits from it. -/
theorem C48_false_weak (d : Disk) (a b : Byte) (pre post : List Chunk) (mask : List Byte)
    (h : ∀ x ∈ pre ++ post, x.id ≠ idEnd ∧ x.data.length ≤ maxChunk) (hm : mask.length ≤ maxChunk) :
    Psi.load d (psiFile a b (pre ++ ⟨idWeak, mask⟩ :: post)) = Psi.load d (psiFile a b (pre ++ post)) := by
  have hig : PsiIgnored ⟨idWeak, mask⟩ := ⟨show idWeak ≠ idSect by decide, show idWeak ≠ idData by decide,
    show idWeak ≠ idIbmm by decide, show idWeak ≠ idEnd by decide, fun h => absurd h (show idWeak ≠ idOffs by decide)⟩
  have hall : ∀ x ∈ pre ++ ⟨idWeak, mask⟩ :: post, x.id ≠ idEnd ∧ x.data.length ≤ maxChunk := by
    intro x hx
    rw [List.mem_append, List.mem_cons] at hx
    rcases hx with hx | rfl | hx
    · exact h x (by simp [hx])
    · exact ⟨show idWeak ≠ idEnd by decide, hm⟩
    · exact h x (by simp [hx])
  rw [C48_ignored _ _ _ _ hall, C48_ignored _ _ _ _ h, List.filter_append, List.filter_append, List.filter_cons,
    if_neg (by simpa using hig)]

/-- **C48 is false of the code: returning to a track.** If after the tracks `ts` the file has one more sector
`x` of a track that is not the last, the sector is put on the last track added, not on its own. -/
theorem C48_false_revisit (ts : List (Ch × List PsiSec)) (last : Ch) (secs : List PsiSec)
    (hts : PsiOk (ts ++ [(last, secs)])) (ch : Ch) (hch : ch ∈ ts.map (·.1)) (x : PsiSec) (hx : x.Ok)
    (a b : Byte) (f : Encoding × Nat) (hf : Psi.decodeFormat a b = some f) :
    ∃ d, Psi.load {} (psiFile a b (psiChunks (ts ++ [(last, secs)]) ++ x.chunks ch)) = .ok (d, f) ∧
      HasTracks d (psiTracks ts ++ [(last, secs.map (PsiSec.sector last) ++ [x.sector ch])]) := by
  obtain ⟨st, h1, h2⟩ := hts.run
  have e : psiTracks (ts ++ [(last, secs)]) = psiTracks ts ++ [(last, secs.map (PsiSec.sector last))] := by
    simp [psiTracks]
  rw [e] at h2
  obtain ⟨t, ht, rfl⟩ := List.mem_map.1 hch
  obtain ⟨t1, _, _⟩ := hts.fits t (by simp [ht])
  have ht2 : t.1.h < 2 := by
    obtain ⟨i, hi⟩ := List.getElem?_of_mem (show t ∈ ts ++ [(last, secs)] by simp [ht])
    exact (hts.order i t.1 t.2 hi).1
  obtain ⟨st1, a1, a2⟩ := ensure_seen h2 (ch := t.1) (by
    rw [List.map_append, psiTracks_chs]; exact List.mem_append_left _ hch)
  obtain ⟨st2, b1, b2⟩ := run_sector hx t1 ht2 a1 a2
  have ho : InOrder (psiTracks ts ++ [(last, secs.map (PsiSec.sector last) ++ [x.sector t.1])]) := by
    rw [inOrder_chs]
    have := (inOrder_chs _).1 hts.order
    rw [List.map_append] at this ⊢
    rw [psiTracks_chs]
    exact this
  have hsd := b2.sides ho
  have hpos := sides_pos ho (by simp)
  have hall : ∀ c ∈ psiChunks (ts ++ [(last, secs)]) ++ x.chunks t.1, c.id ≠ idEnd ∧ c.data.length ≤ maxChunk := by
    intro c hc
    rw [List.mem_append] at hc
    rcases hc with hc | hc
    · exact psiChunks_small _ (fun y hy z hz => (hts.fits y hy).2.2 z hz) c hc
    · exact psiChunks_small [(t.1, [x])] (by
        intro y hy z hz
        simp only [List.mem_cons, List.not_mem_nil, or_false] at hy
        subst hy
        simp only [List.mem_cons, List.not_mem_nil, or_false] at hz
        subst hz; exact hx) c (by simpa [psiChunks] using hc)
  rw [psi_load_file _ _ _ _ hall, hf]
  simp only
  rw [runPsi_ok h1, b1]
  simp only
  rw [if_neg (by omega)]
  refine ⟨_, rfl, ?_⟩
  have := b2.built.hasTracks ho
  exact ⟨this.there, this.only⟩

/-- **C48 is false of the code: no sectors.** A file with no sector header at all does not load as an empty
image: the loader panics (division by the number of sides). -/
theorem C48_false_empty (d : Disk) (a b : Byte) (f : Encoding × Nat) (hf : Psi.decodeFormat a b = some f)
    (cs : List Chunk) (h : ∀ c ∈ cs, PsiIgnored c ∧ c.data.length ≤ maxChunk) :
    Psi.load d (psiFile a b cs) = .error .panic := by
  rw [psi_load_file _ _ _ _ (fun x hx => ⟨not_end_of_ignored (h x hx).1, (h x hx).2⟩), hf]
  simp only
  rw [← runPsi_filter, List.filter_eq_nil_iff.2 (by intro c hc; simpa using (h c hc).1)]
  rfl

/-- **C48 is false of the code: a short OFFS chunk** panics instead of being refused. -/
theorem C48_false_offset (st : Psi.State) (data : List Byte) (h : data.length < 4) :
    Psi.step st ⟨idOffs, data⟩ = .error .panic := by
  unfold Psi.step
  rw [if_neg (show idOffs ≠ idSect by decide), if_neg (show idOffs ≠ idData by decide), if_pos rfl]
  simp only
  unfold u32At
  rw [List.drop_zero]
  match data, h with
  | [], _ => rfl
  | [_], _ => rfl
  | [_, _], _ => rfl
  | [_, _, _], _ => rfl
  | _ :: _ :: _ :: _ :: _, h => simp at h; omega

/-- **C48 is false of the code: alternate copies.** A second copy of a sector, flagged as an alternate one,
panics as soon as both have a byte. -/
theorem C48_false_alternate (t : MetaTrack) (s : MetaSector) (hs : t.sectors.find? (fun y => y.id == s.id) = some s)
    (p : AddSector) (hp : p.alternate = true) (hid : p.id = s.id) (h1 : p.data ≠ []) (h2 : s.data ≠ []) :
    t.addSector p = .error .panic := by
  have key : ∀ (l : List MetaSector), l.find? (fun y => y.id == s.id) = some s →
      (MetaTrack.updateFirst (fun y => y.id == p.id) (fun es =>
        if p.data = [] ∨ es.data = [] then (es.weak.orSlice []).map fun w => { es with weak := w }
        else .error .panic) l) = .error .panic := by
    intro l
    induction l with
    | nil => intro h; simp at h
    | cons y l ih =>
      intro h
      rw [List.find?_cons] at h
      unfold MetaTrack.updateFirst
      rw [hid]
      by_cases e : (y.id == s.id) = true
      · rw [e] at h
        simp only [Option.some.injEq] at h
        subst h
        rw [if_pos e, if_neg (by simp [h1, h2])]
        rfl
      · simp only [Bool.not_eq_true] at e
        rw [e] at h
        simp only at h
        rw [if_neg (by simp [e]), ← hid, ih h]
        rfl
  unfold MetaTrack.addSector
  rw [hp, hid, if_pos (by
    simp only [Bool.true_and]
    exact List.any_eq_true.2 ⟨s, List.mem_of_find?_eq_some hs, by simp⟩), ← hid, key _ hs]
  rfl

/-- **C48 is false of the code: an IBM header after a compressed sector** does not apply to that sector but to
the following one, which loses its own id and gets the header's id and flags (the same holds after any
complete sector `x`). -/
theorem C48_false_leak (ch : Ch) (hc : ch.c < 65536) (hh : ch.h < 2) (x y : PsiSec) (hx : x.Ok) (hy : y.Ok)
    (data : List Byte) (hyd : y.body = .data data)
    (id : Chsn) (hid : id.c < 256 ∧ id.h < 256 ∧ id.s < 256 ∧ id.n < 256) (ae de del nd : Bool) :
    ∃ st, runPsi { disk := {} } (x.chunks ch ++ ⟨idIbmm, ibmBytes id ae de del nd⟩ :: y.chunks ch) = .ok st ∧
      BuiltSect st.disk [(ch, [x.sector ch,
        { id := id, addressError := ae, dataError := y.crcError, deletedMark := del, noDam := nd, data := data,
          weak := .empty data.length, hole := .empty data.length }])] := by
  obtain ⟨st0, a1, a2⟩ := ensure_new PInv.start hh (ch := ch) (by simp)
  obtain ⟨st1, b1, b2⟩ := run_sector hx hc hh a1 a2
  obtain ⟨k1, k2, k3, k4⟩ := ibm_flags ae de del nd
  obtain ⟨f1, f2, f3, _⟩ := flag_lemmas y.crcError
  obtain ⟨i1, i2, i3, i4⟩ := hid
  rw [List.nil_append, List.nil_append] at b2
  have hcur := b2.current [] _ rfl
  obtain ⟨dk, cx, tr, hds, cur⟩ := st1
  have hcx : cx = {} := b2.ctx
  subst hcx
  have hcur : cur = some 0 := hcur
  subst hcur
  rw [runPsi_ok b1, runPsi]
  have hibm : ∀ st : Psi.State, Psi.step st ⟨idIbmm, ibmBytes id ae de del nd⟩ = .ok { st with ctx := { st.ctx with
        ibm := some id, dataError := de, addressError := ae, deleted := del, noDam := nd } } := by
    intro st
    unfold Psi.step
    rw [if_neg (show idIbmm ≠ idSect by decide), if_neg (show idIbmm ≠ idData by decide),
          if_neg (show idIbmm ≠ idOffs by decide), if_pos rfl]
    show (Except.ok _ : Except Err Psi.State) = _
    simp only [k1, k2, k3, k4, byteOf_toNat i1, byteOf_toNat i2, byteOf_toNat i3, byteOf_toNat i4]
  rw [hibm]
  simp only
  unfold PsiSec.chunks
  rw [hyd]
  simp only
  rw [runPsi, step_sect _ _ _ _ _ hc hh hy.1 hy.2.1]
  unfold psiEnsure
  have htr : tr = [ch] := b2.tracks
  subst htr
  simp only
  rw [if_pos (by simp)]
  simp only
  unfold psiTail
  simp only [f1, f2, f3, Bool.false_eq_true, if_false]
  rw [runPsi, step_psiData _ ⟨ch.c, ch.h, y.s⟩ _ rfl]
  have hds' : Pri.insertNat hds ch.h = [ch.h] := by
    have : hds = [ch.h] := b2.heads
    rw [this]; unfold Pri.insertNat; simp
  obtain ⟨st', g1, g2⟩ := addSector_last (pre := []) (st := { disk := dk, ctx := { alternate := false, phys := some ⟨ch.c, ch.h, y.s⟩, size := 128 * 2 ^ y.n, dataError := y.crcError, ibm := some id, addressError := ae, deleted := del, noDam := nd }, tracks := [ch], heads := Pri.insertNat hds ch.h, current := some 0 }) b2.built rfl hds' rfl
      { id := id, data := data, addressError := ae, dataError := y.crcError, deletedMark := del, noDam := nd } rfl
  refine ⟨st', ?_, g2.built⟩
  have hid : Psi.Ctx.sid { alternate := false, phys := some ⟨ch.c, ch.h, y.s⟩, size := 128 * 2 ^ y.n, dataError := y.crcError, ibm := some id, addressError := ae, deleted := del, noDam := nd } ⟨ch.c, ch.h, y.s⟩ = id := rfl
  simp only [hid]
  rw [g1]
  rfl

/-- **C48 is false of the code: MFM images.** The sector formats 02 00 (MFM, double density) and 02 01 (MFM,
high density) of the PSI format are both taken for FM, high density. -/
theorem C48_false_mfm : Psi.decodeFormat 2#8 0#8 = some (.fm, 2) ∧ Psi.decodeFormat 2#8 1#8 = some (.fm, 2) := by
  decide

/-- **C48.** Sector data with no sector header is refused. -/
theorem C48_headerless_data (st : Psi.State) (h : st.ctx.phys = none) (data : List Byte) :
    Psi.step st ⟨idData, data⟩ = .error .formatParse := by
  unfold Psi.step
  rw [if_neg (show idData ≠ idSect by decide), if_pos rfl]
  simp only [h]

/-- **C48.** A file that does not start with a PSI header is refused as an unknown format. -/
theorem C48_not_psi (d : Disk) (c : Chunk) (rest : List Byte) (h : c.id ≠ idPsi) (hl : c.data.length ≤ maxChunk) :
    Psi.load d (writeChunk c ++ rest) = .error .unknownFormat := by
  unfold Psi.load
  rw [C46_round_trip maxChunk c _ hl (by unfold maxChunk at hl; omega)]
  simp only
  rw [if_pos h]

theorem psi_loop_cut : ∀ (cs : List Chunk) (f : Nat) (st : Psi.State) (c : Chunk) (k : Nat),
      (∀ x ∈ c :: cs, x.id ≠ idEnd ∧ x.data.length ≤ maxChunk) → (∃ st', runPsi st (c :: cs) = .ok st') →
      k < f → k < (cs.flatMap writeChunk ++ footer).length →
      Psi.loop f ((cs.flatMap writeChunk ++ footer).take k) st c = .error .io
  | cs, 0, st, c, k, _, _, hf, _ => by omega
  | [], f + 1, st, c, k, h, hr, hf, hk => by
    obtain ⟨st', hr⟩ := hr
    unfold runPsi at hr
    unfold Psi.loop
    rw [if_neg (h c (by simp)).1]
    rcases hstep : Psi.step st c with e | st1
    · rw [hstep] at hr; cases hr
    · simp only [List.flatMap_nil, List.nil_append] at hk ⊢
      rw [C46_footer] at hk ⊢
      rw [C46_truncated maxChunk ⟨idEnd, []⟩ (by simp) (by simp) k hk]
  | x :: cs, f + 1, st, c, k, h, hr, hf, hk => by
    obtain ⟨st', hr⟩ := hr
    rw [runPsi] at hr
    unfold Psi.loop
    rw [if_neg (h c (by simp)).1]
    rcases hstep : Psi.step st c with e | st1
    · rw [hstep] at hr; cases hr
    · rw [hstep] at hr
      simp only at hr ⊢
      have hx := h x (by simp)
      have hmx : maxChunk = 1048576 := rfl
      rw [List.flatMap_cons, List.append_assoc] at hk ⊢
      by_cases hlt : k < (writeChunk x).length
      · rw [List.take_append_of_le_length (by omega), C46_truncated maxChunk x hx.2 (by omega) k hlt]
      · rw [List.take_append, List.take_of_length_le (by omega), C46_round_trip maxChunk x _ hx.2 (by omega)]
        simp only
        have := writeChunk_length x
        exact psi_loop_cut cs f st1 x _ (fun y hy => h y (by
          rw [List.mem_cons] at hy ⊢; right; rw [List.mem_cons]; exact hy)) ⟨st', hr⟩ (by omega)
          (by rw [List.length_append] at hk ⊢; rw [List.length_append] at hk; omega)

/-- **C48.** No proper prefix of such a file loads: each is refused with an IO error. -/
theorem C48_truncated (ts : List (Ch × List PsiSec)) (hts : PsiOk ts) (cs : List Chunk) (hcs : PsiHolds cs ts)
    (a b : Byte) (f : Encoding × Nat) (hf : Psi.decodeFormat a b = some f) (k : Nat)
    (hk : k < (psiFile a b cs).length) : Psi.load {} ((psiFile a b cs).take k) = .error .io := by
  obtain ⟨st, h1, _⟩ := hts.run
  have e1 : psiFile a b cs = writeChunk ⟨idPsi, [0#8, 0#8, a, b]⟩ ++ (cs.flatMap writeChunk ++ footer) := by
    unfold psiFile; rw [List.flatMap_cons, List.append_assoc]
  have h4 : ([0#8, 0#8, a, b] : List Byte).length ≤ maxChunk := by show 4 ≤ 1048576; omega
  have hig : PsiIgnored ⟨idPsi, [0#8, 0#8, a, b]⟩ := ⟨show idPsi ≠ idSect by decide, show idPsi ≠ idData by decide,
    show idPsi ≠ idIbmm by decide, show idPsi ≠ idEnd by decide, fun _ => Nat.le_refl _⟩
  rw [e1] at hk ⊢
  unfold Psi.load
  by_cases hlt : k < (writeChunk ⟨idPsi, [0#8, 0#8, a, b]⟩).length
  · rw [List.take_append_of_le_length (by omega), C46_truncated maxChunk _ h4 (by show 4 < _; omega) k hlt]
  · rw [List.take_append, List.take_of_length_le (by omega), C46_round_trip maxChunk _ _ h4 (by show 4 < _; omega)]
    simp only
    rw [if_neg (by decide), hf]
    simp only
    have h16 := writeChunk_length ⟨idPsi, [0#8, 0#8, a, b]⟩
    rw [psi_loop_cut cs _ _ _ _ (by
      intro x hx
      rw [List.mem_cons] at hx
      rcases hx with rfl | hx
      · exact ⟨show idPsi ≠ idEnd by decide, h4⟩
      · exact hcs.small hts x hx) ⟨st, by
        rw [runPsi, step_ignored _ _ hig]
        simp only
        rw [← runPsi_filter, hcs.same]; exact h1⟩ (by
        rw [List.length_append, List.length_take]; rw [List.length_append] at hk; omega) (by
        rw [List.length_append] at hk; omega)]

/-! ### Examples -/

/-- Two sides of one cylinder; a plain, a compressed and an IBM sector. -/
def psiExample : List (Ch × List PsiSec) :=
  [(⟨0, 0⟩, [⟨1, 2, false, .data [1#8, 2#8]⟩, ⟨2, 2, true, .fill 0xF6#8⟩]),
   (⟨0, 1⟩, [⟨1, 0, false, .ibm ⟨5, 1, 9, 0⟩ false false true false [3#8]⟩])]

theorem psiExample_ok : PsiOk psiExample := by
  refine ⟨?_, ?_, by decide⟩
  · intro i ch x hi
    match i, hi with
    | 0, hi => simp only [psiExample, List.getElem?_cons_zero, Option.some.injEq, Prod.mk.injEq] at hi; obtain ⟨rfl, _⟩ := hi; exact ⟨by decide, by decide⟩
    | 1, hi => simp only [psiExample, List.getElem?_cons_succ, List.getElem?_cons_zero, Option.some.injEq, Prod.mk.injEq] at hi; obtain ⟨rfl, _⟩ := hi; exact ⟨by decide, by decide⟩
    | i + 2, hi => simp [psiExample] at hi
  · intro t ht
    simp only [psiExample, List.mem_cons, List.not_mem_nil, or_false] at ht
    rcases ht with rfl | rfl
    · refine ⟨by decide, by simp, ?_⟩
      intro x hx
      simp only [List.mem_cons, List.not_mem_nil, or_false] at hx
      rcases hx with rfl | rfl
      · exact ⟨by decide, by decide, show ([1#8, 2#8] : List Byte).length ≤ maxChunk by decide⟩
      · exact ⟨by decide, by decide, trivial⟩
    · refine ⟨by decide, by simp, ?_⟩
      intro x hx
      simp only [List.mem_cons, List.not_mem_nil, or_false] at hx
      subst hx
      exact ⟨by decide, by decide, by decide, by decide, by decide, by decide, by decide⟩

example : PsiHolds (⟨idText, [0x41#8]⟩ :: psiChunks psiExample) psiExample :=
  ⟨by decide, by decide⟩

example : ∃ d, Psi.load {} (psiFile 2#8 2#8 (⟨idText, [0x41#8]⟩ :: psiChunks psiExample)) = .ok (d, (.mfm, 3)) ∧
    HasTracks d (psiTracks psiExample) ∧ d.geometry = ⟨2 / sides psiExample, sides psiExample⟩ :=
  C48_load_partial psiExample psiExample_ok (by decide) _ ⟨by decide, by decide⟩ _ _ _ (by decide)

end Fox
