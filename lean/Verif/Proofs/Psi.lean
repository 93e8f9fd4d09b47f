import Verif.Proofs.MetaDisk
/-
Loading PSI files.
-/
namespace Fox
open Spec Pce

/-- The loader's steps over a list of chunks. -/
def runPsi : Psi.State → List Chunk → Except Err Psi.State
  | st, [] => .ok st
  | st, c :: cs => match Psi.step st c with
    | .error e => .error e
    | .ok st => runPsi st cs

theorem runPsi_append : ∀ (a : List Chunk) (st : Psi.State) (b : List Chunk),
    runPsi st (a ++ b) = match runPsi st a with
      | .error e => .error e
      | .ok st => runPsi st b
  | [], st, b => rfl
  | c :: a, st, b => by
    simp only [List.cons_append, runPsi]
    rcases hs : Psi.step st c with e | st1
    · rfl
    · simp only; exact runPsi_append a st1 b

theorem runPsi_ok {a : List Chunk} {st st' : Psi.State} (h : runPsi st a = .ok st') (b : List Chunk) :
    runPsi st (a ++ b) = runPsi st' b := by rw [runPsi_append, h]

theorem psi_loop_chunks : ∀ (cs : List Chunk) (f : Nat) (st : Psi.State) (c : Chunk),
      (∀ x ∈ c :: cs, x.id ≠ idEnd ∧ x.data.length ≤ maxChunk) → cs.length + 1 < f →
      Psi.loop f (cs.flatMap writeChunk ++ footer) st c = runPsi st (c :: cs)
  | cs, 0, st, c, _, hf => by omega
  | [], f + 1, st, c, h, hf => by
    unfold Psi.loop runPsi
    rw [if_neg (h c (by simp)).1]
    rcases Psi.step st c with e | st'
    · rfl
    · simp only [List.flatMap_nil, List.nil_append]
      rw [readChunk_footer]
      obtain ⟨g, rfl⟩ : ∃ g, f = g + 1 := ⟨f - 1, by simp only [List.length_nil] at hf; omega⟩
      simp only [Psi.loop, if_true]
      rfl
  | x :: cs, f + 1, st, c, h, hf => by
    unfold Psi.loop runPsi
    rw [if_neg (h c (by simp)).1]
    rcases Psi.step st c with e | st'
    · rfl
    · simp only
      have hx := h x (by simp)
      rw [List.flatMap_cons, List.append_assoc, C46_round_trip maxChunk x _ hx.2
        (by have := hx.2; unfold maxChunk at this; omega)]
      simp only
      exact psi_loop_chunks cs f st' x (fun y hy => h y (by
        rw [List.mem_cons] at hy ⊢; right; rw [List.mem_cons]; exact hy)) (by simp only [List.length_cons] at hf; omega)

theorem flatMap_writeChunk_length : ∀ cs : List Chunk, cs.length ≤ (cs.flatMap writeChunk).length
  | [] => by simp
  | c :: cs => by
    rw [List.flatMap_cons, List.length_append, writeChunk_length, List.length_cons]
    have := flatMap_writeChunk_length cs
    omega

theorem footer_length : footer.length = 12 := by decide

/-- What loading a file of chunks amounts to. -/
theorem psi_load_file (d : Disk) (a b : Byte) (cs : List Chunk)
    (h : ∀ x ∈ cs, x.id ≠ idEnd ∧ x.data.length ≤ maxChunk) :
    Psi.load d (psiFile a b cs) = match Psi.decodeFormat a b with
      | none => .error .formatParse
      | some f => match runPsi { disk := d } cs with
        | .error e => .error e
        | .ok st =>
          if st.heads.length % 256 = 0 then .error .panic
          else .ok ({ st.disk with geometry := ⟨st.tracks.length % 65536 / (st.heads.length % 256),
            st.heads.length % 256⟩ }, f) := by
  have h4 : ([0#8, 0#8, a, b] : List Byte).length ≤ maxChunk := by show 4 ≤ 1048576; omega
  have e1 : psiFile a b cs = writeChunk ⟨idPsi, [0#8, 0#8, a, b]⟩ ++ (cs.flatMap writeChunk ++ footer) := by
    unfold psiFile; rw [List.flatMap_cons, List.append_assoc]
  have e2 : readChunk maxChunk (psiFile a b cs) = .ok (⟨idPsi, [0#8, 0#8, a, b]⟩, cs.flatMap writeChunk ++ footer) := by
    rw [e1]; exact C46_round_trip maxChunk _ _ h4 (by show 4 < _; omega)
  unfold Psi.load
  rw [e2]
  simp only
  rw [if_neg (by decide)]
  rcases Psi.decodeFormat a b with _ | f
  · rfl
  · simp only
    have hl := flatMap_writeChunk_length cs
    rw [psi_loop_chunks cs _ _ _ (by
      intro x hx
      rw [List.mem_cons] at hx
      rcases hx with rfl | hx
      · exact ⟨show idPsi ≠ idEnd by decide, h4⟩
      · exact h x hx) (by
      rw [e1, List.length_append, List.length_append, writeChunk_length, footer_length]; omega)]
    have : runPsi { disk := d } (⟨idPsi, [0#8, 0#8, a, b]⟩ :: cs) = runPsi { disk := d } cs := by
      rw [runPsi]
      have : Psi.step { disk := d } ⟨idPsi, [0#8, 0#8, a, b]⟩ = .ok { disk := d } := by
        unfold Psi.step
        rw [if_neg (show idPsi ≠ idSect by decide), if_neg (show idPsi ≠ idData by decide),
          if_neg (show idPsi ≠ idOffs by decide), if_neg (show idPsi ≠ idIbmm by decide)]
      rw [this]
    rw [this]
    rcases runPsi { disk := d } cs with e | st <;> rfl

/-! ### Ignored chunks -/

theorem step_ignored (st : Psi.State) (c : Chunk) (h : PsiIgnored c) : Psi.step st c = .ok st := by
  obtain ⟨h1, h2, h3, _, h5⟩ := h
  unfold Psi.step
  rw [if_neg h1, if_neg h2]
  by_cases ho : c.id = idOffs
  · rw [if_pos ho]
    have := h5 ho
    unfold u32At
    rw [List.drop_zero]
    match hd : c.data, this with
    | a :: b :: c :: d :: rest, _ => rfl
    | [], h => simp at h
    | [_], h => simp at h
    | [_, _], h => simp at h
    | [_, _, _], h => simp at h
  · rw [if_neg ho, if_neg h3]

theorem runPsi_filter : ∀ (cs : List Chunk) (st : Psi.State),
    runPsi st (cs.filter fun c => ¬ PsiIgnored c) = runPsi st cs
  | [], _ => rfl
  | c :: cs, st => by
    by_cases h : PsiIgnored c
    · rw [List.filter_cons, if_neg (by simpa using h), runPsi_filter cs st, runPsi, step_ignored st c h]
    · rw [List.filter_cons, if_pos (by simpa using h), runPsi, runPsi]
      rcases Psi.step st c with e | st'
      · rfl
      · simp only; exact runPsi_filter cs st'

/-! ### Sectors -/

/-- The loader between two sectors. -/
structure PInv (st : Psi.State) (ts : List (Ch × List MetaSector)) : Prop where
  ctx : st.ctx = {}
  built : BuiltSect st.disk ts
  tracks : st.tracks = ts.map (·.1)
  heads : st.heads = (ts.map (·.1.h)).foldl Pri.insertNat []
  current : ∀ pre x, ts = pre ++ [x] → st.current = some pre.length

/-- The part of the SECT branch after the track is in place. -/
def psiTail (st : Psi.State) (c hd s size : Nat) (fl v : Byte) : Except Err Psi.State :=
  let st := { st with ctx := { st.ctx with
      alternate := fl &&& 2#8 != 0#8, phys := some ⟨c, hd, s⟩, size := size,
      dataError := fl &&& 4#8 != 0#8 } }
  if fl &&& 1#8 != 0#8 then
    Psi.addSector st { id := ⟨c, hd, s, bytesToN size⟩, data := List.replicate size v,
                       dataError := st.ctx.dataError, alternate := st.ctx.alternate }
  else .ok st

/-- The part before. -/
def psiEnsure (st : Psi.State) (ch : Ch) : Except Err Psi.State :=
  let st := { st with heads := Pri.insertNat st.heads ch.h }
  if st.tracks.contains ch then .ok st
  else match st.disk.addMeta ch with
    | (_, .error e) => .error e
    | (d, .ok i) => .ok { st with disk := d, current := some i, tracks := st.tracks ++ [ch] }

theorem byteOf_toNat {x : Nat} (h : x < 256) : (byteOf x).toNat = x := by
  unfold byteOf; rw [BitVec.toNat_ofNat]; exact Nat.mod_eq_of_lt h

theorem byteOf_two {x : Nat} (h : x < 65536) : (byteOf (x / 256)).toNat * 256 + (byteOf x).toNat = x := by
  unfold byteOf; rw [BitVec.toNat_ofNat, BitVec.toNat_ofNat]; omega

theorem pow_le_size {n : Nat} (h : n ≤ 8) : 128 * 2 ^ n < 65536 := by
  have : 2 ^ n ≤ 2 ^ 8 := Nat.pow_le_pow_right (by omega) h
  omega

theorem step_sect (st : Psi.State) (ch : Ch) (x : PsiSec) (fl v : Byte) (hc : ch.c < 65536) (hh : ch.h < 2)
    (hs : x.s < 256) (hn : x.n ≤ 8) :
    Psi.step st ⟨idSect, sectBytes ch x fl v⟩ = match psiEnsure st ch with
      | .error e => .error e
      | .ok st => psiTail st ch.c ch.h x.s (128 * 2 ^ x.n) fl v := by
  unfold Psi.step
  rw [if_pos rfl]
  show Psi.sect st _ _ _ _ _ _ _ _ = _
  unfold Psi.sect
  simp only [byteOf_two hc, byteOf_toNat (show ch.h < 256 by omega), byteOf_toNat hs, byteOf_two (pow_le_size hn)]
  rfl

/-- The loader with the SECT chunk's track in place. -/
structure Placed1 (st : Psi.State) (pre : List (Ch × List MetaSector)) (ch : Ch) (ss : List MetaSector) : Prop where
  ctx : st.ctx = {}
  built : BuiltSect st.disk (pre ++ [(ch, ss)])
  tracks : st.tracks = (pre ++ [(ch, ss)]).map (·.1)
  heads : st.heads = ((pre ++ [(ch, ss)]).map (·.1.h)).foldl Pri.insertNat []
  current : st.current = some pre.length

theorem ensure_new {st : Psi.State} {ts : List (Ch × List MetaSector)} (h : PInv st ts) {ch : Ch} (hh : ch.h < 2)
    (hn : ch ∉ ts.map (·.1)) : ∃ st', psiEnsure st ch = .ok st' ∧ Placed1 st' ts ch [] := by
  obtain ⟨d', e1, e2⟩ := h.built.addMeta ch hh
  unfold psiEnsure
  simp only
  rw [if_neg (by rw [h.tracks]; simpa using hn), e1]
  refine ⟨_, rfl, h.ctx, e2, ?_, ?_, rfl⟩
  · simp [h.tracks]
  · simp [h.heads]

theorem insertNat_sub {s : List Nat} {x y : Nat} (h : y ∈ s) : y ∈ Pri.insertNat s x := by
  unfold Pri.insertNat; split <;> simp [h]

theorem mem_foldl_insertNat : ∀ (l s : List Nat) (y : Nat), y ∈ s ∨ y ∈ l → y ∈ l.foldl Pri.insertNat s
  | [], s, y, h => by simpa using h
  | x :: l, s, y, h => by
    rw [List.foldl_cons]
    apply mem_foldl_insertNat l
    rw [List.mem_cons] at h
    rcases h with h | rfl | h
    · exact .inl (insertNat_sub h)
    · left
      unfold Pri.insertNat
      split <;> simp [*]
    · exact .inr h

/-- A position already seen: the track being filled stays the last one added. -/
theorem ensure_seen {st : Psi.State} {pre : List (Ch × List MetaSector)} {tgt ch : Ch} {ss : List MetaSector}
    (h : PInv st (pre ++ [(tgt, ss)])) (hm : ch ∈ (pre ++ [(tgt, ss)]).map (·.1)) :
    ∃ st', psiEnsure st ch = .ok st' ∧ Placed1 st' pre tgt ss := by
  unfold psiEnsure
  simp only
  rw [if_pos (by rw [h.tracks]; simpa using hm)]
  refine ⟨_, rfl, h.ctx, h.built, h.tracks, ?_, h.current pre _ rfl⟩
  show Pri.insertNat st.heads ch.h = _
  rw [h.heads, insertNat_mem]
  apply mem_foldl_insertNat
  right
  obtain ⟨x, hx, rfl⟩ := List.mem_map.1 hm
  exact List.mem_map.2 ⟨x, hx, rfl⟩

theorem ensure_old {st : Psi.State} {pre : List (Ch × List MetaSector)} {ch : Ch} {ss : List MetaSector}
    (h : PInv st (pre ++ [(ch, ss)])) : ∃ st', psiEnsure st ch = .ok st' ∧ Placed1 st' pre ch ss :=
  ensure_seen h (by simp)

theorem addSector_last {st : Psi.State} {pre : List (Ch × List MetaSector)} {ch : Ch} {ss : List MetaSector}
    (hb : BuiltSect st.disk (pre ++ [(ch, ss)])) (ht : st.tracks = (pre ++ [(ch, ss)]).map (·.1))
    (hh : st.heads = ((pre ++ [(ch, ss)]).map (·.1.h)).foldl Pri.insertNat [])
    (hc : st.current = some pre.length) (p : AddSector) (hp : p.alternate = false) :
    ∃ st', Psi.addSector st p = .ok st' ∧ PInv st' (pre ++ [(ch, ss ++ [MetaTrack.newSector p])]) := by
  unfold Psi.addSector
  rw [hc]
  simp only [hb.last]
  unfold MetaTrack.addSector
  rw [hp, if_neg (by simp)]
  refine ⟨_, rfl, rfl, hb.setLast, ?_, ?_, ?_⟩
  · simpa using ht
  · simpa using hh
  · intro pre' x hx
    have := congrArg List.length hx
    simp only [List.length_append, List.length_singleton] at this
    show some pre.length = _
    congr 1; omega

theorem flag_lemmas (b : Bool) : (flag b 4#8 &&& 1#8 != 0#8) = false ∧ (flag b 4#8 &&& 2#8 != 0#8) = false ∧
    (flag b 4#8 &&& 4#8 != 0#8) = b ∧ ((1#8 ||| flag b 4#8) &&& 1#8 != 0#8) = true ∧
    ((1#8 ||| flag b 4#8) &&& 2#8 != 0#8) = false ∧ ((1#8 ||| flag b 4#8) &&& 4#8 != 0#8) = b := by
  cases b <;> decide

theorem ibm_flags (a b c d : Bool) :
    ((flag a 1#8 ||| flag b 2#8 ||| flag c 4#8 ||| flag d 8#8) &&& 2#8 != 0#8) = b ∧
    ((flag a 1#8 ||| flag b 2#8 ||| flag c 4#8 ||| flag d 8#8) &&& 1#8 != 0#8) = a ∧
    ((flag a 1#8 ||| flag b 2#8 ||| flag c 4#8 ||| flag d 8#8) &&& 4#8 != 0#8) = c ∧
    ((flag a 1#8 ||| flag b 2#8 ||| flag c 4#8 ||| flag d 8#8) &&& 8#8 != 0#8) = d := by
  cases a <;> cases b <;> cases c <;> cases d <;> decide

/-- The DATA chunk. -/
theorem step_psiData (st : Psi.State) (p : Chs) (d : List Byte) (h : st.ctx.phys = some p) :
    Psi.step st ⟨idData, d⟩ = Psi.addSector st
        { id := st.ctx.sid p, data := d, addressError := st.ctx.addressError,
          dataError := st.ctx.dataError, deletedMark := st.ctx.deleted, noDam := st.ctx.noDam,
          alternate := st.ctx.alternate } := by
  unfold Psi.step
  rw [if_neg (show idData ≠ idSect by decide), if_pos rfl]
  simp only [h]

/-- The chunks of a sector once its track is in place. -/
theorem run_sector {st : Psi.State} {ch : Ch} {x : PsiSec} (hx : x.Ok) (hc : ch.c < 65536) (hh : ch.h < 2)
    {st1 : Psi.State} {pre : List (Ch × List MetaSector)} {tgt : Ch} {ss : List MetaSector}
    (he : psiEnsure st ch = .ok st1) (h : Placed1 st1 pre tgt ss) :
    ∃ st', runPsi st (x.chunks ch) = .ok st' ∧ PInv st' (pre ++ [(tgt, ss ++ [x.sector ch])]) := by
  obtain ⟨hs, hn, hb⟩ := hx
  obtain ⟨dk, cx, tr, hds, cur⟩ := st1
  have hcx : cx = {} := h.ctx
  subst hcx
  obtain ⟨f1, f2, f3, f4, f5, f6⟩ := flag_lemmas x.crcError
  unfold PsiSec.chunks PsiSec.sector
  rcases hbd : x.body with b | d | ⟨id, ae, de, del, nd, d⟩
  · simp only
    rw [runPsi, step_sect _ _ _ _ _ hc hh hs hn, he]
    simp only
    unfold psiTail
    simp only [f4, f5, f6, if_true]
    obtain ⟨st', g1, g2⟩ := addSector_last (st := { (⟨dk, {}, tr, hds, cur⟩ : Psi.State) with ctx := { alternate := false, phys := some ⟨ch.c, ch.h, x.s⟩, size := 128 * 2 ^ x.n, dataError := x.crcError } }) h.built h.tracks h.heads h.current
      { id := ⟨ch.c, ch.h, x.s, bytesToN (128 * 2 ^ x.n)⟩, data := List.replicate (128 * 2 ^ x.n) b,
        dataError := x.crcError } rfl
    refine ⟨st', by rw [g1]; rfl, ?_⟩
    have : MetaTrack.newSector
      { id := ⟨ch.c, ch.h, x.s, bytesToN (128 * 2 ^ x.n)⟩, data := List.replicate (128 * 2 ^ x.n) b,
        dataError := x.crcError } =
      { id := ⟨ch.c, ch.h, x.s, x.n⟩, dataError := x.crcError, data := List.replicate (128 * 2 ^ x.n) b,
                 weak := .empty (128 * 2 ^ x.n), hole := .empty (128 * 2 ^ x.n) } := by
      unfold MetaTrack.newSector
      simp only [C14_bytesToN_pow, List.length_replicate]
    rw [this] at g2
    exact g2
  · simp only
    rw [runPsi, step_sect _ _ _ _ _ hc hh hs hn, he]
    simp only
    unfold psiTail
    simp only [f1, f2, f3, Bool.false_eq_true, if_false]
    rw [runPsi, step_psiData _ ⟨ch.c, ch.h, x.s⟩ _ rfl]
    obtain ⟨st', g1, g2⟩ := addSector_last (st := { (⟨dk, {}, tr, hds, cur⟩ : Psi.State) with ctx := { alternate := false, phys := some ⟨ch.c, ch.h, x.s⟩, size := 128 * 2 ^ x.n, dataError := x.crcError } }) h.built h.tracks h.heads h.current
      { id := ⟨ch.c, ch.h, x.s, x.n⟩, data := d, dataError := x.crcError } rfl
    refine ⟨st', ?_, g2⟩
    have hid : Psi.Ctx.sid { alternate := false, phys := some ⟨ch.c, ch.h, x.s⟩, size := 128 * 2 ^ x.n, dataError := x.crcError } ⟨ch.c, ch.h, x.s⟩ = ⟨ch.c, ch.h, x.s, x.n⟩ := by
      unfold Psi.Ctx.sid
      simp only [Option.getD_none, C14_bytesToN_pow]
    simp only [hid]
    rw [g1]
    rfl
  · simp only
    rw [hbd] at hb
    obtain ⟨i1, i2, i3, i4, _⟩ := hb
    rw [runPsi, step_sect _ _ _ _ _ hc hh hs hn, he]
    simp only
    unfold psiTail
    simp only [f1, f2, f3, Bool.false_eq_true, if_false]
    rw [runPsi]
    obtain ⟨k1, k2, k3, k4⟩ := ibm_flags ae de del nd
    have hibm : ∀ st : Psi.State, Psi.step st ⟨idIbmm, ibmBytes id ae de del nd⟩ = .ok { st with ctx := { st.ctx with
        ibm := some id, dataError := de, addressError := ae, deleted := del, noDam := nd } } := by
      intro st
      unfold Psi.step
      rw [if_neg (show idIbmm ≠ idSect by decide), if_neg (show idIbmm ≠ idData by decide),
          if_neg (show idIbmm ≠ idOffs by decide), if_pos rfl]
      show (Except.ok _ : Except Err Psi.State) = _
      simp only [k1, k2, k3, k4, byteOf_toNat i1, byteOf_toNat i2, byteOf_toNat i3, byteOf_toNat i4]
    rw [hibm]
    simp only
    rw [runPsi, step_psiData _ ⟨ch.c, ch.h, x.s⟩ _ rfl]
    obtain ⟨st', g1, g2⟩ := addSector_last (st := { (⟨dk, {}, tr, hds, cur⟩ : Psi.State) with ctx := { alternate := false, phys := some ⟨ch.c, ch.h, x.s⟩, size := 128 * 2 ^ x.n, dataError := de, ibm := some id, addressError := ae, deleted := del, noDam := nd } }) h.built h.tracks h.heads h.current
      { id := id, data := d, addressError := ae, dataError := de, deletedMark := del, noDam := nd } rfl
    refine ⟨st', ?_, g2⟩
    have hid : Psi.Ctx.sid { alternate := false, phys := some ⟨ch.c, ch.h, x.s⟩, size := 128 * 2 ^ x.n, dataError := de, ibm := some id, addressError := ae, deleted := del, noDam := nd } ⟨ch.c, ch.h, x.s⟩ = id := rfl
    simp only [hid]
    rw [g1]
    rfl

/-- The remaining sectors of a track. -/
theorem run_sectors {ch : Ch} (hc : ch.c < 65536) (hh : ch.h < 2) : ∀ (xs : List PsiSec) {st : Psi.State}
    {pre : List (Ch × List MetaSector)} {ss : List MetaSector}, (∀ x ∈ xs, x.Ok) →
    PInv st (pre ++ [(ch, ss)]) →
    ∃ st', runPsi st (xs.flatMap (PsiSec.chunks ch)) = .ok st' ∧
      PInv st' (pre ++ [(ch, ss ++ xs.map (PsiSec.sector ch))])
  | [], st, pre, ss, _, h => ⟨st, rfl, by simpa using h⟩
  | x :: xs, st, pre, ss, hx, h => by
    obtain ⟨st1, a1, a2⟩ := ensure_old h
    obtain ⟨st2, b1, b2⟩ := run_sector (hx x (by simp)) hc hh a1 a2
    obtain ⟨st3, c1, c2⟩ := run_sectors hc hh xs (fun y hy => hx y (by simp [hy])) b2
    refine ⟨st3, ?_, by simpa using c2⟩
    rw [List.flatMap_cons, runPsi_ok b1]
    exact c1

/-- A whole track. -/
theorem run_psiTrack {ch : Ch} (hc : ch.c < 65536) (hh : ch.h < 2) (xs : List PsiSec) (hne : xs ≠ [])
    {st : Psi.State} {ts : List (Ch × List MetaSector)} (hx : ∀ x ∈ xs, x.Ok) (h : PInv st ts)
    (hn : ch ∉ ts.map (·.1)) :
    ∃ st', runPsi st (xs.flatMap (PsiSec.chunks ch)) = .ok st' ∧
      PInv st' (ts ++ [(ch, xs.map (PsiSec.sector ch))]) := by
  match xs, hne with
  | x :: xs, _ =>
    obtain ⟨st1, a1, a2⟩ := ensure_new h hh hn
    obtain ⟨st2, b1, b2⟩ := run_sector (hx x (by simp)) hc hh a1 a2
    obtain ⟨st3, c1, c2⟩ := run_sectors hc hh xs (fun y hy => hx y (by simp [hy])) b2
    refine ⟨st3, ?_, by simpa using c2⟩
    rw [List.flatMap_cons, runPsi_ok b1]
    exact c1

theorem run_psiTracks : ∀ (ts : List (Ch × List PsiSec)) {st : Psi.State} {done : List (Ch × List MetaSector)},
    (∀ t ∈ ts, t.1.c < 65536 ∧ t.1.h < 2 ∧ t.2 ≠ [] ∧ ∀ x ∈ t.2, x.Ok) → PInv st done →
    (done.map (·.1) ++ ts.map (·.1)).Nodup →
    ∃ st', runPsi st (psiChunks ts) = .ok st' ∧ PInv st' (done ++ psiTracks ts)
  | [], st, done, _, h, _ => ⟨st, rfl, by simpa [psiTracks] using h⟩
  | t :: ts, st, done, ht, h, hnd => by
    obtain ⟨t1, t2, t3, t4⟩ := ht t (by simp)
    have hnd' := hnd
    rw [List.map_cons, List.nodup_append] at hnd'
    obtain ⟨st1, a1, a2⟩ := run_psiTrack t1 t2 t.2 t3 t4 h (by
      intro hm
      exact hnd'.2.2 t.1 hm t.1 (by simp) rfl)
    obtain ⟨st2, b1, b2⟩ := run_psiTracks ts (fun y hy => ht y (by simp [hy])) a2 (by simpa using hnd)
    refine ⟨st2, ?_, by simpa [psiTracks] using b2⟩
    unfold psiChunks
    rw [List.flatMap_cons, runPsi_ok a1]
    exact b1

theorem psiChunks_small (ts : List (Ch × List PsiSec)) (h : ∀ t ∈ ts, ∀ x ∈ t.2, x.Ok) :
    ∀ c ∈ psiChunks ts, c.id ≠ idEnd ∧ c.data.length ≤ maxChunk := by
  intro c hc
  unfold psiChunks at hc
  obtain ⟨t, ht, hc⟩ := List.mem_flatMap.1 hc
  obtain ⟨x, hx, hc⟩ := List.mem_flatMap.1 hc
  obtain ⟨_, _, hb⟩ := h t ht x hx
  have h8 : ∀ fl v, (sectBytes t.1 x fl v).length ≤ maxChunk := by intro fl v; show 8 ≤ 1048576; omega
  have h6 : ∀ id a b c d, (ibmBytes id a b c d).length ≤ maxChunk := by intro _ _ _ _ _; show 6 ≤ 1048576; omega
  unfold PsiSec.chunks at hc
  rcases hbd : x.body with b | d | ⟨id, ae, de, del, nd, d⟩
  all_goals rw [hbd] at hc hb
  · simp only [List.mem_cons, List.not_mem_nil, or_false] at hc
    subst hc
    exact ⟨show idSect ≠ idEnd by decide, h8 _ _⟩
  · simp only [List.mem_cons, List.not_mem_nil, or_false] at hc
    rcases hc with rfl | rfl
    · exact ⟨show idSect ≠ idEnd by decide, h8 _ _⟩
    · exact ⟨show idData ≠ idEnd by decide, hb⟩
  · simp only [List.mem_cons, List.not_mem_nil, or_false] at hc
    rcases hc with rfl | rfl | rfl
    · exact ⟨show idSect ≠ idEnd by decide, h8 _ _⟩
    · exact ⟨show idIbmm ≠ idEnd by decide, h6 _ _ _ _ _⟩
    · exact ⟨show idData ≠ idEnd by decide, hb.2.2.2.2⟩

end Fox
