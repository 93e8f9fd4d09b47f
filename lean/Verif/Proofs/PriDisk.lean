import Verif.Proofs.PriLoop
import Verif.Spec.Disk
import Verif.Proofs.DiskMap
/-
Saving a disk as PRI and loading the file.
-/
namespace Fox
open Spec OddEven S34 Pce

/-- The loader's steps over a list of chunks. -/
def runChunks (alt : BitVec 32 → BitVec 32 → BitVec 32) (rnd : Nat → Bool) : Pri.State → List Chunk →
    Except Err Pri.State
  | st, [] => .ok st
  | st, c :: cs => match Pri.step alt rnd st c with
    | .error e => .error e
    | .ok st => runChunks alt rnd st cs

theorem runChunks_append (alt : BitVec 32 → BitVec 32 → BitVec 32) (rnd : Nat → Bool) :
    ∀ (a : List Chunk) (st st' : Pri.State) (b : List Chunk), runChunks alt rnd st a = .ok st' →
      runChunks alt rnd st (a ++ b) = runChunks alt rnd st' b
  | [], st, st', b, h => by
    simp only [runChunks, Except.ok.injEq] at h
    rw [h]; rfl
  | c :: a, st, st', b, h => by
    unfold runChunks at h
    rcases hs : Pri.step alt rnd st c with e | st1
    · rw [hs] at h; simp at h
    · rw [hs] at h
      show (match Pri.step alt rnd st c with
        | .error e => (Except.error e : Except Err Pri.State)
        | .ok st => runChunks alt rnd st (a ++ b)) = _
      rw [hs]
      exact runChunks_append alt rnd a st1 st' b h

theorem readChunk_footer (mx : Nat) : readChunk mx footer = .ok (⟨idEnd, []⟩, []) := by
  have := C46_round_trip mx ⟨idEnd, []⟩ [] (Nat.zero_le _) (by decide)
  rw [List.append_nil] at this
  rw [C46_footer, this]

theorem loop_chunks (alt : BitVec 32 → BitVec 32 → BitVec 32) (rnd : Nat → Bool) :
    ∀ (cs : List Chunk) (f : Nat) (st : Pri.State) (c : Chunk),
      (∀ x ∈ c :: cs, x.id ≠ idEnd ∧ x.data.length ≤ maxChunk) → cs.length + 1 < f →
      Pri.loop alt rnd f (cs.flatMap writeChunk ++ footer) st c = runChunks alt rnd st (c :: cs)
  | cs, 0, st, c, _, hf => by omega
  | [], f + 1, st, c, h, hf => by
    unfold Pri.loop runChunks
    rw [if_neg (h c (by simp)).1]
    rcases Pri.step alt rnd st c with e | st'
    · rfl
    · simp only [List.flatMap_nil, List.nil_append]
      rw [readChunk_footer]
      obtain ⟨g, rfl⟩ : ∃ g, f = g + 1 := ⟨f - 1, by simp only [List.length_nil] at hf; omega⟩
      simp only [Pri.loop, if_true]
      rfl
  | x :: cs, f + 1, st, c, h, hf => by
    unfold Pri.loop runChunks
    rw [if_neg (h c (by simp)).1]
    rcases Pri.step alt rnd st c with e | st'
    · rfl
    · simp only
      have hx := h x (by simp)
      rw [List.flatMap_cons, List.append_assoc, C46_round_trip maxChunk x _ hx.2
        (by have := hx.2; unfold maxChunk at this; omega)]
      simp only
      exact loop_chunks alt rnd cs f st' x (fun y hy => h y (by
        rw [List.mem_cons] at hy ⊢; right; rw [List.mem_cons]; exact hy)) (by simp only [List.length_cons] at hf; omega)

/-! ### One track -/

/-- A bitstream track that fits the PRI format. -/
def PriTrack (x : DiskTrack) : Prop := ∃ ch t, x = .bit ch t ∧ ch.c < 65536 ∧ ch.h < 2 ∧
  t.data.bits.bits.length ≤ 8 * maxChunk ∧
  (t.data.weakMask.bits.any id = true → t.data.weakMask.bits.length ≤ 4 * maxChunk)

/-- What a saved track is loaded as. -/
def priConv (rnd : Nat → Bool) : DiskTrack → DiskTrack
  | .bit ch t => match Track.ofData rnd (DiskTrack.packed t.data.bits.bits) t.data.bits.bits.length with
    | .ok t' => .bit ch { t' with data := { t'.data with
        weakMask := { t'.data.weakMask with bits := shiftMask t.data.bits.bits.length t.data.weakMask.bits } } }
    | .error _ => .bit ch t
  | x => x

theorem shiftMask_clear (n : Nat) (mask : List Bool) (h : mask.any id = false) :
    shiftMask n mask = List.replicate n false := by
  apply ext_getD _ _ false (by simp [shiftMask])
  intro j hj
  have hj' : j < n := by simpa [shiftMask] using hj
  unfold shiftMask
  rw [getD_map_range _ _ _ _ hj']
  have hz : mask.getD (j - 1) false = false := by
    rw [List.getD_eq_getElem?_getD]
    rcases hg : mask[j - 1]? with _ | b
    · rfl
    · rw [List.any_eq_false] at h
      have := h b (List.mem_of_getElem? hg)
      simpa using this
  rw [hz]
  simp [List.getD_eq_getElem?_getD, List.getElem?_replicate, hj']

/-- What one more track does to the disk. -/
def withTrack (d : Disk) (h : Nat) (x : DiskTrack) : Disk := { d with res := d.res.insert .bitStream }.pushTrack h x

theorem Ch.eta (c : Ch) : (⟨c.c, c.h⟩ : Ch) = c := rfl

theorem step_trak (alt : BitVec 32 → BitVec 32 → BitVec 32) (rnd : Nat → Bool) (st : Pri.State) (ch : Ch)
    (n : Nat) (r : BitVec 32) (hc : ch.c < 65536) (hh : ch.h < 2) (hn : n < 2 ^ 32) :
    Pri.step alt rnd st ⟨idTrak, Pri.trackHeader ch n r⟩ =
      .ok { st with bitLen := n, defClock := r, cyls := Pri.insertNat st.cyls ch.c,
                    heads := Pri.insertNat st.heads ch.h, ch := ch } := by
  unfold Pri.step
  rw [if_pos rfl]
  have e0 : u32At (Pri.trackHeader ch n r) 0 = some (BitVec.ofNat 32 ch.c) := by
    have := u32At_be32 (BitVec.ofNat 32 ch.c) [] (be32 (BitVec.ofNat 32 ch.h) ++
      (be32 (BitVec.ofNat 32 n) ++ be32 r))
    rw [← this]; simp [Pri.trackHeader]
  have e1 : u32At (Pri.trackHeader ch n r) 4 = some (BitVec.ofNat 32 ch.h) := by
    have := u32At_be32 (BitVec.ofNat 32 ch.h) (be32 (BitVec.ofNat 32 ch.c))
      (be32 (BitVec.ofNat 32 n) ++ be32 r)
    rw [be32_length] at this
    rw [← this]; simp [Pri.trackHeader]
  have e2 : u32At (Pri.trackHeader ch n r) 8 = some (BitVec.ofNat 32 n) := by
    have := u32At_be32 (BitVec.ofNat 32 n) (be32 (BitVec.ofNat 32 ch.c) ++ be32 (BitVec.ofNat 32 ch.h)) (be32 r)
    rw [List.length_append, be32_length, be32_length] at this
    rw [← this]; simp [Pri.trackHeader]
  have e3 : u32At (Pri.trackHeader ch n r) 12 = some r := by
    have := u32At_be32 r (be32 (BitVec.ofNat 32 ch.c) ++ be32 (BitVec.ofNat 32 ch.h) ++ be32 (BitVec.ofNat 32 n)) []
    rw [List.length_append, List.length_append, be32_length, be32_length, be32_length, List.append_nil] at this
    rw [← this]; simp [Pri.trackHeader]
  simp only
  rw [e0, e1, e2, e3]
  simp only [BitVec.toNat_ofNat]
  rw [Nat.mod_eq_of_lt (show ch.c < 2 ^ 32 by omega), Nat.mod_eq_of_lt (show ch.h < 2 ^ 32 by omega),
    Nat.mod_eq_of_lt hn, Nat.mod_eq_of_lt (show ch.c < 65536 by omega), Nat.mod_eq_of_lt (show ch.h < 256 by omega)]

/-- The chunks of one track, loaded. -/
theorem run_track (alt : BitVec 32 → BitVec 32 → BitVec 32) (rnd : Nat → Bool) (st : Pri.State)
    (rate : DiskTrack → BitVec 32) (ch : Ch) (t : Track) (hx : PriTrack (.bit ch t))
    (hres : st.disk.res = {} ∨ st.disk.res = { bit := true })
    (hw : t.data.weakMask.bits.any id = true → (st.disk.headMap ch.h).length = ch.c) :
    ∃ cs, Pri.trackChunks rate (.bit ch t) = .ok cs ∧
      (∀ x ∈ cs, x.id ≠ idEnd ∧ x.data.length ≤ maxChunk) ∧
      runChunks alt rnd st cs = .ok { st with
        disk := withTrack st.disk ch.h (priConv rnd (.bit ch t)),
        bitLen := t.data.bits.bits.length, defClock := rate (.bit ch t), cyls := Pri.insertNat st.cyls ch.c,
        heads := Pri.insertNat st.heads ch.h, ch := ch, rates := st.rates ++ [st.clock],
        rate := some (st.rate.getD st.clock) } := by
  obtain ⟨ch', t', heq, hc, hh, hlen, hwl⟩ := hx
  simp only [DiskTrack.bit.injEq] at heq
  obtain ⟨rfl, rfl⟩ := heq
  have hmx : maxChunk = 1048576 := rfl
  have hthl : ∀ r, (Pri.trackHeader ch t.data.len r).length = 16 := by
    intro r; simp [Pri.trackHeader, be32_length]
  have hpk : (DiskTrack.packed t.data.bits.bits).length ≤ maxChunk := by rw [packed_length]; omega
  have hwk : t.data.weakMask.bits.any id = true → (Pri.weakBytes t.data.weakMask.bits).length ≤ maxChunk := by
    intro hany
    have hwl := hwl hany
    rw [weakBytes_length]
    have := (weakTable_entries t.data.weakMask.bits.length t.data.weakMask.bits 0).1
    omega
  refine ⟨_, rfl, ?_, ?_⟩
  · intro x hx
    rw [List.mem_append] at hx
    rcases hx with hx | hx
    · simp only [List.mem_cons, List.not_mem_nil, or_false] at hx
      rcases hx with rfl | rfl
      · refine ⟨show idTrak ≠ idEnd by decide, ?_⟩
        show (Pri.trackHeader _ _ _).length ≤ _
        rw [hthl]; omega
      · exact ⟨show idData ≠ idEnd by decide, hpk⟩
    · split at hx
      · rename_i hany
        simp only [List.mem_cons, List.not_mem_nil, or_false] at hx
        subst hx
        exact ⟨show idWeak ≠ idEnd by decide, hwk hany⟩
      · simp at hx
  · have hrej : st.disk.rejects .bitStream = false := by
      unfold Disk.rejects
      rcases hres with h | h <;> rw [h] <;> cases st.disk.multires <;> rfl
    obtain ⟨t', o1, o2, o3⟩ := ofData_cells rnd t.data.bits.bits
    rw [List.cons_append, List.cons_append, List.nil_append]
    unfold runChunks
    rw [step_trak _ _ _ _ _ _ hc hh (by show t.data.bits.bits.length < _; omega)]
    simp only
    unfold runChunks
    have hdata : ∀ st : Pri.State, st.bitLen = t.data.bits.bits.length → st.ch = ch →
        st.disk.rejects .bitStream = false →
        Pri.step alt rnd st ⟨idData, DiskTrack.packed t.data.bits.bits⟩ = .ok { st with
          disk := withTrack st.disk ch.h (.bit ch t'), rates := st.rates ++ [st.clock],
          rate := some (st.rate.getD st.clock) } := by
      intro st h1 h2 h3
      unfold Pri.step
      rw [if_neg (show idData ≠ idTrak by decide), if_neg (show idData ≠ idBclk by decide), if_pos rfl]
      simp only
      unfold Disk.addBit
      rw [h1, o1, h2, if_neg (by omega), if_neg (by rw [h3]; decide)]
      rfl
    rw [hdata { st with bitLen := t.data.len, defClock := rate (.bit ch t), cyls := Pri.insertNat st.cyls ch.c, heads := Pri.insertNat st.heads ch.h, ch := ch } rfl rfl hrej]
    simp only
    by_cases hany : t.data.weakMask.bits.any id = true
    · have hwl := hwl hany
      rw [if_pos hany]
      unfold runChunks
      unfold Pri.step
      rw [if_neg (show idWeak ≠ idTrak by decide), if_neg (show idWeak ≠ idBclk by decide),
        if_neg (show idWeak ≠ idData by decide), if_pos rfl]
      simp only
      rw [if_neg (by rw [weakBytes_length]; omega), if_neg (by omega)]
      have hmap : (withTrack st.disk ch.h (.bit ch t')).headMap ch.h = st.disk.headMap ch.h ++ [st.disk.pool.length] := by
        unfold withTrack Disk.pushTrack Disk.pushMap Disk.headMap
        by_cases h0 : ch.h = 0
        · rw [if_pos h0, if_pos h0, if_pos h0]
        · rw [if_neg h0, if_neg h0, if_neg h0]
      have hpool : (withTrack st.disk ch.h (.bit ch t')).pool = st.disk.pool ++ [.bit ch t'] := by
        unfold withTrack Disk.pushTrack Disk.pushMap
        by_cases h0 : ch.h = 0
        · rw [if_pos h0]
        · rw [if_neg h0]
      have e1 : ((withTrack st.disk ch.h (.bit ch t')).headMap ch.h)[ch.c]? = some st.disk.pool.length := by
        rw [hmap, ← hw hany, List.getElem?_append_right (Nat.le_refl _)]; simp
      have e2 : (withTrack st.disk ch.h (.bit ch t')).pool[st.disk.pool.length]? = some (.bit ch t') := by
        rw [hpool, List.getElem?_append_right (Nat.le_refl _)]; simp
      rw [e1]
      simp only
      rw [e2]
      simp only
      have e3 : t'.data.weakMask.bits = List.replicate t.data.bits.bits.length false := by rw [o3]; rfl
      rw [e3, weakEntries_weakBytes _ _ (by omega)]
      simp only
      unfold runChunks
      have e4 : ∀ y, ({ withTrack st.disk ch.h (.bit ch t') with
          pool := (withTrack st.disk ch.h (.bit ch t')).pool.set st.disk.pool.length y } : Disk) =
          withTrack st.disk ch.h y := by
        intro y
        rw [hpool, List.set_append_right _ _ (Nat.le_refl _)]
        unfold withTrack Disk.pushTrack Disk.pushMap
        by_cases h0 : ch.h = 0
        · rw [if_pos h0, if_pos h0]; simp
        · rw [if_neg h0, if_neg h0]; simp
      rw [e4]
      unfold priConv
      simp only [o1]
      rfl
    · rw [if_neg hany]
      unfold runChunks
      have hany' : t.data.weakMask.bits.any id = false := by simpa using hany
      have : priConv rnd (.bit ch t) = .bit ch t' := by
        unfold priConv
        simp only [o1]
        rw [shiftMask_clear _ _ hany']
        have e3 : t'.data.weakMask = { t'.data.weakMask with bits := List.replicate t.data.bits.bits.length false } := by
          rw [o3]; rfl
        rw [← e3]
      rw [this]
      rfl

/-! ### All tracks -/

/-- The tracks of one side, in cylinder order. -/
def side (d : Disk) (h : Nat) : List DiskTrack := (d.headMap h).filterMap fun i => d.pool[i]?

/-- The tables point into the pool. -/
def Bounded (d : Disk) : Prop := ∀ h, h < 2 → ∀ i ∈ d.headMap h, i < d.pool.length

theorem withTrack_pool (d : Disk) (h : Nat) (x : DiskTrack) : (withTrack d h x).pool = d.pool ++ [x] := by
  unfold withTrack Disk.pushTrack Disk.pushMap
  split <;> rfl

theorem withTrack_map (d : Disk) (h h' : Nat) (x : DiskTrack) (hh : h < 2) (hh' : h' < 2) :
    (withTrack d h x).headMap h' = d.headMap h' ++ (if h' = h then [d.pool.length] else []) := by
  unfold withTrack Disk.pushTrack Disk.pushMap Disk.headMap
  rcases (by omega : h = 0 ∨ h = 1) with rfl | rfl <;> rcases (by omega : h' = 0 ∨ h' = 1) with rfl | rfl <;> simp

theorem withTrack_bounded {d : Disk} (hb : Bounded d) (h : Nat) (x : DiskTrack) (hh : h < 2) :
    Bounded (withTrack d h x) := by
  intro h' hh' i hi
  rw [withTrack_map d h h' x hh hh'] at hi
  rw [withTrack_pool, List.length_append]
  rw [List.mem_append] at hi
  rcases hi with hi | hi
  · have := hb h' hh' i hi; simp only [List.length_cons, List.length_nil]; omega
  · split at hi
    · simp only [List.mem_cons, List.not_mem_nil, or_false] at hi
      subst hi; simp
    · simp at hi

theorem filterMap_ext {α β : Type} {f g : α → Option β} : ∀ {l : List α}, (∀ a ∈ l, f a = g a) →
    l.filterMap f = l.filterMap g
  | [], _ => rfl
  | a :: l, h => by
    rw [List.filterMap_cons, List.filterMap_cons, h a (by simp), filterMap_ext fun b hb => h b (by simp [hb])]

theorem withTrack_side {d : Disk} (hb : Bounded d) (h h' : Nat) (x : DiskTrack) (hh : h < 2) (hh' : h' < 2) :
    side (withTrack d h x) h' = side d h' ++ (if h' = h then [x] else []) := by
  unfold side
  rw [withTrack_map d h h' x hh hh', List.filterMap_append]
  congr 1
  · apply filterMap_ext
    intro i hi
    rw [withTrack_pool, List.getElem?_append_left (hb h' hh' i hi)]
  · rw [withTrack_pool]
    split
    · simp
    · simp

/-- The disk after loading the tracks `xs`. -/
def loaded (rnd : Nat → Bool) : Disk → List DiskTrack → Disk
  | d, [] => d
  | d, x :: xs => loaded rnd (withTrack d x.ch.h (priConv rnd x)) xs

theorem loaded_spec (rnd : Nat → Bool) : ∀ (xs : List DiskTrack) (d : Disk), Bounded d →
    (∀ x ∈ xs, x.ch.h < 2) →
    Bounded (loaded rnd d xs) ∧ (∀ h, h < 2 → side (loaded rnd d xs) h =
      side d h ++ (xs.filter fun x => x.ch.h = h).map (priConv rnd)) ∧
    (∀ h, h < 2 → ((loaded rnd d xs).headMap h).length = (d.headMap h).length + (xs.filter fun x => x.ch.h = h).length) ∧
    ((loaded rnd d xs).map0 ++ (loaded rnd d xs).map1).Perm ((d.map0 ++ d.map1) ++ List.range' d.pool.length xs.length)
  | [], d, hb, _ => ⟨hb, fun h _ => by simp [loaded], fun h _ => by simp [loaded], by simp [loaded]⟩
  | x :: xs, d, hb, hx => by
    have h0 := hx x (by simp)
    obtain ⟨i1, i2, i3, i4⟩ := loaded_spec rnd xs (withTrack d x.ch.h (priConv rnd x))
      (withTrack_bounded hb _ _ h0) (fun y hy => hx y (by simp [hy]))
    refine ⟨i1, fun h hh => ?_, fun h hh => ?_, ?_⟩
    · show side (loaded rnd (withTrack d x.ch.h (priConv rnd x)) xs) h = _
      rw [i2 h hh, withTrack_side hb _ _ _ h0 hh, List.filter_cons]
      by_cases he : x.ch.h = h
      · simp [he]
      · have he' : ¬ h = x.ch.h := fun e => he e.symm
        simp [he, he']
    · show ((loaded rnd (withTrack d x.ch.h (priConv rnd x)) xs).headMap h).length = _
      rw [i3 h hh, withTrack_map _ _ _ _ h0 hh, List.filter_cons]
      by_cases he : x.ch.h = h
      · simp [he]; omega
      · have he' : ¬ h = x.ch.h := fun e => he e.symm
        simp [he, he']
    · show ((loaded rnd (withTrack d x.ch.h (priConv rnd x)) xs).map0 ++
        (loaded rnd (withTrack d x.ch.h (priConv rnd x)) xs).map1).Perm _
      refine i4.trans ?_
      rw [withTrack_pool, List.length_append]
      have m0 := withTrack_map d x.ch.h 0 (priConv rnd x) h0 (by omega)
      have m1 := withTrack_map d x.ch.h 1 (priConv rnd x) h0 (by omega)
      simp only [Disk.headMap, if_true, Nat.one_ne_zero, if_false] at m0 m1
      rw [m0, m1]
      simp only [List.length_cons, List.length_nil, Nat.zero_add, List.range'_succ]
      rcases (by omega : x.ch.h = 0 ∨ x.ch.h = 1) with e | e
      · rw [if_pos e.symm, if_neg (by omega), List.append_nil]
        simp only [List.append_assoc, List.cons_append, List.nil_append]
        refine List.Perm.append_left _ ?_
        exact (List.perm_middle).symm
      · rw [if_neg (by omega), if_pos e.symm, List.append_nil]
        simp only [List.append_assoc, List.cons_append, List.nil_append]
        exact List.Perm.refl _

theorem loaded_res (rnd : Nat → Bool) : ∀ (xs : List DiskTrack) (d : Disk), d.res = {} ∨ d.res = { bit := true } →
    (loaded rnd d xs).multires = d.multires ∧ ((loaded rnd d xs).res = {} ∨ (loaded rnd d xs).res = { bit := true }) ∧
    (xs ≠ [] → (loaded rnd d xs).res = { bit := true })
  | [], d, h => ⟨rfl, h, fun h => absurd rfl h⟩
  | x :: xs, d, h => by
    have hr : (withTrack d x.ch.h (priConv rnd x)).res = { bit := true } := by
      have : (withTrack d x.ch.h (priConv rnd x)).res = d.res.insert .bitStream := by
        unfold withTrack Disk.pushTrack Disk.pushMap; split <;> rfl
      rw [this]
      rcases h with h | h <;> rw [h] <;> rfl
    have hm : (withTrack d x.ch.h (priConv rnd x)).multires = d.multires := by
      unfold withTrack Disk.pushTrack Disk.pushMap; split <;> rfl
    obtain ⟨i1, i2, i3⟩ := loaded_res rnd xs _ (Or.inr hr)
    refine ⟨i1.trans hm, i2, fun _ => ?_⟩
    rcases xs with _ | ⟨y, ys⟩
    · exact hr
    · exact i3 (by simp)

/-- Weak tracks lie at the next cylinder of their side. -/
def PlacedFrom : Nat → Nat → List DiskTrack → Prop
  | _, _, [] => True
  | a, b, x :: xs => (x.ch.c = if x.ch.h = 0 then a else b) ∧
      PlacedFrom (if x.ch.h = 0 then a + 1 else a) (if x.ch.h = 0 then b else b + 1) xs

theorem run_tracks (alt : BitVec 32 → BitVec 32 → BitVec 32) (rnd : Nat → Bool) (rate : DiskTrack → BitVec 32) :
    ∀ (xs : List DiskTrack) (st : Pri.State), (∀ x ∈ xs, PriTrack x) →
      (st.disk.res = {} ∨ st.disk.res = { bit := true }) → PlacedFrom st.disk.map0.length st.disk.map1.length xs →
      ∃ cs st', Pri.tracksChunks rate xs = .ok cs ∧ (∀ c ∈ cs, c.id ≠ idEnd ∧ c.data.length ≤ maxChunk) ∧
        runChunks alt rnd st cs = .ok st' ∧ st'.disk = loaded rnd st.disk xs ∧
        st'.cyls = (xs.map fun x => x.ch.c).foldl Pri.insertNat st.cyls ∧
        st'.heads = (xs.map fun x => x.ch.h).foldl Pri.insertNat st.heads ∧
        st'.rates = st.rates ++ List.replicate xs.length st.clock ∧
        (xs ≠ [] → ∃ r, st'.rate = some r)
  | [], st, _, _, _ => ⟨[], st, rfl, by simp, rfl, rfl, rfl, rfl, by simp, fun h => absurd rfl h⟩
  | x :: xs, st, hx, hres, hp => by
    have hx0 := hx x (by simp)
    obtain ⟨ch, t, rfl, hc, hh, hlen, hwl⟩ := hx0
    obtain ⟨hp1, hp2⟩ := hp
    have hch : (DiskTrack.bit ch t).ch = ch := rfl
    rw [hch] at hp1 hp2
    obtain ⟨cs, c1, c2, c3⟩ := run_track alt rnd st rate ch t (hx _ (by simp)) hres (by
      intro _
      rw [hp1]; unfold Disk.headMap; split <;> rfl)
    have h0 : (loaded rnd st.disk [DiskTrack.bit ch t]) = withTrack st.disk ch.h (priConv rnd (.bit ch t)) := rfl
    obtain ⟨r1, r2, r3⟩ := loaded_res rnd [DiskTrack.bit ch t] st.disk hres
    have m0 := withTrack_map st.disk ch.h 0 (priConv rnd (.bit ch t)) hh (by omega)
    have m1 := withTrack_map st.disk ch.h 1 (priConv rnd (.bit ch t)) hh (by omega)
    simp only [Disk.headMap, if_true, Nat.one_ne_zero, if_false] at m0 m1
    generalize hst : ({ st with
        disk := withTrack st.disk ch.h (priConv rnd (.bit ch t)),
        bitLen := t.data.bits.bits.length, defClock := rate (.bit ch t), cyls := Pri.insertNat st.cyls ch.c,
        heads := Pri.insertNat st.heads ch.h, ch := ch, rates := st.rates ++ [st.clock],
        rate := some (st.rate.getD st.clock) } : Pri.State) = st1 at c3
    have hd : st1.disk = withTrack st.disk ch.h (priConv rnd (.bit ch t)) := by rw [← hst]
    obtain ⟨cs', st', d1, d2, d3, d4, d5, d6, d7, d8⟩ := run_tracks alt rnd rate xs st1
      (fun y hy => hx y (by simp [hy])) (by rw [hd, ← h0]; exact r2) (by
        rw [hd, m0, m1]
        rcases (by omega : ch.h = 0 ∨ ch.h = 1) with e | e
        · rw [e] at hp2 ⊢; simpa using hp2
        · rw [e] at hp2 ⊢; simpa using hp2)
    refine ⟨cs ++ cs', st', ?_, ?_, ?_, ?_, ?_, ?_, ?_, ?_⟩
    · unfold Pri.tracksChunks; rw [c1]; simp only; rw [d1]
    · intro c hcm
      rw [List.mem_append] at hcm
      rcases hcm with h | h
      · exact c2 c h
      · exact d2 c h
    · rw [runChunks_append _ _ _ _ _ _ c3, d3]
    · rw [d4, hd]; rfl
    · rw [d5, ← hst]; rfl
    · rw [d6, ← hst]; rfl
    · rw [d7, ← hst]
      simp only [List.length_cons, List.replicate_succ, List.append_assoc, List.cons_append, List.nil_append]
    · intro _
      rcases xs with _ | ⟨y, ys⟩
      · unfold Pri.tracksChunks at d1
        simp only [Except.ok.injEq] at d1
        subst d1
        simp only [runChunks, Except.ok.injEq] at d3
        rw [← d3, ← hst]
        exact ⟨_, rfl⟩
      · exact d8 (by simp)

/-! ### The order in which tracks are saved -/

/-- The tracks from cylinder `a` on, `k` cylinders. -/
def tracksFrom (d : Disk) (a k : Nat) : List DiskTrack :=
  ((List.range' a k).flatMap fun c => d.map0[c]?.toList ++ d.map1[c]?.toList).filterMap fun i => d.pool[i]?

theorem trackList_from (d : Disk) : d.trackList = tracksFrom d 0 (max d.map0.length d.map1.length) := by
  unfold Disk.trackList Disk.trackIdx tracksFrom
  rw [List.range_eq_range']

/-- The track at a position. -/
def at? (d : Disk) (h c : Nat) : Option DiskTrack := (d.headMap h)[c]?.bind fun i => d.pool[i]?

theorem tracksFrom_succ (d : Disk) (a k : Nat) :
    tracksFrom d a (k + 1) = (at? d 0 a).toList ++ (at? d 1 a).toList ++ tracksFrom d (a + 1) k := by
  unfold tracksFrom at? Disk.headMap
  rw [List.range'_succ, List.flatMap_cons, List.filterMap_append, List.filterMap_append]
  simp only [if_true, Nat.one_ne_zero, if_false]
  have : ∀ o : Option Nat, List.filterMap (fun i => d.pool[i]?) o.toList = (o.bind fun i => d.pool[i]?).toList := by
    intro o
    cases o with
    | none => rfl
    | some i => simp only [Option.toList_some, List.filterMap_cons, List.filterMap_nil, Option.bind_some]; cases d.pool[i]? <;> rfl
  rw [this, this]

theorem Spec.InPlace.at? {d : Disk} (hp : InPlace d) {h c : Nat} (hh : h < 2) (hc : c < (d.headMap h).length) :
    ∃ t, Fox.at? d h c = some t ∧ t.ch = ⟨c, h⟩ := by
  obtain ⟨t, h1, h2⟩ := hp h c _ hh (List.getElem?_eq_getElem hc)
  exact ⟨t, by unfold Fox.at?; rw [List.getElem?_eq_getElem hc]; exact h1, h2⟩

theorem at?_none {d : Disk} {h c : Nat} (hc : (d.headMap h).length ≤ c) : at? d h c = none := by
  unfold at?; rw [List.getElem?_eq_none hc]; rfl

theorem side_get (d : Disk) (hb : Bounded d) {h : Nat} (hh : h < 2) (c : Nat) : (side d h)[c]? = at? d h c := by
  unfold side at?
  have hm := hb h hh
  generalize d.headMap h = l at hm
  induction l generalizing c with
  | nil => simp
  | cons i l ih =>
    have hi := hm i (by simp)
    rw [List.filterMap_cons, List.getElem?_eq_getElem hi]
    cases c with
    | zero => simp [hi]
    | succ c => simpa using ih c fun j hj => hm j (by simp [hj])

theorem Spec.InPlace.bounded {d : Disk} (hp : InPlace d) : Bounded d := by
  intro h hh i hi
  obtain ⟨c, hc⟩ := List.mem_iff_getElem?.1 hi
  obtain ⟨t, h1, _⟩ := hp h c i hh hc
  exact (List.getElem?_eq_some_iff.1 h1).1

/-- Membership. -/
theorem mem_tracksFrom (d : Disk) (x : DiskTrack) : ∀ (k a : Nat), x ∈ tracksFrom d a k →
    ∃ h c, h < 2 ∧ at? d h c = some x
  | 0, a, hx => by simp [tracksFrom] at hx
  | k + 1, a, hx => by
    rw [tracksFrom_succ, List.mem_append, List.mem_append] at hx
    rcases hx with (hx | hx) | hx
    · exact ⟨0, a, by omega, by simpa using hx⟩
    · exact ⟨1, a, by omega, by simpa using hx⟩
    · exact mem_tracksFrom d x k (a + 1) hx

theorem tracksFrom_placed {d : Disk} (hp : InPlace d) : ∀ (k a : Nat),
    PlacedFrom (min a d.map0.length) (min a d.map1.length) (tracksFrom d a k)
  | 0, a => by simp [tracksFrom, PlacedFrom]
  | k + 1, a => by
    have ih := tracksFrom_placed hp k (a + 1)
    rw [tracksFrom_succ]
    have e0 : d.headMap 0 = d.map0 := rfl
    have e1 : d.headMap 1 = d.map1 := rfl
    by_cases h0 : a < d.map0.length <;> by_cases h1 : a < d.map1.length
    · obtain ⟨x, x1, x2⟩ := hp.at? (h := 0) (c := a) (by omega) h0
      obtain ⟨y, y1, y2⟩ := hp.at? (h := 1) (c := a) (by omega) h1
      rw [x1, y1]
      simp only [Option.toList_some, List.cons_append, List.nil_append, PlacedFrom]
      rw [x2, y2]
      simp only [if_true, Nat.one_ne_zero, if_false]
      rw [Nat.min_eq_left (by omega), Nat.min_eq_left (by omega)]
      rw [Nat.min_eq_left (by omega), Nat.min_eq_left (by omega)] at ih
      exact ⟨rfl, rfl, ih⟩
    · obtain ⟨x, x1, x2⟩ := hp.at? (h := 0) (c := a) (by omega) h0
      rw [x1, at?_none (h := 1) (by rw [e1]; omega)]
      simp only [Option.toList_some, Option.toList_none, List.cons_append, List.nil_append, PlacedFrom]
      rw [x2]
      simp only [if_true]
      rw [Nat.min_eq_left (by omega), Nat.min_eq_right (by omega)]
      rw [Nat.min_eq_left (by omega), Nat.min_eq_right (by omega)] at ih
      exact ⟨rfl, ih⟩
    · obtain ⟨y, y1, y2⟩ := hp.at? (h := 1) (c := a) (by omega) h1
      rw [y1, at?_none (h := 0) (by rw [e0]; omega)]
      simp only [Option.toList_some, Option.toList_none, List.cons_append, List.nil_append, PlacedFrom]
      rw [y2]
      simp only [Nat.one_ne_zero, if_false]
      rw [show min a d.map0.length = d.map0.length by omega, show min a d.map1.length = a by omega]
      rw [Nat.min_eq_right (by omega), Nat.min_eq_left (by omega)] at ih
      exact ⟨rfl, ih⟩
    · rw [at?_none (h := 0) (by rw [e0]; omega), at?_none (h := 1) (by rw [e1]; omega)]
      rw [Nat.min_eq_right (by omega), Nat.min_eq_right (by omega)] at ih ⊢
      exact ih

theorem tracksFrom_filter {d : Disk} (hp : InPlace d) {h : Nat} (hh : h < 2) : ∀ (k a : Nat),
    (d.headMap h).length ≤ a + k →
    (tracksFrom d a k).filter (fun x => x.ch.h = h) = (side d h).drop a
  | 0, a, hk => by
    have : (side d h).drop a = [] := by
      rw [List.drop_eq_nil_iff]
      unfold side
      exact Nat.le_trans (List.length_filterMap_le _ _) (by omega)
    rw [this]; simp [tracksFrom]
  | k + 1, a, hk => by
    have ih := tracksFrom_filter hp hh k (a + 1) (by omega)
    rw [tracksFrom_succ, List.filter_append, List.filter_append, ih]
    have key : ∀ g, g < 2 → List.filter (fun x => decide (x.ch.h = h)) (at? d g a).toList =
        if g = h then (at? d h a).toList else [] := by
      intro g hg
      by_cases hc : a < (d.headMap g).length
      · obtain ⟨x, x1, x2⟩ := hp.at? hg hc
        rw [x1]
        by_cases e : g = h
        · rw [if_pos e, ← e, x1]; simp [x2]
        · rw [if_neg e]; simp [x2, e]
      · rw [at?_none (by omega)]
        split
        · rename_i e; rw [← e, at?_none (by omega)]; rfl
        · rfl
    rw [key 0 (by omega), key 1 (by omega)]
    have hs : (side d h).drop a = (at? d h a).toList ++ (side d h).drop (a + 1) := by
      rw [← side_get d hp.bounded hh a]
      by_cases hc : a < (side d h).length
      · rw [List.drop_eq_getElem_cons hc, List.getElem?_eq_getElem hc]; rfl
      · rw [List.getElem?_eq_none (by omega), List.drop_eq_nil_iff.2 (by omega), List.drop_eq_nil_iff.2 (by omega)]; rfl
    rw [hs]
    rcases (by omega : h = 0 ∨ h = 1) with rfl | rfl <;> simp

theorem insertNat_mem {l : List Nat} {x : Nat} (h : x ∈ l) : Pri.insertNat l x = l := by
  unfold Pri.insertNat; rw [if_pos h]

theorem tracksFrom_cyls {d : Disk} (hp : InPlace d) : ∀ (k a : Nat),
    a + k ≤ max d.map0.length d.map1.length →
    ((tracksFrom d a k).map fun x => x.ch.c).foldl Pri.insertNat (List.range a) = List.range (a + k)
  | 0, a, hk => by simp [tracksFrom]
  | k + 1, a, hk => by
    have ih := tracksFrom_cyls hp k (a + 1) (by omega)
    rw [show a + (k + 1) = a + 1 + k by omega, ← ih, tracksFrom_succ, List.map_append, List.foldl_append]
    congr 1
    have e0 : d.headMap 0 = d.map0 := rfl
    have e1 : d.headMap 1 = d.map1 := rfl
    have n1 : Pri.insertNat (List.range a) a = List.range (a + 1) := by
      unfold Pri.insertNat
      rw [if_neg (by simp), List.range_succ]
    have n2 : Pri.insertNat (List.range (a + 1)) a = List.range (a + 1) := insertNat_mem (by simp)
    by_cases h0 : a < d.map0.length <;> by_cases h1 : a < d.map1.length
    · obtain ⟨x, x1, x2⟩ := hp.at? (h := 0) (c := a) (by omega) h0
      obtain ⟨y, y1, y2⟩ := hp.at? (h := 1) (c := a) (by omega) h1
      rw [x1, y1]
      simp [x2, y2, n1, n2]
    · obtain ⟨x, x1, x2⟩ := hp.at? (h := 0) (c := a) (by omega) h0
      rw [x1, at?_none (h := 1) (by rw [e1]; omega)]
      simp [x2, n1]
    · obtain ⟨y, y1, y2⟩ := hp.at? (h := 1) (c := a) (by omega) h1
      rw [y1, at?_none (h := 0) (by rw [e0]; omega)]
      simp [y2, n1]
    · omega

theorem foldl_insertNat_mem : ∀ (l s : List Nat), (∀ x ∈ l, x ∈ s) → l.foldl Pri.insertNat s = s
  | [], _, _ => rfl
  | x :: l, s, h => by
    rw [List.foldl_cons, insertNat_mem (h x (by simp))]
    exact foldl_insertNat_mem l s fun y hy => h y (by simp [hy])

/-- How many different heads were seen. -/
theorem heads_length (l : List Nat) (h2 : ∀ x ∈ l, x < 2) : (l.foldl Pri.insertNat []).length =
    (if 0 ∈ l then 1 else 0) + (if 1 ∈ l then 1 else 0) := by
  have two : ∀ (l s : List Nat), (∀ x ∈ l, x < 2) → 0 ∈ s → 1 ∈ s → l.foldl Pri.insertNat s = s := by
    intro l s hl h0 h1
    apply foldl_insertNat_mem
    intro x hx
    have := hl x hx
    rcases (by omega : x = 0 ∨ x = 1) with rfl | rfl
    · exact h0
    · exact h1
  have one : ∀ (l : List Nat) (a : Nat), a < 2 → (∀ x ∈ l, x < 2) → l.foldl Pri.insertNat [a] =
      if (1 - a) ∈ l then [a, 1 - a] else [a] := by
    intro l a ha
    induction l with
    | nil => intro _; simp
    | cons x l ih =>
      intro hl
      have := hl x (by simp)
      rw [List.foldl_cons]
      by_cases e : x = a
      · rw [insertNat_mem (by simp [e]), ih fun y hy => hl y (by simp [hy])]
        have : 1 - a ≠ x := by omega
        simp [this]
      · have e' : x = 1 - a := by omega
        have : Pri.insertNat [a] x = [a, 1 - a] := by
          unfold Pri.insertNat
          rw [if_neg (by simpa using e), e']; rfl
        rw [this, two l _ (fun y hy => hl y (by simp [hy])) (by simp; omega) (by simp; omega)]
        rw [if_pos (by rw [e']; simp)]
  cases l with
  | nil => simp
  | cons x l =>
    have hx := h2 x (by simp)
    rw [List.foldl_cons, show Pri.insertNat [] x = [x] from rfl, one l x hx fun y hy => h2 y (by simp [hy])]
    rcases (by omega : x = 0 ∨ x = 1) with rfl | rfl
    · by_cases h : 1 ∈ l <;> simp [h]
    · by_cases h : 0 ∈ l <;> simp [h]


/-! ### The whole file -/

theorem writeChunk_long (c : Chunk) : 12 ≤ (writeChunk c).length := by
  rw [writeChunk_length]; omega

theorem flatMap_writeChunk_long : ∀ cs : List Chunk, cs.length ≤ (cs.flatMap writeChunk).length
  | [] => by simp
  | c :: cs => by
    have := writeChunk_long c
    have := flatMap_writeChunk_long cs
    rw [List.flatMap_cons, List.length_append, List.length_cons]; omega

/-- Loading a file made of a header chunk, other chunks and the footer. -/
theorem load_chunks (alt : BitVec 32 → BitVec 32 → BitVec 32) (rnd : Nat → Bool) (d : Disk) (hd : List Byte)
    (hhd : 4 ≤ hd.length) (hhd' : hd.length ≤ maxChunk) (cs : List Chunk)
    (h : ∀ c ∈ cs, c.id ≠ idEnd ∧ c.data.length ≤ maxChunk) :
    Pri.load alt rnd d (((⟨idPri, hd⟩ : Chunk) :: cs).flatMap writeChunk ++ footer) =
      match runChunks alt rnd { disk := d } cs with
      | .error e => .error e
      | .ok st => match st.rate with
        | none => .error .panic
        | some _ => .ok ({ st.disk with geometry := ⟨st.cyls.length % 65536, st.heads.length % 256⟩ }, st.rates) := by
  unfold Pri.load
  have hfuel : cs.length + 1 < ((((⟨idPri, hd⟩ : Chunk) :: cs).flatMap writeChunk ++ footer).length + 1) := by
    have h1 := flatMap_writeChunk_long cs
    have h2 := writeChunk_long ⟨idPri, hd⟩
    rw [List.length_append, List.flatMap_cons, List.length_append]; omega
  generalize hF : (((⟨idPri, hd⟩ : Chunk) :: cs).flatMap writeChunk ++ footer).length + 1 = F at hfuel
  rw [List.flatMap_cons, List.append_assoc, C46_round_trip maxChunk ⟨idPri, hd⟩ _ hhd'
    (by show hd.length < _; have : maxChunk = 1048576 := rfl; omega)]
  simp only
  rw [if_neg (by simp), if_neg (by omega)]
  rw [loop_chunks alt rnd cs _ _ ⟨idPri, hd⟩ (by
    intro x hx
    rw [List.mem_cons] at hx
    rcases hx with rfl | hx
    · exact ⟨show idPri ≠ idEnd by decide, hhd'⟩
    · exact h x hx) hfuel]
  have : runChunks alt rnd { disk := d } ((⟨idPri, hd⟩ : Chunk) :: cs) = runChunks alt rnd { disk := d } cs := rfl
  rw [this]
  rcases runChunks alt rnd { disk := d } cs with e | st
  · rfl
  · rfl

/-- A disk whose tracks all fit the format, each at its place. -/
structure PriDisk (d : Disk) : Prop where
  inPlace : InPlace d
  res : d.res = { bit := true }
  fits : ∀ h c x, h < 2 → at? d h c = some x → PriTrack x
  some : 0 < (d.headMap 0).length ∨ 0 < (d.headMap 1).length
  small : (d.headMap 0).length < 65536 ∧ (d.headMap 1).length < 65536

theorem pri_load {d : Disk} (hd : PriDisk d) (rate : DiskTrack → BitVec 32) (comment : Option (List Byte))
    (hc : ∀ t, comment = Option.some t → t.length ≤ 1000) (alt : BitVec 32 → BitVec 32 → BitVec 32) (rnd : Nat → Bool) :
    ∃ bs d' rs, Pri.save rate comment d = .ok bs ∧ Pri.load alt rnd {} bs = .ok (d', rs) ∧
      Bounded d' ∧ (∀ h, h < 2 → side d' h = (side d h).map (priConv rnd)) ∧
      (∀ h, h < 2 → (d'.headMap h).length = (d.headMap h).length) ∧ (d'.map0 ++ d'.map1).Nodup ∧
      d'.res = { bit := true } ∧ d'.geometry = ⟨max (d.headMap 0).length (d.headMap 1).length,
        (if 0 < (d.headMap 0).length then 1 else 0) + (if 0 < (d.headMap 1).length then 1 else 0)⟩ ∧
      rs = List.replicate ((d.headMap 0).length + (d.headMap 1).length) 0#32 := by
  have e0 : d.headMap 0 = d.map0 := rfl
  have e1 : d.headMap 1 = d.map1 := rfl
  have hmem : ∀ x ∈ d.trackList, ∃ h c, h < 2 ∧ at? d h c = Option.some x := by
    intro x hx
    rw [trackList_from] at hx
    exact mem_tracksFrom d x _ _ hx
  have hfit : ∀ x ∈ d.trackList, PriTrack x := fun x hx => by
    obtain ⟨h, c, hh, hat⟩ := hmem x hx
    exact hd.fits h c x hh hat
  have hplaced : PlacedFrom 0 0 d.trackList := by
    have := tracksFrom_placed hd.inPlace (max d.map0.length d.map1.length) 0
    rw [trackList_from]; simpa using this
  have hfilter : ∀ h, h < 2 → (d.trackList.filter fun x => x.ch.h = h) = side d h := by
    intro h hh
    rw [trackList_from, tracksFrom_filter hd.inPlace hh _ _ (by
      rcases (by omega : h = 0 ∨ h = 1) with rfl | rfl
      · rw [e0]; omega
      · rw [e1]; omega), List.drop_zero]
  have hside : ∀ h, h < 2 → (side d h).length = (d.headMap h).length := by
    intro h hh
    unfold side
    have hb := hd.inPlace.bounded h hh
    generalize d.headMap h = l at hb
    induction l with
    | nil => rfl
    | cons i l ih =>
      rw [List.filterMap_cons, List.getElem?_eq_getElem (hb i (by simp))]
      simp only [List.length_cons]
      rw [ih fun j hj => hb j (by simp [hj])]
  have hh2 : ∀ x ∈ d.trackList, x.ch.h < 2 := by
    intro x hx
    obtain ⟨ch, t, rfl, _, hh, _⟩ := hfit x hx
    exact hh
  have hcount : d.trackList.length = (d.headMap 0).length + (d.headMap 1).length := by
    rw [← hside 0 (by omega), ← hside 1 (by omega), ← hfilter 0 (by omega), ← hfilter 1 (by omega)]
    have : ∀ l : List DiskTrack, (∀ x ∈ l, x.ch.h < 2) → l.length =
        (l.filter fun x => x.ch.h = 0).length + (l.filter fun x => x.ch.h = 1).length := by
      intro l
      induction l with
      | nil => simp
      | cons x l ih =>
        intro hl
        have hx := hl x (by simp)
        have := ih fun y hy => hl y (by simp [hy])
        rw [List.filter_cons, List.filter_cons]
        rcases (by omega : x.ch.h = 0 ∨ x.ch.h = 1) with e | e <;> simp [e] <;> omega
    exact this _ hh2
  have hne : d.trackList ≠ [] := by
    intro h
    rw [h] at hcount
    have := hd.some
    simp at hcount
    omega
  obtain ⟨cs, st', r1, r2, r3, r4, r5, r6, r7, r8⟩ := run_tracks alt rnd rate d.trackList
    { disk := {} } hfit (Or.inl rfl) hplaced
  obtain ⟨rt, hrt⟩ := r8 hne
  obtain ⟨l1, l2, l3, l4⟩ := loaded_spec rnd d.trackList {} (by
    intro h hh i hi; unfold Disk.headMap at hi; split at hi <;> simp at hi) hh2
  obtain ⟨q1, q2, q3⟩ := loaded_res rnd d.trackList {} (Or.inl rfl)
  have hcyl : st'.cyls = List.range (max d.map0.length d.map1.length) := by
    have := tracksFrom_cyls hd.inPlace (max d.map0.length d.map1.length) 0 (by omega)
    rw [r5, trackList_from]
    simpa using this
  have hmemh : ∀ h, h < 2 → (h ∈ d.trackList.map (fun x => x.ch.h) ↔ 0 < (d.headMap h).length) := by
    intro h hh
    rw [← hside h hh, ← hfilter h hh, List.length_pos_iff_exists_mem]
    constructor
    · intro hm
      obtain ⟨x, hx, hxe⟩ := List.mem_map.1 hm
      exact ⟨x, List.mem_filter.2 ⟨hx, by simpa using hxe⟩⟩
    · rintro ⟨x, hx⟩
      obtain ⟨a, b⟩ := List.mem_filter.1 hx
      exact List.mem_map.2 ⟨x, a, by simpa using b⟩
  have hheads : st'.heads.length = (if 0 < (d.headMap 0).length then 1 else 0) + (if 0 < (d.headMap 1).length then 1 else 0) := by
    rw [r6]
    refine (heads_length _ (by
      intro x hx
      obtain ⟨y, hy, rfl⟩ := List.mem_map.1 hx
      exact hh2 y hy)).trans ?_
    congr 1
    · simp only [hmemh 0 (by omega)]
    · simp only [hmemh 1 (by omega)]
  have hrun : ∀ text : List Chunk, (∀ c ∈ text, c.id = idText) →
      runChunks alt rnd { disk := {} } (text ++ cs) = .ok st' := by
    intro text ht
    rw [← r3]
    apply runChunks_append
    induction text with
    | nil => rfl
    | cons c text ih =>
      unfold runChunks
      have hid := ht c (by simp)
      have : Pri.step alt rnd { disk := {} } c = .ok { disk := {} } := by
        unfold Pri.step
        rw [if_neg (by rw [hid]; decide), if_neg (by rw [hid]; decide), if_neg (by rw [hid]; decide),
          if_neg (by rw [hid]; decide)]
      rw [this]
      exact ih fun y hy => ht y (by simp [hy])
  have hgeo : (⟨st'.cyls.length % 65536, st'.heads.length % 256⟩ : Ch) =
      ⟨max (d.headMap 0).length (d.headMap 1).length,
        (if 0 < (d.headMap 0).length then 1 else 0) + (if 0 < (d.headMap 1).length then 1 else 0)⟩ := by
    have := hd.small
    rw [hcyl, List.length_range, hheads, ← e0, ← e1]
    congr 1
    · omega
    · rw [Nat.mod_eq_of_lt]
      split <;> split <;> omega
  have hfin : ∀ text : List Chunk, (∀ c ∈ text, c.id = idText ∧ c.data.length ≤ 1000) →
      Pri.load alt rnd {} (((⟨idPri, [0#8, 0#8, 0#8, 0#8]⟩ : Chunk) :: (text ++ cs)).flatMap writeChunk ++ footer) =
        .ok ({ st'.disk with geometry := ⟨st'.cyls.length % 65536, st'.heads.length % 256⟩ }, st'.rates) := by
    intro text ht
    have hmx : maxChunk = 1048576 := rfl
    rw [load_chunks alt rnd {} _ (by simp) (by simp only [List.length_cons, List.length_nil]; omega) _ (by
      intro c hcm
      rw [List.mem_append] at hcm
      rcases hcm with h | h
      · obtain ⟨a, b⟩ := ht c h
        exact ⟨by rw [a]; decide, by omega⟩
      · exact r2 c h), hrun text (fun c hcm => (ht c hcm).1)]
    simp only
    rw [hrt]
  have hsave : ∃ bs text, Pri.save rate comment d = .ok bs ∧ (∀ c ∈ text, c.id = idText ∧ c.data.length ≤ 1000) ∧
      bs = (((⟨idPri, [0#8, 0#8, 0#8, 0#8]⟩ : Chunk) :: (text ++ cs)).flatMap writeChunk ++ footer) := by
    unfold Pri.save
    rw [if_neg (by rw [hd.res]; simp)]
    cases comment with
    | none =>
      refine ⟨_, [], ?_, by simp, rfl⟩
      simp only [Pri.saveChunks, r1]
    | some t =>
      have := hc t rfl
      refine ⟨_, [⟨idText, t⟩], ?_, ?_, rfl⟩
      · simp only [Pri.saveChunks, r1]
        rw [if_neg (by omega)]
      · intro c hcm
        simp only [List.mem_cons, List.not_mem_nil, or_false] at hcm
        subst hcm
        exact ⟨rfl, this⟩
  obtain ⟨bs, text, s1, s2, s3⟩ := hsave
  refine ⟨bs, _, _, s1, by rw [s3]; exact hfin text s2, ?_, ?_, ?_, ?_, ?_, hgeo, ?_⟩
  · rw [r4]; exact l1
  · intro h hh
    have := l2 h hh
    rw [hfilter h hh] at this
    rw [r4]
    refine Eq.trans (show _ = side (loaded rnd {} d.trackList) h from rfl) (this.trans ?_)
    have : side ({} : Disk) h = [] := by unfold side Disk.headMap; split <;> rfl
    rw [this]; rfl
  · intro h hh
    have := l3 h hh
    rw [hfilter h hh, hside h hh] at this
    rw [r4]
    refine Eq.trans (show _ = ((loaded rnd {} d.trackList).headMap h).length from rfl) (this.trans ?_)
    have : (({} : Disk).headMap h) = [] := by unfold Disk.headMap; split <;> rfl
    rw [this]; simp
  · rw [r4]
    refine (l4.nodup_iff).2 ?_
    simpa using List.nodup_range'
  · rw [r4]; exact q3 hne
  · rw [r7, hcount]; rfl

end Fox
