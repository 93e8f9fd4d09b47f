import Verif.Model.F86
import Verif.Proofs.PriRound
/-
Lemmas for C52: 86F files.
-/
namespace Fox
open Spec S34

theorem le4_value {n : Nat} (h : n < 2 ^ 32) :
    F86.ofLe4 (BitVec.ofNat 8 n) (BitVec.ofNat 8 (n / 256)) (BitVec.ofNat 8 (n / 65536)) (BitVec.ofNat 8 (n / 16777216)) = n := by
  unfold F86.ofLe4
  simp only [BitVec.toNat_ofNat]
  omega

theorem orBytes_length : ∀ a b : List Byte, (F86.orBytes a b).length = a.length
  | [], _ => by simp [F86.orBytes]
  | a :: as, [] => by simp [F86.orBytes]
  | a :: as, b :: bs => by simp [F86.orBytes, orBytes_length as bs]

theorem clearBytes_length : ∀ a b : List Byte, (F86.clearBytes a b).length = a.length
  | [], _ => by simp [F86.clearBytes]
  | a :: as, [] => by simp [F86.clearBytes]
  | a :: as, b :: bs => by simp [F86.clearBytes, clearBytes_length as bs]

theorem dat_cons (x : Byte) (l : List Byte) (j : Nat) : dat (x :: l) j = if j < 8 then x.getMsbD j else dat l (j - 8) := by
  unfold dat
  by_cases h : j < 8
  · rw [if_pos h, show j / 8 = 0 by omega, show j % 8 = j by omega]; rfl
  · rw [if_neg h, show j / 8 = (j - 8) / 8 + 1 by omega, show j % 8 = (j - 8) % 8 by omega]; rfl

theorem dat_nil (j : Nat) : dat [] j = false := by
  unfold dat; simp

theorem orBytes_dat : ∀ (a b : List Byte) (j : Nat), b.length = a.length →
    dat (F86.orBytes a b) j = (dat a j || dat b j)
  | [], b, j, h => by
    have : b = [] := List.length_eq_zero_iff.1 (by simpa using h)
    subst this
    simp [F86.orBytes, dat_nil]
  | a :: as, [], j, h => by simp at h
  | a :: as, b :: bs, j, h => by
    rw [F86.orBytes, dat_cons, dat_cons, dat_cons]
    split
    · rw [BitVec.getMsbD_or]
    · exact orBytes_dat as bs _ (by simpa using h)

theorem getMsbD_not8 (b : Byte) {j : Nat} (h : j < 8) : (~~~b).getMsbD j = !b.getMsbD j := by
  rw [BitVec.getMsbD_not]; simp [h]

theorem clearBytes_dat : ∀ (a b : List Byte) (j : Nat), b.length = a.length →
    dat (F86.clearBytes a b) j = (dat a j && !dat b j)
  | [], b, j, h => by
    have : b = [] := List.length_eq_zero_iff.1 (by simpa using h)
    subst this
    simp [F86.clearBytes, dat_nil]
  | a :: as, [], j, h => by simp at h
  | a :: as, b :: bs, j, h => by
    rw [F86.clearBytes, dat_cons, dat_cons, dat_cons]
    split
    · rename_i hj
      rw [BitVec.getMsbD_and, getMsbD_not8 b hj]
    · exact clearBytes_dat as bs _ (by simpa using h)

theorem zipAnd_dat : ∀ (a b : List Byte) (j : Nat), b.length = a.length →
    dat (List.zipWith (· &&& ·) a b) j = (dat a j && dat b j)
  | [], b, j, h => by simp [dat_nil]
  | a :: as, [], j, h => by simp at h
  | a :: as, b :: bs, j, h => by
    rw [List.zipWith_cons_cons, dat_cons, dat_cons, dat_cons]
    split
    · rw [BitVec.getMsbD_and]
    · exact zipAnd_dat as bs _ (by simpa using h)

theorem dat_append_left {a b : List Byte} {j : Nat} (h : j < 8 * a.length) : dat (a ++ b) j = dat a j := by
  unfold dat
  rw [getD_append_left _ _ _ _ (by omega)]

theorem dat_packed (L : List Bool) (j : Nat) (hj : j < 8 * ((L.length + 7) / 8)) :
    dat (DiskTrack.packed L) j = L.getD j false := by
  unfold dat DiskTrack.packed
  rw [getD_map_range _ _ _ _ (by omega), byteOfBits_getMsbD _ _ (by omega)]
  congr 1
  omega

/-- The stream made of given bytes and a weak mask. -/
theorem new_stream86 (data : List Byte) (n : Nat) (hn : data.length = (n + 7) / 8) (weak : Option (List Byte))
    (hw : ∀ w, weak = some w → w.length = data.length) :
    ∃ s, Mfm.new (if data = [] then (List.range n).map (fun i => i % 2 == 0) else bitsOf data) (some n)
        (weak.map bitsOf) = .ok s ∧ s.bits = BitRing.ofBits ((bitsOf data).take n) ∧
      s.clockMap.bits.length = n ∧
      s.weakMask = BitRing.ofBits (match weak with | some w => bitsOf w | none => List.replicate n false) := by
  have e : (if data = [] then (List.range n).map (fun i => i % 2 == 0) else bitsOf data).take n = (bitsOf data).take n := by
    by_cases h : data = []
    · have h0 : n = 0 := by rw [h, List.length_nil] at hn; omega
      subst h0
      simp
    · rw [if_neg h]
  have hl : ((bitsOf data).take n).length = n := by
    rw [List.length_take, bitsOf_length]; omega
  generalize (if data = [] then (List.range n).map (fun i => i % 2 == 0) else bitsOf data) = X at e
  unfold Mfm.new
  simp only [e, hl]
  cases weak with
  | none =>
    simp only [Option.map_none, Option.getD_none, List.length_replicate, Nat.lt_irrefl, if_false]
    exact ⟨_, rfl, rfl, by simp [BitRing.ofBits], rfl⟩
  | some w =>
    have := hw w rfl
    simp only [Option.map_some, Option.getD_some, bitsOf_length]
    rw [if_neg (by omega)]
    exact ⟨_, rfl, rfl, by simp [BitRing.ofBits], rfl⟩

/-- Any cells and weak mask make a track with just these. -/
theorem ofStream_cells (rnd : Nat → Bool) (data : List Byte) (n : Nat) (hn : data.length = (n + 7) / 8)
    (weak : Option (List Byte)) (hw : ∀ w, weak = some w → w.length = data.length) :
    ∃ t, Track.ofStream rnd data n weak = .ok t ∧ t.data.bits = BitRing.ofBits ((bitsOf data).take n) ∧
      t.data.weakMask = BitRing.ofBits (match weak with | some w => bitsOf w | none => List.replicate n false) := by
  obtain ⟨s, h1, h2, h3, h6⟩ := new_stream86 data n hn weak hw
  have hlen : s.len = n := by
    unfold Mfm.len
    rw [h2]
    show ((bitsOf data).take n).length = n
    rw [List.length_take, bitsOf_length]; omega
  have hg : (weak.map List.length).getD data.length = data.length := by
    cases weak with
    | none => rfl
    | some w => exact hw w rfl
  unfold Track.ofStream
  rw [if_neg (by rw [hg]; simp)]
  simp only
  rw [h1]
  simp only
  by_cases hm : scanMarkers s ≠ []
  · rw [if_pos hm]
    have hb := markers_bound s
    have hne : s.clockMap.bits ≠ [] := by
      intro h0
      rcases hx : scanMarkers s with _ | ⟨x, xs⟩
      · exact hm hx
      · have := hb x (by rw [hx]; simp)
        rw [hlen, ← h3, h0] at this
        simp at this
    obtain ⟨cm, h7, h8⟩ := createClockMap_total ((scanMarkers s).map (·.start)) s.clockMap.bits hne
      (List.pairwise_map.2 (scanMarkers_sorted s)) (by
        intro x hx
        obtain ⟨y, hy, rfl⟩ := List.mem_map.1 hx
        rw [h3, ← hlen]; exact hb y hy)
    rw [h7]
    obtain ⟨c, h9⟩ := scanMetadata_cursor { s with clockMap := { s.clockMap with bits := cm } } rnd (scanMarkers s)
    exact ⟨_, rfl, by simp only [h9]; exact h2, by simp only [h9]; exact h6⟩
  · rw [if_neg hm]
    obtain ⟨ha, hb⟩ := amiga_markers s
    by_cases hm2 : Amiga.scanMarkers s ≠ []
    · rw [if_pos hm2]
      have hne : s.clockMap.bits ≠ [] := by
        intro h0
        rcases hx : Amiga.scanMarkers s with _ | ⟨x, xs⟩
        · exact hm2 hx
        · have := hb x (by rw [hx]; simp)
          rw [hlen, ← h3, h0] at this
          simp at this
      obtain ⟨cm, h7, h8⟩ := createClockMap_total (Amiga.scanMarkers s) s.clockMap.bits hne ha (by
        intro x hx; rw [h3, ← hlen]; exact hb x hx)
      rw [h7]
      exact ⟨_, rfl, h2, h6⟩
    · rw [if_neg hm2]
      exact ⟨_, rfl, h2, h6⟩

theorem ofStream_none (rnd : Nat → Bool) (data : List Byte) (n : Nat) :
    Track.ofStream rnd data n none = Track.ofData rnd data n := by
  unfold Track.ofStream Track.ofData
  rw [if_neg (by simp)]
  rfl

/-! ### A track entry -/

/-- The padding of a track entry. -/
def pad86 (t : Track) : List Byte := if (DiskTrack.packed t.data.bits.bits).length % 2 ≠ 0 then [0#8] else []

/-- The mask written. -/
def weak86 (t : Track) : List Byte := DiskTrack.packed t.data.weakMask.bits ++ pad86 t

/-- The cells written. -/
def data86 (m : F86.Meta) (src : Ch) (t : Track) : List Byte :=
  if m.prolok = true ∧ src.c = 39 ∧ src.h = 0 then
    F86.clearBytes (DiskTrack.packed t.data.bits.bits ++ pad86 t) (weak86 t)
  else F86.orBytes (DiskTrack.packed t.data.bits.bits ++ pad86 t) (weak86 t)

/-- A track entry with its mask. -/
def rec86 (m : F86.Meta) (tf : Nat) (e : Ch × Track) : List Byte :=
  F86.le2 tf ++ F86.le4 e.2.data.len ++ F86.le4 0 ++ data86 m e.1 e.2 ++ weak86 e.2

/-- What the format can hold of a track. -/
structure Fit86 (t : Track) : Prop where
  cells : t.data.bits.bits.length ≤ 8388608
  mask : (t.data.weakMask.bits.length + 7) / 8 = (t.data.bits.bits.length + 7) / 8

theorem Fit86.weak_length {t : Track} (h : Fit86 t) :
    (weak86 t).length = (DiskTrack.packed t.data.bits.bits ++ pad86 t).length := by
  unfold weak86
  rw [List.length_append, List.length_append, packed_length, packed_length, h.mask]

theorem data86_length (m : F86.Meta) (src : Ch) (t : Track) :
    (data86 m src t).length = (DiskTrack.packed t.data.bits.bits ++ pad86 t).length := by
  unfold data86
  split
  · rw [clearBytes_length]
  · rw [orBytes_length]

theorem pad86_length (t : Track) : (pad86 t).length = (t.data.bits.bits.length + 7) / 8 % 2 := by
  unfold pad86
  rw [packed_length]
  split
  · rename_i h
    have := Nat.mod_two_eq_zero_or_one ((t.data.bits.bits.length + 7) / 8)
    simp only [List.length_cons, List.length_nil]; omega
  · rename_i h
    simp only [List.length_nil]; omega

theorem rec86_length (m : F86.Meta) (tf : Nat) {e : Ch × Track} (h : Fit86 e.2) :
    (rec86 m tf e).length = 10 + 2 * (((e.2.data.bits.bits.length + 7) / 8) + ((e.2.data.bits.bits.length + 7) / 8) % 2) := by
  unfold rec86
  simp only [List.length_append, data86_length, h.weak_length, packed_length, pad86_length, F86.le2, F86.le4,
    List.length_cons, List.length_nil]
  omega

theorem trackBytes_rec (m : F86.Meta) (tf : Nat) (src ch : Ch) {t : Track} (h : Fit86 t) :
    F86.trackBytes m true tf src.c src.h (.bit ch t) = .ok (rec86 m tf (src, t)) := by
  unfold F86.trackBytes
  simp only
  rw [if_neg (by rw [packed_length, packed_length, h.mask]; simp)]
  rfl

/-- What is read back as the weak mask. -/
def mask86 (m : F86.Meta) (src : Ch) (t : Track) : List Byte :=
  let L := (t.data.bits.bits.length + 7) / 8
  List.zipWith (· &&& ·) ((((data86 m src t) ++ weak86 t).drop L).take L) ((data86 m src t).take L)

/-- What a track entry is loaded as. -/
def load86 (m : F86.Meta) (rnd : Nat → Bool) (src : Ch) (t : Track) : Except Err Track :=
  Track.ofStream rnd ((data86 m src t).take ((t.data.bits.bits.length + 7) / 8)) t.data.bits.bits.length
    (if (mask86 m src t).any (· ≠ 0#8) then some (mask86 m src t) else none)

theorem mask86_length {m : F86.Meta} {src : Ch} {t : Track} (h : Fit86 t) :
    (mask86 m src t).length = (t.data.bits.bits.length + 7) / 8 := by
  unfold mask86
  simp only [List.length_zipWith, List.length_take, List.length_drop, List.length_append, data86_length,
    h.weak_length, packed_length, pad86_length]
  omega

theorem take86_length (m : F86.Meta) (src : Ch) (t : Track) :
    ((data86 m src t).take ((t.data.bits.bits.length + 7) / 8)).length = (t.data.bits.bits.length + 7) / 8 := by
  rw [List.length_take, data86_length, List.length_append, packed_length]; omega

theorem load86_ok {m : F86.Meta} {src : Ch} {t : Track} (h : Fit86 t) (rnd : Nat → Bool) :
    ∃ t', load86 m rnd src t = .ok t' ∧
      t'.data.bits.bits = (bitsOf ((data86 m src t).take ((t.data.bits.bits.length + 7) / 8))).take t.data.bits.bits.length ∧
      t'.data.weakMask.bits = if (mask86 m src t).any (· ≠ 0#8) then bitsOf (mask86 m src t)
        else List.replicate t.data.bits.bits.length false := by
  unfold load86
  have := take86_length m src t
  have hw := mask86_length (m := m) (src := src) h
  split
  · obtain ⟨t', a, b, c⟩ := ofStream_cells rnd _ t.data.bits.bits.length this (some (mask86 m src t)) (by
      intro w e; cases e; rw [hw, this])
    exact ⟨t', a, by rw [b]; rfl, by rw [c]; rfl⟩
  · obtain ⟨t', a, b, c⟩ := ofStream_cells rnd _ t.data.bits.bits.length this none (by intro w e; cases e)
    exact ⟨t', a, by rw [b]; rfl, by rw [c]; rfl⟩

/-- The cells read back. -/
theorem cells86 (m : F86.Meta) (src : Ch) {t : Track} (h : Fit86 t) (i : Nat) (hi : i < t.data.bits.bits.length) :
    ((bitsOf ((data86 m src t).take ((t.data.bits.bits.length + 7) / 8))).take t.data.bits.bits.length).getD i false =
      if m.prolok = true ∧ src.c = 39 ∧ src.h = 0 then
        (t.data.bits.bits.getD i false && !t.data.weakMask.bits.getD i false)
      else (t.data.bits.bits.getD i false || t.data.weakMask.bits.getD i false) := by
  have e1 : ((bitsOf ((data86 m src t).take ((t.data.bits.bits.length + 7) / 8))).take t.data.bits.bits.length).getD i false =
      dat ((data86 m src t).take ((t.data.bits.bits.length + 7) / 8)) i := by
    rw [← bitsOf_getD, List.getD_eq_getElem?_getD, List.getD_eq_getElem?_getD, List.getElem?_take, if_pos hi]
  have e2 : dat ((data86 m src t).take ((t.data.bits.bits.length + 7) / 8)) i = dat (data86 m src t) i := by
    have hlt : i < 8 * ((data86 m src t).take ((t.data.bits.bits.length + 7) / 8)).length := by
      rw [take86_length]; omega
    conv => rhs; rw [← List.take_append_drop ((t.data.bits.bits.length + 7) / 8) (data86 m src t)]
    rw [dat_append_left hlt]
  have e3 : dat (DiskTrack.packed t.data.bits.bits ++ pad86 t) i = t.data.bits.bits.getD i false := by
    rw [dat_append_left (by rw [packed_length]; omega), dat_packed _ _ (by omega)]
  have e4 : dat (weak86 t) i = t.data.weakMask.bits.getD i false := by
    unfold weak86
    rw [dat_append_left (by rw [packed_length, h.mask]; omega), dat_packed _ _ (by rw [h.mask]; omega)]
  rw [e1, e2]
  unfold data86
  split
  · rw [clearBytes_dat _ _ _ h.weak_length, e3, e4]
  · rw [orBytes_dat _ _ _ h.weak_length, e3, e4]

/-- The mask read back. -/
theorem weakBit86 (m : F86.Meta) (src : Ch) {t : Track} (h : Fit86 t) (i : Nat) (hi : i < t.data.bits.bits.length) :
    (bitsOf (mask86 m src t)).getD i false =
      ((if (t.data.bits.bits.length + 7) / 8 % 2 = 0 then t.data.weakMask.bits.getD i false
        else (decide (8 ≤ i) && t.data.weakMask.bits.getD (i - 8) false)) &&
      ((bitsOf ((data86 m src t).take ((t.data.bits.bits.length + 7) / 8))).take t.data.bits.bits.length).getD i false) := by
  generalize hL : (t.data.bits.bits.length + 7) / 8 = L
  have hl := take86_length m src t
  have hdl := data86_length m src t
  rw [List.length_append, packed_length, pad86_length] at hdl
  have hwl := h.weak_length
  rw [List.length_append, packed_length, pad86_length] at hwl
  rw [hL] at hl hdl hwl
  have e1 : ((bitsOf ((data86 m src t).take L)).take t.data.bits.bits.length).getD i false =
      dat ((data86 m src t).take L) i := by
    rw [← bitsOf_getD, List.getD_eq_getElem?_getD, List.getD_eq_getElem?_getD, List.getElem?_take, if_pos hi]
  rw [e1, bitsOf_getD]
  unfold mask86
  simp only [hL]
  rw [zipAnd_dat _ _ _ (by
    rw [hl, List.length_take, List.length_drop, List.length_append, hdl, hwl]; omega)]
  congr 1
  have hw : ∀ j, j < 8 * L → dat (weak86 t) j = t.data.weakMask.bits.getD j false := by
    intro j hj
    unfold weak86
    rw [dat_append_left (by rw [packed_length, h.mask]; omega), dat_packed _ _ (by rw [h.mask]; omega)]
  have htake : ∀ (l : List Byte) (j : Nat), L ≤ l.length → j < 8 * L → dat (l.take L) j = dat l j := by
    intro l j hl hj
    conv => rhs; rw [← List.take_append_drop L l]
    rw [dat_append_left (by rw [List.length_take]; omega)]
  by_cases hp : L % 2 = 0
  · rw [if_pos hp, List.drop_append, List.drop_of_length_le (by omega), List.nil_append, hdl, hp]
    simp only [Nat.add_zero, Nat.sub_self, List.drop_zero]
    rw [htake _ _ (by omega) (by omega), hw _ (by omega)]
  · rw [if_neg hp]
    have hp' : L % 2 = 1 := by omega
    have hlast : ∃ x, (data86 m src t).drop L = [x] ∧ x = 0#8 := by
      have hx : ((data86 m src t).drop L).length = 1 := by rw [List.length_drop, hdl]; omega
      obtain ⟨x, hx⟩ := List.length_eq_one_iff.1 hx
      refine ⟨x, hx, ?_⟩
      have hd : ∀ j, j < 8 → dat (data86 m src t) (8 * L + j) = x.getMsbD j := by
        intro j hj
        have : dat (data86 m src t) (8 * L + j) = dat ((data86 m src t).drop L) j := by
          unfold dat
          rw [List.getD_eq_getElem?_getD, List.getD_eq_getElem?_getD, List.getElem?_drop]
          rw [show (8 * L + j) / 8 = L + j / 8 by omega, show (8 * L + j) % 8 = j % 8 by omega]
        rw [this, hx, dat_cons, if_pos hj]
      have hz : ∀ j, j < 8 → dat (data86 m src t) (8 * L + j) = false := by
        intro j hj
        have hpad : pad86 t = [0#8] := by
          unfold pad86; rw [packed_length, hL, if_pos (by omega)]
        have hz1 : ∀ l : List Byte, l.length = L → dat (l ++ [0#8]) (8 * L + j) = false := by
          intro l hl
          unfold dat
          rw [getD_append_right _ _ _ _ (by omega), hl, show (8 * L + j) / 8 - L = 0 by omega]
          simp
        have hw1 : dat (weak86 t) (8 * L + j) = false := by
          unfold weak86
          rw [hpad, hz1 _ (by rw [packed_length, h.mask]; omega)]
        have hd1 : dat (DiskTrack.packed t.data.bits.bits ++ pad86 t) (8 * L + j) = false := by
          rw [hpad, hz1 _ (by rw [packed_length]; omega)]
        unfold data86
        split
        · rw [clearBytes_dat _ _ _ h.weak_length, hd1]; rfl
        · rw [orBytes_dat _ _ _ h.weak_length, hd1, hw1]; rfl
      apply BitVec.eq_of_getMsbD_eq
      intro j hj
      rw [← hd j hj, hz j hj]
      simp
    obtain ⟨x, hx, rfl⟩ := hlast
    have : ((data86 m src t ++ weak86 t).drop L) = 0#8 :: weak86 t := by
      rw [List.drop_append, hx, hdl, show L - (L + L % 2) = 0 by omega]; rfl
    rw [this, htake _ _ (by simp only [List.length_cons]; omega) (by omega), dat_cons]
    by_cases h8 : i < 8
    · rw [if_pos h8, decide_eq_false (by omega)]; simp
    · rw [if_neg h8, decide_eq_true (by omega), hw _ (by omega), Bool.true_and]

/-! ### The loader on a track entry -/

/-- The disk flags of a two-sided file with masks. -/
structure Flags86 (F : Nat) : Prop where
  surface : F % 2 = 1
  extra : F / 128 % 2 = 1
  shift : F / 32 % 4 = 0
  speed : F / 4096 % 2 = 1
  sides : F / 8 % 2 = 1

/-- The track flags of a file. -/
structure TFlags86 (tf : Nat) (rpm : F86.Rpm) : Prop where
  small : tf < 65536
  rpm : F86.trackRpm tf = some rpm
  enc : F86.trackEnc tf = some .mfm
  rate : ∃ r, F86.trackRate tf = some r

theorem step86 {F : Nat} (hF : Flags86 F) {tf : Nat} {rpm : F86.Rpm} (hT : TFlags86 tf rpm) (m : F86.Meta)
    (debug : Bool) (bitLen : Encoding → F86.Rate → F86.Rpm → Nat × Bool → Int → Nat) (rnd : Nat → Bool)
    (bs : List Byte) (st : F86.State) (hrpm : st.rpm = none ∨ st.rpm = some rpm)
    (hres : st.disk.res = {} ∨ st.disk.res = { bit := true }) (hh : st.head < 2)
    (e : Ch × Track) (hfit : Fit86 e.2) (off : Nat) (rest : List Byte) (hoff : bs.drop off = rec86 m tf e ++ rest)
    {t' : Track} (ht : load86 m rnd e.1 e.2 = .ok t') :
    F86.step debug bitLen rnd F bs st (off, (rec86 m tf e).length) = .ok
      { disk := withTrack st.disk st.head (.bit ⟨st.cyl, st.head⟩ t'), rpm := some rpm,
        head := if st.head = 1 then 0 else st.head + 1, cyl := if st.head = 1 then (st.cyl + 1) % 65536 else st.cyl } := by
  have hrl := rec86_length m tf hfit
  have hcl := hfit.cells
  unfold F86.step
  simp only [hoff]
  have hbody : rec86 m tf e ++ rest = BitVec.ofNat 8 tf :: BitVec.ofNat 8 (tf / 256) ::
      (BitVec.ofNat 8 e.2.data.len) :: (BitVec.ofNat 8 (e.2.data.len / 256)) ::
      (BitVec.ofNat 8 (e.2.data.len / 65536)) :: (BitVec.ofNat 8 (e.2.data.len / 16777216)) ::
      0#8 :: 0#8 :: 0#8 :: 0#8 :: (data86 m e.1 e.2 ++ weak86 e.2 ++ rest) := by
    unfold rec86 F86.le2 F86.le4
    simp
  rw [hbody]
  have hlen : e.2.data.len = e.2.data.bits.bits.length := rfl
  simp only [hF.extra, if_true, le4_value (show e.2.data.len < 2 ^ 32 by omega)]
  have htf : (BitVec.ofNat 8 tf).toNat + 256 * (BitVec.ofNat 8 (tf / 256)).toNat = tf := by
    have := hT.small
    rw [BitVec.toNat_ofNat, BitVec.toNat_ofNat]; omega
  obtain ⟨rt, hrt⟩ := hT.rate
  simp only [htf, hT.rpm, hT.enc, hrt]
  rw [if_neg (by rcases hrpm with h | h <;> rw [h] <;> simp)]
  have hsub : F86.subU debug 64 (rec86 m tf e).length 10 = .ok ((rec86 m tf e).length - 10) := by
    unfold F86.subU; rw [if_pos (by omega)]
  simp only [hsub]
  generalize hL : (e.2.data.bits.bits.length + 7) / 8 = L at hrl
  rw [if_neg (show ¬((rec86 m tf e).length - 10) % 2 ≠ 0 by omega)]
  have hshift : F86.timeShift F = (0, false) := by unfold F86.timeShift; rw [if_pos hF.shift]
  have hneed : F86.toUsize ((e.2.data.len : Int).tdiv 8 + if (e.2.data.len : Int).tmod 8 ≠ 0 then 1 else 0) = L := by
    have e1 : (e.2.data.len : Int).tdiv 8 = ((e.2.data.len / 8 : Nat) : Int) := rfl
    have e2 : (e.2.data.len : Int).tmod 8 = ((e.2.data.len % 8 : Nat) : Int) := rfl
    rw [e1, e2]
    unfold F86.toUsize
    by_cases hz : e.2.data.len % 8 = 0
    · rw [hz, if_neg (by simp)]; omega
    · rw [if_pos (by omega)]; omega
  have hI : F86.toI32 e.2.data.len = (e.2.data.len : Int) := by
    unfold F86.toI32; rw [if_pos (by omega)]
  have htl : F86.trackLength bitLen (0, false) true (some (F86.toI32 e.2.data.len)) .mfm rt rpm
      (((rec86 m tf e).length - 10) / 2) = .ok (L, e.2.data.bits.bits.length) := by
    unfold F86.trackLength
    simp only [if_true, Option.getD_some, hI, hneed]
    rw [if_neg (by omega)]
    congr 2
    unfold F86.toUsize
    rw [hlen]; omega
  have habs : decide ((0, false) = ((0, false) : Nat × Bool) ∧ F / 4096 % 2 = 1 ∧ True) = true := by
    simp [hF.speed]
  simp only [hshift, hF.surface, if_true, hF.speed, and_self, decide_true, htl]
  have hdl := data86_length m e.1 e.2
  have hwl := hfit.weak_length
  rw [List.length_append, packed_length, pad86_length, hL] at hdl hwl
  rw [if_neg (by omega), if_neg (by
    rw [List.length_append, List.length_append, hdl, hwl]; omega)]
  have hdata : (data86 m e.1 e.2 ++ weak86 e.2 ++ rest).take L = (data86 m e.1 e.2).take L := by
    rw [List.append_assoc, List.take_append_of_le_length (by omega)]
  have hmask : List.zipWith (· &&& ·) (((data86 m e.1 e.2 ++ weak86 e.2 ++ rest).drop L).take L)
      ((data86 m e.1 e.2).take L) = mask86 m e.1 e.2 := by
    unfold mask86
    simp only [hL]
    congr 1
    rw [List.drop_append_of_le_length (by rw [List.length_append]; omega), List.take_append_of_le_length (by
      rw [List.length_drop, List.length_append]; omega)]
  rw [hdata, hmask]
  have hrej : st.disk.rejects .bitStream = false := by
    unfold Disk.rejects
    rcases hres with h | h <;> rw [h] <;> cases st.disk.multires <;> rfl
  have hadd : F86.addTrack rnd st.disk ⟨st.cyl, st.head⟩ .mfm ((data86 m e.1 e.2).take L) e.2.data.bits.bits.length
      (if (mask86 m e.1 e.2).any (· ≠ 0#8) then some (mask86 m e.1 e.2) else none) =
      .ok (withTrack st.disk st.head (.bit ⟨st.cyl, st.head⟩ t')) := by
    unfold F86.addTrack
    rw [if_pos rfl]
    unfold load86 at ht
    rw [hL] at ht
    rw [ht]
    unfold Disk.addBit
    rw [if_neg (show ¬ st.head ≥ 2 by omega), if_neg (by rw [hrej]; simp)]
    rfl
  rw [hadd]
  simp only [hF.sides, if_true]
  have : (st.head + 1 = 2) = (st.head = 1) := by simp
  simp only [this]

end Fox
