import Verif.Proofs.Meta
/-
Finding, reading and writing sectors of a well-formed track.
-/
namespace Fox
open Fox.Spec Fox.S34

/-! ### Lists of elements -/

theorem markLast_append (a b : List Inst) (hb : b ≠ []) : markLast (a ++ b) = a ++ markLast b := by
  induction a with
  | nil => rfl
  | cons x a ih =>
    cases h : a ++ b with
    | nil => simp at h; exact absurd h.2 hb
    | cons y l =>
      rw [List.cons_append, h, markLast, ← h, ih]; rfl

theorem markLast_length (l : List Inst) : (markLast l).length = l.length := by
  fun_induction markLast l <;> simp_all

/-- The elements of the sectors, last one flagged. -/
def itemsFrom (secs : List Sec) : List Inst := markLast (secs.flatMap secItems)

def lastItem (s : Sec) (b : Bool) : Inst :=
  { elem := .marker (dataMark s.del), start := 16 * s.dof, stop := 16 * s.dof + 64, chsn := some s.id,
    lastSector := b }

theorem secItems_ne (s : Sec) : secItems s ≠ [] := by simp [secItems]

theorem itemsFrom_cons (x : Sec) (rest : List Sec) :
    itemsFrom (x :: rest) =
      [{ elem := .marker .idam, start := 16 * x.io, stop := 16 * x.io + 64, chsn := some x.id },
       { elem := .header x.id false false, start := 16 * x.io, stop := 16 * x.dof, chsn := none },
       { elem := .data x.id false x.de x.del, start := 16 * x.dof,
         stop := 16 * x.dof + 64 + x.data.length * 16, chsn := some x.id },
       lastItem x rest.isEmpty] ++ itemsFrom rest := by
  cases rest with
  | nil => rfl
  | cons y rest =>
    unfold itemsFrom
    rw [List.flatMap_cons, markLast_append _ _ (by simp [secItems_ne])]
    rfl

/-- The index mark element in front of the sectors. -/
def iamItems (iam : Option Nat) (last : Bool) : List Inst :=
  iam.toList.map fun o => { elem := .marker .iam, start := 16 * o, stop := 16 * o + 64,
                            chsn := some ⟨0, 0, 0, 0⟩, lastSector := last }

theorem itemsOf_eq (iam : Option Nat) (secs : List Sec) :
    itemsOf iam secs = iamItems iam secs.isEmpty ++ itemsFrom secs := by
  cases secs with
  | nil => cases iam <;> rfl
  | cons x rest =>
    unfold itemsOf itemsFrom
    rw [markLast_append _ _ (by simp [secItems_ne])]
    rfl

/-! ### Sector search -/

/-- The sector is the one searched for: it begins at or after the search offset and matches. -/
def Hit (q : Query) (index : Nat) (x : Sec) : Prop := index ≤ 16 * x.io ∧ q.matchesB x.id = true

instance (q : Query) (index : Nat) (x : Sec) : Decidable (Hit q index x) := by unfold Hit; infer_instance

theorem matchesB_s {q : Query} {x : Chsn} (h : q.matchesB x = true) : x.s = q.s := by
  unfold Query.matchesB at h
  split at h
  · cases h
  · rename_i h1; simpa using (Eq.symm (by simpa using h1 : q.s = x.s))

theorem findLoop_marker (q : Query) (index ei : Nat) (st : FindState) (x : Inst) (l : List Inst)
    {m : Marker} (hx : x.elem = .marker m) :
    findLoop q index ei st (x :: l) = findLoop q index (ei + 1) st l := by
  rw [findLoop]
  split
  · rfl
  · rw [hx]

/-- One sector that is not a hit is passed over. -/
theorem findLoop_skip (q : Query) (index : Nat) (x : Sec) (rest : List Sec)
    (hx : ¬ Hit q index x) (ei : Nat) (st : FindState) (hst : st.matched = false) :
    ∃ st', st'.matched = false ∧
      st'.wc = (st.wc || (decide (index ≤ 16 * x.io) && x.id.s == q.s &&
        (match q.c with | some c => x.id.c != c | none => false))) ∧
      st'.bc = (st.bc || (decide (index ≤ 16 * x.io) && x.id.s == q.s && x.id.c == 0xFF)) ∧
      st'.wh = (st.wh || (decide (index ≤ 16 * x.io) && x.id.s == q.s &&
        (match q.h with | some h => x.id.h != h | none => false))) ∧
      findLoop q index ei st (itemsFrom (x :: rest)) = findLoop q index (ei + 4) st' (itemsFrom rest) := by
  rw [itemsFrom_cons]
  simp only [List.cons_append, List.nil_append]
  rw [findLoop_marker _ _ _ _ _ _ rfl]
  have tail : ∀ st' : FindState, st'.matched = false →
      findLoop q index (ei + 1 + 1) st'
        ({ elem := .data x.id false x.de x.del, start := 16 * x.dof,
           stop := 16 * x.dof + 64 + x.data.length * 16, chsn := some x.id } ::
          lastItem x rest.isEmpty :: itemsFrom rest) = findLoop q index (ei + 4) st' (itemsFrom rest) := by
    intro st' hm
    have : ∀ l, findLoop q index (ei + 1 + 1) st'
        ({ elem := .data x.id false x.de x.del, start := 16 * x.dof,
           stop := 16 * x.dof + 64 + x.data.length * 16, chsn := some x.id } :: l) =
        findLoop q index (ei + 3) st' l := by
      intro l
      rw [findLoop]
      split
      · rfl
      · simp only [hm, Bool.false_eq_true, if_false]
    rw [this, findLoop_marker q index (ei + 3) st' (lastItem x rest.isEmpty) _ (m := dataMark x.del) rfl]
  rw [findLoop]
  by_cases hi : 16 * x.io < index
  · rw [if_pos hi]
    refine ⟨st, hst, ?_, ?_, ?_, tail st hst⟩ <;>
    · have : decide (index ≤ 16 * x.io) = false := by simp; omega
      simp [this]
  · rw [if_neg hi]
    have hle : decide (index ≤ 16 * x.io) = true := by simp; omega
    simp only [hle, Bool.true_and]
    by_cases hs : x.id.s = q.s
    · rw [if_pos hs]
      have hm : q.matchesB x.id = false := by
        cases h : q.matchesB x.id with
        | false => rfl
        | true => exact absurd ⟨by omega, h⟩ hx
      simp only [Bool.or_self, Bool.false_eq_true, if_false]
      refine ⟨_, ?_, ?_, ?_, ?_, tail _ ?_⟩
      · exact hm
      · simp [hs]; rfl
      · simp [hs]
      · simp [hs]; rfl
      · exact hm
    · rw [if_neg hs]
      have : (x.id.s == q.s) = false := by simp [hs]
      refine ⟨st, hst, ?_, ?_, ?_, tail st hst⟩ <;> simp [this]

theorem findLoop_hit (q : Query) (index : Nat) (x : Sec) (rest : List Sec)
    (hx : Hit q index x) (hio : x.io ≤ x.dof) (ei : Nat) (st : FindState) :
    findLoop q index ei st (itemsFrom (x :: rest)) =
      .found (ei + 2) x.id false x.de x.del false false := by
  rw [itemsFrom_cons]
  simp only [List.cons_append, List.nil_append]
  have h1 := hx.1
  rw [findLoop_marker _ _ _ _ _ _ rfl, findLoop, if_neg (by simp only; omega)]
  simp only
  rw [if_pos (matchesB_s hx.2), if_neg (by simp), findLoop, if_neg (by simp only; omega)]
  simp only [hx.2, if_true]

theorem findLoop_first (q : Query) (index : Nat) (x : Sec) (b : List Sec) (hx : Hit q index x)
    (hio : x.io ≤ x.dof) : ∀ (a : List Sec), (∀ y ∈ a, ¬ Hit q index y) →
    ∀ (ei : Nat) (st : FindState), st.matched = false →
      findLoop q index ei st (itemsFrom (a ++ x :: b)) =
        .found (ei + 4 * a.length + 2) x.id false x.de x.del false false
  | [], _, ei, st, _ => by simpa using findLoop_hit q index x b hx hio ei st
  | y :: a, ha, ei, st, hst => by
    obtain ⟨st', h1, _, _, _, h2⟩ := findLoop_skip q index y (a ++ x :: b) (ha y (by simp)) ei st hst
    rw [List.cons_append, h2,
      findLoop_first q index x b hx hio a (fun z hz => ha z (by simp [hz])) (ei + 4) st' h1]
    congr 1
    simp only [List.length_cons]; omega

/-- The explanation flags of a failed search. -/
def wrongCyl (q : Query) (index : Nat) (x : Sec) : Bool :=
  decide (index ≤ 16 * x.io) && x.id.s == q.s && (match q.c with | some c => x.id.c != c | none => false)
def badCyl (q : Query) (index : Nat) (x : Sec) : Bool :=
  decide (index ≤ 16 * x.io) && x.id.s == q.s && x.id.c == 0xFF
def wrongHead (q : Query) (index : Nat) (x : Sec) : Bool :=
  decide (index ≤ 16 * x.io) && x.id.s == q.s && (match q.h with | some h => x.id.h != h | none => false)

theorem findLoop_none (q : Query) (index : Nat) : ∀ (a : List Sec), (∀ y ∈ a, ¬ Hit q index y) →
    ∀ (ei : Nat) (st : FindState), st.matched = false →
      findLoop q index ei st (itemsFrom a) =
        .notFound (st.wc || a.any (wrongCyl q index)) (st.bc || a.any (badCyl q index))
          (st.wh || a.any (wrongHead q index))
  | [], _, ei, st, _ => by simp [itemsFrom, markLast, findLoop]
  | y :: a, ha, ei, st, hst => by
    obtain ⟨st', h1, h2, h3, h4, h5⟩ := findLoop_skip q index y a (ha y (by simp)) ei st hst
    rw [h5, findLoop_none q index a (fun z hz => ha z (by simp [hz])) (ei + 4) st' h1, h2, h3, h4]
    simp only [List.any_cons, Bool.or_assoc]
    rfl

theorem findSector_iam (q : Query) (index : Nat) (iam : Option Nat) (secs : List Sec) :
    findSectorElement q (itemsOf iam secs) index =
      findLoop q index iam.toList.length {} (itemsFrom secs) := by
  rw [itemsOf_eq]
  unfold findSectorElement
  cases iam with
  | none => rfl
  | some o =>
    show findLoop q index 0 {} (_ :: itemsFrom secs) = _
    rw [findLoop_marker _ _ _ _ _ _ rfl]; rfl

theorem itemsFrom_getElem (x : Sec) (b : List Sec) : ∀ (a : List Sec),
    (itemsFrom (a ++ x :: b))[4 * a.length + 2]? =
      some { elem := .data x.id false x.de x.del, start := 16 * x.dof,
             stop := 16 * x.dof + 64 + x.data.length * 16, chsn := some x.id }
  | [] => by rw [List.nil_append, itemsFrom_cons]; rfl
  | y :: a => by
    rw [List.cons_append, itemsFrom_cons, List.getElem?_append_right (by simp; omega)]
    have : 4 * (y :: a).length + 2 - 4 = 4 * a.length + 2 := by simp; omega
    simp only [List.length_cons, List.length_nil] at this ⊢
    rw [this]
    exact itemsFrom_getElem x b a

theorem itemsOf_getElem (iam : Option Nat) (a : List Sec) (x : Sec) (b : List Sec) :
    (itemsOf iam (a ++ x :: b))[iam.toList.length + 4 * a.length + 2]? =
      some { elem := .data x.id false x.de x.del, start := 16 * x.dof,
             stop := 16 * x.dof + 64 + x.data.length * 16, chsn := some x.id } := by
  rw [itemsOf_eq, List.getElem?_append_right (by simp [iamItems]; omega)]
  have : iam.toList.length + 4 * a.length + 2 -
      (iamItems iam (a ++ x :: b).isEmpty).length = 4 * a.length + 2 := by simp [iamItems]; omega
  rw [this]
  exact itemsFrom_getElem x b a

/-! ### Reading -/

theorem Elem.data_size (id : Chsn) (ae de del : Bool) : (Elem.data id ae de del).size = 6 + id.size := by
  show 4 + 2 + id.size = _; omega

theorem crc16Bytes_body (mk data : List Byte) (crc : BitVec 16) (hm : mk ≠ []) :
    crc16Bytes (mk ++ data ++ be16 crc) = .ok (crc, crc3740 (mk ++ data)) := by
  unfold crc16Bytes
  rw [if_neg (by simp [hm])]
  have hl : (mk ++ data ++ be16 crc).length = (mk ++ data).length + 2 := by
    rw [List.length_append, be16_length]
  rw [hl, getD_append_right _ _ _ _ (by omega), getD_append_right _ _ _ _ (by omega)]
  have e1 : (mk ++ data).length + 2 - 2 - (mk ++ data).length = 0 := by omega
  have e2 : (mk ++ data).length + 2 - 1 - (mk ++ data).length = 1 := by omega
  rw [e1, e2, ofBe16_be16, List.take_append_of_le_length (by omega),
    List.take_of_length_le (by omega)]

/-- What a successful sector read reports. -/
def readOk (x : Sec) : ReadResult :=
  { idChsn := some x.id, deletedMark := x.del, dataCrcError := x.de,
    dataCrc := some (x.crc, x.goodCrc), dataRange := (4, 4 + x.data.length),
    readBuf := markBytes (dataMark x.del) ++ x.data ++ be16 x.crc }

theorem readOk_bytes (x : Sec) : (readOk x).bytes = x.data := by
  unfold readOk ReadResult.bytes
  simp only
  have hm := markBytes_length (dataMark x.del)
  rw [List.take_append_of_le_length (by rw [List.length_append]; omega),
    List.take_of_length_le (by rw [List.length_append]; omega), List.drop_left' hm]

theorem Spec.TrackOk.readSector {t : Track} {iam : Option Nat} {a : List Sec} {x : Sec} {b : List Sec}
    (h : TrackOk t iam (a ++ x :: b)) (rnd : Nat → Bool) (q : Query) (off : Option Nat)
    (ha : ∀ y ∈ a, ¬ Hit q (off.getD 0) y) (hx : Hit q (off.getD 0) x) (debug : Bool) :
    t.readSector rnd q none off .dataOnly debug = .ok (readOk x) := by
  obtain ⟨B, hs⟩ := h.stream
  have hmem : x ∈ a ++ x :: b := by simp
  obtain ⟨lo, _, _, hpl⟩ := hs.placed
  obtain ⟨_, hp2, hp3⟩ := placed_mem hpl hmem
  have hsec := hs.secOk x hmem
  have hsz := hsec.size
  unfold Track.readSector
  rw [h.schema, h.items, findSector_iam,
    findLoop_first q _ x b hx (by omega) a ha _ {} rfl]
  simp only [Bool.false_eq_true, if_false, Bool.false_and]
  rw [itemsOf_getElem]
  simp only
  have hlen : x.id.size + ((Elem.data x.id false x.de x.del).size -
      (((Elem.data x.id false x.de x.del).range .dataOnly).2 -
        ((Elem.data x.id false x.de x.del).range .dataOnly).1)) = 6 + x.data.length := by
    show x.id.size + ((4 + 2 + x.id.size) - ((4 + 2 + x.id.size - 2) - 4)) = _
    omega
  rw [hlen]
  have hrd := hs.read h.clock rnd (mem_dam (iam := iam) hmem) (Nat.le_refl x.dof)
    (n := 6 + x.data.length) (by unfold Sec.stop at hp3; omega)
  unfold decodeElement
  simp only
  rw [hrd, hsec.body, crc16Bytes_body _ _ _ (by cases x.del <;> simp [dataMark, markBytes])]
  simp only [Except.map]
  unfold readOk Sec.goodCrc
  have hr : (Elem.data x.id false x.de x.del).range .dataOnly = (4, 4 + x.data.length) := by
    show (4, 4 + 2 + x.id.size - 2) = _
    rw [hsz]; congr 1; omega
  rw [hr]

theorem Spec.TrackOk.readSector_none {t : Track} {iam : Option Nat} {secs : List Sec}
    (h : TrackOk t iam secs) (rnd : Nat → Bool) (q : Query) (n off : Option Nat) (sc : Scope)
    (ha : ∀ y ∈ secs, ¬ Hit q (off.getD 0) y) (debug : Bool) :
    t.readSector rnd q n off sc debug = .ok
      { notFound := true, wrongCylinder := secs.any (wrongCyl q (off.getD 0)),
        badCylinder := secs.any (badCyl q (off.getD 0)),
        wrongHead := secs.any (wrongHead q (off.getD 0)) } := by
  unfold Track.readSector
  rw [h.schema, h.items, findSector_iam, findLoop_none q _ _ ha _ {} rfl]
  simp

/-! ### Writing -/

/-- Replace the bytes of `B` from `off`. -/
def splice (B : List Byte) (off : Nat) (xs : List Byte) : List Byte :=
  B.take off ++ xs ++ B.drop (off + xs.length)

theorem splice_length {B xs : List Byte} {off : Nat} (h : off + xs.length ≤ B.length) :
    (splice B off xs).length = B.length := by
  unfold splice
  simp only [List.length_append, List.length_take, List.length_drop]; omega

theorem splice_getD {B xs : List Byte} {off : Nat} (h : off + xs.length ≤ B.length) (i : Nat) :
    (splice B off xs).getD i 0 =
      if off ≤ i ∧ i < off + xs.length then xs.getD (i - off) 0 else B.getD i 0 := by
  unfold splice
  have ht : (B.take off).length = off := by rw [List.length_take]; omega
  by_cases h1 : i < off
  · rw [if_neg (by omega), getD_append_left _ _ _ _ (by rw [List.length_append]; omega),
      getD_append_left _ _ _ _ (by omega)]
    simp only [List.getD_eq_getElem?_getD, List.getElem?_take, h1, if_true]
  · by_cases h2 : i < off + xs.length
    · rw [if_pos (by omega), getD_append_left _ _ _ _ (by rw [List.length_append]; omega),
        getD_append_right _ _ _ _ (by omega), ht]
    · rw [if_neg (by omega), getD_append_right _ _ _ _ (by rw [List.length_append]; omega)]
      simp only [List.getD_eq_getElem?_getD, List.getElem?_drop, List.length_append, ht]
      congr 2; omega

theorem dat_splice {B xs : List Byte} {off : Nat} (h : off + xs.length ≤ B.length) (j : Nat) :
    dat (splice B off xs) j =
      if 8 * off ≤ j ∧ j < 8 * (off + xs.length) then dat xs (j - 8 * off) else dat B j := by
  unfold dat
  rw [splice_getD h]
  by_cases h1 : 8 * off ≤ j ∧ j < 8 * (off + xs.length)
  · rw [if_pos h1, if_pos (by omega)]
    have e1 : (j - 8 * off) / 8 = j / 8 - off := by omega
    have e2 : (j - 8 * off) % 8 = j % 8 := by omega
    rw [e1, e2]
  · rw [if_neg h1, if_neg (by omega)]

theorem slice_splice_disjoint {B xs : List Byte} {off o k : Nat} (h : off + xs.length ≤ B.length)
    (ho : o + k ≤ B.length) (hd : o + k ≤ off ∨ off + xs.length ≤ o) :
    slice (splice B off xs) o k = slice B o k := by
  rw [slice_eq_iff _ (slice_length ho) (by rw [splice_length h]; exact ho)]
  intro i hi
  rw [splice_getD h, if_neg (by omega), slice_getD _ _ _ _ hi]

/-- Replacing a byte-aligned region by cells without missing clocks keeps the stream well-formed,
up to the clock in front of the byte after the region. -/
theorem Spec.CellsOk.write {f : List Bool} {B : List Byte} {ms : List (Marker × Nat)} {bnd : List Nat}
    (h : CellsOk f B ms bnd) (off : Nat) (xs : List Byte) (hfit : off + xs.length ≤ B.length)
    (E f' : List Bool)
    (hE1 : ∀ j, j < 8 * xs.length → E.getD (2 * j + 1) false = dat xs j)
    (hE2 : ∀ j, j < 8 * xs.length → E.getD (2 * j) false = false → dat xs j = false →
      0 < j ∧ dat xs (j - 1) = true)
    (hl : f'.length = f.length)
    (hf : ∀ i, f'.getD i false = if 16 * off ≤ i ∧ i < 16 * (off + xs.length)
      then E.getD (i - 16 * off) false else f.getD i false)
    (hm : ∀ m o, (m, o) ∈ ms → o + 4 ≤ off ∨ off + xs.length ≤ o)
    (hb : ∀ b ∈ bnd, b < off ∨ off + xs.length ≤ b) (hend : off + xs.length ∈ bnd) :
    CellsOk f' (splice B off xs) ms bnd := by
  have hlen := h.len
  have hsl := splice_length hfit
  refine ⟨by rw [hl, hsl]; exact hlen, ?_, ?_, ?_, ?_⟩
  · intro j hj
    rw [hsl] at hj
    rw [hf, dat_splice hfit]
    by_cases h1 : 8 * off ≤ j ∧ j < 8 * (off + xs.length)
    · rw [if_pos (by omega), if_pos h1, ← hE1 _ (by omega)]
      congr 1; omega
    · rw [if_neg (by omega), if_neg h1, h.data j hj]
  · intro m o hmo
    obtain ⟨h1, h2⟩ := h.mark m o hmo
    refine ⟨by omega, fun k hk => ?_⟩
    have := hm m o hmo
    rw [hf, if_neg (by omega), h2 k hk]
  · intro j h0 hj hc hd1 hd2
    rw [hsl] at hj
    rw [dat_splice hfit] at hd1 hd2
    rw [hf] at hc
    by_cases h1 : 8 * off ≤ j ∧ j < 8 * (off + xs.length)
    · exfalso
      rw [if_pos h1] at hd2
      rw [if_pos (by omega)] at hc
      rw [show 2 * j - 16 * off = 2 * (j - 8 * off) by omega] at hc
      obtain ⟨h3, h4⟩ := hE2 _ (by omega) hc hd2
      rw [if_pos (by omega), show j - 1 - 8 * off = j - 8 * off - 1 by omega, h4] at hd1
      cases hd1
    · rw [if_neg h1] at hd2
      rw [if_neg (by omega)] at hc
      by_cases h2 : j = 8 * (off + xs.length)
      · right; exact ⟨_, hend, h2⟩
      · rw [if_neg (by omega)] at hd1
        exact h.clock j h0 hj hc hd1 hd2
  · intro b hbm hbl
    rw [hsl] at hbl
    have := hb b hbm
    rw [splice_getD hfit, if_neg (by omega)]
    exact h.bndOk b hbm hbl

/-- The two encoded runs of a sector write contain no missing clock. -/
theorem two_runs (xs ys : List Byte) :
    (∀ j, j < 8 * (xs ++ ys).length →
      (encode xs false ++ encode ys false).getD (2 * j + 1) false = dat (xs ++ ys) j) ∧
    (∀ j, j < 8 * (xs ++ ys).length → (encode xs false ++ encode ys false).getD (2 * j) false = false →
      dat (xs ++ ys) j = false → 0 < j ∧ dat (xs ++ ys) (j - 1) = true) := by
  have hx := encode_length xs false
  have hy := encode_length ys false
  have d1 : ∀ j, j < 8 * xs.length → dat (xs ++ ys) j = dat xs j := by
    intro j hj
    unfold dat
    rw [getD_append_left _ _ _ _ (by omega)]
  have d2 : ∀ j, 8 * xs.length ≤ j → dat (xs ++ ys) j = dat ys (j - 8 * xs.length) := by
    intro j hj
    unfold dat
    rw [getD_append_right _ _ _ _ (by omega)]
    have e1 : (j - 8 * xs.length) / 8 = j / 8 - xs.length := by omega
    have e2 : (j - 8 * xs.length) % 8 = j % 8 := by omega
    rw [e1, e2]
  constructor
  · intro j hj
    by_cases h : j < 8 * xs.length
    · rw [getD_append_left _ _ _ _ (by omega), encode_data, d1 j h]
    · rw [getD_append_right _ _ _ _ (by omega), d2 j (by omega), ← encode_data ys false]
      congr 1; omega
  · intro j hj hc hd
    rw [List.length_append] at hj
    by_cases h : j < 8 * xs.length
    · rw [getD_append_left _ _ _ _ (by omega), encode_clock _ _ _ h] at hc
      rw [d1 j h] at hd
      by_cases h0 : j = 0
      · rw [if_pos h0, hd] at hc; cases hc
      · rw [if_neg h0, hd] at hc
        refine ⟨by omega, ?_⟩
        rw [d1 _ (by omega)]
        simpa using hc
    · rw [getD_append_right _ _ _ _ (by omega),
        show 2 * j - (encode xs false).length = 2 * (j - 8 * xs.length) by omega,
        encode_clock _ _ _ (by omega)] at hc
      rw [d2 j (by omega)] at hd
      by_cases h0 : j - 8 * xs.length = 0
      · rw [if_pos h0, hd] at hc; cases hc
      · rw [if_neg h0, hd] at hc
        refine ⟨by omega, ?_⟩
        rw [d2 _ (by omega), show j - 1 - 8 * xs.length = j - 8 * xs.length - 1 by omega]
        simpa using hc

end Fox
