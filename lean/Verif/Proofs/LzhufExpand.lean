import Verif.Proofs.LzhufCode
import Verif.Proofs.Bits
/-
The expander writes what the tokens stand for.
-/
namespace Fox
namespace Lzhuf
open Spec.Lz

/-! Positions -/

/-- `decode_position` on a list of bits. -/
def posOf (bits : List Bool) : Option (Nat × Nat) :=
  if bits.length < 8 then none
  else
    let v := natOf 0 (bits.take 8)
    let len := dLen.getD v 0
    if bits.length < 8 + (len - 2) then none
    else some (((dCode.getD v 0) <<< 6) ||| (natOf v ((bits.drop 8).take (len - 2)) &&& 0x3f), 8 + (len - 2))

theorem natOf_lt : ∀ (bs : List Bool) (acc : Nat), natOf acc bs < (acc + 1) * 2 ^ bs.length := by
  intro bs
  induction bs with
  | nil => intro acc; simp [natOf]
  | cons b bs ih =>
    intro acc
    have := ih (2 * acc + b.toNat)
    show natOf (2 * acc + b.toNat) bs < _
    have hb : b.toNat ≤ 1 := by cases b <;> decide
    rw [List.length_cons, Nat.pow_succ]
    calc _ < (2 * acc + b.toNat + 1) * 2 ^ bs.length := this
      _ ≤ (2 * (acc + 1)) * 2 ^ bs.length := Nat.mul_le_mul_right _ (by omega)
      _ = _ := by rw [Nat.mul_comm 2 (acc + 1), Nat.mul_assoc, Nat.mul_comm 2]

theorem dTables : dLen.length = 256 ∧ dCode.length = 256 := by decide +kernel

theorem decodePosition_posOf (r : Reader) (hp : r.ptr ≤ r.bits.length) :
    (posOf r.rest = none → decodePosition r = .error .io) ∧
    ∀ p k, posOf r.rest = some (p, k) → ∃ r', decodePosition r = .ok (p, r') ∧ r'.ptr ≤ r'.bits.length ∧
      r'.rest = r.rest.drop k ∧ k ≤ r.rest.length := by
  unfold posOf decodePosition
  by_cases h8 : r.rest.length < 8
  · rw [if_pos h8, getBits_short 8 0 r hp h8]
    exact ⟨fun _ => rfl, fun p k e => by cases e⟩
  · rw [if_neg h8]
    obtain ⟨r1, h1, h2, h3⟩ := getBits_ok (r.rest.take 8) 0 r (r.rest.drop 8) hp (by rw [List.take_append_drop])
    have hl8 : (r.rest.take 8).length = 8 := by rw [List.length_take]; omega
    rw [hl8] at h1
    rw [h1]
    have hv := natOf_lt (r.rest.take 8) 0
    rw [hl8] at hv
    generalize hvv : natOf 0 (r.rest.take 8) = v at *
    show _ ∧ _
    have hb : (((rd dCode v >>= fun upper => rd dLen v >>= fun len => getBits (len - 2) v r1 >>= fun lr =>
        pure ((upper <<< 6) ||| (lr.1 &&& 0x3f), lr.2)) : Except Err (Nat × Reader))) =
        (getBits (dLen.getD v 0 - 2) v r1 >>= fun lr => pure ((dCode.getD v 0 <<< 6) ||| (lr.1 &&& 0x3f), lr.2)) := by
      rw [rd_ok _ _ (by rw [dTables.2]; omega)]
      show (rd dLen v >>= _) = _
      rw [rd_ok _ _ (by rw [dTables.1]; omega)]
      rfl
    show (_ → (rd dCode v >>= _) = _) ∧ ∀ p k, _ → ∃ r', (rd dCode v >>= _) = _ ∧ _
    rw [show (rd dCode v >>= _) = _ from hb]
    by_cases hn : r.rest.length < 8 + (dLen.getD v 0 - 2)
    · simp only [if_pos hn]
      rw [getBits_short _ v r1 h2 (by rw [h3, List.length_drop]; omega)]
      exact ⟨fun _ => rfl, fun p k e => by cases e⟩
    · simp only [if_neg hn]
      refine ⟨(fun e => by cases e), ?_⟩
      intro p k e
      obtain ⟨r2, a1, a2, a3⟩ := getBits_ok ((r.rest.drop 8).take (dLen.getD v 0 - 2)) v r1
        ((r.rest.drop 8).drop (dLen.getD v 0 - 2)) h2 (by rw [h3, List.take_append_drop])
      rw [show ((r.rest.drop 8).take (dLen.getD v 0 - 2)).length = dLen.getD v 0 - 2 by
        rw [List.length_take, List.length_drop]; omega] at a1
      rw [a1]
      cases e
      exact ⟨r2, rfl, a2, by rw [a3, List.drop_drop], by omega⟩

theorem natOf_append (acc : Nat) (a b : List Bool) : natOf acc (a ++ b) = natOf (natOf acc a) b := by
  unfold natOf; rw [List.foldl_append]

theorem natOf_acc : ∀ (bs : List Bool) (acc : Nat), natOf acc bs = acc * 2 ^ bs.length + natOf 0 bs := by
  intro bs
  induction bs with
  | nil => intro acc; simp [natOf]
  | cons b bs ih =>
    intro acc
    show natOf (2 * acc + b.toNat) bs = _ + natOf (2 * 0 + b.toNat) bs
    rw [ih, ih (2 * 0 + b.toNat), List.length_cons, Nat.pow_succ, Nat.add_mul, ← Nat.add_assoc]
    congr 1
    rw [Nat.mul_zero, Nat.zero_add]
    congr 1
    rw [Nat.mul_comm 2 acc, Nat.mul_assoc, Nat.mul_comm 2]

theorem natOf_testBit (n : Nat) : ∀ (bs : List Bool), bs.length = n → ∀ k, (natOf 0 bs).testBit k =
    if k < n then bs.getD (n - 1 - k) false else false := by
  induction n with
  | zero =>
    intro bs hb k
    have : bs = [] := List.length_eq_zero_iff.mp hb
    subst this
    simp [natOf]
  | succ n ih =>
    intro bs hb k
    rcases List.eq_nil_or_concat bs with e | ⟨as, b, e⟩
    · subst e; cases hb
    rw [List.concat_eq_append] at e
    subst e
    have hl : as.length = n := by simpa using hb
    rw [natOf_append]
    show (2 * natOf 0 as + b.toNat).testBit k = _
    have hb1 : b.toNat < 2 := by cases b <;> decide
    cases k with
    | zero =>
      rw [if_pos (by omega), getD_append_right _ _ _ _ (by omega), show n + 1 - 1 - 0 - as.length = 0 by omega,
        Nat.testBit_zero]
      cases b <;> simp <;> omega
    | succ k =>
      rw [Nat.testBit_succ, show (2 * natOf 0 as + b.toNat) / 2 = natOf 0 as by omega, ih as hl]
      by_cases e : k < n
      · rw [if_pos e, if_pos (by omega), getD_append_left _ _ _ _ (by omega)]
        congr 1; omega
      · rw [if_neg e, if_neg (by omega)]

theorem msb_length (w m x : Nat) : (msb w m x).length = m := by unfold msb; simp

theorem msb_natOf (bs : List Bool) : msb bs.length bs.length (natOf 0 bs) = bs := by
  apply ext_getD _ _ false (msb_length _ _ _)
  intro i hi
  rw [msb_length] at hi
  unfold msb
  rw [getD_map_range _ _ _ _ hi, natOf_testBit _ bs rfl, if_pos (by omega)]
  congr 1; omega

theorem natOf_msb (m x : Nat) (hx : x < 2 ^ m) : natOf 0 (msb m m x) = x := by
  apply Nat.eq_of_testBit_eq
  intro k
  rw [natOf_testBit m _ (msb_length _ _ _)]
  by_cases h : k < m
  · rw [if_pos h]
    unfold msb
    rw [getD_map_range _ _ _ _ (by omega)]
    congr 1; omega
  · rw [if_neg h]
    symm
    apply Nat.testBit_lt_two_pow
    exact Nat.lt_of_lt_of_le hx (Nat.pow_le_pow_right (by decide) (by omega))

theorem msb_div (w m x : Nat) (h : m ≤ w) : msb w m x = msb m m (x / 2 ^ (w - m)) := by
  unfold msb
  apply List.map_congr_left
  intro i hi
  have := List.mem_range.mp hi
  rw [Nat.testBit_div_two_pow]
  congr 1; omega

/-- What the decoding tables say about a byte. -/
theorem dTable_ok : ∀ v ∈ List.range 256, dCode.getD v 0 < 64 ∧ dLen.getD v 0 = pLen.getD (dCode.getD v 0) 0 ∧
    3 ≤ dLen.getD v 0 ∧ dLen.getD v 0 ≤ 8 ∧
    v / 2 ^ (8 - dLen.getD v 0) = pCode.getD (dCode.getD v 0) 0 / 2 ^ (8 - dLen.getD v 0) := by
  decide +kernel

/-- What the decoding tables say about a code. -/
theorem pTable_ok : ∀ u ∈ List.range 64, 3 ≤ pLen.getD u 0 ∧ pLen.getD u 0 ≤ 8 ∧ pCode.getD u 0 < 256 ∧
    pCode.getD u 0 % 2 ^ (8 - pLen.getD u 0) = 0 ∧ pCode.getD u 0 + 2 ^ (8 - pLen.getD u 0) ≤ 256 ∧
    ∀ k ∈ List.range (2 ^ (8 - pLen.getD u 0)), dCode.getD (pCode.getD u 0 + k) 0 = u ∧
      dLen.getD (pCode.getD u 0 + k) 0 = pLen.getD u 0 := by
  decide +kernel

/-- The position read from `a ++ b` when `a` has as many bits as the table says. -/
theorem posOf_split (a b tail : List Bool) (hb : b.length = 6) (h3 : 3 ≤ a.length) (h8 : a.length ≤ 8)
    (hl : dLen.getD (natOf 0 (a ++ b.take (8 - a.length))) 0 = a.length) :
    posOf (a ++ b ++ tail) = some (dCode.getD (natOf 0 (a ++ b.take (8 - a.length))) 0 * 64 + natOf 0 b, a.length + 6) := by
  have ht : (a ++ b ++ tail).take 8 = a ++ b.take (8 - a.length) := by
    rw [List.append_assoc, List.take_append, List.take_of_length_le h8, List.take_append_of_le_length (by omega)]
  have hd : ((a ++ b ++ tail).drop 8).take (a.length - 2) = b.drop (8 - a.length) := by
    rw [List.append_assoc, List.drop_append, List.drop_eq_nil_of_le h8, List.nil_append, List.drop_append_of_le_length (by omega),
      List.take_append_of_le_length (by rw [List.length_drop]; omega), List.take_of_length_le (by rw [List.length_drop]; omega)]
  unfold posOf
  have hlen : (a ++ b ++ tail).length = a.length + 6 + tail.length := by rw [List.length_append, List.length_append, hb]
  rw [if_neg (by omega)]
  simp only [ht, hl]
  have hn : natOf (natOf 0 (a ++ b.take (8 - a.length))) (b.drop (8 - a.length)) = natOf 0 a * 2 ^ 6 + natOf 0 b := by
    rw [← natOf_append, List.append_assoc, List.take_append_drop, natOf_append, natOf_acc b (natOf 0 a), hb]
  rw [if_neg (by omega), hd, hn]
  have hlt := natOf_lt b 0
  rw [hb] at hlt
  have e1 : (natOf 0 a * 2 ^ 6 + natOf 0 b) &&& 0x3f = natOf 0 b := by
    rw [show (0x3f : Nat) = 2 ^ 6 - 1 from rfl, Nat.and_two_pow_sub_one_eq_mod]
    omega
  rw [e1, ← Nat.shiftLeft_add_eq_or_of_lt (by omega), Nat.shiftLeft_eq]
  congr 2
  omega

theorem encodePosition_eq (p : Nat) : encodePosition p = msb 8 (pLen.getD (p / 64) 0) (pCode.getD (p / 64) 0) ++ msb 6 6 (p % 64) := by
  unfold encodePosition
  rw [Nat.shiftRight_eq_div_pow, show (0x3f : Nat) = 2 ^ 6 - 1 from rfl, Nat.and_two_pow_sub_one_eq_mod]

/-- Every position is coded so that it comes back. -/
theorem posOf_encode (p : Nat) (hp : p < 4096) (tail : List Bool) :
    posOf (encodePosition p ++ tail) = some (p, (encodePosition p).length) := by
  obtain ⟨t1, t2, t3, t4, t5, t6⟩ := pTable_ok (p / 64) (List.mem_range.mpr (by omega))
  generalize hL : pLen.getD (p / 64) 0 = len at *
  generalize hC : pCode.getD (p / 64) 0 = code at *
  rw [encodePosition_eq, hL, hC]
  have hal : (msb 8 len code).length = len := msb_length _ _ _
  have hbl : (msb 6 6 (p % 64)).length = 6 := msb_length _ _ _
  have hna : natOf 0 (msb 8 len code) = code / 2 ^ (8 - len) := by
    rw [msb_div 8 len code (by omega), natOf_msb]
    apply Nat.div_lt_of_lt_mul
    rw [← Nat.pow_add, show 8 - len + len = 8 by omega]; exact t3
  have hv : ∃ k, k < 2 ^ (8 - len) ∧ natOf 0 (msb 8 len code ++ (msb 6 6 (p % 64)).take (8 - len)) = code + k := by
    refine ⟨natOf 0 ((msb 6 6 (p % 64)).take (8 - len)), ?_, ?_⟩
    · have := natOf_lt ((msb 6 6 (p % 64)).take (8 - len)) 0
      rw [List.length_take, hbl, show min (8 - len) 6 = 8 - len by omega] at this
      omega
    · rw [natOf_append, natOf_acc, List.length_take, hbl, show min (8 - len) 6 = 8 - len by omega, hna]
      congr 1
      exact Nat.div_mul_cancel (Nat.dvd_of_mod_eq_zero t4)
  obtain ⟨k, hk1, hk2⟩ := hv
  have := t6 k (List.mem_range.mpr hk1)
  have hs := posOf_split (msb 8 len code) (msb 6 6 (p % 64)) tail hbl (by omega) (by omega) (by rw [hal, hk2]; exact this.2)
  rw [hs, hal, hk2, this.1, natOf_msb 6 _ (by omega), List.length_append, hal, hbl]
  congr 2
  omega

/-- A position that was read is coded by the bits that were read. -/
theorem posOf_decode (bits : List Bool) (p k : Nat) (h : posOf bits = some (p, k)) :
    p < 4096 ∧ k ≤ bits.length ∧ bits.take k = encodePosition p := by
  have h8 : ¬ bits.length < 8 := by intro e; unfold posOf at h; rw [if_pos e] at h; cases h
  have hv := natOf_lt (bits.take 8) 0
  rw [List.length_take, show min 8 bits.length = 8 by omega] at hv
  obtain ⟨d1, d2, d3, d4, d5⟩ := dTable_ok (natOf 0 (bits.take 8)) (List.mem_range.mpr (by omega))
  generalize hV : natOf 0 (bits.take 8) = v at *
  have hlen : ¬ bits.length < 8 + (dLen.getD v 0 - 2) := by
    intro e; unfold posOf at h; rw [if_neg h8] at h; simp only [hV] at h; rw [if_pos e] at h; cases h
  generalize hL : dLen.getD v 0 = len at *
  -- split the bits
  have hb : bits = bits.take len ++ (bits.drop len).take 6 ++ bits.drop (len + 6) := by
    rw [List.append_assoc, ← List.drop_drop, List.take_append_drop, List.take_append_drop]
  have hal : (bits.take len).length = len := by rw [List.length_take]; omega
  have hbl : ((bits.drop len).take 6).length = 6 := by rw [List.length_take, List.length_drop]; omega
  have ht : bits.take len ++ ((bits.drop len).take 6).take (8 - len) = bits.take 8 := by
    rw [List.take_take, show min (8 - len) 6 = 8 - len by omega]
    have := List.take_add (l := bits) (i := len) (j := 8 - len)
    rw [show len + (8 - len) = 8 by omega] at this
    exact this.symm
  have hs := posOf_split (bits.take len) ((bits.drop len).take 6) (bits.drop (len + 6)) hbl (by omega) (by omega)
    (by rw [hal, ht, hV, hL])
  rw [← hb, h, hal, ht, hV] at hs
  have hs2 := Option.some.inj hs
  have e1 : p = dCode.getD v 0 * 64 + natOf 0 ((bits.drop len).take 6) := congrArg Prod.fst hs2
  have e2 : k = len + 6 := congrArg Prod.snd hs2
  have hlow := natOf_lt ((bits.drop len).take 6) 0
  rw [hbl] at hlow
  refine ⟨by omega, by omega, ?_⟩
  have q1 : p / 64 = dCode.getD v 0 := by omega
  have q2 : p % 64 = natOf 0 ((bits.drop len).take 6) := by omega
  rw [e2, encodePosition_eq, q1, q2, ← d2, msb_div 8 len _ (by omega), ← d5, List.take_add]
  congr 1
  · have hva : v / 2 ^ (8 - len) = natOf 0 (bits.take len) := by
      rw [← hV, ← ht, natOf_append, natOf_acc]
      have hx := natOf_lt (((bits.drop len).take 6).take (8 - len)) 0
      rw [List.length_take, hbl, show min (8 - len) 6 = 8 - len by omega] at hx ⊢
      rw [Nat.mul_comm, Nat.mul_add_div (Nat.two_pow_pos _), Nat.div_eq_of_lt (by omega), Nat.add_zero]
    rw [hva]
    have := msb_natOf (bits.take len)
    rw [hal] at this
    exact this.symm
  · have := msb_natOf ((bits.drop len).take 6)
    rw [hbl] at this
    exact this.symm

/-! The dictionary -/

/-- The dictionary holds the last 4096 bytes. -/
structure RingOk (d : Ring) (out : List Byte) : Prop where
  n : d.n = 4096
  len : d.buf.length = 4096
  pos : d.pos = (4036 + out.length) % 4096
  at' : ∀ k, 1 ≤ k → k ≤ 4096 → d.buf.getD ((d.pos + (4096 - k)) % 4096) 0#8 = (history ++ out).getD (4096 + out.length - k) 0#8

theorem history_length : history.length = 4096 := by
  unfold history; rw [List.length_append, List.length_replicate, List.length_replicate]

theorem startRing_ok : RingOk startRing [] := by
  refine ⟨rfl, ?_, rfl, ?_⟩
  · show (List.replicate 4036 0x20#8 ++ List.replicate 60 0#8).length = 4096
    rw [List.length_append, List.length_replicate, List.length_replicate]
  · intro k h1 h2
    show (List.replicate 4036 0x20#8 ++ List.replicate 60 0#8).getD ((4036 + (4096 - k)) % 4096) 0#8 =
      (history ++ []).getD (4096 + 0 - k) 0#8
    rw [List.append_nil]
    unfold history
    by_cases e : k ≤ 4036
    · rw [getD_append_left _ _ _ _ (by rw [List.length_replicate]; omega), getD_append_right _ _ _ _ (by rw [List.length_replicate]; omega),
        List.getD_eq_getElem?_getD, List.getD_eq_getElem?_getD, List.getElem?_replicate, List.getElem?_replicate,
        if_pos (by omega), if_pos (by rw [List.length_replicate]; omega)]
    · rw [getD_append_right _ _ _ _ (by rw [List.length_replicate]; omega), getD_append_left _ _ _ _ (by rw [List.length_replicate]; omega),
        List.getD_eq_getElem?_getD, List.getD_eq_getElem?_getD, List.getElem?_replicate, List.getElem?_replicate,
        if_pos (by rw [List.length_replicate]; omega), if_pos (by omega)]

theorem emit_spec (d : Ring) (out : List Byte) (h : RingOk d out) (b : Byte) :
    ∃ d', emit d out b = .ok (d', out ++ [b]) ∧ RingOk d' (out ++ [b]) := by
  obtain ⟨h1, h2, h3, h4⟩ := h
  have hi : ((((d.pos : Int) + 0).emod d.n).toNat) = d.pos := by
    rw [h1]
    have e : ((d.pos : Int) + 0).emod ((4096 : Nat) : Int) = (d.pos : Int) := by
      show ((d.pos : Int) + 0) % ((4096 : Nat) : Int) = _
      omega
    rw [e]; rfl
  unfold emit Ring.set
  simp only [hi]
  rw [if_pos (by omega)]
  refine ⟨_, rfl, ⟨h1, ?_, ?_, ?_⟩⟩
  · show (d.buf.set _ _).length = 4096
    rw [List.length_set]; exact h2
  · show (d.pos + 1) % d.n = _
    rw [h1, h3, List.length_append, List.length_singleton]; omega
  · intro k k1 k2
    show (d.buf.set d.pos b).getD (((d.pos + 1) % d.n + (4096 - k)) % 4096) 0#8 = _
    rw [h1, _root_.Fox.getD_set]
    have hlo : (out ++ [b]).length = out.length + 1 := by rw [List.length_append, List.length_singleton]
    by_cases e : k = 1
    · subst e
      rw [if_pos ⟨by omega, by omega⟩, hlo, ← List.append_assoc, show 4096 + (out.length + 1) - 1 = (history ++ out).length by
        rw [List.length_append, history_length]; omega, List.getD_eq_getElem?_getD, List.getElem?_append_right (Nat.le_refl _), Nat.sub_self]
      rfl
    · rw [if_neg (by omega), hlo, ← List.append_assoc, getD_append_left _ _ _ _ (by rw [List.length_append, history_length]; omega)]
      have := h4 (k - 1) (by omega) (by omega)
      rw [show ((d.pos + 1) % 4096 + (4096 - k)) % 4096 = (d.pos + (4096 - (k - 1))) % 4096 by omega, this]
      congr 1; omega

theorem get_spec (d : Ring) (out : List Byte) (h : RingOk d out) (back : Nat) (hb : back < 4096) :
    d.get (-((back : Int) + 1)) = .ok ((history ++ out).getD ((history ++ out).length - (back + 1)) 0#8) := by
  have h4 := h.at' (back + 1) (by omega) (by omega)
  have hi : ((((d.pos : Int) + (-((back : Int) + 1))).emod d.n).toNat) = (d.pos + (4096 - (back + 1))) % 4096 := by
    rw [h.n]
    have e : ((d.pos : Int) + (-((back : Int) + 1))).emod ((4096 : Nat) : Int) = (((d.pos + (4096 - (back + 1))) % 4096 : Nat) : Int) := by
      show ((d.pos : Int) + (-((back : Int) + 1))) % ((4096 : Nat) : Int) = _
      omega
    rw [e]; rfl
  unfold Ring.get
  rw [hi]
  have hl : (d.pos + (4096 - (back + 1))) % 4096 < d.buf.length := by rw [h.len]; omega
  rw [List.getElem?_eq_getElem hl]
  rw [List.getD_eq_getElem?_getD, List.getElem?_eq_getElem hl] at h4
  show Except.ok _ = _
  rw [List.length_append, history_length, ← h4]
  rfl

theorem copy_spec (back : Nat) (hb : back < 4096) : ∀ (m : Nat) (d : Ring) (out : List Byte), RingOk d out →
    ∃ d' out', copy (-((back : Int) + 1)) m d out = .ok (d', out') ∧ RingOk d' out' ∧
      history ++ out' = copyFrom back m (history ++ out) := by
  intro m
  induction m with
  | zero => intro d out h; exact ⟨d, out, rfl, h, rfl⟩
  | succ m ih =>
    intro d out h
    obtain ⟨d1, h1, h2⟩ := emit_spec d out h ((history ++ out).getD ((history ++ out).length - (back + 1)) 0#8)
    obtain ⟨d2, out2, h3, h4, h5⟩ := ih d1 _ h2
    refine ⟨d2, out2, ?_, h4, ?_⟩
    · rw [copy, get_spec d out h back hb]
      show (emit d out _ >>= _) = _
      rw [h1]
      exact h3
    · rw [h5, copyFrom, List.append_assoc]

/-! The whole stream -/

theorem copyFrom_length (back : Nat) : ∀ (len : Nat) (h : List Byte), (copyFrom back len h).length = h.length + len := by
  intro len
  induction len with
  | zero => intro h; rfl
  | succ len ih => intro h; rw [copyFrom, ih, List.length_append, List.length_singleton]; omega

theorem apply_length (k : Token) (h : List Byte) : h.length ≤ (k.apply h).length := by
  cases k with
  | lit b => rw [Token.apply, List.length_append]; omega
  | copy len back => rw [Token.apply, copyFrom_length]; omega

theorem foldl_length : ∀ (ks : List Token) (h : List Byte), h.length ≤ (ks.foldl Token.apply h).length := by
  intro ks
  induction ks with
  | nil => intro h; exact Nat.le_refl _
  | cons k ks ih => intro h; rw [List.foldl_cons]; exact Nat.le_trans (apply_length k h) (ih _)

/-- Add a token to the output. -/
theorem apply_spec (k : Token) (hk : k.Valid) (d : Ring) (out : List Byte) (h : RingOk d out) :
    ∃ d' out', (match k with
      | .lit b => emit d out b
      | .copy len back => copy (-((back : Int) + 1)) len d out) = .ok (d', out') ∧ RingOk d' out' ∧
      history ++ out' = k.apply (history ++ out) := by
  cases k with
  | lit b =>
    obtain ⟨d', h1, h2⟩ := emit_spec d out h b
    exact ⟨d', out ++ [b], h1, h2, by rw [Token.apply, List.append_assoc]⟩
  | copy len back => exact copy_spec back hk.2.2 len d out h

theorem encodeToken_ok (t : Tree) (h : Inv t none) (hn : t.n = 314) (k : Token) (hk : k.Valid) :
    ∃ bits t', encodeToken t k = .ok (bits, t') ∧ Inv t' none ∧ t'.n = 314 ∧ bits ≠ [] := by
  cases k with
  | lit b =>
    have := b.isLt
    obtain ⟨bits, t', h1, _, _, h2, h3, h4, _⟩ := encodeChar_spec t h b.toNat (by omega)
    exact ⟨bits, t', h1, h2, by omega, h4⟩
  | copy len back =>
    obtain ⟨bits, t', h1, _, _, h2, h3, h4, _⟩ := encodeChar_spec t h (255 - 2 + len) (by have := hk.2.1; omega)
    refine ⟨bits ++ encodePosition back, t', ?_, h2, by omega, ?_⟩
    · rw [encodeToken, h1]; rfl
    · intro e; exact h4 (List.append_eq_nil_iff.mp e).1

/-- One turn of the loop on a coded token. -/
theorem turn_token (t : Tree) (h : Inv t none) (hn : t.n = 314) (k : Token) (hk : k.Valid) (bits : List Bool) (t' : Tree)
    (he : encodeToken t k = .ok (bits, t')) (r : Reader) (tail : List Bool) (hp : r.ptr ≤ r.bits.length)
    (hr : r.rest = bits ++ tail) (d : Ring) (out : List Byte) (hd : RingOk d out) :
    ∃ r' d' out', turn t r d out = .ok (some (t', r', d', out')) ∧ r'.ptr ≤ r'.bits.length ∧ r'.rest = tail ∧
      RingOk d' out' ∧ history ++ out' = k.apply (history ++ out) := by
  obtain ⟨d', out', a1, a2, a3⟩ := apply_spec k hk d out hd
  cases k with
  | lit b =>
    have hlt := b.isLt
    obtain ⟨bits2, t2, e1, e2, e3, e4, e5, e6, e7⟩ := encodeChar_spec t h b.toNat (by omega)
    rw [encodeToken, e1] at he
    obtain ⟨rfl, rfl⟩ := Prod.mk.inj (Except.ok.inj he)
    obtain ⟨r', f1, f2, f3⟩ := decodeChar_code t h bits2 _ t2 e2 e7 e3 r tail hp hr
    refine ⟨r', d', out', ?_, f2, f3, a2, a3⟩
    unfold turn
    rw [f1]
    simp only
    rw [if_pos hlt, show BitVec.ofNat 8 b.toNat = b by simp]
    replace a1 : emit d out b = .ok (d', out') := a1
    rw [a1]
  | copy len back =>
    have hv : 3 ≤ len ∧ len ≤ 60 ∧ back < 4096 := hk
    obtain ⟨bits2, t2, e1, e2, e3, e4, e5, e6, e7⟩ := encodeChar_spec t h (255 - 2 + len) (by omega)
    rw [encodeToken, e1] at he
    obtain ⟨rfl, rfl⟩ := Prod.mk.inj (Except.ok.inj he)
    obtain ⟨r1, f1, f2, f3⟩ := decodeChar_code t h bits2 _ t2 e2 e7 e3 r (encodePosition back ++ tail) hp (by rw [hr, List.append_assoc])
    obtain ⟨r', g1, g2, g3, _⟩ := (decodePosition_posOf r1 f2).2 back _ (by rw [f3]; exact posOf_encode back hv.2.2 tail)
    refine ⟨r', d', out', ?_, g2, ?_, a2, a3⟩
    · unfold turn
      rw [f1]
      simp only
      rw [if_neg (by omega), g1]
      simp only
      replace a1 : copy (-((back : Int) + 1)) len d out = .ok (d', out') := a1
      rw [show 255 - 2 + len + 2 - 255 = len by omega, a1]
    · rw [g3, f3, List.drop_left]

/-- Every turn either finds the code of a token, or stops because there is none. -/
theorem turn_total (t : Tree) (h : Inv t none) (hn : t.n = 314) (r : Reader) (hp : r.ptr ≤ r.bits.length) (d : Ring) (out : List Byte)
    (hd : RingOk d out) :
    (turn t r d out = .ok none ∧ ∀ k bits t', k.Valid → encodeToken t k = .ok (bits, t') → ¬ bits <+: r.rest) ∨
    ∃ k bits t' tail, k.Valid ∧ encodeToken t k = .ok (bits, t') ∧ r.rest = bits ++ tail := by
  have key : ∀ (k : Token), k.Valid → ∀ bits t', encodeToken t k = .ok (bits, t') → bits <+: r.rest →
      ∃ k bits t' tail, k.Valid ∧ encodeToken t k = .ok (bits, t') ∧ r.rest = bits ++ tail := by
    intro k hk bits t' he ⟨tail, hb⟩
    exact ⟨k, bits, t', tail, hk, he, hb.symm⟩
  by_cases hex : ∃ k bits t', k.Valid ∧ encodeToken t k = .ok (bits, t') ∧ bits <+: r.rest
  · obtain ⟨k, bits, t', h1, h2, h3⟩ := hex
    exact Or.inr (key k h1 bits t' h2 h3)
  · left
    refine ⟨?_, fun k bits t' hk he hb => hex ⟨k, bits, t', hk, he, hb⟩⟩
    unfold turn
    rcases decodeChar_total t h r hp with ⟨h1, _⟩ | ⟨bits, s, t', r', e1, e2, e3, e4, e5, e6, e7, e8⟩
    · rw [h1]
    · by_cases hs : s < 256
      · exfalso
        apply hex
        refine ⟨.lit (BitVec.ofNat 8 s), bits, t', trivial, ?_, ⟨_, e7.symm⟩⟩
        rw [encodeToken, BitVec.toNat_ofNat, Nat.mod_eq_of_lt hs, e1]
      · rw [e5]
        simp only
        rw [if_neg hs]
        cases hq : posOf r'.rest with
        | none => rw [(decodePosition_posOf r' e6).1 hq]
        | some pk =>
          exfalso
          obtain ⟨q1, q2, q3⟩ := posOf_decode r'.rest pk.1 pk.2 hq
          apply hex
          refine ⟨.copy (s - 253) pk.1, bits ++ encodePosition pk.1, t', ⟨by omega, by omega, q1⟩, ?_, ?_⟩
          · rw [encodeToken, show 255 - 2 + (s - 253) = s by omega, e1]; rfl
          · refine ⟨r'.rest.drop pk.2, ?_⟩
            rw [e7, ← q3, List.append_assoc, List.take_append_drop]

theorem run_tokens : ∀ (toks : List Token) (fuel : Nat) (t : Tree) (r : Reader) (d : Ring) (out : List Byte) (bits tail : List Bool) (t' : Tree),
    Inv t none → t.n = 314 → (∀ k ∈ toks, k.Valid) → encodeFrom t toks = .ok (bits, t') → r.ptr ≤ r.bits.length →
    r.rest = bits ++ tail → RingOk d out → (toks.foldl Token.apply (history ++ out)).length < 2 ^ 32 + 4083 →
    ∃ r' d' out', expandLoop (fuel + toks.length) t r d out = expandLoop fuel t' r' d' out' ∧ r'.ptr ≤ r'.bits.length ∧
      r'.rest = tail ∧ RingOk d' out' ∧ history ++ out' = toks.foldl Token.apply (history ++ out) ∧ Inv t' none ∧ t'.n = 314 := by
  intro toks
  induction toks with
  | nil =>
    intro fuel t r d out bits tail t' h hn _ he hp hr hd _
    obtain ⟨rfl, rfl⟩ := Prod.mk.inj (Except.ok.inj he)
    exact ⟨r, d, out, rfl, hp, hr, hd, rfl, h, hn⟩
  | cons k ks ih =>
    intro fuel t r d out bits tail t' h hn hv he hp hr hd hsz
    obtain ⟨b1, t1, e1, e2, e3, e4⟩ := encodeToken_ok t h hn k (hv k (List.mem_cons_self ..))
    rw [encodeFrom, e1] at he
    replace he : (encodeFrom t1 ks >>= fun rest => pure (b1 ++ rest.1, rest.2)) = .ok (bits, t') := he
    cases hx : encodeFrom t1 ks with
    | error e => rw [hx] at he; cases he
    | ok x =>
      rw [hx] at he
      obtain ⟨rfl, rfl⟩ := Prod.mk.inj (Except.ok.inj he)
      have hmono := foldl_length ks (k.apply (history ++ out))
      have hm2 := apply_length k (history ++ out)
      have hz : 12 + out.length < u32Max := by
        rw [List.foldl_cons] at hsz
        rw [List.length_append, history_length] at hm2
        unfold u32Max
        omega
      obtain ⟨r1, d1, out1, f1, f2, f3, f4, f5⟩ := turn_token t h hn k (hv k (List.mem_cons_self ..)) b1 t1 e1 r
        (x.1 ++ tail) hp (by rw [hr, List.append_assoc]) d out hd
      rw [List.foldl_cons, ← f5] at hsz
      obtain ⟨r2, d2, out2, g1, g2, g3, g4, g5, g6⟩ := ih fuel t1 r1 d1 out1 x.1 tail x.2 e2 e3
        (fun k' hk' => hv k' (List.mem_cons_of_mem _ hk')) hx f2 f3 f4 hsz
      refine ⟨r2, d2, out2, ?_, g2, g3, g4, ?_, g6⟩
      · rw [List.length_cons, ← Nat.add_assoc, expandLoop, if_pos hz, f1]
        exact g1
      · rw [g5, f5, List.foldl_cons]

theorem encodeFrom_ok : ∀ (toks : List Token) (t : Tree), Inv t none → t.n = 314 → (∀ k ∈ toks, k.Valid) →
    ∃ bits t', encodeFrom t toks = .ok (bits, t') ∧ Inv t' none ∧ t'.n = 314 ∧ toks.length ≤ bits.length := by
  intro toks
  induction toks with
  | nil => intro t h hn _; exact ⟨[], t, rfl, h, hn, Nat.le_refl _⟩
  | cons k ks ih =>
    intro t h hn hv
    obtain ⟨b1, t1, e1, e2, e3, e4⟩ := encodeToken_ok t h hn k (hv k (List.mem_cons_self ..))
    obtain ⟨b2, t2, f1, f2, f3, f4⟩ := ih t1 e2 e3 (fun k' hk' => hv k' (List.mem_cons_of_mem _ hk'))
    refine ⟨b1 ++ b2, t2, ?_, f2, f3, ?_⟩
    · rw [encodeFrom, e1]
      show (encodeFrom t1 ks >>= _) = _
      rw [f1]; rfl
    · have := List.length_pos_iff.mpr e4
      rw [List.length_append, List.length_cons]; omega

theorem encodeFrom_append : ∀ (xs ys : List Token) (t : Tree) (b1 b2 : List Bool) (t1 t2 : Tree),
    encodeFrom t xs = .ok (b1, t1) → encodeFrom t1 ys = .ok (b2, t2) → encodeFrom t (xs ++ ys) = .ok (b1 ++ b2, t2) := by
  intro xs
  induction xs with
  | nil =>
    intro ys t b1 b2 t1 t2 h1 h2
    obtain ⟨rfl, rfl⟩ := Prod.mk.inj (Except.ok.inj h1)
    exact h2
  | cons k ks ih =>
    intro ys t b1 b2 t1 t2 h1 h2
    rw [encodeFrom] at h1
    rw [List.cons_append, encodeFrom]
    cases hk : encodeToken t k with
    | error e => rw [hk] at h1; cases h1
    | ok x =>
      rw [hk] at h1
      replace h1 : (encodeFrom x.2 ks >>= fun rest => pure (x.1 ++ rest.1, rest.2)) = .ok (b1, t1) := h1
      cases hx : encodeFrom x.2 ks with
      | error e => rw [hx] at h1; cases h1
      | ok y =>
        rw [hx] at h1
        obtain ⟨rfl, rfl⟩ := Prod.mk.inj (Except.ok.inj h1)
        show (encodeFrom x.2 (ks ++ ys) >>= _) = _
        rw [ih ys x.2 y.1 b2 y.2 t2 hx h2, List.append_assoc]
        rfl

/-- The loop ends, with the bytes of some tokens, and stops only where no token follows. -/
theorem run_total : ∀ (fuel : Nat) (t : Tree) (r : Reader) (d : Ring) (out : List Byte), Inv t none → t.n = 314 →
    r.ptr ≤ r.bits.length → r.rest.length < fuel → RingOk d out →
    ∃ toks bits t' tail out', (∀ k ∈ toks, k.Valid) ∧ encodeFrom t toks = .ok (bits, t') ∧ r.rest = bits ++ tail ∧
      expandLoop fuel t r d out = .ok out' ∧ history ++ out' = toks.foldl Token.apply (history ++ out) ∧
      (u32Max ≤ 12 + out'.length ∨ ∀ k b t'', k.Valid → encodeToken t' k = .ok (b, t'') → ¬ b <+: tail) := by
  intro fuel
  induction fuel with
  | zero => intro t r d out _ _ _ hf; omega
  | succ fuel ih =>
    intro t r d out h hn hp hf hd
    rw [expandLoop]
    by_cases hz : 12 + out.length < u32Max
    · rw [if_pos hz]
      rcases turn_total t h hn r hp d out hd with ⟨h1, h2⟩ | ⟨k, bits, t', tail, h1, h2, h3⟩
      · rw [h1]
        exact ⟨[], [], t, r.rest, out, (fun k hk => by cases hk), rfl, rfl, rfl, rfl, Or.inr (fun k b t'' a b => h2 k _ t'' a b)⟩
      · obtain ⟨b2, t2, e1, e2, e3, e4⟩ := encodeToken_ok t h hn k h1
        rw [h2] at e1
        obtain ⟨rfl, rfl⟩ := Prod.mk.inj (Except.ok.inj e1)
        obtain ⟨r', d', out', f1, f2, f3, f4, f5⟩ := turn_token t h hn k h1 bits t' h2 r tail hp h3 d out hd
        have hlen := List.length_pos_iff.mpr e4
        obtain ⟨toks, b3, t3, tail3, out3, g1, g2, g3, g4, g5, g6⟩ := ih t' r' d' out' e2 e3 f2
          (by rw [h3, List.length_append] at hf; rw [f3]; omega) f4
        refine ⟨k :: toks, bits ++ b3, t3, tail3, out3, ?_, ?_, ?_, ?_, ?_, g6⟩
        · intro k' hk'
          rcases List.mem_cons.mp hk' with rfl | hk'
          · exact h1
          · exact g1 k' hk'
        · rw [encodeFrom, h2]
          show (encodeFrom t' toks >>= _) = _
          rw [g2]; rfl
        · rw [h3, ← f3, g3, List.append_assoc]
        · rw [f1]; exact g4
        · rw [g5, f5, List.foldl_cons]
    · rw [if_neg hz]
      exact ⟨[], [], t, r.rest, out, (fun k hk => by cases hk), rfl, rfl, rfl, rfl, Or.inl (by omega)⟩

/-- Two tokens whose codes start the same bits are the same. -/
theorem token_unique (t : Tree) (h : Inv t none) (hn : t.n = 314) (k1 k2 : Token) (h1 : k1.Valid) (h2 : k2.Valid)
    (b1 b2 c1 c2 : List Bool) (t1 t2 : Tree) (e1 : encodeToken t k1 = .ok (b1, t1)) (e2 : encodeToken t k2 = .ok (b2, t2))
    (he : b1 ++ c1 = b2 ++ c2) : k1 = k2 := by
  -- the symbol and the bits it leaves
  have key : ∀ (k : Token), k.Valid → ∀ b t', encodeToken t k = .ok (b, t') →
      ∃ s sb, Code t (t.S t.root) sb s ∧ sb.length < t.count + 1 ∧ s < 314 ∧ (∃ u, update t s = .ok u) ∧
        (match k with
          | .lit x => s = x.toNat ∧ b = sb
          | .copy len back => s = 255 - 2 + len ∧ b = sb ++ encodePosition back) := by
    intro k hk b t' e
    cases k with
    | lit x =>
      have := x.isLt
      obtain ⟨bits2, t2, a1, a2, a3, a4, a5, a6, a7⟩ := encodeChar_spec t h x.toNat (by omega)
      rw [encodeToken, a1] at e
      obtain ⟨rfl, rfl⟩ := Prod.mk.inj (Except.ok.inj e)
      exact ⟨_, _, a2, a7, by omega, ⟨_, a3⟩, rfl, rfl⟩
    | copy len back =>
      have hv : 3 ≤ len ∧ len ≤ 60 ∧ back < 4096 := hk
      obtain ⟨bits2, t2, a1, a2, a3, a4, a5, a6, a7⟩ := encodeChar_spec t h (255 - 2 + len) (by omega)
      rw [encodeToken, a1] at e
      obtain ⟨rfl, rfl⟩ := Prod.mk.inj (Except.ok.inj e)
      exact ⟨_, _, a2, a7, by omega, ⟨_, a3⟩, rfl, rfl⟩
  obtain ⟨s1, sb1, p1, p2, p3, ⟨u1, p4⟩, p5⟩ := key k1 h1 b1 t1 e1
  obtain ⟨s2, sb2, q1, q2, q3, ⟨u2, q4⟩, q5⟩ := key k2 h2 b2 t2 e2
  have sb : ∀ (k : Token) (b sb c : List Bool) (s : Nat), (match k with
          | .lit x => s = x.toNat ∧ b = sb
          | .copy len back => s = 255 - 2 + len ∧ b = sb ++ encodePosition back) → ∃ x, b ++ c = sb ++ x := by
    intro k b sb c s hk
    cases k with
    | lit x => exact ⟨c, by rw [hk.2]⟩
    | copy len back => exact ⟨encodePosition back ++ c, by rw [hk.2, List.append_assoc]⟩
  obtain ⟨x1, hx1⟩ := sb k1 b1 sb1 c1 s1 p5
  obtain ⟨x2, hx2⟩ := sb k2 b2 sb2 c2 s2 q5
  obtain ⟨r1, f1, f2, f3⟩ := decodeChar_code t h sb1 s1 u1 p1 p2 p4 ⟨b1 ++ c1, 0, []⟩ x1 (Nat.zero_le _)
    (by show (b1 ++ c1).drop 0 ++ [] = _; rw [List.drop_zero, List.append_nil, hx1])
  obtain ⟨r2, g1, g2, g3⟩ := decodeChar_code t h sb2 s2 u2 q1 q2 q4 ⟨b1 ++ c1, 0, []⟩ x2 (Nat.zero_le _)
    (by show (b1 ++ c1).drop 0 ++ [] = _; rw [List.drop_zero, List.append_nil, he, hx2])
  rw [f1] at g1
  have hinj := Except.ok.inj g1
  have hs : s1 = s2 := congrArg Prod.fst hinj
  have hr : r1 = r2 := congrArg (fun z => z.2.2) hinj
  have hxx : x1 = x2 := by rw [← f3, ← g3, hr]
  subst hs hxx
  cases k1 with
  | lit y1 =>
    cases k2 with
    | lit y2 => rw [BitVec.eq_of_toNat_eq (p5.1.symm.trans q5.1)]
    | copy len back =>
      have := y1.isLt
      have ha := p5.1; have hb := q5.1
      have hv : 3 ≤ len ∧ len ≤ 60 ∧ back < 4096 := h2
      omega
  | copy len1 back1 =>
    have hv1 : 3 ≤ len1 ∧ len1 ≤ 60 ∧ back1 < 4096 := h1
    cases k2 with
    | lit y2 =>
      have := y2.isLt
      have ha := p5.1; have hb := q5.1
      omega
    | copy len2 back2 =>
      have hv2 : 3 ≤ len2 ∧ len2 ≤ 60 ∧ back2 < 4096 := h2
      have hl : len1 = len2 := by have ha := p5.1; have hb := q5.1; omega
      have w1 : encodePosition back1 ++ c1 = x1 := by
        have := hx1
        rw [p5.2, List.append_assoc] at this
        exact List.append_cancel_left this
      have w2 : encodePosition back2 ++ c2 = x1 := by
        have := hx2
        rw [q5.2, List.append_assoc] at this
        exact List.append_cancel_left this
      have z1 := posOf_encode back1 hv1.2.2 c1
      have z2 := posOf_encode back2 hv2.2.2 c2
      rw [w1] at z1
      rw [w2, z1] at z2
      have : back1 = back2 := congrArg Prod.fst (Option.some.inj z2)
      rw [hl, this]

theorem tokens_unique : ∀ (xs ys : List Token) (t : Tree), Inv t none → t.n = 314 → (∀ k ∈ xs, k.Valid) → (∀ k ∈ ys, k.Valid) →
    ∀ (b1 b2 c1 c2 : List Bool) (t1 t2 : Tree), encodeFrom t xs = .ok (b1, t1) → encodeFrom t ys = .ok (b2, t2) →
    b1 ++ c1 = b2 ++ c2 → xs <+: ys ∨ ys <+: xs := by
  intro xs
  induction xs with
  | nil => intro ys t _ _ _ _ b1 b2 c1 c2 t1 t2 _ _ _; exact Or.inl ⟨ys, rfl⟩
  | cons x xs ih =>
    intro ys t h hn hx hy b1 b2 c1 c2 t1 t2 e1 e2 he
    cases ys with
    | nil => exact Or.inr ⟨x :: xs, rfl⟩
    | cons y ys =>
      obtain ⟨p1, u1, p2, p3, p4, p5⟩ := encodeToken_ok t h hn x (hx x (List.mem_cons_self ..))
      obtain ⟨q1, v1, q2, q3, q4, q5⟩ := encodeToken_ok t h hn y (hy y (List.mem_cons_self ..))
      obtain ⟨p6, u2, p7, _⟩ := encodeFrom_ok xs u1 p3 p4 (fun k' hk' => hx k' (List.mem_cons_of_mem _ hk'))
      obtain ⟨q6, v2, q7, _⟩ := encodeFrom_ok ys v1 q3 q4 (fun k' hk' => hy k' (List.mem_cons_of_mem _ hk'))
      rw [encodeFrom, p2] at e1
      replace e1 : (encodeFrom u1 xs >>= fun rest => pure (p1 ++ rest.1, rest.2)) = .ok (b1, t1) := e1
      rw [p7] at e1
      obtain ⟨rfl, rfl⟩ := Prod.mk.inj (Except.ok.inj e1)
      rw [encodeFrom, q2] at e2
      replace e2 : (encodeFrom v1 ys >>= fun rest => pure (q1 ++ rest.1, rest.2)) = .ok (b2, t2) := e2
      rw [q7] at e2
      obtain ⟨rfl, rfl⟩ := Prod.mk.inj (Except.ok.inj e2)
      simp only [List.append_assoc] at he
      have hxy := token_unique t h hn x y (hx x (List.mem_cons_self ..)) (hy y (List.mem_cons_self ..)) p1 q1 _ _ u1 v1 p2 q2 he
      subst hxy
      rw [p2] at q2
      obtain ⟨rfl, rfl⟩ := Prod.mk.inj (Except.ok.inj q2)
      rcases ih ys u1 p3 p4 (fun k' hk' => hx k' (List.mem_cons_of_mem _ hk')) (fun k' hk' => hy k' (List.mem_cons_of_mem _ hk'))
        _ _ _ _ _ _ p7 q7 (List.append_cancel_left he) with hh | hh
      · exact Or.inl (List.cons_prefix_cons.mpr ⟨rfl, hh⟩)
      · exact Or.inr (List.cons_prefix_cons.mpr ⟨rfl, hh⟩)

theorem copyFrom_prefix (back : Nat) : ∀ (len : Nat) (h : List Byte), h <+: copyFrom back len h := by
  intro len
  induction len with
  | zero => intro h; exact ⟨[], List.append_nil _⟩
  | succ len ih => intro h; rw [copyFrom]; exact (List.prefix_append _ _).trans (ih _)

theorem foldl_prefix : ∀ (ks : List Token) (h : List Byte), h <+: ks.foldl Token.apply h := by
  intro ks
  induction ks with
  | nil => intro h; exact ⟨[], List.append_nil _⟩
  | cons k ks ih =>
    intro h
    rw [List.foldl_cons]
    refine List.IsPrefix.trans ?_ (ih _)
    cases k with
    | lit b => exact List.prefix_append _ _
    | copy len back => exact copyFrom_prefix back len h

/-- What a history grown from `history` holds behind it. -/
theorem unpack_of (toks : List Token) (out : List Byte) (h : history ++ out = toks.foldl Token.apply (history ++ [])) :
    unpack toks = out := by
  unfold unpack
  rw [List.append_nil] at h
  rw [← h, show 4096 = history.length from history_length.symm, List.drop_left]

end Lzhuf
end Fox
