import Verif.Model.Lzw
import Verif.Spec.Lzw
/-
The LZW expander does what the table of strings says.
-/
namespace Fox
namespace Lzw
open Spec.Lzw
open Lzhuf (Reader)

/-- The bits still to be read. -/
def rest (r : Reader) : List Bool := r.bits.drop r.ptr ++ bits r.src

theorem bits_cons (x : Byte) (l : List Byte) : bits (x :: l) = lsbBits x ++ bits l := by
  unfold bits; rw [List.flatMap_cons]; rfl

theorem getBitFrom_spec : ∀ (src : List Byte) (bs : List Bool) (ptr : Nat), ptr ≤ bs.length →
    (bs.drop ptr ++ bits src = [] → getBitFrom bs ptr src = .error .io) ∧
    ∀ b tail, bs.drop ptr ++ bits src = b :: tail →
      ∃ r, getBitFrom bs ptr src = .ok (b, r) ∧ r.ptr ≤ r.bits.length ∧ rest r = tail := by
  intro src
  induction src with
  | nil =>
    intro bs ptr hp
    unfold getBitFrom
    by_cases h : ptr < bs.length
    · rw [List.getElem?_eq_getElem h]
      have hd : bs.drop ptr = bs[ptr] :: bs.drop (ptr + 1) := List.drop_eq_getElem_cons h
      constructor
      · intro e; rw [hd] at e; cases e
      · intro b tail e
        rw [hd] at e
        injection e with e1 e2
        refine ⟨⟨bs, ptr + 1, []⟩, by rw [e1], by show ptr + 1 ≤ bs.length; omega, e2⟩
    · rw [List.getElem?_eq_none (by omega)]
      constructor
      · intro _; rfl
      · intro b tail e
        rw [List.drop_eq_nil_of_le (by omega)] at e
        cases e
  | cons x src ih =>
    intro bs ptr hp
    unfold getBitFrom
    by_cases h : ptr < bs.length
    · rw [List.getElem?_eq_getElem h]
      have hd : bs.drop ptr = bs[ptr] :: bs.drop (ptr + 1) := List.drop_eq_getElem_cons h
      constructor
      · intro e; rw [hd] at e; cases e
      · intro b tail e
        rw [hd] at e
        injection e with e1 e2
        refine ⟨⟨bs, ptr + 1, x :: src⟩, by rw [e1], by show ptr + 1 ≤ bs.length; omega, e2⟩
    · rw [List.getElem?_eq_none (by omega)]
      have hnil : bs.drop ptr = [] := List.drop_eq_nil_of_le (by omega)
      rw [hnil, bits_cons]
      simp only []
      split
      · have := ih (bs.drop ptr ++ lsbBits x) 0 (by omega)
        rw [List.drop_zero, hnil, List.append_assoc] at this
        exact this
      · have := ih (bs ++ lsbBits x) ptr (by rw [List.length_append]; omega)
        rw [List.drop_append_of_le_length hp, hnil, List.append_assoc] at this
        exact this

theorem value_cons (b : Bool) (bs : List Bool) : value (b :: bs) = b.toNat + 2 * value bs := rfl

theorem value_lt : ∀ bs : List Bool, value bs < 2 ^ bs.length := by
  intro bs
  induction bs with
  | nil => decide
  | cons b bs ih =>
    rw [value_cons, List.length_cons, Nat.pow_succ]
    have hb : b.toNat ≤ 1 := by cases b <;> decide
    omega

theorem getCode_spec : ∀ (m i ans : Nat) (r : Reader), r.ptr ≤ r.bits.length → ans < 2 ^ i →
    ((rest r).length < m → getCode m i ans r = .error .io) ∧
    (m ≤ (rest r).length → ∃ r', getCode m i ans r = .ok (ans + 2 ^ i * value ((rest r).take m), r') ∧
      r'.ptr ≤ r'.bits.length ∧ rest r' = (rest r).drop m) := by
  intro m
  induction m with
  | zero =>
    intro i ans r hp ha
    refine ⟨fun h => absurd h (Nat.not_lt_zero _), fun _ => ⟨r, ?_, hp, rfl⟩⟩
    rw [List.take_zero]
    show Except.ok (ans, r) = .ok (ans + 2 ^ i * 0, r)
    rw [Nat.mul_zero, Nat.add_zero]
  | succ m ih =>
    intro i ans r hp ha
    have hs := getBitFrom_spec r.src r.bits r.ptr hp
    rw [getCode]
    cases hr : rest r with
    | nil =>
      rw [hs.1 hr]
      exact ⟨fun _ => rfl, fun h => by rw [List.length_nil] at h; omega⟩
    | cons b tail =>
      obtain ⟨r1, h1, h2, h3⟩ := hs.2 b tail hr
      rw [h1]
      simp only
      have hor : ans ||| (b.toNat <<< i) = ans + 2 ^ i * b.toNat := by
        rw [Nat.or_comm, ← Nat.shiftLeft_add_eq_or_of_lt ha, Nat.shiftLeft_eq, Nat.mul_comm, Nat.add_comm]
      have hlt : ans + 2 ^ i * b.toNat < 2 ^ (i + 1) := by
        rw [Nat.pow_succ]
        cases b
        · show ans + 2 ^ i * 0 < _; omega
        · show ans + 2 ^ i * 1 < _; omega
      rw [hor]
      obtain ⟨i1, i2⟩ := ih (i + 1) (ans + 2 ^ i * b.toNat) r1 h2 hlt
      rw [h3] at i1 i2
      refine ⟨fun h => i1 (by rw [List.length_cons] at h; omega), fun h => ?_⟩
      obtain ⟨r', j1, j2, j3⟩ := i2 (by rw [List.length_cons] at h; omega)
      refine ⟨r', ?_, j2, by rw [j3, List.drop_succ_cons]⟩
      rw [j1, List.take_succ_cons, value_cons, Nat.mul_add, Nat.pow_succ, Nat.mul_assoc, Nat.add_assoc]

theorem getCode_ok (m : Nat) (r : Reader) (hp : r.ptr ≤ r.bits.length) (h : m ≤ (rest r).length) :
    ∃ r', getCode m 0 0 r = .ok (value ((rest r).take m), r') ∧ r'.ptr ≤ r'.bits.length ∧ rest r' = (rest r).drop m := by
  obtain ⟨r', h1, h2, h3⟩ := (getCode_spec m 0 0 r hp (by decide)).2 h
  exact ⟨r', by rw [h1]; simp, h2, h3⟩

theorem getCode_short (m : Nat) (r : Reader) (hp : r.ptr ≤ r.bits.length) (h : (rest r).length < m) :
    getCode m 0 0 r = .error .io := (getCode_spec m 0 0 r hp (by decide)).1 h

/-! The dictionary -/

theorem look_small (t : List (List Byte)) (c : Nat) (h : c < 256) : look t c = some [BitVec.ofNat 8 c] := by
  unfold look; rw [if_pos h]

theorem look_lt (t : List (List Byte)) (c : Nat) (s : List Byte) (h : look t c = some s) : c < 256 + t.length := by
  unfold look at h
  by_cases e : c < 256
  · omega
  · rw [if_neg e] at h
    have := (List.getElem?_eq_some_iff.mp h).1
    omega

theorem look_none (t : List (List Byte)) (c : Nat) (h : 256 + t.length ≤ c) : look t c = none := by
  unfold look
  rw [if_neg (by omega), List.getElem?_eq_none (by omega)]

theorem look_some (t : List (List Byte)) (c : Nat) (h : c < 256 + t.length) : ∃ s, look t c = some s := by
  unfold look
  by_cases e : c < 256
  · exact ⟨_, if_pos e⟩
  · rw [if_neg e, List.getElem?_eq_getElem (by omega)]; exact ⟨_, rfl⟩

theorem look_append (t u : List (List Byte)) (c : Nat) (h : c < 256 + t.length) : look (t ++ u) c = look t c := by
  unfold look
  by_cases e : c < 256
  · rw [if_pos e, if_pos e]
  · rw [if_neg e, if_neg e, List.getElem?_append_left (by omega)]

theorem look_last (t : List (List Byte)) (s : List Byte) : look (t ++ [s]) (256 + t.length) = some s := by
  unfold look
  rw [if_neg (by omega), Nat.add_sub_cancel_left, List.getElem?_append_right (Nat.le_refl _), Nat.sub_self]; rfl

/-- The dictionary links the strings of the table. -/
def DictOk (d : Dict) (t : List (List Byte)) : Prop :=
  ∀ c, (look t c = none → d c = none) ∧ (c < 256 → d c = some (c, c)) ∧
    ∀ s, 256 ≤ c → look t c = some s → ∃ b x sb, d c = some (b, BitVec.toNat (w := 8) x) ∧ b < c ∧ look t b = some sb ∧ s = sb ++ [x]

theorem DictOk.ne_nil {d : Dict} {t} (h : DictOk d t) (c : Nat) (s : List Byte) (hl : look t c = some s) : s ≠ [] := by
  by_cases e : c < 256
  · rw [look_small t c e] at hl; cases hl; exact List.cons_ne_nil _ _
  · obtain ⟨b, x, sb, _, _, _, h4⟩ := (h c).2.2 s (by omega) hl
    rw [h4]; simp

theorem start_ok : DictOk startDict [] := by
  intro c
  refine ⟨fun h => ?_, fun h => ?_, fun s h1 h2 => ?_⟩
  · unfold startDict
    rw [if_neg]
    intro e
    rw [look_small [] c (by omega)] at h; cases h
  · unfold startDict; rw [if_pos (by omega)]
  · have := look_lt [] c s h2; simp at this; omega

theorem getString_ok {d : Dict} {t} (h : DictOk d t) : ∀ (fuel c : Nat) (s acc : List Byte), c < fuel → look t c = some s →
    getString d fuel c acc = .ok (s ++ acc) := by
  intro fuel
  induction fuel with
  | zero => intro c s acc hc; omega
  | succ fuel ih =>
    intro c s acc hc hl
    rw [getString]
    by_cases e : c < 256
    · rw [(h c).2.1 e]
      simp only
      rw [if_pos ⟨trivial, by omega⟩]
      rw [look_small t c e] at hl; cases hl; rfl
    · obtain ⟨b, x, sb, h1, h2, h3, h4⟩ := (h c).2.2 s (by omega) hl
      rw [h1]
      simp only
      rw [if_neg (by omega), ih b sb _ (by omega) h3, h4, show BitVec.ofNat 8 x.toNat = x by simp, List.append_assoc]
      rfl

theorem insert_ok {d : Dict} {t : List (List Byte)} (h : DictOk d t) (p : Nat) (prev : List Byte) (x : Byte) (hp : look t p = some prev) :
    DictOk (d.insert (256 + t.length) (p, x.toNat)) (t ++ [prev ++ [x]]) := by
  have hpl := look_lt t p prev hp
  intro c
  unfold Dict.insert
  by_cases e : c = 256 + t.length
  · subst e
    rw [look_last]
    refine ⟨(fun h => by cases h), (fun h => by omega), fun s _ hs => ?_⟩
    cases hs
    refine ⟨p, x, prev, if_pos rfl, hpl, ?_, rfl⟩
    rw [look_append t _ p hpl, hp]
  · rw [if_neg e]
    by_cases e2 : c < 256 + t.length
    · rw [look_append t _ c e2]
      refine ⟨(h c).1, (h c).2.1, fun s h1 h2 => ?_⟩
      obtain ⟨b, y, sb, q1, q2, q3, q4⟩ := (h c).2.2 s h1 h2
      exact ⟨b, y, sb, q1, q2, by rw [look_append t _ b (look_lt t b sb q3), q3], q4⟩
    · have hn := look_none t c (by omega)
      have hn2 : look (t ++ [prev ++ [x]]) c = none := look_none _ c (by rw [List.length_append, List.length_singleton]; omega)
      rw [hn2]
      exact ⟨fun _ => (h c).1 hn, (fun h => by omega), fun s _ hs => by cases hs⟩

/-- The state of the expander inside a chunk. -/
structure Inside (st : State) (t : List (List Byte)) (prev : List Byte) : Prop where
  dict : DictOk st.dict t
  full : t.length ≤ 3840
  curr : st.curr = if t.length = 0 then none else some (255 + t.length)
  code : ∃ p, st.prevCode = some p ∧ look t p = some prev
  str : st.prevStr = prev

theorem advance_room (t : List (List Byte)) (curr : Option Nat) (hc : curr = if t.length = 0 then none else some (255 + t.length))
    (h : t.length < 3840) : advance curr = (some (256 + t.length), some (256 + t.length)) := by
  unfold advance
  by_cases e : t.length = 0
  · rw [hc, if_pos e, e]; rfl
  · rw [hc, if_neg e]
    simp only
    rw [show 255 + t.length + 1 = 256 + t.length by omega, if_neg (show ¬ 256 + t.length ≤ 255 by omega), if_neg (by omega)]

theorem advance_full (t : List (List Byte)) (curr : Option Nat) (hc : curr = if t.length = 0 then none else some (255 + t.length))
    (h : t.length = 3840) : advance curr = (some 4095, none) := by
  rw [hc, if_neg (by omega), h]; rfl

theorem step_known (st : State) (t : List (List Byte)) (prev s : List Byte) (c : Nat) (h : Inside st t prev) (hl : look t c = some s) :
    ∃ st', stepCode st c = .ok st' ∧ Inside st' (grow t (prev ++ s.take 1)) s := by
  obtain ⟨h1, h2, h3, ⟨p, h4, h5⟩, h6⟩ := h
  have hc := look_lt t c s hl
  have hg := getString_ok h1 4097 c s [] (by omega) hl
  rw [List.append_nil] at hg
  have hsome : ∃ v, st.dict c = some v := by
    by_cases e : c < 256
    · exact ⟨_, (h1 c).2.1 e⟩
    · obtain ⟨b, x, sb, q1, _⟩ := (h1 c).2.2 s (by omega) hl
      exact ⟨_, q1⟩
  obtain ⟨v, hv⟩ := hsome
  have hso : ∀ nx, stringOf st nx c = .ok s := by
    intro nx; unfold stringOf; rw [hv]; exact hg
  have hne := DictOk.ne_nil h1 c s hl
  obtain ⟨x, s', rfl⟩ := List.exists_cons_of_ne_nil hne
  unfold stepCode
  rw [h4]
  simp only
  by_cases e : t.length < 3840
  · rw [advance_room t st.curr h3 e]
    simp only
    rw [hso]
    refine ⟨_, rfl, ?_⟩
    unfold grow
    rw [if_pos e]
    refine ⟨insert_ok h1 p prev x h5, by rw [List.length_append, List.length_singleton]; omega, ?_, ⟨c, rfl, ?_⟩, rfl⟩
    · show some _ = _
      rw [List.length_append, List.length_singleton, if_neg (by omega)]
      congr 1; omega
    · rw [look_append t _ c hc, hl]
  · have e2 : t.length = 3840 := by omega
    rw [advance_full t st.curr h3 e2]
    simp only
    rw [hso]
    refine ⟨_, rfl, ?_⟩
    unfold grow
    rw [if_neg e]
    refine ⟨h1, h2, ?_, ⟨c, rfl, hl⟩, rfl⟩
    show some 4095 = _
    rw [e2]; rfl

theorem step_new (st : State) (t : List (List Byte)) (prev : List Byte) (h : Inside st t prev) (e : t.length < 3840) :
    ∃ st', stepCode st (256 + t.length) = .ok st' ∧ Inside st' (grow t (prev ++ prev.take 1)) (prev ++ prev.take 1) := by
  obtain ⟨h1, h2, h3, ⟨p, h4, h5⟩, h6⟩ := h
  have hne := DictOk.ne_nil h1 p prev h5
  obtain ⟨x, s', rfl⟩ := List.exists_cons_of_ne_nil hne
  have hd := (h1 (256 + t.length)).1 (look_none t _ (Nat.le_refl _))
  unfold stepCode
  rw [h4]
  simp only
  rw [advance_room t st.curr h3 e]
  have hso : stringOf st (some (256 + t.length)) (256 + t.length) = .ok (x :: s' ++ [x]) := by
    unfold stringOf; rw [hd, h6]; simp
  simp only
  rw [hso]
  refine ⟨_, rfl, ?_⟩
  unfold grow
  rw [if_pos e]
  refine ⟨insert_ok h1 p (x :: s') x h5, by rw [List.length_append, List.length_singleton]; omega, ?_, ⟨_, rfl, ?_⟩, rfl⟩
  · show some _ = _
    rw [List.length_append, List.length_singleton, if_neg (by omega)]
    congr 1; omega
  · exact look_last t _

theorem step_bad (st : State) (t : List (List Byte)) (prev : List Byte) (c : Nat) (h : Inside st t prev) (hl : look t c = none)
    (hc : ¬ (c = 256 + t.length ∧ t.length < 3840)) : stepCode st c = .error .formatParse := by
  obtain ⟨h1, h2, h3, ⟨p, h4, h5⟩, h6⟩ := h
  have hne := DictOk.ne_nil h1 p prev h5
  obtain ⟨x, s', rfl⟩ := List.exists_cons_of_ne_nil hne
  have hd := (h1 c).1 hl
  unfold stepCode
  rw [h4]
  simp only
  by_cases e : t.length < 3840
  · rw [advance_room t st.curr h3 e]
    have hso : stringOf st (some (256 + t.length)) c = .error .formatParse := by
      unfold stringOf; rw [hd, h6]
      simp only
      rw [if_pos (fun q => hc ⟨q, e⟩)]
    simp only
    rw [hso]; rfl
  · rw [advance_full t st.curr h3 (by omega)]
    have hso : stringOf st none c = .error .formatParse := by
      unfold stringOf; rw [hd, h6]
    simp only
    rw [hso]; rfl

theorem step_first (c : Nat) (hc : c < 256) : ∃ st, stepCode State.start c = .ok st ∧ Inside st [] [BitVec.ofNat 8 c] := by
  have hso : stringOf State.start none c = .ok [BitVec.ofNat 8 c] := by
    unfold stringOf
    rw [show State.start.dict = startDict from rfl, (start_ok c).2.1 hc]
    simp only
    rw [getString_ok start_ok 4097 c _ [] (by omega) (look_small [] c hc), List.append_nil]
  unfold stepCode
  simp only [State.start]
  rw [show (⟨startDict, none, none, []⟩ : State) = State.start from rfl, hso]
  exact ⟨_, rfl, start_ok, by decide, rfl, ⟨c, rfl, look_small [] c hc⟩, rfl⟩

theorem step_first_bad (c : Nat) (hc : 256 ≤ c) : stepCode State.start c = .error .panic := by
  have hso : stringOf State.start none c = .error .panic := by
    unfold stringOf
    rw [show State.start.dict = startDict from rfl, (start_ok c).1 (look_none [] c (by simpa using hc))]
    rfl
  unfold stepCode
  simp only [State.start]
  rw [show (⟨startDict, none, none, []⟩ : State) = State.start from rfl, hso]
  rfl

end Lzw
end Fox
