import Verif.Proofs.Lzw
/-
Whole chunks and streams of LZW codes.
-/
namespace Fox
namespace Lzw
open Spec.Lzw
open Lzhuf (Reader)

theorem codes_length : ∀ (k : Nat) (bs : List Bool), 12 * k ≤ bs.length → (codes k bs).length = k := by
  intro k
  induction k with
  | zero => intro bs _; rfl
  | succ k ih =>
    intro bs h
    rw [codes, if_neg (by omega), List.length_cons, ih _ (by rw [List.length_drop]; omega)]

/-- The codes inside a chunk. -/
theorem chunkLoop_inside : ∀ (fuel left : Nat) (st : State) (r : Reader) (out : List Byte) (t : List (List Byte)) (prev : List Byte),
    Inside st t prev → r.ptr ≤ r.bits.length → (left + 11) / 12 < fuel →
    (decodeFrom t prev (codes ((left + 11) / 12) (rest r)) = none → chunkLoop fuel left st r out = .error .formatParse) ∧
    ∀ s, decodeFrom t prev (codes ((left + 11) / 12) (rest r)) = some s →
      ((rest r).length < 12 * ((left + 11) / 12) → ∃ r', chunkLoop fuel left st r out = .ok (out ++ s, r', true)) ∧
      (12 * ((left + 11) / 12) ≤ (rest r).length → ∃ r', chunkLoop fuel left st r out = .ok (out ++ s, r', false) ∧
        r'.ptr ≤ r'.bits.length ∧ rest r' = (rest r).drop (12 * ((left + 11) / 12))) := by
  intro fuel
  induction fuel with
  | zero => intro left st r out t prev _ _ hf; omega
  | succ fuel ih =>
    intro left st r out t prev hi hp hf
    rw [chunkLoop]
    by_cases hl : 0 < left
    · rw [if_pos hl]
      have hk : (left + 11) / 12 = (left - 12 + 11) / 12 + 1 := by omega
      rw [hk] at hf ⊢
      generalize hkk : (left - 12 + 11) / 12 = k at *
      rw [codes]
      by_cases hs : (rest r).length < 12
      · rw [if_pos hs, getCode_short 12 r hp hs]
        refine ⟨(fun h => by cases h), fun s h => ?_⟩
        cases h
        rw [List.append_nil]
        exact ⟨fun _ => ⟨r, rfl⟩, (fun h => by omega)⟩
      · rw [if_neg hs]
        obtain ⟨r1, g1, g2, g3⟩ := getCode_ok 12 r hp (by omega)
        rw [g1]
        simp only
        generalize hc : value ((rest r).take 12) = c
        have hlen : (rest r).length = (rest r1).length + 12 := by rw [g3, List.length_drop]; omega
        have fin : ∀ (st' : State) (t' : List (List Byte)) (w : List Byte), stepCode st c = .ok st' → Inside st' t' w →
            decodeFrom t prev (c :: codes k ((rest r).drop 12)) = (decodeFrom t' w (codes k ((rest r).drop 12))).map (w ++ ·) →
            (decodeFrom t prev (c :: codes k ((rest r).drop 12)) = none →
              (match stepCode st c with
                | .error e => Except.error e
                | .ok st => chunkLoop fuel (left - 12) st r1 (out ++ st.prevStr)) = .error .formatParse) ∧
            ∀ s, decodeFrom t prev (c :: codes k ((rest r).drop 12)) = some s →
              ((rest r).length < 12 * (k + 1) → ∃ r', (match stepCode st c with
                | .error e => Except.error e
                | .ok st => chunkLoop fuel (left - 12) st r1 (out ++ st.prevStr)) = .ok (out ++ s, r', true)) ∧
              (12 * (k + 1) ≤ (rest r).length → ∃ r', (match stepCode st c with
                | .error e => Except.error e
                | .ok st => chunkLoop fuel (left - 12) st r1 (out ++ st.prevStr)) = .ok (out ++ s, r', false) ∧
                r'.ptr ≤ r'.bits.length ∧ rest r' = (rest r).drop (12 * (k + 1))) := by
          intro st' t' w hst hin hdec
          rw [hst]
          simp only
          rw [hin.str]
          obtain ⟨i1, i2⟩ := ih (left - 12) st' r1 (out ++ w) t' w hin g2 (by omega)
          rw [hkk, g3] at i1 i2
          rw [hdec]
          constructor
          · intro h
            exact i1 (Option.map_eq_none_iff.mp h)
          · intro s h
            obtain ⟨s', h1, rfl⟩ := Option.map_eq_some_iff.mp h
            obtain ⟨j1, j2⟩ := i2 s' h1
            constructor
            · intro q
              obtain ⟨r', z⟩ := j1 (by rw [List.length_drop]; omega)
              exact ⟨r', by rw [z, List.append_assoc]⟩
            · intro q
              obtain ⟨r', z1, z2, z3⟩ := j2 (by rw [List.length_drop]; omega)
              exact ⟨r', by rw [z1, List.append_assoc], z2, by rw [z3, List.drop_drop]; congr 1; omega⟩
        cases hlk : look t c with
        | some w =>
          obtain ⟨st', a1, a2⟩ := step_known st t prev w c hi hlk
          exact fin st' _ w a1 a2 (by rw [decodeFrom, hlk])
        | none =>
          by_cases hb : c = 256 + t.length ∧ t.length < 3840
          · obtain ⟨st', a1, a2⟩ := step_new st t prev hi hb.2
            refine fin st' _ _ (by rw [hb.1]; exact a1) a2 ?_
            rw [decodeFrom, hlk]
            simp only
            rw [if_pos hb]
          · rw [step_bad st t prev c hi hlk hb]
            have hd : decodeFrom t prev (c :: codes k ((rest r).drop 12)) = none := by
              rw [decodeFrom, hlk]
              simp only
              rw [if_neg hb]
            rw [hd]
            exact ⟨fun _ => rfl, (fun s h => by cases h)⟩
    · rw [if_neg hl]
      have h0 : (left + 11) / 12 = 0 := by omega
      rw [h0, codes, decodeFrom]
      refine ⟨(fun h => by cases h), fun s h => ?_⟩
      cases h
      rw [List.append_nil, Nat.mul_zero]
      exact ⟨(fun h => by omega), fun _ => ⟨r, rfl, hp, rfl⟩⟩

/-- The error of a chunk that cannot be decoded. -/
def badChunk (cs : List Nat) : Err := if 256 ≤ cs.headD 0 then .panic else .formatParse

/-- A whole chunk. -/
theorem chunkLoop_start (left : Nat) (r : Reader) (out : List Byte) (hp : r.ptr ≤ r.bits.length) :
    (decodeChunk (codes ((left + 11) / 12) (rest r)) = none → chunkLoop (left + 1) left State.start r out =
      .error (badChunk (codes ((left + 11) / 12) (rest r)))) ∧
    ∀ s, decodeChunk (codes ((left + 11) / 12) (rest r)) = some s →
      ((rest r).length < 12 * ((left + 11) / 12) → ∃ r', chunkLoop (left + 1) left State.start r out = .ok (out ++ s, r', true)) ∧
      (12 * ((left + 11) / 12) ≤ (rest r).length → ∃ r', chunkLoop (left + 1) left State.start r out = .ok (out ++ s, r', false) ∧
        r'.ptr ≤ r'.bits.length ∧ rest r' = (rest r).drop (12 * ((left + 11) / 12))) := by
  rw [chunkLoop]
  by_cases hl : 0 < left
  · rw [if_pos hl]
    have hk : (left + 11) / 12 = (left - 12 + 11) / 12 + 1 := by omega
    have hlt : (left - 12 + 11) / 12 < left := by omega
    rw [hk]
    generalize hkk : (left - 12 + 11) / 12 = k at *
    rw [codes]
    by_cases hs : (rest r).length < 12
    · rw [if_pos hs, getCode_short 12 r hp hs]
      refine ⟨(fun h => by cases h), fun s h => ?_⟩
      cases h
      rw [List.append_nil]
      exact ⟨fun _ => ⟨r, rfl⟩, (fun h => by omega)⟩
    · rw [if_neg hs]
      obtain ⟨r1, g1, g2, g3⟩ := getCode_ok 12 r hp (by omega)
      rw [g1]
      simp only
      generalize hc : value ((rest r).take 12) = c
      have hlen : (rest r).length = (rest r1).length + 12 := by rw [g3, List.length_drop]; omega
      by_cases hb : c < 256
      · obtain ⟨st', a1, a2⟩ := step_first c hb
        rw [a1]
        simp only
        rw [a2.str, decodeChunk, if_pos hb]
        obtain ⟨i1, i2⟩ := chunkLoop_inside left (left - 12) st' r1 (out ++ [BitVec.ofNat 8 c]) [] [BitVec.ofNat 8 c] a2 g2 (by omega)
        rw [hkk, g3] at i1 i2
        constructor
        · intro h
          rw [i1 (Option.map_eq_none_iff.mp h)]
          unfold badChunk
          rw [List.headD_cons, if_neg (by omega)]
        · intro s h
          obtain ⟨s', h1, rfl⟩ := Option.map_eq_some_iff.mp h
          obtain ⟨j1, j2⟩ := i2 s' h1
          constructor
          · intro q
            obtain ⟨r', z⟩ := j1 (by rw [List.length_drop]; omega)
            exact ⟨r', by rw [z, List.append_assoc]; rfl⟩
          · intro q
            obtain ⟨r', z1, z2, z3⟩ := j2 (by rw [List.length_drop]; omega)
            exact ⟨r', by rw [z1, List.append_assoc]; rfl, z2, by rw [z3, List.drop_drop]; congr 1; omega⟩
      · rw [step_first_bad c (by omega), decodeChunk, if_neg hb]
        refine ⟨fun _ => ?_, (fun s h => by cases h)⟩
        unfold badChunk
        rw [List.headD_cons, if_pos (by omega)]
  · rw [if_neg hl]
    have h0 : (left + 11) / 12 = 0 := by omega
    rw [h0, codes, decodeChunk]
    refine ⟨(fun h => by cases h), fun s h => ?_⟩
    cases h
    rw [List.append_nil, Nat.mul_zero]
    exact ⟨(fun h => by omega), fun _ => ⟨r, rfl, hp, rfl⟩⟩

/-- What a list of chunks decodes to: the bytes, or the first chunk that cannot be decoded. -/
def decodeAll : List (List Nat) → Except Err (List Byte)
  | [] => .ok []
  | c :: cs =>
    match decodeChunk c with
    | none => .error (badChunk c)
    | some s =>
      match decodeAll cs with
      | .error e => .error e
      | .ok t => .ok (s ++ t)

theorem chunksLoop_spec : ∀ (fuel : Nat) (r : Reader) (out : List Byte), r.ptr ≤ r.bits.length → (rest r).length < fuel →
    chunksLoop fuel r out = match decodeAll (chunks (rest r)) with
      | .error e => .error e
      | .ok s => .ok (out ++ s) := by
  intro fuel
  induction fuel with
  | zero => intro r out _ hf; omega
  | succ fuel ih =>
    intro r out hp hf
    rw [chunksLoop, chunks]
    by_cases hs : (rest r).length < 16
    · rw [getCode_short 16 r hp hs, dif_pos hs]
      show Except.ok out = .ok (out ++ [])
      rw [List.append_nil]
    · obtain ⟨r1, g1, g2, g3⟩ := getCode_ok 16 r hp (by omega)
      rw [g1, dif_neg hs]
      simp only
      generalize hc : value ((rest r).take 16) = c
      obtain ⟨i1, i2⟩ := chunkLoop_start (4 * c) r1 out g2
      rw [← g3]
      have hlen : (rest r).length = (rest r1).length + 16 := by rw [g3, List.length_drop]; omega
      have hif : ∀ (q : List (List Nat)), (if (rest r1).length < 12 * ((4 * c + 11) / 12) then [codes ((4 * c + 11) / 12) (rest r1)]
          else codes ((4 * c + 11) / 12) (rest r1) :: q) = codes ((4 * c + 11) / 12) (rest r1) ::
            (if (rest r1).length < 12 * ((4 * c + 11) / 12) then [] else q) := by
        intro q; split <;> rfl
      rw [hif, decodeAll]
      cases hd : decodeChunk (codes ((4 * c + 11) / 12) (rest r1)) with
      | none => rw [i1 hd]
      | some s =>
        simp only
        obtain ⟨j1, j2⟩ := i2 s hd
        by_cases hq : (rest r1).length < 12 * ((4 * c + 11) / 12)
        · obtain ⟨r', z⟩ := j1 hq
          rw [z, if_pos hq]
          show Except.ok (out ++ s) = .ok (out ++ (s ++ []))
          rw [List.append_nil]
        · obtain ⟨r', z1, z2, z3⟩ := j2 (by omega)
          rw [z1, if_neg hq]
          simp only
          rw [ih r' (out ++ s) z2 (by rw [z3, List.length_drop]; omega), z3]
          cases decodeAll (chunks ((rest r1).drop (12 * ((4 * c + 11) / 12)))) with
          | error e => rfl
          | ok t =>
            show Except.ok (out ++ s ++ t) = .ok (out ++ (s ++ t))
            rw [List.append_assoc]

theorem bits_length (l : List Byte) : (bits l).length = 8 * l.length := by
  induction l with
  | nil => rfl
  | cons x l ih => rw [bits_cons, List.length_append, ih, List.length_cons, show (lsbBits x).length = 8 from rfl]; omega

theorem expand_spec (data : List Byte) (h : data.length ≤ maxFile) : expand data = decodeAll (chunks (bits data)) := by
  unfold expand
  rw [if_neg (by omega), chunksLoop_spec _ _ _ (Nat.zero_le _) (by
    show (([] : List Bool).drop 0 ++ bits data).length < _
    rw [List.drop_nil, List.nil_append, bits_length]; omega)]
  rw [show rest ⟨[], 0, data⟩ = bits data from rfl]
  cases decodeAll (chunks (bits data)) with
  | error e => rfl
  | ok t => rfl

/-! The compressor -/

/-- The codes in the compressor's dictionary stand for the strings of the table. -/
structure EInv (d : EDict) (curr : Option Nat) (t : List (List Byte)) : Prop where
  root : ∀ s, s < 256 → d (none, s) = some s
  rootOnly : ∀ s c, d (none, s) = some c → s < 256 ∧ c = s
  node : ∀ b s c, s < 256 → d (some b, s) = some c → ∃ sb, look t b = some sb ∧ look t c = some (sb ++ [BitVec.ofNat 8 s])
  full : t.length ≤ 3840
  curr : curr = if t.length = 0 then none else some (255 + t.length)

theorem estart_ok : EInv startEDict none [] := by
  refine ⟨fun s h => ?_, fun s c h => ?_, fun b s c h1 h2 => ?_, by decide, rfl⟩
  · unfold startEDict; rw [if_pos ⟨rfl, by show s ≤ 255; omega⟩]
  · unfold startEDict at h
    by_cases e : s ≤ 255
    · rw [if_pos ⟨rfl, e⟩] at h; cases h; exact ⟨by show s < 256; omega, rfl⟩
    · rw [if_neg (fun q => e q.2)] at h; cases h
  · unfold startEDict at h2
    rw [if_neg (fun q => by cases q.1)] at h2; cases h2

/-- The string matched so far. -/
def Matched (t : List (List Byte)) (m : Option Nat) (s : List Byte) : Prop :=
  match m with
  | none => s = []
  | some b => look t b = some s

theorem grow_look (t : List (List Byte)) (s : List Byte) (c : Nat) (w : List Byte) (h : look t c = some w) : look (grow t s) c = some w := by
  unfold grow
  split
  · rw [look_append t _ c (look_lt t c w h), h]
  · exact h

/-- Building a match. -/
theorem matchLoop_spec (d : EDict) (curr : Option Nat) (t : List (List Byte)) (hi : EInv d curr t) :
    ∀ (data : List Byte) (m : Option Nat) (s : List Byte), Matched t m s →
    (∃ m', matchLoop d curr m data = (m', d, curr, [], true) ∧ Matched t m' (s ++ data)) ∨
    ∃ c d' curr' w x rest, matchLoop d curr m data = (some c, d', curr', x :: rest, false) ∧ data = w ++ x :: rest ∧
      look t c = some (s ++ w) ∧ EInv d' curr' (grow t (s ++ w ++ [x])) ∧ (m = none → w ≠ []) := by
  intro data
  induction data with
  | nil => intro m s hm; left; exact ⟨m, rfl, by rw [List.append_nil]; exact hm⟩
  | cons x data ih =>
    intro m s hm
    have hx := x.isLt
    rw [matchLoop]
    cases hd : d (m, x.toNat) with
    | some c =>
      simp only
      have hmat : Matched t (some c) (s ++ [x]) := by
        show look t c = some (s ++ [x])
        cases m with
        | none =>
          obtain ⟨h1, rfl⟩ := hi.rootOnly _ _ hd
          rw [look_small t _ h1, show s = [] from hm]
          simp
        | some b =>
          obtain ⟨sb, h1, h2⟩ := hi.node b _ c hx hd
          rw [show look t b = some s from hm] at h1
          cases h1
          rw [h2, show BitVec.ofNat 8 x.toNat = x by simp]
      rcases ih (some c) (s ++ [x]) hmat with ⟨m', h1, h2⟩ | ⟨c', d', curr', w, y, rest, h1, h2, h3, h4, _⟩
      · left; exact ⟨m', h1, by rw [List.append_assoc] at h2; exact h2⟩
      · right
        refine ⟨c', d', curr', x :: w, y, rest, h1, by rw [h2]; rfl, ?_, ?_, fun _ => List.cons_ne_nil _ _⟩
        · rw [h3, List.append_assoc]; rfl
        · rw [List.append_assoc] at h4; rw [List.append_assoc] at h4 ⊢; exact h4
    | none =>
      simp only
      right
      cases m with
      | none => rw [hi.root _ hx] at hd; cases hd
      | some b =>
        replace hm : look t b = some s := hm
        by_cases e : t.length < 3840
        · rw [advance_room t curr hi.curr e]
          refine ⟨b, _, _, [], x, data, rfl, rfl, by rw [List.append_nil, hm], ?_, fun q => by cases q⟩
          rw [List.append_nil]
          unfold grow
          rw [if_pos e]
          refine ⟨fun s' h => ?_, fun s' c h => ?_, fun b' s' c h1 h2 => ?_, ?_, ?_⟩
          · unfold EDict.insert; rw [if_neg (by intro q; cases q)]; exact hi.root s' h
          · unfold EDict.insert at h; rw [if_neg (by intro q; cases q)] at h; exact hi.rootOnly s' c h
          · unfold EDict.insert at h2
            by_cases q : (some b', s') = (some b, x.toNat)
            · rw [if_pos q] at h2
              cases h2
              cases q
              refine ⟨s, by rw [look_append t _ b (look_lt t b s hm), hm], ?_⟩
              rw [look_last, show BitVec.ofNat 8 x.toNat = x by simp]
            · rw [if_neg q] at h2
              obtain ⟨sb, z1, z2⟩ := hi.node b' s' c h1 h2
              exact ⟨sb, by rw [look_append t _ b' (look_lt t b' sb z1), z1], by rw [look_append t _ c (look_lt t c _ z2), z2]⟩
          · rw [List.length_append, List.length_singleton]; omega
          · rw [List.length_append, List.length_singleton, if_neg (by omega)]
            congr 1; omega
        · have e2 : t.length = 3840 := by have := hi.full; omega
          rw [advance_full t curr hi.curr e2]
          refine ⟨b, _, _, [], x, data, rfl, rfl, by rw [List.append_nil, hm], ?_, fun q => by cases q⟩
          rw [List.append_nil]
          unfold grow
          rw [if_neg e]
          refine ⟨hi.root, hi.rootOnly, hi.node, hi.full, ?_⟩
          rw [e2]; rfl

/-- The decoder follows the compressor by one code. -/
theorem follow (t : List (List Byte)) (prev w : List Byte) (x : Byte) (c : Nat) (cs : List Nat) (hp : prev ≠ [])
    (hw : w.take 1 = [x]) (hl : look (grow t (prev ++ [x])) c = some w) (hf : t.length ≤ 3840) :
    decodeFrom t prev (c :: cs) = (decodeFrom (grow t (prev ++ [x])) w cs).map (w ++ ·) := by
  rw [decodeFrom]
  cases hlk : look t c with
  | some s =>
    have := grow_look t (prev ++ [x]) c s hlk
    rw [hl] at this
    cases this
    simp only
    rw [hw]
  | none =>
    simp only
    have hge : 256 + t.length ≤ c := by
      apply Classical.byContradiction
      intro q
      obtain ⟨s, hs⟩ := look_some t c (by omega)
      rw [hs] at hlk; cases hlk
    have hlt := look_lt _ c w hl
    by_cases e : t.length < 3840
    · have hg : grow t (prev ++ [x]) = t ++ [prev ++ [x]] := by unfold grow; rw [if_pos e]
      rw [hg, List.length_append, List.length_singleton] at hlt
      have hc : c = 256 + t.length := by omega
      rw [if_pos ⟨hc, e⟩]
      rw [hg, hc, look_last] at hl
      cases hl
      obtain ⟨y, p', rfl⟩ := List.exists_cons_of_ne_nil hp
      have hy : y = x := by simpa using hw
      subst hy
      rfl
    · have hg : grow t (prev ++ [x]) = t := by unfold grow; rw [if_neg e]
      rw [hg] at hlt; omega

theorem grow_length (t : List (List Byte)) (s : List Byte) (h : t.length ≤ 3840) : (grow t s).length ≤ 3840 := by
  unfold grow
  split
  · rw [List.length_append, List.length_singleton]; omega
  · exact h

theorem look_4096 (t : List (List Byte)) (c : Nat) (s : List Byte) (hf : t.length ≤ 3840) (h : look t c = some s) : c < 4096 := by
  have := look_lt t c s h; omega

/-- Compressing inside a chunk. -/
theorem compressChunk_inside : ∀ (left : Nat) (d : EDict) (curr : Option Nat) (t : List (List Byte)) (prev data : List Byte) (x : Byte),
    EInv d curr (grow t (prev ++ [x])) → t.length ≤ 3840 → prev ≠ [] →
    ∃ cs more s, compressChunk left d curr (x :: data) = .ok (cs, more) ∧ decodeFrom t prev cs = some s ∧
      x :: data = s ++ more.getD [] ∧ (∀ q, more = some q → q ≠ [] ∧ cs.length = left) ∧ cs.length ≤ left ∧ (∀ c ∈ cs, c < 4096) ∧
      cs.length ≤ s.length := by
  intro left
  induction left with
  | zero =>
    intro d curr t prev data x _ _ _
    exact ⟨[], some (x :: data), [], rfl, rfl, rfl, (fun q hq => by cases hq; exact ⟨List.cons_ne_nil _ _, rfl⟩), Nat.le_refl _,
      (fun c hc => by cases hc), Nat.le_refl _⟩
  | succ left ih =>
    intro d curr t prev data x hi hf hp
    have hgf := grow_length t (prev ++ [x]) hf
    rw [compressChunk]
    rcases matchLoop_spec d curr _ hi (x :: data) none [] rfl with ⟨m', h1, h2⟩ | ⟨c, d', curr', w, y, rest, h1, h2, h3, h4, h5⟩
    · rw [h1]
      simp only
      rw [List.nil_append] at h2
      cases m' with
      | none => cases h2
      | some c =>
        replace h2 : look _ c = some (x :: data) := h2
        refine ⟨[c], none, x :: data, rfl, ?_, by simp, (fun q hq => by cases hq), Nat.succ_le_succ (Nat.zero_le _), ?_, ?_⟩
        · rw [follow t prev (x :: data) x c [] hp rfl h2 hf]
          show some (x :: data ++ []) = _
          rw [List.append_nil]
        · intro c' hc'
          rw [List.mem_singleton.mp hc']
          exact look_4096 _ c _ hgf h2
        · exact Nat.succ_le_succ (Nat.zero_le _)
    · rw [h1]
      simp only
      rw [List.nil_append] at h3 h4
      obtain ⟨z, w', rfl⟩ := List.exists_cons_of_ne_nil (h5 rfl)
      have hz : z = x := by
        have := congrArg List.head? h2
        simpa using this.symm
      subst hz
      obtain ⟨cs, more, s, j1, j2, j3, j4, j5, j6, j7⟩ := ih d' curr' (grow t (prev ++ [z])) (z :: w') rest y h4 hgf (List.cons_ne_nil _ _)
      rw [j1]
      refine ⟨c :: cs, more, z :: w' ++ s, rfl, ?_, ?_, ?_, ?_, ?_, ?_⟩
      · rw [follow t prev (z :: w') z c cs hp rfl h3 hf, j2]; rfl
      · rw [h2, j3, List.append_assoc]
      · intro q hq
        obtain ⟨k1, k2⟩ := j4 q hq
        exact ⟨k1, by rw [List.length_cons, k2]⟩
      · rw [List.length_cons]; omega
      · intro c' hc'
        rcases List.mem_cons.mp hc' with rfl | hc'
        · exact look_4096 _ _ _ hgf h3
        · exact j6 c' hc'
      · rw [List.length_append, List.length_cons, List.length_cons]; omega

/-- Compressing a chunk. -/
theorem compressChunk_start (data : List Byte) : ∃ cs more s, compressChunk 4096 startEDict none data = .ok (cs, more) ∧
    decodeChunk cs = some s ∧ data = s ++ more.getD [] ∧ (∀ q, more = some q → q ≠ [] ∧ cs.length = 4096) ∧ cs.length ≤ 4096 ∧
    (∀ c ∈ cs, c < 4096) ∧ cs.length ≤ s.length := by
  rw [compressChunk]
  rcases matchLoop_spec startEDict none [] estart_ok data none [] rfl with ⟨m', h1, h2⟩ | ⟨c, d', curr', w, y, rest, h1, h2, h3, h4, h5⟩
  · rw [h1]
    simp only
    rw [List.nil_append] at h2
    cases m' with
    | none =>
      replace h2 : data = [] := h2
      rw [h2]
      exact ⟨[], none, [], rfl, rfl, rfl, (fun q hq => by cases hq), Nat.zero_le _, (fun c hc => by cases hc), Nat.le_refl _⟩
    | some c =>
      replace h2 : look [] c = some data := h2
      have hc : c < 256 := by have := look_lt [] c data h2; simpa using this
      rw [look_small [] c hc] at h2
      cases h2
      refine ⟨[c], none, [BitVec.ofNat 8 c], rfl, ?_, by simp, (fun q hq => by cases hq), (show 1 ≤ 4096 by decide), ?_, Nat.le_refl _⟩
      · rw [decodeChunk, if_pos hc]; rfl
      · intro c' hc'
        rw [List.mem_singleton.mp hc']; omega
  · rw [h1]
    simp only
    rw [List.nil_append] at h3 h4
    have hc : c < 256 := by have := look_lt [] c w h3; simpa using this
    rw [look_small [] c hc] at h3
    cases h3
    obtain ⟨cs, more, s, j1, j2, j3, j4, j5, j6, j7⟩ := compressChunk_inside 4095 d' curr' [] [BitVec.ofNat 8 c] rest y h4 (by decide) (List.cons_ne_nil _ _)
    rw [j1]
    refine ⟨c :: cs, more, BitVec.ofNat 8 c :: s, rfl, ?_, ?_, ?_, ?_, ?_, ?_⟩
    · rw [decodeChunk, if_pos hc, j2]; rfl
    · rw [h2, j3]; rfl
    · intro q hq
      obtain ⟨k1, k2⟩ := j4 q hq
      exact ⟨k1, by rw [List.length_cons, k2]⟩
    · rw [List.length_cons]; omega
    · intro c' hc'
      rcases List.mem_cons.mp hc' with rfl | hc'
      · omega
      · exact j6 c' hc'
    · rw [List.length_cons, List.length_cons]; omega

/-- Chunks as `compress` makes them: full ones, and a last one. -/
inductive Cut : List (List Nat) → Prop
  | last (cs : List Nat) (h : cs.length ≤ 4096) (hc : ∀ c ∈ cs, c < 4096) : Cut [cs]
  | more (cs : List Nat) (css : List (List Nat)) (h : cs.length = 4096) (hc : ∀ c ∈ cs, c < 4096) (hs : Cut css) : Cut (cs :: css)

theorem compressLoop_spec : ∀ (fuel : Nat) (data : List Byte), data.length < fuel →
    ∃ css, compressLoop fuel data = .ok css ∧ Cut css ∧ decodeAll css = .ok data ∧
      (css.map List.length).sum ≤ data.length ∧ 4096 * (css.length - 1) ≤ data.length := by
  intro fuel
  induction fuel with
  | zero => intro data hf; omega
  | succ fuel ih =>
    intro data hf
    obtain ⟨cs, more, s, h1, h2, h3, h4, h5, h6, h7⟩ := compressChunk_start data
    rw [compressLoop, h1]
    cases more with
    | none =>
      rw [Option.getD_none, List.append_nil] at h3
      subst h3
      refine ⟨[cs], rfl, .last cs h5 h6, ?_, by simpa using h7, by simp⟩
      show (match decodeChunk cs with | none => _ | some s => _) = _
      rw [h2]
      show Except.ok (data ++ []) = _
      rw [List.append_nil]
    | some q =>
      obtain ⟨k1, k2⟩ := h4 q rfl
      rw [Option.getD_some] at h3
      have hlen := congrArg List.length h3
      rw [List.length_append] at hlen
      obtain ⟨css, j1, j2, j3, j4, j5⟩ := ih q (by omega)
      simp only
      rw [j1]
      refine ⟨cs :: css, rfl, .more cs css k2 h6 j2, ?_, ?_, ?_⟩
      · show (match decodeChunk cs with | none => _ | some s => _) = _
        rw [h2]
        show (match decodeAll css with | .error e => _ | .ok t => _) = _
        rw [j3, h3]
      · rw [List.map_cons, List.sum_cons]; omega
      · have : 1 ≤ css.length := by cases j2 <;> simp
        rw [List.length_cons]; omega

/-! Packing -/

theorem value_lsb (m x : Nat) (h : x < 2 ^ m) : value (lsb m x) = x := by
  induction m generalizing x with
  | zero =>
    have : x = 0 := by simpa using h
    subst this; rfl
  | succ m ih =>
    unfold lsb
    rw [List.range_succ_eq_map, List.map_cons, List.map_map, value_cons]
    have e : (List.range m).map ((fun i => x.testBit i) ∘ Nat.succ) = lsb m (x / 2) := by
      unfold lsb
      apply List.map_congr_left
      intro i _
      show x.testBit (i + 1) = _
      rw [Nat.testBit_succ]
    rw [e, ih (x / 2) (by rw [Nat.pow_succ] at h; omega), Nat.testBit_zero]
    by_cases q : x % 2 = 1
    · rw [decide_eq_true q]; show 1 + 2 * (x / 2) = x; omega
    · rw [decide_eq_false q]; show 0 + 2 * (x / 2) = x; omega

theorem lsb_length (m x : Nat) : (lsb m x).length = m := by unfold lsb; simp

theorem codes_flat : ∀ (cs : List Nat) (tail : List Bool), (∀ c ∈ cs, c < 4096) → codes cs.length (cs.flatMap (lsb 12) ++ tail) = cs := by
  intro cs
  induction cs with
  | nil => intro tail _; rfl
  | cons c cs ih =>
    intro tail h
    have hl := lsb_length 12 c
    rw [List.length_cons, codes, List.flatMap_cons, List.append_assoc, if_neg (by rw [List.length_append]; omega),
      List.take_append_of_le_length (by omega), List.take_of_length_le (by omega), value_lsb 12 c (h c (List.mem_cons_self ..)),
      List.drop_append_of_le_length (by omega), List.drop_eq_nil_of_le (by omega), List.nil_append,
      ih tail (fun c' hc' => h c' (List.mem_cons_of_mem _ hc'))]

theorem flat_length (cs : List Nat) : (cs.flatMap (lsb 12)).length = 12 * cs.length := by
  induction cs with
  | nil => rfl
  | cons c cs ih => rw [List.flatMap_cons, List.length_append, lsb_length, ih, List.length_cons]; omega

theorem chunks_step (cs : List Nat) (tail : List Bool) (hl : cs.length ≤ 4096) (hc : ∀ c ∈ cs, c < 4096) :
    chunks (chunkBits cs ++ tail) = cs :: chunks tail := by
  have h16 := lsb_length 16 (cs.length * 12 / 4)
  have hf := flat_length cs
  unfold chunkBits
  rw [chunks, List.append_assoc]
  rw [dif_neg (by rw [List.length_append]; omega)]
  rw [List.take_append_of_le_length (by omega), List.take_of_length_le (by omega), value_lsb 16 _ (by omega),
      List.drop_append_of_le_length (by omega), List.drop_eq_nil_of_le (by omega), List.nil_append]
  have hk : (4 * (cs.length * 12 / 4) + 11) / 12 = cs.length := by omega
  simp only [hk]
  rw [if_neg (by rw [List.length_append]; omega), codes_flat cs tail hc, List.drop_append_of_le_length (by omega),
    List.drop_eq_nil_of_le (by omega), List.nil_append]

theorem chunks_cut (css : List (List Nat)) (h : Cut css) (pad : List Bool) (hp : pad.length < 16) :
    chunks (css.flatMap chunkBits ++ pad) = css := by
  induction h with
  | last cs h hc =>
    rw [List.flatMap_cons, List.flatMap_nil, List.append_nil, chunks_step cs pad h hc, chunks, dif_pos hp]
  | more cs css h hc _ ih => rw [List.flatMap_cons, List.append_assoc, chunks_step cs _ (by omega) hc, ih]

theorem lsbBits_lsbByte : ∀ a b c d e f g h : Bool, lsbBits (lsbByte [a, b, c, d, e, f, g, h]) = [a, b, c, d, e, f, g, h] := by decide

theorem lsbByte_pad (bs : List Bool) (k : Nat) : lsbByte bs = lsbByte (bs ++ List.replicate k false) := by
  unfold lsbByte
  congr 1
  have z : ∀ k, (List.replicate k false).foldr (fun (b : Bool) acc => b.toNat + 2 * acc) 0 = 0 := by
    intro k
    induction k with
    | zero => rfl
    | succ k ih => rw [List.replicate_succ, List.foldr_cons, ih]; rfl
  rw [List.foldr_append, z]

theorem packLsb_bits : ∀ (n : Nat) (bs : List Bool), bs.length ≤ n → ∃ pad, bits (packLsb bs) = bs ++ pad ∧ pad.length < 8 := by
  intro n
  induction n with
  | zero => intro bs h; rw [List.length_eq_zero_iff.mp (by omega : bs.length = 0)]; exact ⟨[], rfl, by decide⟩
  | succ n ih =>
    intro bs h
    match bs with
    | [] => exact ⟨[], rfl, by decide⟩
    | [a] => exact ⟨List.replicate 7 false, by
        show lsbBits (lsbByte _) ++ bits [] = _
        rw [lsbByte_pad _ 7]
        exact congrArg (· ++ bits []) (lsbBits_lsbByte ..), by decide⟩
    | [a, b] => exact ⟨List.replicate 6 false, by
        show lsbBits (lsbByte _) ++ bits [] = _
        rw [lsbByte_pad _ 6]
        exact congrArg (· ++ bits []) (lsbBits_lsbByte ..), by decide⟩
    | [a, b, c] => exact ⟨List.replicate 5 false, by
        show lsbBits (lsbByte _) ++ bits [] = _
        rw [lsbByte_pad _ 5]
        exact congrArg (· ++ bits []) (lsbBits_lsbByte ..), by decide⟩
    | [a, b, c, d] => exact ⟨List.replicate 4 false, by
        show lsbBits (lsbByte _) ++ bits [] = _
        rw [lsbByte_pad _ 4]
        exact congrArg (· ++ bits []) (lsbBits_lsbByte ..), by decide⟩
    | [a, b, c, d, e] => exact ⟨List.replicate 3 false, by
        show lsbBits (lsbByte _) ++ bits [] = _
        rw [lsbByte_pad _ 3]
        exact congrArg (· ++ bits []) (lsbBits_lsbByte ..), by decide⟩
    | [a, b, c, d, e, f] => exact ⟨List.replicate 2 false, by
        show lsbBits (lsbByte _) ++ bits [] = _
        rw [lsbByte_pad _ 2]
        exact congrArg (· ++ bits []) (lsbBits_lsbByte ..), by decide⟩
    | [a, b, c, d, e, f, g] => exact ⟨List.replicate 1 false, by
        show lsbBits (lsbByte _) ++ bits [] = _
        rw [lsbByte_pad _ 1]
        exact congrArg (· ++ bits []) (lsbBits_lsbByte ..), by decide⟩
    | a :: b :: c :: d :: e :: f :: g :: h' :: tail =>
      obtain ⟨pad, h1, h2⟩ := ih tail (by simp only [List.length_cons] at h; omega)
      exact ⟨pad, by rw [packLsb, bits_cons, lsbBits_lsbByte, h1]; rfl, h2⟩

end Lzw
end Fox
