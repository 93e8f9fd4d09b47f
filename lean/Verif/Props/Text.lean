import Verif.Model.Text
/-
C141: values of source maps as text.  C142: the dump of the sector map.
-/
namespace Fox
open Text

/-! ## C141 -/

/-- The value of a digit. -/
def digitOf (c : Char) : Option Nat :=
  if '0' ≤ c ∧ c ≤ '9' then some (c.toNat - 48) else if 'A' ≤ c ∧ c ≤ 'F' then some (c.toNat - 55) else none

/-- Reading digits in a base. -/
def readDigits (b : Nat) : Nat → List Char → Option Nat
  | acc, [] => some acc
  | acc, c :: cs => match digitOf c with
    | some x => if x < b then readDigits b (b * acc + x) cs else none
    | none => none

/-- Reading a number as one reads it in a program: `0x` and `0b` tell the base. -/
def readNumber : List Char → Option Nat
  | '0' :: 'x' :: s => readDigits 16 0 s
  | '0' :: 'b' :: s => readDigits 2 0 s
  | s => readDigits 10 0 s

def Text.Repr.digits : Text.Repr → Nat
  | .dec d => d | .hex d => d | .bin d => d

def Text.Repr.prefix : Text.Repr → List Char
  | .dec _ => [] | .hex _ => ['0', 'x'] | .bin _ => ['0', 'b']

def Text.Repr.base : Text.Repr → Nat
  | .dec _ => 10 | .hex _ => 16 | .bin _ => 2

theorem readDigits_append (b : Nat) (s t : List Char) : ∀ acc, readDigits b acc (s ++ t) = (readDigits b acc s).bind fun x => readDigits b x t := by
  induction s with
  | nil => intro acc; rfl
  | cons c cs ih =>
    intro acc
    rw [List.cons_append, readDigits, readDigits]
    cases digitOf c with
    | none => rfl
    | some x =>
      simp only
      split
      · exact ih _
      · rfl

theorem readDigits_zeros (b n : Nat) (hb : 0 < b) (s : List Char) : readDigits b 0 (List.replicate n '0' ++ s) = readDigits b 0 s := by
  induction n with
  | zero => rfl
  | succ n ih =>
    rw [List.replicate_succ, List.cons_append, readDigits, show digitOf '0' = some 0 by decide]
    simp only [Nat.mul_zero, Nat.add_zero]
    rw [if_pos hb, ih]

theorem digit_table : ∀ x < 16, digitOf (Char.toUpper (Nat.digitChar x)) = some x := by decide
theorem digit_table10 : ∀ x < 10, digitOf (Nat.digitChar x) = some x := by decide

theorem readDigits_toDigits (b : Nat) (f : Char → Char) (hb : 1 < b) (hf : ∀ x < b, digitOf (f (Nat.digitChar x)) = some x) (n : Nat) :
    readDigits b 0 ((Nat.toDigits b n).map f) = some n := by
  induction n using Nat.strongRecOn with
  | _ n ih =>
    rw [Nat.toDigits_eq_if hb]
    split
    · rename_i h
      rw [List.map_singleton, readDigits, hf n h]
      simp only
      rw [if_pos h]
      simp [readDigits]
    · rename_i h
      have h2 : n / b < n := Nat.div_lt_self (by omega) hb
      have h3 : n % b < b := Nat.mod_lt _ (by omega)
      rw [List.map_append, readDigits_append, ih _ h2, Option.bind_some, List.map_singleton, readDigits, hf _ h3]
      simp only
      rw [if_pos h3, readDigits, Nat.div_add_mod]

/-- The digits of a number in the base of a representation. -/
def digitsIn (r : Text.Repr) (n : Nat) : List Char :=
  match r with
  | .hex _ => (Nat.toDigits 16 n).map Char.toUpper
  | r => Nat.toDigits r.base n

theorem digits_read (r : Text.Repr) (n : Nat) : readDigits r.base 0 (digitsIn r n) = some n := by
  cases r with
  | hex d => exact readDigits_toDigits 16 Char.toUpper (by omega) digit_table n
  | dec d => have := readDigits_toDigits 10 id (by omega) digit_table10 n; rwa [List.map_id] at this
  | bin d => have := readDigits_toDigits 2 id (by omega) (fun x h => digit_table10 x (by omega)) n; rwa [List.map_id] at this

theorem number_eq (debug : Bool) (n : Nat) (r : Text.Repr) (h : r.digits ≤ 253) :
    number debug n r = .ok (r.prefix ++ zeros r.digits (digitsIn r n)) := by
  have pl : ∀ d, d ≤ 253 → plus2 debug d = .ok (d + 2) := fun d hd => by unfold plus2; rw [if_pos (by omega)]
  cases r with
  | dec d =>
    cases d with
    | zero => show Except.ok _ = Except.ok _; simp [zeros, digitsIn, Text.Repr.prefix, Text.Repr.digits, Text.Repr.base]
    | succ d => rfl
  | hex d =>
    cases d with
    | zero => show Except.ok _ = Except.ok _; simp [zeros, digitsIn, Text.Repr.prefix, Text.Repr.digits]
    | succ d => show (plus2 debug (d + 1)).map _ = _; rw [pl (d + 1) h]; rfl
  | bin d =>
    cases d with
    | zero => show Except.ok _ = Except.ok _; simp [zeros, digitsIn, Text.Repr.prefix, Text.Repr.digits, Text.Repr.base]
    | succ d => show (plus2 debug (d + 1)).map _ = _; rw [pl (d + 1) h]; rfl

theorem zeros_length (w : Nat) (s : List Char) : (zeros w s).length = max w s.length := by
  unfold zeros; rw [List.length_append, List.length_replicate]; omega

theorem readNumber_dec (s : List Char) (v : Nat) (h : readDigits 10 0 s = some v) : readNumber s = some v := by
  unfold readNumber
  split
  · rename_i t
    exfalso
    unfold readDigits at h
    rw [show digitOf '0' = some 0 by decide] at h
    simp only at h
    rw [if_pos (by omega)] at h
    unfold readDigits at h
    rw [show digitOf 'x' = none by decide] at h
    cases h
  · rename_i t
    exfalso
    unfold readDigits at h
    rw [show digitOf '0' = some 0 by decide] at h
    simp only at h
    rw [if_pos (by omega)] at h
    unfold readDigits at h
    rw [show digitOf 'b' = none by decide] at h
    cases h
  · exact h

/-- **C141 (partial).** A number is shown so that it can be read back, with the prefix of its base and at least the digits asked for, no more than needed.
Missing: 254 and 255 digits (`C141_false_wide`). -/
theorem C141_reads_partial (debug : Bool) (n : Nat) (r : Text.Repr) (h : r.digits ≤ 253) :
    ∃ s, number debug n r = .ok s ∧ readNumber s = some n ∧ ∃ ds, s = r.prefix ++ ds ∧ ds.length = max r.digits (Nat.toDigits r.base n).length := by
  refine ⟨_, number_eq debug n r h, ?_, _, rfl, ?_⟩
  · have := digits_read r n
    have hz : readDigits r.base 0 (zeros r.digits (digitsIn r n)) = some n := by
      unfold zeros
      rw [readDigits_zeros _ _ (by cases r <;> simp [Text.Repr.base])]
      exact this
    cases r with
    | dec d => exact readNumber_dec _ _ hz
    | hex d => exact hz
    | bin d => exact hz
  · rw [zeros_length]
    cases r with
    | hex d => simp [digitsIn, Text.Repr.base]
    | dec d => rfl
    | bin d => rfl

/-- **C141 is false of the code: many digits.** Asked for 254 or 255 digits in base 16 or 2, the text panics; where arithmetic is not checked, no zero is put
in front at all. -/
theorem C141_false_wide (n d : Nat) (h1 : 254 ≤ d) (h2 : d < 256) :
    number true n (.hex d) = .error .panic ∧ number true n (.bin d) = .error .panic ∧
    number false n (.hex d) = number false n (.hex 0) ∧ number false n (.bin d) = number false n (.bin 0) := by
  have : d = 254 ∨ d = 255 := by omega
  rcases this with rfl | rfl
  all_goals
    refine ⟨rfl, rfl, ?_, ?_⟩ <;>
    · show Except.ok _ = Except.ok _
      simp [zeros]

/-- **C141.** A number is marked if it is bad, and only then; what has no value shows nothing. -/
theorem C141_marked (debug : Bool) (n : Nat) (r : Text.Repr) (s : State) (h : r.digits ≤ 253) :
    (∃ t, Value.show debug ⟨some (.int n), r, s⟩ = .ok t ∧ ('*' ∈ t ↔ s = .bad) ∧ readNumber (t.filter (· ≠ '*')) = some n) ∧
    Value.show debug ⟨none, r, s⟩ = .ok [] := by
  refine ⟨?_, rfl⟩
  obtain ⟨t, h1, h2, ds, h3, _⟩ := C141_reads_partial debug n r h
  have hstar : '*' ∉ t := by
    have key : ∀ b l acc v, readDigits b acc l = some v → '*' ∉ l := by
      intro b l
      induction l with
      | nil => intro _ _ _ h; cases h
      | cons c cs ih =>
        intro acc v h
        unfold readDigits at h
        cases hc : digitOf c with
        | none => rw [hc] at h; cases h
        | some x =>
          rw [hc] at h
          simp only at h
          split at h
          · intro hm
            rcases List.mem_cons.1 hm with e | hm
            · rw [← e, show digitOf '*' = none by decide] at hc; cases hc
            · exact ih _ _ h hm
          · cases h
    rw [h3] at h2 ⊢
    cases r with
    | hex d =>
      have := key 16 ds 0 n h2
      simp only [Text.Repr.prefix]
      intro hm
      rcases List.mem_append.1 hm with e | e
      · revert e; decide
      · exact this e
    | bin d =>
      have := key 2 ds 0 n h2
      simp only [Text.Repr.prefix]
      intro hm
      rcases List.mem_append.1 hm with e | e
      · revert e; decide
      · exact this e
    | dec d =>
      have hn := number_eq debug n (.dec d) h
      rw [h1, h3] at hn
      injection hn with hn
      have e : ds = zeros d (digitsIn (.dec d) n) := hn
      have := digits_read (.dec d) n
      have hz : readDigits 10 0 (zeros d (digitsIn (.dec d) n)) = some n := by
        unfold zeros
        rw [readDigits_zeros _ _ (by decide)]
        exact this
      rw [← e] at hz
      simpa [Text.Repr.prefix] using key 10 ds 0 n hz
  have hfil : t.filter (· ≠ '*') = t := by
    rw [List.filter_eq_self]
    intro c hc
    simp only [ne_eq, decide_not, Bool.not_eq_true', decide_eq_false_iff_not]
    rintro rfl
    exact hstar hc
  unfold Value.show
  simp only
  rw [h1]
  refine ⟨t ++ if s = .bad then ['*'] else [], rfl, ?_, ?_⟩
  · by_cases e : s = .bad
    · rw [if_pos e]; simp [e]
    · rw [if_neg e, List.append_nil]; exact ⟨fun hm => absurd hm hstar, fun hb => absurd hb e⟩
  · rw [List.filter_append, hfil]
    have : (if s = .bad then ['*'] else []).filter (· ≠ '*') = [] := by split <;> decide
    rw [this, List.append_nil]
    exact h2

/-- **C141 is false of the code: texts.** A bad text is shown as a good one. -/
theorem C141_false_text (debug : Bool) (s : List Char) (r : Text.Repr) :
    Value.show debug ⟨some (.text s), r, .bad⟩ = Value.show debug ⟨some (.text s), r, .good⟩ := rfl

example : (number true 48879 (.hex 8)).toOption = some "0x0000BEEF".toList ∧ (number true 5 (.bin 4)).toOption = some "0b0101".toList ∧
    (number true 7 (.dec 3)).toOption = some "007".toList ∧ readNumber "0x0000BEEF".toList = some 48879 := by decide +kernel

/-! ## C142 -/

/-- What the dump tells of a sector. -/
def Told (e : DiskTrack.Entry) : Chsn × Bool × Bool × Bool := (e.id, e.addressError, e.dataError, e.noDam)

/-- Up to a character that is in neither of two beginnings, both texts are the same. -/
theorem text_split_at {c : Char} : ∀ {a a' b b' : List Char}, c ∉ a → c ∉ a' → a ++ c :: b = a' ++ c :: b' → a = a' ∧ b = b'
  | [], [], _, _, _, _, h => ⟨rfl, by simpa using h⟩
  | [], x :: _, _, _, _, h2, h => by
    rw [List.nil_append, List.cons_append] at h
    injection h with h _
    exact absurd (by rw [h]; simp) h2
  | x :: _, [], _, _, h1, _, h => by
    rw [List.nil_append, List.cons_append] at h
    injection h with h _
    exact absurd (by rw [h]; simp) h1
  | x :: a, y :: a', _, _, h1, h2, h => by
    rw [List.cons_append, List.cons_append] at h
    injection h with h h'
    obtain ⟨e1, e2⟩ := text_split_at (fun hc => h1 (by simp [hc])) (fun hc => h2 (by simp [hc])) h'
    exact ⟨by rw [h, e1], e2⟩

theorem lines_inj {c : Char} : ∀ {l l' : List (List Char)}, (∀ x ∈ l, c ∉ x) → (∀ x ∈ l', c ∉ x) →
    l.flatMap (· ++ [c]) = l'.flatMap (· ++ [c]) → l = l'
  | [], [], _, _, _ => rfl
  | [], x :: l, _, _, h => by simp at h
  | x :: l, [], _, _, h => by simp at h
  | x :: l, y :: l', h1, h2, h => by
    rw [List.flatMap_cons, List.flatMap_cons, List.append_assoc, List.append_assoc] at h
    obtain ⟨e1, e2⟩ := text_split_at (h1 x (by simp)) (h2 y (by simp)) h
    rw [e1, lines_inj (fun z hz => h1 z (by simp [hz])) (fun z hz => h2 z (by simp [hz])) e2]

theorem toDigits_isDigit {n : Nat} {c : Char} (h : c ∈ Nat.toDigits 10 n) : c.isDigit := Nat.isDigit_of_mem_toDigits (by omega) (by omega) h

theorem toDigits_inj10 {n m : Nat} (h : Nat.toDigits 10 n = Nat.toDigits 10 m) : n = m := by
  rw [← Nat.ofDigitChars_toDigits (b := 10) (n := n) (by omega) (by omega), h, Nat.ofDigitChars_toDigits (by omega) (by omega)]

theorem padded_mem {w n : Nat} {c : Char} (h : c ∈ EMap.padded w n) : c = ' ' ∨ c.isDigit := by
  unfold EMap.padded at h
  rcases List.mem_append.1 h with h | h
  · exact .inl (List.eq_of_mem_replicate h)
  · exact .inr (toDigits_isDigit h)

theorem idPadded_inj {w n m : Nat} (h : EMap.padded w n = EMap.padded w m) : n = m := by
  have key : ∀ k, (EMap.padded w k).filter Char.isDigit = Nat.toDigits 10 k := by
    intro k
    unfold EMap.padded
    rw [List.filter_append, List.filter_eq_self.2 (fun c hc => toDigits_isDigit hc),
      List.filter_eq_nil_iff.2 (fun c hc => by rw [List.eq_of_mem_replicate hc]; decide), List.nil_append]
  apply toDigits_inj10
  rw [← key n, h, key m]

theorem not_padded {w n : Nat} {c : Char} (h1 : c ≠ ' ') (h2 : c.isDigit = false) : c ∉ EMap.padded w n := by
  intro h
  rcases padded_mem h with h | h
  · exact h1 h
  · rw [h2] at h; cases h

theorem idText_inj {x y : Chsn} {s t : List Char} (h : EMap.idText x ++ s = EMap.idText y ++ t) : x = y ∧ s = t := by
  unfold EMap.idText at h
  simp only [List.append_assoc, List.cons_append, List.nil_append] at h
  injection h with _ h
  injection h with _ h
  injection h with _ h
  have step : ∀ {w a b : Nat} {c : Char} {u v : List Char}, c ≠ ' ' → c.isDigit = false →
      EMap.padded w a ++ ' ' :: c :: u = EMap.padded w b ++ ' ' :: c :: v → a = b ∧ u = v := by
    intro w a b c u v h1 h2 h
    have : (EMap.padded w a ++ [' ']) ++ c :: u = (EMap.padded w b ++ [' ']) ++ c :: v := by simpa using h
    have nm : ∀ k, c ∉ EMap.padded w k ++ [' '] := by
      intro k hm
      rcases List.mem_append.1 hm with hm | hm
      · exact not_padded h1 h2 hm
      · exact h1 (List.mem_singleton.1 hm)
    obtain ⟨e1, e2⟩ := text_split_at (nm a) (nm b) this
    exact ⟨idPadded_inj (List.append_cancel_right e1), e2⟩
  obtain ⟨hc, h⟩ := step (by decide) (by decide) h
  injection h with _ h
  obtain ⟨hh, h⟩ := step (by decide) (by decide) h
  injection h with _ h
  obtain ⟨hs, h⟩ := step (by decide) (by decide) h
  injection h with _ h
  obtain ⟨e1, e2⟩ := text_split_at (not_padded (by decide) (by decide)) (not_padded (by decide) (by decide)) h
  have hn := idPadded_inj e1
  cases x; cases y
  simp only at hc hh hs hn
  exact ⟨by rw [hc, hh, hs, hn], e2⟩

theorem sectorLine_iff (e f : DiskTrack.Entry) : sectorLine e = sectorLine f ↔ Told e = Told f := by
  obtain ⟨ei, ea, ed, em, en⟩ := e
  obtain ⟨fi, fa, fd, fm, fn⟩ := f
  unfold sectorLine Told
  simp only [Prod.mk.injEq]
  constructor
  · intro h
    simp only [List.append_assoc, List.cons_append, List.nil_append] at h
    injection h with _ h
    injection h with _ h
    obtain ⟨h1, h2⟩ := idText_inj h
    refine ⟨h1, ?_⟩
    revert h2
    cases ea <;> cases ed <;> cases en <;> cases fa <;> cases fd <;> cases fn <;> decide
  · rintro ⟨rfl, rfl, rfl, rfl⟩; rfl

/-- Two blocks of lines of a kind, each followed by nothing or a line of another kind. -/
theorem lineBlock_inj {P : List Char → Bool} : ∀ {l l' x y : List (List Char)}, (∀ a ∈ l, P a = true) → (∀ a ∈ l', P a = true) →
    (∀ a, x.head? = some a → P a = false) → (∀ a, y.head? = some a → P a = false) → l ++ x = l' ++ y → l = l' ∧ x = y
  | [], [], _, _, _, _, _, _, h => ⟨rfl, by simpa using h⟩
  | [], b :: l', x, y, _, h2, h3, _, h => by
    rw [List.nil_append] at h
    have := h3 b (by rw [h]; rfl)
    rw [h2 b (by simp)] at this
    cases this
  | a :: l, [], x, y, h1, _, _, h4, h => by
    rw [List.nil_append] at h
    have := h4 a (by rw [← h]; rfl)
    rw [h1 a (by simp)] at this
    cases this
  | a :: l, b :: l', x, y, h1, h2, h3, h4, h => by
    rw [List.cons_append, List.cons_append] at h
    injection h with h h'
    obtain ⟨e1, e2⟩ := lineBlock_inj (fun c hc => h1 c (by simp [hc])) (fun c hc => h2 c (by simp [hc])) h3 h4 h'
    exact ⟨by rw [h, e1], e2⟩

/-- A line of a sector; a line of a sector or a track. -/
def ofSector (s : List Char) : Bool := s.take 2 == ['\t', '\t']
def ofTrack (s : List Char) : Bool := s.take 1 == ['\t']

theorem ofSector_line (e : DiskTrack.Entry) : ofSector (sectorLine e) = true := rfl
theorem ofTrack_line (e : DiskTrack.Entry) : ofTrack (sectorLine e) = true := rfl

theorem map_line_inj {l l' : List DiskTrack.Entry} : l.map sectorLine = l'.map sectorLine ↔ l.map Told = l'.map Told := by
  induction l generalizing l' with
  | nil => cases l' <;> simp
  | cons e l ih =>
    cases l' with
    | nil => simp
    | cons f l' => simp only [List.map_cons, List.cons.injEq, sectorLine_iff, ih]

theorem tracks_ofTrack : ∀ n m, ∀ s ∈ tracksLines n m, ofTrack s = true := by
  intro n m
  induction m generalizing n with
  | nil => intro s h; cases h
  | cons t ts ih =>
    intro s h
    unfold tracksLines trackLines at h
    rcases List.mem_append.1 h with h | h
    · rcases List.mem_cons.1 h with rfl | h
      · rfl
      · obtain ⟨e, _, rfl⟩ := List.mem_map.1 h
        rfl
    · exact ih _ s h

theorem tracks_head (n : Nat) (m : List (List DiskTrack.Entry)) (a : List Char) (h : (tracksLines n m).head? = some a) : ofSector a = false := by
  cases m with
  | nil => cases h
  | cons t ts =>
    simp only [tracksLines, trackLines, List.cons_append, List.head?_cons, Option.some.injEq] at h
    rw [← h]
    rfl

theorem heads_head (n : Nat) (m : List (List (List DiskTrack.Entry))) (a : List Char) (h : (headsLines n m).head? = some a) : ofTrack a = false := by
  cases m with
  | nil => cases h
  | cons t ts =>
    simp only [headsLines, List.cons_append, List.head?_cons, Option.some.injEq] at h
    rw [← h]
    rfl

theorem tracksLines_inj (n : Nat) (m m' : List (List DiskTrack.Entry)) :
    tracksLines n m = tracksLines n m' ↔ m.map (·.map Told) = m'.map (·.map Told) := by
  induction m generalizing n m' with
  | nil => cases m' <;> simp [tracksLines, trackLines]
  | cons t ts ih =>
    cases m' with
    | nil => simp [tracksLines, trackLines]
    | cons t' ts' =>
      simp only [tracksLines, trackLines, List.cons_append, List.cons.injEq, true_and, List.map_cons]
      rw [← ih (n + 1), ← map_line_inj]
      constructor
      · intro h
        refine lineBlock_inj (P := ofSector) ?_ ?_ (tracks_head _ _) (tracks_head _ _) h
        · intro a ha; obtain ⟨e, _, rfl⟩ := List.mem_map.1 ha; rfl
        · intro a ha; obtain ⟨e, _, rfl⟩ := List.mem_map.1 ha; rfl
      · rintro ⟨h1, h2⟩; rw [h1, h2]

theorem headsLines_inj (n : Nat) (m m' : List (List (List DiskTrack.Entry))) :
    headsLines n m = headsLines n m' ↔ m.map (·.map (·.map Told)) = m'.map (·.map (·.map Told)) := by
  induction m generalizing n m' with
  | nil => cases m' <;> simp [headsLines]
  | cons t ts ih =>
    cases m' with
    | nil => simp [headsLines]
    | cons t' ts' =>
      simp only [headsLines, List.cons_append, List.cons.injEq, true_and, List.map_cons]
      rw [← ih (n + 1), ← tracksLines_inj 0]
      constructor
      · intro h
        exact lineBlock_inj (P := ofTrack) (tracks_ofTrack _ _) (tracks_ofTrack _ _) (heads_head _ _) (heads_head _ _) h
      · rintro ⟨h1, h2⟩; rw [h1, h2]

theorem noNewline_digits (n : Nat) : '\n' ∉ Nat.toDigits 10 n := fun h => by
  have := toDigits_isDigit h
  revert this; decide

theorem noNewline_id (x : Chsn) : '\n' ∉ EMap.idText x := by
  unfold EMap.idText
  have p : ∀ w k, '\n' ∉ EMap.padded w k := fun w k => not_padded (by decide) (by decide)
  simp [p]

theorem noNewline_line (e : DiskTrack.Entry) : '\n' ∉ sectorLine e := by
  have b : ∀ x, '\n' ∉ bool x := by decide
  have t1 : '\n' ∉ " address_crc_valid: ".toList := by decide
  have t2 : '\n' ∉ " data_crc_valid: ".toList := by decide
  have t3 : '\n' ∉ " deleted: ".toList := by decide
  unfold sectorLine
  simp only [List.mem_append, not_or]
  exact ⟨⟨⟨⟨⟨⟨⟨by decide, noNewline_id _⟩, t1⟩, b _⟩, t2⟩, b _⟩, t3⟩, b _⟩

theorem noNewline_tracks (n : Nat) (m : List (List DiskTrack.Entry)) : ∀ s ∈ tracksLines n m, '\n' ∉ s := by
  induction m generalizing n with
  | nil => intro s h; cases h
  | cons t ts ih =>
    intro s h
    unfold tracksLines trackLines at h
    rcases List.mem_append.1 h with h | h
    · rcases List.mem_cons.1 h with rfl | h
      · rw [List.mem_append, not_or]; exact ⟨by decide, noNewline_digits _⟩
      · obtain ⟨e, _, rfl⟩ := List.mem_map.1 h
        exact noNewline_line e
    · exact ih _ s h

theorem noNewline_heads (n : Nat) (m : List (List (List DiskTrack.Entry))) : ∀ s ∈ headsLines n m, '\n' ∉ s := by
  induction m generalizing n with
  | nil => intro s h; cases h
  | cons t ts ih =>
    intro s h
    unfold headsLines at h
    rcases List.mem_append.1 h with h | h
    · rcases List.mem_cons.1 h with rfl | h
      · rw [List.mem_append, not_or]; exact ⟨by decide, noNewline_digits _⟩
      · exact noNewline_tracks _ _ s h
    · exact ih _ s h

/-- No sector of a list lacks its data mark. -/
theorem list_noDam (t : DiskTrack) : ∀ e ∈ t.sectorList, e.noDam = false := by
  intro e he
  unfold DiskTrack.sectorList at he
  split at he
  · obtain ⟨x, _, rfl⟩ := List.mem_map.1 he; rfl
  · obtain ⟨x, _, rfl⟩ := List.mem_map.1 he; rfl
  · obtain ⟨x, _, rfl⟩ := List.mem_map.1 he; rfl
  · cases he

theorem text_mem_of_mapM {α β : Type} {f : α → Except Err β} : ∀ {l : List α} {r : List β}, l.mapM f = .ok r → ∀ b ∈ r, ∃ a ∈ l, f a = .ok b
  | [], r, h, b, hb => by
    rw [List.mapM_nil] at h
    injection h with h
    rw [← h] at hb
    cases hb
  | a :: l, r, h, b, hb => by
    rw [List.mapM_cons] at h
    cases ha : f a with
    | error e => rw [ha] at h; cases h
    | ok x =>
      cases hl : l.mapM f with
      | error e => rw [ha, hl] at h; cases h
      | ok xs =>
        rw [ha, hl] at h
        injection h with h
        rw [← h] at hb
        rcases List.mem_cons.1 hb with rfl | hb
        · exact ⟨a, by simp, ha⟩
        · obtain ⟨c, hc, e⟩ := text_mem_of_mapM hl b hb
          exact ⟨c, by simp [hc], e⟩

theorem map_noDam {d : Disk} {m : List (List (List DiskTrack.Entry))} (h : d.sectorMap = .ok m) :
    ∀ x ∈ m, ∀ y ∈ x, ∀ e ∈ y, e.noDam = false := by
  intro x hx y hy e he
  unfold Disk.sectorMap at h
  obtain ⟨i, _, hi⟩ := text_mem_of_mapM h x hx
  split at hi
  · cases hi
  · obtain ⟨j, _, hj⟩ := text_mem_of_mapM hi y hy
    split at hj
    · cases hj
    · rename_i t _
      injection hj with hj
      rw [← hj] at he
      exact list_noDam t e he

/-- What a reader of the sector map is to learn of a sector from its dump: the id and whether its two checksums are right. -/
def Learnt (e : DiskTrack.Entry) : Chsn × Bool × Bool := (e.id, !e.addressError, !e.dataError)

theorem learnt_told {m m' : List (List (List DiskTrack.Entry))} (h : ∀ x ∈ m, ∀ y ∈ x, ∀ e ∈ y, e.noDam = false)
    (h' : ∀ x ∈ m', ∀ y ∈ x, ∀ e ∈ y, e.noDam = false) :
    m.map (·.map (·.map Told)) = m'.map (·.map (·.map Told)) ↔ m.map (·.map (·.map Learnt)) = m'.map (·.map (·.map Learnt)) := by
  have f1 : ∀ e, Learnt e = (fun (x : Chsn × Bool × Bool × Bool) => ((x.1, !x.2.1, !x.2.2.1) : Chsn × Bool × Bool)) (Told e) := fun _ => rfl
  have f2 : ∀ e : DiskTrack.Entry, e.noDam = false →
      Told e = (fun (x : Chsn × Bool × Bool) => ((x.1, !x.2.1, !x.2.2, false) : Chsn × Bool × Bool × Bool)) (Learnt e) := by
    intro e he; unfold Told Learnt; rw [he]; simp
  have up : ∀ l : List (List (List DiskTrack.Entry)), l.map (·.map (·.map Learnt)) = (l.map (·.map (·.map Told))).map
      (·.map (·.map fun (x : Chsn × Bool × Bool × Bool) => ((x.1, !x.2.1, !x.2.2.1) : Chsn × Bool × Bool))) := by
    intro l
    rw [List.map_map]
    apply List.map_congr_left
    intro x _
    show _ = (x.map _).map _
    rw [List.map_map]
    apply List.map_congr_left
    intro y _
    show _ = (y.map _).map _
    rw [List.map_map]
    rfl
  have down : ∀ l : List (List (List DiskTrack.Entry)), (∀ x ∈ l, ∀ y ∈ x, ∀ e ∈ y, e.noDam = false) →
      l.map (·.map (·.map Told)) = (l.map (·.map (·.map Learnt))).map
      (·.map (·.map fun (x : Chsn × Bool × Bool) => ((x.1, !x.2.1, !x.2.2, false) : Chsn × Bool × Bool × Bool))) := by
    intro l hl
    rw [List.map_map]
    apply List.map_congr_left
    intro x hx
    show _ = (x.map _).map _
    rw [List.map_map]
    apply List.map_congr_left
    intro y hy
    show _ = (y.map _).map _
    rw [List.map_map]
    apply List.map_congr_left
    intro e he
    exact f2 e (hl x hx y hy e he)
  constructor
  · intro e; rw [up, up, e]
  · intro e; rw [down m h, down m' h', e]

/-- **C142 (partial).** The dump of the sector map is made of every image whose sector map can be made, and two images have the same dump exactly if their
sector maps have the same sectors in the same places, with the same ids and the same state of their checksums.  Missing: which sectors are deleted
(`C142_false_deleted`). -/
theorem C142_dump_partial (d d' : Disk) (m m' : List (List (List DiskTrack.Entry))) (h : d.sectorMap = .ok m) (h' : d'.sectorMap = .ok m') :
    ∃ s s', dumpMap d = .ok s ∧ dumpMap d' = .ok s' ∧ (s = s' ↔ m.map (·.map (·.map Learnt)) = m'.map (·.map (·.map Learnt))) := by
  unfold dumpMap
  rw [h, h']
  refine ⟨_, _, rfl, rfl, ?_⟩
  rw [← learnt_told (map_noDam h) (map_noDam h'), ← headsLines_inj 0]
  exact ⟨lines_inj (noNewline_heads _ _) (noNewline_heads _ _), fun e => congrArg (fun l : List (List Char) => l.flatMap (· ++ ['\n'])) e⟩

/-- A line of the dump. -/
def LineOf (l s : List Char) : Prop := ∃ a b, s = a ++ l ++ '\n' :: b ∧ (a = [] ∨ a.getLast? = some '\n')

theorem lineOf_mem {l : List Char} : ∀ {ls : List (List Char)}, l ∈ ls → LineOf l (ls.flatMap (· ++ ['\n']))
  | x :: ls, h => by
    rcases List.mem_cons.1 h with rfl | h
    · exact ⟨[], ls.flatMap (· ++ ['\n']), by simp, .inl rfl⟩
    · obtain ⟨a, b, h1, h2⟩ := lineOf_mem h
      refine ⟨x ++ ['\n'] ++ a, b, by rw [List.flatMap_cons, h1]; simp, .inr ?_⟩
      rcases h2 with rfl | h2
      · simp
      · rw [List.getLast?_append, h2]; rfl

theorem mem_tracksLines {e : DiskTrack.Entry} {y : List DiskTrack.Entry} : ∀ {n : Nat} {m : List (List DiskTrack.Entry)}, y ∈ m → e ∈ y → sectorLine e ∈ tracksLines n m
  | n, t :: ts, hy, he => by
    unfold tracksLines trackLines
    rcases List.mem_cons.1 hy with rfl | hy
    · exact List.mem_append_left _ (List.mem_cons_of_mem _ (List.mem_map.2 ⟨e, he, rfl⟩))
    · exact List.mem_append_right _ (mem_tracksLines hy he)

theorem mem_headsLines {e : DiskTrack.Entry} {y : List DiskTrack.Entry} {x : List (List DiskTrack.Entry)} :
    ∀ {n : Nat} {m : List (List (List DiskTrack.Entry))}, x ∈ m → y ∈ x → e ∈ y → sectorLine e ∈ headsLines n m
  | n, t :: ts, hx, hy, he => by
    unfold headsLines
    rcases List.mem_cons.1 hx with rfl | hx
    · exact List.mem_append_left _ (List.mem_cons_of_mem _ (mem_tracksLines hy he))
    · exact List.mem_append_right _ (mem_headsLines hx hy he)

/-- **C142 is false of the code: deleted sectors.** Every sector has a line with its id, and the line ends in `deleted: false`, deleted or not. -/
theorem C142_false_deleted (d : Disk) (m : List (List (List DiskTrack.Entry))) (h : d.sectorMap = .ok m) (x : List (List DiskTrack.Entry)) (hx : x ∈ m)
    (y : List DiskTrack.Entry) (hy : y ∈ x) (e : DiskTrack.Entry) (he : e ∈ y) :
    ∃ s p, dumpMap d = .ok s ∧ LineOf (['\t', '\t'] ++ EMap.idText e.id ++ p ++ " deleted: false".toList) s := by
  unfold dumpMap
  rw [h]
  refine ⟨_, " address_crc_valid: ".toList ++ bool (!e.addressError) ++ " data_crc_valid: ".toList ++ bool (!e.dataError), rfl, ?_⟩
  have := lineOf_mem (mem_headsLines (n := 0) hx hy he)
  unfold sectorLine at this
  rw [map_noDam h x hx y hy e he] at this
  rw [show " deleted: false".toList = " deleted: ".toList ++ bool false by decide]
  simpa only [List.append_assoc] using this

/-- An image with a deleted sector. -/
def deletedImage : Disk :=
  { pool := [.sect ⟨⟨0, 0⟩, [{ id := ⟨0, 0, 1, 2⟩, addressError := false, dataError := true, deletedMark := true, data := [], weak := .empty 0, hole := .empty 0 }]⟩],
    map0 := [0], map1 := [], geometry := ⟨1, 1⟩ }

example : deletedImage.sectorMap.toOption = some [[[⟨⟨0, 0, 1, 2⟩, false, true, true, false⟩]]] ∧
    (dumpMap deletedImage).toOption =
      some "Head 0\n\tTrack 0\n\t\t[c: 0 h:0 s:  1 n:2] address_crc_valid: true data_crc_valid: false deleted: false\n".toList := by decide +kernel

end Fox
