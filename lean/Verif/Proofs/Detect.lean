import Verif.Spec.Detect
/-
The tests of the formats, told by what they look for.
-/
namespace Fox
namespace Detect
open Spec.FileKind

theorem starts_iff (n : Nat) (sig f : List Byte) : starts n sig f = true ↔ n ≤ f.length ∧ ∃ r, f = sig ++ r := by
  unfold starts
  rw [Bool.and_eq_true, decide_eq_true_iff, beq_iff_eq]
  constructor
  · rintro ⟨h, e⟩
    exact ⟨h, f.drop sig.length, by conv => lhs; rw [← List.take_append_drop sig.length f]; rw [e]⟩
  · rintro ⟨h, r, rfl⟩
    exact ⟨h, by simp⟩

theorem raw_size (n : Nat) : (StdFormat.ofSize n).isSome = true ↔ n ∈ rawSizes := by
  unfold StdFormat.ofSize rawSizes
  simp only [List.mem_cons, List.not_mem_nil, or_false]
  repeat' split
  all_goals (simp only [Option.isSome_some, Option.isSome_none, Bool.false_eq_true, true_iff, false_iff]; omega)

theorem asciiText_eq (f : List Byte) : asciiText f = textOf f := by
  induction f with
  | nil => rfl
  | cons b r ih =>
    unfold textOf at *
    rw [asciiText, List.takeWhile_cons]
    by_cases h : b = 0x1A#8 ∨ b = 0#8
    · rw [if_pos h, if_neg (by rcases h with h | h <;> simp [h])]
      rfl
    · rw [if_neg h, if_pos (decide_eq_true (⟨fun e => h (Or.inr e), fun e => h (Or.inl e)⟩ : b ≠ 0#8 ∧ b ≠ 26#8)),
        List.filter_cons]
      by_cases hb : 32 ≤ b.toNat ∧ b.toNat < 128
      · rw [if_pos hb, if_pos (decide_eq_true (by omega)), ih]
      · rw [if_neg hb, if_neg (by simp only [decide_eq_true_iff]; omega), ih]

/-! ## The pattern of ImageDisk -/

theorem char_iff (c : Byte) (l r : List Byte) : char c l = some r ↔ l = c :: r := by
  cases l with
  | nil => simp [char]
  | cons b l =>
    rw [char]
    by_cases h : b = c
    · rw [if_pos h]; simp [h]
    · rw [if_neg h]; simp [h]

def IsDigit (b : Byte) : Prop := 48 ≤ b.toNat ∧ b.toNat ≤ 57

theorem digit_iff (l r : List Byte) : digit l = some r ↔ ∃ d, IsDigit d ∧ l = d :: r := by
  cases l with
  | nil => simp [digit]
  | cons b l =>
    rw [digit]
    by_cases h : 48 ≤ b.toNat ∧ b.toNat ≤ 57
    · rw [if_pos h]
      constructor
      · intro e; cases e; exact ⟨b, h, rfl⟩
      · rintro ⟨d, _, e⟩; cases e; rfl
    · rw [if_neg h]
      constructor
      · intro e; cases e
      · rintro ⟨d, hd, e⟩; cases e; exact absurd hd h

theorem digit_none (l : List Byte) (h : digit l = none) : ∀ d r, l = d :: r → ¬ IsDigit d := by
  intro d r e hd
  rw [(digit_iff l r).2 ⟨d, hd, e⟩] at h
  cases h

theorem digit12_iff (l r : List Byte) (hr : ∀ d s, r = d :: s → ¬ IsDigit d) :
    digit12 l = some r ↔ ∃ ds, (Digits 1 ds ∨ Digits 2 ds) ∧ l = ds ++ r := by
  unfold digit12
  constructor
  · intro h
    cases h1 : digit l with
    | none => rw [h1] at h; cases h
    | some r1 =>
      obtain ⟨a, ha, rfl⟩ := (digit_iff _ _).1 h1
      rw [h1] at h
      simp only at h
      cases h2 : digit r1 with
      | none =>
        rw [h2] at h; cases h
        exact ⟨[a], .inl ⟨rfl, by intro b hb; cases List.mem_singleton.1 hb; exact ha⟩, rfl⟩
      | some r2 =>
        rw [h2] at h; cases h
        obtain ⟨b, hb, rfl⟩ := (digit_iff _ _).1 h2
        refine ⟨[a, b], .inr ⟨rfl, ?_⟩, rfl⟩
        intro c hc
        simp only [List.mem_cons, List.not_mem_nil, or_false] at hc
        rcases hc with rfl | rfl
        · exact ha
        · exact hb
  · rintro ⟨ds, hds, rfl⟩
    rcases hds with ⟨hl, hd⟩ | ⟨hl, hd⟩
    · match ds, hl with
      | [a], _ =>
        rw [(digit_iff ([a] ++ r) r).2 ⟨a, hd a (List.mem_singleton.2 rfl), rfl⟩]
        simp only
        cases h2 : digit r with
        | none => rfl
        | some r2 =>
          obtain ⟨b, hb, e⟩ := (digit_iff _ _).1 h2
          exact absurd hb (hr b r2 e)
    · match ds, hl with
      | [a, b], _ =>
        have ha : IsDigit a := hd a (by simp)
        have hb : IsDigit b := hd b (by simp)
        rw [(digit_iff ([a, b] ++ r) (b :: r)).2 ⟨a, ha, rfl⟩]
        simp only
        rw [(digit_iff _ r).2 ⟨b, hb, rfl⟩]

theorem digit12_some (l r : List Byte) (h : digit12 l = some r) :
    ∃ ds, (Digits 1 ds ∨ Digits 2 ds) ∧ l = ds ++ r := by
  unfold digit12 at h
  cases h1 : digit l with
  | none => rw [h1] at h; cases h
  | some r1 =>
    obtain ⟨a, ha, rfl⟩ := (digit_iff _ _).1 h1
    rw [h1] at h
    simp only at h
    cases h2 : digit r1 with
    | none =>
      rw [h2] at h; cases h
      exact ⟨[a], .inl ⟨rfl, by intro b hb; cases List.mem_singleton.1 hb; exact ha⟩, rfl⟩
    | some r2 =>
      rw [h2] at h; cases h
      obtain ⟨b, hb, rfl⟩ := (digit_iff _ _).1 h2
      refine ⟨[a, b], .inr ⟨rfl, ?_⟩, rfl⟩
      intro c hc
      simp only [List.mem_cons, List.not_mem_nil, or_false] at hc
      rcases hc with rfl | rfl
      · exact ha
      · exact hb

theorem blanks_spec (l : List Byte) : ∃ k, l = List.replicate k 32#8 ++ blanks l := by
  induction l with
  | nil => exact ⟨0, rfl⟩
  | cons b r ih =>
    rw [blanks]
    by_cases h : b = 0x20#8
    · rw [if_pos h]
      obtain ⟨k, hk⟩ := ih
      exact ⟨k + 1, by rw [List.replicate_succ, List.cons_append, ← hk, h]⟩
    · rw [if_neg h]; exact ⟨0, rfl⟩

theorem blanks_all (s r : List Byte) (hs : ∀ b ∈ s, b = 32#8) (hr : ∀ d t, r = d :: t → d ≠ 32#8) : blanks (s ++ r) = r := by
  induction s with
  | nil =>
    cases r with
    | nil => rfl
    | cons d t => rw [List.nil_append, blanks, if_neg (hr d t rfl)]
  | cons b s ih =>
    rw [List.cons_append, blanks, if_pos (hs b List.mem_cons_self)]
    exact ih fun c hc => hs c (List.mem_cons_of_mem _ hc)

theorem blanks1_some (l r : List Byte) (h : blanks1 l = some r) : ∃ s, Blanks s ∧ l = s ++ r := by
  unfold blanks1 at h
  cases h1 : char 0x20#8 l with
  | none => rw [h1] at h; cases h
  | some r1 =>
    rw [h1] at h; cases h
    have e := (char_iff _ _ _).1 h1
    obtain ⟨k, hk⟩ := blanks_spec r1
    refine ⟨List.replicate (k + 1) 32#8, ⟨by simp, fun b hb => (List.eq_of_mem_replicate hb)⟩, ?_⟩
    rw [List.replicate_succ, List.cons_append, ← hk, e]

theorem blanks1_of (s r : List Byte) (hs : Blanks s) (hr : ∀ d t, r = d :: t → d ≠ 32#8) : blanks1 (s ++ r) = some r := by
  cases s with
  | nil => exact absurd rfl hs.1
  | cons b s =>
    unfold blanks1
    rw [(char_iff _ _ (s ++ r)).2 (by rw [hs.2 b List.mem_cons_self]; rfl)]
    simp only
    rw [blanks_all s r (fun c hc => hs.2 c (List.mem_cons_of_mem _ hc)) hr]

theorem digits1 (l : List Byte) (h : Digits 1 l) : ∃ a, IsDigit a ∧ l = [a] := by
  obtain ⟨hl, hd⟩ := h
  match l, hl with
  | [a], _ => exact ⟨a, hd a (by simp), rfl⟩

theorem digits2 (l : List Byte) (h : Digits 2 l) : ∃ a b, IsDigit a ∧ IsDigit b ∧ l = [a, b] := by
  obtain ⟨hl, hd⟩ := h
  match l, hl with
  | [a, b], _ => exact ⟨a, b, hd a (by simp), hd b (by simp), rfl⟩

theorem digits4 (l : List Byte) (h : Digits 4 l) :
    ∃ a b c d, IsDigit a ∧ IsDigit b ∧ IsDigit c ∧ IsDigit d ∧ l = [a, b, c, d] := by
  obtain ⟨hl, hd⟩ := h
  match l, hl with
  | [a, b, c, d], _ => exact ⟨a, b, c, d, hd a (by simp), hd b (by simp), hd c (by simp), hd d (by simp), rfl⟩

theorem mk1 (a : Byte) (h : IsDigit a) : Digits 1 [a] := ⟨rfl, by intro b hb; cases List.mem_singleton.1 hb; exact h⟩

theorem mk2 (a b : Byte) (ha : IsDigit a) (hb : IsDigit b) : Digits 2 [a, b] := by
  refine ⟨rfl, fun c hc => ?_⟩
  simp only [List.mem_cons, List.not_mem_nil, or_false] at hc
  rcases hc with rfl | rfl <;> assumption

theorem mk4 (a b c d : Byte) (ha : IsDigit a) (hb : IsDigit b) (hc : IsDigit c) (hd : IsDigit d) : Digits 4 [a, b, c, d] := by
  refine ⟨rfl, fun x hx => ?_⟩
  simp only [List.mem_cons, List.not_mem_nil, or_false] at hx
  rcases hx with rfl | rfl | rfl | rfl <;> assumption

theorem imd_text : text ['I', 'M', 'D', ' '] = [0x49#8, 0x4D#8, 0x44#8, 0x20#8] := by decide
theorem dot_text : text ['.'] = [0x2E#8] := by decide
theorem colon_text : text [':'] = [0x3A#8] := by decide
theorem slash_text : text ['/'] = [0x2F#8] := by decide

theorem imdHere_some (l z : List Byte) (h : imdHere l = some z) : ∃ x, ImdLine x ∧ l = x ++ z := by
  unfold imdHere at h
  simp only [Option.bind_eq_bind, Option.bind_eq_some_iff, char_iff] at h
  obtain ⟨_, rfl, _, rfl, _, rfl, _, rfl, _, h5, _, rfl, _, h7, _, h8, _, rfl, _, h10, _, h11, _, rfl, _, h13, _, h14, _, rfl,
    _, h16, _, h17, _, h18, _, h19, _, h20, _, h21, _, rfl, _, h23, _, h24, _, rfl, _, h26, h27⟩ := h
  obtain ⟨v, hv, rfl⟩ := (digit_iff _ _).1 h5
  obtain ⟨v1, hv1, rfl⟩ := (digit_iff _ _).1 h7
  obtain ⟨v2, hv2, rfl⟩ := (digit_iff _ _).1 h8
  obtain ⟨s1, hs1, rfl⟩ := blanks1_some _ _ h10
  obtain ⟨dd, hdd, rfl⟩ := digit12_some _ _ h11
  obtain ⟨m1, hm1, rfl⟩ := (digit_iff _ _).1 h13
  obtain ⟨m2, hm2, rfl⟩ := (digit_iff _ _).1 h14
  obtain ⟨y1, hy1, rfl⟩ := (digit_iff _ _).1 h16
  obtain ⟨y2, hy2, rfl⟩ := (digit_iff _ _).1 h17
  obtain ⟨y3, hy3, rfl⟩ := (digit_iff _ _).1 h18
  obtain ⟨y4, hy4, rfl⟩ := (digit_iff _ _).1 h19
  obtain ⟨s2, hs2, rfl⟩ := blanks1_some _ _ h20
  obtain ⟨hh, hhh, rfl⟩ := digit12_some _ _ h21
  obtain ⟨n1, hn1, rfl⟩ := (digit_iff _ _).1 h23
  obtain ⟨n2, hn2, rfl⟩ := (digit_iff _ _).1 h24
  obtain ⟨e1, he1, rfl⟩ := (digit_iff _ _).1 h26
  obtain ⟨e2, he2, rfl⟩ := (digit_iff _ _).1 h27
  refine ⟨_, ⟨[v], [v1, v2], s1, dd, [m1, m2], [y1, y2, y3, y4], s2, hh, [n1, n2], [e1, e2], mk1 _ hv, mk2 _ _ hv1 hv2, hs1, hdd,
    mk2 _ _ hm1 hm2, mk4 _ _ _ _ hy1 hy2 hy3 hy4, hs2, hhh, mk2 _ _ hn1 hn2, mk2 _ _ he1 he2, rfl⟩, ?_⟩
  simp only [imd_text, dot_text, colon_text, slash_text, List.append_assoc, List.cons_append, List.nil_append]

theorem not_blank (d : Byte) (h : IsDigit d) : d ≠ 32#8 := by
  rintro rfl
  have : 48 ≤ (32#8).toNat := h.1
  simp at this

theorem digits_head (ds r : List Byte) (h : Digits 1 ds ∨ Digits 2 ds) : ∀ d t, ds ++ r = d :: t → d ≠ 32#8 := by
  intro d t e
  rcases h with h | h
  · obtain ⟨a, ha, rfl⟩ := digits1 _ h
    cases e; exact not_blank _ ha
  · obtain ⟨a, b, ha, hb, rfl⟩ := digits2 _ h
    cases e; exact not_blank _ ha

theorem imdHere_of (x z : List Byte) (h : ImdLine x) : imdHere (x ++ z) = some z := by
  obtain ⟨v, vv, s1, dd, mo, yy, s2, hh, mm, ss, hv, hvv, hs1, hdd, hmo, hyy, hs2, hhh, hmm, hss, rfl⟩ := h
  obtain ⟨v, hvd, rfl⟩ := digits1 _ hv
  obtain ⟨v1, v2, hv1, hv2, rfl⟩ := digits2 _ hvv
  obtain ⟨m1, m2, hm1, hm2, rfl⟩ := digits2 _ hmo
  obtain ⟨y1, y2, y3, y4, hy1, hy2, hy3, hy4, rfl⟩ := digits4 _ hyy
  obtain ⟨n1, n2, hn1, hn2, rfl⟩ := digits2 _ hmm
  obtain ⟨e1, e2, he1, he2, rfl⟩ := digits2 _ hss
  simp only [imd_text, dot_text, colon_text, slash_text, List.append_assoc, List.cons_append, List.nil_append]
  unfold imdHere
  have dg : ∀ (a : Byte) (r : List Byte), IsDigit a → digit (a :: r) = some r := fun a r ha => (digit_iff _ _).2 ⟨a, ha, rfl⟩
  have d12 : ∀ (ds r : List Byte) (c : Byte), (Digits 1 ds ∨ Digits 2 ds) → ¬ IsDigit c → digit12 (ds ++ c :: r) = some (c :: r) :=
    fun ds r c hds hc => (digit12_iff _ _ (by intro d t e; cases e; exact hc)).2 ⟨ds, hds, rfl⟩
  have nslash : ¬ IsDigit 0x2F#8 := fun h => by have : 48 ≤ (0x2F#8).toNat := h.1; simp at this
  have ncolon : ¬ IsDigit 0x3A#8 := fun h => by have : (0x3A#8).toNat ≤ 57 := h.2; simp at this
  simp only [Option.bind_eq_bind, Option.bind_eq_some_iff, char_iff]
  exact ⟨_, rfl, _, rfl, _, rfl, _, rfl, _, dg _ _ hvd, _, rfl, _, dg _ _ hv1, _, dg _ _ hv2, _, rfl,
    _, blanks1_of s1 _ hs1 (digits_head dd _ hdd), _, d12 dd _ _ hdd nslash, _, rfl, _, dg _ _ hm1, _, dg _ _ hm2, _, rfl,
    _, dg _ _ hy1, _, dg _ _ hy2, _, dg _ _ hy3, _, dg _ _ hy4, _, blanks1_of s2 _ hs2 (digits_head hh _ hhh),
    _, d12 hh _ _ hhh ncolon, _, rfl, _, dg _ _ hn1, _, dg _ _ hn2, _, rfl, _, dg _ _ he1, dg _ _ he2⟩

theorem imdAnywhere_iff (l : List Byte) : imdAnywhere l = true ↔ ∃ a x z, l = a ++ x ++ z ∧ ImdLine x := by
  induction l with
  | nil =>
    constructor
    · intro h; cases h
    · rintro ⟨a, x, z, e, h⟩
      have hx : x = [] := by
        have := congrArg List.length e
        simp only [List.length_nil, List.length_append] at this
        exact List.length_eq_zero_iff.1 (by omega)
      obtain ⟨v, vv, s1, dd, mo, yy, s2, hh, mm, ss, hv, hvv, hs1, hdd, hmo, hyy, hs2, hhh, hmm, hss, rfl⟩ := h
      simp [imd_text] at hx
  | cons b r ih =>
    rw [imdAnywhere, Bool.or_eq_true, ih]
    constructor
    · rintro (h | ⟨a, x, z, rfl, hx⟩)
      · obtain ⟨z, hz⟩ := Option.isSome_iff_exists.1 h
        obtain ⟨x, hx, e⟩ := imdHere_some _ _ hz
        exact ⟨[], x, z, e, hx⟩
      · exact ⟨b :: a, x, z, rfl, hx⟩
    · rintro ⟨a, x, z, e, hx⟩
      cases a with
      | nil =>
        left
        rw [List.nil_append] at e
        rw [e, imdHere_of x z hx]; rfl
      | cons a0 a =>
        right
        simp only [List.cons_append] at e
        exact ⟨a, x, z, (List.cons.inj e).2, hx⟩

/-! ## The formats -/

theorem detects_raw (f : List Byte) : detects f .raw = true ↔ f.length ∈ rawSizes := raw_size _

theorem detects_imd (f : List Byte) : detects f .imd = true ↔ HasImdLine f := by
  show imdAnywhere (asciiText f) = true ↔ _
  rw [asciiText_eq, imdAnywhere_iff]; rfl

theorem detects_iff (f : List Byte) (F : Format) (h1 : F ≠ .raw) (h2 : F ≠ .imd) : detects f F = true ↔ Bears f F := by
  unfold Bears
  cases F
  case raw => exact absurd rfl h1
  case imd => exact absurd rfl h2
  all_goals
    simp only [detects, Bool.or_eq_true, starts_iff, headerSize, marks, List.mem_cons, List.not_mem_nil, or_false]
  case td0 =>
    rw [show text ['T', 'D'] = [0x54#8, 0x44#8] by decide, show text ['t', 'd'] = [0x74#8, 0x64#8] by decide]
    constructor
    · rintro (⟨h, r, e⟩ | ⟨h, r, e⟩)
      · exact ⟨h, _, .inl rfl, r, e⟩
      · exact ⟨h, _, .inr rfl, r, e⟩
    · rintro ⟨h, _, rfl | rfl, r, e⟩
      · exact .inl ⟨h, r, e⟩
      · exact .inr ⟨h, r, e⟩
  case mfi =>
    constructor
    · rintro (⟨h, r, e⟩ | ⟨h, r, e⟩)
      · exact ⟨h, _, .inr rfl, r, e⟩
      · exact ⟨h, _, .inl rfl, r, e⟩
    · rintro ⟨h, _, rfl | rfl, r, e⟩
      · exact .inr ⟨h, r, e⟩
      · exact .inl ⟨h, r, e⟩
  all_goals
    constructor
    · rintro ⟨h, r, e⟩
      exact ⟨h, _, rfl, r, e⟩
    · rintro ⟨h, _, rfl, r, e⟩
      exact ⟨h, r, e⟩

/-! ## One mark at most -/

theorem prefix_cases {a b r s : List Byte} (h : a ++ r = b ++ s) : a.take b.length = b.take a.length := by
  have h1 : (a ++ r).take (min a.length b.length) = a.take b.length := by
    rw [List.take_append_of_le_length (Nat.min_le_left _ _)]
    rcases Nat.le_total a.length b.length with hl | hl
    · rw [Nat.min_eq_left hl, List.take_of_length_le (Nat.le_refl _), List.take_of_length_le hl]
    · rw [Nat.min_eq_right hl]
  have h2 : (b ++ s).take (min a.length b.length) = b.take a.length := by
    rw [List.take_append_of_le_length (Nat.min_le_right _ _)]
    rcases Nat.le_total a.length b.length with hl | hl
    · rw [Nat.min_eq_left hl]
    · rw [Nat.min_eq_right hl, List.take_of_length_le (Nat.le_refl _), List.take_of_length_le hl]
  rw [← h1, ← h2, h]

theorem marks_differ : ∀ F ∈ Format.all, ∀ G ∈ Format.all, F ≠ G → ∀ a ∈ marks F, ∀ b ∈ marks G, a.take b.length ≠ b.take a.length := by
  decide +kernel

theorem mem_all (F : Format) : F ∈ Format.all := by cases F <;> decide

theorem bears_unique (f : List Byte) (F G : Format) (hF : Bears f F) (hG : Bears f G) : F = G := by
  obtain ⟨_, a, ha, r, e⟩ := hF
  obtain ⟨_, b, hb, s, e'⟩ := hG
  apply Decidable.byContradiction
  intro h
  exact marks_differ F (mem_all F) G (mem_all G) h a ha b hb (prefix_cases (e ▸ e'))

theorem bears_mark (f : List Byte) (F : Format) (h : Bears f F) : F ≠ .raw ∧ F ≠ .imd := by
  obtain ⟨_, a, ha, _⟩ := h
  constructor <;> (rintro rfl; simp [marks] at ha)

theorem detect_none (f : List Byte) : detect f = none ↔ f.length ∉ rawSizes ∧ ¬ HasImdLine f ∧ ∀ F, ¬ Bears f F := by
  unfold detect
  rw [List.find?_eq_none]
  constructor
  · intro h
    refine ⟨fun e => h .raw (mem_all _) ((detects_raw f).2 e), fun e => h .imd (mem_all _) ((detects_imd f).2 e), fun F e => ?_⟩
    exact h F (mem_all _) ((detects_iff f F (bears_mark _ _ e).1 (bears_mark _ _ e).2).2 e)
  · rintro ⟨h1, h2, h3⟩ F _ e
    cases F
    case raw => exact h1 ((detects_raw f).1 e)
    case imd => exact h2 ((detects_imd f).1 e)
    all_goals exact h3 _ ((detects_iff f _ (by simp) (by simp)).1 e)

theorem detect_raw (f : List Byte) : detect f = some .raw ↔ f.length ∈ rawSizes := by
  unfold detect Format.all
  rw [← detects_raw, List.find?_cons]
  cases h : detects f .raw with
  | true => simp
  | false =>
    simp only [Bool.false_eq_true, iff_false]
    intro e
    have := List.mem_of_find?_eq_some e
    simp at this

theorem detect_imd (f : List Byte) : detect f = some .imd ↔ f.length ∉ rawSizes ∧ HasImdLine f := by
  unfold detect Format.all
  rw [← detects_raw, ← detects_imd, List.find?_cons, List.find?_cons]
  cases h : detects f .raw with
  | true => simp
  | false =>
    cases h2 : detects f .imd with
    | true => simp
    | false =>
      simp only [Bool.false_eq_true, and_false, iff_false]
      intro e
      have := List.mem_of_find?_eq_some e
      simp at this

theorem detect_mark (f : List Byte) (F : Format) (h1 : F ≠ .raw) (h2 : F ≠ .imd) :
    detect f = some F ↔ f.length ∉ rawSizes ∧ ¬ HasImdLine f ∧ Bears f F := by
  constructor
  · intro h
    have hd : detects f F = true := List.find?_some (p := fun F => detects f F) h
    refine ⟨fun e => ?_, fun e => ?_, (detects_iff f F h1 h2).1 hd⟩
    · rw [(detect_raw f).2 e] at h; cases h; exact h1 rfl
    · by_cases hr : f.length ∈ rawSizes
      · rw [(detect_raw f).2 hr] at h; cases h; exact h1 rfl
      · rw [(detect_imd f).2 ⟨hr, e⟩] at h; cases h; exact h2 rfl
  · rintro ⟨hr, hi, hb⟩
    cases hd : detect f with
    | none => exact absurd hb (((detect_none f).1 hd).2.2 F)
    | some G =>
      by_cases g1 : G = .raw
      · rw [g1] at hd; exact absurd ((detect_raw f).1 hd) hr
      · by_cases g2 : G = .imd
        · rw [g2] at hd; exact absurd ((detect_imd f).1 hd).2 hi
        · have hG : detects f G = true := List.find?_some (p := fun F => detects f F) hd
          rw [bears_unique f F G hb ((detects_iff f G g1 g2).1 hG)]

theorem archive_iff (f : List Byte) :
    Archive f ↔ starts 4 [0x50#8, 0x4B#8, 0x03#8, 0x04#8] f = true ∨ starts 3 [0x1F#8, 0x8B#8, 0x08#8] f = true := by
  unfold Archive
  rw [show text ['P', 'K'] ++ [3#8, 4#8] = [0x50#8, 0x4B#8, 0x03#8, 0x04#8] by decide, starts_iff, starts_iff]
  constructor
  · rintro (⟨r, rfl⟩ | ⟨r, rfl⟩)
    · exact .inl ⟨by simp, r, rfl⟩
    · exact .inr ⟨by simp, r, rfl⟩
  · rintro (⟨_, h⟩ | ⟨_, h⟩)
    · exact .inl h
    · exact .inr h

theorem container_plain (u : Unpack) (sort : List Path → List Path) (f : List Byte) (h : ¬ Archive f) :
    container u sort f = plain f := by
  rw [archive_iff] at h
  unfold container
  rw [if_neg fun e => h (.inl e), if_neg fun e => h (.inr e)]

end Detect
end Fox
