import Verif.Proofs.LzhufExpand
/-
C53: what the LZHUF expander of TeleDisk images does with any data.
-/
namespace Fox
open Lzhuf Spec.Lz

theorem encode_start : ∃ t, create (256 + 60 - 2) = .ok t ∧ Inv t none ∧ t.n = 314 :=
  create_spec 314 (by decide) (by decide)

theorem encode_eq (t : Tree) (ht : create (256 + 60 - 2) = .ok t) (toks : List Token) (bits : List Bool) (t' : Tree)
    (h : encodeFrom t toks = .ok (bits, t')) : Lzhuf.encode toks = .ok bits := by
  unfold Lzhuf.encode
  rw [ht]
  show (encodeFrom t toks >>= _) = _
  rw [h]; rfl

theorem encode_inv (t : Tree) (ht : create (256 + 60 - 2) = .ok t) (toks : List Token) (bits : List Bool)
    (h : Lzhuf.encode toks = .ok bits) : ∃ t', encodeFrom t toks = .ok (bits, t') := by
  unfold Lzhuf.encode at h
  rw [ht] at h
  replace h : (encodeFrom t toks >>= fun r => pure r.1) = .ok bits := h
  cases hx : encodeFrom t toks with
  | error e => rw [hx] at h; cases h
  | ok x => rw [hx] at h; exact ⟨x.2, by cases h; rfl⟩

/-- Every list of tokens has a code: the adaptive tree never fails, however often it is rebuilt. -/
theorem C53_encode_total (toks : List Token) (hv : ∀ k ∈ toks, k.Valid) :
    ∃ bits, Lzhuf.encode toks = .ok bits ∧ toks.length ≤ bits.length := by
  obtain ⟨t, ht, hi, hn⟩ := encode_start
  obtain ⟨bits, t', h1, _, _, h2⟩ := encodeFrom_ok toks t hi hn hv
  exact ⟨bits, encode_eq t ht toks bits t' h1, h2⟩

/-- Codes can be told apart: two token lists whose codes start the same bits are one the start of the other. -/
theorem C53_prefix_free (xs ys : List Token) (hx : ∀ k ∈ xs, k.Valid) (hy : ∀ k ∈ ys, k.Valid) (b1 b2 all : List Bool)
    (h1 : Lzhuf.encode xs = .ok b1) (h2 : Lzhuf.encode ys = .ok b2) (p1 : b1 <+: all) (p2 : b2 <+: all) : xs <+: ys ∨ ys <+: xs := by
  obtain ⟨t, ht, hi, hn⟩ := encode_start
  obtain ⟨t1, e1⟩ := encode_inv t ht xs b1 h1
  obtain ⟨t2, e2⟩ := encode_inv t ht ys b2 h2
  obtain ⟨c1, q1⟩ := p1
  obtain ⟨c2, q2⟩ := p2
  exact tokens_unique xs ys t hi hn hx hy b1 b2 c1 c2 t1 t2 e1 e2 (q1.trans q2.symm)

/-- The code of a token list determines it. -/
theorem C53_injective (xs ys : List Token) (hx : ∀ k ∈ xs, k.Valid) (hy : ∀ k ∈ ys, k.Valid) (b : List Bool)
    (h1 : Lzhuf.encode xs = .ok b) (h2 : Lzhuf.encode ys = .ok b) : xs = ys := by
  obtain ⟨t, ht, hi, hn⟩ := encode_start
  obtain ⟨t1, e1⟩ := encode_inv t ht xs b h1
  obtain ⟨t2, e2⟩ := encode_inv t ht ys b h2
  have aux : ∀ (us vs : List Token) (tu tv : Tree), (∀ k ∈ vs, k.Valid) → encodeFrom t us = .ok (b, tu) → encodeFrom t vs = .ok (b, tv) →
      us <+: vs → us = vs := by
    intro us vs tu tv hvs eu ev ⟨ws, hw⟩
    subst hw
    have hus : ∀ k ∈ us, k.Valid := fun k hk => hvs k (List.mem_append_left _ hk)
    obtain ⟨bu, t3, f1, f2, f3, _⟩ := encodeFrom_ok us t hi hn hus
    obtain ⟨bw, t4, g1, _, _, g2⟩ := encodeFrom_ok ws t3 f2 f3 (fun k hk => hvs k (List.mem_append_right _ hk))
    have ha := encodeFrom_append us ws t bu bw t3 t4 f1 g1
    rw [eu] at f1
    obtain ⟨rfl, rfl⟩ := Prod.mk.inj (Except.ok.inj f1)
    rw [ev] at ha
    have hb : b = b ++ bw := congrArg Prod.fst (Except.ok.inj ha)
    have hl := congrArg List.length hb
    rw [List.length_append] at hl
    have : ws = [] := List.length_eq_zero_iff.mp (by omega)
    rw [this, List.append_nil]
  rcases tokens_unique xs ys t hi hn hx hy b b [] [] t1 t2 e1 e2 rfl with h | h
  · exact aux xs ys t1 t2 hy e1 e2 h
  · exact (aux ys xs t2 t1 hx e2 e1 h).symm

/-- The expander accepts any data: it never fails, never panics and always ends.  What it writes is what some
tokens stand for, whose code starts the data; it stops only where no further token follows, or when the size
limit is reached. -/
theorem C53_expand_any (data : List Byte) : ∃ toks bits, (∀ k ∈ toks, k.Valid) ∧ Lzhuf.encode toks = .ok bits ∧ bits <+: bitsOf data ∧
    expand data = .ok (unpack toks) ∧
    (2 ^ 32 ≤ 13 + (unpack toks).length ∨
      ∀ k bits', k.Valid → Lzhuf.encode (toks ++ [k]) = .ok bits' → ¬ bits' <+: bitsOf data) := by
  obtain ⟨t, ht, hi, hn⟩ := encode_start
  obtain ⟨toks, bits, t', tail, out, h1, h2, h3, h4, h5, h6⟩ := run_total (8 * data.length + 1) t ⟨[], 0, data⟩ startRing [] hi hn (Nat.zero_le _)
    (by show (([] : List Bool).drop 0 ++ bitsOf data).length < _
        rw [List.drop_nil, List.nil_append, length_bitsOf]; omega) startRing_ok
  have hr : bitsOf data = bits ++ tail := h3
  have hu := unpack_of toks out h5
  refine ⟨toks, bits, h1, encode_eq t ht toks bits t' h2, ⟨tail, hr.symm⟩, ?_, ?_⟩
  · unfold expand
    rw [ht, hu]
    exact h4
  · rw [hu]
    rcases h6 with h6 | h6
    · left; unfold u32Max at h6; omega
    · right
      intro k bits' hk he hp
      obtain ⟨bf, tf, f1, f2, f3, _⟩ := encodeFrom_ok toks t hi hn h1
      rw [h2] at f1
      obtain ⟨rfl, rfl⟩ := Prod.mk.inj (Except.ok.inj f1)
      obtain ⟨b1, t1, e1, _⟩ := encodeToken_ok t' f2 f3 k hk
      have ek : encodeFrom t' [k] = .ok (b1, t1) := by
        rw [encodeFrom, e1]
        show Except.ok (b1 ++ [], t1) = _
        rw [List.append_nil]
      have := encode_eq t ht _ _ _ (encodeFrom_append toks [k] t bits b1 t' t1 h2 ek)
      rw [he] at this
      cases this
      obtain ⟨x, hx⟩ := hp
      apply h6 k b1 t1 hk e1
      refine ⟨x, ?_⟩
      rw [hr, List.append_assoc] at hx
      exact List.append_cancel_left hx

/-- Data that starts with the code of some tokens expands to what they stand for, followed by at most one token
for each bit that is left over; nothing follows if no bits are left over. -/
theorem C53_round_trip (toks : List Token) (hv : ∀ k ∈ toks, k.Valid) (bits pad : List Bool) (data : List Byte)
    (he : Lzhuf.encode toks = .ok bits) (hd : bitsOf data = bits ++ pad) (hsz : (unpack toks).length + 13 < 2 ^ 32) :
    ∃ more, (∀ k ∈ more, k.Valid) ∧ more.length ≤ pad.length ∧ expand data = .ok (unpack (toks ++ more)) ∧
      unpack toks <+: unpack (toks ++ more) := by
  obtain ⟨t, ht, hi, hn⟩ := encode_start
  obtain ⟨t1, e1⟩ := encode_inv t ht toks bits he
  obtain ⟨n, hn2⟩ : ∃ n, 8 * data.length + 1 = n + toks.length ∧ pad.length < n := by
    obtain ⟨bf, tf, f1, _, _, f4⟩ := encodeFrom_ok toks t hi hn hv
    rw [e1] at f1
    obtain ⟨rfl, rfl⟩ := Prod.mk.inj (Except.ok.inj f1)
    have := congrArg List.length hd
    rw [length_bitsOf, List.length_append] at this
    exact ⟨8 * data.length + 1 - toks.length, by omega, by omega⟩
  have hlen : (toks.foldl Token.apply (history ++ [])).length < 2 ^ 32 + 4083 := by
    have hm := foldl_length toks (history ++ [])
    rw [List.append_nil] at hm ⊢
    rw [history_length] at hm
    unfold unpack at hsz
    rw [List.length_drop] at hsz
    omega
  obtain ⟨r', d', out', f1, f2, f3, f4, f5, f6, f7⟩ := run_tokens toks n t ⟨[], 0, data⟩ startRing [] bits pad t1 hi hn hv e1 (Nat.zero_le _)
    (show ([] : List Bool).drop 0 ++ bitsOf data = _ by rw [List.drop_nil, List.nil_append, hd]) startRing_ok hlen
  obtain ⟨more, b2, t2, tail, out2, g1, g2, g3, g4, g5, g6⟩ := run_total n t1 r' d' out' f6 f7 f2 (by rw [f3]; exact hn2.2) f4
  have hu := unpack_of (toks ++ more) out2 (by rw [g5, List.foldl_append, f5])
  have hu1 := unpack_of toks out' f5
  refine ⟨more, g1, ?_, ?_, ?_⟩
  · obtain ⟨bf, tf, q1, _, _, q4⟩ := encodeFrom_ok more t1 f6 f7 g1
    rw [g2] at q1
    obtain ⟨rfl, rfl⟩ := Prod.mk.inj (Except.ok.inj q1)
    have := congrArg List.length g3
    rw [f3, List.length_append] at this
    omega
  · unfold expand
    rw [ht, hu]
    show expandLoop _ t _ _ _ = _
    rw [hn2.1, f1]
    exact g4
  · rw [hu, hu1]
    obtain ⟨x, hx⟩ := foldl_prefix more (history ++ out')
    rw [← g5, List.append_assoc] at hx
    exact ⟨x, List.append_cancel_left hx⟩

/-- In particular nothing is lost or added when the code fills its last byte. -/
theorem C53_round_trip_exact (toks : List Token) (hv : ∀ k ∈ toks, k.Valid) (bits : List Bool) (data : List Byte)
    (he : Lzhuf.encode toks = .ok bits) (hd : bitsOf data = bits) (hsz : (unpack toks).length + 13 < 2 ^ 32) :
    expand data = .ok (unpack toks) := by
  obtain ⟨more, _, h2, h3, _⟩ := C53_round_trip toks hv bits [] data he (by rw [hd, List.append_nil]) hsz
  have : more = [] := List.length_eq_zero_iff.mp (by rw [List.length_nil] at h2; omega)
  rw [h3, this, List.append_nil]

/-- Any bits are the start of some bytes, with fewer than eight bits to spare. -/
theorem bits_to_bytes : ∀ (n : Nat) (bits : List Bool), bits.length ≤ n → ∃ data pad, bitsOf data = bits ++ pad ∧ pad.length < 8 := by
  have one : ∀ a b c d e f g h : Bool, byteBits (byteOfBits [a, b, c, d, e, f, g, h]) = [a, b, c, d, e, f, g, h] := by decide
  intro n
  induction n with
  | zero => intro bits h; exact ⟨[], [], by rw [List.length_eq_zero_iff.mp (by omega : bits.length = 0)]; rfl, by decide⟩
  | succ n ih =>
    intro bits h
    match bits with
    | [] => exact ⟨[], [], rfl, by decide⟩
    | [a] => exact ⟨[byteOfBits [a, false, false, false, false, false, false, false]], [false, false, false, false, false, false, false], by rw [bitsOf_cons, one]; rfl, by decide⟩
    | [a, b] => exact ⟨[byteOfBits [a, b, false, false, false, false, false, false]], [false, false, false, false, false, false], by rw [bitsOf_cons, one]; rfl, by decide⟩
    | [a, b, c] => exact ⟨[byteOfBits [a, b, c, false, false, false, false, false]], [false, false, false, false, false], by rw [bitsOf_cons, one]; rfl, by decide⟩
    | [a, b, c, d] => exact ⟨[byteOfBits [a, b, c, d, false, false, false, false]], [false, false, false, false], by rw [bitsOf_cons, one]; rfl, by decide⟩
    | [a, b, c, d, e] => exact ⟨[byteOfBits [a, b, c, d, e, false, false, false]], [false, false, false], by rw [bitsOf_cons, one]; rfl, by decide⟩
    | [a, b, c, d, e, f] => exact ⟨[byteOfBits [a, b, c, d, e, f, false, false]], [false, false], by rw [bitsOf_cons, one]; rfl, by decide⟩
    | [a, b, c, d, e, f, g] => exact ⟨[byteOfBits [a, b, c, d, e, f, g, false]], [false], by rw [bitsOf_cons, one]; rfl, by decide⟩
    | a :: b :: c :: d :: e :: f :: g :: h' :: rest =>
      obtain ⟨data, pad, h1, h2⟩ := ih rest (by simp only [List.length_cons] at h; omega)
      exact ⟨byteOfBits [a, b, c, d, e, f, g, h'] :: data, pad, by rw [bitsOf_cons, one, h1]; rfl, h2⟩

/-- Every token list is held by some data, so the expander can produce any bytes, with at most seven spare
tokens behind them. -/
theorem C53_expressible (toks : List Token) (hv : ∀ k ∈ toks, k.Valid) (hsz : (unpack toks).length + 13 < 2 ^ 32) :
    ∃ data more, (∀ k ∈ more, k.Valid) ∧ more.length < 8 ∧ expand data = .ok (unpack (toks ++ more)) := by
  obtain ⟨bits, h1, _⟩ := C53_encode_total toks hv
  obtain ⟨data, pad, h2, h3⟩ := bits_to_bytes bits.length bits (Nat.le_refl _)
  obtain ⟨more, h4, h5, h6, _⟩ := C53_round_trip toks hv bits pad data h1 h2 hsz
  exact ⟨data, more, h4, by omega, h6⟩

/-- A concrete stream: "AB", seven bytes copied from two bytes ago, and "C". -/
def lzTokens : List Token := [.lit 0x41#8, .lit 0x42#8, .copy 7 1, .lit 0x43#8]

theorem lz_example_valid : ∀ k ∈ lzTokens, k.Valid := by
  intro k hk
  simp only [lzTokens, List.mem_cons, List.not_mem_nil, or_false] at hk
  rcases hk with rfl | rfl | rfl | rfl
  · trivial
  · trivial
  · exact ⟨by decide, by decide, by decide⟩
  · trivial

theorem lz_example_unpack : unpack lzTokens =
    [0x41#8, 0x42#8, 0x41#8, 0x42#8, 0x41#8, 0x42#8, 0x41#8, 0x42#8, 0x41#8, 0x43#8] := by decide +kernel

/-- The hypotheses of `C53_round_trip` are met by the example. -/
example : ∃ data more, more.length < 8 ∧ expand data = .ok (unpack (lzTokens ++ more)) := by
  obtain ⟨data, more, _, h2, h3⟩ := C53_expressible lzTokens lz_example_valid (by rw [lz_example_unpack]; decide)
  exact ⟨data, more, h2, h3⟩

/-- A copy may reach into the spaces before the first byte. -/
example : unpack [.copy 3 0, .lit 0x41#8, .copy 3 4095] = [0x20#8, 0x20#8, 0x20#8, 0x41#8, 0#8, 0#8, 0#8] := by decide +kernel

end Fox
