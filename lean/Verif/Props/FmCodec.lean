import Verif.Props.Fm
/-
C92: writing to and reading from a single density stream.
-/
namespace Fox.Fm
open Fox.Spec Fox.S34
open FmDisk (cellsOfByte plain)

theorem setAll_ok : ∀ (bs l : List Bool) (i : Nat), i + bs.length ≤ l.length →
    ∃ l', setAll l i bs = .ok l' ∧ l'.length = l.length ∧
      ∀ j, l'.getD j false = if i ≤ j ∧ j < i + bs.length then bs.getD (j - i) false else l.getD j false
  | [], l, i, _ => ⟨l, rfl, rfl, fun j => by rw [if_neg (by simp only [List.length_nil]; omega)]⟩
  | b :: bs, l, i, h => by
    rw [List.length_cons] at h
    obtain ⟨l', h1, h2, h3⟩ := setAll_ok bs (l.set i b) (i + 1) (by rw [List.length_set]; omega)
    refine ⟨l', ?_, by rw [h2, List.length_set], fun j => ?_⟩
    · rw [setAll, if_pos (by omega), h1]
    · rw [h3 j, List.length_cons]
      by_cases hj : i + 1 ≤ j ∧ j < i + 1 + bs.length
      · rw [if_pos hj, if_pos (by omega), show j - i = (j - (i + 1)) + 1 by omega, List.getD_cons_succ]
      · rw [if_neg hj]
        by_cases hi : j = i
        · subst hi
          rw [if_pos (by omega), Nat.sub_self, List.getD_cons_zero, List.getD_eq_getElem?_getD,
            List.getElem?_set_self (by omega)]
          rfl
        · rw [if_neg (by omega), List.getD_eq_getElem?_getD, List.getElem?_set_ne (by omega), ← List.getD_eq_getElem?_getD]

theorem setAll_panic : ∀ (bs l : List Bool) (i : Nat), l.length < i + bs.length → bs ≠ [] → setAll l i bs = .error .panic
  | [], _, _, _, h => absurd rfl h
  | b :: bs, l, i, h, _ => by
    rw [setAll]
    by_cases hi : i < l.length
    · rw [if_pos hi]
      rw [List.length_cons] at h
      by_cases hb : bs = []
      · subst hb; simp at h; omega
      · exact setAll_panic bs (l.set i b) (i + 1) (by rw [List.length_set]; omega) hb
    · rw [if_neg hi]

/-- **C92, raw bytes.** Raw bytes that fit are written where they should be, nothing else is changed, and they are read
back; those that do not fit make the program panic. -/
theorem C92_raw (s : Fm) (buf : List Byte) (off : Nat) :
    (off + 8 * buf.length ≤ s.bits.length → ∃ s', s.writeRawBuf buf off = .ok s' ∧ s'.bits.length = s.bits.length ∧
      (∀ j, j < off ∨ off + 8 * buf.length ≤ j → s'.bits.getD j false = s.bits.getD j false) ∧
      ∀ k, k < buf.length → s'.readRawU8 (off + 8 * k) = some (buf.getD k 0)) ∧
    (s.bits.length < off + 8 * buf.length → buf ≠ [] → s.writeRawBuf buf off = .error .panic) := by
  constructor
  · intro h
    obtain ⟨l, h1, h2, h3⟩ := setAll_ok (bitsOf buf) s.bits off (by rw [bitsOf_length]; exact h)
    rw [bitsOf_length] at h3
    refine ⟨{ s with bits := l }, by unfold writeRawBuf; rw [h1], h2, ?_, ?_⟩
    · intro j hj
      simp only
      rw [h3 j, if_neg (by omega)]
    · intro k hk
      unfold readRawU8
      simp only
      rw [if_neg (by omega)]
      congr 1
      apply BitVec.eq_of_getMsbD_eq
      intro i hi
      unfold byteOfBits
      rw [shiftIn_getMsbD _ _ _ (by rw [List.length_take, List.length_drop]; omega) _ hi]
      have : ((l.drop (off + 8 * k)).take 8).getD i false = l.getD (off + (8 * k + i)) false := by
        rw [List.getD_eq_getElem?_getD, List.getD_eq_getElem?_getD, List.getElem?_take, if_pos hi, List.getElem?_drop]
        congr 2; omega
      rw [this, h3, if_pos (by omega), show off + (8 * k + i) - off = 8 * k + i by omega, bitsOf_getD]
      unfold dat
      rw [show (8 * k + i) / 8 = k by omega, show (8 * k + i) % 8 = i by omega]
  · intro h hb
    unfold writeRawBuf
    rw [setAll_panic _ _ _ (by rw [bitsOf_length]; exact h)
      (by intro e; have := bitsOf_length buf; rw [e] at this; cases buf <;> simp at hb this)]

/-- **C92, a byte.** One byte written at a clock cell with room for its cells is read back from there. -/
theorem C92_byte_partial (s : Fm) (b : Byte) (off : Nat) (hc : s.clockMap.getD off false = true) (hl : off < s.clockMap.length)
    (h : off + 16 ≤ s.bits.length) :
    ∃ s', s.writeEncodedBuf [b] off = .ok s' ∧ s'.readDecodedU8 off = some b ∧
      ∀ j, j < off ∨ off + 16 ≤ j → s'.bits.getD j false = s.bits.getD j false := by
  have hlen : (encode [b] false).length = 16 := by unfold encode; rw [encodeBits_length, bitsOf_length]; rfl
  obtain ⟨l, h1, h2, h3⟩ := setAll_ok (encode [b] false) s.bits off (by rw [hlen]; exact h)
  rw [hlen] at h3
  refine ⟨{ s with bits := l }, ?_, ?_, ?_⟩
  · unfold writeEncodedBuf
    simp only [hlen]
    rw [if_pos ⟨hl, by omega⟩]
    simp only [hc, if_true, Nat.add_zero, show ¬ s.bits.length < off + 16 by omega, if_false]
    rw [List.take_of_length_le (by rw [hlen]; omega), h1]
  · unfold readDecodedU8
    simp only
    rw [if_neg (by omega), hc]
    simp only [if_true]
    congr 1
    apply BitVec.eq_of_getMsbD_eq
    intro k hk
    unfold byteOfBits
    rw [shiftIn_getMsbD _ _ _ ?_ _ hk, everyOther_getD]
    · have : (((l.drop off).take 16).drop 1).getD (2 * k) false = l.getD (off + (2 * k + 1)) false := by
        rw [List.getD_eq_getElem?_getD, List.getD_eq_getElem?_getD, List.getElem?_drop, List.getElem?_take,
          if_pos (by omega), List.getElem?_drop]
        congr 2; omega
      rw [this, h3, if_pos (by omega), show off + (2 * k + 1) - off = 2 * k + 1 by omega]
      unfold encode
      rw [encodeBits_data, bitsOf_getD]
      unfold dat
      rw [show k / 8 = 0 by omega, show k % 8 = k by omega]
      rfl
    · rw [everyOther_length, List.length_drop, List.length_take, List.length_drop]
      omega
  · intro j hj
    simp only
    rw [h3 j, if_neg (by omega)]

theorem plain_bits : ∀ bs : List Byte, plain bs = (bitsOf bs).flatMap fun b => [true, b]
  | [] => rfl
  | b :: bs => by
    have ih := plain_bits bs
    unfold plain at *
    rw [List.flatMap_cons, ih, bitsOf_cons, List.flatMap_append]
    rfl

theorem encodeBits_fm : ∀ (bs : List Bool) (prev : Bool), encodeBits prev bs = (bs.flatMap fun b => [true, b]) ↔
    (∀ b ∈ bs, b = false) ∧ (bs = [] ∨ prev = false)
  | [], prev => by simp [encodeBits]
  | true :: bs, prev => by simp [encodeBits]
  | false :: bs, prev => by
    have ih := encodeBits_fm bs false
    simp only [or_true, and_true] at ih
    cases prev
    · simp [encodeBits, ih]
    · simp [encodeBits]

/-- **C92 is false of the code: the encoding.** What the codec encodes is single density recording only if all bits are
zero and so is the one before: everything else is encoded as double density. -/
theorem C92_false_encoding (data : List Byte) (prev : Bool) :
    encode data prev = plain data ↔ (∀ b ∈ data, b = 0) ∧ (data = [] ∨ prev = false) := by
  unfold encode
  rw [plain_bits, encodeBits_fm]
  have e1 : (∀ b ∈ bitsOf data, b = false) ↔ ∀ b ∈ data, b = 0 := by
    constructor
    · intro h b hb
      apply BitVec.eq_of_getMsbD_eq
      intro i hi
      have : b.getMsbD i ∈ bitsOf data := by
        unfold bitsOf
        rw [List.mem_flatMap]
        refine ⟨b, hb, ?_⟩
        have : ∀ i : Fin 8, ∀ b : Byte, b.getMsbD i.val ∈ byteBits b := by
          intro i b
          unfold byteBits
          rcases i with ⟨i, hi⟩
          have : i = 0 ∨ i = 1 ∨ i = 2 ∨ i = 3 ∨ i = 4 ∨ i = 5 ∨ i = 6 ∨ i = 7 := by omega
          rcases this with rfl | rfl | rfl | rfl | rfl | rfl | rfl | rfl <;> simp
        exact this ⟨i, hi⟩ b
      rw [h _ this]
      simp
    · intro h b hb
      unfold bitsOf at hb
      rw [List.mem_flatMap] at hb
      obtain ⟨x, hx, hb⟩ := hb
      rw [h x hx] at hb
      have : ∀ b ∈ byteBits 0#8, b = false := by decide
      exact this b hb
  have e2 : bitsOf data = [] ↔ data = [] := by
    constructor
    · intro e
      have := bitsOf_length data
      rw [e] at this
      cases data <;> simp at this ⊢
    · rintro rfl; rfl
  rw [e1, e2]

/-- A stream of `n` zero cells, every second one of them a clock cell. -/
def blank (n : Nat) : Fm :=
  { bits := List.replicate n false, clockMap := (List.range n).map fun i => i % 2 == 0, weakMask := List.replicate n false }

/-- **C92 is false of the code: several bytes.** Written bytes are not read back if there are two of them, nor if one is
written at a data cell; writing over the end from a data cell panics. -/
theorem C92_false_several :
    (∃ s, (blank 64).writeEncodedBuf [0xA5#8, 0x3C#8] 0 = .ok s ∧
      (s.readDecodedBuf 2 0).toOption ≠ some [0xA5#8, 0x3C#8] ∧ s.readDecodedU8 16 = some 0x3C#8) ∧
    (∃ s, (blank 64).writeEncodedBuf [0xA5#8] 1 = .ok s ∧ s.readDecodedU8 1 ≠ some 0xA5#8) ∧
    (blank 64).writeEncodedBuf [0xA5#8] 49 = .error .panic := by
  refine ⟨⟨_, rfl, by decide +kernel, by decide +kernel⟩, ⟨_, rfl, by decide +kernel⟩, rfl⟩

/-- **C92 is false of the code: one raw byte.** With overflow checks a raw byte can be written nowhere but at the very
beginning of a stream; without them it is rotated unless it is written at a multiple of eight. -/
theorem C92_false_raw_byte (s : Fm) (b : Byte) (i : Nat) (h : i + 8 ≤ s.bits.length) :
    (0 < i → writeRawU8 true s i b = .error .panic) ∧
    ∃ s', writeRawU8 false s i b = .ok s' ∧ s'.readRawU8 i = some (b.rotateLeft i) := by
  constructor
  · intro hi
    have : ∀ (k j : Nat) (l : List Bool), j + k ≤ l.length → 8 < j + k → k ≠ 0 →
        writeRawLoop true b k j l = .error .panic := by
      intro k
      induction k with
      | zero => intro _ _ _ _ h; exact absurd rfl h
      | succ k ih =>
        intro j l h1 h2 _
        rw [writeRawLoop, if_pos (by omega)]
        by_cases hj : 8 ≤ j
        · rw [if_pos ⟨rfl, hj⟩]
        · rw [if_neg (by rintro ⟨_, h⟩; exact hj h)]
          exact ih (j + 1) _ (by rw [List.length_set]; omega) (by omega) (by omega)
    unfold writeRawU8
    rw [this 8 i s.bits h (by omega) (by omega)]
  · have : ∀ (k j : Nat) (l : List Bool), j + k ≤ l.length → ∃ l', writeRawLoop false b k j l = .ok l' ∧
        l'.length = l.length ∧ ∀ m, l'.getD m false = if j ≤ m ∧ m < j + k then b.getMsbD (m % 8) else l.getD m false := by
      intro k
      induction k with
      | zero => intro j l _; exact ⟨l, rfl, rfl, fun m => by rw [if_neg (by omega)]⟩
      | succ k ih =>
        intro j l h1
        obtain ⟨l', h2, h3, h4⟩ := ih (j + 1) (l.set j (b.getMsbD (j % 8))) (by rw [List.length_set]; omega)
        refine ⟨l', ?_, by rw [h3, List.length_set], fun m => ?_⟩
        · rw [writeRawLoop, if_pos (by omega), if_neg (by rintro ⟨h, _⟩; cases h), h2]
        · rw [h4 m]
          by_cases hm : j + 1 ≤ m ∧ m < j + 1 + k
          · rw [if_pos hm, if_pos (by omega)]
          · rw [if_neg hm]
            by_cases hj : m = j
            · subst hj
              rw [if_pos (by omega), List.getD_eq_getElem?_getD, List.getElem?_set_self (by omega)]
              rfl
            · rw [if_neg (by omega), List.getD_eq_getElem?_getD, List.getElem?_set_ne (by omega), ← List.getD_eq_getElem?_getD]
    obtain ⟨l', h1, h2, h3⟩ := this 8 i s.bits h
    refine ⟨{ s with bits := l' }, by unfold writeRawU8; rw [h1], ?_⟩
    unfold readRawU8
    simp only
    rw [if_neg (by omega)]
    congr 1
    apply BitVec.eq_of_getMsbD_eq
    intro k hk
    unfold byteOfBits
    rw [shiftIn_getMsbD _ _ _ (by rw [List.length_take, List.length_drop]; omega) _ hk]
    have : ((l'.drop i).take 8).getD k false = l'.getD (i + k) false := by
      rw [List.getD_eq_getElem?_getD, List.getD_eq_getElem?_getD, List.getElem?_take, if_pos hk, List.getElem?_drop]
    rw [this, h3, if_pos (by omega), BitVec.getMsbD_rotateLeft]
    simp only [hk, decide_true, Bool.true_and]

/-- **C92, the end of the stream.** From beyond the end nothing is read. -/
theorem C92_beyond (s : Fm) (i : Nat) (h : s.bits.length ≤ i) : s.readDecodedU8 i = none ∧ s.readRawU8 i = none := by
  unfold readDecodedU8 readRawU8
  rw [if_pos (Or.inl h), if_pos h]
  exact ⟨rfl, rfl⟩

/-- **C92, the end of the stream.** Encoded bytes that are written at a clock cell and run over the end are cut there: what lies
before them stays, the cells from there on are the first ones of the code, and the stream stays as long as it was. -/
theorem C92_cut (s : Fm) (buf : List Byte) (off : Nat) (hc : s.clockMap.getD off false = true) (hl : off < s.clockMap.length)
    (h : off ≤ s.bits.length) (hlong : s.bits.length ≤ off + 16 * buf.length) :
    ∃ s', s.writeEncodedBuf buf off = .ok s' ∧ s'.bits.length = s.bits.length ∧
      (∀ j < off, s'.bits.getD j false = s.bits.getD j false) ∧
      ∀ k, off + k < s.bits.length → s'.bits.getD (off + k) false = (encode buf false).getD k false := by
  have hlen : (encode buf false).length = 16 * buf.length := by unfold encode; rw [encodeBits_length, bitsOf_length]; omega
  have htl : ((encode buf false).take (s.bits.length - off)).length = s.bits.length - off := by
    rw [List.length_take, hlen]; omega
  obtain ⟨l, h1, h2, h3⟩ := setAll_ok ((encode buf false).take (s.bits.length - off)) s.bits off (by rw [htl]; omega)
  rw [htl] at h3
  refine ⟨{ s with bits := l }, ?_, h2, ?_, ?_⟩
  · unfold writeEncodedBuf
    simp only [hlen]
    rw [if_pos ⟨hl, h⟩]
    have hn : (if s.bits.length < off + 16 * buf.length then s.bits.length - off else 16 * buf.length) = s.bits.length - off := by
      split <;> omega
    rw [hn, hc]
    simp only [if_true, Nat.add_zero]
    rw [h1]
  · intro j hj
    simp only
    rw [h3 j, if_neg (by omega)]
  · intro k hk
    simp only
    rw [h3, if_pos (by omega), List.getD_eq_getElem?_getD, List.getElem?_take, if_pos (by omega), List.getD_eq_getElem?_getD,
      Nat.add_sub_cancel_left]

/-- Two bytes at cell 48 of a stream of 64 cells. -/
example : ∃ s', (blank 64).writeEncodedBuf [0xA5#8, 0x3C#8] 48 = .ok s' ∧ s'.bits.length = 64 := by
  obtain ⟨s', h1, h2, _⟩ := C92_cut (blank 64) [0xA5#8, 0x3C#8] 48 (by decide +kernel) (by decide +kernel) (by decide +kernel)
    (by decide +kernel)
  exact ⟨s', h1, h2⟩

/-- **C92, the end of the stream.** A raw byte that runs over the end is cut there: without overflow checks this never panics. -/
theorem C92_raw_byte_end (s : Fm) (b : Byte) (i : Nat) (h : s.bits.length < i + 8) :
    ∃ s', writeRawU8 false s i b = .ok s' ∧ s'.bits.length = s.bits.length ∧
      ∀ j, s'.bits.getD j false = if i ≤ j ∧ j < s.bits.length then b.getMsbD (j % 8) else s.bits.getD j false := by
  have : ∀ (k j : Nat) (l : List Bool), l.length ≤ j + k → ∃ l', writeRawLoop false b k j l = .ok l' ∧
      l'.length = l.length ∧ ∀ m, l'.getD m false = if j ≤ m ∧ m < l.length then b.getMsbD (m % 8) else l.getD m false := by
    intro k
    induction k with
    | zero => intro j l h1; exact ⟨l, rfl, rfl, fun m => by rw [if_neg (by omega)]⟩
    | succ k ih =>
      intro j l h1
      by_cases hj : j < l.length
      · obtain ⟨l', h2, h3, h4⟩ := ih (j + 1) (l.set j (b.getMsbD (j % 8))) (by rw [List.length_set]; omega)
        rw [List.length_set] at h3 h4
        refine ⟨l', ?_, h3, fun m => ?_⟩
        · rw [writeRawLoop, if_pos hj, if_neg (by rintro ⟨h, _⟩; cases h), h2]
        · rw [h4 m]
          by_cases hm : j + 1 ≤ m ∧ m < l.length
          · rw [if_pos hm, if_pos (by omega)]
          · rw [if_neg hm]
            by_cases hjm : m = j
            · subst hjm
              rw [if_pos (by omega), List.getD_eq_getElem?_getD, List.getElem?_set_self (by omega)]
              rfl
            · rw [if_neg (by omega), List.getD_eq_getElem?_getD, List.getElem?_set_ne (by omega), ← List.getD_eq_getElem?_getD]
      · rw [writeRawLoop, if_neg hj]
        exact ⟨l, rfl, rfl, fun m => by rw [if_neg (by omega)]⟩
  obtain ⟨l', h1, h2, h3⟩ := this 8 i s.bits (by omega)
  exact ⟨{ s with bits := l' }, by unfold writeRawU8; rw [h1], h2, h3⟩

/-- **C92, the code of a mark.** Just four bytes have one: it is theirs in MFM, with all clocks. -/
theorem C92_marker (data : List Byte) :
    (data.length = 4 → ∃ x, encodeMarker data = .ok x ∧ ∀ k < 64, x.getMsbD k = (encodeBits false (bitsOf data)).getD k false) ∧
    (data.length ≠ 4 → encodeMarker data = .error .panic) := by
  unfold encodeMarker
  constructor
  · intro h
    rw [if_pos h]
    refine ⟨_, rfl, fun k hk => ?_⟩
    rw [shiftIn_getMsbD _ _ _ (by rw [encodeBits_length, bitsOf_length, h]) _ hk]
  · intro h
    rw [if_neg h]

example : (encodeMarker [0xA1#8, 0xA1#8, 0xA1#8, 0xFE#8]).toOption = some 0x44A944A944A95554#64 := by decide +kernel

end Fox.Fm
