import Verif.Proofs.Crc
/-
Property theorems C10 and C11 (CRC).
-/
namespace Fox
open Spec

/-- The check done on a sector or header buffer (src/track_schema/system34.rs:1173-1179 and
`IntegrityField::is_valid`): the last two bytes, read big-endian, equal the CRC of the rest. -/
def FrameValid (d : List Byte) : Prop := ∃ r, S34.crc16Bytes d = .ok (r, r)

/-! ## C10 -/

/-- The library's CRC is the CRC-16/IBM-3740 shift register fed with the bits of the data. -/
theorem C10_is_crc16_3740 (data : List Byte) (seed : BitVec 16) :
    crc3740 data (some seed) = crcOfBits seed (bitsOf data) ∧
    crc3740 data = crcOfBits 0xFFFF#16 (bitsOf data) :=
  ⟨crc3740_eq_bits data (some seed), crc3740_eq_bits data none⟩

-- the standard check value of CRC-16/IBM-3740 (a test, not part of the proof)
example : crc3740 [0x31#8, 0x32#8, 0x33#8, 0x34#8, 0x35#8, 0x36#8, 0x37#8, 0x38#8, 0x39#8] =
    0x29B1#16 := by decide +kernel

/-- C10: incremental use. -/
theorem C10_incremental (a b : List Byte) (seed : Option (BitVec 16)) :
    crc3740 (a ++ b) seed = crc3740 b (some (crc3740 a seed)) := by
  unfold crc3740; rw [List.foldl_append]; rfl

/-- C10: byte-at-a-time use. -/
theorem C10_bytewise (data : List Byte) (seed : BitVec 16) :
    data.foldl (fun c b => crc3740Byte b c) seed = crc3740 data (some seed) := rfl

/-- C10: data followed by a 16-bit field has CRC zero exactly when the field is the CRC of the data. -/
theorem C10_residue (data : List Byte) (r : BitVec 16) :
    crc3740 (data ++ be16 r) = 0#16 ↔ r = crc3740 data := crc_residue data r

/-! ## C11 -/

theorem frameValid_iff (d : List Byte) (h : 2 ≤ d.length) :
    FrameValid d ↔ crc3740 d = 0#16 := by
  obtain ⟨body, r, e1, e2⟩ := frame_split d h
  unfold FrameValid
  rw [e2]
  constructor
  · rintro ⟨r', h⟩
    simp only [Except.ok.injEq, Prod.mk.injEq] at h
    rw [e1, crc_residue, h.1, ← h.2]
  · intro h
    rw [e1, crc_residue] at h
    exact ⟨r, by rw [← h]⟩

theorem bitsOf_length (l : List Byte) : (bitsOf l).length = 8 * l.length := by
  induction l with
  | nil => rfl
  | cons b l ih =>
    show (byteBits b ++ bitsOf l).length = _
    rw [List.length_append, byteBits_length, ih, List.length_cons]; omega

theorem byteBits_inj {a b : Byte} (h : byteBits a = byteBits b) : a = b := by
  unfold byteBits at h
  simp only [List.cons.injEq, and_true] at h
  apply BitVec.eq_of_getMsbD_eq
  intro i hi
  have hcases : i = 0 ∨ i = 1 ∨ i = 2 ∨ i = 3 ∨ i = 4 ∨ i = 5 ∨ i = 6 ∨ i = 7 := by omega
  obtain ⟨h0, h1, h2, h3, h4, h5, h6, h7⟩ := h
  rcases hcases with rfl|rfl|rfl|rfl|rfl|rfl|rfl|rfl <;> assumption

theorem bitsOf_inj : ∀ {a b : List Byte}, bitsOf a = bitsOf b → a = b
  | [], [], _ => rfl
  | [], b :: bs, h => by
      have := congrArg List.length h; rw [bitsOf_length, bitsOf_length] at this; simp at this
  | a :: as, [], h => by
      have := congrArg List.length h; rw [bitsOf_length, bitsOf_length] at this; simp at this
  | a :: as, b :: bs, h => by
      have h' : byteBits a ++ bitsOf as = byteBits b ++ bitsOf bs := h
      have := List.append_inj h' (by rw [byteBits_length, byteBits_length])
      rw [byteBits_inj this.1, bitsOf_inj this.2]

theorem crc_diff (a b : List Bool) (h : a.length = b.length) (c : BitVec 16) :
    crcOfBits c a ^^^ crcOfBits c b = crcOfBits 0#16 (List.zipWith (· ^^ ·) a b) := by
  rw [← crcOfBits_linear a b h c c, BitVec.xor_self]

/-- C11: a valid frame (sector or header with its CRC field) changed within a window of at most 16
consecutive bits is reported invalid. -/
theorem C11_burst_detected (a b : List Byte) (h2 : 2 ≤ a.length) (hv : FrameValid a)
    (p w : Nat) (hw : w ≤ 16) (hd : DifferOnlyWithin p w (bitsOf a) (bitsOf b)) (hne : a ≠ b) :
    ¬ FrameValid b := by
  obtain ⟨hlen, hdiff⟩ := hd
  have hl : a.length = b.length := by
    rw [bitsOf_length, bitsOf_length] at hlen; omega
  rw [frameValid_iff a h2] at hv
  rw [frameValid_iff b (by omega)]
  intro hb
  rw [crc3740_eq_bits] at hv hb
  have hs := crc_diff (bitsOf a) (bitsOf b) hlen ((none : Option (BitVec 16)).getD 0xFFFF#16)
  rw [hv, hb, BitVec.xor_self] at hs
  have key : ∀ i, (List.zipWith (· ^^ ·) (bitsOf a) (bitsOf b)).getD i false = true →
      (bitsOf a)[i]? ≠ (bitsOf b)[i]? := by
    intro i hi e
    rw [List.getD_eq_getElem?_getD, List.getElem?_zipWith] at hi
    rw [e] at hi
    cases h : (bitsOf b)[i]? with
    | none => rw [h] at hi; simp at hi
    | some v => rw [h] at hi; simp at hi
  have : ∃ i, (List.zipWith (· ^^ ·) (bitsOf a) (bitsOf b)).getD i false = true := by
    apply Classical.byContradiction
    intro hno
    apply hne
    apply bitsOf_inj
    apply List.ext_getElem hlen
    intro i h1 h2'
    have : ¬ (List.zipWith (· ^^ ·) (bitsOf a) (bitsOf b)).getD i false = true :=
      fun h => hno ⟨i, h⟩
    rw [List.getD_eq_getElem?_getD, List.getElem?_zipWith, List.getElem?_eq_getElem h1,
      List.getElem?_eq_getElem h2'] at this
    simpa using this
  obtain ⟨i, hi⟩ := this
  exact burst_syndrome _ p w hw (fun i h => hdiff i (key i h)) i hi hs.symm

-- a valid three-byte frame and a corrupted one that meet the hypotheses
example : FrameValid [0x12#8, 0xD3#8, 0x83#8] ∧
    DifferOnlyWithin 4 16 (bitsOf [0x12#8, 0xD3#8, 0x83#8]) (bitsOf [0x1D#8, 0xC2#8, 0x83#8]) := by
  refine ⟨⟨0xD383#16, by rfl⟩, by decide, ?_⟩
  intro i
  by_cases h : i < 24
  · revert h; revert i; decide
  · intro hne
    exfalso; apply hne
    rw [List.getElem?_eq_none (by rw [bitsOf_length]; simp; omega),
        List.getElem?_eq_none (by rw [bitsOf_length]; simp; omega)]

theorem parity_crcOfBits (bs : List Bool) (c : BitVec 16) :
    parity (wordBits (crcOfBits c bs)) = (parity (wordBits c) ^^ parity bs) := by
  induction bs generalizing c with
  | nil => simp [crcOfBits, parity]
  | cons b bs ih =>
    show parity (wordBits (crcOfBits (lfsr c b) bs)) = _
    rw [ih, parity_lfsr]
    simp [parity]

theorem parity_hamming : ∀ (a b : List Bool), a.length = b.length →
    (parity a ^^ parity b) = decide (hamming a b % 2 = 1)
  | [], [], _ => rfl
  | [], _ :: _, h => by simp at h
  | _ :: _, [], h => by simp at h
  | x :: a, y :: b, h => by
    have ih := parity_hamming a b (by simpa using h)
    have : (parity (x :: a) ^^ parity (y :: b)) = ((x ^^ y) ^^ (parity a ^^ parity b)) := by
      simp only [parity, List.foldr]
      cases x <;> cases y <;> simp
    rw [this, ih, hamming]
    by_cases e : x = y
    · subst e; simp
    · have : (x ^^ y) = true := by cases x <;> cases y <;> simp_all
      rw [this, if_neg e]
      have := Nat.mod_two_eq_zero_or_one (hamming a b)
      rcases this with h | h <;> simp [Nat.add_mod, h]

/-- C11 (further): any odd number of flipped bits in a valid frame is detected. -/
theorem C11_odd_errors_detected (a b : List Byte) (h2 : 2 ≤ a.length) (hv : FrameValid a)
    (hl : a.length = b.length) (hodd : hamming (bitsOf a) (bitsOf b) % 2 = 1) :
    ¬ FrameValid b := by
  rw [frameValid_iff a h2] at hv
  rw [frameValid_iff b (by omega)]
  intro hb
  rw [crc3740_eq_bits] at hv hb
  have h := parity_hamming (bitsOf a) (bitsOf b) (by rw [bitsOf_length, bitsOf_length, hl])
  have pa := parity_crcOfBits (bitsOf a) ((none : Option (BitVec 16)).getD 0xFFFF#16)
  have pb := parity_crcOfBits (bitsOf b) ((none : Option (BitVec 16)).getD 0xFFFF#16)
  rw [hv] at pa
  rw [hb] at pb
  rw [pa] at pb
  rw [decide_eq_true hodd] at h
  generalize parity (wordBits _) = q at pb
  revert h pb
  cases q <;> cases parity (bitsOf a) <;> cases parity (bitsOf b) <;> simp

example : hamming (bitsOf [0x12#8, 0xD3#8, 0x83#8]) (bitsOf [0x12#8, 0xD3#8, 0x84#8]) % 2 = 1 := by
  decide

end Fox
