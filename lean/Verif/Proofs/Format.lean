import Verif.Proofs.TrackWrite
import Verif.Spec.Format
/-
Formatting produces a well-formed track.
-/
namespace Fox
open Fox.Spec Fox.S34

/-! ### The fill pattern -/

theorem fillBytes_length (pat : List Byte) (off n : Nat) : (fillBytes pat off n).length = n := by
  simp [fillBytes]

theorem fillBytes_mod (pat : List Byte) (off n : Nat) :
    fillBytes pat (off % pat.length) n = fillBytes pat off n := by
  unfold fillBytes
  refine List.map_congr_left fun i _ => ?_
  rw [Nat.mod_add_mod]

theorem fillBytes_add (pat : List Byte) (off a b : Nat) :
    fillBytes pat off (a + b) = fillBytes pat off a ++ fillBytes pat (off + a) b := by
  unfold fillBytes
  rw [List.range_add, List.map_append, List.map_map]
  congr 1
  refine List.map_congr_left fun i _ => ?_
  show _ = _
  rw [Nat.add_assoc]; rfl

theorem fillBytes_slice (pat : List Byte) (off n : Nat) (h : off + n ≤ pat.length) :
    fillBytes pat off n = (pat.drop off).take n := by
  apply ext_getD _ _ (0 : Byte) (by simp [fillBytes]; omega)
  intro i hi
  rw [fillBytes_length] at hi
  unfold fillBytes
  rw [getD_map_range _ _ _ _ hi, Nat.mod_eq_of_lt (by omega)]
  simp only [List.getD_eq_getElem?_getD, List.getElem?_take, List.getElem?_drop, hi, if_true]

theorem fillLoop_eq (pat : List Byte) : ∀ (fuel cursor remain : Nat), remain ≤ fuel → cursor < pat.length →
    fillLoop pat fuel cursor remain = (fillBytes pat cursor remain, (cursor + remain) % pat.length)
  | 0, cursor, remain, hf, hc => by
    have : remain = 0 := by omega
    subst this
    simp [fillLoop, fillBytes, Nat.mod_eq_of_lt hc]
  | fuel + 1, cursor, remain, hf, hc => by
    rw [fillLoop]
    by_cases h0 : remain = 0
    · rw [if_pos h0]; subst h0
      simp [fillBytes, Nat.mod_eq_of_lt hc]
    · rw [if_neg h0]
      by_cases h1 : cursor + remain ≤ pat.length
      · simp only [if_pos h1]
        have hl : ((pat.drop cursor).take remain).length = remain := by
          rw [List.length_take, List.length_drop]; omega
        rw [hl, Nat.sub_self, fillLoop_eq pat fuel _ 0 (by omega) (Nat.mod_lt _ (by omega)),
          fillBytes_slice pat cursor remain h1]
        simp [fillBytes]
      · simp only [if_neg h1]
        have hl : (pat.drop cursor).length = pat.length - cursor := List.length_drop
        rw [hl, fillLoop_eq pat fuel _ _ (by omega) (Nat.mod_lt _ (by omega))]
        have e : remain = (pat.length - cursor) + (remain - (pat.length - cursor)) := by omega
        have e2 : pat.drop cursor = fillBytes pat cursor (pat.length - cursor) := by
          rw [fillBytes_slice _ _ _ (by omega), List.take_of_length_le (by omega)]
        refine Prod.ext ?_ ?_
        · simp only
          conv => rhs; rw [e, fillBytes_add]
          rw [fillBytes_mod, ← e2]
        · simp only
          rw [Nat.mod_add_mod]
          congr 1; omega

theorem fillSector_eq (pat : List Byte) (off size : Nat) (h : pat ≠ []) :
    fillSector pat (off % pat.length) size = (fillBytes pat off size, (off + size) % pat.length) := by
  have hl : 0 < pat.length := List.length_pos_iff.2 h
  unfold fillSector
  by_cases h1 : pat.length = 1
  · rw [if_pos h1, h1, Nat.mod_one, Nat.mod_one]
    refine Prod.ext ?_ rfl
    simp only
    apply ext_getD _ _ (0 : Byte) (by simp [fillBytes])
    intro i hi
    have hi' : i < size := by simpa using hi
    unfold fillBytes
    rw [getD_map_range _ _ _ _ hi', h1, Nat.mod_one]
    simp [List.getD_eq_getElem?_getD, hi']
  · rw [if_neg h1, fillLoop_eq _ _ _ _ (Nat.le_refl _) (Nat.mod_lt _ hl), fillBytes_mod, Nat.mod_add_mod]

/-! ### The byte image -/

/-- Bytes of one formatted sector. -/
def sectorImage (std : Standard) (pat : List Byte) (gap3 off : Nat) (x : Chsn) : List Byte :=
  List.replicate 12 syncByte ++ withCrc (idamBytes ++ idBytes x) ++ List.replicate std.gap2 gapByte ++
    List.replicate 12 syncByte ++ withCrc (damBytes ++ fillBytes pat off x.size) ++
    List.replicate gap3 gapByte

/-- Bytes of all formatted sectors. -/
def bodyImage (std : Standard) (pat : List Byte) (gap3 : Nat) : Nat → List Chsn → List Byte
  | _, [] => []
  | off, x :: xs => sectorImage std pat gap3 off x ++ bodyImage std pat gap3 (off + x.size) xs

theorem sectorImage_length (std : Standard) (pat : List Byte) (gap3 off : Nat) (x : Chsn) :
    (sectorImage std pat gap3 off x).length = sectorBytes std gap3 x := by
  unfold sectorImage sectorBytes
  simp only [List.length_append, List.length_replicate, withCrc_length, fillBytes_length, idamBytes,
    damBytes, idBytes, List.length_cons, List.length_nil]
  omega

theorem foldl_format (std : Standard) (pat : List Byte) (gap3 : Nat) (hp : pat ≠ []) :
    ∀ (ids : List Chsn) (st : FmtState) (off : Nat), st.cursor = off % pat.length →
      (ids.foldl (formatSector std pat gap3) st).bytes = st.bytes ++ bodyImage std pat gap3 off ids ∧
      (ids.foldl (formatSector std pat gap3) st).markers =
        st.markers ++ secMarks (layout std pat gap3 st.bytes.length off ids)
  | [], st, off, _ => by simp [bodyImage, layout, secMarks]
  | x :: xs, st, off, hc => by
    have hf := fillSector_eq pat off x.size hp
    have hb : (formatSector std pat gap3 st x).bytes = st.bytes ++ sectorImage std pat gap3 off x := by
      unfold formatSector sectorImage syncLen
      simp only [hc, hf, List.append_assoc]
    have hcur : (formatSector std pat gap3 st x).cursor = (off + x.size) % pat.length := by
      unfold formatSector
      simp only [hc, hf]
    have hm : (formatSector std pat gap3 st x).markers =
        st.markers ++ [(.idam, st.bytes.length + 12),
          (.dam, st.bytes.length + 12 + 10 + std.gap2 + 12)] := by
      unfold formatSector syncLen
      simp only [List.append_assoc, List.length_append, List.length_replicate, withCrc_length, idamBytes,
        idBytes, List.length_cons, List.length_nil, List.cons_append, List.nil_append]
      congr 4
      omega
    obtain ⟨i1, i2⟩ := foldl_format std pat gap3 hp xs (formatSector std pat gap3 st x) (off + x.size) hcur
    rw [List.foldl_cons]
    constructor
    · rw [i1, hb]; simp only [bodyImage, List.append_assoc]
    · rw [i2, hm, hb, List.length_append, sectorImage_length]
      simp only [layout, secMarks, List.flatMap_cons, dataMark, List.append_assoc, Bool.false_eq_true,
        if_false]

theorem slice_append_mid (A M C : List Byte) (o k : Nat) (ho : o = A.length) (hk : k = M.length) :
    slice (A ++ M ++ C) o k = M := by
  subst ho; subst hk
  unfold slice
  rw [List.append_assoc, List.drop_left' rfl, List.take_left' rfl]

theorem getD_replicate (n : Nat) (a d : Byte) (i : Nat) :
    (List.replicate n a).getD i d = if i < n then a else d := by
  simp only [List.getD_eq_getElem?_getD, List.getElem?_replicate]
  split <;> rfl

/-- The fields of the formatted sectors in the byte image. -/
theorem layout_bytes (std : Standard) (pat : List Byte) (gap3 k : Nat) :
    ∀ (ids : List Chsn) (P : List Byte) (off : Nat), (∀ x ∈ ids, x.WF) →
      ∀ s ∈ layout std pat gap3 P.length off ids,
        SecBytes (P ++ bodyImage std pat gap3 off ids ++ List.replicate k gapByte) s ∧
        ((P ++ bodyImage std pat gap3 off ids ++ List.replicate k gapByte).getD s.stop 0 = gapByte ∨
         (P ++ bodyImage std pat gap3 off ids ++ List.replicate k gapByte).getD s.stop 0 = syncByte)
  | [], P, off, _, s, hs => by simp [layout] at hs
  | x :: xs, P, off, hwf, s, hs => by
    rw [layout] at hs
    have hx := hwf x (by simp)
    rcases List.mem_cons.1 hs with rfl | hs
    · refine ⟨⟨?_, ?_, ?_, ?_⟩, ?_⟩
      · exact ⟨Nat.mod_lt _ (by decide), hx.2.1, hx.2.2.1, hx.2.2.2⟩
      · show (fillBytes pat off x.size).length = _
        rw [fillBytes_length]; rfl
      · have hid : idBytes (onDisk x) = idBytes x := by
          unfold idBytes onDisk
          simp only [List.cons.injEq, and_true]
          apply BitVec.eq_of_toNat_eq
          simp only [BitVec.toNat_ofNat]
          omega
        rw [hid]
        simp only [bodyImage, sectorImage, List.append_assoc]
        have := slice_append_mid (P ++ List.replicate 12 syncByte) (withCrc (idamBytes ++ idBytes x))
          (List.replicate std.gap2 gapByte ++ (List.replicate 12 syncByte ++
            (withCrc (damBytes ++ fillBytes pat off x.size) ++ (List.replicate gap3 gapByte ++
              (bodyImage std pat gap3 (off + x.size) xs ++ List.replicate k gapByte)))))
          (P.length + 12) 10 (by simp) (by simp [withCrc_length, idamBytes, idBytes])
        simp only [List.append_assoc] at this
        exact this
      · simp only [bodyImage, sectorImage, List.append_assoc]
        have := slice_append_mid (P ++ List.replicate 12 syncByte ++ withCrc (idamBytes ++ idBytes x) ++
            List.replicate std.gap2 gapByte ++ List.replicate 12 syncByte)
          (withCrc (damBytes ++ fillBytes pat off x.size))
          (List.replicate gap3 gapByte ++
              (bodyImage std pat gap3 (off + x.size) xs ++ List.replicate k gapByte))
          (P.length + 12 + 10 + std.gap2 + 12) (6 + (fillBytes pat off x.size).length)
          (by simp [withCrc_length, idamBytes, idBytes]; omega)
          (by simp [withCrc_length, damBytes]; omega)
        simp only [List.append_assoc] at this
        rw [this]
        unfold withCrc
        simp only [List.append_assoc]
        rfl
      · show _ ∨ _
        have hpos : Sec.stop ⟨P.length + 12, P.length + 12 + 10 + std.gap2 + 12, onDisk x,
            fillBytes pat off x.size, crc3740 (markBytes .dam ++ fillBytes pat off x.size), false, false⟩ =
            (P ++ List.replicate 12 syncByte ++ withCrc (idamBytes ++ idBytes x) ++
            List.replicate std.gap2 gapByte ++ List.replicate 12 syncByte ++
            withCrc (damBytes ++ fillBytes pat off x.size)).length := by
          simp only [Sec.stop, List.length_append, List.length_replicate, withCrc_length, fillBytes_length,
            idamBytes, damBytes, idBytes, List.length_cons, List.length_nil]
          omega
        rw [hpos]
        have himg : P ++ bodyImage std pat gap3 off (x :: xs) ++ List.replicate k gapByte =
            (P ++ List.replicate 12 syncByte ++ withCrc (idamBytes ++ idBytes x) ++
            List.replicate std.gap2 gapByte ++ List.replicate 12 syncByte ++
            withCrc (damBytes ++ fillBytes pat off x.size)) ++ (List.replicate gap3 gapByte ++
              (bodyImage std pat gap3 (off + x.size) xs ++ List.replicate k gapByte)) := by
          simp only [bodyImage, sectorImage, List.append_assoc]
        rw [himg, getD_append_right _ _ _ _ (Nat.le_refl _), Nat.sub_self]
        cases gap3 with
        | succ g => left; rfl
        | zero =>
          cases xs with
          | nil =>
            simp only [bodyImage, List.replicate_zero, List.nil_append]
            rw [getD_replicate]
            split
            · left; rfl
            · right; rfl
          | cons y ys => right; rfl
    · have ih := layout_bytes std pat gap3 k xs (P ++ sectorImage std pat gap3 off x) (off + x.size)
        (fun y hy => hwf y (by simp [hy])) s (by
          rw [List.length_append, sectorImage_length]; exact hs)
      simp only [bodyImage, List.append_assoc] at ih ⊢
      exact ih

theorem layout_placed (std : Standard) (pat : List Byte) (gap3 N : Nat) :
    ∀ (ids : List Chsn) (base off lo : Nat), lo ≤ base + 12 → lo ≤ N →
      base + (ids.map (sectorBytes std gap3)).sum ≤ N + gap3 →
      Placed N lo (layout std pat gap3 base off ids)
  | [], _, _, lo, _, hN, _ => hN
  | x :: xs, base, off, lo, hlo, hN, hs => by
    rw [List.map_cons, List.sum_cons] at hs
    rw [layout]
    refine ⟨hlo, by show base + 12 + 10 ≤ base + 12 + 10 + std.gap2 + 12; omega, ?_⟩
    have hst : Sec.stop ⟨base + 12, base + 12 + 10 + std.gap2 + 12, onDisk x,
            fillBytes pat off x.size, crc3740 (markBytes .dam ++ fillBytes pat off x.size), false, false⟩ =
            base + sectorBytes std gap3 x - gap3 := by
      simp only [Sec.stop, fillBytes_length, sectorBytes]; omega
    rw [hst]
    have : gap3 ≤ sectorBytes std gap3 x := by unfold sectorBytes; omega
    exact layout_placed std pat gap3 N xs _ _ _ (by omega) (by omega) (by omega)

/-! ### Overlaying marks -/

theorem cells_encode (B : List Byte) : CellsOk (encode B false) B [] [] := by
  refine ⟨encode_length B false, fun j _ => encode_data B false j, by simp, ?_, by simp⟩
  intro j h0 hj hc h1 h2
  rw [encode_clock _ _ _ hj, if_neg (by omega), h1, h2] at hc
  cases hc

theorem be64_bits (w : BitVec 64) (k : Nat) (hk : k < 64) : (bitsOf (be64 w)).getD k false = w.getMsbD k := by
  rw [bitsOf_getD]
  unfold dat
  have hq : k / 8 = 0 ∨ k / 8 = 1 ∨ k / 8 = 2 ∨ k / 8 = 3 ∨ k / 8 = 4 ∨ k / 8 = 5 ∨ k / 8 = 6 ∨
    k / 8 = 7 := by omega
  rw [BitVec.getMsbD_eq_getLsbD, BitVec.getMsbD_eq_getLsbD]
  have h8 : decide (k % 8 < 8) = true := by simp; omega
  have h64 : decide (k < 64) = true := by simp; omega
  rw [h8, h64, Bool.true_and, Bool.true_and]
  rcases hq with h | h | h | h | h | h | h | h <;> rw [h] <;>
    simp only [be64, List.getD_cons_zero, List.getD_cons_succ, BitVec.getLsbD_extractLsb'] <;>
    (have : decide (8 - 1 - k % 8 < 8) = true := by simp; omega) <;>
    rw [this, Bool.true_and] <;> congr 1 <;> omega

theorem code_markWord (m : Marker) (h : m ≠ .ddam) : m.code = markWord m := by
  cases m <;> first | rfl | exact absurd rfl h

theorem markWord_data (m : Marker) : ∀ j : Fin 32, (markWord m).getMsbD (2 * j + 1) = dat (markBytes m) j := by
  cases m <;> decide

theorem markWord_clock (m : Marker) : ∀ t : Fin 32, 0 < t.val → (markWord m).getMsbD (2 * t) = false →
    dat (markBytes m) (t.val - 1) = false → dat (markBytes m) t = false →
    ∃ i : Fin 3, t.val = 8 * i.val + (if m = .iam then 4 else 5) := by
  cases m <;> decide

theorem markWord_first (m : Marker) : dat (markBytes m) 0 = true := by cases m <;> decide

/-- Recording one mark over a stream. -/
theorem Spec.CellsOk.addMark {f f' : List Bool} {B : List Byte} {ms : List (Marker × Nat)}
    (h : CellsOk f B ms []) (m : Marker) (o : Nat) (ho : o + 4 ≤ B.length)
    (hdis : ∀ m' o', (m', o') ∈ ms → o' + 4 ≤ o)
    (hlast : dat B (8 * o + 31) = dat (markBytes m) 31)
    (hl : f'.length = f.length)
    (hf : ∀ i, f'.getD i false = if 16 * o ≤ i ∧ i < 16 * o + 64
      then (markWord m).getMsbD (i - 16 * o) else f.getD i false) :
    CellsOk f' (splice B o (markBytes m)) (ms ++ [(m, o)]) [] := by
  have hlen := h.len
  have hml := markBytes_length m
  have hfit : o + (markBytes m).length ≤ B.length := by omega
  have hsl := splice_length hfit
  refine ⟨by rw [hl, hsl]; exact hlen, ?_, ?_, ?_, by simp⟩
  · intro j hj
    rw [hsl] at hj
    rw [hf, dat_splice hfit, hml]
    by_cases h1 : 8 * o ≤ j ∧ j < 8 * (o + 4)
    · rw [if_pos (by omega), if_pos h1]
      have := markWord_data m ⟨j - 8 * o, by omega⟩
      rw [← this]
      congr 1; simp only; omega
    · rw [if_neg (by omega), if_neg h1, h.data j hj]
  · intro m' o' hmo
    rcases List.mem_append.1 hmo with hmo | hmo
    · obtain ⟨h1, h2⟩ := h.mark m' o' hmo
      refine ⟨by omega, fun k hk => ?_⟩
      have := hdis m' o' hmo
      rw [hf, if_neg (by omega), h2 k hk]
    · have hmo : (m', o') = (m, o) := by simpa using hmo
      injection hmo with e1 e2
      subst e1; subst e2
      refine ⟨by omega, fun k hk => ?_⟩
      rw [hf, if_pos (by omega)]
      congr 1; omega
  · intro j h0 hj hc hd1 hd2
    left
    rw [hsl] at hj
    rw [dat_splice hfit, hml] at hd1 hd2
    rw [hf] at hc
    by_cases h1 : 8 * o ≤ j ∧ j < 8 * (o + 4)
    · rw [if_pos h1] at hd2
      rw [if_pos (by omega)] at hc
      by_cases h2 : j = 8 * o
      · rw [h2, Nat.sub_self, markWord_first] at hd2; cases hd2
      · rw [if_pos (by omega)] at hd1
        rw [show 2 * j - 16 * o = 2 * (j - 8 * o) by omega] at hc
        obtain ⟨i, hi⟩ := markWord_clock m ⟨j - 8 * o, by omega⟩ (by simp only; omega) hc
          (by simpa only [show j - 8 * o - 1 = j - 1 - 8 * o by omega] using hd1) hd2
        refine ⟨m, o, i.val, by simp, i.isLt, ?_⟩
        simp only at hi
        omega
    · rw [if_neg h1] at hd2
      rw [if_neg (by omega)] at hc
      have hd1' : dat B (j - 1) = false := by
        by_cases h2 : 8 * o ≤ j - 1 ∧ j - 1 < 8 * (o + 4)
        · rw [if_pos h2] at hd1
          have e : j - 1 = 8 * o + 31 := by omega
          rw [e, hlast, ← hd1, e]
          congr 1; omega
        · rw [if_neg h2] at hd1; exact hd1
      rcases h.clock j h0 hj hc hd1' hd2 with ⟨m', o', i, h3, h4, h5⟩ | ⟨b, hb, _⟩
      · exact ⟨m', o', i, by simp [h3], h4, h5⟩
      · simp at hb

theorem splice_self {B : List Byte} {o : Nat} {w : List Byte} (ho : o + w.length ≤ B.length)
    (h : slice B o w.length = w) : splice B o w = B := by
  apply ext_getD _ _ (0 : Byte) (splice_length ho)
  intro i hi
  rw [splice_getD ho]
  by_cases h1 : o ≤ i ∧ i < o + w.length
  · rw [if_pos h1]
    have := (slice_eq_iff w rfl ho).1 h (i - o) (by omega)
    rw [← this]; congr 1; omega
  · rw [if_neg h1]

/-- Overlay of one mark on a codec. -/
theorem writeMark_spec {s : Mfm} {m : Marker} {o : Nat} (hw : s.bits.wrap = s.bits.bits.length)
    (ho : 16 * o + 64 ≤ s.bits.bits.length) (hm : m ≠ .ddam) :
    let s' := s.writeRawBuf (be64 m.code) (o * 16)
    s'.bits.wrap = s'.bits.bits.length ∧ s'.bits.wrapValue = s.bits.wrapValue ∧
    s'.bits.bits.length = s.bits.bits.length ∧
    ∀ i, s'.bits.bits.getD i false = if 16 * o ≤ i ∧ i < 16 * o + 64
      then (markWord m).getMsbD (i - 16 * o) else s.bits.bits.getD i false := by
  have hl : (bitsOf (be64 m.code)).length = 64 := by rw [length_bitsOf]; rfl
  obtain ⟨g1, g2, g3, g4⟩ := setMany_spec (bitsOf (be64 m.code)) s.bits (o * 16) hw (by omega)
  refine ⟨?_, g2, g3, fun i => ?_⟩
  · show (s.bits.setMany _ _).wrap = (s.bits.setMany _ _).bits.length
    rw [g1, g3]; exact hw
  · show (s.bits.setMany _ _).bits.getD i false = _
    rw [g4, hl]
    by_cases h : 16 * o ≤ i ∧ i < 16 * o + 64
    · rw [if_pos (by omega), if_pos h, be64_bits _ _ (by omega), code_markWord m hm,
        show i - o * 16 = i - 16 * o by omega]
    · rw [if_neg (by omega), if_neg h]

theorem writeRawBuf_clockMap (s : Mfm) (b : List Byte) (o : Nat) : (s.writeRawBuf b o).clockMap = s.clockMap := rfl
theorem writeRawBuf_weakMask (s : Mfm) (b : List Byte) (o : Nat) : (s.writeRawBuf b o).weakMask = s.weakMask := rfl
theorem writeRawBuf_weakEnabled (s : Mfm) (b : List Byte) (o : Nat) : (s.writeRawBuf b o).weakEnabled = s.weakEnabled := rfl

/-- The stream-level facts kept while marks are overlaid. -/
structure Overlay (s0 s : Mfm) (B : List Byte) (ms : List (Marker × Nat)) : Prop where
  wrap : s.bits.wrap = s.bits.bits.length
  wrapValue : s.bits.wrapValue = none
  cells : CellsOk s.bits.bits B ms []
  clock : s.clockMap = s0.clockMap
  weak : s.weakMask = s0.weakMask
  enabled : s.weakEnabled = s0.weakEnabled

theorem Overlay.add {s0 s : Mfm} {B : List Byte} {ms : List (Marker × Nat)} (h : Overlay s0 s B ms)
    (m : Marker) (o : Nat) (hm : m ≠ .ddam) (ho : o + 4 ≤ B.length)
    (hdis : ∀ m' o', (m', o') ∈ ms → o' + 4 ≤ o)
    (hlast : dat B (8 * o + 31) = dat (markBytes m) 31) :
    Overlay s0 (s.writeRawBuf (be64 m.code) (o * 16)) (splice B o (markBytes m)) (ms ++ [(m, o)]) := by
  have hlen := h.cells.len
  obtain ⟨g1, g2, g3, g4⟩ := writeMark_spec (m := m) (o := o) h.wrap (by omega) hm
  have e1 : (s.writeRawBuf (be64 m.code) (o * 16)).clockMap = s.clockMap := writeRawBuf_clockMap _ _ _
  have e2 : (s.writeRawBuf (be64 m.code) (o * 16)).weakMask = s.weakMask := writeRawBuf_weakMask _ _ _
  have e3 : (s.writeRawBuf (be64 m.code) (o * 16)).weakEnabled = s.weakEnabled := writeRawBuf_weakEnabled _ _ _
  generalize s.writeRawBuf (be64 m.code) (o * 16) = s' at g1 g2 g3 g4 e1 e2 e3 ⊢
  exact ⟨g1, g2.trans h.wrapValue, h.cells.addMark m o ho hdis hlast g3 g4, e1.trans h.clock,
    e2.trans h.weak, e3.trans h.enabled⟩

theorem Overlay.addAll {s0 : Mfm} {B : List Byte} : ∀ (l : List (Marker × Nat)) {s : Mfm}
    {ms : List (Marker × Nat)}, Overlay s0 s B ms →
    (∀ x ∈ l, x.1 ≠ .ddam ∧ x.2 + 4 ≤ B.length ∧ slice B x.2 4 = markBytes x.1) →
    (∀ x ∈ ms, ∀ y ∈ l, x.2 + 4 ≤ y.2) → l.Pairwise (fun a b => a.2 + 4 ≤ b.2) →
    Overlay s0 (setTrackMarkers s l) B (ms ++ l)
  | [], s, ms, h, _, _, _ => by rw [List.append_nil]; exact h
  | x :: l, s, ms, h, hl, hd, hp => by
    obtain ⟨h1, h2, h3⟩ := hl x (by simp)
    rw [List.pairwise_cons] at hp
    have hml := markBytes_length x.1
    have hself : splice B x.2 (markBytes x.1) = B := splice_self (by omega) (by rw [hml]; exact h3)
    have hstep := h.add x.1 x.2 h1 h2 (fun m' o' hmo => hd (m', o') hmo x (by simp)) (by
      conv => lhs; rw [← hself]
      rw [dat_splice (by omega), if_pos (by omega)]
      congr 1; omega)
    rw [hself] at hstep
    have := Overlay.addAll l hstep (fun y hy => hl y (by simp [hy])) (by
      intro a ha b hb
      rcases List.mem_append.1 ha with ha | ha
      · exact hd a ha b (by simp [hb])
      · have : a = (x.1, x.2) := by simpa using ha
        rw [this]; exact hp.1 b hb) hp.2
    rw [List.append_assoc] at this
    have e : setTrackMarkers s (x :: l) =
        setTrackMarkers (s.writeRawBuf (be64 x.1.code) (x.2 * 16)) l := by
      unfold setTrackMarkers; rw [List.foldl_cons]
    rw [e]
    exact this

end Fox
