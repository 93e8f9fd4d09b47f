import Verif.Props.IpfCase
import Verif.Props.Amiga
/-
C97-C102: IPF images.
-/
namespace Fox
open Spec IpfFile

attribute [local irreducible] number Ipf.be32At

/-! ### C97: chunks are checked by their CRC -/

/-- The CRC computed over a chunk is the standard CRC-32. -/
theorem C97_is_crc32 (bytes : List Byte) (x : BitVec 32) : IsCrc32 bytes x ↔ Ipf.crc bytes = x := by
  rw [Ipf.isCrc32_iff]
  exact eq_comm

/-- The usual check value: the CRC of "123456789". -/
example : IsCrc32 [0x31, 0x32, 0x33, 0x34, 0x35, 0x36, 0x37, 0x38, 0x39] 0xCBF43926#32 := by
  rw [C97_is_crc32]
  decide +kernel

/-- A chunk is accepted just if it is one: its size in place, its CRC that of its bytes. -/
theorem C97_accepts (f : List Byte) (p : Nat) (id data : List Byte) (q : Nat) :
    Ipf.readChunk f p = .ok (⟨id, data⟩, q) ↔ ∃ b rest, IsChunkLax id data b ∧ f.drop p = b ++ rest ∧ q = p + b.length := by
  constructor
  · intro h
    exact Ipf.readChunk_inv h
  · rintro ⟨b, rest, h1, h2, rfl⟩
    exact Ipf.readChunk_lax h1 h2

/-- A concrete chunk. -/
example : Ipf.readChunk (Ipf.makeChunk caps [1#8, 2#8]) 0 = .ok (⟨caps, [1#8, 2#8]⟩, 14) :=
  (C97_accepts _ _ _ _ _).2 ⟨_, [], Ipf.lax_of (Ipf.isChunk_make rfl (by decide)), (List.append_nil _).symm, rfl⟩

theorem xor_bits (a b : List Bool) (h : a.length = b.length) (i : Nat) :
    (List.zipWith (· ^^ ·) a b).getD i false = (a.getD i false ^^ b.getD i false) := by
  rw [List.getD_eq_getElem?_getD, List.getD_eq_getElem?_getD, List.getD_eq_getElem?_getD, List.getElem?_zipWith]
  by_cases hi : i < a.length
  · rw [List.getElem?_eq_getElem hi, List.getElem?_eq_getElem (by omega : i < b.length)]; rfl
  · rw [List.getElem?_eq_none (by omega), List.getElem?_eq_none (by omega)]; rfl

/-- Messages that differ within 32 consecutive bits have different CRCs. -/
theorem crc_burst (a b : List Byte) (hl : a.length = b.length) (t : Nat)
    (hd : ∀ i, (lsbBits a).getD i false ≠ (lsbBits b).getD i false → t ≤ i ∧ i < t + 32) (h : Ipf.crc a = Ipf.crc b) : a = b := by
  have h1 := Ipf.crc_inj_feed h
  have hbl : (lsbBits a).length = (lsbBits b).length := by rw [Ipf.lsbBits_length, Ipf.lsbBits_length, hl]
  have h2 := Ipf.feed_linear (lsbBits a) (lsbBits b) hbl (BitVec.allOnes 32) (BitVec.allOnes 32)
  rw [h1, BitVec.xor_self, BitVec.xor_self] at h2
  have h3 : ∀ i, (lsbBits a).getD i false = (lsbBits b).getD i false := by
    intro i
    by_contra hne
    refine Ipf.burst (List.zipWith (· ^^ ·) (lsbBits a) (lsbBits b)) t (fun j hj => hd j ?_) i ?_ h2
    · rw [xor_bits _ _ hbl] at hj
      intro h0; rw [h0, Bool.xor_self] at hj; cases hj
    · rw [xor_bits _ _ hbl]
      revert hne
      generalize (lsbBits a).getD i false = x
      generalize (lsbBits b).getD i false = y
      revert x y
      decide
  apply List.ext_getElem hl
  intro i ha hb
  apply BitVec.eq_of_getLsbD_eq
  intro j hj
  have := h3 (8 * i + j)
  rw [Ipf.lsbBits_getD, Ipf.lsbBits_getD, show (8 * i + j) / 8 = i by omega, show (8 * i + j) % 8 = j by omega,
    List.getD_eq_getElem?_getD, List.getD_eq_getElem?_getD, List.getElem?_eq_getElem ha, List.getElem?_eq_getElem hb] at this
  exact this

theorem take_drop_getD (f : List Byte) (p n i : Nat) : ((f.drop p).take n).getD i 0#8 = if i < n then f.getD (p + i) 0#8 else 0#8 := by
  rw [List.getD_eq_getElem?_getD, List.getElem?_take]
  split
  · rw [List.getElem?_drop, ← List.getD_eq_getElem?_getD]
  · rfl

theorem number_congr {a b : List Byte} {o : Nat} (h : ∀ k < 4, a.getD (o + k) 0#8 = b.getD (o + k) 0#8) : number a o = number b o := by
  unfold number
  rw [show a.getD o 0#8 = b.getD o 0#8 from h 0 (by omega), h 1 (by omega), h 2 (by omega), h 3 (by omega)]

theorem number_inj {a b : List Byte} (ha : a.length = 4) (hb : b.length = 4) (h : number a 0 = number b 0) : a = b := by
  obtain ⟨a0, a1, a2, a3, rfl⟩ : ∃ x y z w, a = [x, y, z, w] := by
    match a, ha with
    | [x, y, z, w], _ => exact ⟨x, y, z, w, rfl⟩
  obtain ⟨b0, b1, b2, b3, rfl⟩ : ∃ x y z w, b = [x, y, z, w] := by
    match b, hb with
    | [x, y, z, w], _ => exact ⟨x, y, z, w, rfl⟩
  unfold number at h
  simp only [List.getD_cons_zero, List.getD_cons_succ, Nat.zero_add] at h
  have := a0.isLt; have := a1.isLt; have := a2.isLt; have := a3.isLt
  have := b0.isLt; have := b1.isLt; have := b2.isLt; have := b3.isLt
  have e0 : a0 = b0 := BitVec.eq_of_toNat_eq (by omega)
  have e1 : a1 = b1 := BitVec.eq_of_toNat_eq (by omega)
  have e2 : a2 = b2 := BitVec.eq_of_toNat_eq (by omega)
  have e3 : a3 = b3 := BitVec.eq_of_toNat_eq (by omega)
  rw [e0, e1, e2, e3]

/-- Damage to a chunk that is accepted — to bits of its id, of its CRC or of its data, all within 32 consecutive bits — makes
it refused. -/
theorem C97_damage (f g : List Byte) (p q : Nat) (ck : Ipf.Chunk) (h : Ipf.readChunk f p = .ok (ck, q))
    (hl : g.length = f.length) (part : Nat × Nat) (hp : part ∈ [(p, p + 4), (p + 8, p + 12), (p + 12, q)]) (t : Nat)
    (hd : ∀ i, (lsbBits g).getD i false ≠ (lsbBits f).getD i false →
      t ≤ i ∧ i < t + 32 ∧ 8 * part.1 ≤ i ∧ i < 8 * part.2) (hne : g ≠ f) : ∃ e, Ipf.readChunk g p = .error e := by
  cases hg : Ipf.readChunk g p with
  | error e => exact ⟨e, rfl⟩
  | ok r =>
    exfalso
    obtain ⟨ck', q'⟩ := r
    have same : ∀ i, ¬ (part.1 ≤ i ∧ i < part.2) → g.getD i 0#8 = f.getD i 0#8 := by
      intro i hi
      apply BitVec.eq_of_getLsbD_eq
      intro j hj
      by_contra hc
      have := hd (8 * i + j) (by
        rw [Ipf.lsbBits_getD, Ipf.lsbBits_getD, show (8 * i + j) / 8 = i by omega, show (8 * i + j) % 8 = j by omega]
        exact hc)
      omega
    obtain ⟨b, rest, ⟨i1, s, c, i2, i3, i4, i5, i6, i7⟩, h2, h3⟩ := Ipf.readChunk_inv h
    obtain ⟨b', rest', ⟨j1, s', c', j2, j3, j4, j5, j6, j7⟩, k2, k3⟩ := Ipf.readChunk_inv hg
    -- the pieces of the chunk in the file
    have pieces : ∀ {f : List Byte} {id s c data b rest : List Byte}, id.length = 4 → s.length = 4 → c.length = 4 →
        b = id ++ (s ++ (c ++ data)) → f.drop p = b ++ rest →
        (∀ i < 4, id.getD i 0#8 = f.getD (p + i) 0#8) ∧ (∀ i < 4, s.getD i 0#8 = f.getD (p + 4 + i) 0#8) ∧
        (∀ i < 4, c.getD i 0#8 = f.getD (p + 8 + i) 0#8) ∧ ∀ i < data.length, data.getD i 0#8 = f.getD (p + 12 + i) 0#8 := by
      intro f id s c data b rest l1 l2 l3 hb hf
      have key : ∀ i, f.getD (p + i) 0#8 = (id ++ (s ++ (c ++ (data ++ rest)))).getD i 0#8 := by
        intro i
        rw [← Ipf.getD_drop_byte, hf, hb]
        simp only [List.append_assoc]
      refine ⟨fun i hi => ?_, fun i hi => ?_, fun i hi => ?_, fun i hi => ?_⟩
      · rw [key, Ipf.getD_left _ _ _ (by omega)]
      · rw [Nat.add_assoc, key, ← l1, ← Ipf.getD_drop_byte, List.drop_left, Ipf.getD_left _ _ _ (by omega)]
      · rw [Nat.add_assoc, key, show 8 + i = id.length + (s.length + i) by omega, ← Ipf.getD_drop_byte, List.drop_left,
          ← Ipf.getD_drop_byte, List.drop_left, Ipf.getD_left _ _ _ (by omega)]
      · rw [Nat.add_assoc, key, show 12 + i = id.length + (s.length + (c.length + i)) by omega, ← Ipf.getD_drop_byte,
          List.drop_left, ← Ipf.getD_drop_byte, List.drop_left, ← Ipf.getD_drop_byte, List.drop_left, Ipf.getD_left _ _ _ hi]
    obtain ⟨f1, f2, f3, f4⟩ := pieces i1 i2 i3 i7 h2
    obtain ⟨g1, g2, g3, g4⟩ := pieces j1 j2 j3 j7 k2
    have bl : b.length = 12 + ck.data.length := by rw [i7]; simp only [List.length_append]; omega
    have bl' : b'.length = 12 + ck'.data.length := by rw [j7]; simp only [List.length_append]; omega
    have inside : part.1 < part.2 → ¬ (part.1 < p + 8 ∧ p + 4 < part.2) ∧ p ≤ part.1 ∧ part.2 ≤ q := by
      simp only [List.mem_cons, List.not_mem_nil, or_false] at hp
      rcases hp with rfl | rfl | rfl <;> simp only <;> omega
    have hss : s' = s := by
      apply List.ext_getElem (by omega)
      intro i a1 a2
      have e1 := g2 i (by omega)
      have e2 := f2 i (by omega)
      rw [same _ (by have := inside; omega), ← e2, List.getD_eq_getElem?_getD, List.getD_eq_getElem?_getD,
        List.getElem?_eq_getElem a1, List.getElem?_eq_getElem a2] at e1
      exact e1
    subst hss
    have hdl : ck'.data.length = ck.data.length := by omega
    have hqq : q' = q := by omega
    -- the file outside and the chunk inside determine it
    have whole : ck'.id = ck.id → c' = c → ck'.data = ck.data → False := by
      intro e1 e2 e3
      apply hne
      apply List.ext_getElem hl
      intro i a1 a2
      have : g.getD i 0#8 = f.getD i 0#8 := by
        by_cases hi : part.1 ≤ i ∧ i < part.2
        · have hin := inside (by omega)
          rcases Nat.lt_or_ge i (p + 4) with hc | hc
          · obtain ⟨k, rfl⟩ : ∃ k, i = p + k := ⟨i - p, by omega⟩
            rw [← g1 k (by omega), e1, f1 k (by omega)]
          · rcases Nat.lt_or_ge i (p + 8) with hc2 | hc2
            · obtain ⟨k, rfl⟩ : ∃ k, i = p + 4 + k := ⟨i - (p + 4), by omega⟩
              rw [← g2 k (by omega), f2 k (by omega)]
            · rcases Nat.lt_or_ge i (p + 12) with hc3 | hc3
              · obtain ⟨k, rfl⟩ : ∃ k, i = p + 8 + k := ⟨i - (p + 8), by omega⟩
                rw [← g3 k (by omega), e2, f3 k (by omega)]
              · obtain ⟨k, rfl⟩ : ∃ k, i = p + 12 + k := ⟨i - (p + 12), by omega⟩
                rw [← g4 k (by omega), e3, f4 k (by omega)]
        · exact same i hi
      rw [List.getD_eq_getElem?_getD, List.getD_eq_getElem?_getD, List.getElem?_eq_getElem a1, List.getElem?_eq_getElem a2] at this
      exact this
    rw [Ipf.isCrc32_iff] at i6 j6
    by_cases hcase : part = (p + 8, p + 12)
    · -- only the CRC is damaged
      rw [hcase] at same
      have e1 : ck'.id = ck.id := by
        apply List.ext_getElem (by omega)
        intro i a1 a2
        have x1 := g1 i (by omega)
        have x2 := f1 i (by omega)
        rw [same _ (by simp only; omega), ← x2, List.getD_eq_getElem?_getD, List.getD_eq_getElem?_getD,
          List.getElem?_eq_getElem a1, List.getElem?_eq_getElem a2] at x1
        exact x1
      have e3 : ck'.data = ck.data := by
        apply List.ext_getElem (by omega)
        intro i a1 a2
        have x1 := g4 i (by omega)
        have x2 := f4 i (by omega)
        rw [same _ (by simp only; omega), ← x2, List.getD_eq_getElem?_getD, List.getD_eq_getElem?_getD,
          List.getElem?_eq_getElem a1, List.getElem?_eq_getElem a2] at x1
        exact x1
      rw [e1, e3, ← i6] at j6
      have e2 : number c' 0 = number c 0 := by
        have := congrArg BitVec.toNat j6
        rwa [BitVec.toNat_ofNat, BitVec.toNat_ofNat, Nat.mod_eq_of_lt (Ipf.number_lt _ _),
          Nat.mod_eq_of_lt (Ipf.number_lt _ _)] at this
      exact whole e1 (number_inj j3 i3 e2) e3
    · -- the CRC is as it was
      have e2 : c' = c := by
        apply List.ext_getElem (by omega)
        intro i a1 a2
        have x1 := g3 i (by omega)
        have x2 := f3 i (by omega)
        have hno : ¬ (part.1 ≤ p + 8 + i ∧ p + 8 + i < part.2) := by
          simp only [List.mem_cons, List.not_mem_nil, or_false] at hp
          rcases hp with rfl | rfl | rfl
          · simp only; omega
          · exact absurd rfl hcase
          · simp only; omega
        rw [same _ hno, ← x2, List.getD_eq_getElem?_getD, List.getD_eq_getElem?_getD,
          List.getElem?_eq_getElem a1, List.getElem?_eq_getElem a2] at x1
        exact x1
      rw [e2, i6] at j6
      have hm := crc_burst _ _ (by simp only [List.length_append, j1, i1, hdl]) (t - 8 * p) (fun i hi => ?_) j6.symm
      · have l4 : ck'.id.length = ck.id.length := by omega
        obtain ⟨m1, m2⟩ := List.append_inj hm l4
        have m3 := (List.append_inj m2 rfl).2
        have m4 := (List.append_inj m3 rfl).2
        exact whole m1 e2 m4
      · -- where the messages differ, the files do
        rw [Ipf.lsbBits_getD, Ipf.lsbBits_getD] at hi
        have msg : ∀ (F id data : List Byte), id.length = 4 → (∀ i < 4, id.getD i 0#8 = F.getD (p + i) 0#8) →
            (∀ i < data.length, data.getD i 0#8 = F.getD (p + 12 + i) 0#8) → ∀ k,
            (id ++ (s' ++ ([0#8, 0#8, 0#8, 0#8] ++ data))).getD k 0#8 =
              if k < 4 then F.getD (p + k) 0#8 else if k < 12 then (s' ++ [0#8, 0#8, 0#8, 0#8]).getD (k - 4) 0#8
              else if k < 12 + data.length then F.getD (p + k) 0#8 else 0#8 := by
          intro F id data a1 a2 a3 k
          by_cases k1 : k < 4
          · rw [if_pos k1, Ipf.getD_left _ _ _ (by omega), a2 k k1]
          · rw [if_neg k1, show k = id.length + (k - 4) by omega, ← Ipf.getD_drop_byte, List.drop_left, ← List.append_assoc]
            have hsl : (s' ++ [0#8, 0#8, 0#8, 0#8]).length = 8 := by rw [List.length_append, j2]; rfl
            by_cases k2 : k < 12
            · rw [if_pos (by omega), Ipf.getD_left _ _ _ (by omega), a1]
              congr 1
              omega
            · rw [if_neg (by omega), show k - 4 = (s' ++ [0#8, 0#8, 0#8, 0#8]).length + (k - 12) by omega,
                ← Ipf.getD_drop_byte, List.drop_left]
              by_cases k3 : k < 12 + data.length
              · rw [if_pos (by omega), a3 _ (by omega)]
                congr 1
                omega
              · rw [if_neg (by omega), List.getD_eq_getElem?_getD, List.getElem?_eq_none (by omega)]; rfl
        rw [msg g ck'.id ck'.data j1 g1 g4, msg f ck.id ck.data i1 f1 f4, hdl] at hi
        have hdiff : g.getD (p + i / 8) 0#8 ≠ f.getD (p + i / 8) 0#8 ∧
            (g.getD (p + i / 8) 0#8).getLsbD (i % 8) ≠ (f.getD (p + i / 8) 0#8).getLsbD (i % 8) := by
          split at hi
          · exact ⟨fun h => hi (by rw [h]), hi⟩
          · split at hi
            · exact absurd rfl hi
            · split at hi
              · exact ⟨fun h => hi (by rw [h]), hi⟩
              · exact absurd rfl hi
        have := hd (8 * p + i) (by
          rw [Ipf.lsbBits_getD, Ipf.lsbBits_getD, show (8 * p + i) / 8 = p + i / 8 by omega, show (8 * p + i) % 8 = i % 8 by omega]
          exact hdiff.2)
        omega

/-- A chunk one bit of whose data is damaged. -/
example : ∃ e, Ipf.readChunk (Ipf.makeChunk caps [1#8, 2#8] |>.set 13 3#8) 0 = .error e := by
  have h : Ipf.readChunk (Ipf.makeChunk caps [1#8, 2#8]) 0 = .ok (⟨caps, [1#8, 2#8]⟩, 14) :=
    (C97_accepts _ _ _ _ _).2 ⟨_, [], Ipf.lax_of (Ipf.isChunk_make rfl (by decide)), (List.append_nil _).symm, rfl⟩
  refine C97_damage _ _ 0 14 _ h (by simp) (12, 14) (by decide) 104 (fun i hi => ?_) (by decide +kernel)
  by_cases hc : i = 104
  · omega
  · exfalso
    apply hi
    rw [Ipf.lsbBits_getD, Ipf.lsbBits_getD, List.getD_eq_getElem?_getD, List.getD_eq_getElem?_getD]
    by_cases h13 : 13 = i / 8
    · rw [← h13]
      obtain ⟨k, rfl⟩ : ∃ k, i = 104 + k := ⟨i - 104, by omega⟩
      have hk : k < 8 := by omega
      have hk0 : k ≠ 0 := by omega
      rw [show (104 + k) % 8 = k by omega]
      revert hk0
      have : ∀ k : Fin 8, k.1 ≠ 0 → (((Ipf.makeChunk caps [1#8, 2#8]).set 13 3#8)[13]?.getD 0#8).getLsbD k.1 =
          ((Ipf.makeChunk caps [1#8, 2#8])[13]?.getD 0#8).getLsbD k.1 := by decide +kernel
      exact this ⟨k, hk⟩
    · rw [List.getElem?_set_ne h13]

/-! ### C98: every track at its place -/

theorem seen_length_le (v2 : Bool) (bs : List IpfFile.Block) :
    (Ipf.seenLaid v2 bs).length ≤ (bs.flatMap fun b => b.cells.map some ++ List.replicate b.gap none).length := by
  induction bs with
  | nil => exact Nat.le_refl _
  | cons b bs ih =>
    unfold Ipf.seenLaid at ih ⊢
    rw [List.flatMap_cons, List.flatMap_cons, List.length_append, List.length_append, List.length_append, List.length_append,
      List.length_replicate, List.length_replicate]
    have : Ipf.seenGap v2 b ≤ b.gap := by unfold Ipf.seenGap; split <;> omega
    omega

/-- An IPF file with the DATA chunks in the order of the IMGE chunks, on each side the tracks from cylinder 0 on without a
gap, loads: each track lies at its place with the number of cells told, there are no others, and the geometry is that of the
INFO chunk. -/
theorem C98_tracks_partial (room : Nat) (rnd : Nat → Bool) (v2 : Bool) (xs : List Entry) (inf f : List Byte)
    (h : IsFile room v2 xs xs inf f) (hr : f.length ≤ room) (hc : Complete (xs.map fun x => x.track.ch))
    (h0 : ∀ x ∈ xs, 0 < x.track.cells ∧ x.track.laid.length ≤ x.track.cells) :
    ∃ d l, Ipf.load room rnd {} f = .ok (d, l) ∧
      (∀ x ∈ xs, ∃ t, at? d x.track.ch.h x.track.ch.c = some (.bit x.track.ch t) ∧ t.data.bits.bits.length = x.track.cells) ∧
      (∀ ch : Ch, ch.h < 2 → at? d ch.h ch.c ≠ none → ∃ x ∈ xs, x.track.ch = ch) ∧
      d.geometry = ⟨(number inf 28 + 1) % 65536, (number inf 36 + 1) % 256⟩ := by
  obtain ⟨d, l, l1, l2, l3, l4, l5⟩ := Ipf.load_file rnd h (fun z hz => hz) rfl hr hc (fun x hx => (h0 x hx).1) (by
    intro k x z hx hz
    rw [hx] at hz; cases hz
    exact Nat.le_trans (seen_length_le v2 _) (h0 x (List.mem_of_getElem? hx)).2)
  refine ⟨d, l, l1, fun x hx => ?_, l4, l5⟩
  obtain ⟨k, hk, hkx⟩ := List.mem_iff_getElem.1 hx
  have hk' : xs[k]? = some x := by rw [List.getElem?_eq_getElem hk, hkx]
  obtain ⟨y, ids, y1, _, y2⟩ := l2 k x x hk' hk'
  obtain ⟨t, t1, t2, _⟩ := y2.track
  exact ⟨t, by rw [y1, t1], t2⟩

/-! ### C99: the cells of a track -/

theorem shows_of_lain {t : IpfFile.Track} {L : List Bool} {P : List (Option Bool)} (hl : L.length = t.cells)
    (h : Ipf.Lain (t.start / 16 * 16) P L) (n : Nat) (hp : t.laid = P ++ List.replicate n none) : t.Shows L := by
  refine ⟨hl, fun k hk => ?_⟩
  have := Ipf.lain_gap h n k (by omega)
  rw [hl] at this
  rw [hp]
  exact this

theorem laid_seen (bs : List IpfFile.Block) (h : ∀ b ∈ bs.dropLast, b.gap = 0) :
    ∃ n, (bs.flatMap fun b => b.cells.map some ++ List.replicate b.gap none) = Ipf.seenLaid false bs ++ List.replicate n none := by
  induction bs with
  | nil => exact ⟨0, rfl⟩
  | cons b bs ih =>
    unfold Ipf.seenLaid
    rw [List.flatMap_cons, List.flatMap_cons]
    cases bs with
    | nil =>
      refine ⟨b.gap, ?_⟩
      show _ ++ [] = (_ ++ List.replicate 0 none ++ []) ++ _
      simp
    | cons c bs =>
      obtain ⟨n, hn⟩ := ih (fun x hx => h x (by rw [List.dropLast_cons_of_ne_nil (by simp)]; exact List.mem_cons_of_mem _ hx))
      refine ⟨n, ?_⟩
      rw [hn, h b (by rw [List.dropLast_cons_of_ne_nil (by simp)]; exact List.mem_cons_self)]
      unfold Ipf.seenLaid Ipf.seenGap
      simp

/-- The cells of a track are as its blocks tell: in a file of the newer version, or if no block but the last has a gap. -/
theorem C99_cells_partial (room : Nat) (rnd : Nat → Bool) (v2 : Bool) (xs : List Entry) (inf f : List Byte)
    (h : IsFile room v2 xs xs inf f) (hr : f.length ≤ room) (hc : Complete (xs.map fun x => x.track.ch))
    (h0 : ∀ x ∈ xs, 0 < x.track.cells ∧ x.track.laid.length ≤ x.track.cells)
    (hv : v2 = false → ∀ x ∈ xs, ∀ b ∈ x.track.blocks.dropLast, b.gap = 0) :
    ∃ d l, Ipf.load room rnd {} f = .ok (d, l) ∧
      ∀ x ∈ xs, ∃ t, at? d x.track.ch.h x.track.ch.c = some (.bit x.track.ch t) ∧ x.track.Shows t.data.bits.bits := by
  obtain ⟨d, l, l1, l2, l3, l4, l5⟩ := Ipf.load_file rnd h (fun z hz => hz) rfl hr hc (fun x hx => (h0 x hx).1) (by
    intro k x z hx hz
    rw [hx] at hz; cases hz
    exact Nat.le_trans (seen_length_le v2 _) (h0 x (List.mem_of_getElem? hx)).2)
  refine ⟨d, l, l1, fun x hx => ?_⟩
  obtain ⟨k, hk, hkx⟩ := List.mem_iff_getElem.1 hx
  have hk' : xs[k]? = some x := by rw [List.getElem?_eq_getElem hk, hkx]
  obtain ⟨y, ids, y1, _, y2⟩ := l2 k x x hk' hk'
  obtain ⟨t, t1, t2, t3, _⟩ := y2.track
  refine ⟨t, by rw [y1, t1], ?_⟩
  cases v2 with
  | true => exact shows_of_lain t2 t3 0 (by rw [List.replicate_zero, List.append_nil]; rfl)
  | false =>
    obtain ⟨n, hn⟩ := laid_seen x.track.blocks (hv rfl x hx)
    exact shows_of_lain t2 t3 n hn

/-! ### An example: two sides of one cylinder -/

/-- Side 0: a sync mark and a zero byte, then a gap of 16 cells. -/
def ipfA : Entry := Ipf.oneEntry ⟨⟨0, 0⟩, 64, 0, []⟩ ⟨[⟨.sync, [0x44#8, 0x89#8]⟩, ⟨.data, [0#8]⟩], 16⟩ 7
/-- Side 1: two bytes of a gap, from cell 48 on round the track. -/
def ipfB : Entry := Ipf.oneEntry ⟨⟨0, 1⟩, 64, 50, []⟩ ⟨[⟨.gap, [0xFF#8, 0x12#8]⟩], 0⟩ 9

theorem ipfA_says (room : Nat) (v2 : Bool) : ipfA.Says room v2 :=
  Ipf.one_says v2 (by decide) (by decide) (by decide) (by decide)

theorem ipfB_says (room : Nat) (v2 : Bool) : ipfB.Says room v2 :=
  Ipf.one_says v2 (by decide) (by decide) (by decide) (by decide)

theorem ipfPair (room : Nat) (v2 : Bool) (zs : List Entry) (hz : ∀ x ∈ zs, x ∈ [ipfA, ipfB]) :
    IsFile room v2 [ipfA, ipfB] zs (Ipf.oneInfo v2 0 1) (Ipf.fileOf v2 0 1 [ipfA, ipfB] zs) := by
  refine Ipf.isFile_of v2 (by decide) ?_ (by decide) (by decide) ?_
  · intro x hx
    rcases List.mem_cons.1 hx with rfl | hx
    · exact ipfA_says _ _
    · rw [List.mem_singleton.1 hx]; exact ipfB_says _ _
  · intro x hx
    have := hz x hx
    rcases List.mem_cons.1 this with rfl | hx
    · decide
    · rw [List.mem_singleton.1 hx]; decide

theorem ipfPair_complete : Complete ([ipfA, ipfB].map fun x => x.track.ch) := by
  refine ⟨by decide, by decide, ?_⟩
  intro ch hch c hc
  simp only [List.map_cons, List.map_nil, List.mem_cons, List.not_mem_nil, or_false] at hch
  rcases hch with rfl | rfl <;> exact absurd hc (Nat.not_lt_zero _)

theorem ipfPair_fits : ∀ x ∈ [ipfA, ipfB], 0 < x.track.cells ∧ x.track.laid.length ≤ x.track.cells := by decide +kernel

theorem ipfPair_gaps : ∀ x ∈ [ipfA, ipfB], ∀ b ∈ x.track.blocks.dropLast, b.gap = 0 := by decide

/-- `C98_tracks_partial` and `C99_cells_partial` apply to it, in either version. -/
example (v2 : Bool) : ∃ (room : Nat) (d : Disk) (l : List (Ch × List Chsn)), Ipf.load room (fun _ => false) {} (Ipf.fileOf v2 0 1 [ipfA, ipfB] [ipfA, ipfB]) = .ok (d, l) ∧
    ∃ t, at? d 1 0 = some (.bit ⟨0, 1⟩ t) ∧ ipfB.track.Shows t.data.bits.bits := by
  obtain ⟨d, l, h1, h2⟩ := C99_cells_partial (Ipf.fileOf v2 0 1 [ipfA, ipfB] [ipfA, ipfB]).length (fun _ => false) v2 [ipfA, ipfB]
    _ _ (ipfPair _ v2 _ fun x hx => hx) (Nat.le_refl _) ipfPair_complete ipfPair_fits (fun _ => ipfPair_gaps)
  exact ⟨_, d, l, h1, h2 ipfB (by simp)⟩

/-- **C98 fails** if the DATA chunks come in another order than the IMGE chunks: each track gets the cells that belong at the
position, not those with its key. -/
theorem C98_false_order (v2 : Bool) : ∃ (room : Nat) (xs zs : List Entry) (inf f : List Byte), zs.Perm xs ∧ IsFile room v2 xs zs inf f ∧
    f.length ≤ room ∧ Complete (xs.map fun x => x.track.ch) ∧
    (∀ x ∈ xs, 0 < x.track.cells ∧ x.track.laid.length ≤ x.track.cells ∧ ∀ b ∈ x.track.blocks.dropLast, b.gap = 0) ∧
    ∀ rnd, ∃ d l, Ipf.load room rnd {} f = .ok (d, l) ∧
      ∃ x ∈ xs, ∃ t, at? d x.track.ch.h x.track.ch.c = some (.bit x.track.ch t) ∧ ¬ x.track.Shows t.data.bits.bits := by
  have hsub : ∀ x ∈ [ipfB, ipfA], x ∈ [ipfA, ipfB] := by
    intro x hx; simp only [List.mem_cons, List.not_mem_nil, or_false] at hx ⊢; exact hx.symm
  refine ⟨_, [ipfA, ipfB], [ipfB, ipfA], _, _, List.Perm.swap _ _ _,
    ipfPair (Ipf.fileOf v2 0 1 [ipfA, ipfB] [ipfB, ipfA]).length v2 [ipfB, ipfA] hsub, Nat.le_refl _, ipfPair_complete,
    fun x hx => ⟨(ipfPair_fits x hx).1, (ipfPair_fits x hx).2, ipfPair_gaps x hx⟩, fun rnd => ?_⟩
  obtain ⟨d, l, l1, l2, _⟩ := Ipf.load_file rnd (ipfPair (Ipf.fileOf v2 0 1 [ipfA, ipfB] [ipfB, ipfA]).length v2 [ipfB, ipfA] hsub)
    hsub rfl (Nat.le_refl _) ipfPair_complete (fun x hx => (ipfPair_fits x hx).1) (by
      intro k x z hx hz
      have hlen : (Ipf.seenLaid v2 z.track.blocks).length ≤ 64 := by
        have hz' : z = ipfB ∨ z = ipfA := by
          have := List.mem_of_getElem? hz
          simpa using this
        rcases hz' with rfl | rfl <;> cases v2 <;> decide +kernel
      have hx' : x = ipfA ∨ x = ipfB := by
        have := List.mem_of_getElem? hx
        simpa using this
      rcases hx' with rfl | rfl <;> exact hlen)
  refine ⟨d, l, l1, ipfA, by simp, ?_⟩
  obtain ⟨y, ids, y1, _, y2⟩ := l2 0 ipfA ipfB rfl rfl
  obtain ⟨t, t1, t2, t3, _⟩ := y2.track
  refine ⟨t, by rw [y1, t1], ?_⟩
  rintro ⟨_, hs⟩
  -- cell 3 is clear in the sync mark, but set in the other side's data
  have h1 := hs 3 (by decide)
  have h2 := t3 3 (by rw [t2]; decide)
  rw [t2] at h2
  have e : ipfA.track.start / 16 * 16 + 3 = 3 := by decide
  rw [e] at h1 h2
  rw [h1] at h2
  revert h2
  cases v2 <;> decide +kernel

/-- Two zero bytes with a gap of 16 cells between them. -/
def ipfGap : Entry where
  track := ⟨⟨0, 0⟩, 64, 0, [⟨[⟨.data, [0#8]⟩], 16⟩, ⟨[⟨.data, [0#8]⟩], 0⟩]⟩
  key := 7
  image := Ipf.words [0, 0, 2, 1, 0, 0, 0, 0, 0, 64, 2, 0, 0, 7, 0, 0, 0]
  record := Ipf.words [76, 0, 0, 7]
  edb := Ipf.words [0, 16, 0, 0, 2, 0, 0, 64, 0, 0, 0, 0, 2, 0, 0, 70] ++
    (Ipf.makeStream [⟨.data, [0#8]⟩] ++ Ipf.makeStream [⟨.data, [0#8]⟩])

theorem ipfGap_says (room : Nat) : ipfGap.Says room false := by
  refine ⟨by decide, by decide +kernel, by decide +kernel, by decide +kernel, by decide +kernel, by decide +kernel,
    by decide +kernel, by decide, by decide +kernel, by decide +kernel, by decide, ?_⟩
  intro i b hb
  have n0 : number ipfGap.edb (32 * 0 + 28) = 64 := by decide +kernel
  have n1 : number ipfGap.edb (32 * 1 + 28) = 70 := by decide +kernel
  have hi : (i = 0 ∧ b = ⟨[⟨.data, [0#8]⟩], 16⟩) ∨ (i = 1 ∧ b = ⟨[⟨.data, [0#8]⟩], 0⟩) := by
    match i, hb with
    | 0, h => exact .inl ⟨rfl, (Option.some.inj h).symm⟩
    | 1, h => exact .inr ⟨rfl, (Option.some.inj h).symm⟩
    | i + 2, h => cases h
  rcases hi with ⟨rfl, rfl⟩ | ⟨rfl, rfl⟩
  · refine ⟨by decide +kernel, ?_, by decide, fun h => (by cases h), fun h => (by cases h)⟩
    rw [n0]
    exact Ipf.stream_make _ (Ipf.makeStream [⟨.data, [0#8]⟩]) (by decide)
  · refine ⟨by decide +kernel, ?_, by decide, fun h => (by cases h), fun h => (by cases h)⟩
    rw [n1]
    exact Ipf.stream_make _ [] (by decide)

theorem single_complete (x : Entry) (h : x.track.ch = ⟨0, 0⟩) : Complete ([x].map fun x => x.track.ch) := by
  rw [List.map_singleton, h]
  refine ⟨by decide, by decide, ?_⟩
  intro ch hch c hc
  rw [List.mem_singleton.1 hch] at hc
  exact absurd hc (Nat.not_lt_zero _)

/-- **C99 fails** for the older version if there are gaps between blocks: they take no room on the track, so that the later
blocks begin too early. -/
theorem C99_false_gap : ∃ (room : Nat) (x : Entry) (inf f : List Byte), IsFile room false [x] [x] inf f ∧ f.length ≤ room ∧
    Complete [x.track.ch] ∧ 0 < x.track.cells ∧ x.track.laid.length ≤ x.track.cells ∧
    ∀ rnd, ∃ d l, Ipf.load room rnd {} f = .ok (d, l) ∧
      ∃ t, at? d x.track.ch.h x.track.ch.c = some (.bit x.track.ch t) ∧ ¬ x.track.Shows t.data.bits.bits := by
  have hf : IsFile (Ipf.fileOf false 0 0 [ipfGap] [ipfGap]).length false [ipfGap] [ipfGap] (Ipf.oneInfo false 0 0)
      (Ipf.fileOf false 0 0 [ipfGap] [ipfGap]) :=
    Ipf.isFile_of false (by decide) (fun x hx => by rw [List.mem_singleton.1 hx]; exact ipfGap_says _) (by decide) (by decide)
      (by decide)
  have hc := single_complete ipfGap rfl
  refine ⟨_, ipfGap, _, _, hf, Nat.le_refl _, hc, by decide, by decide +kernel, fun rnd => ?_⟩
  obtain ⟨d, l, l1, l2, _⟩ := Ipf.load_file rnd hf (fun z hz => hz) rfl (Nat.le_refl _) hc (by decide) (by
      intro k x z hx hz
      have hx' : x = ipfGap := by simpa using List.mem_of_getElem? hx
      have hz' : z = ipfGap := by simpa using List.mem_of_getElem? hz
      rw [hx', hz']
      decide +kernel)
  refine ⟨d, l, l1, ?_⟩
  obtain ⟨y, ids, y1, _, y2⟩ := l2 0 ipfGap ipfGap rfl rfl
  obtain ⟨t, t1, t2, t3, _⟩ := y2.track
  refine ⟨t, by rw [y1, t1], ?_⟩
  rintro ⟨_, hs⟩
  have h1 := hs 16 (by decide)
  have h2 := t3 16 (by rw [t2]; decide)
  rw [t2] at h2
  have e : ipfGap.track.start / 16 * 16 + 16 = 16 := by decide
  rw [e] at h1 h2
  rw [h1] at h2
  revert h2
  decide +kernel

/-- **C99 fails** for the bit cells between elements: a byte of data is recorded as if after a clear bit whatever comes before
it.  After the sync mark, which ends with a set cell, a zero bit is given a clock, so that two neighbouring cells are set,
which never happens in MFM. -/
theorem C99_false_clock (v2 : Bool) : ∃ (room : Nat) (xs : List Entry) (inf f : List Byte), IsFile room v2 xs xs inf f ∧
    ∀ rnd, ∃ d l, Ipf.load room rnd {} f = .ok (d, l) ∧ ∃ x ∈ xs,
      (∃ b, x.track.blocks = [b] ∧ b.elems = [⟨.sync, [0x44#8, 0x89#8]⟩, ⟨.data, [0#8]⟩]) ∧
      ∃ t, at? d x.track.ch.h x.track.ch.c = some (.bit x.track.ch t) ∧
        ∃ k, t.data.bits.bits.getD k false = true ∧ t.data.bits.bits.getD (k + 1) false = true := by
  refine ⟨_, [ipfA, ipfB], _, _, ipfPair (Ipf.fileOf v2 0 1 [ipfA, ipfB] [ipfA, ipfB]).length v2 _ fun x hx => hx, fun rnd => ?_⟩
  obtain ⟨d, l, h1, h2⟩ := C99_cells_partial (Ipf.fileOf v2 0 1 [ipfA, ipfB] [ipfA, ipfB]).length rnd v2 [ipfA, ipfB]
    _ _ (ipfPair _ v2 _ fun x hx => hx) (Nat.le_refl _) ipfPair_complete ipfPair_fits (fun _ => ipfPair_gaps)
  obtain ⟨t, t1, _, t2⟩ := h2 ipfA (by simp)
  refine ⟨d, l, h1, ipfA, by simp, ⟨_, rfl, rfl⟩, t, t1, 15, ?_, ?_⟩
  · have := t2 15 (by decide)
    have e : (ipfA.track.start / 16 * 16 + 15) % ipfA.track.cells = 15 := by decide
    rw [e] at this
    rw [this]
    decide +kernel
  · have := t2 16 (by decide)
    have e : (ipfA.track.start / 16 * 16 + 16) % ipfA.track.cells = 16 := by decide
    rw [e] at this
    rw [this]
    decide +kernel

/-! ### C100: the sectors of a track can be read -/

theorem amigaIds_good (secs : List AmigaSector) : Ipf.amigaIds (secs.flatMap goodElems) = secs.map (·.id) := by
  induction secs with
  | nil => rfl
  | cons x secs ih =>
    rw [List.flatMap_cons, List.map_cons, ← ih]
    rfl

theorem rescan_amiga {s : Mfm} {bits : List Bool} (hu : Unscanned s bits) (secs : List AmigaSector)
    (h : AmigaTrack (fun i => bits.getD (i % bits.length) false) bits.length secs) (hl : ∀ x ∈ secs, x.label = [0, 0, 0, 0])
    (hne : secs ≠ []) (rnd : Nat → Bool) :
    ∃ t, Ipf.rescan rnd { data := s, schema := some .system34 } = .ok (t, secs.map (·.id)) ∧ t.items = [] ∧
      t.schema = some .system34 := by
  obtain ⟨a, a1, a2, a3, a4⟩ := h.scan_of hu secs rnd
  rw [flatMap_good (a3 rnd) secs fun x hx => ⟨a4 x hx, h.header x hx, hl x hx, h.data x hx, h.ids x hx⟩] at a2
  unfold Ipf.rescan
  rw [a1]
  simp only
  rw [a2, amigaIds_good, if_pos (by simpa using hne)]
  exact ⟨_, rfl, rfl, rfl⟩

/-- Nothing is found on a track without elements. -/
theorem read_nothing {t : Fox.Track} (h1 : t.items = []) (h2 : t.schema = some .system34) (rnd : Nat → Bool) (q : Query)
    (n offset : Option Nat) (scope : S34.Scope) (debug : Bool) :
    ∃ r, t.readSector rnd q n offset scope debug = .ok r ∧ r.notFound = true ∧ r.bytes = [] := by
  unfold Track.readSector
  rw [h2, h1]
  exact ⟨_, rfl, rfl, rfl⟩

/-- **C100 fails** for Amiga tracks, for which the format was made: whatever Amiga sectors lie on a track of an IPF file —
valid ones, and listed as such when the file is loaded — no sector of the track is found when it is read. -/
theorem C100_false_amiga (room : Nat) (rnd : Nat → Bool) (v2 : Bool) (xs : List Entry) (inf f : List Byte)
    (h : IsFile room v2 xs xs inf f) (hr : f.length ≤ room) (hc : Complete (xs.map fun x => x.track.ch))
    (h0 : ∀ x ∈ xs, 0 < x.track.cells ∧ x.track.laid.length ≤ x.track.cells)
    (hv : v2 = false → ∀ x ∈ xs, ∀ b ∈ x.track.blocks.dropLast, b.gap = 0)
    (x : Entry) (hx : x ∈ xs) (secs : List AmigaSector) (hne : secs ≠ []) (hl : ∀ y ∈ secs, y.label = [0, 0, 0, 0])
    (ha : ∀ L, x.track.Shows L → AmigaTrack (fun i => L.getD (i % L.length) false) L.length secs) :
    ∃ d l, Ipf.load room rnd {} f = .ok (d, l) ∧ (x.track.ch, secs.map (·.id)) ∈ l ∧
      ∃ t, at? d x.track.ch.h x.track.ch.c = some t ∧ ∀ nz q n offset scope debug,
        ∃ r, t.readSector nz q n offset scope debug = .ok r ∧ r.notFound = true ∧ r.bytes = [] := by
  obtain ⟨d, l, l1, l2, l3, l4, l5⟩ := Ipf.load_file rnd h (fun z hz => hz) rfl hr hc (fun x hx => (h0 x hx).1) (by
    intro k x z hx hz
    rw [hx] at hz; cases hz
    exact Nat.le_trans (seen_length_le v2 _) (h0 x (List.mem_of_getElem? hx)).2)
  obtain ⟨k, hk, hkx⟩ := List.mem_iff_getElem.1 hx
  have hk' : xs[k]? = some x := by rw [List.getElem?_eq_getElem hk, hkx]
  obtain ⟨y, ids, y1, y3, y2⟩ := l2 k x x hk' hk'
  obtain ⟨t, t1, t2, t3, t4, t5, s, u, hs⟩ := y2.track
  have hsh : x.track.Shows t.data.bits.bits := by
    cases v2 with
    | true => exact shows_of_lain t2 t3 0 (by rw [List.replicate_zero, List.append_nil]; rfl)
    | false =>
      obtain ⟨n, hn⟩ := laid_seen x.track.blocks (hv rfl x hx)
      exact shows_of_lain t2 t3 n hn
  obtain ⟨t', r1, r2, r3⟩ := rescan_amiga u secs (ha _ hsh) hl hne rnd
  rw [hs] at r1
  injection r1 with r1
  injection r1 with e1 e2
  subst e1
  subst e2
  refine ⟨d, l, l1, y3, y, y1, fun nz q n offset scope debug => ?_⟩
  rw [t1]
  exact read_nothing r2 r3 nz.bit q n offset scope debug

/-- Tracks on which no Amiga sync marks lie keep what the System34 scan finds: the sectors listed are its valid ids, and if
there are any, reading finds and decodes what it does after that scan on the same cells. -/
theorem C100_other_partial (room : Nat) (rnd : Nat → Bool) (v2 : Bool) (xs : List Entry) (inf f : List Byte)
    (h : IsFile room v2 xs xs inf f) (hr : f.length ≤ room) (hc : Complete (xs.map fun x => x.track.ch))
    (h0 : ∀ x ∈ xs, 0 < x.track.cells ∧ x.track.laid.length ≤ x.track.cells)
    (hv : v2 = false → ∀ x ∈ xs, ∀ b ∈ x.track.blocks.dropLast, b.gap = 0)
    (x : Entry) (hx : x ∈ xs)
    (ha : ∀ L, x.track.Shows L → ∀ p, ¬ SyncAt (fun i => L.getD (i % L.length) false) L.length p) :
    ∃ d l, Ipf.load room rnd {} f = .ok (d, l) ∧ ∃ s t L, x.track.Shows L ∧ Unscanned s L ∧
      Track.rescan34 { data := s, schema := some .system34 } rnd = .ok t ∧ (x.track.ch, t.validSectorIds) ∈ l ∧
      at? d x.track.ch.h x.track.ch.c =
        some (.bit x.track.ch (if t.validSectorIds = [] then { t with items := [] } else t)) := by
  obtain ⟨d, l, l1, l2, l3, l4, l5⟩ := Ipf.load_file rnd h (fun z hz => hz) rfl hr hc (fun x hx => (h0 x hx).1) (by
    intro k x z hx hz
    rw [hx] at hz; cases hz
    exact Nat.le_trans (seen_length_le v2 _) (h0 x (List.mem_of_getElem? hx)).2)
  obtain ⟨k, hk, hkx⟩ := List.mem_iff_getElem.1 hx
  have hk' : xs[k]? = some x := by rw [List.getElem?_eq_getElem hk, hkx]
  obtain ⟨y, ids, y1, y3, y2⟩ := l2 k x x hk' hk'
  obtain ⟨t, t1, t2, t3, t4, t5, s, u, hs⟩ := y2.track
  have hsh : x.track.Shows t.data.bits.bits := by
    cases v2 with
    | true => exact shows_of_lain t2 t3 0 (by rw [List.replicate_zero, List.append_nil]; rfl)
    | false =>
      obtain ⟨n, hn⟩ := laid_seen x.track.blocks (hv rfl x hx)
      exact shows_of_lain t2 t3 n hn
  have hat : AmigaTrack (fun i => t.data.bits.bits.getD (i % t.data.bits.bits.length) false) t.data.bits.bits.length [] :=
    ⟨fun p => ⟨fun hp => absurd hp (ha _ hsh p), fun hp => by obtain ⟨_, hp, _⟩ := hp; simp at hp⟩, List.Pairwise.nil,
      by simp, by simp, by simp⟩
  have hms : Amiga.scanMarkers s = [] := by
    have hlen : s.len = t.data.bits.bits.length := by unfold Mfm.len BitRing.len; rw [u.cells]
    have := Spec.AmigaTrack.scanMarkers (s := s) (cell := fun i => t.data.bits.bits.getD (i % t.data.bits.bits.length) false)
      (u.solid rnd s.clockMap).2 (by rw [hlen]; exact hat)
    exact this
  have hsc : Amiga.scan s rnd = .ok ⟨s, []⟩ := by
    unfold Amiga.scan
    rw [hms]
    rfl
  unfold Ipf.rescan at hs
  rw [hsc] at hs
  simp only at hs
  rw [if_neg (by simp [Ipf.amigaIds])] at hs
  cases h34 : Track.rescan34 { data := s, schema := some .system34 } rnd with
  | error e => rw [h34] at hs; cases hs
  | ok t0 =>
    rw [h34] at hs
    simp only at hs
    refine ⟨d, l, l1, s, t0, _, hsh, u, h34, ?_, ?_⟩
    · split at hs
      · injection hs with hs; injection hs with e1 e2; rw [e2]; exact y3
      · rename_i hn
        injection hs with hs; injection hs with e1 e2
        have : t0.validSectorIds = [] := by simpa using hn
        rw [this, e2]; exact y3
    · rw [y1, t1]
      split at hs
      · rename_i hn
        injection hs with hs; injection hs with e1 e2
        rw [if_neg hn, e1]
      · rename_i hn
        injection hs with hs; injection hs with e1 e2
        rw [if_pos (by simpa using hn), e1]

end Fox
