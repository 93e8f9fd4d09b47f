import Verif.Spec.Ipf
import Verif.Proofs.Crc32
import Verif.Proofs.BitLoad
namespace Fox
namespace Ipf
open Spec IpfFile

/-! ### Numbers -/

theorem be32At_eq (b : List Byte) (o : Nat) : be32At b o = number b o := by
  unfold be32At number u8At
  omega

theorem getD_drop_byte (f : List Byte) (p o : Nat) : (f.drop p).getD o 0#8 = f.getD (p + o) 0#8 := by
  rw [List.getD_eq_getElem?_getD, List.getElem?_drop, ← List.getD_eq_getElem?_getD]

theorem number_drop (f : List Byte) (p o : Nat) : number (f.drop p) o = number f (p + o) := by
  unfold number
  simp only [getD_drop_byte]
  rw [← Nat.add_assoc p o 1, ← Nat.add_assoc p o 2, ← Nat.add_assoc p o 3]

theorem getD_left (a b : List Byte) (o : Nat) (h : o < a.length) : (a ++ b).getD o 0#8 = a.getD o 0#8 := by
  rw [List.getD_eq_getElem?_getD, List.getElem?_append_left h, ← List.getD_eq_getElem?_getD]

theorem number_left (a b : List Byte) (o : Nat) (h : o + 4 ≤ a.length) : number (a ++ b) o = number a o := by
  unfold number
  rw [getD_left _ _ _ (by omega), getD_left _ _ _ (by omega), getD_left _ _ _ (by omega), getD_left _ _ _ (by omega)]

theorem number_right (a b : List Byte) (o : Nat) : number (a ++ b) (a.length + o) = number b o := by
  rw [← number_drop, List.drop_left]

theorem number_lt (b : List Byte) (o : Nat) : number b o < 2 ^ 32 := by
  unfold number
  have h1 := (b.getD o 0#8).isLt
  have h2 := (b.getD (o + 1) 0#8).isLt
  have h3 := (b.getD (o + 2) 0#8).isLt
  have h4 := (b.getD (o + 3) 0#8).isLt
  omega

attribute [local irreducible] number be32At

theorem u8At_drop (f : List Byte) (p : Nat) (x : Byte) (r : List Byte) (h : f.drop p = x :: r) : u8At f p = x.toNat := by
  unfold u8At
  have := getD_drop_byte f p 0
  rw [h, Nat.add_zero] at this
  rw [← this]; rfl

theorem length_of_drop {f : List Byte} {p : Nat} {a : List Byte} (h : f.drop p = a) (ha : a ≠ []) : f.length = p + a.length := by
  have h1 := congrArg List.length h
  rw [List.length_drop] at h1
  have h2 : 0 < a.length := List.length_pos_iff.2 ha
  omega

theorem le_of_drop {f : List Byte} {p : Nat} {a r : List Byte} (h : f.drop p = a ++ r) : a.length ≤ f.length - p := by
  have h1 := congrArg List.length h
  rw [List.length_drop, List.length_append] at h1
  omega

theorem drop_more {f : List Byte} {p : Nat} {a r : List Byte} (h : f.drop p = a ++ r) : f.drop (p + a.length) = r := by
  rw [← List.drop_drop, h, List.drop_left]

theorem sizeOf_foldl (b : List Byte) (a : Nat) : b.foldl (fun a x => 256 * a + x.toNat) a = a * 256 ^ b.length + value b := by
  induction b generalizing a with
  | nil => simp [value]
  | cons x b ih =>
    rw [List.foldl_cons, ih, value, List.length_cons, Nat.pow_succ, Nat.add_mul]
    have : 256 * a * 256 ^ b.length = a * (256 ^ b.length * 256) := by
      rw [Nat.mul_comm 256 a, Nat.mul_assoc, Nat.mul_comm 256]
    omega

theorem sizeOf_eq (b : List Byte) : sizeOf b = value b := by
  unfold sizeOf
  rw [sizeOf_foldl]; omega

/-! ### Chunks -/

theorem isChunk_length {id data b : List Byte} (h : IsChunk id data b) : b.length = 12 + data.length := by
  obtain ⟨h1, _, s, c, h2, h3, _, _, rfl⟩ := h
  simp only [List.length_append]
  omega

theorem isCrc32_iff (l : List Byte) (x : BitVec 32) : IsCrc32 l x ↔ x = crc l := by
  unfold IsCrc32
  rw [feed_fed, crc_eq]
  constructor
  · intro h
    have := congrArg (fun y => ~~~ y) h
    simpa using this
  · intro h
    rw [h]; simp

theorem lax_of {id data b : List Byte} (h : IsChunk id data b) : IsChunkLax id data b := by
  obtain ⟨h1, h2, s, c, h3, h4, h5, h6, h7⟩ := h
  exact ⟨h1, s, c, h3, h4, by omega, by omega, h6, h7⟩

theorem isChunkLax_length {id data b : List Byte} (h : IsChunkLax id data b) : b.length = 12 + data.length := by
  obtain ⟨h1, s, c, h2, h3, _, _, _, rfl⟩ := h
  simp only [List.length_append]
  omega

theorem readChunk_lax {f : List Byte} {p : Nat} {id data b rest : List Byte} (hc : IsChunkLax id data b)
    (hf : f.drop p = b ++ rest) : readChunk f p = .ok (⟨id, data⟩, p + b.length) := by
  have hl := isChunkLax_length hc
  have hle := le_of_drop hf
  have hne : b ≠ [] := by intro h; rw [h, List.length_nil] at hl; omega
  have hfl := length_of_drop hf (by simp [hne])
  rw [List.length_append] at hfl
  obtain ⟨h1, s, c, hs, hcl, h2, hsz, hcrc, hb⟩ := hc
  have n4 : be32At f (p + 4) = number s 0 := by
    rw [be32At_eq, ← number_drop, hf, hb, List.append_assoc]
    have : (4 : Nat) = id.length + 0 := by omega
    rw [this, number_right, List.append_assoc, number_left _ _ _ (by omega)]
  have n8 : be32At f (p + 8) = number c 0 := by
    rw [be32At_eq, ← number_drop, hf, hb, List.append_assoc]
    have : (8 : Nat) = id.length + (s.length + 0) := by omega
    rw [this, number_right, List.append_assoc, number_right, List.append_assoc, number_left _ _ _ (by omega)]
  have hd : (f.drop (p + 12)).take data.length = data := by
    rw [← List.drop_drop, hf, hb]
    have e : id ++ (s ++ (c ++ data)) ++ rest = (id ++ (s ++ c)) ++ (data ++ rest) := by simp
    have e12 : 12 = (id ++ (s ++ c)).length := by simp; omega
    rw [e, e12, List.drop_left, List.take_left]
  have ht8 : (f.drop p).take 8 = id ++ s := by
    rw [hf, hb]
    have e : id ++ (s ++ (c ++ data)) ++ rest = (id ++ s) ++ (c ++ (data ++ rest)) := by simp
    have e8 : 8 = (id ++ s).length := by simp; omega
    rw [e, e8, List.take_left]
  have ht4 : (f.drop p).take 4 = id := by
    rw [hf, hb, List.append_assoc, ← h1, List.take_left]
  unfold readChunk
  simp only [n4, n8, hsz, hd, ht8, ht4]
  rw [if_neg (by omega), if_neg (by omega), if_neg (by omega), if_neg ?_]
  · rw [hl, Nat.add_assoc]
  · intro hne2
    apply hne2
    rw [isCrc32_iff] at hcrc
    unfold chunkCrc
    rw [List.append_assoc, ← hcrc, BitVec.toNat_ofNat, Nat.mod_eq_of_lt (number_lt c 0)]

theorem readChunk_at {f : List Byte} {p : Nat} {id data b rest : List Byte} (hc : IsChunk id data b)
    (hf : f.drop p = b ++ rest) : readChunk f p = .ok (⟨id, data⟩, p + b.length) := readChunk_lax (lax_of hc) hf

theorem number_take (g : List Byte) : number g 0 = number (g.take 4) 0 := by
  conv_lhs => rw [← List.take_append_drop 4 g]
  by_cases hl : 4 ≤ g.length
  · rw [number_left _ _ _ (by rw [List.length_take]; omega)]
  · have : g.drop 4 = [] := List.drop_eq_nil_of_le (by omega)
    rw [this, List.append_nil]

theorem readChunk_inv {f : List Byte} {p q : Nat} {ck : Chunk} (h : readChunk f p = .ok (ck, q)) :
    ∃ b rest, IsChunkLax ck.id ck.data b ∧ f.drop p = b ++ rest ∧ q = p + b.length := by
  unfold readChunk at h
  have n4 : be32At f (p + 4) = number ((f.drop (p + 4)).take 4) 0 := by
    rw [be32At_eq, ← Nat.add_zero (p + 4), ← number_drop]
    exact number_take _
  have n8 : be32At f (p + 8) = number ((f.drop (p + 8)).take 4) 0 := by
    rw [be32At_eq, ← Nat.add_zero (p + 8), ← number_drop]
    exact number_take _
  by_cases h1 : f.length < p + 12
  · rw [if_pos h1] at h; cases h
  rw [if_neg h1] at h
  by_cases h2 : f.length < p + 12 + (be32At f (p + 4) - 12)
  · rw [if_pos h2] at h; cases h
  rw [if_neg h2] at h
  by_cases h3 : 0x100000 < be32At f (p + 4)
  · rw [if_pos h3] at h; cases h
  rw [if_neg h3] at h
  simp only at h
  by_cases h4 : be32At f (p + 8) = (chunkCrc ((f.drop p).take 8) ((f.drop (p + 12)).take (be32At f (p + 4) - 12))).toNat
  swap
  · rw [if_pos h4] at h; cases h
  rw [if_neg (fun h => h h4)] at h
  injection h with h
  injection h with e1 e2
  subst e1
  have hdl : ((f.drop (p + 12)).take (be32At f (p + 4) - 12)).length = be32At f (p + 4) - 12 := by
    rw [List.length_take, List.length_drop]; omega
  have s1 : f.drop p = (f.drop p).take 4 ++ f.drop (p + 4) := by
    rw [← List.drop_drop, List.take_append_drop]
  have s2 : f.drop (p + 4) = (f.drop (p + 4)).take 4 ++ f.drop (p + 8) := by
    rw [show p + 8 = p + 4 + 4 from rfl, ← List.drop_drop (i := 4) (j := p + 4), List.take_append_drop]
  have s3 : f.drop (p + 8) = (f.drop (p + 8)).take 4 ++ f.drop (p + 12) := by
    rw [show p + 12 = p + 8 + 4 from rfl, ← List.drop_drop (i := 4) (j := p + 8), List.take_append_drop]
  have l1 : ((f.drop p).take 4).length = 4 := by rw [List.length_take, List.length_drop]; omega
  have l2 : ((f.drop (p + 4)).take 4).length = 4 := by rw [List.length_take, List.length_drop]; omega
  have l3 : ((f.drop (p + 8)).take 4).length = 4 := by rw [List.length_take, List.length_drop]; omega
  have ht8 : (f.drop p).take 8 = (f.drop p).take 4 ++ (f.drop (p + 4)).take 4 := by
    conv_lhs => rw [s1, s2, ← List.append_assoc]
    exact List.take_left' (by rw [List.length_append, l1, l2])
  refine ⟨(f.drop p).take 4 ++ ((f.drop (p + 4)).take 4 ++ ((f.drop (p + 8)).take 4 ++
    (f.drop (p + 12)).take (be32At f (p + 4) - 12))), (f.drop (p + 12)).drop (be32At f (p + 4) - 12),
    ⟨l1, _, _, l2, l3, by rw [← n4]; omega, by rw [← n4, hdl], ?_, rfl⟩, ?_, ?_⟩
  · rw [isCrc32_iff, ← n8, h4]
    unfold chunkCrc
    rw [BitVec.ofNat_toNat, BitVec.setWidth_eq, ht8, List.append_assoc]
  · conv_lhs => rw [s1, s2, s3, ← List.take_append_drop (be32At f (p + 4) - 12) (f.drop (p + 12))]
    simp only [List.append_assoc]
  · rw [← e2]
    simp only [List.length_append, l1, l2, l3, hdl]
    omega

theorem readChunk_end {f : List Byte} {p : Nat} (h : f.drop p = []) : readChunk f p = .error .io := by
  unfold readChunk
  have : f.length ≤ p := by
    have := congrArg List.length h
    rw [List.length_drop] at this
    simp at this; omega
  rw [if_pos (by omega)]

theorem records_step {f : List Byte} {p n : Nat} {s s' : Store} {x : Piece} {b rest : List Byte}
    (hc : IsChunk x.id x.data b) (hf : f.drop p = b ++ (x.extra ++ rest))
    (hu : useChunk f s ⟨x.id, x.data⟩ (p + b.length) = .ok (s', p + b.length + x.extra.length)) :
    records f (n + 1) p s = records f n (p + b.length + x.extra.length) s' ∧
      f.drop (p + b.length + x.extra.length) = rest := by
  constructor
  · rw [records, readChunk_at hc hf]
    simp only [hu]
  · exact drop_more (drop_more hf)

/-- What an entry's IMGE chunk becomes. -/
def imageOfEntry (x : Entry) : Image :=
  ⟨number x.image 0, number x.image 4, number x.image 24, number x.image 36, number x.image 40, number x.image 52⟩

theorem records_images {f : List Byte} : ∀ (xs : List Entry) (p n : Nat) (s : Store) (ps : List Piece) (g : List Byte),
    (∀ x ∈ xs, 68 ≤ x.image.length) → f.drop p = g →
    Consists (xs.map (fun x => (⟨imge, x.image, []⟩ : Piece)) ++ ps) g →
    ∃ q, records f (xs.length + n) p s = records f n q { s with images := s.images ++ xs.map imageOfEntry } ∧
      Consists ps (f.drop q)
  | [], p, n, s, ps, g, _, hf, hc => ⟨p, by simp, by rw [hf]; exact hc⟩
  | x :: xs, p, n, s, ps, g, hl, hf, hc => by
    obtain ⟨b, rest, h1, h2, h3⟩ := hc
    have hu : useChunk f s ⟨imge, x.image⟩ (p + b.length) =
        .ok ({ s with images := s.images ++ [imageOfEntry x] }, p + b.length + ([] : List Byte).length) := by
      unfold useChunk
      rw [if_neg (show ¬ imge = idInfo by decide), if_pos (show imge = idImage by decide)]
      unfold imageOf
      rw [if_neg (by have := hl x (by simp); simp only; omega)]
      simp only [be32At_eq]
      rfl
    obtain ⟨r1, r2⟩ := records_step (n := xs.length + n) (x := ⟨imge, x.image, []⟩) h1 (by rw [hf, h3]) hu
    obtain ⟨q, q1, q2⟩ := records_images xs _ n { s with images := s.images ++ [imageOfEntry x] } ps rest
      (fun y hy => hl y (by simp [hy])) r2 h2
    refine ⟨q, ?_, q2⟩
    rw [List.length_cons, show xs.length + 1 + n = xs.length + n + 1 by omega, r1, q1]
    simp

/-- What the descriptor of block `i` becomes. -/
def blockOfEntry (v2 : Bool) (x : Entry) (i : Nat) : Block :=
  ⟨number x.edb (32 * i + 4), if v2 then none else some (number x.edb (32 * i + 8)),
   if v2 then some (number x.edb (32 * i + 8)) else none, number x.edb (32 * i + 20), number x.edb (32 * i + 28)⟩

theorem readBlocks_at {f : List Byte} {v2 : Bool} {x : Entry} {p : Nat} {rest : List Byte} (hf : f.drop p = x.edb ++ rest) :
    ∀ (n i : Nat), 32 * (i + n) ≤ x.edb.length →
      readBlocks f (if v2 then 2 else 1) n (p + 32 * i) = .ok ((List.range' i n).map (blockOfEntry v2 x))
  | 0, _, _ => rfl
  | n + 1, i, h => by
    have hfl := le_of_drop hf
    have e : ∀ o, o + 4 ≤ 32 → be32At f (p + 32 * i + o) = number x.edb (32 * i + o) := by
      intro o ho
      rw [be32At_eq, show p + 32 * i + o = p + (32 * i + o) by omega, ← number_drop, hf, number_left _ _ _ (by omega)]
    have ih := readBlocks_at (v2 := v2) hf n (i + 1) (by omega)
    rw [readBlocks, if_pos (by cases v2 <;> simp), if_neg (by omega),
      show p + 32 * i + 32 = p + 32 * (i + 1) by omega, ih]
    simp only [List.range'_succ, List.map_cons, e 4 (by omega), e 8 (by omega), e 20 (by omega), e 28 (by omega)]
    cases v2 <;> rfl

/-- The extra data of an entry as found in the file. -/
def Found (f : List Byte) (v2 : Bool) (x : Entry) (d : Data) : Prop :=
  (∃ rest, f.drop d.edb = x.edb ++ rest) ∧
    d.blocks = (List.range x.track.blocks.length).map (blockOfEntry v2 x)

theorem same_of_nodup {α β : Type} {g : α → β} : ∀ {l : List α}, (l.map g).Nodup → ∀ {x y : α}, x ∈ l → y ∈ l → g x = g y → x = y
  | [], _, _, _, h, _, _ => by simp at h
  | a :: l, hn, x, y, hx, hy, h => by
    rw [List.map_cons, List.nodup_cons] at hn
    rcases List.mem_cons.1 hx with rfl | hx'
    · rcases List.mem_cons.1 hy with rfl | hy'
      · rfl
      · exact absurd (by rw [h]; exact List.mem_map_of_mem hy') hn.1
    · rcases List.mem_cons.1 hy with rfl | hy'
      · exact absurd (by rw [← h]; exact List.mem_map_of_mem hx') hn.1
      · exact same_of_nodup hn.2 hx' hy' h

theorem imageFor_of (xs : List Entry) (hk : (xs.map fun x => (imageOfEntry x).key).Nodup) (x : Entry) (hx : x ∈ xs) :
    imageFor (xs.map imageOfEntry) (imageOfEntry x).key = some (imageOfEntry x) := by
  unfold imageFor
  have hmem : imageOfEntry x ∈ (xs.map imageOfEntry).reverse := by
    rw [List.mem_reverse]; exact List.mem_map_of_mem hx
  cases hf : (xs.map imageOfEntry).reverse.find? fun m => m.key == (imageOfEntry x).key with
  | none =>
    have := List.find?_eq_none.1 hf _ hmem
    simp at this
  | some m =>
    have h1 := List.find?_some hf
    have h2 := List.mem_of_find?_eq_some hf
    rw [List.mem_reverse, List.mem_map] at h2
    obtain ⟨y, hy, rfl⟩ := h2
    have h1 : (imageOfEntry y).key = (imageOfEntry x).key := by simpa using h1
    rw [same_of_nodup hk hy hx h1]

theorem dataChunk_ok {f b : List Byte} {s : Store} {p n key : Nat} {m : Image} {bs : List Block} (hb : 16 ≤ b.length)
    (hk : be32At b 12 = key) (hn : be32At b 0 = n) (hm : imageFor s.images key = some m)
    (hbs : readBlocks f s.enc m.blockCount p = .ok bs) (hp : p + n ≤ f.length) :
    dataChunk f s b p = .ok ({ s with datas := s.datas ++ [⟨p, bs⟩] }, p + n) := by
  unfold dataChunk
  rw [if_neg (Nat.not_lt.2 hb), hk, hm, hn]
  dsimp only
  rw [hbs]
  dsimp only
  rw [if_neg (Nat.not_lt.2 hp)]

theorem useChunk_data {f : List Byte} {room : Nat} {v2 : Bool} {x : Entry} {p : Nat} {s : Store} {rest : List Byte}
    (he : s.enc = (if v2 then 2 else 1)) (sx : x.Says room v2)
    (ix : imageFor s.images (imageOfEntry x).key = some (imageOfEntry x)) (hedb : f.drop p = x.edb ++ rest) (hp : p ≤ f.length) :
    useChunk f s ⟨IpfFile.data, x.record⟩ p =
      .ok ({ s with datas := s.datas ++ [⟨p, (List.range x.track.blocks.length).map (blockOfEntry v2 x)⟩] },
        p + x.edb.length) := by
  have hlen2 := le_of_drop hedb
  have hkey : number x.record 12 = (imageOfEntry x).key := sx.recordKey.trans sx.imageKey.symm
  have hb := readBlocks_at (v2 := v2) hedb x.track.blocks.length 0 (by have := sx.table; omega)
  rw [Nat.mul_zero, Nat.add_zero] at hb
  have hcnt : (imageOfEntry x).blockCount = x.track.blocks.length := sx.count
  have hl := sx.record
  rw [← he] at hb
  rw [← hcnt] at hb
  have hd := dataChunk_ok (f := f) (b := x.record) (s := s) (p := p) hl ((be32At_eq _ _).trans hkey)
    ((be32At_eq _ _).trans sx.length) ix hb (by omega)
  rw [hcnt, ← List.range_eq_range'] at hd
  unfold useChunk
  rw [if_neg (show ¬ IpfFile.data = idInfo by decide), if_neg (show ¬ IpfFile.data = idImage by decide),
    if_pos (show IpfFile.data = idData by decide)]
  exact hd

theorem records_datas {f : List Byte} {room : Nat} {v2 : Bool} (xs : List Entry) : ∀ (p n : Nat) (s : Store),
    s.enc = (if v2 then 2 else 1) →
    (∀ x ∈ xs, x.Says room v2 ∧ imageFor s.images (imageOfEntry x).key = some (imageOfEntry x)) →
    Consists (xs.map fun x => (⟨IpfFile.data, x.record, x.edb⟩ : Piece)) (f.drop p) →
    ∃ ds : List Data, records f (xs.length + n) p s = .ok { s with datas := s.datas ++ ds } ∧ ds.length = xs.length ∧
      ∀ (i : Nat) x, xs[i]? = some x → ∃ d, ds[i]? = some d ∧ Found f v2 x d := by
  induction xs with
  | nil =>
    intro p n s _ _ hc
    refine ⟨[], ?_, rfl, fun i x h => by simp at h⟩
    have : f.drop p = [] := hc
    cases n with
    | zero => simp [records]
    | succ n =>
      rw [List.length_nil, Nat.zero_add, records, readChunk_end this]
      simp
  | cons x xs ih =>
    intro p n s he hx hc
    obtain ⟨b, rest, h1, h2, h3⟩ := hc
    replace h3 : f.drop p = b ++ (x.edb ++ rest) := h3
    obtain ⟨sx, ix⟩ := hx x (by simp)
    have hedb : f.drop (p + b.length) = x.edb ++ rest := drop_more h3
    have hbl : b.length = 12 + x.record.length := isChunk_length h1
    have hfl : f.length = p + (b ++ (x.edb ++ rest)).length :=
      length_of_drop h3 (by intro h0; rw [List.append_eq_nil_iff] at h0; rw [h0.1, List.length_nil] at hbl; omega)
    rw [List.length_append, List.length_append] at hfl
    have hu := useChunk_data he sx ix hedb (by omega)
    obtain ⟨r1, r2⟩ := records_step (n := xs.length + n) (x := ⟨IpfFile.data, x.record, x.edb⟩) h1 h3 hu
    replace r2 : f.drop (p + b.length + x.edb.length) = rest := r2
    generalize hdd : (⟨p + b.length, (List.range x.track.blocks.length).map (blockOfEntry v2 x)⟩ : Data) = dd at r1
    obtain ⟨ds, d1, d2, d3⟩ := ih (p + b.length + x.edb.length) n { s with datas := s.datas ++ [dd] }
      he (fun y hy => hx y (by simp [hy])) (by rw [r2]; exact h2)
    refine ⟨dd :: ds, ?_, by rw [List.length_cons, List.length_cons, d2], ?_⟩
    · have e : (x :: xs).length + n = xs.length + n + 1 := by rw [List.length_cons]; omega
      rw [e, r1]
      refine d1.trans ?_
      simp
    · intro i y hy
      cases i with
      | zero =>
        have : x = y := by simpa using hy
        subst this
        exact ⟨dd, rfl, by rw [← hdd]; exact ⟨⟨rest, hedb⟩, rfl⟩⟩
      | succ i =>
        rw [List.getElem?_cons_succ] at hy ⊢
        exact d3 i y hy

theorem consists_length : ∀ (ps : List Piece) (f : List Byte), Consists ps f → 12 * ps.length ≤ f.length
  | [], _, _ => by simp
  | p :: ps, f, ⟨b, rest, h1, h2, h3⟩ => by
    have := consists_length ps rest h2
    have := isChunk_length h1
    rw [h3, List.length_append, List.length_append, List.length_cons]
    omega

/-- What the chunks of a file lead to. -/
theorem records_file {f inf : List Byte} {room : Nat} {v2 : Bool} {images datas : List Entry}
    (h : IsFile room v2 images datas inf f) (hd : ∀ x ∈ datas, x ∈ images) :
    ∃ (c : Chunk) (p : Nat) (ds : List Data), readChunk f 0 = .ok (c, p) ∧ c.id = idCaps ∧
      records f f.length p {} = .ok
        { enc := if v2 then 2 else 1, images := images.map imageOfEntry, datas := ds,
          info := some ⟨if v2 then 2 else 1, number inf 28, number inf 36⟩ } ∧
      ds.length = datas.length ∧ ∀ (i : Nat) x, datas[i]? = some x → ∃ d, ds[i]? = some d ∧ Found f v2 x d := by
  obtain ⟨c, hc⟩ := h.chunks
  have hcl := consists_length _ _ hc
  rw [List.length_cons, List.length_cons, List.length_append, List.length_map, List.length_map] at hcl
  obtain ⟨b, rest, h1, h2, h3⟩ := hc
  have hr := readChunk_at (f := f) (p := 0) h1 (by rw [List.drop_zero]; exact h3)
  have hdrop : f.drop (0 + b.length) = rest := by
    have := drop_more (f := f) (p := 0) (by rw [List.drop_zero]; exact h3)
    simpa using this
  obtain ⟨b2, rest2, h4, h5, h6⟩ := h2
  have hu : useChunk f {} ⟨info, inf⟩ (0 + b.length + b2.length) =
      .ok ({ enc := if v2 then 2 else 1, info := some ⟨if v2 then 2 else 1, number inf 28, number inf 36⟩ },
        0 + b.length + b2.length + ([] : List Byte).length) := by
    unfold useChunk
    rw [if_pos (show info = idInfo by decide)]
    unfold infoOf
    rw [if_neg (by have := h.infoLength; simp only; omega)]
    simp only [be32At_eq, h.version]
    rfl
  obtain ⟨r1, r2⟩ := records_step (n := images.length + (datas.length + (f.length - (1 + images.length + datas.length))))
    (x := ⟨info, inf, []⟩) h4 (by rw [hdrop, h6]) hu
  obtain ⟨q, q1, q2⟩ := records_images (f := f) images _ (datas.length + (f.length - (1 + images.length + datas.length)))
    { enc := if v2 then 2 else 1, info := some ⟨if v2 then 2 else 1, number inf 28, number inf 36⟩ } _ _
    (fun x hx => (h.says x hx).image) r2 h5
  have hk : (images.map fun x => (imageOfEntry x).key).Nodup := by
    have : images.map (fun x => (imageOfEntry x).key) = images.map Entry.key := by
      apply List.map_congr_left
      intro x hx
      exact (h.says x hx).imageKey
    rw [this]; exact h.keys
  obtain ⟨ds, d1, d2, d3⟩ := records_datas (f := f) (room := room) (v2 := v2) datas q
    (f.length - (1 + images.length + datas.length))
    { enc := if v2 then 2 else 1, images := images.map imageOfEntry,
      info := some ⟨if v2 then 2 else 1, number inf 28, number inf 36⟩ } rfl
    (fun x hx => ⟨h.says x (hd x hx), imageFor_of images hk x (hd x hx)⟩) q2
  refine ⟨_, _, ds, hr, rfl, ?_, d2, d3⟩
  have e : f.length = images.length + (datas.length + (f.length - (1 + images.length + datas.length))) + 1 := by omega
  conv => lhs; rw [e]
  simp only [List.length_nil, Nat.add_zero] at r1 q1 ⊢
  rw [r1, q1]
  simpa using d1

end Ipf
end Fox
