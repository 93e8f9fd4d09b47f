import Verif.Proofs.IpfLoad
/-
The IPF loader does not panic.
-/
namespace Fox
namespace Ipf
open Spec IpfFile

attribute [local irreducible] number be32At

theorem value_lt : ∀ b : List Byte, value b < 256 ^ b.length
  | [] => by simp [value]
  | x :: b => by
    have := value_lt b
    have := x.isLt
    rw [value, List.length_cons, Nat.pow_succ]
    calc x.toNat * 256 ^ b.length + value b < x.toNat * 256 ^ b.length + 256 ^ b.length := by omega
      _ = (x.toNat + 1) * 256 ^ b.length := by rw [Nat.add_mul, Nat.one_mul]
      _ ≤ 256 * 256 ^ b.length := Nat.mul_le_mul_right _ (by omega)
      _ = 256 ^ b.length * 256 := Nat.mul_comm _ _

theorem size_lt (f : List Byte) (p q : Nat) : sizeOf ((f.drop q).take (u8At f p / 32)) < 2 ^ 56 := by
  rw [sizeOf_eq]
  refine Nat.lt_of_lt_of_le (value_lt _) ?_
  have h1 : ((f.drop q).take (u8At f p / 32)).length ≤ 7 := by
    have : u8At f p < 256 := by unfold u8At; exact BitVec.isLt _
    rw [List.length_take]; omega
  calc 256 ^ ((f.drop q).take (u8At f p / 32)).length ≤ 256 ^ 7 := Nat.pow_le_pow_right (by omega) h1
    _ = 2 ^ 56 := by norm_num

theorem readElement_safe {room : Nat} (hr : 2 ^ 61 ≤ room) (f : List Byte) (bits : Bool) (p : Nat) :
    readElement room f bits p ≠ .error .panic ∧
      ∀ e q, readElement room f bits p = .ok (e, q) → p < f.length ∧ p < q := by
  have hs := size_lt f p (p + 1)
  unfold readElement
  by_cases h1 : f.length ≤ p
  · rw [if_pos h1]
    exact ⟨by simp, fun e q h => by cases h⟩
  · rw [if_neg h1]
    simp only
    generalize sizeOf ((f.drop (p + 1)).take (u8At f p / 32)) = n at hs
    generalize u8At f p / 32 = w
    by_cases h2 : f.length < p + 1 + w
    · rw [if_pos h2]
      exact ⟨by simp, fun e q h => by cases h⟩
    · rw [if_neg h2]
      by_cases h3 : u8At f p % 8 = 5
      · rw [if_pos h3]
        exact ⟨by simp, fun e q h => by cases h; omega⟩
      · rw [if_neg h3]
        have h4 : (if bits then (n + 7) / 8 else n) < 2 ^ 60 := by
          split <;> omega
        generalize (if bits then (n + 7) / 8 else n) = m at h4
        rw [if_neg (by omega)]
        by_cases h5 : f.length < p + 1 + w + m
        · rw [if_pos h5]
          exact ⟨by simp, fun e q h => by cases h⟩
        · rw [if_neg h5]
          exact ⟨by simp, fun e q h => by cases h; omega⟩

/-- Nothing of a codec changes but the cells, and not their number. -/
def SameSize (s s' : Mfm) : Prop := s'.len = s.len ∧ s'.clockMap = s.clockMap

theorem writeRaw_safe {s : Mfm} (h0 : s.len ≠ 0) (b : List Byte) (c : Nat) : ∃ s', writeRaw s b c = .ok s' ∧ SameSize s s' := by
  unfold writeRaw
  rw [if_neg (fun h => h0 h.1)]
  exact ⟨_, rfl, setMany_len' _ _ _, rfl⟩

theorem writeEncoded_safe {s : Mfm} (h0 : s.len ≠ 0) (b : List Byte) (c : Nat) :
    ∃ s', writeEncoded s b c = .ok s' ∧ SameSize s s' := by
  unfold writeEncoded
  rw [if_neg (fun h => h0 h.1)]
  exact ⟨_, rfl, setMany_len' _ _ _, rfl⟩

theorem SameSize.ne {s s' : Mfm} (h : SameSize s s') (h0 : s.len ≠ 0) : s'.len ≠ 0 := by rw [h.1]; exact h0

theorem SameSize.trans {a b c : Mfm} (h : SameSize a b) (h' : SameSize b c) : SameSize a c :=
  ⟨h'.1.trans h.1, h'.2.trans h.2⟩

/-- Elements change only cells. -/
theorem elements_safe {room : Nat} (hr : 2 ^ 61 ≤ room) (f : List Byte) (bits : Bool) :
    ∀ (n : Nat) (first : Bool) (p : Nat) (s : Mfm) (cur : Nat), f.length < n + p → 0 < n → s.len ≠ 0 →
      elements room f bits n first p s cur ≠ .error .panic ∧
      ∀ s' c', elements room f bits n first p s cur = .ok (s', c') → SameSize s s'
  | 0, first, p, s, cur, h, hn, h0 => absurd hn (Nat.lt_irrefl _)
  | n + 1, first, p, s, cur, h, hn, h0 => by
    obtain ⟨r1, r2⟩ := readElement_safe hr f first p
    rw [elements]
    cases hre : readElement room f first p with
    | error e =>
      rw [hre] at r1
      exact ⟨fun h => r1 (by injection h with h; rw [h]), fun s' c' h => by cases h⟩
    | ok eq =>
      obtain ⟨e, q⟩ := eq
      obtain ⟨hp, hq⟩ := r2 e q hre
      obtain ⟨k, w, d⟩ := e
      have done : (Except.ok (s, cur) : Except Err (Mfm × Nat)) ≠ .error .panic ∧
          ∀ s' c', (Except.ok (s, cur) : Except Err (Mfm × Nat)) = .ok (s', c') → SameSize s s' :=
        ⟨by simp, fun s' c' h => by cases h; exact ⟨rfl, rfl⟩⟩
      have more : ∀ s1 c1, SameSize s s1 → elements room f bits n bits q s1 c1 ≠ .error .panic ∧
          ∀ s' c', elements room f bits n bits q s1 c1 = .ok (s', c') → SameSize s s' := fun s1 c1 h1 => by
        obtain ⟨a, b⟩ := elements_safe hr f bits n bits q s1 c1 (by omega) (by omega) (h1.ne h0)
        exact ⟨a, fun s' c' h => h1.trans (b s' c' h)⟩
      simp only
      by_cases k0 : k = 0 ∧ w = 0
      · rw [if_pos k0]; exact done
      rw [if_neg k0]
      cases d with
      | none => exact ⟨by simp, fun s' c' h => by cases h⟩
      | some d =>
        simp only
        by_cases k1 : k = 0
        · rw [if_pos k1]; exact done
        rw [if_neg k1]
        by_cases k2 : k = 1
        · rw [if_pos k2]
          obtain ⟨s1, e1, e2⟩ := writeRaw_safe h0 d cur
          rw [e1]
          exact more _ _ e2
        rw [if_neg k2]
        by_cases k3 : k = 2 ∨ k = 3
        · rw [if_pos k3]
          obtain ⟨s1, e1, e2⟩ := writeEncoded_safe h0 d cur
          rw [e1]
          exact more _ _ e2
        · rw [if_neg k3]
          exact more _ _ ⟨rfl, rfl⟩

theorem gapElements_safe {room : Nat} (hr : 2 ^ 61 ≤ room) (f : List Byte) :
    ∀ (n p : Nat) (rep : Option Nat), f.length < n + p → 0 < n → gapElements room f n p rep ≠ .error .panic
  | 0, p, rep, h, hn => absurd hn (Nat.lt_irrefl _)
  | n + 1, p, rep, h, hn => by
    have hs := size_lt f p (p + 1)
    rw [gapElements]
    simp only
    generalize sizeOf ((f.drop (p + 1)).take (u8At f p / 32)) = m at hs
    generalize u8At f p / 32 = w
    by_cases h1 : f.length ≤ p
    · rw [if_pos h1]; simp
    rw [if_neg h1]
    by_cases h2 : f.length < p + 1 + w
    · rw [if_pos h2]; simp
    rw [if_neg h2]
    by_cases h3 : u8At f p % 4 = 1
    · rw [if_pos h3]
      exact gapElements_safe hr f n _ _ (by omega) (by omega)
    rw [if_neg h3]
    by_cases h4 : u8At f p % 4 = 2
    · rw [if_pos h4, if_neg (by omega)]
      by_cases h5 : f.length < p + 1 + w + (m + 7) / 8
      · rw [if_pos h5]; simp
      rw [if_neg h5]
      have : m * rep.getD 1 % 2 ^ 64 < 2 ^ 64 := Nat.mod_lt _ (by omega)
      rw [if_neg (by omega)]
      exact gapElements_safe hr f n _ _ (by omega) (by omega)
    · rw [if_neg h4]; simp

theorem gaps_safe {room : Nat} (hr : 2 ^ 61 ≤ room) (f : List Byte) (flags p : Nat) : gaps room f flags p ≠ .error .panic := by
  have one : ∀ (b : Prop) [Decidable b] (q : Nat),
      (if b then gapElements room f (f.length + 1) q none else .ok q) ≠ (.error .panic : Except Err Nat) := by
    intro b _ q
    split
    · exact gapElements_safe hr f _ _ _ (by omega) (by omega)
    · simp
  unfold gaps
  have h1 := one (flags % 2 = 1) p
  cases e1 : (if flags % 2 = 1 then gapElements room f (f.length + 1) p none else .ok p : Except Err Nat) with
  | error e => rw [e1] at h1; exact fun h => h1 (by injection h with h; rw [h])
  | ok q =>
    simp only
    have h2 := one (flags / 2 % 2 = 1) q
    cases e2 : (if flags / 2 % 2 = 1 then gapElements room f (f.length + 1) q none else .ok q : Except Err Nat) with
    | error e => rw [e2] at h2; exact fun h => h2 (by injection h with h; rw [h])
    | ok q => simp

theorem block_safe {room : Nat} (hr : 2 ^ 61 ≤ room) (f : List Byte) (v2 : Bool) (e : Nat) (b : Block) (s : Mfm) (cur : Nat)
    (h0 : s.len ≠ 0) : (if v2 then blockV2 room f e else blockV1 room f e) b s cur ≠ .error .panic ∧
      ∀ s' c', (if v2 then blockV2 room f e else blockV1 room f e) b s cur = .ok (s', c') → SameSize s s' := by
  cases v2 with
  | false =>
    rw [if_neg (by simp)]
    unfold blockV1
    cases b.dataBytes with
    | none => exact ⟨by simp, fun s' c' h => by cases h⟩
    | some _ => exact elements_safe hr f _ _ _ _ _ _ (by omega) (by omega) h0
  | true =>
    rw [if_pos rfl]
    unfold blockV2
    cases b.gapOffset with
    | none => exact ⟨by simp, fun s' c' h => by cases h⟩
    | some g =>
      simp only
      have hg : (if 0 < b.gapBits then gaps room f b.flags (e + g) else .ok ()) ≠ (.error .panic : Except Err Unit) := by
        split
        · exact gaps_safe hr f _ _
        · simp
      cases hge : (if 0 < b.gapBits then gaps room f b.flags (e + g) else .ok () : Except Err Unit) with
      | error x => rw [hge] at hg; exact ⟨fun h => hg (by injection h with h; rw [h]), fun s' c' h => by cases h⟩
      | ok u =>
        simp only
        obtain ⟨a1, a2⟩ := elements_safe hr f (b.flags / 4 % 2 == 1) (f.length + 1) false (e + b.dataOffset) s cur (by omega)
          (by omega) h0
        cases hel : elements room f (b.flags / 4 % 2 == 1) (f.length + 1) false (e + b.dataOffset) s cur with
        | error x => rw [hel] at a1; exact ⟨fun h => a1 (by injection h with h; rw [h]), fun s' c' h => by cases h⟩
        | ok r =>
          obtain ⟨s1, c1⟩ := r
          exact ⟨by simp, fun s' c' h => by cases h; exact a2 _ _ hel⟩

theorem blocks_safe {room : Nat} (hr : 2 ^ 61 ≤ room) (f : List Byte) (v2 : Bool) (e : Nat) :
    ∀ (bs : List Block) (s : Mfm) (cur : Nat), s.len ≠ 0 →
      blocks (if v2 then blockV2 room f e else blockV1 room f e) bs s cur ≠ .error .panic ∧
      ∀ s', blocks (if v2 then blockV2 room f e else blockV1 room f e) bs s cur = .ok s' → SameSize s s'
  | [], s, cur, h0 => ⟨by simp [blocks], fun s' h => by rw [blocks] at h; cases h; exact ⟨rfl, rfl⟩⟩
  | b :: bs, s, cur, h0 => by
    obtain ⟨a1, a2⟩ := block_safe hr f v2 e b s cur h0
    rw [blocks]
    cases hb : (if v2 then blockV2 room f e else blockV1 room f e) b s cur with
    | error x => rw [hb] at a1; exact ⟨fun h => a1 (by injection h with h; rw [h]), fun s' h => by cases h⟩
    | ok r =>
      obtain ⟨s1, c1⟩ := r
      have hs := a2 _ _ hb
      obtain ⟨b1, b2⟩ := blocks_safe hr f v2 e bs s1 c1 (hs.ne h0)
      exact ⟨b1, fun s' h => hs.trans (b2 s' h)⟩

/-- What adding an empty track does. -/
theorem addEmpty_cases (d : Disk) (ch : Ch) (n : Nat) :
    (∃ d' e, (d.setResolution .bitStream).addEmpty ch .mfm (some .bitStream) n (some true) = (d', .error e) ∧ e ≠ .panic) ∨
    ∃ s, Mfm.new ((List.range n).map fun i => i % 2 == (true : Bool).toNat) none none = .ok s ∧
      (d.setResolution .bitStream).addEmpty ch .mfm (some .bitStream) n (some true) =
      (withTrack (d.setResolution .bitStream) ch.h (.bit ch { data := s, schema := some .system34 }), .ok d.pool.length) := by
  obtain ⟨s, n1, _⟩ := empty_new n
  unfold Disk.addEmpty
  by_cases hh : ch.h ≥ 2
  · rw [if_pos hh]
    exact .inl ⟨_, _, rfl, by simp⟩
  rw [if_neg hh]
  have hrej : (d.setResolution .bitStream).rejects .bitStream = false := by
    simp [Disk.rejects, Disk.setResolution, ResSet.insert, ResSet.has, ResSet.isEmpty]
  simp only [hrej, Bool.false_eq_true, if_false]
  have hmin : ({ d.setResolution .bitStream with res := (d.setResolution .bitStream).res.insert .bitStream } : Disk).res.min =
      some .bitStream := by
    simp [Disk.setResolution, ResSet.insert, ResSet.min]
  rw [hmin]
  simp only
  by_cases hm : (({ d.setResolution .bitStream with res := (d.setResolution .bitStream).res.insert .bitStream } : Disk).headMap
      ch.h).length = ch.c
  · right
    refine ⟨s, n1, ?_⟩
    simp only [hm, ne_eq, not_true_eq_false, if_false]
    unfold Disk.emptyBit
    simp only [n1]
    rfl
  · left
    rw [if_pos hm]
    exact ⟨_, _, rfl, by simp⟩

theorem decodeTrack_safe {room : Nat} (hr : 2 ^ 61 ≤ room) (rnd : Nat → Bool) (f : List Byte) (v2 : Bool) (m : Image) (x : Data)
    (d : Disk) (h0 : m.trackBits ≠ 0) : decodeTrack room rnd f v2 m x d ≠ .error .panic := by
  unfold decodeTrack
  rcases addEmpty_cases d m.ch m.trackBits with ⟨d', e, h, he⟩ | ⟨s, hs, h⟩
  · rw [h]
    exact fun h => he (by injection h)
  · rw [h]
    simp only
    have hget : (withTrack (d.setResolution .bitStream) m.ch.h (.bit m.ch { data := s, schema := some .system34 })).pool[d.pool.length]? =
        some (.bit m.ch { data := s, schema := some .system34 }) := by
      rw [withTrack_pool]
      show (d.pool ++ [_])[d.pool.length]? = _
      simp
    rw [hget]
    simp only
    obtain ⟨s', n1, n2, n3, n4, n5, _⟩ := empty_new m.trackBits
    rw [hs] at n1
    cases n1
    have hlen : s.len = m.trackBits := by
      show s.bits.bits.length = _
      rw [n3]; simp
    obtain ⟨b1, b2⟩ := blocks_safe hr f v2 x.edb x.blocks s (m.startBit / 16 * 16) (by rw [hlen]; exact h0)
    cases hb : blocks (if v2 then blockV2 room f x.edb else blockV1 room f x.edb) x.blocks s (m.startBit / 16 * 16) with
    | error e => rw [hb] at b1; exact fun h => b1 (by injection h with h; rw [h])
    | ok s1 =>
      obtain ⟨c1, c2⟩ := b2 s1 hb
      obtain ⟨t', ids, t1, _⟩ := rescan_bits rnd ({ data := s1, schema := some .system34 } : Fox.Track)
        (by show s1.clockMap.bits.length = s1.len; rw [c2, n5, c1])
      simp only
      rw [t1]
      simp

theorem tracks_safe {room : Nat} (hr : 2 ^ 61 ≤ room) (rnd : Nat → Bool) (f : List Byte) (st : Store) (i : Info)
    (h1 : st.images.length ≤ st.datas.length) (h2 : ∀ m ∈ st.images, m.trackBits ≠ 0) :
    ∀ (ks : List Nat) (d : Disk), (∀ k ∈ ks, k < st.images.length) → tracks room rnd f st i ks d ≠ .error .panic
  | [], d, _ => by simp [tracks]
  | k :: ks, d, hk => by
    have hk0 := hk k (by simp)
    rw [tracks, List.getElem?_eq_getElem hk0, List.getElem?_eq_getElem (by omega : k < st.datas.length)]
    simp only
    split
    · have a := decodeTrack_safe hr rnd f (i.encoder == 2) st.images[k] (st.datas[k]'(by omega)) d (h2 _ (List.getElem_mem hk0))
      cases hd : decodeTrack room rnd f (i.encoder == 2) st.images[k] (st.datas[k]'(by omega)) d with
      | error e => rw [hd] at a; exact fun h => a (by injection h with h; rw [h])
      | ok r =>
        obtain ⟨d', ids⟩ := r
        simp only
        have b := tracks_safe hr rnd f st i h1 h2 ks d' (fun k h => hk k (by simp [h]))
        cases ht : tracks room rnd f st i ks d' with
        | error e => rw [ht] at b; exact fun h => b (by injection h with h; rw [h])
        | ok r => obtain ⟨d'', l⟩ := r; simp
    · simp

theorem readChunk_safe (f : List Byte) (p : Nat) : readChunk f p ≠ .error .panic := by
  unfold readChunk
  generalize be32At f (p + 4) = n
  generalize be32At f (p + 8) = c
  split
  · simp
  split
  · simp
  split
  · simp
  simp only
  split <;> simp

theorem readBlocks_safe (f : List Byte) (enc : Nat) : ∀ n p, readBlocks f enc n p ≠ .error .panic
  | 0, p => by simp [readBlocks]
  | n + 1, p => by
    rw [readBlocks]
    have h1 := readBlocks_safe f enc n (p + 32)
    have h2 := readBlocks_safe f enc n (p + 24)
    split
    · split
      · simp
      · cases h : readBlocks f enc n (p + 32) with
        | error e => rw [h] at h1; exact fun h => h1 (by injection h with h; rw [h])
        | ok bs => simp
    · split
      · simp
      · cases h : readBlocks f enc n (p + 24) with
        | error e => rw [h] at h2; exact fun h => h2 (by injection h with h; rw [h])
        | ok bs => simp

/-- What a chunk adds to the records. -/
structure Adds (f : List Byte) (s : Store) (x : Chunk) (q : Nat) (s' : Store) (q' : Nat) : Prop where
  images : s'.images = s.images ++ if x.id = IpfFile.imge then [⟨be32At x.data 0, be32At x.data 4, be32At x.data 24,
    be32At x.data 36, be32At x.data 40, be32At x.data 52⟩] else []
  datas : s'.datas.length = s.datas.length + if x.id = IpfFile.data then 1 else 0
  next : q' = q + if x.id = IpfFile.data then be32At x.data 0 else 0
  inside : q ≤ f.length → q' ≤ f.length

theorem dataChunk_inv {f b : List Byte} {s s' : Store} {p q : Nat} (h : dataChunk f s b p = .ok (s', q)) :
    s'.images = s.images ∧ s'.datas.length = s.datas.length + 1 ∧ q = p + be32At b 0 ∧ q ≤ f.length := by
  unfold dataChunk at h
  generalize be32At b 0 = n at h ⊢
  generalize be32At b 12 = k at h
  split at h
  · cases h
  cases hm : imageFor s.images k with
  | none => rw [hm] at h; cases h
  | some m =>
    rw [hm] at h
    simp only at h
    cases hb : readBlocks f s.enc m.blockCount p with
    | error e => rw [hb] at h; cases h
    | ok bs =>
      rw [hb] at h
      simp only at h
      split at h
      · cases h
      · injection h with h
        injection h with h1 h2
        subst h1
        exact ⟨rfl, by simp, h2.symm, by omega⟩

theorem dataChunk_safe (f b : List Byte) (s : Store) (p : Nat) : dataChunk f s b p ≠ .error .panic := by
  unfold dataChunk
  generalize be32At b 0 = n
  generalize be32At b 12 = k
  split
  · simp
  cases imageFor s.images k with
  | none => simp
  | some m =>
    simp only
    have h1 := readBlocks_safe f s.enc m.blockCount p
    cases hb : readBlocks f s.enc m.blockCount p with
    | error e => rw [hb] at h1; exact fun h => h1 (by injection h with h; rw [h])
    | ok bs =>
      simp only
      split <;> simp

theorem useChunk_inv {f : List Byte} {s s' : Store} {x : Chunk} {q q' : Nat} (h : useChunk f s x q = .ok (s', q')) :
    Adds f s x q s' q' := by
  unfold useChunk at h
  by_cases h1 : x.id = idInfo
  · rw [if_pos h1] at h
    have n1 : ¬ x.id = IpfFile.imge := by rw [h1]; decide
    have n2 : ¬ x.id = IpfFile.data := by rw [h1]; decide
    cases hi : infoOf x.data with
    | error e => rw [hi] at h; cases h
    | ok i =>
      rw [hi] at h
      injection h with h
      injection h with e1 e2
      subst e1; subst e2
      exact ⟨by rw [if_neg n1, List.append_nil], by rw [if_neg n2]; rfl, by rw [if_neg n2]; rfl, fun h => h⟩
  rw [if_neg h1] at h
  by_cases h2 : x.id = idImage
  · rw [if_pos h2] at h
    have n1 : x.id = IpfFile.imge := h2
    have n2 : ¬ x.id = IpfFile.data := by rw [h2]; decide
    unfold imageOf at h
    split at h
    · rename_i h3; split at h3
      · cases h
      · cases h3
    · rename_i m h3
      split at h3
      · cases h3
      · injection h3 with h3
        injection h with h
        injection h with e1 e2
        subst e1; subst e2
        exact ⟨by rw [if_pos n1, h3], by rw [if_neg n2]; rfl, by rw [if_neg n2]; rfl, fun h => h⟩
  rw [if_neg h2] at h
  have n1 : ¬ x.id = IpfFile.imge := h2
  by_cases h3 : x.id = idData
  · rw [if_pos h3] at h
    have n2 : x.id = IpfFile.data := h3
    obtain ⟨a, b, c, d⟩ := dataChunk_inv h
    exact ⟨by rw [if_neg n1, List.append_nil]; exact a, by rw [if_pos n2]; exact b, by rw [if_pos n2]; exact c, fun _ => d⟩
  · rw [if_neg h3] at h
    have n2 : ¬ x.id = IpfFile.data := h3
    injection h with h
    injection h with e1 e2
    subst e1; subst e2
    exact ⟨by rw [if_neg n1, List.append_nil], by rw [if_neg n2]; rfl, by rw [if_neg n2]; rfl, fun h => h⟩

theorem useChunk_safe (f : List Byte) (s : Store) (x : Chunk) (q : Nat) : useChunk f s x q ≠ .error .panic := by
  unfold useChunk
  split
  · unfold infoOf
    split
    · rename_i h; split at h
      · injection h with h; rw [← h]; simp
      · cases h
    · simp
  split
  · unfold imageOf
    split
    · rename_i h; split at h
      · injection h with h; rw [← h]; simp
      · cases h
    · simp
  split
  · exact dataChunk_safe _ _ _ _
  · simp

/-- The chunks that are read. -/
theorem records_reads (f : List Byte) : ∀ (n p : Nat) (s st : Store), f.length ≤ p + n → p ≤ f.length → records f n p s = .ok st →
    ∃ ps : List Piece, Reads ps (f.drop p) ∧ st.images = s.images ++ (ps.filter fun x => x.id = IpfFile.imge).map (fun x =>
        ⟨be32At x.data 0, be32At x.data 4, be32At x.data 24, be32At x.data 36, be32At x.data 40, be32At x.data 52⟩) ∧
      st.datas.length = s.datas.length + (ps.filter fun x => x.id = IpfFile.data).length
  | 0, p, s, st, hn, hp, h => by
    rw [records] at h
    cases h
    refine ⟨[], ?_, by simp, rfl⟩
    rintro ⟨id, data, b, rest, hc, hb⟩
    have := isChunkLax_length hc
    have h2 := congrArg List.length hb
    rw [List.length_drop, List.length_append] at h2
    omega
  | n + 1, p, s, st, hn, hp, h => by
    rw [records] at h
    cases hr : readChunk f p with
    | error e =>
      rw [hr] at h
      cases h
      refine ⟨[], ?_, by simp, rfl⟩
      rintro ⟨id, data, b, rest, hc, hb⟩
      rw [readChunk_lax hc hb] at hr
      cases hr
    | ok r =>
      obtain ⟨ck, q⟩ := r
      rw [hr] at h
      simp only at h
      obtain ⟨b, rest, c1, c2, c3⟩ := readChunk_inv hr
      have hbl := isChunkLax_length c1
      have hfl : f.length - p = b.length + rest.length := by
        have := congrArg List.length c2
        rwa [List.length_drop, List.length_append] at this
      cases hu : useChunk f s ck q with
      | error e => rw [hu] at h; cases h
      | ok r =>
        obtain ⟨s1, q1⟩ := r
        rw [hu] at h
        simp only at h
        obtain ⟨a1, a2, a3, a4⟩ := useChunk_inv hu
        have hq1 := a4 (by omega)
        have hq : q ≤ q1 := by rw [a3]; exact Nat.le_add_right _ _
        obtain ⟨ps, i1, i2, i3⟩ := records_reads f n q1 s1 st (by omega) hq1 h
        have hq0 : f.drop q = rest := by rw [c3]; exact drop_more c2
        refine ⟨⟨ck.id, ck.data, rest.take (q1 - q)⟩ :: ps, ⟨b, rest.drop (q1 - q), c1, ?_, ?_, ?_⟩, ?_, ?_⟩
        · rw [List.length_take]
          have : rest.length = f.length - q := by rw [← hq0, List.length_drop]
          rw [Nat.min_eq_left (by omega), a3, Nat.add_sub_cancel_left]
          simp only [be32At_eq]
        · rw [← hq0, List.drop_drop, Nat.add_sub_cancel' hq]; exact i1
        · rw [List.take_append_drop]; exact c2
        · rw [i2, a1, List.append_assoc]
          congr 1
          by_cases e : ck.id = IpfFile.imge
          · rw [if_pos e, List.filter_cons_of_pos (p := fun x : Piece => decide (x.id = IpfFile.imge)) (by simpa using e)]
            rfl
          · rw [if_neg e, List.filter_cons_of_neg (p := fun x : Piece => decide (x.id = IpfFile.imge)) (by simpa using e)]
            rfl
        · rw [i3, a2]
          by_cases e : ck.id = IpfFile.data
          · rw [if_pos e, List.filter_cons_of_pos (p := fun x : Piece => decide (x.id = IpfFile.data)) (by simpa using e),
              List.length_cons]
            omega
          · rw [if_neg e, List.filter_cons_of_neg (p := fun x : Piece => decide (x.id = IpfFile.data)) (by simpa using e)]
            rfl

theorem records_safe (f : List Byte) : ∀ (n p : Nat) (s : Store), records f n p s ≠ .error .panic
  | 0, p, s => by simp [records]
  | n + 1, p, s => by
    rw [records]
    cases hr : readChunk f p with
    | error e => simp
    | ok r =>
      obtain ⟨ck, q⟩ := r
      simp only
      have h1 := useChunk_safe f s ck q
      cases hu : useChunk f s ck q with
      | error e => rw [hu] at h1; exact fun h => h1 (by injection h with h; rw [h])
      | ok r =>
        obtain ⟨s1, q1⟩ := r
        exact records_safe f n q1 s1

/-- A file all of whose IMGE chunks have cells and are no more than the DATA chunks. -/
theorem load_safe {room : Nat} (hr : 2 ^ 61 ≤ room) (rnd : Nat → Bool) (d : Disk) (f : List Byte)
    (h : ∀ ps, Reads ps f → (ps.filter fun x => x.id = IpfFile.imge).length ≤ (ps.filter fun x => x.id = IpfFile.data).length ∧
      ∀ x ∈ ps, x.id = IpfFile.imge → number x.data 36 ≠ 0) :
    load room rnd d f ≠ .error .panic := by
  have h1 := readChunk_safe f 0
  unfold load
  cases hc : readChunk f 0 with
  | error e => rw [hc] at h1; exact fun h => h1 (by injection h with h; rw [h])
  | ok r =>
    obtain ⟨c, p⟩ := r
    simp only
    by_cases hid : c.id = idCaps
    swap
    · rw [if_pos hid]; simp
    rw [if_neg (fun h => h hid)]
    have h2 := records_safe f f.length p {}
    cases hs : records f f.length p {} with
    | error e => rw [hs] at h2; exact fun h => h2 (by injection h with h; rw [h])
    | ok st =>
      simp only
      cases hi : st.info with
      | none => simp
      | some i =>
        simp only
        obtain ⟨b, rest, c1, c2, c3⟩ := readChunk_inv hc
        have hbl := isChunkLax_length c1
        rw [List.drop_zero] at c2
        have hfl := congrArg List.length c2
        rw [List.length_append] at hfl
        rw [Nat.zero_add] at c3
        obtain ⟨ps, r1, r2, r3⟩ := records_reads f f.length p {} st (by omega) (by omega) hs
        have hp : f.drop p = rest := by rw [c2, c3, List.drop_left]
        rw [hp] at r1
        obtain ⟨k1, k2⟩ := h (⟨c.id, c.data, []⟩ :: ps) ⟨b, rest, c1, by
          rw [if_neg (by show ¬ c.id = _; rw [hid]; decide)]; rfl, r1, by simpa using c2⟩
        have n1 : decide ((⟨c.id, c.data, []⟩ : Piece).id = IpfFile.imge) = false :=
          decide_eq_false (by show ¬ c.id = _; rw [hid]; decide)
        have n2 : decide ((⟨c.id, c.data, []⟩ : Piece).id = IpfFile.data) = false :=
          decide_eq_false (by show ¬ c.id = _; rw [hid]; decide)
        rw [List.filter_cons_of_neg (p := fun x : Piece => decide (x.id = IpfFile.imge)) (by simp [n1]),
          List.filter_cons_of_neg (p := fun x : Piece => decide (x.id = IpfFile.data)) (by simp [n2])] at k1
        have t := tracks_safe hr rnd f st i (by
            rw [r2, r3]
            simpa using k1) (by
            intro m hm
            rw [r2, List.nil_append, List.mem_map] at hm
            obtain ⟨x, hx, rfl⟩ := hm
            rw [List.mem_filter] at hx
            have := k2 x (List.mem_cons_of_mem _ hx.1) (by simpa using hx.2)
            rw [← be32At_eq] at this
            exact this) (sorted st.images) d (by
            intro k hk
            have := (sorted_spec st.images).1.mem_iff.1 hk
            simpa using this)
        cases ht : tracks room rnd f st i (sorted st.images) d with
        | error e => rw [ht] at t; exact fun h => t (by injection h with h; rw [h])
        | ok r => obtain ⟨d', l⟩ := r; simp

end Ipf
end Fox
