import Verif.Props.SauceCase
import Verif.Props.Hxc
/-
MOOF and WOZ files made of given tracks: every disk of 160 places can be described, and the theorems on these formats apply.
-/
namespace Fox
open Spec Flux
open SauceFile (Drive Tables)
namespace SauceMake

/-- A number of two bytes. -/
def two (n : Nat) : List Byte := [BitVec.ofNat 8 n, BitVec.ofNat 8 (n / 256)]

/-- The table of tracks, each with its bytes and its number of cells, the first one in block `s`. -/
def table : Nat → List (List Byte × Nat) → List Byte
  | _, [] => []
  | s, (b, c) :: l => two s ++ (two (b.length / 512) ++ (SauceFile.four c ++ table (s + b.length / 512) l))

/-- The data of the TRKS chunk. -/
def trks (bs : List (List Byte × Nat)) : List Byte :=
  table 3 bs ++ (List.replicate (1280 - 8 * bs.length) 0#8 ++ (bs.map (·.1)).flatten)

/-- How many blocks there are. -/
def blocks (bs : List (List Byte × Nat)) : Nat := (bs.map (·.1.length / 512)).sum

theorem byte_skip {p l : List Byte} {n : Nat} (h : p.length = n) (j : Nat) : ScpFile.byte (p ++ l) (n + j) = ScpFile.byte l j := by
  unfold ScpFile.byte
  rw [List.getD_eq_getElem?_getD, List.getElem?_append_right (by omega), show n + j - p.length = j by omega, ← List.getD_eq_getElem?_getD]

theorem word_skip {p l : List Byte} {n : Nat} (h : p.length = n) (j : Nat) : ScpFile.word (p ++ l) (n + j) = ScpFile.word l j := by
  unfold ScpFile.word
  rw [byte_skip h, Nat.add_assoc, byte_skip h]

theorem dword_skip {p l : List Byte} {n : Nat} (h : p.length = n) (j : Nat) : ScpFile.dword (p ++ l) (n + j) = ScpFile.dword l j := by
  unfold ScpFile.dword
  rw [word_skip h, Nat.add_assoc, word_skip h]

theorem two_value {n : Nat} (h : n < 65536) (l : List Byte) : ScpFile.word (two n ++ l) 0 = n := by
  show (BitVec.ofNat 8 n).toNat + 256 * (BitVec.ofNat 8 (n / 256)).toNat = n
  rw [BitVec.toNat_ofNat, BitVec.toNat_ofNat]
  omega

theorem four_value {n : Nat} (h : n < 2 ^ 32) (l : List Byte) : ScpFile.dword (SauceFile.four n ++ l) 0 = n := by
  have := Sauce.four_value h
  exact this

/-- The tracks can be written: their bytes are whole blocks. -/
structure Fine (bs : List (List Byte × Nat)) : Prop where
  many : bs.length ≤ 160
  whole : ∀ x ∈ bs, x.1.length % 512 = 0 ∧ x.2 < 2 ^ 32
  room : 3 + blocks bs < 65536

theorem table_length : ∀ (s : Nat) (bs : List (List Byte × Nat)), (table s bs).length = 8 * bs.length
  | _, [] => rfl
  | s, (b, c) :: l => by
    rw [table, List.length_append, List.length_append, List.length_append, table_length, List.length_cons, Sauce.four_length]
    show 2 + (2 + (4 + _)) = _
    omega

theorem table_spec : ∀ (bs : List (List Byte × Nat)) (s : Nat) (r : List Byte) (i : Nat) (b : List Byte) (c : Nat),
    (∀ x ∈ bs, x.2 < 2 ^ 32) → s + blocks bs < 65536 → bs[i]? = some (b, c) →
    ScpFile.word (table s bs ++ r) (8 * i) = s + blocks (bs.take i) ∧
      ScpFile.word (table s bs ++ r) (8 * i + 2) = b.length / 512 ∧ ScpFile.dword (table s bs ++ r) (8 * i + 4) = c
  | [], s, r, i, b, c, _, _, h => by simp at h
  | (b0, c0) :: l, s, r, 0, b, c, hc, hs, h => by
    simp only [List.getElem?_cons_zero, Option.some.injEq, Prod.mk.injEq] at h
    obtain ⟨rfl, rfl⟩ := h
    have hb : blocks ((b0, c0) :: l) = b0.length / 512 + blocks l := by unfold blocks; rw [List.map_cons, List.sum_cons]
    rw [hb] at hs
    rw [table, List.append_assoc, List.append_assoc, List.append_assoc]
    refine ⟨?_, ?_, ?_⟩
    · exact two_value (by omega) _
    · rw [word_skip (n := 2) rfl 0]
      exact two_value (by omega) _
    · rw [show 8 * 0 + 4 = 2 + 2 by rfl, dword_skip (n := 2) rfl 2, show 2 = 2 + 0 by rfl, dword_skip (n := 2) rfl 0]
      exact four_value (hc _ List.mem_cons_self) _
  | (b0, c0) :: l, s, r, i + 1, b, c, hc, hs, h => by
    have hb : ∀ l, blocks ((b0, c0) :: l) = b0.length / 512 + blocks l := by intro l; unfold blocks; rw [List.map_cons, List.sum_cons]
    rw [hb] at hs
    rw [List.getElem?_cons_succ] at h
    obtain ⟨h1, h2, h3⟩ := table_spec l (s + b0.length / 512) r i b c (fun x hx => hc x (List.mem_cons_of_mem _ hx)) (by omega) h
    have e : table s ((b0, c0) :: l) ++ r = (two s ++ (two (b0.length / 512) ++ SauceFile.four c0)) ++ (table (s + b0.length / 512) l ++ r) := by
      rw [table]; simp only [List.append_assoc]
    have e8 : (two s ++ (two (b0.length / 512) ++ SauceFile.four c0)).length = 8 := rfl
    rw [e, show 8 * (i + 1) = 8 + 8 * i by omega, show 8 + 8 * i + 2 = 8 + (8 * i + 2) by omega, show 8 + 8 * i + 4 = 8 + (8 * i + 4) by omega,
      word_skip e8, word_skip e8, dword_skip e8, h1, h2, h3, List.take_succ_cons, hb]
    exact ⟨by omega, rfl, rfl⟩

theorem blocks_take_le (bs : List (List Byte × Nat)) (i : Nat) : blocks (bs.take i) ≤ blocks bs := by
  have : blocks bs = blocks (bs.take i) + blocks (bs.drop i) := by
    unfold blocks
    rw [← List.sum_append, ← List.map_append, List.take_append_drop]
  omega

theorem flatten_at : ∀ (bs : List (List Byte × Nat)) (i : Nat) (b : List Byte) (c : Nat) (r : List Byte), (∀ x ∈ bs, x.1.length % 512 = 0) →
    bs[i]? = some (b, c) → ((((bs.map (·.1)).flatten) ++ r).drop (512 * blocks (bs.take i))).take b.length = b ∧
      512 * blocks (bs.take i) + b.length ≤ ((bs.map (·.1)).flatten).length
  | [], i, b, c, r, _, h => by simp at h
  | (b0, c0) :: l, 0, b, c, r, hw, h => by
    simp only [List.getElem?_cons_zero, Option.some.injEq, Prod.mk.injEq] at h
    obtain ⟨rfl, rfl⟩ := h
    constructor
    · rw [List.map_cons, List.flatten_cons, List.append_assoc]
      exact List.take_left' rfl
    · rw [List.map_cons, List.flatten_cons, List.length_append]
      show 0 + b0.length ≤ b0.length + _
      omega
  | (b0, c0) :: l, i + 1, b, c, r, hw, h => by
    rw [List.getElem?_cons_succ] at h
    obtain ⟨h1, h2⟩ := flatten_at l i b c r (fun x hx => hw x (List.mem_cons_of_mem _ hx)) h
    have hm := hw _ List.mem_cons_self
    have hb : 512 * blocks (((b0, c0) :: l).take (i + 1)) = b0.length + 512 * blocks (l.take i) := by
      rw [List.take_succ_cons]
      unfold blocks
      rw [List.map_cons, List.sum_cons]
      show 512 * (b0.length / 512 + _) = _
      have : b0.length % 512 = 0 := hm
      omega
    rw [hb, List.map_cons, List.flatten_cons, List.length_append]
    refine ⟨?_, by show _ ≤ b0.length + _; omega⟩
    show List.take _ (List.drop (b0.length + _) (b0 ++ _ ++ r)) = b
    rw [List.append_assoc, ← List.drop_drop, List.drop_left' rfl]
    exact h1

theorem trks_length {bs : List (List Byte × Nat)} (h : Fine bs) : (trks bs).length = 1280 + ((bs.map (·.1)).flatten).length := by
  unfold trks
  rw [List.length_append, List.length_append, table_length, List.length_replicate]
  have := h.many
  omega

/-- The chunks of a file. -/
def chunks (i m : List Byte) (bs : List (List Byte × Nat)) : Option (List Byte) → List SauceFile.Chunk
  | none => [⟨SauceFile.info, i⟩, ⟨SauceFile.tmap, m⟩, ⟨SauceFile.trks, trks bs⟩]
  | some x => [⟨SauceFile.info, i⟩, ⟨SauceFile.tmap, m⟩, ⟨SauceFile.trks, trks bs⟩, ⟨SauceFile.flux, x⟩]

/-- The file. -/
def file (magic check i m : List Byte) (bs : List (List Byte × Nat)) (x : Option (List Byte)) : List Byte :=
  sauceFile magic check (chunks i m bs x)

theorem file_drop {magic check i m : List Byte} (hm : magic.length = 4) (hk : check.length = 4) (hi : i.length = 60) (h160 : m.length = 160)
    {bs : List (List Byte × Nat)} (hb : Fine bs) (x : Option (List Byte)) :
    ∃ r, (file magic check i m bs x).drop 1536 = (bs.map (·.1)).flatten ++ r := by
  have key : ∀ r, ∃ p : List Byte, p.length = 1536 ∧ magic ++ (check ++ (SauceFile.four (Ipf.crc ((chunks i m bs x).flatMap SauceFile.Chunk.bytes)).toNat ++
      ((⟨SauceFile.info, i⟩ : SauceFile.Chunk).bytes ++ ((⟨SauceFile.tmap, m⟩ : SauceFile.Chunk).bytes ++
        ((⟨SauceFile.trks, trks bs⟩ : SauceFile.Chunk).bytes ++ r))))) = p ++ ((bs.map (·.1)).flatten ++ r) := by
    intro r
    refine ⟨magic ++ (check ++ (SauceFile.four (Ipf.crc ((chunks i m bs x).flatMap SauceFile.Chunk.bytes)).toNat ++
      ((⟨SauceFile.info, i⟩ : SauceFile.Chunk).bytes ++ ((⟨SauceFile.tmap, m⟩ : SauceFile.Chunk).bytes ++
        (SauceFile.trks ++ (SauceFile.four (trks bs).length ++ (table 3 bs ++ List.replicate (1280 - 8 * bs.length) 0#8))))))), ?_, ?_⟩
    · unfold SauceFile.Chunk.bytes
      simp only [List.length_append, Sauce.four_length, table_length, List.length_replicate, hm, hk, hi, h160]
      have := hb.many
      show 4 + (4 + (4 + (4 + (4 + 60) + (4 + (4 + 160) + (4 + (4 + _)))))) = 1536
      omega
    · unfold SauceFile.Chunk.bytes
      have : trks bs = table 3 bs ++ (List.replicate (1280 - 8 * bs.length) 0#8 ++ (bs.map (·.1)).flatten) := rfl
      rw [this]
      simp only [List.append_assoc]
  cases x with
  | none =>
    obtain ⟨p, p1, p2⟩ := key []
    refine ⟨[], ?_⟩
    rw [← List.drop_left' (l₂ := (bs.map (·.1)).flatten ++ []) p1, ← p2]
    rfl
  | some x =>
    obtain ⟨p, p1, p2⟩ := key ((⟨SauceFile.flux, x⟩ : SauceFile.Chunk).bytes ++ [])
    refine ⟨(⟨SauceFile.flux, x⟩ : SauceFile.Chunk).bytes ++ [], ?_⟩
    rw [← List.drop_left' (l₂ := (bs.map (·.1)).flatten ++ _) p1, ← p2]
    rfl

/-- What the file says of track `j`. -/
theorem file_track {magic check i m : List Byte} (hm : magic.length = 4) (hk : check.length = 4) (hi : i.length = 60) (h160 : m.length = 160)
    {bs : List (List Byte × Nat)} (hb : Fine bs) (x : Option (List Byte)) {j : Nat} {b : List Byte} {c : Nat} (hj : bs[j]? = some (b, c)) :
    1536 ≤ SauceFile.start (trks bs) j ∧ SauceFile.size (trks bs) j = b.length ∧ SauceFile.count (trks bs) j = c ∧
      SauceFile.start (trks bs) j + SauceFile.size (trks bs) j ≤ (file magic check i m bs x).length ∧
      SauceFile.data (file magic check i m bs x) (trks bs) j = b := by
  obtain ⟨t1, t2, t3⟩ := table_spec bs 3 (List.replicate (1280 - 8 * bs.length) 0#8 ++ (bs.map (·.1)).flatten) j b c (fun x hx => (hb.whole x hx).2) hb.room hj
  obtain ⟨r, hr⟩ := file_drop hm hk hi h160 hb x
  obtain ⟨f1, f2⟩ := flatten_at bs j b c r (fun x hx => (hb.whole x hx).1) hj
  have hs : SauceFile.start (trks bs) j = 1536 + 512 * blocks (bs.take j) := by
    show 512 * ScpFile.word (table 3 bs ++ _) (8 * j) = _
    rw [t1]; omega
  have hz : SauceFile.size (trks bs) j = b.length := by
    show 512 * ScpFile.word (table 3 bs ++ _) (8 * j + 2) = _
    rw [t2]
    have : b.length % 512 = 0 := (hb.whole _ (List.mem_of_getElem? hj)).1
    omega
  refine ⟨by omega, hz, t3, ?_, ?_⟩
  · have := congrArg List.length hr
    rw [List.length_drop, List.length_append] at this
    rw [hs, hz]
    by_cases h0 : (file magic check i m bs x).length < 1536
    · exfalso
      have h1 : ((chunks i m bs x).flatMap SauceFile.Chunk.bytes).length ≥ 1524 := by
        cases x <;> simp only [chunks, List.flatMap_cons, List.flatMap_nil, SauceFile.Chunk.bytes, List.length_append, Sauce.four_length,
          hi, h160, trks_length hb, List.length_nil] <;>
          simp only [SauceFile.info, SauceFile.tmap, SauceFile.trks, SauceFile.flux, List.length_cons, List.length_nil] <;> omega
      unfold file sauceFile at h0
      simp only [List.length_append, Sauce.four_length, hm, hk] at h0
      omega
    · omega
  · unfold SauceFile.data
    rw [hs, hz, ← List.drop_drop, hr]
    exact f1

theorem flatten_length : ∀ (bs : List (List Byte × Nat)), (∀ x ∈ bs, x.1.length % 512 = 0) → ((bs.map (·.1)).flatten).length = 512 * blocks bs
  | [], _ => rfl
  | x :: l, h => by
    have h1 := flatten_length l (fun y hy => h y (List.mem_cons_of_mem _ hy))
    have h2 := h x List.mem_cons_self
    have h3 : blocks (x :: l) = x.1.length / 512 + blocks l := by unfold blocks; rw [List.map_cons, List.sum_cons]
    rw [List.map_cons, List.flatten_cons, List.length_append, h1, h3]
    omega

theorem file_consists {magic check i m : List Byte} (hm : magic.length = 4) (hk : check.length = 4) (hi : i.length = 60) (h160 : m.length = 160)
    {bs : List (List Byte × Nat)} (hb : Fine bs) {x : Option (List Byte)} (hx : ∀ y, x = some y → y.length = 160) :
    SauceFile.Consists magic (file magic check i m bs x) (chunks i m bs x) := by
  have ht : (trks bs).length < 2 ^ 32 := by
    rw [trks_length hb, flatten_length bs fun x hx => (hb.whole x hx).1]
    have := hb.room
    omega
  apply sauceFile_consists hm hk
  intro c hc
  cases x with
  | none =>
    simp only [chunks, List.mem_cons, List.not_mem_nil, or_false] at hc
    rcases hc with rfl | rfl | rfl
    · exact ⟨rfl, by simp only [hi]; omega⟩
    · exact ⟨rfl, by simp only [h160]; omega⟩
    · exact ⟨rfl, ht⟩
  | some y =>
    simp only [chunks, List.mem_cons, List.not_mem_nil, or_false] at hc
    rcases hc with rfl | rfl | rfl | rfl
    · exact ⟨rfl, by simp only [hi]; omega⟩
    · exact ⟨rfl, by simp only [h160]; omega⟩
    · exact ⟨rfl, ht⟩
    · exact ⟨rfl, by simp only [hx y rfl]; omega⟩

/-- What is asked of the maps: the tracks they refer to are there. -/
def MapsFine (m : List Byte) (x : Option (List Byte)) (bs : List (List Byte × Nat)) (announced : Bool) (v : Drive) : Prop :=
  ∀ ch, v.Place ch → (∀ e, SauceFile.entry m x (v.slot ch) = .bits e → ∃ b c, bs[e]? = some (b, c) ∧ b ≠ [] ∧ c ≤ 8 * b.length) ∧
    ∀ e, SauceFile.entry m x (v.slot ch) = .flux e → ∃ b c, bs[e]? = some (b, c) ∧ b ≠ [] ∧ announced = true

theorem file_wellFormed {magic check i m : List Byte} (hm : magic.length = 4) (hk : check.length = 4) (hi : i.length = 60) (h160 : m.length = 160)
    {bs : List (List Byte × Nat)} (hb : Fine bs) {x : Option (List Byte)} (hx : ∀ y, x = some y → y.length = 160) {announced : Bool} {v : Drive}
    (hf : MapsFine m x bs announced v) : (⟨m, trks bs, x, announced⟩ : Tables).WellFormed (file magic check i m bs x) (chunks i m bs x) v := by
  refine ⟨?_, ?_, ?_, ?_, ?_⟩
  · cases x <;> rfl
  · cases x <;> rfl
  · cases x <;> rfl
  · intro c hc
    have ht : 1280 ≤ (trks bs).length := by rw [trks_length hb]; omega
    cases x with
    | none =>
      simp only [chunks, List.mem_cons, List.not_mem_nil, or_false] at hc
      rcases hc with rfl | rfl | rfl
      · exact ⟨fun h => by rcases h with h | h <;> exact absurd h (by dsimp only; decide), fun h => absurd h (by dsimp only; decide)⟩
      · exact ⟨fun _ => h160, fun h => absurd h (by dsimp only; decide)⟩
      · exact ⟨fun h => by rcases h with h | h <;> exact absurd h (by dsimp only; decide), fun _ => ht⟩
    | some y =>
      simp only [chunks, List.mem_cons, List.not_mem_nil, or_false] at hc
      rcases hc with rfl | rfl | rfl | rfl
      · exact ⟨fun h => by rcases h with h | h <;> exact absurd h (by dsimp only; decide), fun h => absurd h (by dsimp only; decide)⟩
      · exact ⟨fun _ => h160, fun h => absurd h (by dsimp only; decide)⟩
      · exact ⟨fun h => by rcases h with h | h <;> exact absurd h (by dsimp only; decide), fun _ => ht⟩
      · exact ⟨fun _ => hx y rfl, fun h => absurd h (by dsimp only; decide)⟩
  · intro ch hp
    obtain ⟨f1, f2⟩ := hf ch hp
    have lt : ∀ {e : Nat} {z : List Byte × Nat}, bs[e]? = some z → e < 160 := by
      intro e z h
      have := hb.many
      have := (List.getElem?_eq_some_iff.1 h).1
      omega
    constructor
    · intro e he
      obtain ⟨b, c, h1, h2, h3⟩ := f1 e he
      obtain ⟨t1, t2, t3, t4, t5⟩ := file_track hm hk hi h160 hb x h1
      refine ⟨lt h1, ?_, t4, ?_⟩
      · show 0 < SauceFile.size (trks bs) e
        rw [t2]; exact List.length_pos_iff.2 h2
      · show SauceFile.count (trks bs) e ≤ 8 * SauceFile.size (trks bs) e
        rw [t2, t3]; exact h3
    · intro e he
      obtain ⟨b, c, h1, h2, h3⟩ := f2 e he
      obtain ⟨t1, t2, t3, t4, t5⟩ := file_track hm hk hi h160 hb x h1
      refine ⟨lt h1, ?_, t4, h3⟩
      show 0 < SauceFile.size (trks bs) e
      rw [t2]; exact List.length_pos_iff.2 h2

/-- The INFO chunk of a MOOF: a type, and where the flux map and the largest flux track are. -/
def moofInfo (type protect fluxBlock largest : Byte) : List Byte :=
  [1#8, type, protect] ++ List.replicate 37 0#8 ++ [fluxBlock, 0#8, largest, 0#8] ++ List.replicate 16 0#8

/-- The INFO chunk of a WOZ of version 3. -/
def wozInfo (type protect sides fluxBlock largest : Byte) : List Byte :=
  [3#8, type, protect] ++ List.replicate 34 0#8 ++ [sides] ++ List.replicate 8 0#8 ++ [fluxBlock, 0#8, largest, 0#8] ++ List.replicate 10 0#8

/-- A MOOF. -/
theorem file_moof {check m : List Byte} {type protect fluxBlock largest : Byte} {v : Drive}
    (hv : SauceFile.moofDrive (moofInfo type protect fluxBlock largest) = some v) (hk : check.length = 4) (h160 : m.length = 160)
    {bs : List (List Byte × Nat)} (hb : Fine bs) {x : Option (List Byte)} (hx : ∀ y, x = some y → y.length = 160)
    (hf : MapsFine m x bs (decide (0 < fluxBlock.toNat ∧ 0 < largest.toNat)) v) :
    SauceFile.Moof (file SauceFile.moof check (moofInfo type protect fluxBlock largest) m bs x)
      (chunks (moofInfo type protect fluxBlock largest) m bs x) v ⟨m, trks bs, x, decide (0 < fluxBlock.toNat ∧ 0 < largest.toNat)⟩ := by
  refine ⟨file_consists rfl hk rfl h160 hb hx, ⟨moofInfo type protect fluxBlock largest, by cases x <;> rfl, hv, ?_⟩, ?_,
    file_wellFormed rfl hk rfl h160 hb hx hf⟩
  · show decide (0 < fluxBlock.toNat ∧ 0 < largest.toNat) = decide (0 < fluxBlock.toNat + 256 * 0 ∧ 0 < largest.toNat + 256 * 0)
    rfl
  · intro c hc hid
    have : c.data = moofInfo type protect fluxBlock largest := by
      cases x with
      | none =>
        simp only [chunks, List.mem_cons, List.not_mem_nil, or_false] at hc
        rcases hc with rfl | rfl | rfl <;> first | rfl | exact absurd hid (by dsimp only; decide)
      | some y =>
        simp only [chunks, List.mem_cons, List.not_mem_nil, or_false] at hc
        rcases hc with rfl | rfl | rfl | rfl <;> first | rfl | exact absurd hid (by dsimp only; decide)
    rw [this]
    exact ⟨by show 44 ≤ 60; omega, rfl⟩

/-- A WOZ. -/
theorem file_woz {check m : List Byte} {type protect sides fluxBlock largest : Byte} {v : Drive}
    (hv : SauceFile.wozDrive (wozInfo type protect sides fluxBlock largest) = some v) (hk : check.length = 4) (h160 : m.length = 160)
    {bs : List (List Byte × Nat)} (hb : Fine bs) {x : Option (List Byte)} (hx : ∀ y, x = some y → y.length = 160)
    (hf : MapsFine m x bs (decide (0 < fluxBlock.toNat ∧ 0 < largest.toNat)) v) :
    SauceFile.Woz (file SauceFile.woz2 check (wozInfo type protect sides fluxBlock largest) m bs x)
      (chunks (wozInfo type protect sides fluxBlock largest) m bs x) v ⟨m, trks bs, x, decide (0 < fluxBlock.toNat ∧ 0 < largest.toNat)⟩ := by
  refine ⟨file_consists rfl hk rfl h160 hb hx, ⟨wozInfo type protect sides fluxBlock largest, by cases x <;> rfl, hv, ?_⟩, ?_,
    file_wellFormed rfl hk rfl h160 hb hx hf⟩
  · apply decide_eq_decide.2
    show _ ↔ 3 = 3 ∧ 0 < fluxBlock.toNat + 256 * 0 ∧ 0 < largest.toNat + 256 * 0
    constructor
    · exact fun h => ⟨rfl, h⟩
    · exact fun h => h.2
  · intro c hc hid
    have : c.data = wozInfo type protect sides fluxBlock largest := by
      cases x with
      | none =>
        simp only [chunks, List.mem_cons, List.not_mem_nil, or_false] at hc
        rcases hc with rfl | rfl | rfl <;> first | rfl | exact absurd hid (by dsimp only; decide)
      | some y =>
        simp only [chunks, List.mem_cons, List.not_mem_nil, or_false] at hc
        rcases hc with rfl | rfl | rfl | rfl <;> first | rfl | exact absurd hid (by dsimp only; decide)
    rw [this]
    exact Or.inr ⟨by show 50 ≤ 60; omega, rfl⟩

end SauceMake
end Fox
