import Verif.Spec.FormatDisk
import Verif.Proofs.RawRound
import Verif.Proofs.PriRound
/-
Formatting a whole disk.
-/
namespace Fox
open Fox.Spec Fox.S34

/-! ### The boot sector -/

/-- The parameter block of a PC format. -/
theorem bpb_bytes (f : StdFormat) (hf : f.isPc = true) : ∃ b2 b3, Bpb2.ofFormat f = some b2 ∧
    Bpb3.ofFormat f = some b3 ∧ (b2.bytes ++ b3.bytes).length = 21 ∧
    rdLe16 (b2.bytes ++ b3.bytes) 0 = 512 ∧
    (rdLe16 (b2.bytes ++ b3.bytes) 8).toNat = f.layout.c * f.layout.h * f.layout.s ∧
    (rdLe16 (b2.bytes ++ b3.bytes) 13).toNat = f.layout.s ∧
    (rdLe16 (b2.bytes ++ b3.bytes) 15).toNat = f.layout.h ∧
    rdLe32 (b2.bytes ++ b3.bytes) 17 = 0 ∧
    b2.format = some f ∧ Bpb2.read (b2.bytes ++ b3.bytes) 0 = b2 := by
  cases f <;> first | exact ⟨_, _, rfl, rfl, by decide⟩ | exact absurd hf (by decide)

theorem makeBoot_spec (f : StdFormat) (hf : f.isPc = true) (boot : Option (List Byte)) (creator : Option (List Byte))
    (hb : ∀ b, boot = some b → 512 ≤ b.length) (hc : ∀ c, creator = some c → c.length = 8 ∧
      ∀ i, i < 8 → (boot.getD defaultBoot).getD (0x147 + i) 0 = creatorTag.getD i 0) :
    ∃ buf, Disk.makeBoot f boot creator = .ok buf ∧ IsBoot f (boot.getD defaultBoot) creator buf ∧
      bootFormat buf = some f := by
  have hlen : 512 ≤ (boot.getD defaultBoot).length := by
    cases boot with
    | none => show 512 ≤ defaultBoot.length; decide +kernel
    | some b => exact hb b rfl
  unfold Disk.makeBoot
  generalize boot.getD defaultBoot = T at hlen hc ⊢
  obtain ⟨b2, b3, p1, p2, p3, p4, p5, p6, p7, p8, p9, p10⟩ := bpb_bytes f hf
  have hT : (T.take 512).length = 512 := by rw [List.length_take]; omega
  have hTg : ∀ i, i < 512 → (T.take 512).getD i 0 = T.getD i 0 := by
    intro i hi
    simp only [List.getD_eq_getElem?_getD]
    rw [List.getElem?_take_of_lt hi]
  generalize hB : b2.bytes ++ b3.bytes = B at p3 p4 p5 p6 p7 p8 p10
  have hin : bpbOffset + B.length ≤ (T.take 512).length := by rw [hT, p3]; decide
  have hP : ∀ i, (putAt (T.take 512) bpbOffset B).getD i 0 =
      if 11 ≤ i ∧ i < 32 then B.getD (i - 11) 0 else (T.take 512).getD i 0 := by
    intro i
    rw [putAt_getD _ _ _ _ hin, p3]
    rfl
  have hPl : (putAt (T.take 512) bpbOffset B).length = 512 := by rw [putAt_length _ _ _ hin, hT]
  have fin : ∀ buf : List Byte, (∀ i, 11 ≤ i → i < 32 → buf.getD i 0 = B.getD (i - 11) 0) →
      rdLe16 buf 11 = 512 ∧ (rdLe16 buf 19).toNat = f.layout.c * f.layout.h * f.layout.s ∧
      (rdLe16 buf 24).toNat = f.layout.s ∧ (rdLe16 buf 26).toNat = f.layout.h ∧ rdLe32 buf 28 = 0 ∧
      bootFormat buf = some f := by
    intro buf h
    have hr : Bpb2.read buf bpbOffset = Bpb2.read B 0 := by
      unfold Bpb2.read rdLe16 bpbOffset
      simp only [Nat.reduceAdd]
      rw [h 11 (by omega) (by omega), h 12 (by omega) (by omega), h 13 (by omega) (by omega),
        h 14 (by omega) (by omega), h 15 (by omega) (by omega), h 16 (by omega) (by omega),
        h 17 (by omega) (by omega), h 18 (by omega) (by omega), h 19 (by omega) (by omega),
        h 20 (by omega) (by omega), h 21 (by omega) (by omega), h 22 (by omega) (by omega),
        h 23 (by omega) (by omega)]
    refine ⟨?_, ?_, ?_, ?_, ?_, ?_⟩
    · rw [← p4]; unfold rdLe16; rw [h _ (by omega) (by omega), h _ (by omega) (by omega)]
    · rw [← p5]; unfold rdLe16; rw [h _ (by omega) (by omega), h _ (by omega) (by omega)]
    · rw [← p6]; unfold rdLe16; rw [h _ (by omega) (by omega), h _ (by omega) (by omega)]
    · rw [← p7]; unfold rdLe16; rw [h _ (by omega) (by omega), h _ (by omega) (by omega)]
    · rw [← p8]; unfold rdLe32
      rw [h _ (by omega) (by omega), h _ (by omega) (by omega), h _ (by omega) (by omega), h _ (by omega) (by omega)]
    · unfold bootFormat; rw [hr, p10, p9]
  unfold BootSector.new
  rw [if_neg (by omega)]
  simp only [BootSector.updateBpb, p1, p2, hB]
  cases creator with
  | none =>
    refine ⟨_, rfl, ?_⟩
    obtain ⟨f1, f2, f3, f4, f5, f6⟩ := fin (putAt (T.take 512) bpbOffset B) (fun i h1 h2 => by
      rw [hP, if_pos ⟨h1, h2⟩])
    refine ⟨⟨hPl, ?_, (fun c h => by cases h), f1, f2, f3, f4, f5⟩, f6⟩
    intro i hi hn _
    rw [hP, if_neg hn, hTg i hi]
  | some c =>
    obtain ⟨c1, c2⟩ := hc c rfl
    have htag : ((putAt (T.take 512) bpbOffset B).drop 0x147).take 8 = creatorTag := by
      apply ext_getD _ _ 0
      · rw [List.length_take, List.length_drop, hPl]; decide
      · intro i hi
        have hi : i < 8 := by rw [List.length_take] at hi; omega
        rw [← c2 i hi, ← hTg _ (by omega)]
        have := hP (0x147 + i)
        rw [if_neg (by omega)] at this
        rw [← this]
        simp only [List.getD_eq_getElem?_getD]
        rw [List.getElem?_take_of_lt hi, List.getElem?_drop]
    simp only [BootSector.setCreator, htag, if_true]
    have hin2 : 0x147 + c.length ≤ (putAt (T.take 512) bpbOffset B).length := by rw [hPl, c1]; decide
    have hQ := fun k => putAt_getD _ c 0x147 k hin2
    refine ⟨_, rfl, ?_⟩
    obtain ⟨f1, f2, f3, f4, f5, f6⟩ := fin (putAt (putAt (T.take 512) bpbOffset B) 0x147 c) (fun i h1 h2 => by
      rw [hQ, if_neg (by omega), hP, if_pos ⟨h1, h2⟩])
    refine ⟨⟨by rw [putAt_length _ _ _ hin2, hPl], ?_, ?_, f1, f2, f3, f4, f5⟩, f6⟩
    · intro i hi hn hm
      have hm := hm rfl
      rw [hQ, if_neg (by rw [c1]; exact hm), hP, if_neg hn, hTg i hi]
    · intro c' hc' i hi
      cases hc'
      rw [hQ, if_pos (by rw [c1]; omega), Nat.add_sub_cancel_left]

/-! ### Tables -/

/-- The tables of a disk with `n.1` tracks on head 0 and `n.2` on head 1, each satisfying `P` at its place. -/
structure Grid (P : Ch → DiskTrack → Prop) (n : Nat × Nat) (d : Disk) : Prop where
  len0 : d.map0.length = n.1
  len1 : d.map1.length = n.2
  held : ∀ (ch : Ch) (i : Nat), ch.h < 2 → (d.headMap ch.h)[ch.c]? = some i → ∃ t, d.pool[i]? = some t ∧ P ch t
  all : ∀ i, i < d.pool.length → ∃ ch : Ch, ch.h < 2 ∧ (d.headMap ch.h)[ch.c]? = some i
  apart : ∀ (a b : Ch) (i : Nat), a.h < 2 → b.h < 2 → (d.headMap a.h)[a.c]? = some i →
    (d.headMap b.h)[b.c]? = some i → a = b

theorem grid_empty (P : Ch → DiskTrack → Prop) (d : Disk) (h0 : d.map0 = []) (h1 : d.map1 = []) (hp : d.pool = []) :
    Grid P (0, 0) d := by
  have hm : ∀ h, d.headMap h = [] := by intro h; unfold Disk.headMap; split <;> assumption
  refine ⟨by rw [h0]; rfl, by rw [h1]; rfl, ?_, (by rw [hp]; intro t h; cases h), ?_⟩
  · intro ch i _ h; rw [hm] at h; cases h
  · intro a b i _ _ h; rw [hm] at h; cases h

theorem Grid.lt {P : Ch → DiskTrack → Prop} {n : Nat × Nat} {d : Disk} (h : Grid P n d) {ch : Ch} {i : Nat}
    (hh : ch.h < 2) (hi : (d.headMap ch.h)[ch.c]? = some i) : i < d.pool.length := by
  obtain ⟨t, ht, _⟩ := h.held ch i hh hi
  rcases Nat.lt_or_ge i d.pool.length with hlt | hge
  · exact hlt
  · rw [List.getElem?_eq_none hge] at ht; cases ht

theorem pushTrack_headMap (d : Disk) (h : Nat) (hh : h < 2) (t : DiskTrack) (a : Nat) (ha : a < 2) :
    (d.pushTrack h t).headMap a = if a = h then d.headMap a ++ [d.pool.length] else d.headMap a := by
  unfold Disk.pushTrack Disk.pushMap Disk.headMap
  by_cases h0 : h = 0
  · subst h0
    simp only [if_true]
    by_cases a0 : a = 0
    · subst a0; rfl
    · simp only [if_neg a0]
  · have : h = 1 := by omega
    subst this
    simp only [Nat.one_ne_zero, if_false]
    by_cases a0 : a = 0
    · subst a0; rfl
    · have : a = 1 := by omega
      subst this; rfl

theorem pushTrack_pool (d : Disk) (h : Nat) (t : DiskTrack) : (d.pushTrack h t).pool = d.pool ++ [t] := by
  unfold Disk.pushTrack Disk.pushMap; split <;> rfl

theorem Grid.push {P : Ch → DiskTrack → Prop} {n : Nat × Nat} {d : Disk} (h : Grid P n d) (ch : Ch) (hh : ch.h < 2)
    (hc : (d.headMap ch.h).length = ch.c) (t : DiskTrack) (ht : P ch t) :
    Grid P (if ch.h = 0 then (n.1 + 1, n.2) else (n.1, n.2 + 1)) (d.pushTrack ch.h t) := by
  have hget : ∀ (a : Ch) (i : Nat), a.h < 2 → ((d.pushTrack ch.h t).headMap a.h)[a.c]? = some i →
      (d.headMap a.h)[a.c]? = some i ∨ (a = ch ∧ i = d.pool.length) := by
    intro a i ha hi
    rw [pushTrack_headMap d _ hh t _ ha] at hi
    by_cases he : a.h = ch.h
    · rw [if_pos he, List.getElem?_append] at hi
      by_cases hlt : a.c < (d.headMap a.h).length
      · rw [if_pos hlt] at hi; exact Or.inl hi
      · rw [if_neg hlt] at hi
        cases hk : a.c - (d.headMap a.h).length with
        | zero =>
          rw [hk] at hi
          right
          refine ⟨?_, (Option.some.inj hi).symm⟩
          rw [he] at hk hlt
          have : a.c = ch.c := by omega
          cases a; cases ch; simp_all
        | succ k => rw [hk] at hi; cases hi
    · rw [if_neg he] at hi; exact Or.inl hi
  refine ⟨?_, ?_, ?_, ?_, ?_⟩
  · have := pushTrack_headMap d _ hh t 0 (by decide)
    have e : (d.pushTrack ch.h t).map0 = (d.pushTrack ch.h t).headMap 0 := rfl
    rw [e, this]
    by_cases h0 : ch.h = 0
    · rw [if_pos h0.symm, if_pos h0, List.length_append]
      show (d.map0).length + 1 = n.1 + 1
      rw [h.len0]
    · rw [if_neg (fun e => h0 e.symm), if_neg h0]; exact h.len0
  · have := pushTrack_headMap d _ hh t 1 (by decide)
    have e : (d.pushTrack ch.h t).map1 = (d.pushTrack ch.h t).headMap 1 := rfl
    rw [e, this]
    by_cases h0 : ch.h = 0
    · rw [if_neg (by omega), if_pos h0]; exact h.len1
    · rw [if_pos (by omega), if_neg h0, List.length_append]
      show (d.map1).length + 1 = n.2 + 1
      rw [h.len1]
  · intro a i ha hi
    rw [pushTrack_pool]
    rcases hget a i ha hi with hi | ⟨rfl, rfl⟩
    · obtain ⟨t', h1, h2⟩ := h.held a i ha hi
      exact ⟨t', by rw [List.getElem?_append_left (h.lt ha hi)]; exact h1, h2⟩
    · exact ⟨t, by simp, ht⟩
  · intro i hi
    rw [pushTrack_pool, List.length_append] at hi
    rcases Nat.lt_or_ge i d.pool.length with hlt | hge
    · obtain ⟨c, hc1, hc2⟩ := h.all i hlt
      refine ⟨c, hc1, ?_⟩
      rw [pushTrack_headMap d _ hh t _ hc1]
      split
      · rw [List.getElem?_append, if_pos (List.getElem?_eq_some_iff.1 hc2).1]; exact hc2
      · exact hc2
    · have hi : i = d.pool.length := by
        have : ([t] : List DiskTrack).length = 1 := rfl
        omega
      refine ⟨ch, hh, ?_⟩
      rw [pushTrack_headMap d _ hh t _ hh, if_pos rfl, ← hc, hi]
      simp
  · intro a b i ha hb hia hib
    rcases hget a i ha hia with k1 | ⟨rfl, rfl⟩
    · rcases hget b i hb hib with k2 | ⟨rfl, rfl⟩
      · exact h.apart a b i ha hb k1 k2
      · exact absurd (h.lt ha k1) (by omega)
    · rcases hget b _ hb hib with k2 | ⟨rfl, _⟩
      · exact absurd (h.lt hb k2) (by omega)
      · rfl


theorem Grid.set {P P' : Ch → DiskTrack → Prop} {n : Nat × Nat} {d : Disk} (h : Grid P n d) {ch : Ch} {i : Nat}
    (hh : ch.h < 2) (hi : (d.headMap ch.h)[ch.c]? = some i) {t' : DiskTrack} (ht : P' ch t')
    (hP : ∀ c t, c ≠ ch → P c t → P' c t) :
    Grid P' n { d with pool := d.pool.set i t' } := by
  refine ⟨h.len0, h.len1, ?_, ?_, h.apart⟩
  · intro a j ha hj
    rw [headMap_pool] at hj
    by_cases hac : a = ch
    · subst hac
      rw [hi] at hj; cases hj
      exact ⟨t', by simp [h.lt ha hi], ht⟩
    · obtain ⟨t, h1, h2⟩ := h.held a j ha hj
      have hij : i ≠ j := by
        rintro rfl
        exact hac (h.apart a ch i ha hh hj hi)
      exact ⟨t, by simp only [List.getElem?_set, if_neg hij]; exact h1, hP a t hac h2⟩
  · intro j hj
    rw [show ({ d with pool := d.pool.set i t' } : Disk).pool = d.pool.set i t' from rfl, List.length_set] at hj
    exact h.all j hj

theorem Grid.mono {P P' : Ch → DiskTrack → Prop} {n : Nat × Nat} {d d' : Disk} (h : Grid P n d)
    (hP : ∀ c t, c.h < 2 → P c t → P' c t) (hp : d'.pool = d.pool) (h0 : d'.map0 = d.map0) (h1 : d'.map1 = d.map1) :
    Grid P' n d' := by
  have hm : ∀ a, d'.headMap a = d.headMap a := by intro a; unfold Disk.headMap; rw [h0, h1]
  refine ⟨by rw [h0]; exact h.len0, by rw [h1]; exact h.len1, ?_, ?_, ?_⟩
  · intro ch i hh hi
    rw [hm] at hi
    obtain ⟨t, k1, k2⟩ := h.held ch i hh hi
    exact ⟨t, by rw [hp]; exact k1, hP _ _ hh k2⟩
  · intro i hi
    rw [hp] at hi
    simp only [hm]
    exact h.all i hi
  · intro a b i ha hb
    rw [hm, hm]
    exact h.apart a b i ha hb

/-- The counts of tracks after adding one at each place of the list, each at the next free cylinder. -/
def seqEnd : Nat × Nat → List Ch → Option (Nat × Nat)
  | n, [] => some n
  | n, ch :: rest =>
    if ch.h = 0 ∧ ch.c = n.1 then seqEnd (n.1 + 1, n.2) rest
    else if ch.h = 1 ∧ ch.c = n.2 then seqEnd (n.1, n.2 + 1) rest
    else none

/-- A track as added by the format. -/
def EmptyOk (f : StdFormat) (ch : Ch) (x : DiskTrack) : Prop :=
  ∃ t, x = .bit ch t ∧ t.data.len = f.bitcellCt ∧ Formattable t ∧
    (∀ b ∈ t.data.weakMask.bits, b = false) ∧ t.data.weakMask.bits.length = f.bitcellCt

/-- What adding empty tracks leaves alone. -/
structure SameButTracks (d d' : Disk) : Prop where
  multires : d'.multires = d.multires
  geometry : d'.geometry = d.geometry
  boot : d'.boot = d.boot
  standardFormat : d'.standardFormat = d.standardFormat

theorem addEmpties_spec (f : StdFormat) : ∀ (l : List Ch) (n e : Nat × Nat) (d : Disk),
    Grid (EmptyOk f) n d → seqEnd n l = some e → d.rejects .bitStream = false → d.res.sect = false →
    ∃ d', Disk.addEmpties f .bitStream l d = (d', .ok ()) ∧ Grid (EmptyOk f) e d' ∧ SameButTracks d d' ∧
      d'.res = (if l = [] then d.res else d.res.insert .bitStream)
  | [], n, e, d, h, hs, _, _ => by
    unfold seqEnd at hs
    cases hs
    exact ⟨d, rfl, h, ⟨rfl, rfl, rfl, rfl⟩, rfl⟩
  | ch :: l, n, e, d, h, hs, hr, hsect => by
    obtain ⟨t, e1, e2, e3⟩ := emptyBit_ok ch f.bitcellCt false
    have hh : ch.h < 2 ∧ (d.headMap ch.h).length = ch.c ∧
        seqEnd (if ch.h = 0 then (n.1 + 1, n.2) else (n.1, n.2 + 1)) l = some e := by
      unfold seqEnd at hs
      split at hs
      · rename_i hc
        refine ⟨by omega, ?_, by rw [if_pos hc.1]; exact hs⟩
        rw [hc.1, hc.2]; exact h.len0
      · split at hs
        · rename_i hc
          refine ⟨by omega, ?_, by rw [if_neg (by omega)]; exact hs⟩
          rw [hc.1, hc.2]; exact h.len1
        · cases hs
    obtain ⟨h1, h2, h3⟩ := hh
    have hmin : (d.res.insert .bitStream).min = some .bitStream := by
      show (if d.res.sect = true then _ else _) = _
      rw [hsect]; rfl
    have hadd : d.addEmpty ch .mfm (some .bitStream) f.bitcellCt (some false) =
        (({ d with res := d.res.insert .bitStream } : Disk).pushTrack ch.h (.bit ch t), .ok d.pool.length) := by
      unfold Disk.addEmpty
      rw [if_neg (by omega)]
      simp only [hr, Bool.false_eq_true, if_false, hmin]
      rw [if_neg (by
        show ¬ (d.headMap ch.h).length ≠ ch.c
        omega), e1]
    have hg := (h.mono (d' := { d with res := d.res.insert .bitStream }) (fun _ _ _ h => h) rfl rfl rfl).push ch h1 h2
      (.bit ch t) ⟨t, rfl, e2, e3, emptyBit_clear e1, emptyBit_mask e1⟩
    have hres : (({ d with res := d.res.insert .bitStream } : Disk).pushTrack ch.h (.bit ch t)).res =
        d.res.insert .bitStream := by unfold Disk.pushTrack Disk.pushMap; split <;> rfl
    have hm : (({ d with res := d.res.insert .bitStream } : Disk).pushTrack ch.h (.bit ch t)).multires =
        d.multires := by unfold Disk.pushTrack Disk.pushMap; split <;> rfl
    have hrej : (({ d with res := d.res.insert .bitStream } : Disk).pushTrack ch.h (.bit ch t)).rejects .bitStream =
        false := by
      unfold Disk.rejects
      rw [hres]
      simp [ResSet.has, ResSet.insert]
    obtain ⟨d', g1, g2, g3, g4⟩ := addEmpties_spec f l _ e _ hg h3 hrej (by rw [hres]; exact hsect)
    refine ⟨d', ?_, g2, ⟨by rw [g3.multires, hm], ?_, ?_, ?_⟩, ?_⟩
    · rw [Disk.addEmpties, hadd]; exact g1
    · rw [g3.geometry]; unfold Disk.pushTrack Disk.pushMap; split <;> rfl
    · rw [g3.boot]; unfold Disk.pushTrack Disk.pushMap; split <;> rfl
    · rw [g3.standardFormat]; unfold Disk.pushTrack Disk.pushMap; split <;> rfl
    · rw [g4, hres, if_neg (List.cons_ne_nil _ _)]
      split
      · rfl
      · rfl

/-! ### Formatting the tracks -/

/-- A formatted track holding `m`. -/
def FormatOk (f : StdFormat) (m : SectorMap) (ch : Ch) (x : DiskTrack) : Prop :=
  ∃ t x0 l, x = .bit ch t ∧ Rel f.bitcellCt t (iamOf .iso) (x0 :: l) ∧ x0.io = preBytes .iso + 12 ∧
    x0.id.c = ch.c ∧ toMap (x0 :: l) = m ∧ (x0 :: l).length = f.layout.s ∧
    (∀ b ∈ t.data.weakMask.bits, b = false) ∧
    (t.data.weakMask.bits.length + 7) / 8 = (t.data.bits.bits.length + 7) / 8

/-- A track of zeros. -/
def zeroTrack (f : StdFormat) (ch : Ch) : SectorMap :=
  (List.range f.layout.s).map fun k => (⟨ch.c, ch.h, k + 1, 2⟩, List.replicate 512 0)

theorem fresh_zero (f : StdFormat) (ch : Ch) (hc : ch.c < 256) : ∀ (ks : List Nat) (off : Nat),
    SectorMap.fresh [0x00] off (ks.map fun s => (⟨ch.c, ch.h, s + 1, f.layout.n⟩ : Chsn)) =
      ks.map fun k => (⟨ch.c, ch.h, k + 1, 2⟩, List.replicate 512 0)
  | [], _ => rfl
  | k :: ks, off => by
    rw [List.map_cons, SectorMap.fresh, fresh_zero f ch hc ks, List.map_cons]
    congr 1
    have hn := layout_n f
    have hsz : (⟨ch.c, ch.h, k + 1, f.layout.n⟩ : Chsn).size = 512 := by
      show nSize f.layout.n = 512
      rw [hn]; decide
    rw [hsz, onDisk_eq hc, hn]
    generalize 512 = N
    refine Prod.ext rfl ?_
    show fillBytes _ _ _ = _
    unfold fillBytes
    apply List.ext_getElem
    · simp
    · intro i h1 h2
      simp [Nat.mod_one]

theorem format_step (f : StdFormat) (hf : f.isPc = true) (nz : Noise) (ch : Ch) (x : DiskTrack)
    (hc : ch.c < 256) (hh : ch.h < 2) (h : EmptyOk f ch x) :
    ∃ x', x.format nz .iso (Disk.formatIds f.layout ch) [0x00] f.gap3 = .ok x' ∧ FormatOk f (zeroTrack f ch) ch x' := by
  obtain ⟨t, rfl, e2, e3, e4, e5⟩ := h
  have hoff : f.layout.sOff = 1 := by cases f <;> first | rfl | exact absurd hf (by decide)
  have hids : Disk.formatIds f.layout ch = stdIds f ch.c ch.h := by
    unfold Disk.formatIds stdIds
    apply List.map_congr_left
    intro s _
    rw [hoff, Nat.add_comm]
  have hfit : Fits .iso f.gap3 (Disk.formatIds f.layout ch) t.data.len := by
    rw [e2, hids]; exact (C32_fits f hf _ _ .iso (by decide)).2
  have hwf : ∀ x ∈ Disk.formatIds f.layout ch, x.WF := by
    rw [hids]; exact stdIds_wf f _ _ hc (by omega)
  obtain ⟨t', g1, g2, g3⟩ := format_trackOk t nz.bit .iso _ [0x00] f.gap3 (by decide) e3 hwf hfit
  refine ⟨.bit ch t', by simp only [DiskTrack.format, g1, Except.map], ?_⟩
  obtain ⟨n, hn⟩ : ∃ n, f.layout.s = n + 1 := ⟨f.layout.s - 1, by cases f <;> decide⟩
  have shape : ∃ x0 l, formatted .iso [0x00] f.gap3 (Disk.formatIds f.layout ch) = x0 :: l ∧
      x0.io = preBytes .iso + 12 ∧ x0.id.c = ch.c := by
    unfold formatted Disk.formatIds
    rw [hn, List.range_eq_range', List.range'_succ, List.map_cons, layout]
    exact ⟨_, _, rfl, rfl, Nat.mod_eq_of_lt hc⟩
  obtain ⟨x0, l, s1, s2, s3⟩ := shape
  have hmap : toMap (x0 :: l) = zeroTrack f ch := by
    rw [← s1]
    unfold formatted Disk.formatIds zeroTrack
    rw [fresh_eq, fresh_zero f ch hc]
  refine ⟨t', x0, l, rfl, ⟨by rw [← s1]; exact g2, ?_, ?_⟩, s2, s3, hmap, ?_, ?_, ?_⟩
  · rw [← s1]
    intro x hx
    obtain ⟨a, b, c, _⟩ := layout_del .iso _ f.gap3 _ _ _ x hx
    exact ⟨a, b, c⟩
  · rw [g3, e2]; exact round16 _
  · have : (toMap (x0 :: l)).length = (x0 :: l).length := by unfold toMap; simp
    rw [← this, hmap]
    rw [zeroTrack, List.length_map, List.length_range]
  · rw [format_weakMask g1]; exact e4
  · rw [format_weakMask g1, e5, show t'.data.bits.bits.length = t'.data.len from rfl, g3, e2]
    cases f <;> decide

/-- The tracks in `done` are formatted, the others empty. -/
def HalfDone (f : StdFormat) (done : List Ch) (ch : Ch) (x : DiskTrack) : Prop :=
  (ch ∈ done → FormatOk f (zeroTrack f ch) ch x) ∧ (ch ∉ done → EmptyOk f ch x)

theorem analyze_grid {P : Ch → DiskTrack → Prop} {n : Nat × Nat} {d : Disk} (h : Grid P n d) : Grid P n d.analyze :=
  h.mono (fun _ _ _ h => h) rfl rfl rfl

theorem formatTracks_spec (f : StdFormat) (hf : f.isPc = true) (nz : Noise) (n : Nat × Nat) : ∀ (l done : List Ch) (d : Disk),
    Grid (HalfDone f done) n d → l.Nodup → (∀ ch ∈ l, ch ∉ done) →
    (∀ ch ∈ l, ch.c < 256 ∧ ch.h < 2 ∧ ch.c < (d.headMap ch.h).length) →
    ∃ d', Disk.formatTracks f nz l d = (d', .ok ()) ∧ Grid (HalfDone f (l ++ done)) n d' ∧ SameButTracks d d' ∧
      d'.res = d.res ∧ d'.map0 = d.map0 ∧ d'.map1 = d.map1 ∧
      (d.spt = d.analyze.spt ∨ l ≠ [] → d'.spt = d'.analyze.spt)
  | [], done, d, h, _, _, _ => ⟨d, rfl, h, ⟨rfl, rfl, rfl, rfl⟩, rfl, rfl, rfl, fun h => h.elim id (absurd rfl)⟩
  | ch :: l, done, d, h, hnd, hdis, hin => by
    obtain ⟨c1, c2, c3⟩ := hin ch (by simp)
    have hi : (d.headMap ch.h)[ch.c]? = some (d.headMap ch.h)[ch.c] := List.getElem?_eq_getElem c3
    generalize (d.headMap ch.h)[ch.c] = i at hi
    obtain ⟨x, k1, k2⟩ := h.held ch i c2 hi
    obtain ⟨x', m1, m2⟩ := format_step f hf nz ch x c1 c2 (k2.2 (hdis ch (by simp)))
    have hstep : d.formatTrack nz ch (Disk.formatIds f.layout ch) [0x00] f.gap3 =
        ({ d with pool := d.pool.set i x' }.analyze, .ok ()) := by
      unfold Disk.formatTrack Disk.seek
      rw [if_neg (by omega), hi]
      simp only [k1, m1]
    have hg : Grid (HalfDone f (ch :: done)) n { d with pool := d.pool.set i x' }.analyze := by
      apply analyze_grid
      refine h.set c2 hi ⟨fun _ => m2, fun hn => absurd List.mem_cons_self hn⟩ ?_
      intro c t hne ht
      refine ⟨fun hm => ht.1 ?_, fun hm => ht.2 (fun hd => hm (by simp [hd]))⟩
      rcases List.mem_cons.1 hm with rfl | hm
      · exact absurd rfl hne
      · exact hm
    have hnd' := List.nodup_cons.1 hnd
    obtain ⟨d', g1, g2, g3, g4, g5, g6, g7⟩ := formatTracks_spec f hf nz n l (ch :: done) _ hg hnd'.2
      (by
        intro c hc hm
        rcases List.mem_cons.1 hm with rfl | hm
        · exact hnd'.1 hc
        · exact hdis c (by simp [hc]) hm)
      (fun c hc => hin c (by simp [hc]))
    refine ⟨d', ?_, ?_, ⟨g3.multires, g3.geometry, g3.boot, g3.standardFormat⟩, g4, g5, g6, fun _ => g7 (Or.inl rfl)⟩
    · rw [Disk.formatTracks, hstep]; exact g1
    · refine g2.mono ?_ rfl rfl rfl
      intro c t _ ht
      have hmem : c ∈ ch :: l ++ done ↔ c ∈ l ++ ch :: done := by
        simp only [List.mem_append, List.mem_cons]
        grind
      exact ⟨fun hm => ht.1 (hmem.1 hm), fun hm => ht.2 (fun hd => hm (hmem.2 hd))⟩


/-! ### Writing on a formatted disk -/

theorem FormatOk.write {f : StdFormat} {m : SectorMap} {ch : Ch} {x : DiskTrack} (h : FormatOk f m ch x)
    (q : Query) (buf dta : List Byte) (hl : m.lookup q = some dta) (hb : buf.length = dta.length) :
    ∃ x', x.writeSector q none buf false false = .ok ({}, x') ∧ FormatOk f (m.update q buf) ch x' := by
  obtain ⟨t, x0, l, rfl, hr, hio, hid, hm, hlen, hw1, hw2⟩ := h
  rw [← hm] at hl ⊢
  rcases lookup_cases q (x0 :: l) with ⟨h1, _⟩ | ⟨a, y, b, hab, h2, h3, h4, h5⟩
  · rw [h1] at hl; cases hl
  · rw [h4] at hl
    cases hl
    have hrel := hr
    rw [hab] at hr
    have hdel := (hr.clean y (by simp)).1
    obtain ⟨t', hw, hok, hlen'⟩ := hr.ok.writeSector q none h2 h3 false buf hb
    rw [hdel] at hw
    obtain ⟨w1, w2⟩ := writeSector_keeps hw
    have hclean : ∀ z ∈ a ++ y.written buf :: b, Clean z := by
      intro z hz
      rcases List.mem_append.1 hz with hz | hz
      · exact hr.clean z (by simp [hz])
      · rcases List.mem_cons.1 hz with rfl | hz
        · exact clean_written hdel buf
        · exact hr.clean z (by simp [hz])
    have hup : SectorMap.update q buf (toMap (x0 :: l)) = toMap (a ++ y.written buf :: b) := h5 (y.written buf) rfl
    obtain ⟨x1, l1, k1, k2, k3, k4⟩ : ∃ x1 l1, a ++ y.written buf :: b = x1 :: l1 ∧ x1.io = x0.io ∧ x1.id = x0.id ∧
        (x1 :: l1).length = (x0 :: l).length := by
      cases a with
      | nil =>
        rw [List.nil_append] at hab
        cases hab
        exact ⟨_, _, rfl, rfl, rfl, rfl⟩
      | cons z a =>
        rw [List.cons_append] at hab
        cases hab
        refine ⟨_, _, rfl, rfl, rfl, ?_⟩
        simp
    refine ⟨.bit ch t', by simp only [DiskTrack.writeSector, hw, Except.map], t', x1, l1, rfl, ?_, ?_, ?_, ?_, ?_, ?_, ?_⟩
    · rw [← k1]
      exact ⟨hok, hclean, by rw [hlen']; exact hrel.len⟩
    · rw [k2, hio]
    · rw [k3, hid]
    · rw [hup, k1]
    · rw [k4, hlen]
    · rw [w2]; exact hw1
    · rw [w2, w1]; exact hw2

/-- A track of the freshly formatted disk. -/
def freshTrack (f : StdFormat) (boot : List Byte) (ch : Ch) : SectorMap :=
  (List.range f.layout.s).map fun k =>
    (⟨ch.c, ch.h, k + 1, 2⟩, if ch.c = 0 ∧ ch.h = 0 ∧ k = 0 then boot else List.replicate 512 0)

theorem freshTrack_other (f : StdFormat) (boot : List Byte) (ch : Ch) (h : ch ≠ ⟨0, 0⟩) :
    freshTrack f boot ch = zeroTrack f ch := by
  unfold freshTrack zeroTrack
  apply List.map_congr_left
  intro k _
  rw [if_neg]
  rintro ⟨h1, h2, _⟩
  apply h
  cases ch; simp_all

theorem boot_query (f : StdFormat) (m : Nat → List Byte) (m' : Nat → List Byte) (buf : List Byte)
    (hm : m' = fun k => if k = 0 then buf else m k) :
    SectorMap.lookup ⟨some 0, some 0, 1, some 2⟩ ((List.range f.layout.s).map fun k =>
      ((⟨0, 0, k + 1, 2⟩ : Chsn), m k)) = some (m 0) ∧
    SectorMap.update ⟨some 0, some 0, 1, some 2⟩ buf ((List.range f.layout.s).map fun k =>
      ((⟨0, 0, k + 1, 2⟩ : Chsn), m k)) = (List.range f.layout.s).map fun k => (⟨0, 0, k + 1, 2⟩, m' k) := by
  obtain ⟨n, hn⟩ : ∃ n, f.layout.s = n + 1 := ⟨f.layout.s - 1, by cases f <;> decide⟩
  rw [hn, List.range_succ_eq_map, List.map_cons, List.map_cons]
  have ha : agrees ⟨some 0, some 0, 1, some 2⟩ (⟨0, 0, 0 + 1, 2⟩ : Chsn) = true := by decide
  constructor
  · rw [SectorMap.lookup, if_pos ha]
  · rw [SectorMap.update, if_pos ha, hm]
    congr 1
    rw [List.map_map, List.map_map]
    apply List.map_congr_left
    intro k _
    rfl

theorem Grid.rel {f : StdFormat} {M : Ch → SectorMap} {n : Nat × Nat} {d : Disk}
    (h : Grid (fun ch x => FormatOk f (M ch) ch x) n d) :
    DiskRel true d (fun ch => if ch.h < 2 ∧ ch.c < (if ch.h = 0 then n.1 else n.2) then some (M ch) else none) := by
  have hlen : ∀ a, a < 2 → (d.headMap a).length = if a = 0 then n.1 else n.2 := by
    intro a ha
    by_cases h0 : a = 0
    · subst h0; exact h.len0
    · have : a = 1 := by omega
      subst this; exact h.len1
  refine ⟨?_, ?_, ?_, h.apart⟩
  · intro ch hh
    show (if _ then _ else _) = _
    rw [if_neg (by omega)]
  · intro ch hh hn
    have := List.getElem?_eq_none_iff.1 hn
    rw [hlen _ hh] at this
    show (if _ then _ else _) = _
    rw [if_neg (by omega)]
  · intro ch i hh hi
    have := (List.getElem?_eq_some_iff.1 hi).1
    rw [hlen _ hh] at this
    obtain ⟨x, k1, k2⟩ := h.held ch i hh hi
    obtain ⟨t, x0, l, rfl, hr, _, _, hm, _⟩ := k2
    refine ⟨_, M ch, k1, if_pos ⟨hh, this⟩, ?_, fun _ => ⟨_, _, rfl⟩⟩
    rw [← hm]
    exact .bit hr

theorem FormatOk.count {f : StdFormat} {m : SectorMap} {ch : Ch} {x : DiskTrack} (h : FormatOk f m ch x) :
    x.sectorCt = f.layout.s ∧ x.analysisCt = some f.layout.s := by
  obtain ⟨t, x0, l, rfl, hr, _, _, _, hlen, _⟩ := h
  obtain ⟨c1, _, _⟩ := hr.ok.catalogue
  have : t.sectorIds.length = f.layout.s := by
    rw [c1, List.length_map, hlen]
  refine ⟨this, ?_⟩
  show t.schema.map _ = _
  rw [hr.ok.schema]
  show some t.sectorIds.length = _
  rw [this]

theorem Grid.spt {f : StdFormat} {M : Ch → SectorMap} {n : Nat × Nat} {d : Disk}
    (h : Grid (fun ch x => FormatOk f (M ch) ch x) n d) (hn : 0 < n.1) :
    d.analyze = { d with spt := some f.layout.s } := by
  apply analyze_all d f.layout.s (by cases f <;> decide)
  · intro t ht
    obtain ⟨j, hj, rfl⟩ := List.getElem_of_mem ht
    obtain ⟨ch, c1, c2⟩ := h.all j hj
    obtain ⟨x, k1, k2⟩ := h.held ch j c1 c2
    rw [List.getElem?_eq_getElem hj] at k1
    cases k1
    exact k2.count.2
  · have h0 : 0 < d.map0.length := by rw [h.len0]; exact hn
    refine ⟨d.map0[0], List.getElem_mem h0, ?_⟩
    exact h.lt (ch := ⟨0, 0⟩) (by decide) (List.getElem?_eq_getElem h0)

/-! ### The format -/

/-- The tracks per head of a format. -/
def perHead (f : StdFormat) : Nat × Nat := (f.layout.c, if f.layout.h = 2 then f.layout.c else 0)

theorem headMajor_seq (f : StdFormat) : seqEnd (0, 0) (Disk.headMajor f.layout) = some (perHead f) := by
  cases f <;> decide +kernel

theorem trackOrder_seq (f : StdFormat) : seqEnd (0, 0) (Raw.trackOrder f.layout) = some (perHead f) := by
  cases f <;> decide +kernel

theorem headMajor_mem (f : StdFormat) (ch : Ch) :
    ch ∈ Disk.headMajor f.layout ↔ ch.c < f.layout.c ∧ ch.h < f.layout.h := by
  unfold Disk.headMajor
  simp only [List.mem_flatMap, List.mem_map, List.mem_range]
  constructor
  · rintro ⟨h, h1, c, h2, rfl⟩
    exact ⟨h2, h1⟩
  · rintro ⟨h1, h2⟩
    exact ⟨ch.h, h2, ch.c, h1, rfl⟩

theorem headMajor_nodup (f : StdFormat) : (Disk.headMajor f.layout).Nodup := by
  cases f <;> decide +kernel

theorem format_spec (f : StdFormat) (hf : f.isPc = true) (nz : Noise) (d : Disk) (boot : Option (List Byte))
    (creator : Option (List Byte)) (hs : d.res.sect = false) (hb : d.res.bit = true ∨ d.res.isEmpty = true)
    (buf : List Byte) (hmb : Disk.makeBoot f boot creator = .ok buf) (hbl : buf.length = 512) :
    ∃ d', d.format nz f .bitStream .fat12 boot creator = (d', .ok ()) ∧
      Grid (fun ch x => FormatOk f (freshTrack f buf ch) ch x) (perHead f) d' ∧
      SameButTracks d.reset d' ∧ d'.res = d.res.insert .bitStream ∧ d'.spt = some f.layout.s := by
  have hrej : d.reset.rejects .bitStream = false := by
    show (!(false : Bool) && !d.res.isEmpty && !d.res.has .bitStream) = false
    rcases hb with hb | hb
    · rw [show d.res.has .bitStream = d.res.bit from rfl, hb]; simp
    · rw [hb]; simp
  obtain ⟨d1, a1, a2, a3, a4⟩ := addEmpties_spec f (Disk.headMajor f.layout) (0, 0) (perHead f) d.reset
    (grid_empty _ _ rfl rfl rfl) (headMajor_seq f) hrej hs
  have hhead : ∀ ch : Ch, ch.c < f.layout.c → ch.h < f.layout.h →
      ch.c < 256 ∧ ch.h < 2 ∧ ch.c < (d1.headMap ch.h).length := by
    intro ch h1 h2
    have hc : f.layout.c ≤ 80 := by cases f <;> decide
    have hh : f.layout.h = 1 ∨ f.layout.h = 2 := by cases f <;> decide
    refine ⟨by omega, by omega, ?_⟩
    by_cases h0 : ch.h = 0
    · rw [h0]
      show ch.c < d1.map0.length
      rw [a2.len0]; exact h1
    · have h1' : ch.h = 1 := by omega
      rw [h1']
      show ch.c < d1.map1.length
      rw [a2.len1]
      show ch.c < if f.layout.h = 2 then f.layout.c else 0
      rw [if_pos (by omega)]; exact h1
  obtain ⟨d2, b1, b2, b3, b4, b5, b6, b7⟩ := formatTracks_spec f hf nz (perHead f) (Disk.headMajor f.layout) [] d1
    (a2.mono (fun c t _ ht => ⟨(fun h => by cases h), fun _ => ht⟩) rfl rfl rfl) (headMajor_nodup f)
    (fun _ _ h => by cases h) (fun ch hch => hhead ch ((headMajor_mem f ch).1 hch).1 ((headMajor_mem f ch).1 hch).2)
  have hall : Grid (fun ch x => FormatOk f (zeroTrack f ch) ch x) (perHead f) d2 := by
    refine ⟨b2.len0, b2.len1, ?_, b2.all, b2.apart⟩
    intro ch i hh hi
    obtain ⟨x, k1, k2⟩ := b2.held ch i hh hi
    refine ⟨x, k1, k2.1 ?_⟩
    rw [List.append_nil, headMajor_mem]
    have hlt := (List.getElem?_eq_some_iff.1 hi).1
    by_cases h0 : ch.h = 0
    · rw [h0] at hlt
      have hlt : ch.c < d2.map0.length := hlt
      rw [b2.len0] at hlt
      exact ⟨hlt, by rw [h0]; cases f <;> decide⟩
    · have h1 : ch.h = 1 := by omega
      rw [h1] at hlt
      have hlt : ch.c < d2.map1.length := hlt
      rw [b2.len1] at hlt
      have hlt : ch.c < if f.layout.h = 2 then f.layout.c else 0 := hlt
      by_cases h2 : f.layout.h = 2
      · rw [if_pos h2] at hlt
        exact ⟨hlt, by omega⟩
      · rw [if_neg h2] at hlt; omega
  have h0c : 0 < d2.map0.length := by
    rw [hall.len0]; show 0 < f.layout.c; cases f <;> decide
  obtain ⟨x, k1, k2⟩ := hall.held ⟨0, 0⟩ d2.map0[0] (by show 0 < 2; decide) (List.getElem?_eq_getElem h0c)
  have hi : (d2.headMap 0)[0]? = some d2.map0[0] := List.getElem?_eq_getElem h0c
  generalize d2.map0[0] = i at hi k1
  obtain ⟨l1, l2⟩ := boot_query f (fun _ => List.replicate 512 0) (fun k => if k = 0 then buf else List.replicate 512 0)
    buf rfl
  obtain ⟨x', w1, w2⟩ := k2.write ⟨some 0, some 0, 1, some 2⟩ buf _ l1 (by rw [hbl, List.length_replicate])
  have hft : SectorMap.update ⟨some 0, some 0, 1, some 2⟩ buf (zeroTrack f ⟨0, 0⟩) = freshTrack f buf ⟨0, 0⟩ := by
    refine Eq.trans l2 ?_
    unfold freshTrack
    apply List.map_congr_left
    intro k _
    simp only [true_and]
  rw [hft] at w2
  have hfin := hall.set (P' := fun ch x => FormatOk f (freshTrack f buf ch) ch x) (ch := ⟨0, 0⟩) (i := i)
    (by show 0 < 2; decide) hi w2 (by
      intro c t hne ht
      show FormatOk f (freshTrack f buf c) c t
      rw [freshTrack_other f buf c hne]; exact ht)
  refine ⟨_, ?_, hfin, ?_, ?_, ?_⟩
  · unfold Disk.format
    rw [if_neg (by simp)]
    simp only [hmb, a1, b1]
    unfold Disk.writeBoot Disk.writeSector Disk.seek
    rw [if_neg (by decide), hi]
    simp only [k1, w1]
  · exact ⟨b3.multires.trans a3.multires, b3.geometry.trans a3.geometry, b3.boot.trans a3.boot,
      b3.standardFormat.trans a3.standardFormat⟩
  · show d2.res = _
    rw [b4, a4, if_neg]
    · rfl
    · intro he
      have : (⟨0, 0⟩ : Ch) ∈ Disk.headMajor f.layout := by
        rw [headMajor_mem]; exact (by cases f <;> decide)
      rw [he] at this; cases this
  · show d2.spt = _
    rw [b7 (Or.inr (by
      intro he
      have : (⟨0, 0⟩ : Ch) ∈ Disk.headMajor f.layout := by
        rw [headMajor_mem]; exact (by cases f <;> decide)
      rw [he] at this; cases this)), hall.spt (by show 0 < f.layout.c; cases f <;> decide)]

theorem fresh_rel {f : StdFormat} {buf : List Byte} {d : Disk}
    (h : Grid (fun ch x => FormatOk f (freshTrack f buf ch) ch x) (perHead f) d) :
    DiskRel true d (freshDisk f buf) := by
  have hr := h.rel
  have : (fun ch : Ch => if ch.h < 2 ∧ ch.c < (if ch.h = 0 then (perHead f).1 else (perHead f).2) then
      some (freshTrack f buf ch) else none) = freshDisk f buf := by
    funext ch
    unfold freshDisk perHead
    have hh : f.layout.h = 1 ∨ f.layout.h = 2 := by cases f <;> decide
    by_cases hin : ch.c < f.layout.c ∧ ch.h < f.layout.h
    · rw [if_pos hin, if_pos]
      · rfl
      · refine ⟨by omega, ?_⟩
        by_cases h0 : ch.h = 0
        · rw [if_pos h0]; exact hin.1
        · rw [if_neg h0]
          show ch.c < if f.layout.h = 2 then f.layout.c else 0
          rw [if_pos (by omega)]; exact hin.1
    · rw [if_neg hin, if_neg]
      rintro ⟨h1, h2⟩
      apply hin
      by_cases h0 : ch.h = 0
      · rw [if_pos h0] at h2; exact ⟨h2, by omega⟩
      · rw [if_neg h0] at h2
        have h2 : ch.c < if f.layout.h = 2 then f.layout.c else 0 := h2
        by_cases h2' : f.layout.h = 2
        · rw [if_pos h2'] at h2; exact ⟨h2, by omega⟩
        · rw [if_neg h2'] at h2; omega
  rw [← this]
  exact hr


/-! ### After the format -/

theorem FormatOk.differ {f : StdFormat} {m m' : SectorMap} {ch ch' : Ch} {t t' : Track} {c c' : Ch}
    (h : FormatOk f m ch (.bit c t)) (h' : FormatOk f m' ch' (.bit c' t')) (hne : ch.c ≠ ch'.c) :
    DiskTrack.packed t.data.bits.bits ≠ DiskTrack.packed t'.data.bits.bits := by
  intro heq
  obtain ⟨u, x0, l, e, hr, hio, hid, _⟩ := h
  obtain ⟨u', x0', l', e', hr', hio', hid', _⟩ := h'
  cases e; cases e'
  have hcells : t.data.bits.bits.length = t'.data.bits.bits.length := by
    obtain ⟨B, hs1⟩ := hr.ok.stream
    obtain ⟨B', hs2⟩ := hr'.ok.stream
    have l1 := hs1.cells.len
    have l2 := hs2.cells.len
    have m1 := hr.len
    have m2 := hr'.len
    unfold Mfm.len BitRing.len at m1 m2
    omega
  have hbits := packed_inj _ _ hcells heq
  have := same_cells hr hr' (by rw [hio, hio']) hbits
  apply hne
  rw [← hid, ← hid', this]

theorem Grid.normal {f : StdFormat} {M : Ch → SectorMap} {d : Disk}
    (h : Grid (fun ch x => FormatOk f (M ch) ch x) (perHead f) d)
    (H : List Byte → Nat) (nz : Noise) (hH : NoCollision H d) : d.normalize H nz = d := by
  have hs : 0 < f.layout.s := by cases f <;> decide
  have hc : f.layout.c = 40 ∨ f.layout.c = 80 := by cases f <;> decide
  have hlen : d.map0.length = f.layout.c := h.len0
  have hmem : ∀ i ∈ d.headMap 0, ∃ c x, d.pool[i]? = some x ∧ FormatOk f (M ⟨c, 0⟩) ⟨c, 0⟩ x := by
    intro i hi
    obtain ⟨c, hc, rfl⟩ := List.getElem_of_mem hi
    obtain ⟨x, k1, k2⟩ := h.held ⟨c, 0⟩ _ (by show 0 < 2; decide) (List.getElem?_eq_getElem hc)
    exact ⟨c, x, k1, k2⟩
  unfold Disk.normalize
  simp only
  have h1 : ¬ (d.trackIdx.length > 50 ∧ d.emptyOdd 0 ≥ Disk.normCyl d.trackIdx.length / 2) := by
    rintro ⟨a, b⟩
    have hz : d.emptyOdd 0 = 0 := by
      unfold Disk.emptyOdd
      rw [List.length_eq_zero_iff, List.filter_eq_nil_iff]
      intro p hp
      obtain ⟨_, p2⟩ := pairs_mem _ p hp
      obtain ⟨c, t, k1, k2⟩ := hmem _ p2
      rw [k1]
      cases d.pool[p.1]? with
      | none => simp
      | some a => simp [k2.count.1]; omega
    rw [hz] at b
    unfold Disk.normCyl at b
    split at b
    · omega
    · split at b <;> omega
  rw [if_neg h1]
  have h2 : ¬ (d.map0.length > 50 ∧ d.duplicateOdd H nz 0 ≥ Disk.normCyl d.map0.length / 2) := by
    rintro ⟨a, b⟩
    rw [hlen] at a b
    have h80 : f.layout.c = 80 := by omega
    rw [h80] at b
    have b : d.duplicateOdd H nz 0 ≥ 40 := b
    have hp : (Disk.pairs (d.headMap 0)).length = 40 := by
      rw [pairs_length, show (d.headMap 0).length = f.layout.c from hlen, h80]
    have hl0 : (d.headMap 0).length = 80 := by rw [← h80]; exact hlen
    obtain ⟨i0, i1, rest, hm⟩ : ∃ i0 i1 rest, d.headMap 0 = i0 :: i1 :: rest := by
      cases hm : d.headMap 0 with
      | nil => rw [hm] at hl0; cases hl0
      | cons i0 r =>
        cases r with
        | nil => rw [hm] at hl0; cases hl0
        | cons i1 rest => exact ⟨i0, i1, rest, rfl⟩
    have hfirst : (i0, i1) ∈ Disk.pairs (d.headMap 0) := by
      rw [hm, Disk.pairs]; exact List.mem_cons_self
    have hlt : d.duplicateOdd H nz 0 < (Disk.pairs (d.headMap 0)).length := by
      unfold Disk.duplicateOdd
      rw [List.length_filter_lt_length_iff_exists]
      refine ⟨_, hfirst, ?_⟩
      obtain ⟨x0, u0, v0⟩ := h.held ⟨0, 0⟩ i0 (by show 0 < 2; decide) (by show (d.headMap 0)[0]? = _; rw [hm]; rfl)
      obtain ⟨x1, u1, v1⟩ := h.held ⟨1, 0⟩ i1 (by show 0 < 2; decide) (by show (d.headMap 0)[1]? = _; rw [hm]; rfl)
      simp only [u0, u1]
      have v0' := v0
      have v1' := v1
      obtain ⟨t, _, _, rfl, _⟩ := v0
      obtain ⟨t', _, _, rfl, _⟩ := v1
      intro hand
      rw [Bool.and_eq_true, beq_iff_eq] at hand
      exact v0'.differ v1' (by show (0 : Nat) ≠ 1; decide)
        (hH _ _ _ _ (List.mem_of_getElem? u0) (List.mem_of_getElem? u1) hand.2)
    omega
  rw [if_neg h2]

/-- The boot sector is found again when the image is examined. -/
theorem postLoad_fresh {f : StdFormat} {buf : List Byte} {d : Disk}
    (h : Grid (fun ch x => FormatOk f (freshTrack f buf ch) ch x) (perHead f) d) (hbl : buf.length = 512)
    (H : List Byte → Nat) (nz : Noise) (hH : NoCollision H d) :
    ∃ d', d.postLoad H nz = .ok d' ∧ Grid (fun ch x => FormatOk f (freshTrack f buf ch) ch x) (perHead f) d' ∧
      d'.pool = d.pool ∧ d'.map0 = d.map0 ∧ d'.map1 = d.map1 ∧ d'.geometry = d.geometry ∧
      d'.spt = some f.layout.s ∧ d'.boot.bind (·.standardFormat) = bootFormat buf ∧ d'.res = d.res := by
  have hc0 : 0 < f.layout.c := by cases f <;> decide
  have hrel := fresh_rel h
  have hboot : ({ d with spt := some f.layout.s } : Disk).readBoot nz = .ok buf := by
    unfold Disk.readBoot
    have h0c : 0 < d.map0.length := by rw [h.len0]; exact hc0
    cases hm : d.map0 with
    | nil => rw [hm] at h0c; cases h0c
    | cons i rest =>
      simp only
      obtain ⟨t, m, k1, k2, k3, _⟩ := hrel.held ⟨0, 0⟩ i (by show 0 < 2; decide) (by
        show (d.map0)[0]? = some i
        rw [hm]; rfl)
      simp only [k1]
      obtain ⟨r, r1, r2, r3⟩ := k3.read nz ⟨some 0, some 0, 1, some 2⟩ none (Or.inl rfl) true
      have hmm : m = freshTrack f buf ⟨0, 0⟩ := by
        have : freshDisk f buf ⟨0, 0⟩ = some (freshTrack f buf ⟨0, 0⟩) := by
          unfold freshDisk
          rw [if_pos (by cases f <;> decide)]
          rfl
        rw [k2] at this
        exact Option.some.inj this
      obtain ⟨q1, _⟩ := boot_query f (fun k => if k = 0 then buf else List.replicate 512 0) _ buf rfl
      have hq : SectorMap.lookup ⟨some 0, some 0, 1, some 2⟩ m = some buf := by
        rw [hmm]
        refine Eq.trans ?_ q1
        congr 1
        unfold freshTrack
        apply List.map_congr_left
        intro k _
        simp only [true_and]
      obtain ⟨_, _, r4, r5, _⟩ := r3 _ hq
      rw [r1]
      simp only
      rw [if_neg (by omega), r5]
  obtain ⟨b, hb, hbf⟩ : ∃ b, BootSector.new buf = some b ∧ b.standardFormat = bootFormat buf := by
    unfold BootSector.new
    rw [if_neg (by omega)]
    exact ⟨_, rfl, rfl⟩
  have hload : d.postLoad H nz =
      .ok (Disk.examineBoot.finish { d with spt := some f.layout.s, boot := some b }) := by
    unfold Disk.postLoad
    rw [h.normal H nz hH, h.spt hc0]
    unfold Disk.examineBoot
    rw [hboot]
    simp only [hb]
  refine ⟨_, hload, ?_⟩
  have hfin : ∀ x : Disk, ∃ s, Disk.examineBoot.finish x = { x with standardFormat := s } := by
    intro x
    unfold Disk.examineBoot.finish
    split
    · exact ⟨_, rfl⟩
    · exact ⟨x.standardFormat, rfl⟩
  obtain ⟨s, hs⟩ := hfin { d with spt := some f.layout.s, boot := some b }
  rw [hs]
  exact ⟨h.mono (fun _ _ _ h => h) rfl rfl rfl, rfl, rfl, rfl, rfl, rfl, hbf, rfl⟩

/-! ### The sector image of a fresh disk -/

theorem freshDisk_img (f : StdFormat) (hf : f.isPc = true) (buf : List Byte) (hbl : buf.length = 512) :
    freshDisk f buf = imgDisk f.layout (buf ++ List.replicate (f.diskSize - 512) 0) := by
  funext ch
  unfold freshDisk imgDisk
  by_cases hin : ch.c < f.layout.c ∧ ch.h < f.layout.h
  · rw [if_pos hin, if_pos hin]
    unfold imgTrack
    have e1 : (ch.c * f.layout.h + ch.h) / f.layout.h = ch.c := by
      rw [Nat.mul_comm, Nat.mul_add_div (by omega), Nat.div_eq_of_lt hin.2, Nat.add_zero]
    have e2 : (ch.c * f.layout.h + ch.h) % f.layout.h = ch.h := by
      rw [Nat.mul_comm, Nat.mul_add_mod, Nat.mod_eq_of_lt hin.2]
    have hoff : f.layout.sOff = 1 := by cases f <;> first | rfl | exact absurd hf (by decide)
    rw [e1, e2, layout_n, (C31_sizes f f).2.2.2, hoff]
    congr 1
    apply List.map_congr_left
    intro k hk
    have hk := List.mem_range.1 hk
    have hle : ((ch.c * f.layout.h + ch.h) * f.layout.s + k + 1) * 512 ≤ f.diskSize := by
      have h1 : ch.c * f.layout.h + ch.h + 1 ≤ f.layout.c * f.layout.h := by
        have : (ch.c + 1) * f.layout.h ≤ f.layout.c * f.layout.h := Nat.mul_le_mul_right _ hin.1
        rw [Nat.succ_mul] at this
        omega
      have h2 : (ch.c * f.layout.h + ch.h + 1) * f.layout.s ≤ f.layout.c * f.layout.h * f.layout.s :=
        Nat.mul_le_mul_right _ h1
      rw [Nat.succ_mul] at h2
      have h3 : f.layout.c * f.layout.h * f.layout.s * 512 = f.diskSize := by cases f <;> decide
      rw [← h3]
      exact Nat.mul_le_mul_right _ (by omega)
    refine Prod.ext rfl ?_
    show (if _ then _ else _) = slice _ _ _
    generalize hp : (ch.c * f.layout.h + ch.h) * f.layout.s + k = p at hle ⊢
    by_cases h0 : ch.c = 0 ∧ ch.h = 0 ∧ k = 0
    · rw [if_pos h0]
      have : p = 0 := by rw [← hp, h0.1, h0.2.1, h0.2.2]; simp
      rw [this, Nat.zero_mul]
      unfold slice
      rw [List.drop_zero, ← hbl, List.take_left]
    · rw [if_neg h0]
      have hp1 : 1 ≤ p := by
        rcases Nat.eq_zero_or_pos p with hz | hz
        · exfalso
          apply h0
          rw [hz] at hp
          have hs : 0 < f.layout.s := by omega
          have hk0 : k = 0 := by omega
          have hm : (ch.c * f.layout.h + ch.h) * f.layout.s = 0 := by omega
          rcases Nat.mul_eq_zero.1 hm with hm | hm
          · have h1 : ch.c * f.layout.h = 0 := by omega
            rcases Nat.mul_eq_zero.1 h1 with h1 | h1
            · exact ⟨h1, by omega, hk0⟩
            · omega
          · omega
        · exact hz
      unfold slice
      have h512 : 512 ≤ p * 512 := by omega
      rw [List.drop_append, List.drop_of_length_le (by omega), List.nil_append, List.drop_replicate, List.take_replicate]
      congr 1
      rw [hbl]
      rw [Nat.succ_mul] at hle
      omega
  · rw [if_neg hin, if_neg hin]

end Fox
