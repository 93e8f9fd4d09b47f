import Verif.Proofs.Scp
import Verif.Props.Hxc
/-
The SuperCard Pro loader as a whole.
-/
namespace Fox
open Spec Flux
namespace Scp

theorem subU_le {debug : Bool} {w a b : Nat} (h : b ≤ a) : F86.subU debug w a b = .ok (a - b) := if_pos h

theorem testBit_six {b : Nat} : b.testBit 6 = false ↔ b / 64 % 2 = 0 := by
  rw [Nat.testBit_eq_decide_div_mod_eq]
  simp

theorem known_iff {b : Nat} : knownType b = true ↔ ScpFile.Known b := by
  unfold knownType ScpFile.Known
  simp [or_assoc]

/-- The header that is read. -/
def seenHeader (f : List Byte) : Header := .mk (ScpFile.turns f) (ScpFile.sides f) (ScpFile.tick f) (ScpFile.byte f 8 / 16 % 2 == 0)

theorem header_ok {f : List Byte} (h1 : 16 ≤ f.length ∧ f.take 3 = [0x53#8, 0x43#8, 0x50#8] ∧ ScpFile.Known (ScpFile.byte f 4))
    (h2 : (ScpFile.byte f 8).testBit 6 = false ∧ ScpFile.byte f 9 = 0 ∧ ScpFile.byte f 10 < 2) :
    header f = .ok (seenHeader f) := by
  obtain ⟨a1, a2, a3⟩ := h1
  obtain ⟨b1, b2, b3⟩ := h2
  have c1 : knownType (u8At f 4) = true := known_iff.2 a3
  have c2 : u8At f 8 / 64 % 2 = 0 := testBit_six.1 b1
  have c3 : u8At f 9 = 0 := b2
  have c4 : u8At f 10 < 2 := b3
  unfold header
  rw [if_neg (by omega), if_neg (by rw [a2]; decide), if_neg (by rw [c1]; decide), if_neg (by omega), if_neg (by omega),
    if_neg (by omega)]
  have e : 25 + u8At f 11 * 25 = ScpFile.tick f := by
    show _ = 25 * (u8At f 11 + 1)
    omega
  rw [e]
  rfl

theorem header_inv {f : List Byte} {h : Header} (e : header f = .ok h) :
    (16 ≤ f.length ∧ f.take 3 = [0x53#8, 0x43#8, 0x50#8] ∧ ScpFile.Known (ScpFile.byte f 4)) ∧
    ((ScpFile.byte f 8).testBit 6 = false ∧ ScpFile.byte f 9 = 0 ∧ ScpFile.byte f 10 < 2) := by
  unfold header at e
  split at e
  · cases e
  rename_i a1
  split at e
  · cases e
  rename_i a2
  split at e
  · cases e
  rename_i a3
  split at e
  · cases e
  rename_i a4
  split at e
  · cases e
  rename_i a5
  split at e
  · cases e
  rename_i a6
  have hk : ¬ knownType (u8At f 4) = false → knownType (ScpFile.byte f 4) = true := fun h => by
    have : knownType (u8At f 4) = true := by simpa using h
    exact this
  refine ⟨⟨by omega, by simpa [signature] using a2, known_iff.1 (hk a3)⟩, testBit_six.2 ?_, ?_, ?_⟩
  · show u8At f 8 / 64 % 2 = 0; omega
  · show u8At f 9 = 0; omega
  · show u8At f 10 < 2; omega

/-- No track can begin inside the first entry of the table. -/
theorem not_inside {f : List Byte} (h : ScpFile.offset f 0 < 20) (h16 : 16 ≤ ScpFile.offset f 0) :
    (f.drop (ScpFile.offset f 0)).take 3 ≠ [0x54#8, 0x52#8, 0x4B#8] := by
  intro hc
  have hb : ∀ i, ScpFile.byte f i < 256 := fun i => (f.getD i 0#8).isLt
  have hv : ScpFile.offset f 0 = (ScpFile.byte f 16 + 256 * ScpFile.byte f 17) + 65536 * (ScpFile.byte f 18 + 256 * ScpFile.byte f 19) := rfl
  have h16' := hb 16; have h17' := hb 17; have h18' := hb 18; have h19' := hb 19
  have hget : ScpFile.byte f (ScpFile.offset f 0) = 0x54 := by
    have : (f.drop (ScpFile.offset f 0))[0]? = some 0x54#8 := by
      have e : ((f.drop (ScpFile.offset f 0)).take 3)[0]? = some 0x54#8 := by rw [hc]; rfl
      rw [List.getElem?_take] at e
      simpa using e
    rw [List.getElem?_drop, Nat.add_zero] at this
    unfold ScpFile.byte
    rw [List.getD_eq_getElem?_getD, this]; rfl
  rcases (by omega : ScpFile.offset f 0 = 16 ∨ ScpFile.offset f 0 = 17 ∨ ScpFile.offset f 0 = 18 ∨ ScpFile.offset f 0 = 19) with e | e | e | e
  all_goals (rw [e] at hget hv; omega)

theorem table_ok {debug : Bool} {f : List Byte} (h1 : 20 ≤ ScpFile.offset f 0) (hl : ScpFile.offset f 0 < f.length)
    (ho : (ScpFile.offsets f).Pairwise (· < ·)) (hi : ∀ o ∈ ScpFile.offsets f, o < f.length) :
    table debug f = .ok (ScpFile.offsets f) := by
  unfold table
  have e0 : le32At f 16 = ScpFile.offset f 0 := rfl
  rw [e0, if_neg (by omega), if_neg (by omega)]
  have hn : (ScpFile.offset f 0 - 16) / 4 = ScpFile.entries f := rfl
  have hge : 1 ≤ ScpFile.entries f := by unfold ScpFile.entries; omega
  rw [hn, subU_le hge]
  simp only
  have e1 : ((List.range (ScpFile.entries f - 1)).map fun i => ScpFile.offset f (i + 1)) =
      (List.range (ScpFile.entries f - 1)).map fun i => ScpFile.dword f (20 + 4 * i) := by
    apply List.map_congr_left
    intro i _
    unfold ScpFile.offset
    rw [show 16 + 4 * (i + 1) = 20 + 4 * i by omega]
  have e2 : ScpFile.offsets f = ScpFile.offset f 0 ::
      ((List.range (ScpFile.entries f - 1)).map fun i => ScpFile.dword f (20 + 4 * i)).takeWhile (· ≠ 0) := by
    unfold ScpFile.offsets; rw [e1]
  rw [e2] at ho hi ⊢
  rw [tableLoop_ok f _ 20 _ (by unfold ScpFile.entries; omega) ho (fun x hx => hi x (List.mem_cons_of_mem _ hx))]

theorem table_inv {debug : Bool} {f : List Byte} {l : List Nat} (h : table debug f = .ok l) :
    20 ≤ f.length ∧ 16 ≤ ScpFile.offset f 0 ∧ (∃ l', l = ScpFile.offset f 0 :: l') ∧
    (20 ≤ ScpFile.offset f 0 → l = ScpFile.offsets f ∧ l.Pairwise (· < ·)) := by
  unfold table at h
  have e0 : le32At f 16 = ScpFile.offset f 0 := rfl
  rw [e0] at h
  split at h
  · cases h
  rename_i h1
  split at h
  · cases h
  rename_i h2
  cases hs : F86.subU debug 64 ((ScpFile.offset f 0 - 16) / 4) 1 with
  | error e => rw [hs] at h; cases h
  | ok n =>
    rw [hs] at h
    simp only at h
    cases ht : tableLoop f n 20 (ScpFile.offset f 0) with
    | error e => rw [ht] at h; cases h
    | ok l' =>
      rw [ht] at h
      cases h
      refine ⟨by omega, by omega, ⟨_, rfl⟩, ?_⟩
      intro h20
      have hge : 1 ≤ ScpFile.entries f := by unfold ScpFile.entries; omega
      have hn : n = ScpFile.entries f - 1 := by
        rw [show (ScpFile.offset f 0 - 16) / 4 = ScpFile.entries f from rfl, subU_le hge] at hs
        cases hs; rfl
      obtain ⟨g1, g2⟩ := tableLoop_inv f n 20 _ _ ht
      refine ⟨?_, g2⟩
      rw [g1, hn]
      unfold ScpFile.offsets
      congr 2
      apply List.map_congr_left
      intro i _
      unfold ScpFile.offset
      rw [show 16 + 4 * (i + 1) = 20 + 4 * i by omega]

/-- The disk that a well-formed file becomes. -/
def loaded (debug : Bool) (rnd : Nat → Bool) (fm : FmCodec) (f : List Byte) : Disk :=
  { pushFlux {} (madeAll debug rnd fm f 0 (ScpFile.offsets f)) with
    geometry := ⟨((ScpFile.offsets f).length - 1) / ScpFile.sides f + 1, ScpFile.sides f⟩ }

theorem load_ok {debug : Bool} {f : List Byte} (h : ScpFile.WellFormed debug f) (rnd : Nat → Bool) (fm : FmCodec)
    (hfm : FmFine fm f 0 (ScpFile.offsets f)) :
    ∃ i, load debug rnd fm {} f = .ok (loaded debug rnd fm f, i) ∧ i.writeProtect = (ScpFile.byte f 8 / 16 % 2 == 0) ∧
      ∀ m, make debug rnd fm none none ((List.range (ScpFile.turns f)).map
        (seenRev f (ScpFile.offset f 0) (ScpFile.place f 0))) = .ok m → i.rate = rateOfMade m := by
  have hin : ∀ o ∈ ScpFile.offsets f, o < f.length := fun o ho => by have := (h.inside o ho).1; omega
  have h0 : ScpFile.offset f 0 ∈ ScpFile.offsets f := List.mem_cons_self
  have hT : ∀ o ∈ ScpFile.offsets f, TrackOk debug f o := fun o ho => ⟨h.inside o ho, fun j hj => h.data o ho j hj⟩
  have hH := header_ok h.header h.plain
  obtain ⟨r, t1, t2, _, t3⟩ := tracks_ok debug rnd fm f (seenHeader f) rfl rfl rfl (ScpFile.offsets f) 0 {} none rfl (by have := h.few; omega) hT hfm
  have hne : r ≠ none := t2 (Or.inl (by unfold ScpFile.offsets; simp))
  obtain ⟨rr, rfl⟩ := Option.ne_none_iff_exists'.1 hne
  refine ⟨⟨rr, _⟩, ?_, rfl, fun m hm => by have := t3 _ _ rfl rfl m hm; injection this⟩
  unfold load
  rw [hH]
  simp only
  rw [table_ok h.first (hin _ h0) h.order hin]
  simp only
  rw [show (none : Option Ch) = before (ScpFile.sides f) 0 from rfl, t1]
  simp only
  unfold loaded
  congr 3
  have hl : (ScpFile.offsets f).length = ((ScpFile.offsets f).length - 1) + 1 := by
    have : 0 < (ScpFile.offsets f).length := List.length_pos_of_mem h0
    omega
  rw [Nat.zero_add]
  generalize (ScpFile.offsets f).length = n at *
  rw [hl]
  rfl

theorem wellFormed_of_ok {debug : Bool} {f : List Byte} {rnd : Nat → Bool} {fm : FmCodec} {r : Disk × Info}
    (e : load debug rnd fm {} f = .ok r) : ScpFile.WellFormed debug f ∧ FmFine fm f 0 (ScpFile.offsets f) := by
  unfold load at e
  cases hh : header f with
  | error x => rw [hh] at e; cases e
  | ok h =>
    rw [hh] at e
    simp only at e
    cases ht : table debug f with
    | error x => rw [ht] at e; cases e
    | ok l =>
      rw [ht] at e
      simp only at e
      obtain ⟨a1, a2⟩ := header_inv hh
      obtain ⟨b1, b2, b3, b4⟩ := table_inv ht
      have he : h = seenHeader f := by
        rw [header_ok a1 a2] at hh; cases hh; rfl
      have hgood : 0 + l.length ≤ 84 * ScpFile.sides f ∧ ∀ o ∈ l, TrackOk debug f o := by
        by_contra hn
        obtain ⟨x, hx⟩ := tracks_bad debug rnd fm f h (by rw [he]; rfl) (by rw [he]; rfl) l 0 {} none (by omega) hn
        rw [show before (ScpFile.sides f) 0 = none from rfl] at hx
        rw [hx] at e
        cases e
      have h20 : 20 ≤ ScpFile.offset f 0 := by
        by_contra hlt
        obtain ⟨l', rfl⟩ := b3
        exact not_inside (by omega) b2 (hgood.2 _ List.mem_cons_self).1.2.1
      obtain ⟨b5, b6⟩ := b4 h20
      rw [b5] at hgood b6
      refine ⟨⟨a1, a2, h20, b6, by omega, fun o ho => (hgood.2 o ho).1, fun o ho => (hgood.2 o ho).2⟩, ?_⟩
      rw [b5] at e
      cases hk : tracks debug rnd fm f h (ScpFile.offsets f) none {} none with
      | error x => rw [hk] at e; cases e
      | ok res => exact tracks_fine (by rw [he]; rfl) (by rw [he]; rfl) (by rw [he]; rfl) _ 0 _ _ _ hgood.1 hgood.2 hk

/-! ## Where the tracks are -/

/-- The disks differ only in what they know of their resolutions. -/
theorem pushFlux_same : ∀ (xs : List DiskTrack) (d d' : Disk), d.pool = d'.pool → d.map0 = d'.map0 → d.map1 = d'.map1 →
    (pushFlux d xs).pool = (pushAll d' xs).pool ∧ (pushFlux d xs).map0 = (pushAll d' xs).map0 ∧
    (pushFlux d xs).map1 = (pushAll d' xs).map1
  | [], d, d', h1, h2, h3 => ⟨h1, h2, h3⟩
  | x :: xs, d, d', h1, h2, h3 => by
    show (pushFlux (withFlux d x) xs).pool = (pushAll (withTrack d' x.ch.h x) xs).pool ∧ _
    refine pushFlux_same xs (withFlux d x) (withTrack d' x.ch.h x) ?_ ?_ ?_
    all_goals
      unfold withFlux withTrack Disk.pushTrack Disk.pushMap
      simp only [h1]
      split <;> simp [h1, h2, h3]

theorem divmod_ordered' (S : Nat) (hS : S = 1 ∨ S = 2) (n : Nat) :
    OrderedChs ((List.range n).map fun i => (⟨i / S, i % S⟩ : Ch)) := by
  have h := divmod_ordered S hS n
  intro i ch hi
  have hlt : i < n := by
    have := (List.getElem?_eq_some_iff.1 hi).1
    simpa using this
  have hle : n ≤ n * S := Nat.le_mul_of_pos_right _ (by omega)
  have hi' : ((List.range n).map fun i => (⟨i / S, i % S⟩ : Ch))[i]? = ((List.range (n * S)).map fun i => (⟨i / S, i % S⟩ : Ch))[i]? := by
    rw [List.getElem?_map, List.getElem?_map, List.getElem?_range hlt, List.getElem?_range (by omega)]
  obtain ⟨g1, g2⟩ := h i ch (by rw [← hi']; exact hi)
  refine ⟨g1, ?_⟩
  rw [g2]
  rw [← List.map_take, ← List.map_take, List.take_range, List.take_range, Nat.min_eq_left (by omega), Nat.min_eq_left (by omega)]

theorem madeAll_get (debug : Bool) (rnd : Nat → Bool) (fm : FmCodec) (f : List Byte) : ∀ (os : List Nat) (i k : Nat),
    (madeAll debug rnd fm f i os)[k]? = os[k]?.map fun o => madeTrack debug rnd fm f (i + k) o
  | [], _, _ => rfl
  | o :: os, i, 0 => rfl
  | o :: os, i, k + 1 => by
    rw [madeAll, List.getElem?_cons_succ, List.getElem?_cons_succ, madeAll_get debug rnd fm f os (i + 1) k,
      show i + 1 + k = i + (k + 1) by omega]

theorem madeAll_ch (debug : Bool) (rnd : Nat → Bool) (fm : FmCodec) (f : List Byte) (os : List Nat) :
    (madeAll debug rnd fm f 0 os).map DiskTrack.ch = (List.range os.length).map fun i => ScpFile.place f i := by
  apply List.ext_getElem?
  intro k
  rw [List.getElem?_map, List.getElem?_map, madeAll_get, Option.map_map]
  rcases Nat.lt_or_ge k os.length with h | h
  · rw [List.getElem?_eq_getElem h, List.getElem?_range h]
    simp only [Option.map_some, Function.comp, madeTrack_ch, Nat.zero_add]
  · rw [List.getElem?_eq_none h, List.getElem?_eq_none (by simpa using h)]
    rfl

theorem loaded_at (debug : Bool) (rnd : Nat → Bool) (fm : FmCodec) (f : List Byte) {ch : Ch} (hh : ch.h < 2) (x : DiskTrack) :
    at? (loaded debug rnd fm f) ch.h ch.c = some x ↔
      ∃ (i : Nat) (o : Nat), (ScpFile.offsets f)[i]? = some o ∧ x = madeTrack debug rnd fm f i o ∧ ScpFile.place f i = ch := by
  obtain ⟨p1, p2, p3⟩ := pushFlux_same (madeAll debug rnd fm f 0 (ScpFile.offsets f)) {} {} rfl rfl rfl
  have e : at? (loaded debug rnd fm f) ch.h ch.c = at? (pushAll {} (madeAll debug rnd fm f 0 (ScpFile.offsets f))) ch.h ch.c := by
    unfold at? loaded Disk.headMap
    simp only [p1, p2, p3]
  rw [e, pushAll_at (by rw [madeAll_ch]; exact divmod_ordered' _ (sides_cases f) _) hh]
  constructor
  · rintro ⟨h1, h2⟩
    obtain ⟨i, hi⟩ := List.mem_iff_getElem?.1 h1
    rw [madeAll_get, Option.map_eq_some_iff] at hi
    obtain ⟨o, ho, rfl⟩ := hi
    rw [Nat.zero_add] at h2 ⊢
    rw [madeTrack_ch] at h2
    exact ⟨i, o, ho, rfl, h2⟩
  · rintro ⟨i, o, ho, rfl, h⟩
    refine ⟨List.mem_iff_getElem?.2 ⟨i, ?_⟩, by rw [madeTrack_ch]; exact h⟩
    rw [madeAll_get, ho, Nat.zero_add]
    rfl

end Scp
end Fox
