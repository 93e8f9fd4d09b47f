import Verif.Proofs.Fm
/-
The FM scan: marks, headers, and when it panics.
-/
namespace Fox.Fm
open Fox.Spec Fox.S34
open FmDisk (cellsOfByte plain mark At MarkAt First Scanned Usual idField Room)

theorem first_unique {t : List Bool} {off p q : Nat} {d e : Byte} (h : First t off p d) (g : First t off q e) :
    p = q ∧ d = e := by
  have : p = q := by
    apply Nat.le_antisymm
    · exact Nat.le_of_not_lt fun hlt => h.2.2 q e g.1 hlt g.2.1
    · exact Nat.le_of_not_lt fun hlt => g.2.2 p d h.1 hlt h.2.1
  subst this
  exact ⟨rfl, markAt_unique h.2.1 g.2.1⟩

theorem scanned_unique {t : List Bool} {off : Nat} {l l' : List (Nat × Byte)} (h : Scanned t off l) :
    Scanned t off l' → l = l' := by
  induction h generalizing l' with
  | none h =>
    intro g
    cases g with
    | none _ => rfl
    | stop g _ _ => rfl
    | next g _ _ => exact absurd g.2.1 (h _ _ g.1)
  | stop h h1 h2 =>
    intro g
    cases g with
    | none _ => rfl
    | stop g _ _ => rfl
    | next g g1 _ =>
      obtain ⟨rfl, rfl⟩ := first_unique h g
      rcases g1 with e | e
      · exact absurd e h1
      · exact absurd e h2
  | next h h1 _ ih =>
    intro g
    cases g with
    | none g => exact absurd h.2.1 (g _ _ h.1)
    | stop g g1 g2 =>
      obtain ⟨rfl, rfl⟩ := first_unique h g
      rcases h1 with e | e
      · exact absurd e g1
      · exact absurd e g2
    | next g g1 g2 =>
      obtain ⟨rfl, rfl⟩ := first_unique h g
      rw [ih g2]

/-- The marker the scan makes of a mark. -/
def item (x : Nat × Byte) : MarkerItem := ⟨if x.2 = 0xFE#8 then .idam else .dam, x.1⟩

theorem scanLoop_spec (debug : Bool) (s : Fm) : ∀ (fuel cur : Nat), s.bits.length < fuel + cur →
    (0 < cur ∨ ∀ d, ¬ MarkAt s.bits 0 d) →
    ∃ l, Scanned s.bits cur l ∧ scanLoop debug s fuel cur = .ok (l.map item)
  | 0, cur, hf, _ => by
    refine ⟨[], .none fun p d hp hd => ?_, rfl⟩
    have := ((markAt_iff _ _ _).1 hd).1
    omega
  | fuel + 1, cur, hf, h0 => by
    rw [scanLoop]
    rcases findNext_spec debug s cur h0 with ⟨h1, h2⟩ | ⟨p, d, h1, h2⟩
    · rw [h1]; exact ⟨[], .none h2, rfl⟩
    · rw [h2]
      unfold known
      by_cases e1 : d = 0xFE#8
      · rw [if_pos e1]
        simp only [Option.map_some]
        obtain ⟨l, hl, hs⟩ := scanLoop_spec debug s fuel (p + 64) (by have := h1.1; omega) (Or.inl (by omega))
        rw [hs]
        refine ⟨(p, d) :: l, .next h1 (Or.inl e1) hl, ?_⟩
        simp only [List.map_cons, item, e1, if_true]
      · rw [if_neg e1]
        by_cases e2 : d = 0xFB#8
        · rw [if_pos e2]
          simp only [Option.map_some]
          obtain ⟨l, hl, hs⟩ := scanLoop_spec debug s fuel (p + 64) (by have := h1.1; omega) (Or.inl (by omega))
          rw [hs]
          refine ⟨(p, d) :: l, .next h1 (Or.inr e2) hl, ?_⟩
          simp only [List.map_cons, item, if_neg e1]
        · rw [if_neg e2]
          exact ⟨[], .stop h1 e1 e2, rfl⟩

/-- The search for an index mark looks for FC. -/
theorem hit_iam (bits : List Bool) (p : Nat) (hp : p + 64 ≤ bits.length)
    (h : hit { bits := Marker.iam.code } (win bits p) = true) : MarkAt bits p 0xFC#8 := by
  unfold hit at h
  rw [Bool.and_eq_true, beq_iff_eq, beq_iff_eq] at h
  rw [markAt_iff]
  have hc := (clock_iff _).1 h.1
  refine ⟨hp, fun k hk => ?_, fun k hk => ?_, fun k hk => ?_⟩
  · rw [← win_getMsbD _ _ _ (by omega)]; exact hc.1 k hk
  · rw [Nat.add_assoc, ← win_getMsbD _ _ _ (by omega)]; exact hc.2 k hk
  · have h2 := congrArg (fun x : BitVec 64 => x.getMsbD (48 + 2 * k + 1)) h.2
    have m : ∀ j : Fin 8, (dataMask &&& BitVec.allOnes 64).getMsbD (48 + 2 * j.val + 1) = true := by decide
    have v : ∀ j : Fin 8, (Marker.iam.code &&& dataMask &&& BitVec.allOnes 64).getMsbD (48 + 2 * j.val + 1) = (0xFC#8).getMsbD j.val := by
      decide
    have m' := m ⟨k, hk⟩
    have v' := v ⟨k, hk⟩
    simp only at m' v' h2
    rw [BitVec.and_assoc, BitVec.getMsbD_and, m', Bool.and_true, v'] at h2
    rw [← h2, win_getMsbD _ _ _ (by omega)]
    congr 1; omega

theorem scanMarkers_spec (debug : Bool) (s : Fm) (hu : Usual s.bits) :
    ∃ l, Scanned s.bits 0 l ∧ s.scanMarkers debug = .ok (l.map item) := by
  unfold scanMarkers
  rcases findMarker_spec debug s { bits := Marker.iam.code } 0 (some 5000) with ⟨h1, _⟩ | ⟨p, h1, _, _⟩
  · rw [h1]
    exact scanLoop_spec debug s (s.len + 1) 0 (by unfold len; omega) (Or.inr hu.1)
  · have := h1.2.1
    simp only [Option.getD_some] at this
    exact absurd (hit_iam _ _ (by omega) h1.2.2) (hu.2 p (by omega))

/-- Marks found are in order, at least 64 cells apart, and inside the track. -/
theorem scanned_order {t : List Bool} {off : Nat} {l : List (Nat × Byte)} (h : Scanned t off l) :
    (∀ x ∈ l, off ≤ x.1 ∧ x.1 + 64 ≤ t.length ∧ MarkAt t x.1 x.2 ∧ (x.2 = 0xFE#8 ∨ x.2 = 0xFB#8)) ∧
    l.Pairwise (fun a b => a.1 + 64 ≤ b.1) := by
  induction h with
  | none _ => exact ⟨fun _ h => absurd h (by simp), .nil⟩
  | stop _ _ _ => exact ⟨fun _ h => absurd h (by simp), .nil⟩
  | next h h1 _ ih =>
    constructor
    · intro x hx
      rcases List.mem_cons.1 hx with rfl | hx
      · exact ⟨h.1, ((markAt_iff _ _ _).1 h.2.1).1, h.2.1, h1⟩
      · have := ih.1 x hx
        exact ⟨by have := h.1; omega, this.2⟩
    · exact List.pairwise_cons.2 ⟨fun b hb => (ih.1 b hb).1, ih.2⟩

/-! ## Reading -/

/-- A decoded byte, if the place is inside the track. -/
def dec (bits cm : List Bool) (i : Nat) : Byte :=
  byteOfBits (everyOther (((bits.drop i).take 16).drop (if cm.getD i false then 1 else 0)))

theorem readDecoded_eq {s : Fm} (hl : s.clockMap.length = s.bits.length) (i : Nat) :
    s.readDecodedU8 i = if i < s.bits.length then some (dec s.bits s.clockMap i) else none := by
  unfold readDecodedU8 dec
  by_cases h : i < s.bits.length
  · rw [if_neg (by omega), if_pos h]
  · rw [if_pos (by omega), if_neg h]

theorem mapM_read {s : Fm} (hl : s.clockMap.length = s.bits.length) (start : Nat) (n : Nat) :
    ((List.range (n + 1)).mapM fun i => s.readDecodedU8 (start + i * 16)) =
      if start + n * 16 < s.bits.length then
        some ((List.range (n + 1)).map fun i => dec s.bits s.clockMap (start + i * 16)) else none := by
  have gen : ∀ l : List Nat, (l.mapM fun i => s.readDecodedU8 (start + i * 16)) =
      if ∀ i ∈ l, start + i * 16 < s.bits.length then
        some (l.map fun i => dec s.bits s.clockMap (start + i * 16)) else none := by
    intro l
    induction l with
    | nil => simp
    | cons a l ih =>
      rw [List.mapM_cons, ih, readDecoded_eq hl]
      by_cases h1 : start + a * 16 < s.bits.length
      · rw [if_pos h1]
        by_cases h2 : ∀ i ∈ l, start + i * 16 < s.bits.length
        · rw [if_pos h2, if_pos (by intro i hi; rcases List.mem_cons.1 hi with rfl | hi; exact h1; exact h2 i hi)]
          rfl
        · rw [if_neg h2, if_neg (fun h => h2 fun i hi => h i (List.mem_cons_of_mem _ hi))]
          rfl
      · have h2 : ¬ ∀ i ∈ a :: l, start + i * 16 < s.bits.length := fun h => h1 (h a (by simp))
        rw [if_neg h1, if_neg h2]
        rfl
  rw [gen]
  have : (∀ i ∈ List.range (n + 1), start + i * 16 < s.bits.length) ↔ start + n * 16 < s.bits.length := by
    constructor
    · intro h; exact h n (List.mem_range.2 (by omega))
    · intro h i hi
      have := List.mem_range.1 hi
      omega
  simp only [this]

/-- The id that is read at a mark. -/
def idAt (bits cm : List Bool) (p : Nat) : SectorId :=
  let hdr := (List.range 8).map fun i => dec bits cm (p + i * 16)
  let rd : Nat → Byte := fun i => if i < bits.length then dec bits cm i else 0xAA#8
  { c := hdr.getD 4 0, h := hdr.getD 5 0, s := hdr.getD 6 0, b := hdr.getD 7 0,
    crcValid := ofBe16 (rd (p + 8 * 16)) (rd (p + 9 * 16)) == crc3740 hdr }

theorem readHeader_eq {s : Fm} (hl : s.clockMap.length = s.bits.length) (p : Nat) :
    s.readHeader p = if p + 112 < s.bits.length then .ok (idAt s.bits s.clockMap p) else .error .panic := by
  unfold readHeader
  rw [mapM_read hl p 7]
  by_cases h : p + 112 < s.bits.length
  · rw [if_pos h, if_pos h]
    simp only [readDecoded_eq hl]
    unfold idAt
    have e : ∀ i, ((if i < s.bits.length then some (dec s.bits s.clockMap i) else none).getD 0xAA#8) =
        if i < s.bits.length then dec s.bits s.clockMap i else 0xAA#8 := by
      intro i; split <;> rfl
    simp only [e]
  · rw [if_neg h, if_neg h]

theorem nextBits_keep (rnd : Nat → Bool) : ∀ (k : Nat) (s : Fm), ∃ c, (s.nextBits rnd k).2 = { s with cursor := c }
  | 0, s => ⟨s.cursor, rfl⟩
  | k + 1, s => by
    rw [nextBits]
    unfold next
    by_cases h : s.cursor ≥ s.bits.length - 1
    · rw [if_pos h]; exact ⟨s.cursor, rfl⟩
    · rw [if_neg h]
      obtain ⟨c, hc⟩ := nextBits_keep rnd k { s with cursor := if s.cursor + 1 + 1 ≥ s.bits.length then 0 else s.cursor + 1 + 1 }
      exact ⟨c, hc⟩

theorem readBytes_keep (rnd : Nat → Bool) : ∀ (k : Nat) (s : Fm), ∃ c, (s.readBytes rnd k).2 = { s with cursor := c }
  | 0, s => ⟨s.cursor, rfl⟩
  | k + 1, s => by
    rw [readBytes]
    obtain ⟨c, hc⟩ := nextBits_keep rnd 8 s
    obtain ⟨c2, hc2⟩ := readBytes_keep rnd k (s.nextBits rnd 8).2
    simp only
    rw [hc2, hc]
    exact ⟨c2, rfl⟩

theorem crc16_spec {s : Fm} (hl : s.clockMap.length = s.bits.length) (rnd : Nat → Bool) (a b : Nat) :
    (2 * a < s.bits.length → ∃ r c, crc16 s rnd a b = .ok (r, { s with cursor := c })) ∧
    (¬ 2 * a < s.bits.length → crc16 s rnd a b = .error .panic) := by
  unfold crc16 seekStart
  constructor
  · intro h
    rw [if_pos (by omega)]
    simp only
    have : ∀ c, c = (if s.clockMap.getD (2 * a) false then 2 * a else 2 * a + 1) → ¬ c > s.bits.length := by
      intro c hc; split at hc <;> omega
    rw [if_neg (this _ rfl)]
    simp only
    obtain ⟨c, hc⟩ := readBytes_keep rnd ((b - a) / 16 + 2)
      { s with cursor := if s.clockMap.getD (2 * a) false then 2 * a else 2 * a + 1 }
    rw [hc]
    exact ⟨_, c, rfl⟩
  · intro h
    rw [if_neg (by omega)]

/-! ## The marker loop -/

/-- What an element says. -/
def Says (bits cm : List Bool) (done : List (Nat × Byte)) (x : Inst) : Prop :=
  match x.elem with
  | .marker m => ∃ d, (x.start, d) ∈ done ∧ m = (item (x.start, d)).kind
  | .header ch bad _ => (x.start, 0xFE#8) ∈ done ∧ ch = (idAt bits cm x.start).chsn ∧ bad = !(idAt bits cm x.start).crcValid
  | .data ch bad _ _ => ∃ p, (p, 0xFE#8) ∈ done ∧ p < x.start ∧ (x.start, 0xFB#8) ∈ done ∧
      ch = (idAt bits cm p).chsn ∧ bad = !(idAt bits cm p).crcValid

theorem says_more {bits cm : List Bool} {done more : List (Nat × Byte)} {x : Inst} (h : Says bits cm done x) :
    Says bits cm (done ++ more) x := by
  unfold Says at *
  cases he : x.elem with
  | marker m => rw [he] at h; obtain ⟨d, h1, h2⟩ := h; exact ⟨d, List.mem_append_left _ h1, h2⟩
  | header ch bad miss => rw [he] at h; exact ⟨List.mem_append_left _ h.1, h.2⟩
  | data ch bad e del =>
    rw [he] at h
    obtain ⟨p, h1, h2, h3, h4⟩ := h
    exact ⟨p, List.mem_append_left _ h1, h2, List.mem_append_left _ h3, h4⟩

/-- The state of the loop after the marks `done`. -/
structure Good (s : Fm) (done : List (Nat × Byte)) (st : ScanState) : Prop where
  stream : ∃ c, st.stream = { s with cursor := c }
  before : st.lastMarker = some .idam →
    (st.lastOff, 0xFE#8) ∈ done ∧ st.lastId = idAt s.bits s.clockMap st.lastOff
  says : ∀ x ∈ st.elems, Says s.bits s.clockMap done x
  all : ∀ p, (p, 0xFE#8) ∈ done →
    (∃ x ∈ st.elems, x.start = p ∧ ∃ ch bad miss, x.elem = .header ch bad miss) ∨
      (st.lastOff = p ∧ st.lastMarker = some .idam)
  marks : ∀ x ∈ done, ∃ y ∈ st.elems, y.start = x.1 ∧ y.elem = .marker (item x).kind
  only : ∀ x ∈ st.elems, x.lastSector = false

theorem step_spec {s : Fm} (hl : s.clockMap.length = s.bits.length) (rnd : Nat → Bool) {done : List (Nat × Byte)}
    {st : ScanState} (hg : Good s done st) {p : Nat} {d : Byte} (hd : d = 0xFE#8 ∨ d = 0xFB#8)
    (hp : p + 64 ≤ s.bits.length) (hlt : ∀ x ∈ done, x.1 < p) :
    ((d = 0xFE#8 → p + 112 < s.bits.length) ∧
        (d = 0xFB#8 → decide (st.lastMarker = some .idam) = true → 2 * p < s.bits.length) →
      ∃ st', scanStep rnd st (item (p, d)) = .ok st' ∧ Good s (done ++ [(p, d)]) st' ∧
        (decide (st'.lastMarker = some .idam) = (d == 0xFE#8))) ∧
    (¬ ((d = 0xFE#8 → p + 112 < s.bits.length) ∧
        (d = 0xFB#8 → decide (st.lastMarker = some .idam) = true → 2 * p < s.bits.length)) →
      scanStep rnd st (item (p, d)) = .error .panic) := by
  obtain ⟨c, hs⟩ := hg.stream
  have hb : st.stream.bits = s.bits := by rw [hs]
  have hm : st.stream.clockMap = s.clockMap := by rw [hs]
  have hl' : st.stream.clockMap.length = st.stream.bits.length := by rw [hb, hm]; exact hl
  rcases hd with rfl | rfl
  · have hk : item (p, 0xFE#8) = ⟨.idam, p⟩ := rfl
    rw [hk]
    unfold scanStep
    simp only
    rw [readHeader_eq hl', hb, hm]
    constructor
    · intro h
      rw [if_pos (by simpa using h.1)]
      simp only
      refine ⟨_, rfl, ?_, by rfl⟩
      have hin : (p, 0xFE#8) ∈ done ++ [(p, 0xFE#8)] := by simp
      refine ⟨⟨c, hs⟩, fun _ => ⟨hin, rfl⟩, ?_, ?_, ?_, ?_⟩
      · intro x hx
        simp only [ScanState.pushMarker, List.mem_append, List.mem_singleton] at hx
        rcases hx with (hx | hx) | rfl
        · exact says_more (hg.says x hx)
        · split at hx
          · rename_i hi
            rw [List.mem_singleton] at hx
            subst hx
            have hbf := hg.before hi
            exact ⟨List.mem_append_left _ hbf.1, by rw [hbf.2], by rw [hbf.2]⟩
          · simp at hx
        · exact ⟨0xFE#8, hin, rfl⟩
      · intro q hq
        simp only [ScanState.pushMarker]
        rcases List.mem_append.1 hq with hq | hq
        · left
          rcases hg.all q hq with ⟨x, hx, h1, h2⟩ | ⟨h1, h2⟩
          · exact ⟨x, by simp [hx], h1, h2⟩
          · refine ⟨{ elem := .header st.lastId.chsn (!st.lastId.crcValid) true, start := st.lastOff, stop := p, chsn := none },
              ?_, h1, _, _, _, rfl⟩
            rw [if_pos h2]
            simp only [List.mem_append, List.mem_singleton, true_or, or_true]
        · right
          simp only [List.mem_singleton, Prod.mk.injEq] at hq
          exact ⟨hq.1.symm, trivial⟩
      · intro x hx
        simp only [ScanState.pushMarker]
        rcases List.mem_append.1 hx with hx | hx
        · obtain ⟨y, hy, h1⟩ := hg.marks x hx
          exact ⟨y, by simp [hy], h1⟩
        · rw [List.mem_singleton] at hx
          subst hx
          exact ⟨_, List.mem_append_right _ (List.mem_singleton.2 rfl), rfl, rfl⟩
      · intro x hx
        simp only [ScanState.pushMarker, List.mem_append, List.mem_singleton] at hx
        rcases hx with (hx | hx) | rfl
        · exact hg.only x hx
        · split at hx
          · rw [List.mem_singleton] at hx; subst hx; rfl
          · simp at hx
        · rfl
    · intro h
      have : ¬ p + 112 < s.bits.length := by
        intro h2; exact h ⟨fun _ => h2, fun e => absurd e (by decide)⟩
      rw [if_neg this]
  · have hk : item (p, 0xFB#8) = ⟨.dam, p⟩ := rfl
    rw [hk]
    have hin : (p, 0xFB#8) ∈ done ++ [(p, 0xFB#8)] := by simp
    by_cases hi : st.lastMarker = some .idam
    · have hbf := hg.before hi
      obtain ⟨c1, c2⟩ := crc16_spec hl' rnd p (p + 64 + nSize st.lastId.b.toNat * 16)
      rw [hb] at c1 c2
      unfold scanStep
      rw [hi]
      simp only
      rw [mapM_read hl' p 3, hb, if_pos (by omega)]
      simp only
      constructor
      · intro h
        obtain ⟨r, c3, hr⟩ := c1 (by simpa using h.2)
        rw [hr]
        simp only
        refine ⟨_, rfl, ?_, by rfl⟩
        refine ⟨⟨c3, ?_⟩, fun h => absurd h (by simp [ScanState.pushMarker]), ?_, ?_, ?_, ?_⟩
        · simp only [ScanState.pushMarker]; rw [hs]
        · intro x hx
          simp only [ScanState.pushMarker, List.mem_append, List.mem_cons, List.not_mem_nil, or_false] at hx
          rcases hx with (hx | rfl | rfl) | rfl
          · exact says_more (hg.says x hx)
          · exact ⟨List.mem_append_left _ hbf.1, by rw [hbf.2], by rw [hbf.2]⟩
          · exact ⟨st.lastOff, List.mem_append_left _ hbf.1, hlt _ hbf.1, hin, by rw [hbf.2], by rw [hbf.2]⟩
          · exact ⟨0xFB#8, hin, rfl⟩
        · intro q hq
          simp only [ScanState.pushMarker]
          left
          rcases List.mem_append.1 hq with hq | hq
          · rcases hg.all q hq with ⟨x, hx, h1, h2⟩ | ⟨h1, _⟩
            · exact ⟨x, by simp [hx], h1, h2⟩
            · refine ⟨{ elem := .header st.lastId.chsn (!st.lastId.crcValid) false, start := st.lastOff, stop := p, chsn := none },
                ?_, h1, _, _, _, rfl⟩
              rw [List.mem_append, List.mem_append]
              exact Or.inl (Or.inr (List.mem_cons_self))
          · simp only [List.mem_singleton, Prod.mk.injEq] at hq
            exact absurd hq.2 (by decide)
        · intro x hx
          simp only [ScanState.pushMarker]
          rcases List.mem_append.1 hx with hx | hx
          · obtain ⟨y, hy, h1⟩ := hg.marks x hx
            exact ⟨y, by simp [hy], h1⟩
          · rw [List.mem_singleton] at hx
            subst hx
            exact ⟨_, List.mem_append_right _ (List.mem_singleton.2 rfl), rfl, rfl⟩
        · intro x hx
          simp only [ScanState.pushMarker, List.mem_append, List.mem_cons, List.not_mem_nil, or_false] at hx
          rcases hx with (hx | rfl | rfl) | rfl
          · exact hg.only x hx
          · rfl
          · rfl
          · rfl
      · intro h
        have : ¬ 2 * p < s.bits.length := by
          intro h2; exact h ⟨fun e => absurd e (by decide), fun _ _ => h2⟩
        rw [c2 this]
    · have hstep : scanStep rnd st ⟨.dam, p⟩ = .ok (st.pushMarker ⟨.dam, p⟩) := by
        unfold scanStep
        cases hm : st.lastMarker with
        | none => rfl
        | some m =>
          cases m with
          | idam => exact absurd hm hi
          | iam => rfl
          | dam => rfl
          | ddam => rfl
      rw [hstep]
      constructor
      · intro _
        refine ⟨_, rfl, ?_, by rfl⟩
        refine ⟨⟨c, hs⟩, fun h => absurd h (by simp [ScanState.pushMarker]), ?_, ?_, ?_, ?_⟩
        · intro x hx
          simp only [ScanState.pushMarker, List.mem_append, List.mem_singleton] at hx
          rcases hx with hx | rfl
          · exact says_more (hg.says x hx)
          · exact ⟨0xFB#8, hin, rfl⟩
        · intro q hq
          simp only [ScanState.pushMarker]
          left
          rcases List.mem_append.1 hq with hq | hq
          · rcases hg.all q hq with ⟨x, hx, h1, h2⟩ | ⟨_, h1⟩
            · exact ⟨x, by simp [hx], h1, h2⟩
            · exact absurd h1 hi
          · simp only [List.mem_singleton, Prod.mk.injEq] at hq
            exact absurd hq.2 (by decide)
        · intro x hx
          simp only [ScanState.pushMarker]
          rcases List.mem_append.1 hx with hx | hx
          · obtain ⟨y, hy, h1⟩ := hg.marks x hx
            exact ⟨y, by simp [hy], h1⟩
          · rw [List.mem_singleton] at hx
            subst hx
            exact ⟨_, List.mem_append_right _ (List.mem_singleton.2 rfl), rfl, rfl⟩
        · intro x hx
          simp only [ScanState.pushMarker, List.mem_append, List.mem_singleton] at hx
          rcases hx with hx | rfl
          · exact hg.only x hx
          · rfl
      · intro h
        exact absurd ⟨fun e => absurd e (by decide), fun _ e => absurd (of_decide_eq_true e) hi⟩ h

theorem scanAll_spec {s : Fm} (hl : s.clockMap.length = s.bits.length) (rnd : Nat → Bool) :
    ∀ (l done : List (Nat × Byte)) (st : ScanState), Good s done st →
      (∀ x ∈ l, x.1 + 64 ≤ s.bits.length ∧ (x.2 = 0xFE#8 ∨ x.2 = 0xFB#8)) → (∀ x ∈ done, ∀ y ∈ l, x.1 < y.1) →
      l.Pairwise (fun a b => a.1 + 64 ≤ b.1) →
      (Room s.bits.length (decide (st.lastMarker = some .idam)) l →
        ∃ st', scanAll rnd st (l.map item) = .ok st' ∧ Good s (done ++ l) st') ∧
      (¬ Room s.bits.length (decide (st.lastMarker = some .idam)) l →
        scanAll rnd st (l.map item) = .error .panic)
  | [], done, st, hg, _, _, _ => ⟨fun _ => ⟨st, rfl, by rw [List.append_nil]; exact hg⟩, fun h => absurd trivial h⟩
  | (p, d) :: l, done, st, hg, hx, hy, ho => by
    have h1 := hx (p, d) (by simp)
    rw [List.pairwise_cons] at ho
    obtain ⟨g1, g2⟩ := step_spec hl rnd hg h1.2 h1.1 (fun x hxx => hy x hxx (p, d) (by simp))
    rw [List.map_cons, scanAll]
    by_cases hok : (d = 0xFE#8 → p + 112 < s.bits.length) ∧
        (d = 0xFB#8 → decide (st.lastMarker = some .idam) = true → 2 * p < s.bits.length)
    · obtain ⟨st', e1, e2, e3⟩ := g1 hok
      rw [e1]
      simp only
      have ih := scanAll_spec hl rnd l (done ++ [(p, d)]) st' e2 (fun x hxx => hx x (List.mem_cons_of_mem _ hxx))
        (by
          intro x hxx y hyy
          rcases List.mem_append.1 hxx with h | h
          · exact hy x h y (List.mem_cons_of_mem _ hyy)
          · rw [List.mem_singleton] at h; subst h
            have := ho.1 y hyy
            simp only at this
            omega) ho.2
      rw [e3, List.append_assoc] at ih
      constructor
      · intro h; exact ih.1 h.2.2
      · intro h; exact ih.2 fun h2 => h ⟨hok.1, hok.2, h2⟩
    · constructor
      · intro h; exact absurd ⟨h.1, h.2.1⟩ hok
      · intro _; rw [g2 hok]

end Fox.Fm
