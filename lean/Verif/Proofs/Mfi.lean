import Verif.Proofs.ScpLoad
import Verif.Model.Mfi
import Verif.Spec.Mfi
import Verif.Props.Chs
/-
The MFI loader adds the tracks the file describes.
-/
namespace Fox
namespace Mfi
open Flux Spec

/-! ## The words of a track -/

theorem words_cons (a b c d : Byte) (l : List Byte) :
    MfiFile.words (a :: b :: c :: d :: l) = (a.toNat + 256 * b.toNat + 65536 * (c.toNat + 256 * d.toNat)) :: MfiFile.words l := by
  unfold MfiFile.words
  have e : (a :: b :: c :: d :: l).length / 4 = l.length / 4 + 1 := by simp only [List.length_cons]; omega
  rw [e, List.range_succ_eq_map, List.map_cons, List.map_map]
  rfl

theorem words_short {l : List Byte} (h : l.length < 4) : MfiFile.words l = [] := by
  unfold MfiFile.words; rw [show l.length / 4 = 0 by omega]; rfl

theorem times_cons (a b c d : Byte) (l : List Byte) :
    MfiFile.times (a :: b :: c :: d :: l) =
      if MfiFile.kind (a.toNat + 256 * b.toNat + 65536 * (c.toNat + 256 * d.toNat)) = 0 then
        MfiFile.time (a.toNat + 256 * b.toNat + 65536 * (c.toNat + 256 * d.toNat)) :: MfiFile.times l
      else MfiFile.times l := by
  unfold MfiFile.times
  rw [words_cons]
  by_cases h : MfiFile.kind (a.toNat + 256 * b.toNat + 65536 * (c.toNat + 256 * d.toNat)) = 0
  · rw [if_pos h, List.filter_cons_of_pos (by simpa using h), List.map_cons]
  · rw [if_neg h, List.filter_cons_of_neg (by simpa using h)]

theorem fluxes_ok : ∀ (data : List Byte), (∀ w ∈ MfiFile.words data, MfiFile.kind w < 4) →
    fluxes data = .ok (MfiFile.seconds (MfiFile.times data))
  | [], _ => rfl
  | [_], _ => by
    unfold MfiFile.times; rw [words_short (by simp), fluxes]
    · rfl
    · intro _ _ _ _ _ h; cases h
  | [_, _], _ => by
    unfold MfiFile.times; rw [words_short (by simp), fluxes]
    · rfl
    · intro _ _ _ _ _ h; cases h
  | [_, _, _], _ => by
    unfold MfiFile.times; rw [words_short (by simp), fluxes]
    · rfl
    · intro _ _ _ _ _ h; cases h
  | a :: b :: c :: d :: l, h => by
    rw [words_cons] at h
    have ih := fluxes_ok l (fun w hw => h w (List.mem_cons_of_mem _ hw))
    have hk := h _ List.mem_cons_self
    rw [fluxes, times_cons]
    have e : a.toNat + 256 * b.toNat + 65536 * c.toNat + 16777216 * d.toNat =
        a.toNat + 256 * b.toNat + 65536 * (c.toNat + 256 * d.toNat) := by omega
    simp only [e]
    generalize a.toNat + 256 * b.toNat + 65536 * (c.toNat + 256 * d.toNat) = w at *
    unfold MfiFile.kind at hk ⊢
    rw [if_neg (by omega), ih]
    simp only
    by_cases h0 : w / 2 ^ 28 = 0
    · rw [if_pos h0, if_pos h0]
      unfold MfiFile.seconds MfiFile.time
      rw [List.map_cons, Nat.mod_eq_of_lt (a := w) (b := 2 ^ 30) (by omega), Nat.mod_eq_of_lt (a := w) (b := 2 ^ 28) (by omega)]
    · rw [if_neg h0, if_neg h0]

theorem fluxes_bad : ∀ (data : List Byte), ¬ (∀ w ∈ MfiFile.words data, MfiFile.kind w < 4) → fluxes data = .error .panic
  | [], h => absurd (fun w hw => by cases hw) h
  | [_], h => absurd (fun w hw => by rw [words_short (by simp)] at hw; cases hw) h
  | [_, _], h => absurd (fun w hw => by rw [words_short (by simp)] at hw; cases hw) h
  | [_, _, _], h => absurd (fun w hw => by rw [words_short (by simp)] at hw; cases hw) h
  | a :: b :: c :: d :: l, h => by
    rw [words_cons] at h
    rw [fluxes]
    have e : a.toNat + 256 * b.toNat + 65536 * c.toNat + 16777216 * d.toNat =
        a.toNat + 256 * b.toNat + 65536 * (c.toNat + 256 * d.toNat) := by omega
    simp only [e]
    generalize a.toNat + 256 * b.toNat + 65536 * (c.toNat + 256 * d.toNat) = w at *
    split
    · rfl
    · rename_i hw
      rw [fluxes_bad l (fun hl => h (fun v hv => by
        rcases List.mem_cons.1 hv with rfl | hv
        · unfold MfiFile.kind; omega
        · exact hl v hv))]

/-! ## The places -/

theorem next_place {S C i : Nat} (hS : 0 < S) (hi : i + 1 < C * S) :
    ((⟨i / S, i % S⟩ : Ch).seekNextTrack ⟨C, S⟩).1 = ⟨(i + 1) / S, (i + 1) % S⟩ := by
  have hd := Nat.div_add_mod i S
  have hm := Nat.mod_lt i hS
  unfold Ch.seekNextTrack Ch.nextTrack
  simp only
  by_cases h : i % S < S - 1
  · rw [if_neg (by omega), if_pos h]
    have := (Nat.div_mod_unique (a := i + 1) (d := i / S) (c := i % S + 1) hS).2 ⟨by omega, by omega⟩
    rw [this.1, this.2]
    rfl
  · have e : (i + 1) / S = i / S + 1 ∧ (i + 1) % S = 0 :=
      (Nat.div_mod_unique hS).2 ⟨by rw [Nat.mul_add, Nat.mul_one]; omega, hS⟩
    have hlt : i / S + 1 < C := by
      by_contra hn
      have : C * S ≤ (i / S + 1) * S := Nat.mul_le_mul_right _ (by omega)
      rw [Nat.add_mul, Nat.one_mul, Nat.mul_comm (i / S)] at this
      omega
    rw [if_neg (by omega), if_neg h, if_pos (by omega), e.1, e.2]
    rfl

/-! ## The table -/

/-- Entry `i` of the table. -/
def entry (f : List Byte) (i : Nat) : Entry := ⟨MfiFile.offset f i, MfiFile.packedSize f i, MfiFile.fullSize f i⟩

/-- The last offset that is not zero before entry `i`. -/
def lastOffset (f : List Byte) : Nat → Nat
  | 0 => 0
  | i + 1 => if MfiFile.offset f i ≠ 0 then MfiFile.offset f i else lastOffset f i

/-- The checks of entry `i`. -/
def EntryOk (f : List Byte) (i : Nat) : Prop :=
  32 + 16 * i + 16 ≤ f.length ∧ ¬ (0 < MfiFile.packedSize f i ∧ MfiFile.offset f i < lastOffset f i) ∧ MfiFile.offset f i ≤ f.length

theorem table_ok (f : List Byte) : ∀ (n i : Nat), (∀ k < n, EntryOk f (i + k)) →
    table f n (32 + 16 * i) (lastOffset f i) = .ok ((List.range n).map fun k => entry f (i + k))
  | 0, _, _ => rfl
  | n + 1, i, h => by
    obtain ⟨h1, h2, h3⟩ := (show EntryOk f i from h 0 (by omega))
    rw [table, if_neg (by omega), if_neg (show ¬ (0 < le32At f (32 + 16 * i + 4) ∧ le32At f (32 + 16 * i) < lastOffset f i) from h2),
      if_neg (show ¬ f.length < le32At f (32 + 16 * i) by have : le32At f (32 + 16 * i) ≤ _ := h3; omega)]
    rw [show (if le32At f (32 + 16 * i) ≠ 0 then le32At f (32 + 16 * i) else lastOffset f i) = lastOffset f (i + 1) from rfl,
      show 32 + 16 * i + 16 = 32 + 16 * (i + 1) by omega,
      table_ok f n (i + 1) (fun k hk => by rw [show i + 1 + k = i + (k + 1) by omega]; exact h (k + 1) (by omega))]
    rw [List.range_succ_eq_map, List.map_cons, List.map_map]
    show Except.ok _ = Except.ok _
    congr 1
    show entry f i :: _ = entry f (i + 0) :: _
    congr 1
    apply List.map_congr_left
    intro k _
    show entry f (i + 1 + k) = entry f (i + (k + 1))
    rw [show i + 1 + k = i + (k + 1) by omega]

theorem table_inv (f : List Byte) : ∀ (n i : Nat) (l : List Entry), table f n (32 + 16 * i) (lastOffset f i) = .ok l →
    ∀ k < n, EntryOk f (i + k)
  | 0, _, _, _, k, hk => by omega
  | n + 1, i, l, h, k, hk => by
    rw [table] at h
    split at h
    · cases h
    rename_i h1
    split at h
    · cases h
    rename_i h2
    split at h
    · cases h
    rename_i h3
    rw [show (if le32At f (32 + 16 * i) ≠ 0 then le32At f (32 + 16 * i) else lastOffset f i) = lastOffset f (i + 1) from rfl,
      show 32 + 16 * i + 16 = 32 + 16 * (i + 1) by omega] at h
    cases ht : table f n (32 + 16 * (i + 1)) (lastOffset f (i + 1)) with
    | error e => rw [ht] at h; cases h
    | ok l' =>
      cases k with
      | zero => exact ⟨by omega, h2, by show le32At f (32 + 16 * i) ≤ _; omega⟩
      | succ k =>
        have := table_inv f n (i + 1) l' ht k (by omega)
        rw [show i + (k + 1) = i + 1 + k by omega]
        exact this

/-- The last offset is that of an entry after which there are only zeros, or zero. -/
theorem lastOffset_iff (f : List Byte) (x : Nat) : ∀ j, lastOffset f j ≤ x ↔
    ∀ i < j, MfiFile.offset f i ≠ 0 → (∀ k, i < k → k < j → MfiFile.offset f k = 0) → MfiFile.offset f i ≤ x
  | 0 => ⟨fun _ i hi => by omega, fun _ => Nat.zero_le _⟩
  | j + 1 => by
    unfold lastOffset
    by_cases h : MfiFile.offset f j = 0
    · rw [if_neg (by simpa using h), lastOffset_iff f x j]
      constructor
      · intro hj i hi h0 hz
        rcases Nat.lt_or_ge i j with hij | hij
        · exact hj i hij h0 (fun k h1 h2 => hz k h1 (by omega))
        · rw [show i = j by omega] at h0; exact absurd h h0
      · intro hj i hi h0 hz
        refine hj i (by omega) h0 (fun k h1 h2 => ?_)
        rcases Nat.lt_or_ge k j with hkj | hkj
        · exact hz k h1 hkj
        · rw [show k = j by omega]; exact h
    · rw [if_pos h]
      constructor
      · intro hj i hi h0 hz
        rcases Nat.lt_or_ge i j with hij | hij
        · exact absurd (hz j hij (by omega)) h
        · rw [show i = j by omega]; exact hj
      · intro hj
        exact hj j (by omega) h (fun k h1 h2 => by omega)

/-! ## The data -/

theorem dataOf_iff (inflate : Inflate) (f : List Byte) (i : Nat) (d : List Byte) :
    dataOf inflate f (entry f i) = .ok d ↔
      (¬ MfiFile.Blank f i → MfiFile.offset f i + MfiFile.packedSize f i ≤ f.length) ∧ MfiFile.content inflate f i = some d := by
  unfold dataOf MfiFile.content entry
  by_cases hb : MfiFile.Blank f i
  · rw [if_pos hb, if_pos (show MfiFile.offset f i = 0 ∨ _ from hb)]
    constructor
    · intro h; cases h; exact ⟨fun h => absurd hb h, rfl⟩
    · rintro ⟨_, h⟩; cases h; rfl
  · rw [if_neg hb, if_neg (show ¬ (MfiFile.offset f i = 0 ∨ _) from hb)]
    simp only
    split
    · constructor
      · intro h; cases h
      · rintro ⟨h, _⟩; have := h hb; omega
    · rename_i hl
      cases inflate ((f.drop (MfiFile.offset f i)).take (MfiFile.packedSize f i)) (MfiFile.fullSize f i) with
      | none => simp
      | some x =>
        simp only [Except.ok.injEq, Option.some.injEq]
        exact ⟨fun h => ⟨fun _ => by omega, h⟩, fun h => h.2⟩

theorem readAll_ok (inflate : Inflate) (f : List Byte) {C S : Nat} (hS : 0 < S) (D : Nat → List Byte) : ∀ (n i : Nat), i + n ≤ C * S →
    (∀ k < n, dataOf inflate f (entry f (i + k)) = .ok (D (i + k))) →
    readAll inflate f ⟨C, S⟩ ⟨i / S, i % S⟩ ((List.range n).map fun k => entry f (i + k)) =
      .ok ((List.range n).map fun k => ((⟨(i + k) / S, (i + k) % S⟩ : Ch), D (i + k)))
  | 0, _, _, _ => rfl
  | 1, i, _, h => by
    show readAll inflate f ⟨C, S⟩ ⟨i / S, i % S⟩ [entry f i] = _
    rw [readAll, show dataOf inflate f (entry f i) = .ok (D i) from h 0 (by omega)]
    rfl
  | n + 2, i, hn, h => by
    have ih := readAll_ok inflate f (C := C) hS D (n + 1) (i + 1) (by omega)
      (fun k hk => by rw [show i + 1 + k = i + (k + 1) by omega]; exact h (k + 1) (by omega))
    rw [List.range_succ_eq_map, List.map_cons, List.map_map, List.map_cons, List.map_map]
    have e1 : (List.range (n + 1)).map ((fun k => entry f (i + k)) ∘ Nat.succ) = (List.range (n + 1)).map fun k => entry f (i + 1 + k) := by
      apply List.map_congr_left
      intro k _
      show entry f (i + (k + 1)) = _
      rw [show i + 1 + k = i + (k + 1) by omega]
    have e2 : (List.range (n + 1)).map ((fun k => ((⟨(i + k) / S, (i + k) % S⟩ : Ch), D (i + k))) ∘ Nat.succ) =
        (List.range (n + 1)).map fun k => ((⟨(i + 1 + k) / S, (i + 1 + k) % S⟩ : Ch), D (i + 1 + k)) := by
      apply List.map_congr_left
      intro k _
      show ((⟨(i + (k + 1)) / S, (i + (k + 1)) % S⟩ : Ch), D (i + (k + 1))) = _
      rw [show i + 1 + k = i + (k + 1) by omega]
    rw [e1, e2, readAll, show dataOf inflate f (entry f (i + 0)) = .ok (D i) from h 0 (by omega), next_place (C := C) hS (by omega), ih]
    rfl

theorem readAll_inv (inflate : Inflate) (f : List Byte) (g : Ch) : ∀ (es : List Entry) (ch : Ch) (l : List (Ch × List Byte)),
    readAll inflate f g ch es = .ok l → ∀ (k : Nat) (e : Entry), es[k]? = some e → ∃ d, dataOf inflate f e = .ok d
  | [], _, _, _, k, e, hk => by simp at hk
  | x :: es, ch, l, h, k, e, hk => by
    rw [readAll] at h
    cases hd : dataOf inflate f x with
    | error y => rw [hd] at h; cases h
    | ok d =>
      rw [hd] at h
      simp only at h
      cases hr : readAll inflate f g (ch.seekNextTrack g).1 es with
      | error y => rw [hr] at h; cases h
      | ok l' =>
        cases k with
        | zero => simp only [List.getElem?_cons_zero, Option.some.injEq] at hk; subst hk; exact ⟨d, hd⟩
        | succ k => exact readAll_inv inflate f g es _ l' hr k e (by simpa using hk)

/-! ## The tracks -/

/-- The revolution made of a track's data. -/
def turnOf (t : Ch × List Byte) : Rev :=
  Rev.ofDeltas t.1 (normalize (MfiFile.seconds (MfiFile.times t.2))).1
    (60 / (normalize (MfiFile.seconds (MfiFile.times t.2))).2.getD 300)

/-- What a track becomes. -/
def madeTrack (debug : Bool) (rnd : Nat → Bool) (fm : FmCodec) (t : Ch × List Byte) : DiskTrack :=
  match make debug rnd fm none none [turnOf t] with
  | .ok m => .flux t.1 m.bitstream
  | .error _ => .other t.1

theorem madeTrack_ch (debug : Bool) (rnd : Nat → Bool) (fm : FmCodec) (t : Ch × List Byte) :
    (madeTrack debug rnd fm t).ch = t.1 := by
  unfold madeTrack; split <;> rfl

/-- A track that can be added. -/
def TrackOk (fm : FmCodec) (t : Ch × List Byte) : Prop :=
  t.1.h < 2 ∧ (∀ w ∈ MfiFile.words t.2, MfiFile.kind w < 4) ∧ Flux.FmFine fm none none [turnOf t]

theorem process_ok {t : Ch × List Byte} (h : ∀ w ∈ MfiFile.words t.2, MfiFile.kind w < 4) : process t.1 t.2 = .ok (turnOf t) := by
  unfold process; rw [fluxes_ok _ h]; rfl

theorem tracks_ok (debug : Bool) (rnd : Nat → Bool) (fm : FmCodec) : ∀ (ts : List (Ch × List Byte)) (d : Disk) (q : Option F86.Density),
    d.rejects .fluxStream = false → (∀ t ∈ ts, TrackOk fm t) →
    ∃ q', tracks debug rnd fm ts d q = .ok (Scp.pushFlux d (ts.map (madeTrack debug rnd fm)), q') ∧
      (∀ x, q = some x → q' = some x) ∧
      ∀ t ts', ts = t :: ts' → q = none → ∀ m, make debug rnd fm none none [turnOf t] = .ok m →
        q' = some (Kryo.densityOf (Scp.rateOfMade m))
  | [], d, q, _, _ => ⟨q, rfl, fun _ h => h, fun _ _ h => by cases h⟩
  | t :: ts, d, q, hd, ht => by
    obtain ⟨h1, h2, h3⟩ := ht t List.mem_cons_self
    obtain ⟨m, hm⟩ := Scp.make_total debug rnd fm _ h3
    have hmt : madeTrack debug rnd fm t = .flux t.1 m.bitstream := by unfold madeTrack; rw [hm]
    have hadd : d.addFlux t.1 (.ok m.bitstream) = (Scp.withFlux d (madeTrack debug rnd fm t), .ok d.pool.length) := by
      unfold Disk.addFlux
      rw [if_neg (by omega), hd, hmt]
      rfl
    obtain ⟨q', g1, g2, _⟩ := tracks_ok debug rnd fm ts (Scp.withFlux d (madeTrack debug rnd fm t))
      (match q with | some q => some q | none => some (Kryo.densityOf (Scp.rateOfMade m))) (Scp.withFlux_accepts _ _)
      (fun x hx => ht x (List.mem_cons_of_mem _ hx))
    refine ⟨q', ?_, fun x hx => g2 x (by rw [hx]), ?_⟩
    · rw [tracks, process_ok h2]
      simp only [hm, hadd]
      exact g1
    · intro t' ts' e hq m' hm'
      injection e with e _
      subst e
      rw [hm] at hm'
      injection hm' with hm'
      subst hm'
      exact g2 _ (by rw [hq])

theorem tracks_inv {debug : Bool} {rnd : Nat → Bool} {fm : FmCodec} : ∀ {ts : List (Ch × List Byte)} {d : Disk}
    {q : Option F86.Density} {res}, tracks debug rnd fm ts d q = .ok res → ∀ t ∈ ts, TrackOk fm t
  | [], _, _, _, _, t, ht => by cases ht
  | x :: ts, d, q, res, h, t, ht => by
    rw [tracks] at h
    by_cases hw : ∀ w ∈ MfiFile.words x.2, MfiFile.kind w < 4
    · rw [process_ok hw] at h
      simp only at h
      cases hm : make debug rnd fm none none [turnOf x] with
      | error e =>
        rw [hm] at h
        simp only at h
        obtain ⟨d', y, hy⟩ := Scp.addFlux_error d x.1 e
        rw [hy] at h
        cases h
      | ok m =>
        rw [hm] at h
        simp only at h
        have hx : TrackOk fm x := by
          refine ⟨?_, hw, Scp.make_fine hm⟩
          by_contra hh
          unfold Disk.addFlux at h
          rw [if_pos (by omega)] at h
          cases h
        cases ha : d.addFlux x.1 (.ok m.bitstream) with
        | mk d' r =>
          rw [ha] at h
          cases r with
          | error y => cases h
          | ok y =>
            rcases List.mem_cons.1 ht with rfl | ht
            · exact hx
            · exact tracks_inv h t ht
    · unfold process at h
      rw [fluxes_bad _ hw] at h
      cases h

/-! ## The file -/

theorem form_iff (b : List Byte) : knownForm b = true ↔ b ∈
    [[0x33#8, 0x35#8, 0x20#8, 0x20#8], [0x35#8, 0x32#8, 0x35#8, 0x20#8], [0x38#8, 0x20#8, 0x20#8, 0x20#8]] := by
  unfold knownForm
  simp [or_assoc]

theorem header_iff (f : List Byte) (g : Ch) : header f = .ok g ↔
    (32 ≤ f.length ∧ f.take 15 =
      [0x4D#8, 0x41#8, 0x4D#8, 0x45#8, 0x46#8, 0x4C#8, 0x4F#8, 0x50#8, 0x50#8, 0x59#8, 0x49#8, 0x4D#8, 0x41#8, 0x47#8, 0x45#8]) ∧
    ((f.drop 24).take 4 ∈
      [[0x33#8, 0x35#8, 0x20#8, 0x20#8], [0x35#8, 0x32#8, 0x35#8, 0x20#8], [0x38#8, 0x20#8, 0x20#8, 0x20#8]]) ∧
    0 < MfiFile.cylinders f ∧ 0 < MfiFile.sides f ∧ g = ⟨MfiFile.cylinders f, MfiFile.sides f⟩ := by
  rw [← form_iff]
  unfold header
  have e1 : le32At f 16 % 2 ^ 30 % 65536 = MfiFile.cylinders f := rfl
  have e2 : le32At f 20 % 256 = MfiFile.sides f := rfl
  rw [e1, e2, show signature = [0x4D#8, 0x41#8, 0x4D#8, 0x45#8, 0x46#8, 0x4C#8, 0x4F#8, 0x50#8, 0x50#8, 0x59#8, 0x49#8, 0x4D#8, 0x41#8, 0x47#8, 0x45#8] from rfl]
  split
  · constructor
    · intro h; cases h
    · rintro ⟨⟨h, _⟩, _⟩; omega
  rename_i h1
  split
  · rename_i h2
    constructor
    · intro h; cases h
    · rintro ⟨⟨_, h⟩, _⟩; exact absurd h h2
  rename_i h2
  split
  · rename_i h3
    constructor
    · intro h; cases h
    · rintro ⟨_, h, _⟩; rw [h3] at h; cases h
  rename_i h3
  split
  · rename_i h4
    constructor
    · intro h; cases h
    · rintro ⟨_, _, h5, h6, _⟩; omega
  rename_i h4
  constructor
  · intro h
    cases h
    refine ⟨⟨by omega, by simpa using h2⟩, by simpa using h3, by omega, by omega, rfl⟩
  · rintro ⟨_, _, _, _, rfl⟩; rfl

/-- The revolutions that are taken for FM are such that the FM codec accepts them. -/
def FmFine (inflate : Inflate) (fm : FmCodec) (f : List Byte) : Prop :=
  ∀ i < MfiFile.count f, ∀ d, MfiFile.content inflate f i = some d → Flux.FmFine fm none none [turnOf (MfiFile.place f i, d)]

/-- The tracks with their places. -/
def items (inflate : Inflate) (f : List Byte) : List (Ch × List Byte) :=
  (List.range (MfiFile.count f)).map fun i => (MfiFile.place f i, (MfiFile.content inflate f i).getD [])

/-- The disk that a well-formed file becomes. -/
def loaded (inflate : Inflate) (debug : Bool) (rnd : Nat → Bool) (fm : FmCodec) (f : List Byte) : Disk :=
  { Scp.pushFlux {} ((items inflate f).map (madeTrack debug rnd fm)) with geometry := ⟨MfiFile.cylinders f, MfiFile.sides f⟩ }

theorem iter_count {C S : Nat} (hC : 0 < C) (hS : 0 < S) : (Ch.iterTake ⟨C, S⟩ (C * S + 1) none).1.length = C * S := by
  obtain ⟨xs, h1, h2, _⟩ := C13_ch_iter ⟨C, S⟩ hC hS
  rw [h1]
  exact h2

theorem entry_ok {inflate : Inflate} {f : List Byte} (h : MfiFile.Layout inflate f) {i : Nat} (hi : i < MfiFile.count f) : EntryOk f i := by
  refine ⟨by have := h.table; omega, ?_, (h.inside i hi).1⟩
  rintro ⟨h1, h2⟩
  have := (lastOffset_iff f (MfiFile.offset f i) i).2 (fun k hk h0 hz => h.order k i hk hi (by omega) h0 hz)
  omega

theorem load_layout {inflate : Inflate} {f : List Byte} (h : MfiFile.Layout inflate f) (debug : Bool) (rnd : Nat → Bool) (fm : FmCodec) :
    load inflate debug rnd fm {} f = match tracks debug rnd fm (items inflate f) {} none with
      | .error e => .error e
      | .ok (d, q) => .ok ({ d with geometry := ⟨MfiFile.cylinders f, MfiFile.sides f⟩ }, q.getD .double) := by
  have hS : 0 < MfiFile.sides f := by have := h.geometry.2; omega
  have hC := h.geometry.1
  have hH := (header_iff f _).2 ⟨h.header, h.form, hC, hS, rfl⟩
  have hT := table_ok f (MfiFile.count f) 0 (fun k hk => by rw [Nat.zero_add]; exact entry_ok h hk)
  have hD : ∀ k < MfiFile.count f, dataOf inflate f (entry f k) = .ok ((MfiFile.content inflate f k).getD []) := by
    intro k hk
    obtain ⟨d, hd⟩ := h.inflates k hk
    rw [hd, Option.getD_some]
    exact (dataOf_iff inflate f k d).2 ⟨(h.inside k hk).2, hd⟩
  have hR := readAll_ok inflate f (C := MfiFile.cylinders f) hS (fun k => (MfiFile.content inflate f k).getD []) (MfiFile.count f) 0
    (by rw [Nat.zero_add]; exact Nat.le_refl _) (fun k hk => by rw [Nat.zero_add]; exact hD k hk)
  have hitems : (List.range (MfiFile.count f)).map (fun k => ((⟨(0 + k) / MfiFile.sides f, (0 + k) % MfiFile.sides f⟩ : Ch),
      (MfiFile.content inflate f (0 + k)).getD [])) = items inflate f := by
    unfold items
    apply List.map_congr_left
    intro k _
    rw [Nat.zero_add]
    rfl
  unfold load
  rw [hH]
  simp only
  rw [iter_count hC hS, show MfiFile.cylinders f * MfiFile.sides f = MfiFile.count f from rfl,
    show (0 : Nat) = lastOffset f 0 from rfl, show 32 = 32 + 16 * 0 from rfl, hT]
  simp only
  rw [Nat.zero_div, Nat.zero_mod] at hR
  rw [show lastOffset f 0 = 0 from rfl, hR, hitems]
  rfl

theorem load_ok {inflate : Inflate} {f : List Byte} (h : MfiFile.WellFormed inflate f) (debug : Bool) (rnd : Nat → Bool) (fm : FmCodec)
    (hfm : FmFine inflate fm f) :
    ∃ q, load inflate debug rnd fm {} f = .ok (loaded inflate debug rnd fm f, q) ∧
      ∀ d, MfiFile.content inflate f 0 = some d → ∀ m, make debug rnd fm none none [turnOf (⟨0, 0⟩, d)] = .ok m →
        q = Kryo.densityOf (Scp.rateOfMade m) := by
  have hS : 0 < MfiFile.sides f := by have := h.geometry.2; omega
  have hC := h.geometry.1
  have hok : ∀ t ∈ items inflate f, TrackOk fm t := by
    intro t ht
    obtain ⟨i, hi, rfl⟩ := List.mem_map.1 ht
    have hi := List.mem_range.1 hi
    obtain ⟨d, hd⟩ := h.inflates i hi
    rw [hd, Option.getD_some]
    exact ⟨by show i % MfiFile.sides f < 2; rcases h.geometry.2 with e | e <;> rw [e] <;> omega, h.types i hi d hd, hfm i hi d hd⟩
  obtain ⟨q, t1, _, t3⟩ := tracks_ok debug rnd fm (items inflate f) {} none rfl hok
  refine ⟨q.getD .double, ?_, ?_⟩
  · rw [load_layout h.toLayout, t1]
    rfl
  · intro d hd m hm
    have hpos : MfiFile.count f = MfiFile.count f - 1 + 1 := by have := Nat.mul_pos hC hS; unfold MfiFile.count; omega
    have e : ∃ ts', items inflate f = (⟨0, 0⟩, d) :: ts' := by
      unfold items
      rw [hpos, List.range_succ_eq_map, List.map_cons, hd, Option.getD_some,
        show MfiFile.place f 0 = ⟨0, 0⟩ by unfold MfiFile.place; rw [Nat.zero_div, Nat.zero_mod]]
      exact ⟨_, rfl⟩
    obtain ⟨ts', e⟩ := e
    rw [t3 _ _ e rfl m hm]
    rfl

theorem wellFormed_of_ok {inflate : Inflate} {f : List Byte} {debug : Bool} {rnd : Nat → Bool} {fm : FmCodec} {r}
    (e : load inflate debug rnd fm {} f = .ok r) : MfiFile.WellFormed inflate f ∧ FmFine inflate fm f := by
  unfold load at e
  cases hh : header f with
  | error x => rw [hh] at e; cases e
  | ok g =>
    rw [hh] at e
    simp only at e
    obtain ⟨a1, a2, hC, hS, rfl⟩ := (header_iff f g).1 hh
    rw [iter_count hC hS, show MfiFile.cylinders f * MfiFile.sides f = MfiFile.count f from rfl] at e
    cases ht : table f (MfiFile.count f) 32 0 with
    | error x => rw [ht] at e; cases e
    | ok l =>
      rw [ht] at e
      simp only at e
      have hE : ∀ k < MfiFile.count f, EntryOk f k := by
        intro k hk
        have := table_inv f (MfiFile.count f) 0 l ht k hk
        rwa [Nat.zero_add] at this
      have hl := table_ok f (MfiFile.count f) 0 (fun k hk => by rw [Nat.zero_add]; exact hE k hk)
      rw [show table f (MfiFile.count f) (32 + 16 * 0) (lastOffset f 0) = .ok l from ht] at hl
      injection hl with hl
      cases hr : readAll inflate f ⟨MfiFile.cylinders f, MfiFile.sides f⟩ ⟨0, 0⟩ l with
      | error x => rw [hr] at e; cases e
      | ok ts =>
        rw [hr] at e
        simp only at e
        have hD : ∀ k < MfiFile.count f, ∃ d, dataOf inflate f (entry f k) = .ok d := by
          intro k hk
          refine readAll_inv inflate f _ _ _ _ hr k (entry f k) ?_
          rw [hl, List.getElem?_map, List.getElem?_range hk]
          show some (entry f (0 + k)) = _
          rw [Nat.zero_add]
        have hD' : ∀ k < MfiFile.count f, dataOf inflate f (entry f k) = .ok ((MfiFile.content inflate f k).getD []) := by
          intro k hk
          obtain ⟨d, hd⟩ := hD k hk
          rw [hd, ((dataOf_iff inflate f k d).1 hd).2]
          rfl
        have hR := readAll_ok inflate f (C := MfiFile.cylinders f) hS (fun k => (MfiFile.content inflate f k).getD []) (MfiFile.count f) 0
          (by rw [Nat.zero_add]; exact Nat.le_refl _) (fun k hk => by rw [Nat.zero_add]; exact hD' k hk)
        rw [Nat.zero_div, Nat.zero_mod, ← hl, hr] at hR
        injection hR with hR
        cases hk : tracks debug rnd fm ts {} none with
        | error x => rw [hk] at e; cases e
        | ok res =>
          have hok := tracks_inv hk
          have hi : ∀ i < MfiFile.count f, TrackOk fm (MfiFile.place f i, (MfiFile.content inflate f i).getD []) := by
            intro i hi
            apply hok
            rw [hR]
            refine List.mem_map.2 ⟨i, List.mem_range.2 hi, ?_⟩
            rw [Nat.zero_add]
            rfl
          have hc : ∀ i < MfiFile.count f, ∃ d, MfiFile.content inflate f i = some d := by
            intro i hi
            obtain ⟨d, hd⟩ := hD i hi
            exact ⟨d, ((dataOf_iff inflate f i d).1 hd).2⟩
          refine ⟨⟨⟨a1, a2, ⟨hC, ?_⟩, ?_, ?_, ?_, hc⟩, ?_⟩, ?_⟩
          · by_contra hn
            have h3 : 3 ≤ MfiFile.sides f := by omega
            have hlt : 2 < MfiFile.count f := by
              unfold MfiFile.count
              have := Nat.mul_le_mul hC h3
              omega
            have := (hi 2 hlt).1
            replace this : 2 % MfiFile.sides f < 2 := this
            rw [Nat.mod_eq_of_lt (by omega)] at this
            omega
          · have hpos : 0 < MfiFile.count f := Nat.mul_pos hC hS
            have := (hE (MfiFile.count f - 1) (by omega)).1
            omega
          · intro i j hij hj hp h0 hz
            have h2 := (hE j hj).2.1
            have := (lastOffset_iff f (lastOffset f j) j).1 (Nat.le_refl _) i hij h0 hz
            by_contra hn
            exact h2 ⟨by omega, by omega⟩
          · intro i hi
            obtain ⟨d, hd⟩ := hD i hi
            exact ⟨(hE i hi).2.2, ((dataOf_iff inflate f i d).1 hd).1⟩
          · intro i hlt d hd
            have := (hi i hlt).2.1
            rw [hd] at this
            exact this
          · intro i hlt d hd
            have := (hi i hlt).2.2
            rw [hd] at this
            exact this

theorem loaded_at {inflate : Inflate} {f : List Byte} (hw : MfiFile.WellFormed inflate f) (debug : Bool) (rnd : Nat → Bool) (fm : FmCodec)
    {ch : Ch} (hh : ch.h < 2) (x : DiskTrack) :
    at? (loaded inflate debug rnd fm f) ch.h ch.c = some x ↔
      ∃ i < MfiFile.count f, ∃ d, MfiFile.content inflate f i = some d ∧ x = madeTrack debug rnd fm (MfiFile.place f i, d) ∧
        MfiFile.place f i = ch := by
  obtain ⟨p1, p2, p3⟩ := Scp.pushFlux_same ((items inflate f).map (madeTrack debug rnd fm)) {} {} rfl rfl rfl
  have e : at? (loaded inflate debug rnd fm f) ch.h ch.c = at? (pushAll {} ((items inflate f).map (madeTrack debug rnd fm))) ch.h ch.c := by
    unfold at? loaded Disk.headMap
    simp only [p1, p2, p3]
  have hch : ((items inflate f).map (madeTrack debug rnd fm)).map DiskTrack.ch =
      (List.range (MfiFile.count f)).map fun i => (⟨i / MfiFile.sides f, i % MfiFile.sides f⟩ : Ch) := by
    unfold items
    rw [List.map_map, List.map_map]
    apply List.map_congr_left
    intro i _
    exact madeTrack_ch debug rnd fm _
  rw [e, pushAll_at (by rw [hch]; exact Scp.divmod_ordered' _ hw.geometry.2 _) hh]
  constructor
  · rintro ⟨h1, h2⟩
    obtain ⟨t, ht, rfl⟩ := List.mem_map.1 h1
    obtain ⟨i, hi, rfl⟩ := List.mem_map.1 ht
    rw [madeTrack_ch] at h2
    obtain ⟨d, hd⟩ := hw.inflates i (List.mem_range.1 hi)
    exact ⟨i, List.mem_range.1 hi, d, hd, by rw [hd]; rfl, h2⟩
  · rintro ⟨i, hi, d, hd, rfl, h⟩
    refine ⟨List.mem_map.2 ⟨_, List.mem_map.2 ⟨i, List.mem_range.2 hi, rfl⟩, by rw [hd]; rfl⟩, by rw [madeTrack_ch]; exact h⟩

/-! ## Failures -/

theorem header_no_panic {f : List Byte} {e : Err} (h : header f = .error e) : e ≠ .panic := by
  unfold header at h
  split at h
  · cases h; simp
  split at h
  · cases h; simp
  split at h
  · cases h; simp
  split at h
  · cases h; simp
  · cases h

theorem table_no_panic (f : List Byte) : ∀ (n o last : Nat) (e : Err), table f n o last = .error e → e ≠ .panic
  | 0, _, _, _, h => by cases h
  | n + 1, o, last, e, h => by
    rw [table] at h
    split at h
    · cases h; simp
    split at h
    · cases h; simp
    split at h
    · cases h; simp
    split at h
    · rename_i x hx
      cases h
      exact table_no_panic f n _ _ _ hx
    · cases h

theorem dataOf_no_panic {inflate : Inflate} {f : List Byte} {x : Entry} {e : Err} (h : dataOf inflate f x = .error e) : e ≠ .panic := by
  unfold dataOf at h
  split at h
  · cases h
  split at h
  · cases h; simp
  split at h
  · cases h; simp
  · cases h

theorem readAll_no_panic (inflate : Inflate) (f : List Byte) (g : Ch) : ∀ (es : List Entry) (ch : Ch) (e : Err),
    readAll inflate f g ch es = .error e → e ≠ .panic
  | [], _, _, h => by cases h
  | x :: es, ch, e, h => by
    rw [readAll] at h
    split at h
    · rename_i y hy
      cases h
      exact dataOf_no_panic hy
    · split at h
      · rename_i y hy
        cases h
        exact readAll_no_panic inflate f g es _ _ hy
      · cases h

/-- Either the file is refused before its tracks are looked at, or all its data can be had. -/
theorem load_stages (inflate : Inflate) (debug : Bool) (rnd : Nat → Bool) (fm : FmCodec) (f : List Byte) :
    (∃ e, load inflate debug rnd fm {} f = .error e ∧ e ≠ .panic) ∨
    ((∀ i < MfiFile.count f, ∃ d, MfiFile.content inflate f i = some d) ∧
      ∀ e, load inflate debug rnd fm {} f = .error e ↔ tracks debug rnd fm (items inflate f) {} none = .error e) := by
  unfold load
  cases hh : header f with
  | error x => exact Or.inl ⟨x, rfl, header_no_panic hh⟩
  | ok g =>
    simp only
    obtain ⟨_, _, hC, hS, rfl⟩ := (header_iff f g).1 hh
    rw [iter_count hC hS, show MfiFile.cylinders f * MfiFile.sides f = MfiFile.count f from rfl]
    cases ht : table f (MfiFile.count f) 32 0 with
    | error x => exact Or.inl ⟨x, rfl, table_no_panic _ _ _ _ _ ht⟩
    | ok l =>
      simp only
      have hE : ∀ k < MfiFile.count f, EntryOk f k := by
        intro k hk
        have := table_inv f (MfiFile.count f) 0 l ht k hk
        rwa [Nat.zero_add] at this
      have hl := table_ok f (MfiFile.count f) 0 (fun k hk => by rw [Nat.zero_add]; exact hE k hk)
      rw [show table f (MfiFile.count f) (32 + 16 * 0) (lastOffset f 0) = .ok l from ht] at hl
      injection hl with hl
      cases hr : readAll inflate f ⟨MfiFile.cylinders f, MfiFile.sides f⟩ ⟨0, 0⟩ l with
      | error x => exact Or.inl ⟨x, rfl, readAll_no_panic _ _ _ _ _ _ hr⟩
      | ok ts =>
        simp only
        have hD : ∀ k < MfiFile.count f, ∃ d, dataOf inflate f (entry f k) = .ok d := by
          intro k hk
          refine readAll_inv inflate f _ _ _ _ hr k (entry f k) ?_
          rw [hl, List.getElem?_map, List.getElem?_range hk]
          show some (entry f (0 + k)) = _
          rw [Nat.zero_add]
        have hD' : ∀ k < MfiFile.count f, dataOf inflate f (entry f k) = .ok ((MfiFile.content inflate f k).getD []) := by
          intro k hk
          obtain ⟨d, hd⟩ := hD k hk
          rw [hd, ((dataOf_iff inflate f k d).1 hd).2]
          rfl
        have hR := readAll_ok inflate f (C := MfiFile.cylinders f) hS (fun k => (MfiFile.content inflate f k).getD []) (MfiFile.count f) 0
          (by rw [Nat.zero_add]; exact Nat.le_refl _) (fun k hk => by rw [Nat.zero_add]; exact hD' k hk)
        rw [Nat.zero_div, Nat.zero_mod, ← hl, hr] at hR
        injection hR with hR
        have hI : ts = items inflate f := by
          rw [hR]
          unfold items MfiFile.place
          apply List.map_congr_left
          intro k _
          rw [Nat.zero_add]
        right
        refine ⟨fun i hi => ?_, fun e => ?_⟩
        · obtain ⟨d, hd⟩ := hD i hi
          exact ⟨d, ((dataOf_iff inflate f i d).1 hd).2⟩
        · rw [hI]
          cases tracks debug rnd fm (items inflate f) {} none with
          | error x => exact ⟨fun h => (by injection h with h; rw [h]), fun h => (by injection h with h; rw [h])⟩
          | ok x => exact ⟨fun h => (by cases h), fun h => (by cases h)⟩

/-- If nothing in a track is of an unknown type, adding the tracks does not panic. -/
theorem tracks_no_panic (debug : Bool) (rnd : Nat → Bool) (fm : FmCodec) : ∀ (ts : List (Ch × List Byte)) (d : Disk) (q : Option F86.Density),
    (∀ t ∈ ts, (∀ w ∈ MfiFile.words t.2, MfiFile.kind w < 4) ∧ Flux.FmFine fm none none [turnOf t]) →
    ∀ e, tracks debug rnd fm ts d q = .error e → e ≠ .panic
  | [], _, _, _, _, h => by cases h
  | t :: ts, d, q, ht, e, h => by
    obtain ⟨h1, h2⟩ := ht t List.mem_cons_self
    obtain ⟨m, hm⟩ := Scp.make_total debug rnd fm _ h2
    rw [tracks, process_ok h1] at h
    simp only [hm] at h
    unfold Disk.addFlux at h
    split at h
    · rename_i a
      split at a
      · cases a; cases h; simp
      split at a
      · cases a; cases h; simp
      · cases a
    · exact tracks_no_panic debug rnd fm ts _ _ (fun x hx => ht x (List.mem_cons_of_mem _ hx)) e h

/-- If something in a track is, it does. -/
theorem tracks_panic (debug : Bool) (rnd : Nat → Bool) (fm : FmCodec) : ∀ (ts : List (Ch × List Byte)) (d : Disk) (q : Option F86.Density),
    d.rejects .fluxStream = false → (∀ t ∈ ts, t.1.h < 2 ∧ Flux.FmFine fm none none [turnOf t]) →
    (∃ t ∈ ts, ¬ ∀ w ∈ MfiFile.words t.2, MfiFile.kind w < 4) → tracks debug rnd fm ts d q = .error .panic
  | [], _, _, _, _, h => by obtain ⟨t, ht, _⟩ := h; cases ht
  | t :: ts, d, q, hd, ht, h => by
    rw [tracks]
    by_cases hw : ∀ w ∈ MfiFile.words t.2, MfiFile.kind w < 4
    · obtain ⟨h1, h2⟩ := ht t List.mem_cons_self
      obtain ⟨m, hm⟩ := Scp.make_total debug rnd fm _ h2
      rw [process_ok hw]
      simp only [hm]
      obtain ⟨y, hy, hn⟩ := h
      have hy' : y ∈ ts := by
        rcases List.mem_cons.1 hy with rfl | hy
        · exact absurd hw hn
        · exact hy
      unfold Disk.addFlux
      rw [if_neg (by omega), if_neg (by rw [hd]; decide)]
      simp only
      exact tracks_panic debug rnd fm ts _ _ (Scp.withFlux_accepts d (.flux t.1 m.bitstream)) (fun x hx => ht x (List.mem_cons_of_mem _ hx)) ⟨y, hy', hn⟩
    · unfold process
      rw [fluxes_bad _ hw]

end Mfi
end Fox
