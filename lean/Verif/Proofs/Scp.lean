import Verif.Model.Scp
import Verif.Spec.Scp
import Verif.Proofs.BitLoad
import Verif.Props.FluxMeasured
/-
Proofs about the SuperCard Pro loader.
-/
namespace Fox
open Spec Flux
namespace Scp

/-! ## Tracks are always made -/

theorem bucket_mid_pos {i : Nat} (hi : 1 ≤ i) : 1 ≤ (bucketStart i + bucketEnd i) / 2 := by
  unfold bucketStart bucketEnd
  by_cases h : i < 8
  · rw [if_pos h, if_pos h]; omega
  · rw [if_neg h, if_neg h]
    have hP : 1 ≤ 2 ^ (i / 8 - 1) := Nat.two_pow_pos _
    have h1 : 8 * 2 ^ (i / 8 - 1) ≤ (8 + i % 8) * 2 ^ (i / 8 - 1) := Nat.mul_le_mul_right _ (by omega)
    omega

theorem bucket_mid_le {i : Nat} (hi : i ≤ 94) : (bucketStart i + bucketEnd i) / 2 < 1000000000 := by
  have h : ∀ i ∈ List.range 95, (bucketStart i + bucketEnd i) / 2 < 1000000000 := by decide
  exact h i (List.mem_range.2 (by omega))

theorem base_bounds {h : List Nat} {t : Rat} (e : baseTransitionTime h = some t) : 0 < t / 2 ∧ t / 2 < 1 := by
  unfold baseTransitionTime at e
  match hm : maxima h with
  | [] => rw [hm] at e; cases e
  | [_] => rw [hm] at e; cases e
  | i :: x :: l =>
    rw [hm] at e
    cases e
    have := (maxima_mem h i).1 (by rw [hm]; exact List.mem_cons_self)
    have h1 := bucket_mid_pos this.1.1
    have h2 := bucket_mid_le this.1.2
    generalize (bucketStart i + bucketEnd i) / 2 = m at *
    have h3 : (1 : Rat) ≤ m := by exact_mod_cast h1
    have h4 : (m : Rat) < 1000000000 := by exact_mod_cast h2
    constructor <;> linarith

theorem baseClock_bounds (r : Rev) : 0 < baseClock none none r ∧ baseClock none none r < 1 := by
  have hadj : ∀ (R : Rpm) (c : Rat), 0 < c → c < 1 → 0 < R.adjustClock c ∧ R.adjustClock c < 1 := by
    intro R c h1 h2
    cases R <;> simp only [Rpm.adjustClock]
    case r360 => split <;> constructor <;> linarith
    all_goals exact ⟨h1, h2⟩
  unfold baseClock guessClock
  simp only
  split
  · rename_i c hc
    split at hc
    · cases hc; exact hadj _ _ (by norm_num) (by norm_num)
    · split at hc
      · cases hc; exact hadj _ _ (by norm_num) (by norm_num)
      · cases hc
  · split
    · rename_i t ht; exact base_bounds ht
    · constructor <;> norm_num

theorem clock_bounds (r : Rev) : 0 < clockOf none none r ∧ clockOf none none r < 1 := by
  have hb := baseClock_bounds r
  unfold clockOf
  simp only
  split
  · rename_i t ht
    split
    · exact base_bounds ht
    · exact hb
  · exact hb

theorem decode_total (r : Rev) : ∃ r', r.decode none none = some r' := by
  obtain ⟨h1, h2⟩ := clock_bounds r
  have hrate : 1 / clockOf none none r > 1 := by rw [gt_iff_lt, lt_div_iff₀ h1]; linarith
  unfold Rev.decode
  obtain ⟨P, hP⟩ : ∃ P, Pll.new.setClock (1 / clockOf none none r) none = some P := by
    unfold Pll.setClock; rw [if_pos hrate]; exact ⟨_, rfl⟩
  simp only [hP, Option.bind_eq_bind, Option.bind_some]
  have hu : Used P := Used.set _ none Used.new (fun _ h => by cases h) hP
  obtain ⟨⟨P1, o1⟩, hm⟩ := C69_always_ends P hu .mfm false r.deltas
  have hu1 : Used P1 := Used.decode hu hm
  obtain ⟨⟨P2, o2⟩, hf⟩ := C69_always_ends P1 hu1 .fm false r.deltas
  unfold Rev.decodeDirect
  simp only [hm, Option.bind_eq_bind, Option.bind_some]
  split
  · simp only [hf, Option.bind_some]
    split <;> exact ⟨_, rfl⟩
  · exact ⟨_, rfl⟩

theorem decodeAll_total (debug : Bool) (rnd : Nat → Bool) (fm : FmCodec) :
    ∀ rs, (∀ r ∈ rs, ∀ r', r.decode none none = some r' → r'.encoding = .fm → ∃ t, fm r'.bits = .ok t) →
      ∃ l, decodeAll debug rnd fm none none rs = .ok l
  | [], _ => ⟨[], rfl⟩
  | r :: rs, hfm => by
    obtain ⟨r', h1⟩ := decode_total r
    obtain ⟨l, h3⟩ := decodeAll_total debug rnd fm rs (fun x hx => hfm x (List.mem_cons_of_mem _ hx))
    have h2 : ∃ t, r'.track debug rnd fm = .ok t := by
      cases he : r'.encoding with
      | mfm => obtain ⟨t, ht, _⟩ := track_cells debug rnd fm r' he; exact ⟨t, ht⟩
      | fm =>
        obtain ⟨t, ht⟩ := hfm r (List.mem_cons_self ..) r' h1 he
        exact ⟨t, by unfold Rev.track; rw [he]; exact ht⟩
    obtain ⟨t, h2⟩ := h2
    exact ⟨(r', t) :: l, by rw [decodeAll]; simp only [h1, h2, h3]⟩

theorem make_total (debug : Bool) (rnd : Nat → Bool) (fm : FmCodec) (rs : List Rev)
    (hfm : Flux.FmFine fm none none rs) : ∃ m, make debug rnd fm none none rs = .ok m := by
  obtain ⟨l, h⟩ := decodeAll_total debug rnd fm (synthesize rs) hfm
  exact ⟨_, by unfold make; rw [h]⟩

/-! ## Reading a track -/

theorem convert_eq (res : Nat) : ∀ (ws : List Nat) (acc : Nat), convert res acc ws =
    (ScpFile.times 65535 acc ws).map fun n => ((n * res : Nat) : Rat) / 1000000000
  | [], _ => rfl
  | 0 :: ws, acc => by
    rw [convert, if_pos rfl, ScpFile.times, convert_eq res ws]
  | (n + 1) :: ws, acc => by
    rw [convert, if_neg (by omega), ScpFile.times, convert_eq res ws, List.map_cons]
    congr 1
    push_cast
    ring

/-- What a revolution must be like to be read. -/
def TurnOk (checked : Bool) (f : List Byte) (o j : Nat) : Prop :=
  (ScpFile.turnCount f o j = 0 ∨ ScpFile.turnStart f o j + 2 * ScpFile.turnCount f o j ≤ f.length) ∧
    (checked = true → ScpFile.turnTime f o j * 25 < 2 ^ 32)

/-- What a track must be like to be read. -/
def TrackOk (checked : Bool) (f : List Byte) (o : Nat) : Prop :=
  (o + 4 ≤ f.length ∧ (f.drop o).take 3 = [0x54#8, 0x52#8, 0x4B#8] ∧
    (ScpFile.turns f = 0 ∨ ScpFile.turn o (ScpFile.turns f) ≤ f.length)) ∧
  ∀ j < ScpFile.turns f, TurnOk checked f o j

theorem revHeaders_ok (f : List Byte) : ∀ n o, (n = 0 ∨ o + 12 * n ≤ f.length) →
    revHeaders f n o = .ok ((List.range n).map fun j =>
      ⟨ScpFile.dword f (o + 12 * j), ScpFile.dword f (o + 12 * j + 4), ScpFile.dword f (o + 12 * j + 8)⟩)
  | 0, _, _ => rfl
  | n + 1, o, h => by
    rw [revHeaders, if_pos (by omega), revHeaders_ok f n (o + 12) (by omega)]
    simp only [List.range_succ_eq_map, List.map_cons, List.map_map]
    congr 2
    apply List.map_congr_left
    intro j _
    simp only [Function.comp]
    rw [show o + 12 + 12 * j = o + 12 * (j + 1) by omega]

theorem revHeaders_bad (f : List Byte) : ∀ n o, ¬ (n = 0 ∨ o + 12 * n ≤ f.length) → ∃ e, revHeaders f n o = .error e
  | 0, _, h => absurd (Or.inl rfl) h
  | n + 1, o, h => by
    rw [revHeaders]
    split
    · rename_i h'
      obtain ⟨e, he⟩ := revHeaders_bad f n (o + 12) (by omega)
      exact ⟨e, by rw [he]⟩
    · exact ⟨_, rfl⟩

/-- The header that is read of a revolution. -/
def hdr (f : List Byte) (o j : Nat) : RevHeader :=
  ⟨ScpFile.turnTime f o j, ScpFile.turnCount f o j, ScpFile.dword f (ScpFile.turn o j + 8)⟩

/-- What becomes of a revolution. -/
def seenRev (f : List Byte) (o : Nat) (ch : Ch) (j : Nat) : Rev :=
  Rev.ofDeltas ch ((ScpFile.times 65535 0 (ScpFile.samples f o j)).map fun n => ((n * ScpFile.tick f : Nat) : Rat) / 1000000000)
    (((ScpFile.turnTime f o j * 25 % 2 ^ 32 : Nat) : Rat) / 1000000000)

theorem revs_ok (debug : Bool) (f : List Byte) (res o : Nat) (hr : res = ScpFile.tick f) (ch : Ch) :
    ∀ js : List Nat, (∀ j ∈ js, TurnOk debug f o j) →
      revs debug f res o ch (js.map (hdr f o)) = .ok (js.map (seenRev f o ch))
  | [], _ => rfl
  | j :: js, h => by
    obtain ⟨h1, h2⟩ := h j List.mem_cons_self
    rw [List.map_cons, revs, if_neg, revs_ok debug f res o hr ch js (fun x hx => h x (List.mem_cons_of_mem _ hx))]
    · have : samples f (o + (hdr f o j).offset) (hdr f o j).length = .ok (ScpFile.samples f o j) := by
        unfold samples
        exact if_pos h1
      rw [this]
      simp only
      rw [convert_eq, hr]
      rfl
    · intro hc
      simp only [Bool.and_eq_true, decide_eq_true_eq] at hc
      have := h2 hc.1
      have h3 : 2 ^ 32 ≤ ScpFile.turnTime f o j * 25 := hc.2
      omega

theorem revs_bad (debug : Bool) (f : List Byte) (res o : Nat) (ch : Ch) :
    ∀ js : List Nat, ¬ (∀ j ∈ js, TurnOk debug f o j) → ∃ e, revs debug f res o ch (js.map (hdr f o)) = .error e
  | [], h => absurd (fun _ h => by cases h) h
  | j :: js, h => by
    rw [List.map_cons, revs]
    split
    · exact ⟨_, rfl⟩
    · rename_i hc
      cases hs : samples f (o + (hdr f o j).offset) (hdr f o j).length with
      | error e => exact ⟨e, rfl⟩
      | ok ws =>
        simp only
        have hj : TurnOk debug f o j := by
          constructor
          · unfold samples at hs
            split at hs
            · rename_i h'; exact h'
            · cases hs
          · intro hd
            simp only [Bool.and_eq_true, decide_eq_true_eq, not_and] at hc
            have h3 : ¬ 2 ^ 32 ≤ ScpFile.turnTime f o j * 25 := hc hd
            omega
        obtain ⟨e, he⟩ := revs_bad debug f res o ch js (fun hall => h (fun x hx => by
          rcases List.mem_cons.1 hx with rfl | hx
          · exact hj
          · exact hall x hx))
        exact ⟨e, by rw [he]⟩

theorem readTrack_ok (debug : Bool) (f : List Byte) (h : Header) (hr : h.revolutions = ScpFile.turns f)
    (ht : h.resolution = ScpFile.tick f) (o : Nat) (ch : Ch) (hk : TrackOk debug f o) :
    readTrack debug f h o ch = .ok ((List.range (ScpFile.turns f)).map (seenRev f o ch)) := by
  obtain ⟨⟨h1, h2, h3⟩, h4⟩ := hk
  unfold readTrack
  rw [if_neg (by omega), if_neg (by rw [h2]; decide), hr, revHeaders_ok f _ _ h3]
  exact revs_ok debug f _ o ht ch _ (fun j hj => h4 j (List.mem_range.1 hj))

theorem readTrack_bad (debug : Bool) (f : List Byte) (h : Header) (hr : h.revolutions = ScpFile.turns f)
    (o : Nat) (ch : Ch) (hk : ¬ TrackOk debug f o) : ∃ e, readTrack debug f h o ch = .error e := by
  unfold readTrack
  split
  · exact ⟨_, rfl⟩
  · rename_i h1
    split
    · exact ⟨_, rfl⟩
    · rename_i h2
      rw [hr]
      by_cases h3 : ScpFile.turns f = 0 ∨ o + 4 + 12 * ScpFile.turns f ≤ f.length
      · rw [revHeaders_ok f _ _ h3]
        refine revs_bad debug f _ o ch (List.range (ScpFile.turns f)) (fun hall => hk ⟨⟨by omega, ?_, h3⟩, fun j hj => hall j (List.mem_range.2 hj)⟩)
        simpa [trackSignature] using h2
      · obtain ⟨e, he⟩ := revHeaders_bad f _ _ h3
        exact ⟨e, by rw [he]⟩

/-! ## The loop over the tracks -/

/-- The state of the iterator before track `i`. -/
def before (S : Nat) : Nat → Option Ch
  | 0 => none
  | i + 1 => some ⟨i / S, i % S⟩

theorem iter_place {S : Nat} (hS : S = 1 ∨ S = 2) (i : Nat) :
    (i < 84 * S → Ch.iterNext ⟨84, S⟩ (before S i) = some ⟨i / S, i % S⟩) ∧
    (84 * S ≤ i → i ≤ 84 * S → Ch.iterNext ⟨84, S⟩ (before S i) = none) := by
  cases i with
  | zero =>
    refine ⟨fun _ => ?_, fun h => by omega⟩
    show some _ = some _
    rw [Nat.zero_div, Nat.zero_mod]
  | succ i =>
    unfold before Ch.iterNext Ch.nextTrack
    simp only
    rcases hS with rfl | rfl
    · refine ⟨fun h => ?_, fun h h' => ?_⟩
      · rw [if_neg (by omega), if_pos (by omega)]
        congr 2 <;> omega
      · rw [if_neg (by omega), if_neg (by omega)]
    · refine ⟨fun h => ?_, fun h h' => ?_⟩
      · by_cases hm : i % 2 < 2 - 1
        · rw [if_pos hm]; congr 2 <;> omega
        · rw [if_neg hm, if_pos (by omega)]; congr 2 <;> omega
      · rw [if_neg (by omega), if_neg (by omega)]

/-- Adding a flux track. -/
def withFlux (d : Disk) (x : DiskTrack) : Disk := { d with res := d.res.insert .fluxStream }.pushTrack x.ch.h x

/-- Adding flux tracks one after another. -/
def pushFlux (d : Disk) (xs : List DiskTrack) : Disk := xs.foldl withFlux d

/-- What a track becomes. -/
def madeTrack (debug : Bool) (rnd : Nat → Bool) (fm : FmCodec) (f : List Byte) (i o : Nat) : DiskTrack :=
  match make debug rnd fm none none ((List.range (ScpFile.turns f)).map (seenRev f o (ScpFile.place f i))) with
  | .ok m => .flux (ScpFile.place f i) m.bitstream
  | .error _ => .other (ScpFile.place f i)

theorem madeTrack_ch (debug : Bool) (rnd : Nat → Bool) (fm : FmCodec) (f : List Byte) (i o : Nat) :
    (madeTrack debug rnd fm f i o).ch = ScpFile.place f i := by
  unfold madeTrack; split <;> rfl

/-- The tracks made of the offsets, the first being number `i`. -/
def madeAll (debug : Bool) (rnd : Nat → Bool) (fm : FmCodec) (f : List Byte) : Nat → List Nat → List DiskTrack
  | _, [] => []
  | i, o :: os => madeTrack debug rnd fm f i o :: madeAll debug rnd fm f (i + 1) os

theorem withFlux_accepts (d : Disk) (x : DiskTrack) : (withFlux d x).rejects .fluxStream = false := by
  unfold withFlux Disk.pushTrack Disk.pushMap Disk.rejects
  split <;> simp [ResSet.insert, ResSet.has]

theorem sides_cases (f : List Byte) : ScpFile.sides f = 1 ∨ ScpFile.sides f = 2 := by
  unfold ScpFile.sides; split <;> simp

/-- Of the revolutions of these tracks, those that are taken for FM are such that the FM codec accepts them. -/
def FmFine (fm : FmCodec) (f : List Byte) (i : Nat) (os : List Nat) : Prop :=
  ∀ k o, os[k]? = some o → Flux.FmFine fm none none ((List.range (ScpFile.turns f)).map (seenRev f o (ScpFile.place f (i + k))))

theorem FmFine.head {fm : FmCodec} {f : List Byte} {i o : Nat} {os : List Nat} (h : FmFine fm f i (o :: os)) :
    Flux.FmFine fm none none ((List.range (ScpFile.turns f)).map (seenRev f o (ScpFile.place f i))) := h 0 o rfl

theorem FmFine.tail {fm : FmCodec} {f : List Byte} {i o : Nat} {os : List Nat} (h : FmFine fm f i (o :: os)) :
    FmFine fm f (i + 1) os := fun k x hx => by
  have := h (k + 1) x (by simpa using hx)
  rw [show i + (k + 1) = i + 1 + k by omega] at this
  exact this

theorem FmFine.cons {fm : FmCodec} {f : List Byte} {i o : Nat} {os : List Nat}
    (h : Flux.FmFine fm none none ((List.range (ScpFile.turns f)).map (seenRev f o (ScpFile.place f i))))
    (ht : FmFine fm f (i + 1) os) : FmFine fm f i (o :: os) := fun k x hx => by
  cases k with
  | zero => simp only [List.getElem?_cons_zero, Option.some.injEq] at hx; subst hx; exact h
  | succ k =>
    rw [show i + (k + 1) = i + 1 + k by omega]
    exact ht k x (by simpa using hx)

theorem decodeAll_fine {debug : Bool} {rnd : Nat → Bool} {fm : FmCodec} {hint : Option Rat} {rpm : Option Rpm} :
    ∀ {rs : List Rev} {l}, decodeAll debug rnd fm hint rpm rs = .ok l →
      ∀ r ∈ rs, ∀ r', r.decode hint rpm = some r' → r'.encoding = .fm → ∃ t, fm r'.bits = .ok t
  | [], _, _, r, hr => by simp at hr
  | x :: rs, l, h, r, hr => by
    intro r' h1 he
    rw [decodeAll] at h
    cases hx : x.decode hint rpm with
    | none => rw [hx] at h; cases h
    | some x' =>
      rw [hx] at h
      simp only at h
      cases ht : x'.track debug rnd fm with
      | error e => rw [ht] at h; cases h
      | ok t =>
        rw [ht] at h
        simp only at h
        cases hl : decodeAll debug rnd fm hint rpm rs with
        | error e => rw [hl] at h; cases h
        | ok l' =>
          rcases List.mem_cons.1 hr with rfl | hr
          · rw [h1] at hx
            injection hx with hx
            subst hx
            unfold Rev.track at ht
            rw [he] at ht
            exact ⟨t, ht⟩
          · exact decodeAll_fine hl r hr r' h1 he

theorem make_fine {debug : Bool} {rnd : Nat → Bool} {fm : FmCodec} {hint : Option Rat} {rpm : Option Rpm} {rs : List Rev} {m}
    (h : make debug rnd fm hint rpm rs = .ok m) : Flux.FmFine fm hint rpm rs := by
  unfold make at h
  cases hl : decodeAll debug rnd fm hint rpm (synthesize rs) with
  | error e => rw [hl] at h; cases h
  | ok l => exact decodeAll_fine hl

theorem addFlux_error (d : Disk) (ch : Ch) (x : Err) : ∃ d' y, d.addFlux ch (.error x) = (d', .error y) := by
  unfold Disk.addFlux
  split
  · exact ⟨_, _, rfl⟩
  · split <;> exact ⟨_, _, rfl⟩

/-- Tracks that were loaded are fine. -/
theorem tracks_fine {debug : Bool} {rnd : Nat → Bool} {fm : FmCodec} {f : List Byte} {h : Header}
    (hr : h.revolutions = ScpFile.turns f) (ht : h.resolution = ScpFile.tick f) (hh : h.heads = ScpFile.sides f) :
    ∀ (os : List Nat) (i : Nat) (d : Disk) (rate : Option F86.Rate) (res), i + os.length ≤ 84 * ScpFile.sides f →
      (∀ o ∈ os, TrackOk debug f o) →
      tracks debug rnd fm f h os (before (ScpFile.sides f) i) d rate = .ok res → FmFine fm f i os
  | [], _, _, _, _, _, _, _ => fun k o hk => by simp at hk
  | o :: os, i, d, rate, res, hi, hos, e => by
    rw [List.length_cons] at hi
    rw [tracks, hh, (iter_place (sides_cases f) i).1 (by omega)] at e
    simp only at e
    rw [show (⟨i / ScpFile.sides f, i % ScpFile.sides f⟩ : Ch) = ScpFile.place f i from rfl,
      readTrack_ok debug f h hr ht o (ScpFile.place f i) (hos o List.mem_cons_self)] at e
    simp only at e
    cases hm : make debug rnd fm none none ((List.range (ScpFile.turns f)).map (seenRev f o (ScpFile.place f i))) with
    | error x =>
      rw [hm] at e
      obtain ⟨d', y, hy⟩ := addFlux_error d (ScpFile.place f i) x
      rw [show d.addFlux (ScpFile.place f i) (match (Except.error x : Except Err Made) with
        | .ok m => .ok m.bitstream | .error e => .error e) = (d', .error y) from hy] at e
      cases e
    | ok m =>
      rw [hm] at e
      simp only at e
      split at e
      · cases e
      · exact .cons (make_fine hm) (tracks_fine hr ht hh os (i + 1) _ _ _ (by omega)
          (fun x hx => hos x (List.mem_cons_of_mem _ hx)) e)

theorem tracks_ok (debug : Bool) (rnd : Nat → Bool) (fm : FmCodec) (f : List Byte) (h : Header)
    (hr : h.revolutions = ScpFile.turns f) (ht : h.resolution = ScpFile.tick f) (hh : h.heads = ScpFile.sides f) :
    ∀ (os : List Nat) (i : Nat) (d : Disk) (rate : Option F86.Rate), d.rejects .fluxStream = false →
      i + os.length ≤ 84 * ScpFile.sides f → (∀ o ∈ os, TrackOk debug f o) → FmFine fm f i os →
      ∃ r, tracks debug rnd fm f h os (before (ScpFile.sides f) i) d rate =
        .ok (pushFlux d (madeAll debug rnd fm f i os), (before (ScpFile.sides f) (i + os.length)).getD ⟨0, 0⟩, r) ∧
        (os ≠ [] ∨ rate ≠ none → r ≠ none) ∧ (∀ x, rate = some x → r = some x) ∧
        ∀ o os', os = o :: os' → rate = none → ∀ m, make debug rnd fm none none
          ((List.range (ScpFile.turns f)).map (seenRev f o (ScpFile.place f i))) = .ok m → r = some (rateOfMade m)
  | [], i, d, rate, _, _, _, _ => ⟨rate, rfl, fun h => by rcases h with h | h; exact absurd rfl h; exact h,
      fun _ h => h, fun _ _ h => by cases h⟩
  | o :: os, i, d, rate, hd, hi, hos, hfm => by
    rw [List.length_cons] at hi
    have hp := (iter_place (sides_cases f) i).1 (by omega)
    have hS := sides_cases f
    obtain ⟨m, hm⟩ := make_total debug rnd fm _ hfm.head
    have hrd := readTrack_ok debug f h hr ht o (ScpFile.place f i) (hos o List.mem_cons_self)
    have hmt : madeTrack debug rnd fm f i o = .flux (ScpFile.place f i) m.bitstream := by
      unfold madeTrack; rw [hm]
    have hadd : d.addFlux (ScpFile.place f i) (.ok m.bitstream) = (withFlux d (madeTrack debug rnd fm f i o), .ok d.pool.length) := by
      unfold Disk.addFlux
      rw [if_neg (by show ¬ 2 ≤ i % ScpFile.sides f; rcases hS with e | e <;> rw [e] <;> omega), hd, hmt]
      rfl
    obtain ⟨r, ih1, ih2, ih3, _⟩ := tracks_ok debug rnd fm f h hr ht hh os (i + 1) (withFlux d (madeTrack debug rnd fm f i o))
      (match rate with | some r => some r | none => some (rateOfMade m)) (withFlux_accepts _ _) (by omega)
      (fun x hx => hos x (List.mem_cons_of_mem _ hx)) hfm.tail
    refine ⟨r, ?_, fun _ => ih2 (Or.inr (by cases rate <;> simp)), fun x hx => ih3 x (by rw [hx]), ?_⟩
    rotate_left
    · intro o' os' ho hn m' hm'
      injection ho with ho _
      subst ho
      rw [hm] at hm'
      injection hm' with hm'
      subst hm'
      exact ih3 _ (by rw [hn])
    rw [tracks, hh, hp]
    show (match readTrack debug f h o (ScpFile.place f i) with | .error e => _ | .ok rs => _) = _
    rw [hrd]
    simp only
    rw [hm]
    simp only
    rw [show d.addFlux { c := i / ScpFile.sides f, h := i % ScpFile.sides f } (Except.ok m.bitstream) = _ from hadd]
    simp only
    have e : some (⟨i / ScpFile.sides f, i % ScpFile.sides f⟩ : Ch) = before (ScpFile.sides f) (i + 1) := rfl
    rw [e]
    rw [List.length_cons, show i + (os.length + 1) = i + 1 + os.length by omega]
    exact ih1

theorem tracks_bad (debug : Bool) (rnd : Nat → Bool) (fm : FmCodec) (f : List Byte) (h : Header)
    (hr : h.revolutions = ScpFile.turns f) (hh : h.heads = ScpFile.sides f) :
    ∀ (os : List Nat) (i : Nat) (d : Disk) (rate : Option F86.Rate), i ≤ 84 * ScpFile.sides f →
      ¬ (i + os.length ≤ 84 * ScpFile.sides f ∧ ∀ o ∈ os, TrackOk debug f o) →
      ∃ e, tracks debug rnd fm f h os (before (ScpFile.sides f) i) d rate = .error e
  | [], i, d, rate, hi, hn => absurd ⟨by simpa using hi, fun _ h => by cases h⟩ hn
  | o :: os, i, d, rate, hi, hn => by
    rw [tracks, hh]
    rcases Nat.lt_or_ge i (84 * ScpFile.sides f) with hlt | hge
    · rw [(iter_place (sides_cases f) i).1 hlt]
      simp only
      by_cases hk : TrackOk debug f o
      · cases hrd : readTrack debug f h o ⟨i / ScpFile.sides f, i % ScpFile.sides f⟩ with
        | error e => exact ⟨e, rfl⟩
        | ok rs =>
          simp only
          generalize make debug rnd fm none none rs = M
          rcases hx : d.addFlux ⟨i / ScpFile.sides f, i % ScpFile.sides f⟩ (match M with | .ok m => .ok m.bitstream | .error e => .error e) with ⟨d', e | n⟩
          · exact ⟨e, rfl⟩
          · simp only
            have e : some (⟨i / ScpFile.sides f, i % ScpFile.sides f⟩ : Ch) = before (ScpFile.sides f) (i + 1) := rfl
            rw [e]
            refine tracks_bad debug rnd fm f h hr hh os (i + 1) d' _ (by omega) ?_
            rintro ⟨h1, h2⟩
            refine hn ⟨by rw [List.length_cons]; omega, ?_⟩
            intro x hx
            rcases List.mem_cons.1 hx with rfl | hx
            · exact hk
            · exact h2 x hx
      · obtain ⟨e, he⟩ := readTrack_bad debug f h hr o ⟨i / ScpFile.sides f, i % ScpFile.sides f⟩ hk
        exact ⟨e, by rw [he]⟩
    · rw [(iter_place (sides_cases f) i).2 hge hi]
      exact ⟨_, rfl⟩

/-! ## The table -/

theorem tableLoop_ok (f : List Byte) : ∀ (n o last : Nat), o + 4 * n ≤ f.length →
    (last :: ((List.range n).map fun i => ScpFile.dword f (o + 4 * i)).takeWhile (· ≠ 0)).Pairwise (· < ·) →
    (∀ x ∈ ((List.range n).map fun i => ScpFile.dword f (o + 4 * i)).takeWhile (· ≠ 0), x < f.length) →
    tableLoop f n o last = .ok (((List.range n).map fun i => ScpFile.dword f (o + 4 * i)).takeWhile (· ≠ 0))
  | 0, _, _, _, _, _ => rfl
  | n + 1, o, last, h1, h2, h3 => by
    have hl : ((List.range (n + 1)).map fun i => ScpFile.dword f (o + 4 * i)) =
        ScpFile.dword f o :: (List.range n).map fun i => ScpFile.dword f (o + 4 + 4 * i) := by
      rw [List.range_succ_eq_map, List.map_cons, List.map_map]
      congr 1
      apply List.map_congr_left
      intro j _
      simp only [Function.comp]
      rw [show o + 4 + 4 * j = o + 4 * (j + 1) by omega]
    rw [hl] at h2 h3 ⊢
    rw [tableLoop, if_pos (by omega)]
    have e : le32At f o = ScpFile.dword f o := rfl
    rw [e]
    by_cases h0 : ScpFile.dword f o = 0
    · rw [if_pos h0, List.takeWhile_cons_of_neg (by simp [h0])]
    · rw [if_neg h0]
      rw [List.takeWhile_cons_of_pos (by simp [h0])] at h2 h3 ⊢
      have g1 := List.rel_of_pairwise_cons h2 List.mem_cons_self
      have g2 := h3 _ List.mem_cons_self
      rw [if_neg (by omega), tableLoop_ok f n (o + 4) _ (by omega) (List.pairwise_cons.1 h2).2 (fun x hx => h3 x (List.mem_cons_of_mem _ hx))]

theorem tableLoop_inv (f : List Byte) : ∀ (n o last : Nat) (l : List Nat), tableLoop f n o last = .ok l →
    l = ((List.range n).map fun i => ScpFile.dword f (o + 4 * i)).takeWhile (· ≠ 0) ∧ (last :: l).Pairwise (· < ·)
  | 0, _, _, l, h => by cases h; exact ⟨rfl, by simp⟩
  | n + 1, o, last, l, h => by
    have hl : ((List.range (n + 1)).map fun i => ScpFile.dword f (o + 4 * i)) =
        ScpFile.dword f o :: (List.range n).map fun i => ScpFile.dword f (o + 4 + 4 * i) := by
      rw [List.range_succ_eq_map, List.map_cons, List.map_map]
      congr 1
      apply List.map_congr_left
      intro j _
      simp only [Function.comp]
      rw [show o + 4 + 4 * j = o + 4 * (j + 1) by omega]
    rw [hl]
    rw [tableLoop] at h
    have e : le32At f o = ScpFile.dword f o := rfl
    rw [e] at h
    split at h
    · split at h
      · rename_i h0
        cases h
        rw [List.takeWhile_cons_of_neg (by simp [h0])]
        exact ⟨rfl, by simp⟩
      · rename_i h0
        split at h
        · cases h
        · rename_i h1
          cases hr : tableLoop f n (o + 4) (ScpFile.dword f o) with
          | error e => rw [hr] at h; cases h
          | ok l' =>
            rw [hr] at h
            cases h
            obtain ⟨g1, g2⟩ := tableLoop_inv f n (o + 4) _ l' hr
            rw [List.takeWhile_cons_of_pos (by simp [h0]), ← g1]
            refine ⟨rfl, List.pairwise_cons.2 ⟨?_, g2⟩⟩
            intro x hx
            rcases List.mem_cons.1 hx with rfl | hx
            · omega
            · have := List.rel_of_pairwise_cons g2 hx
              omega
    · cases h

end Scp
end Fox
