import Verif.Props.Scp
import Verif.Props.FmCase
import Verif.Props.Kryo
/-
C81 and C86 with the FM codec as it is: flux that is taken for FM can make the loaders of flux images panic.
-/
namespace Fox
open Spec Flux Scp FmDisk

/-- Whether the data bits of a mark are at `p`. -/
def dataAt (t : List Bool) (p : Nat) (d : Byte) : Bool :=
  (List.range 8).all fun k => t.getD (p + 48 + 2 * k + 1) false == d.getMsbD k

/-- Whether the clock bits of a mark are at `p`. -/
def clocksAt (t : List Bool) (p : Nat) : Bool :=
  decide (p + 64 ≤ t.length) && ((List.range 24).all fun k => t.getD (p + 2 * k) false) &&
    (List.range 8).all fun k => t.getD (p + 48 + 2 * k) false == (0xC7#8).getMsbD k

theorem markAt_check (t : List Bool) (p : Nat) (d : Byte) : MarkAt t p d ↔ clocksAt t p = true ∧ dataAt t p d = true := by
  rw [Fm.markAt_iff]
  unfold clocksAt dataAt
  simp only [Bool.and_eq_true, List.all_eq_true, List.mem_range, decide_eq_true_eq, beq_iff_eq, and_assoc]

theorem mark_of_marks {t : List Bool} {M : List (Nat × Byte)}
    (h1 : ∀ p ∈ List.range t.length, clocksAt t p = true → p ∈ M.map Prod.fst)
    (h2 : ∀ x ∈ M, clocksAt t x.1 = true ∧ dataAt t x.1 x.2 = true) (p : Nat) (d : Byte) : MarkAt t p d ↔ (p, d) ∈ M := by
  constructor
  · intro h
    obtain ⟨a1, a2, a3, a4⟩ := (Fm.markAt_iff t p d).1 h
    obtain ⟨x, hx, hxp⟩ := List.mem_map.1 (h1 p (List.mem_range.2 (by omega)) ((markAt_check t p d).1 h).1)
    obtain ⟨b1, b2, b3, b4⟩ := (Fm.markAt_iff t x.1 x.2).1 ((markAt_check t x.1 x.2).2 (h2 x hx))
    have : x.2 = d := by
      apply BitVec.eq_of_getMsbD_eq
      intro i hi
      rw [← a4 i hi, ← b4 i hi, hxp]
    rw [← this, ← hxp]
    exact hx
  · intro h; exact (markAt_check t p d).2 (h2 _ h)

/-- Flux times in ticks of 25 ns: gap, a data mark, gap, and at the end of the track an id mark whose numbers are cut off. -/
def fmTicks : List Nat :=
  [184] ++ List.replicate 70 160 ++ [296, 320, 296, 160, 296] ++ List.replicate 57 160 ++ [296, 320, 296] ++ List.replicate 5 160 ++ [296] ++
    List.replicate 17 160

def fmRev : Rev := Rev.ofDeltas ⟨0, 0⟩ (fmTicks.map fun (n : Nat) => (n * 25 : Rat) / 1000000000) (2 / 10)

/-- The cells that it is taken for. -/
def fmBits : List Bool :=
  [false] ++ List.replicate 71 true ++ [false, true, false, true, false, true, true, false] ++ List.replicate 58 true ++
    [false, true, false, true, false] ++ List.replicate 6 true ++ [false] ++ List.replicate 18 true

theorem fmRev_decode : ∃ r, fmRev.decode none none = some r ∧ r.encoding = .fm ∧ r.bits = fmBits := by
  have h : (fmRev.decode none none).map (fun r => (r.encoding, r.bits)) = some (.fm, fmBits) := by decide +kernel
  obtain ⟨r, h1, h2⟩ := Option.map_eq_some_iff.1 h
  injection h2 with h2 h3
  exact ⟨r, h1, h2, h3⟩

theorem fmBits_marks (p : Nat) (d : Byte) : MarkAt fmBits p d ↔ (p, d) ∈ [(20, 0xFB#8), (86, 0xFE#8)] :=
  mark_of_marks (by decide +kernel) (by decide +kernel) p d

theorem fmBits_usual : Usual fmBits := by
  refine ⟨fun d h => ?_, fun p _ h => ?_⟩
  · have := (fmBits_marks _ _).1 h
    simp at this
  · have := (fmBits_marks _ _).1 h
    revert this
    simp

theorem fmBits_scanned : Scanned fmBits 0 [(20, 0xFB#8), (86, 0xFE#8)] :=
  Fm.scanned_of [(20, 0xFB#8), (86, 0xFE#8)] 0 (fun p d _ => fmBits_marks p d) (by simp) (by simp)

/-- The FM codec panics on these cells. -/
theorem fmBits_panics (debug : Bool) (rnd : Nat → Bool) (amiga : Fm.AmigaScan) : Fm.codec debug rnd amiga fmBits = .error .panic := by
  have hl : fmBits.length = 168 := by decide +kernel
  have := (Fm.C91_loads_partial (debug := debug) (rnd := rnd) (amiga := amiga) fmBits_usual fmBits_scanned (by simp)).2 (by
    rw [hl]
    intro h
    have := h.2.2.1 rfl
    omega)
  unfold Fm.codec
  rw [this]

theorem make_fails {debug : Bool} {rnd : Nat → Bool} {fm : FmCodec} {hint : Option Rat} {rpm : Option Rpm} {r r' : Rev} {e : Err}
    (hd : r.decode hint rpm = some r') (he : r'.encoding = .fm) (hf : fm r'.bits = .error e) :
    make debug rnd fm hint rpm [r] = .error e := by
  unfold make
  rw [show synthesize [r] = [r] from rfl, decodeAll]
  simp only [hd]
  unfold Rev.track
  simp only [he, hf]

/-- A file with one track of one revolution of this flux. -/
def fmFile : List Byte :=
  [0x53#8, 0x43#8, 0x50#8, 0x18#8, 0x80#8, 1#8, 0#8, 1#8, 0#8, 0#8, 1#8, 0#8, 0#8, 0#8, 0#8, 0#8] ++
  [20#8, 0#8, 0#8, 0#8] ++
  [0x54#8, 0x52#8, 0x4B#8, 0#8, 0#8, 0x12#8, 0x7A#8, 0#8, 159#8, 0#8, 0#8, 0#8, 16#8, 0#8, 0#8, 0#8] ++
  fmTicks.flatMap fun n => [BitVec.ofNat 8 (n / 256), BitVec.ofNat 8 n]

theorem fmFile_wellFormed (checked : Bool) : ScpFile.WellFormed checked fmFile := by
  have ho : ScpFile.offsets fmFile = [20] := by decide +kernel
  have ht : ScpFile.turns fmFile = 1 := by decide +kernel
  refine ⟨by unfold ScpFile.Known; decide +kernel, by decide +kernel, by decide +kernel, ?_, ?_, ?_, ?_⟩
  · rw [ho]; simp
  · rw [ho]; decide +kernel
  · rw [ho]; intro o ho; obtain rfl := List.mem_singleton.1 ho; decide +kernel
  · rw [ho]; intro o ho; obtain rfl := List.mem_singleton.1 ho
    intro j hj
    obtain rfl : j = 0 := by omega
    exact ⟨by decide +kernel, fun _ => by decide +kernel⟩

theorem fmFile_rev : (List.range (ScpFile.turns fmFile)).map (Scp.seenRev fmFile 20 ⟨0, 0⟩) = [fmRev] := by
  have ht : ScpFile.turns fmFile = 1 := by decide +kernel
  rw [ht]
  show [Scp.seenRev fmFile 20 ⟨0, 0⟩ 0] = _
  unfold Scp.seenRev fmRev
  congr 2
  · decide +kernel
  · decide +kernel

/-- **C81 refuted.** A well-formed file of one track with one revolution, in which an FM id mark is cut off by the index, makes
the loader panic in every build. -/
theorem C81_false_fm (debug : Bool) (rnd : Nat → Bool) (amiga : Fm.AmigaScan) :
    ScpFile.WellFormed true fmFile ∧ ScpFile.turns fmFile = 1 ∧ ScpFile.allOffsets fmFile = [20] ∧
      Scp.load debug rnd (Fm.codec debug rnd amiga) {} fmFile = .error .panic := by
  have ho : ScpFile.offsets fmFile = [20] := by decide +kernel
  have ht : ScpFile.turns fmFile = 1 := by decide +kernel
  have hw := fmFile_wellFormed debug
  refine ⟨fmFile_wellFormed true, ht, by decide +kernel, ?_⟩
  obtain ⟨r, r1, r2, r3⟩ := fmRev_decode
  have hmake : make debug rnd (Fm.codec debug rnd amiga) none none
      ((List.range (ScpFile.turns fmFile)).map (Scp.seenRev fmFile 20 ⟨0, 0⟩)) = .error .panic := by
    rw [fmFile_rev]
    exact make_fails r1 r2 (by rw [r3]; exact fmBits_panics debug rnd amiga)
  have hT := Scp.table_ok (debug := debug) hw.first (by decide +kernel) hw.order (fun o hx => by have := (hw.inside o hx).1; omega)
  unfold Scp.load
  rw [Scp.header_ok hw.header hw.plain]
  simp only
  rw [hT, ho]
  simp only
  rw [Scp.tracks, show (Scp.seenHeader fmFile).heads = ScpFile.sides fmFile from rfl,
    show (none : Option Ch) = Scp.before (ScpFile.sides fmFile) 0 from rfl,
    (Scp.iter_place (Scp.sides_cases fmFile) 0).1 (by decide +kernel)]
  simp only
  rw [Nat.zero_div, Nat.zero_mod, Scp.readTrack_ok debug fmFile _ rfl rfl 20 ⟨0, 0⟩
    ⟨hw.inside 20 (by rw [ho]; simp), fun j hj => hw.data 20 (by rw [ho]; simp) j hj⟩]
  simp only
  rw [hmake]
  rfl

/-! ## The same as a KryoFlux stream -/

/-- A sample clock of 40 MHz, of which 160 ticks are 4 us. -/
def fmClock : KryoFile.Decimal := ⟨[4, 0, 0, 0, 0, 0, 0, 0], [0]⟩

def fmItems : List KryoFile.Item :=
  [.clocks [] fmClock fmClock [], .flux1 160, .index 1 0 0] ++
  (fmTicks.map fun n => if n < 256 then KryoFile.Item.flux1 n else .flux2 n) ++ [.index 168 0 600686, .flux1 160]

theorem fmItems_good : KryoFile.Good fmItems ∧ KryoFile.Plain fmItems := by
  have hx : ∀ n ∈ fmTicks, 14 ≤ n ∧ n < 2048 := by decide +kernel
  refine ⟨⟨?_, by decide +kernel, by decide +kernel, by decide +kernel⟩, ?_⟩
  · intro i hi
    have hs : fmClock.Good := by unfold KryoFile.Decimal.Good fmClock; decide
    simp only [fmItems, List.mem_append, List.mem_cons, List.not_mem_nil, or_false, List.mem_map] at hi
    rcases hi with ((rfl | rfl | rfl) | ⟨n, hn, rfl⟩) | (rfl | rfl)
    · exact ⟨(by intro b hb; cases hb), (by intro b hb; cases hb), hs, hs, by decide, (by intro b hb; cases hb)⟩
    · show 14 ≤ 160 ∧ 160 < 256; omega
    · show 1 < 2 ^ 32 ∧ 0 < 2 ^ 32 ∧ 0 < 2 ^ 32; omega
    · have := hx n hn
      split
      · exact ⟨this.1, by assumption⟩
      · exact this.2
    · show 168 < 2 ^ 32 ∧ 0 < 2 ^ 32 ∧ 600686 < 2 ^ 32; omega
    · show 14 ≤ 160 ∧ 160 < 256; omega
  · intro i hi
    simp only [fmItems, List.mem_append, List.mem_cons, List.not_mem_nil, or_false, List.mem_map] at hi
    rcases hi with ((rfl | rfl | rfl) | ⟨n, hn, rfl⟩) | (rfl | rfl)
    · exact True.intro
    · exact True.intro
    · exact True.intro
    · by_cases h : n < 256
      · rw [if_pos h]; exact True.intro
      · rw [if_neg h]; exact True.intro
    · exact True.intro
    · exact True.intro

def fmRevK : Rev := Rev.ofDeltas ⟨0, 0⟩ (fmTicks.map fun (n : Nat) => (n * 25 : Rat) / 1000000000) (600686 / KryoFile.usualIck)

theorem fmRevK_decode : ∃ r, fmRevK.decode none none = some r ∧ r.encoding = .fm ∧ r.bits = fmBits := by
  have h : (fmRevK.decode none none).map (fun r => (r.encoding, r.bits)) = some (.fm, fmBits) := by decide +kernel
  obtain ⟨r, h1, h2⟩ := Option.map_eq_some_iff.1 h
  injection h2 with h2 h3
  exact ⟨r, h1, h2, h3⟩

/-- **C86 refuted.** A KryoFlux stream of one revolution, in which an FM id mark is cut off by the index, makes the loader panic in
every build. -/
theorem C86_false_fm (debug : Bool) (rnd : Nat → Bool) (amiga : Fm.AmigaScan) (rest : List Byte) :
    KryoFile.Good fmItems ∧ KryoFile.Plain fmItems ∧
      (Kryo.load debug rnd (Fm.codec debug rnd amiga) {} {} (KryoFile.file fmItems rest)).2 = .error .panic := by
  refine ⟨fmItems_good.1, fmItems_good.2, ?_⟩
  have hturns : KryoFile.turns (KryoFile.fluxes 0 0 KryoFile.usualSck fmItems) KryoFile.usualIck (KryoFile.pulses fmItems) =
      [(fmTicks.map fun (n : Nat) => (n * 25 : Rat) / 1000000000, 600686 / KryoFile.usualIck)] := by decide +kernel
  obtain ⟨r, r1, r2, r3⟩ := fmRevK_decode
  unfold Kryo.load
  simp only
  rw [C82_revolutions_partial debug _ rest fmItems_good.1 fmItems_good.2, hturns]
  simp only
  have e : Kryo.nextCh ({ res := { flux := true } } : Disk) = ⟨0, 0⟩ := rfl
  have e2 : Kryo.hints ({ res := { flux := true } } : Disk) {} = (none, none) := rfl
  rw [e, e2]
  simp only [List.map_cons, List.map_nil]
  rw [show make debug rnd (Fm.codec debug rnd amiga) none none
    [Rev.ofDeltas ⟨0, 0⟩ (fmTicks.map fun (n : Nat) => (n * 25 : Rat) / 1000000000) (600686 / KryoFile.usualIck)] = .error .panic from
    make_fails (r := fmRevK) r1 r2 (by rw [r3]; exact fmBits_panics debug rnd amiga)]
  rfl

end Fox
