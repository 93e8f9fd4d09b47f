import Verif.Model.BitLoad
import Verif.Spec.BitLoad
import Verif.Proofs.F86Sect
import Verif.Proofs.MetaDisk
/-
Tracks made of plain bytes, and disks made of such tracks.
-/
namespace Fox
open Spec S34

/-! ### One track -/

theorem new_bytes (bits : List Bool) (cells : Option Nat) (L : List Bool)
    (hL : (match cells with | some n => bits.take n | none => bits) = L) :
    ∃ s, Mfm.new bits cells none = .ok s ∧ s.bits = BitRing.ofBits L ∧
      s.clockMap.bits.length = L.length ∧ s.clockMap.wrap = L.length ∧ s.clockMap.wrapValue = some false ∧
      s.weakMask = BitRing.ofBits (List.replicate L.length false) := by
  subst hL
  unfold Mfm.new
  cases cells <;> simp only [Option.getD_none, List.length_replicate, Nat.lt_irrefl, if_false] <;>
    exact ⟨_, rfl, rfl, by simp [BitRing.ofBits], by simp [BitRing.ofBits], rfl, rfl⟩

theorem setPadding_spec (debug : Bool) (rnd : Nat → Bool) (s : Mfm) (h : debug = true → s.len % 8 = 0 → 32 ≤ s.len) :
    ∃ c, s.setPadding debug rnd = .ok { s with cursor := c } := by
  unfold Mfm.setPadding
  by_cases h8 : s.len % 8 = 0
  · rw [if_pos h8]
    have : ∃ p, F86.subU debug 64 (s.len / 2) 16 = .ok p := by
      unfold F86.subU
      by_cases h16 : 16 ≤ s.len / 2
      · rw [if_pos h16]; exact ⟨_, rfl⟩
      · rw [if_neg h16, if_neg (by intro hd; have := h hd h8; omega)]; exact ⟨_, rfl⟩
    obtain ⟨p, hp⟩ := this
    rw [hp]
    obtain ⟨c, hc⟩ := readBytes_cursor rnd 4 (s.seekStart p)
    exact ⟨c, by simp only [hc]; rfl⟩
  · rw [if_neg h8]; exact ⟨s.cursor, rfl⟩

theorem setPadding_short (rnd : Nat → Bool) (s : Mfm) (h8 : s.len % 8 = 0) (h : s.len < 32) :
    s.setPadding true rnd = .error .panic := by
  unfold Mfm.setPadding F86.subU
  rw [if_pos h8, if_neg (by omega), if_pos rfl]

theorem padded (debug : Bool) (rnd : Nat → Bool) (pad : Bool) (s : Mfm)
    (h : pad = true → debug = true → s.len % 8 = 0 → 32 ≤ s.len) :
    ∃ c, (if pad then s.setPadding debug rnd else .ok s) = .ok { s with cursor := c } := by
  by_cases hp : pad = true
  · rw [if_pos hp]; exact setPadding_spec debug rnd s (h hp)
  · rw [if_neg hp]; exact ⟨s.cursor, rfl⟩

/-- The cells and the weak mask of a track are those handed over. -/
theorem ofMfm_cells (debug : Bool) (rnd : Nat → Bool) (pad : Bool) (s : Mfm) (hc : s.clockMap.bits.length = s.len)
    (h : pad = true → debug = true → s.len % 8 = 0 → 32 ≤ s.len) :
    ∃ t, Track.ofMfm debug rnd pad s = .ok t ∧ t.data.bits = s.bits ∧ t.data.weakMask = s.weakMask := by
  unfold Track.ofMfm
  simp only
  by_cases hm : scanMarkers s ≠ []
  · rw [if_pos hm]
    have hb := markers_bound s
    have hne : s.clockMap.bits ≠ [] := by
      intro h0
      rcases hx : scanMarkers s with _ | ⟨x, xs⟩
      · exact hm hx
      · have := hb x (by rw [hx]; simp)
        rw [← hc, h0] at this
        simp at this
    obtain ⟨cm, h7, h8⟩ := createClockMap_total ((scanMarkers s).map (·.start)) s.clockMap.bits hne
      (List.pairwise_map.2 (scanMarkers_sorted s)) (by
        intro x hx
        obtain ⟨y, hy, rfl⟩ := List.mem_map.1 hx
        rw [hc]; exact hb y hy)
    rw [h7]
    simp only
    obtain ⟨c1, h1⟩ := padded debug rnd pad { s with clockMap := { s.clockMap with bits := cm } } h
    rw [h1]
    simp only
    obtain ⟨c, h9⟩ := scanMetadata_cursor
      { ({ s with clockMap := { s.clockMap with bits := cm } } : Mfm) with cursor := c1 } rnd (scanMarkers s)
    exact ⟨_, rfl, by simp only [h9], by simp only [h9]⟩
  · rw [if_neg hm]
    obtain ⟨ha, hb⟩ := amiga_markers s
    by_cases hm2 : Amiga.scanMarkers s ≠ []
    · rw [if_pos hm2]
      have hne : s.clockMap.bits ≠ [] := by
        intro h0
        rcases hx : Amiga.scanMarkers s with _ | ⟨x, xs⟩
        · exact hm2 hx
        · have := hb x (by rw [hx]; simp)
          rw [← hc, h0] at this
          simp at this
      obtain ⟨cm, h7, h8⟩ := createClockMap_total (Amiga.scanMarkers s) s.clockMap.bits hne ha (by
        intro x hx; rw [hc]; exact hb x hx)
      rw [h7]
      simp only
      obtain ⟨c1, h1⟩ := padded debug rnd pad { s with clockMap := { s.clockMap with bits := cm } } h
      rw [h1]
      exact ⟨_, rfl, rfl, rfl⟩
    · rw [if_neg hm2]
      obtain ⟨c1, h1⟩ := padded debug rnd pad s h
      rw [h1]
      exact ⟨_, rfl, rfl, rfl⟩

/-- With overflow checks, a track of fewer than 32 cells without a cell count panics. -/
theorem ofMfm_short (rnd : Nat → Bool) (s : Mfm) (hc : s.clockMap.bits.length = s.len) (h8 : s.len % 8 = 0) (h : s.len < 32) :
    Track.ofMfm true rnd true s = .error .panic := by
  unfold Track.ofMfm
  simp only [if_true]
  by_cases hm : scanMarkers s ≠ []
  · rw [if_pos hm]
    have hb := markers_bound s
    have hne : s.clockMap.bits ≠ [] := by
      intro h0
      rcases hx : scanMarkers s with _ | ⟨x, xs⟩
      · exact hm hx
      · have := hb x (by rw [hx]; simp)
        rw [← hc, h0] at this
        simp at this
    obtain ⟨cm, h7, _⟩ := createClockMap_total ((scanMarkers s).map (·.start)) s.clockMap.bits hne
      (List.pairwise_map.2 (scanMarkers_sorted s)) (by
        intro x hx
        obtain ⟨y, hy, rfl⟩ := List.mem_map.1 hx
        rw [hc]; exact hb y hy)
    rw [h7]
    simp only
    rw [setPadding_short rnd _ (by exact h8) (by exact h)]
  · rw [if_neg hm]
    obtain ⟨ha, hb⟩ := amiga_markers s
    by_cases hm2 : Amiga.scanMarkers s ≠ []
    · rw [if_pos hm2]
      have hne : s.clockMap.bits ≠ [] := by
        intro h0
        rcases hx : Amiga.scanMarkers s with _ | ⟨x, xs⟩
        · exact hm2 hx
        · have := hb x (by rw [hx]; simp)
          rw [← hc, h0] at this
          simp at this
      obtain ⟨cm, h7, _⟩ := createClockMap_total (Amiga.scanMarkers s) s.clockMap.bits hne ha (by
        intro x hx; rw [hc]; exact hb x hx)
      rw [h7]
      simp only
      rw [setPadding_short rnd _ (by exact h8) (by exact h)]
    · rw [if_neg hm2, setPadding_short rnd _ h8 h]

/-- The sectors of a formatted track whose cells are loaded. -/
theorem ofMfm_trackOk (debug : Bool) (rnd : Nat → Bool) (pad : Bool) {s : Mfm} {B : List Byte} {iam : Option Nat} {secs : List Sec}
    (hst : StreamOk s B iam secs) (hshape : ClockShape s) (hne : marksOf iam secs ≠ [])
    (hp : pad = true → debug = true → s.len % 8 = 0 → 32 ≤ s.len) :
    ∃ t', Track.ofMfm debug rnd pad s = .ok t' ∧ TrackOk t' iam (secs.map Sec.rescanned) := by
  unfold Track.ofMfm
  simp only
  rw [hst.scanMarkers, if_pos (by simpa using hne)]
  obtain ⟨cm, g1, g2, g3⟩ := hst.clock hshape hne
  rw [g1]
  simp only
  obtain ⟨c1, h1⟩ := padded debug rnd pad { s with clockMap := { s.clockMap with bits := cm } } hp
  rw [h1]
  simp only
  have hs' := (hst.clockMap { s.clockMap with bits := cm }).cursor c1
  obtain ⟨c, g4⟩ := hs'.scanMetadata g3 rnd
  rw [g4]
  refine ⟨_, rfl, ⟨⟨B, (hs'.cursor c).rescanned⟩, ?_, ⟨?_, hshape.wrapValue, ?_⟩, rfl, rfl⟩⟩
  · have hmarks : marksOf iam (secs.map Sec.rescanned) = marksOf iam secs := by
      unfold marksOf
      rw [List.flatMap_map]; rfl
    intro m o hm; rw [hmarks] at hm; exact g3 m o hm
  · show s.clockMap.wrap = cm.length
    rw [g2]; exact hshape.wrap
  · show 16 * ((s.len + 15) / 16) ≤ cm.length + 15
    rw [g2]; exact hshape.size

/-- The cells a track made of bytes has. -/
def cellsOf (data : List Byte) (cells : Option Nat) : List Bool :=
  match cells with
  | some n => if data = [] then (List.range n).map (fun i => i % 2 == 0) else (bitsOf data).take n
  | none => bitsOf data

/-- The weak mask of a track with these cells. -/
def maskOf (detect : Bool) (L : List Bool) : List Bool :=
  if detect then Mfm.weakMaskLoop 6 0 L else List.replicate L.length false

theorem ofBytes_eq (debug : Bool) (rnd : Nat → Bool) (data : List Byte) (cells : Option Nat) (detect : Bool)
    (hd : cells = none → data ≠ []) :
    ∃ s, Track.ofBytes debug rnd data cells detect = Track.ofMfm debug rnd cells.isNone s ∧
      s.bits = BitRing.ofBits (cellsOf data cells) ∧ s.clockMap.bits.length = (cellsOf data cells).length ∧
      s.clockMap.wrap = (cellsOf data cells).length ∧ s.clockMap.wrapValue = some false ∧
      s.weakMask = BitRing.ofBits (maskOf detect (cellsOf data cells)) := by
  have fin : ∀ (s : Mfm) (L : List Bool), s.bits = BitRing.ofBits L → s.clockMap.bits.length = L.length →
      s.clockMap.wrap = L.length → s.clockMap.wrapValue = some false →
      s.weakMask = BitRing.ofBits (List.replicate L.length false) →
      (fun s : Mfm => s.bits = BitRing.ofBits L ∧ s.clockMap.bits.length = L.length ∧
      s.clockMap.wrap = L.length ∧ s.clockMap.wrapValue = some false ∧
      s.weakMask = BitRing.ofBits (maskOf detect L))
      (if detect then { s with weakMask := BitRing.ofBits (s.createWeakBitMask 6) } else s) := by
    intro s L h2 h3 h4 h5 h6
    by_cases hdt : detect = true
    · rw [if_pos hdt]
      refine ⟨h2, h3, h4, h5, ?_⟩
      unfold maskOf Mfm.createWeakBitMask
      rw [if_pos hdt, h2]; rfl
    · rw [if_neg hdt]
      refine ⟨h2, h3, h4, h5, ?_⟩
      unfold maskOf
      rw [if_neg hdt, h6]
  cases cells with
  | none =>
    have h0 := hd rfl
    obtain ⟨s, h1, h2, h3, h4, h5, h6⟩ := new_bytes (bitsOf data) none _ rfl
    unfold Track.ofBytes
    simp only
    rw [if_neg h0]
    simp only
    rw [h1]
    exact ⟨_, rfl, fin s _ h2 h3 h4 h5 h6⟩
  | some n =>
    by_cases h0 : data = []
    · obtain ⟨s, h1, h2, h3, h4, h5, h6⟩ := new_bytes ((List.range n).map fun i => i % 2 == 0) (some n) _ rfl
      simp only at h2 h3 h4 h6
      rw [List.take_of_length_le (by simp)] at h2 h3 h4 h6
      unfold Track.ofBytes cellsOf
      simp only
      rw [if_pos h0, if_pos h0]
      simp only
      rw [h1]
      exact ⟨_, rfl, fin s _ h2 h3 h4 h5 h6⟩
    · obtain ⟨s, h1, h2, h3, h4, h5, h6⟩ := new_bytes (bitsOf data) (some n) _ rfl
      unfold Track.ofBytes cellsOf
      simp only
      rw [if_neg h0, if_neg h0]
      simp only
      rw [h1]
      exact ⟨_, rfl, fin s _ h2 h3 h4 h5 h6⟩

theorem ofBits_bits (L : List Bool) : (BitRing.ofBits L).bits = L := rfl

theorem ofBytes_cells (debug : Bool) (rnd : Nat → Bool) (data : List Byte) (cells : Option Nat) (detect : Bool)
    (hd : cells = none → data ≠ [] ∧ (debug = true → 4 ≤ data.length)) :
    ∃ t, Track.ofBytes debug rnd data cells detect = .ok t ∧ t.data.bits = BitRing.ofBits (cellsOf data cells) ∧
      t.data.weakMask = BitRing.ofBits (maskOf detect (cellsOf data cells)) := by
  obtain ⟨s, h1, h2, h3, h4, h5, h6⟩ := ofBytes_eq debug rnd data cells detect (fun h => (hd h).1)
  have hlen : s.len = (cellsOf data cells).length := by unfold Mfm.len; rw [h2]; rfl
  obtain ⟨t, g1, g2, g3⟩ := ofMfm_cells debug rnd cells.isNone s (by rw [h3, hlen]) (by
    intro hp hdb _
    have hn : cells = none := Option.isNone_iff_eq_none.1 hp
    have := (hd hn).2 hdb
    rw [hlen]
    unfold cellsOf
    rw [hn]
    simp only [length_bitsOf]
    omega)
  exact ⟨t, by rw [h1, g1], by rw [g2, h2], by rw [g3, h6]⟩

theorem ofBytes_nil (debug : Bool) (rnd : Nat → Bool) (detect : Bool) :
    Track.ofBytes debug rnd [] none detect = .error .parameter := by
  unfold Track.ofBytes; simp

theorem ofBytes_short (rnd : Nat → Bool) (data : List Byte) (h0 : data ≠ []) (h : data.length < 4) (detect : Bool) :
    Track.ofBytes true rnd data none detect = .error .panic := by
  obtain ⟨s, h1, h2, h3, _⟩ := ofBytes_eq true rnd data none detect (fun _ => h0)
  have hlen : s.len = (cellsOf data none).length := by unfold Mfm.len; rw [h2]; rfl
  have hl : (cellsOf data none).length = 8 * data.length := by unfold cellsOf; simp [length_bitsOf]
  rw [h1]
  exact ofMfm_short rnd s (by rw [h3, hlen]) (by omega) (by omega)

/-- A track loaded from the cells of a track that holds sectors holds them too. -/
theorem ofBytes_holds (debug : Bool) (rnd : Nat → Bool) (data : List Byte) (cells : Option Nat) (detect : Bool)
    {ch ch' : Ch} {t : Track} {m : SectorMap} (h : Holds (.bit ch t) m) (hne : m ≠ [])
    (hcells : cellsOf data cells = t.data.bits.bits) (hm : ∀ b ∈ maskOf detect (cellsOf data cells), b = false) :
    ∃ t', Track.ofBytes debug rnd data cells detect = .ok t' ∧ Holds (.bit ch' t') m ∧
      t'.data.bits.bits = t.data.bits.bits := by
  cases h with
  | @bit N ch t iam secs hr =>
    have hms : marksOf iam secs ≠ [] := by
      intro e
      apply hne
      cases secs with
      | nil => rfl
      | cons s secs =>
        exfalso
        unfold marksOf at e
        simp at e
    obtain ⟨B, hs⟩ := hr.ok.stream
    have hl : (cellsOf data cells).length = 16 * B.length := by rw [hcells]; exact hs.cells.len
    have hB : 2 ≤ B.length := by
      obtain ⟨lo, a, b, c⟩ := hs.placed
      have := hs.cells.len
      rcases Nat.lt_or_ge 1 B.length with h2 | h2
      · exact h2
      · exfalso
        cases secs with
        | nil => exact hne rfl
        | cons x xs =>
          have hq := placed_mem c (x := x) (by simp)
          unfold Sec.stop at hq
          omega
    have hdn : cells = none → data ≠ [] := by
      intro hc h0
      rw [hc, h0] at hl
      have : (cellsOf [] none).length = 0 := rfl
      omega
    obtain ⟨s, h1, h2, h3, h4, h5, h6⟩ := ofBytes_eq debug rnd data cells detect hdn
    have hlen : s.len = (cellsOf data cells).length := by unfold Mfm.len; rw [h2]; rfl
    have hst : StreamOk s B iam secs := by
      refine ⟨by rw [h2]; rfl, by rw [h2]; rfl, .inr ?_, by rw [h6]; rfl, ?_, hs.secOk, hs.iamPos, hs.placed⟩
      · intro b hb
        rw [h6] at hb
        exact hm b hb
      · rw [h2, hcells]; exact hs.cells
    have hshape : ClockShape s := ⟨by rw [h4, h3], h5, by rw [hlen, h3]; omega⟩
    obtain ⟨t', o1, o2⟩ := ofMfm_trackOk debug rnd cells.isNone hst hshape hms (by intro _ _ _; rw [hlen]; omega)
    rw [map_rescanned hr.clean] at o2
    obtain ⟨t'', p1, p2, p3⟩ := ofMfm_cells debug rnd cells.isNone s (by rw [h3, hlen]) (by intro _ _ _; rw [hlen]; omega)
    rw [o1] at p1; cases p1
    refine ⟨t', by rw [h1, o1], Holds.bit (N := N) ⟨o2, hr.clean, ?_⟩, by rw [p2, h2, ofBits_bits, hcells]⟩
    have : t'.data.len = t.data.len := by
      unfold Mfm.len; rw [p2, h2]; unfold BitRing.len; rw [ofBits_bits, hcells]
    rw [this]; exact hr.len

/-! ### Disks of such tracks -/

/-- A track of a file as the loaders pass it on. -/
structure BitEntry where
  ch : Ch
  data : List Byte
  cells : Option Nat

/-- Adding the tracks of a file one after another. -/
def addAll (debug : Bool) (rnd : Nat → Bool) (detect : Bool) : List BitEntry → Disk → Except Err Disk
  | [], d => .ok d
  | x :: xs, d =>
    match d.addBit x.ch (Track.ofBytes debug rnd x.data x.cells detect) with
    | (_, .error e) => .error e
    | (d, .ok _) => addAll debug rnd detect xs d

/-- What a track must be like to be added. -/
def BitEntry.Good (debug : Bool) (x : BitEntry) : Prop :=
  x.ch.h < 2 ∧ (x.cells = none → x.data ≠ [] ∧ (debug = true → 4 ≤ x.data.length))

/-- The track made of it. -/
def BitEntry.made (debug : Bool) (rnd : Nat → Bool) (detect : Bool) (x : BitEntry) : DiskTrack :=
  match Track.ofBytes debug rnd x.data x.cells detect with
  | .ok t => .bit x.ch t
  | .error _ => .other x.ch

theorem BitEntry.made_ch (debug : Bool) (rnd : Nat → Bool) (detect : Bool) (x : BitEntry) :
    (x.made debug rnd detect).ch = x.ch := by
  unfold BitEntry.made
  split <;> rfl

theorem BitEntry.Good.made {debug : Bool} {x : BitEntry} (h : x.Good debug) (rnd : Nat → Bool) (detect : Bool) :
    ∃ t, Track.ofBytes debug rnd x.data x.cells detect = .ok t ∧ x.made debug rnd detect = .bit x.ch t ∧
      t.data.bits = BitRing.ofBits (cellsOf x.data x.cells) ∧
      t.data.weakMask = BitRing.ofBits (maskOf detect (cellsOf x.data x.cells)) := by
  obtain ⟨t, h1, h2, h3⟩ := ofBytes_cells debug rnd x.data x.cells detect h.2
  refine ⟨t, h1, ?_, h2, h3⟩
  unfold BitEntry.made
  rw [h1]

theorem withTrack_rejects {d : Disk} (hd : d.rejects .bitStream = false) (h : Nat) (x : DiskTrack) :
    (withTrack d h x).rejects .bitStream = false := by
  unfold Disk.rejects at hd ⊢
  have hm : (withTrack d h x).multires = d.multires := by
    unfold withTrack Disk.pushTrack Disk.pushMap
    split <;> rfl
  rw [withTrack_res, hm]
  have : (d.res.insert .bitStream).has .bitStream = true := rfl
  rw [this]
  simp

theorem addAll_ok (debug : Bool) (rnd : Nat → Bool) (detect : Bool) : ∀ (xs : List BitEntry) (d : Disk),
    d.rejects .bitStream = false → (∀ x ∈ xs, x.Good debug) →
    addAll debug rnd detect xs d = .ok (pushAll d (xs.map (·.made debug rnd detect)))
  | [], d, _, _ => rfl
  | x :: xs, d, hd, hx => by
    obtain ⟨t, h1, h2, _, _⟩ := (hx x (by simp)).made rnd detect
    have hh := (hx x (by simp)).1
    unfold addAll
    have : d.addBit x.ch (Track.ofBytes debug rnd x.data x.cells detect) =
        (withTrack d x.ch.h (x.made debug rnd detect), .ok d.pool.length) := by
      unfold Disk.addBit withTrack
      rw [if_neg (by omega), hd, h1, h2]
      rfl
    rw [this]
    simp only
    rw [addAll_ok debug rnd detect xs _ (withTrack_rejects hd _ _) (fun y hy => hx y (by simp [hy]))]
    rw [List.map_cons, pushAll, BitEntry.made_ch]

theorem addBit_bad {debug : Bool} (rnd : Nat → Bool) (detect : Bool) {x : BitEntry} (hx : ¬ x.Good debug) (d : Disk) :
    ∃ e, (d.addBit x.ch (Track.ofBytes debug rnd x.data x.cells detect)).2 = .error e := by
  unfold Disk.addBit
  by_cases hh : x.ch.h ≥ 2
  · rw [if_pos hh]; exact ⟨_, rfl⟩
  · rw [if_neg hh]
    split
    · exact ⟨_, rfl⟩
    · have : ∃ e, Track.ofBytes debug rnd x.data x.cells detect = .error e := by
        have h1 : x.cells = none := by
          rcases hc : x.cells with _ | n
          · rfl
          · exact absurd ⟨by omega, fun h => by rw [hc] at h; cases h⟩ hx
        rw [h1]
        by_cases h0 : x.data = []
        · rw [h0]; exact ⟨_, ofBytes_nil debug rnd detect⟩
        · by_cases h4 : debug = true ∧ x.data.length < 4
          · rw [h4.1]; exact ⟨_, ofBytes_short rnd x.data h0 h4.2 detect⟩
          · exact absurd ⟨by omega, fun _ => ⟨h0, fun hd => by
              rcases Nat.lt_or_ge x.data.length 4 with h | h
              · exact absurd ⟨hd, h⟩ h4
              · exact h⟩⟩ hx
      obtain ⟨e, he⟩ := this
      rw [he]
      exact ⟨e, rfl⟩

theorem addAll_bad (debug : Bool) (rnd : Nat → Bool) (detect : Bool) : ∀ (xs : List BitEntry) (d : Disk),
    (∃ x ∈ xs, ¬ x.Good debug) → ∃ e, addAll debug rnd detect xs d = .error e
  | [], _, h => by obtain ⟨x, hx, _⟩ := h; simp at hx
  | x :: xs, d, h => by
    unfold addAll
    by_cases hg : x.Good debug
    · obtain ⟨y, hy, hb⟩ := h
      have hy : y ∈ xs := by
        rcases List.mem_cons.1 hy with rfl | hy
        · exact absurd hg hb
        · exact hy
      rcases hx : d.addBit x.ch (Track.ofBytes debug rnd x.data x.cells detect) with ⟨d', e | i⟩
      · exact ⟨e, rfl⟩
      · exact addAll_bad debug rnd detect xs d' ⟨y, hy, hb⟩
    · obtain ⟨e, he⟩ := addBit_bad rnd detect hg d
      rcases hx : d.addBit x.ch (Track.ofBytes debug rnd x.data x.cells detect) with ⟨d', e' | i⟩
      · exact ⟨e', rfl⟩
      · rw [hx] at he; cases he

theorem addAll_append (debug : Bool) (rnd : Nat → Bool) (detect : Bool) : ∀ (xs ys : List BitEntry) (d : Disk),
    addAll debug rnd detect (xs ++ ys) d =
      match addAll debug rnd detect xs d with | .error e => .error e | .ok d => addAll debug rnd detect ys d
  | [], ys, d => rfl
  | x :: xs, ys, d => by
    rw [List.cons_append, addAll, addAll]
    rcases hx : d.addBit x.ch (Track.ofBytes debug rnd x.data x.cells detect) with ⟨d', e | i⟩
    · rfl
    · simp only; rw [addAll_append debug rnd detect xs ys d']

/-! ### Where they are found -/

theorem filter_get {α : Type} (f : α → Ch) {l : List α} (hl : OrderedChs (l.map f)) (ch : Ch) (x : α) :
    (l.filter fun y => (f y).h = ch.h)[ch.c]? = some x ↔ x ∈ l ∧ f x = ch := by
  induction l using snocInd with
  | h0 => simp
  | h1 l y ih =>
    rw [List.map_append, List.map_singleton] at hl
    have ih := ih hl.init
    have hlast := hl.last
    rw [idxs_length, List.filter_map, List.length_map] at hlast
    have hfl : (l.filter ((fun z : Ch => z.h == (f y).h) ∘ f)).length = (l.filter fun z => (f z).h = (f y).h).length := by
      congr 1
    rw [hfl] at hlast
    rw [List.filter_append]
    by_cases hc : ch.c < (l.filter fun z => (f z).h = ch.h).length
    · rw [List.getElem?_append_left hc, ih]
      constructor
      · rintro ⟨a, b⟩; exact ⟨by simp [a], b⟩
      · rintro ⟨a, b⟩
        rcases List.mem_append.1 a with a | a
        · exact ⟨a, b⟩
        · simp only [List.mem_singleton] at a
          subst a
          rw [b] at hlast
          omega
    · rw [List.getElem?_append_right (by omega)]
      have hno : ¬ (x ∈ l ∧ f x = ch) := by
        intro h
        have := ih.2 h
        rw [List.getElem?_eq_none (by omega)] at this
        cases this
      by_cases he : (f y).h = ch.h
      · simp only [List.filter_cons, he, decide_true, if_true, List.filter_nil]
        rw [he] at hlast
        constructor
        · intro h
          have hlt := (List.getElem?_eq_some_iff.1 h).1
          simp only [List.length_singleton] at hlt
          have h0 : ch.c - (l.filter fun z => (f z).h = ch.h).length = 0 := by omega
          rw [h0] at h
          simp only [List.getElem?_cons_zero, Option.some.injEq] at h
          subst h
          refine ⟨by simp, ?_⟩
          have : (f y).c = ch.c := by omega
          cases hf : f y; cases ch; rw [hf] at this he; simp_all
        · rintro ⟨a, b⟩
          rcases List.mem_append.1 a with a | a
          · exact absurd ⟨a, b⟩ hno
          · simp only [List.mem_singleton] at a
            subst a
            rw [b] at hlast
            rw [hlast.2, Nat.sub_self]; rfl
      · have : ¬ (f y).h = ch.h := he
        simp only [List.filter_cons, this, decide_false, List.filter_nil]
        constructor
        · intro h; simp at h
        · rintro ⟨a, b⟩
          rcases List.mem_append.1 a with a | a
          · exact absurd ⟨a, b⟩ hno
          · simp only [List.mem_singleton] at a
            subst a
            exact absurd (by rw [b]) he

theorem empty_bounded : Bounded {} := by
  intro h hh i hi
  rcases (show h = 0 ∨ h = 1 by omega) with rfl | rfl <;> simp [Disk.headMap] at hi

theorem empty_side (h : Nat) : side {} h = [] := by
  unfold side Disk.headMap
  split <;> rfl

theorem OrderedChs.head {l : List Ch} (hl : OrderedChs l) : ∀ ch ∈ l, ch.h < 2 := by
  intro ch hch
  obtain ⟨i, hi, he⟩ := List.mem_iff_getElem.1 hch
  exact (hl i ch (by rw [List.getElem?_eq_getElem hi, he])).1

theorem pushAll_at {xs : List DiskTrack} (ho : OrderedChs (xs.map DiskTrack.ch)) {ch : Ch} (hh : ch.h < 2) (x : DiskTrack) :
    at? (pushAll {} xs) ch.h ch.c = some x ↔ x ∈ xs ∧ x.ch = ch := by
  obtain ⟨h1, h2, _, _⟩ := pushAll_spec xs {} empty_bounded (fun x hx => ho.head _ (List.mem_map_of_mem hx))
  rw [← side_get _ h1 hh, h2 _ hh, empty_side, List.nil_append]
  exact filter_get DiskTrack.ch ho ch x

/-- The tracks of a file whose tracks come in order are found at their places. -/
theorem hasCells_addAll {debug : Bool} {rnd : Nat → Bool} {detect : Bool} {xs : List BitEntry}
    (ho : OrderedChs (xs.map BitEntry.ch)) (hg : ∀ x ∈ xs, x.Good debug) :
    HasCells (pushAll {} (xs.map (·.made debug rnd detect)))
      (xs.map fun x => (x.ch, cellsOf x.data x.cells, maskOf detect (cellsOf x.data x.cells))) := by
  have ho' : OrderedChs ((xs.map (·.made debug rnd detect)).map DiskTrack.ch) := by
    rw [List.map_map]
    have : (DiskTrack.ch ∘ fun x : BitEntry => x.made debug rnd detect) = BitEntry.ch := by
      funext x; exact BitEntry.made_ch debug rnd detect x
    rw [this]; exact ho
  refine ⟨?_, ?_⟩
  · intro ch cells weak hm
    obtain ⟨x, hx, he⟩ := List.mem_map.1 hm
    simp only [Prod.mk.injEq] at he
    obtain ⟨rfl, rfl, rfl⟩ := he
    obtain ⟨t, t1, t2, t3, t4⟩ := (hg x hx).made rnd detect
    have hat := (pushAll_at ho' (hg x hx).1 (x.made debug rnd detect)).2
      ⟨List.mem_map_of_mem hx, BitEntry.made_ch debug rnd detect x⟩
    unfold cellsAt weakAt Disk.track
    rw [if_neg (by have := (hg x hx).1; omega)]
    unfold at? at hat
    rw [hat, t2]
    simp only
    rw [t3, t4]
    exact ⟨rfl, rfl⟩
  · intro ch hne t ht
    unfold Disk.track at ht
    split at ht
    · cases ht
    · rename_i hh
      have hat : at? (pushAll {} (xs.map (·.made debug rnd detect))) ch.h ch.c = some t := by
        unfold at?; exact Except.ok.inj ht
      obtain ⟨h1, h2⟩ := (pushAll_at ho' (by omega) t).1 hat
      obtain ⟨x, hx, rfl⟩ := List.mem_map.1 h1
      rw [BitEntry.made_ch] at h2
      exact hne _ (List.mem_map_of_mem hx) h2

/-- A file with the cells of a disk's tracks is that disk, as far as its sectors go. -/
theorem bits_rel {debug : Bool} {rnd : Nat → Bool} {detect : Bool} {d : Disk} {M : DiskMap} (hM : DiskRel true d M)
    (hne : ∀ ch m, M ch = some m → m ≠ []) {xs : List BitEntry} (ho : OrderedChs (xs.map BitEntry.ch))
    (hg : ∀ x ∈ xs, x.Good debug)
    (hall : ∀ ch c t, at? d ch.h ch.c = some (.bit c t) → ch.h < 2 → ∃ x ∈ xs, x.ch = ch)
    (hcells : ∀ x ∈ xs, ∃ c t, at? d x.ch.h x.ch.c = some (.bit c t) ∧ cellsOf x.data x.cells = t.data.bits.bits ∧
      ∀ b ∈ maskOf detect (cellsOf x.data x.cells), b = false) :
    DiskRel true (pushAll {} (xs.map (·.made debug rnd detect))) M := by
  have ho' : OrderedChs ((xs.map (·.made debug rnd detect)).map DiskTrack.ch) := by
    rw [List.map_map]
    have : (DiskTrack.ch ∘ fun x : BitEntry => x.made debug rnd detect) = BitEntry.ch := by
      funext x; exact BitEntry.made_ch debug rnd detect x
    rw [this]; exact ho
  obtain ⟨hb, _, hlen, hperm⟩ := pushAll_spec (xs.map (·.made debug rnd detect)) {} empty_bounded
    (fun x hx => ho'.head _ (List.mem_map_of_mem hx))
  have hn : ((pushAll {} (xs.map (·.made debug rnd detect))).map0 ++
      (pushAll {} (xs.map (·.made debug rnd detect))).map1).Nodup := by
    rw [hperm.nodup_iff]
    simp [List.nodup_range']
  refine ⟨hM.bad, ?_, ?_, fun a b i ha hb' => apart_of_nodup hn a b i ha hb'⟩
  · intro ch hh hg'
    rcases hi : (d.headMap ch.h)[ch.c]? with _ | i
    · exact hM.gone ch hh hi
    · exfalso
      obtain ⟨t, m, k1, k2, k3, k4⟩ := hM.held ch i hh hi
      obtain ⟨c, y, rfl⟩ := k4 rfl
      obtain ⟨x, hx, hxc⟩ := hall ch c y (by unfold at?; rw [hi]; exact k1) hh
      have := (pushAll_at ho' hh (x.made debug rnd detect)).2
        ⟨List.mem_map_of_mem hx, by rw [BitEntry.made_ch, hxc]⟩
      unfold at? at this
      rw [hg'] at this
      cases this
  · intro ch i hh hi
    obtain ⟨y, y1, y2⟩ := side_some hb hh hi
    rw [side_get _ hb hh] at y2
    obtain ⟨h1, h2⟩ := (pushAll_at ho' hh y).1 y2
    obtain ⟨x, hx, rfl⟩ := List.mem_map.1 h1
    rw [BitEntry.made_ch] at h2
    subst h2
    obtain ⟨c, t, c1, c2, c3⟩ := hcells x hx
    obtain ⟨j, j1, j2⟩ := at?_headMap c1
    obtain ⟨t0, m, k1, k2, k3, k4⟩ := hM.held x.ch j hh j1
    rw [j2] at k1
    cases k1
    obtain ⟨t', p1, p2, _⟩ := ofBytes_holds debug rnd x.data x.cells detect (ch' := x.ch) k3 (hne _ _ k2) c2 c3
    obtain ⟨t1, q1, q2, _⟩ := (hg x hx).made rnd detect
    rw [p1] at q1; cases q1
    exact ⟨_, m, y1, k2, by rw [q2]; exact p2, fun _ => ⟨_, _, q2⟩⟩

end Fox
