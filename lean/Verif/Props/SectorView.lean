import Verif.Proofs.SectorView
import Verif.Props.Raw
/-
C17, C18: the sector view as a byte stream.
-/
namespace Fox
open Fox.Spec

/-- A history of seeks, reads and flushes. -/
def ReadOnly (ops : List IoOp) : Prop := ∀ op ∈ ops, ∀ nz buf, op ≠ .write nz buf

theorem noWrites_of : ∀ {ops : List IoOp}, ReadOnly ops → noWrites ops
  | [], _ => trivial
  | op :: ops, h => by
    have h2 : noWrites ops := noWrites_of fun o ho => h o (List.mem_cons_of_mem _ ho)
    cases op with
    | write nz buf => exact absurd rfl (h _ (List.mem_cons_self ..) nz buf)
    | _ => exact h2

/-! ## C17 -/

/-- **C17 (partial).** On every disk, of whatever kind, whose sectors read as the sectors of `file`: the view
opens, and every history of seeks and reads of any lengths shows exactly what the flat file shows.
Missing (the `Calm` hypothesis): seeks to or beyond the end of the file, and, once a read has run into the end,
relative seeks and seeks into the first sector of the last track (`C17_false_*`). -/
theorem C17_reads_like_file_partial (f : StdFormat) (hf : f.isPc = true) (d : Disk) (file : List Byte)
    (hl : file.length = f.diskSize) (hd : SectorsAre f.layout d file) (nz : Chs → Noise) (ops : List IoOp)
    (hr : ReadOnly ops) (hc : CalmRun 512 f.layout.s ⟨file, 0⟩ ⟨none, false⟩ ops) :
    ∃ v, View.new nz d f = .ok v ∧ (viewRun v ops).2 = (FlatFile.run ⟨file, 0⟩ ops).2 := by
  obtain ⟨v, h1, h2, _, h3⟩ := new_ok store_reads hf nz d file ⟨hd, hl⟩
  exact ⟨v, h1, (run_ok store_reads hf ops v _ _ h3 (by rw [h2]; intro h; simp at h) (Or.inr (noWrites_of hr)) hc).1⟩

theorem read_all (file : List Byte) (n : Nat) (h : file.length ≤ n) : slice file 0 n = file := by
  unfold slice; rw [List.drop_zero, List.take_of_length_le h]

/-- **C17 is false of the code, 1.** After a read has run into the end, seeking to any byte of the first sector
of the last track succeeds and reports the new position, but nothing can be read there: every later read gives
no bytes, although the file has some. -/
theorem C17_false_stuck_at_end (f : StdFormat) (hf : f.isPc = true) (d : Disk) (file : List Byte)
    (hl : file.length = f.diskSize) (hd : SectorsAre f.layout d file) (nz : Chs → Noise) (t n m : Nat)
    (hn : f.diskSize < n) (ht : t / 512 + f.layout.s = f.diskSize / 512) :
    ∃ v, View.new nz d f = .ok v ∧
      (viewRun v [.read nz n, .seek nz (.start t), .read nz m]).2 = [.bytes file, .pos t, .bytes []] ∧
      (0 < m → slice file t m ≠ []) := by
  obtain ⟨v, h1, h2, _, h3⟩ := new_ok store_reads hf nz d file ⟨hd, hl⟩
  refine ⟨v, h1, ?_⟩
  obtain ⟨v1, e1, e2, e3⟩ := read_ok store_reads hf nz n v ⟨file, 0⟩ _ h3 (by intro k hk; simp at hk)
  simp only [read_all file n (by omega), hl] at e1 e3
  rw [decide_eq_true (by omega)] at e3
  obtain ⟨g1, g2, g3, g4, g5, g6, g7⟩ := pc_layout f hf
  have hs : f.layout.s ≤ sectorCount f.layout := by
    unfold sectorCount
    exact Nat.le_mul_of_pos_left _ (Nat.mul_pos g4 g5)
  rcases e3 with ⟨x, img, _, hb⟩ | ⟨h, hb⟩
  · simp at hb
  · have hlt : t < f.diskSize := by omega
    obtain ⟨y, y1, y2, y3⟩ := fromRaw_ok hf t hlt
    have hlast : InLayout f.layout ⟨f.layout.c - 1, f.layout.h - 1, 1⟩ :=
      ⟨by simp only; omega, by simp only; omega, by simp only; omega, by simp only; omega⟩
    have hy : y = ⟨f.layout.c - 1, f.layout.h - 1, 1⟩ := by
      apply lbaOf_inj y2 hlast
      rw [y3]
      unfold lbaOf
      simp only [g1, Nat.sub_self, Nat.add_zero]
      have hlba : (f.layout.c - 1) * (f.layout.h * f.layout.s) + (f.layout.h - 1) * f.layout.s + f.layout.s =
          sectorCount f.layout := by
        unfold sectorCount
        rcases g7 with g7 | g7 <;> rw [g7]
        · simp only [Nat.sub_self, Nat.zero_mul, Nat.add_zero, Nat.one_mul, Nat.mul_one]
          rw [Nat.sub_mul, Nat.one_mul]
          have := Nat.le_mul_of_pos_left f.layout.s g4
          omega
        · simp only [Nat.add_one_sub_one, Nat.one_mul]
          rw [Nat.sub_mul, Nat.one_mul, Nat.mul_assoc]
          have := Nat.le_mul_of_pos_left (2 * f.layout.s) g4
          omega
      omega
    have hseek : v1.seekOffset nz t = ({ v1 with pos := t % 512 }, .ok t) := by
      unfold View.seekOffset
      rw [h.fmt, y1]
      simp only
      rw [if_pos (by rw [hy, h.cur, h.sid])]
    have hread : View.read nz m { v1 with pos := t % 512 } = ({ v1 with pos := t % 512 }, .ok []) := by
      cases m with
      | zero => rfl
      | succ m =>
        unfold View.read
        rw [if_pos h.eod]
    refine ⟨?_, ?_⟩
    · simp only [viewRun, viewStep, e1, View.seek, hseek, hread]
    · intro hm hnil
      have := congrArg List.length hnil
      unfold slice at this
      rw [List.length_take, List.length_drop, List.length_nil] at this
      omega

/-- **C17 is false of the code, 2.** A seek to the end, or beyond, is an error — on a flat file it is not. -/
theorem C17_false_seek_end (f : StdFormat) (hf : f.isPc = true) (d : Disk) (file : List Byte)
    (hl : file.length = f.diskSize) (hd : SectorsAre f.layout d file) (nz : Chs → Noise) (k : Nat) :
    ∃ v, View.new nz d f = .ok v ∧ (viewRun v [.seek nz (.fin k)]).2 = [.failed] ∧
      (FlatFile.run ⟨file, 0⟩ [.seek nz (.fin k)]).2 = [.pos (f.diskSize + k)] := by
  obtain ⟨v, h1, h2, _, h3⟩ := new_ok store_reads hf nz d file ⟨hd, hl⟩
  refine ⟨v, h1, ?_, ?_⟩
  · obtain ⟨g1, g2, g3, g4, g5, g6, g7⟩ := pc_layout f hf
    have hfmt : v.fmt = f := by
      rcases h3 with ⟨x, img, h, _⟩ | ⟨h, _⟩
      · exact h.fmt
      · exact h.fmt
    have hpos : 0 < sectorCount f.layout := by
      unfold sectorCount; exact Nat.mul_pos (Nat.mul_pos g4 g5) g6
    have hn := (C15_raw_offset_partial f.layout (by omega) (by omega)).2.2 (f.diskSize + k) hpos
      (by rw [g2, ← g3]; omega)
    have ht : ((f.diskSize : Int) + (k : Int)).toNat = f.diskSize + k := by omega
    simp only [viewRun, viewStep, View.seek, hfmt, ht, View.seekOffset, hn]
  · have ht : ((f.diskSize : Int) + (k : Int)).toNat = f.diskSize + k := by omega
    simp only [FlatFile.run, FlatFile.step, FlatFile.target, hl]
    rw [if_neg (by omega), ht]

/-- **C17 is false of the code, 3.** A seek to before the start goes to the start instead of failing. -/
theorem C17_false_seek_before_start (f : StdFormat) (hf : f.isPc = true) (d : Disk) (file : List Byte)
    (hl : file.length = f.diskSize) (hd : SectorsAre f.layout d file) (nz : Chs → Noise) :
    ∃ v, View.new nz d f = .ok v ∧ (viewRun v [.seek nz (.cur (-1))]).2 = [.pos 0] ∧
      (FlatFile.run ⟨file, 0⟩ [.seek nz (.cur (-1))]).2 = [.failed] := by
  obtain ⟨v, h1, h2, _, h3⟩ := new_ok store_reads hf nz d file ⟨hd, hl⟩
  refine ⟨v, h1, ?_, by simp [FlatFile.run, FlatFile.step, FlatFile.target]⟩
  obtain ⟨g1, g2, g3, g4, g5, g6, g7⟩ := pc_layout f hf
  have hpos : 0 < f.diskSize := by
    have : 0 < sectorCount f.layout := by unfold sectorCount; exact Nat.mul_pos (Nat.mul_pos g4 g5) g6
    omega
  have hoff : v.offset = 0 := by
    rcases h3 with ⟨x, img, h, hb⟩ | ⟨h, hb⟩
    · unfold View.offset
      have hx : (⟨v.cur.c, v.cur.h, v.sid⟩ : Chs) = x := by rw [h.cur, h.sid]
      rw [hx, h.fmt, toRaw_ok hf h.here]
      exact h.fpos.symm
    · simp at hb
  obtain ⟨v', e1, _⟩ := seekOffset_ok store_reads hf nz v ⟨file, 0⟩ ⟨none, false⟩ h3 (by rw [h2]; intro h; simp at h) 0
    (by simp only; omega) (by simp) (by simp)
  have ht : ((0 : Nat) + (-1 : Int)).toNat = 0 := by decide
  simp only [viewRun, viewStep, View.seek, hoff, ht, e1]

/-! ## C18 -/

/-- **C18 (partial).** On the disk loaded from any PC image: every history of seeks, reads, writes and flushes
in which unflushed bytes are not left behind (`Calm`) shows what the flat file shows, and, if it ends flushed,
the disk's sectors are exactly those of the resulting file.
Missing: writes that cross a sector boundary and seeks to another track with unflushed bytes
(`C18_false_*`), and the seeks C17 excludes. -/
theorem C18_writes_like_file_partial (f : StdFormat) (hf : f.isPc = true) (file : List Byte)
    (hl : file.length = f.diskSize) (H : List Byte → Nat) (nz : Noise) (nz' : Chs → Noise) (ops : List IoOp)
    (hc : CalmRun 512 f.layout.s ⟨file, 0⟩ ⟨none, false⟩ ops) :
    ∃ d0, Raw.loadImage nz file = .ok d0 ∧ (NoCollision H d0 → ∃ d v, Raw.load H nz file = .ok d ∧
      View.new nz' d f = .ok v ∧ (viewRun v ops).2 = (FlatFile.run ⟨file, 0⟩ ops).2 ∧
      ((Book.run 512 ⟨file, 0⟩ ⟨none, false⟩ ops).dirty = none →
        SectorsAre f.layout (viewRun v ops).1.disk (FlatFile.run ⟨file, 0⟩ ops).1.data)) := by
  obtain ⟨d0, h0, h⟩ := load_spec f hf nz H file hl
  refine ⟨d0, h0, fun hH => ?_⟩
  obtain ⟨d, h1, h2, _⟩ := h hH
  have hW := store_map hf
  have hm : MapHolds f d file := by
    refine ⟨hl, _, h2, ?_⟩
    intro x hx
    obtain ⟨m, m1, m2⟩ := imgDisk_lookup f.layout file x hx
    rw [(pc_layout f hf).2.1] at m2
    exact ⟨m, m1, m2⟩
  obtain ⟨v, n1, n2, _, n3⟩ := new_ok hW hf nz' d file hm
  obtain ⟨r1, r2⟩ := run_ok hW hf ops v _ _ n3 (fun _ => trivial) (Or.inl trivial) hc
  refine ⟨d, v, h1, n1, r1, ?_⟩
  intro hd
  rcases r2 with ⟨x, img, h, hb⟩ | ⟨h, hb⟩
  · rw [hb] at hd
    have hcl := h.clean (ite_dirty _ _ hd)
    rw [hcl]
    exact hW.reads _ _ h.w
  · exact hW.reads _ _ h.w

/-- Loading gives a disk that holds the image, and the view opens on it. -/
theorem opened (f : StdFormat) (hf : f.isPc = true) (file : List Byte)
    (hl : file.length = f.diskSize) (H : List Byte → Nat) (nz : Noise) (nz' : Chs → Noise) :
    ∃ d0, Raw.loadImage nz file = .ok d0 ∧ (NoCollision H d0 → ∃ d v, Raw.load H nz file = .ok d ∧
      View.new nz' d f = .ok v ∧ v.dirty = false ∧ Stands f (MapHolds f) v ⟨file, 0⟩ ⟨0, 0, 1⟩ file ∧ v.pos = 0) := by
  obtain ⟨d0, h0, h⟩ := load_spec f hf nz H file hl
  refine ⟨d0, h0, fun hH => ?_⟩
  obtain ⟨d, h1, h2, _⟩ := h hH
  have hW := store_map hf
  have hm : MapHolds f d file := by
    refine ⟨hl, _, h2, ?_⟩
    intro x hx
    obtain ⟨m, m1, m2⟩ := imgDisk_lookup f.layout file x hx
    rw [(pc_layout f hf).2.1] at m2
    exact ⟨m, m1, m2⟩
  obtain ⟨v, n1, n2, _, n3⟩ := new_ok hW hf nz' d file hm
  refine ⟨d, v, h1, n1, n2, ?_⟩
  rcases n3 with ⟨x, img, h, hb⟩ | ⟨h, hb⟩
  · have hfp := h.fpos
    simp only at hfp
    obtain ⟨g1, g2, g3, g4, g5, g6, g7⟩ := pc_layout f hf
    have hx0 : InLayout f.layout ⟨0, 0, 1⟩ := ⟨g4, g5, by simp only; omega, by simp only; omega⟩
    have hl0 : lbaOf f.layout ⟨0, 0, 1⟩ = 0 := by unfold lbaOf; simp only [g1, Nat.zero_mul, Nat.sub_self]
    have hx : x = ⟨0, 0, 1⟩ := lbaOf_inj h.here hx0 (by omega)
    have hi : img = file := (h.clean n2).symm
    rw [hx, hi] at h
    exact ⟨h, by omega⟩
  · simp at hb

/-- The first sector of the second track. -/
def secondTrack (f : StdFormat) : Chs := if f.layout.h = 1 then ⟨1, 0, 1⟩ else ⟨0, 1, 1⟩

/-- **C18 is false of the code, 1.** On every PC image, write one byte at the start, seek to the second track
and flush: everything reports success, the byte is not on the disk, and instead the first sector of the second
track has been replaced by the changed first sector. -/
theorem C18_false_seek_after_write (f : StdFormat) (hf : f.isPc = true) (file : List Byte)
    (hl : file.length = f.diskSize) (H : List Byte → Nat) (nz : Noise) (nz' : Chs → Noise) (c : Byte) :
    ∃ d0, Raw.loadImage nz file = .ok d0 ∧ (NoCollision H d0 → ∃ d v, Raw.load H nz file = .ok d ∧
      View.new nz' d f = .ok v ∧
      let ops := [.write nz' [c], .seek nz' (.start (f.layout.s * 512)), .flush]
      (viewRun v ops).2 = [.count 1, .pos (f.layout.s * 512), .done] ∧
      SectorsAre f.layout (viewRun v ops).1.disk (overwrite file (f.layout.s * 512) (c :: slice file 1 511))) := by
  obtain ⟨d0, h0, h⟩ := opened f hf file hl H nz nz'
  refine ⟨d0, h0, fun hH => ?_⟩
  obtain ⟨d, v, h1, n1, n2, h, hp⟩ := h hH
  refine ⟨d, v, h1, n1, ?_⟩
  have hW := store_map hf
  have hbuf := h.bufEq hW hf
  obtain ⟨g1, g2, g3, g4, g5, g6, g7⟩ := pc_layout f hf
  have hl0 : lbaOf f.layout ⟨0, 0, 1⟩ = 0 := by unfold lbaOf; simp only [g1, Nat.zero_mul, Nat.sub_self]
  rw [hl0] at hbuf
  simp only [Nat.zero_mul] at hbuf
  have hc2 : 2 ≤ f.layout.c := by clear * - ; cases f <;> decide
  have hy : InLayout f.layout (secondTrack f) := by
    unfold secondTrack
    rcases g7 with g7 | g7 <;> rw [g7]
    · exact ⟨by simp only [if_true]; omega, by simp only [if_true]; omega, by simp only [if_true]; omega, by simp only [if_true]; omega⟩
    · exact ⟨g4, by rw [if_neg (by omega)]; simp only; omega, by rw [if_neg (by omega)]; simp only; omega,
        by rw [if_neg (by omega)]; simp only; omega⟩
  have hyl : lbaOf f.layout (secondTrack f) = f.layout.s := by
    unfold secondTrack lbaOf
    rcases g7 with g7 | g7 <;> rw [g7] <;> simp [g1]
  have hys : (secondTrack f).s = 1 := by unfold secondTrack; split <;> rfl
  have hfit := lba_fits hf hy
  rw [hyl] at hfit
  obtain ⟨y, y1, y2, y3⟩ := fromRaw_ok hf (f.layout.s * 512) (by omega)
  have hyy : y = secondTrack f := lbaOf_inj y2 hy (by rw [y3, hyl]; omega)
  rw [hyy] at y1
  have hw : v.write nz' [c] = (wrote v [c], .ok 1) := write_in nz' [c] v h.eod (by rw [hp, h.buf]; simp)
  have hne : ¬ ((⟨v.cur.c, v.cur.h, v.sid⟩ : Chs) = secondTrack f) := by
    intro hc
    rw [h.cur, h.sid] at hc
    have := congrArg (lbaOf f.layout) hc
    rw [hyl] at this
    simp only at this
    rw [hl0] at this
    omega
  have hbuf2 : overwrite v.buf v.pos [c] = c :: slice file 1 511 := by
    rw [hp, hbuf]
    unfold overwrite slice
    rw [List.take_zero, List.nil_append, List.drop_zero, List.length_singleton, List.drop_take]; rfl
  have hlb : (c :: slice file 1 511).length = 512 := by
    rw [List.length_cons, slice_len file 1 511 (by omega)]
  obtain ⟨d', w1, w2⟩ := hW.writes trivial v.disk file (secondTrack f) (c :: slice file 1 511) h.w hy hlb
  rw [hyl] at w2
  -- the seek writes the buffer to the new track
  have hcom : ({ wrote v [c] with cur := ⟨(secondTrack f).c, (secondTrack f).h⟩ } : View).commit =
      (⟨d', f, ⟨(secondTrack f).c, (secondTrack f).h⟩, 1, f.layout.s, c :: slice file 1 511, 512, false, 1, false⟩, .ok ()) := by
    unfold View.commit wrote View.chsn
    simp only [n2, List.isEmpty_cons, Bool.not_false, Bool.or_true, if_true, hbuf2]
    rw [h.fmt, h.sid]
    rw [hys] at w1
    simp only [w1]
    rw [h.spt, h.size, h.eod, hp]
    rfl
  obtain ⟨v', e1, e2, e3, e4⟩ := load_ok hW hf nz'
    ⟨d', f, ⟨(secondTrack f).c, (secondTrack f).h⟩, (secondTrack f).s, f.layout.s, c :: slice file 1 511, 512, false, 1, false⟩
    _ (secondTrack f) w2 rfl rfl rfl hy rfl
  have hseek : (wrote v [c]).seekOffset nz' (f.layout.s * 512) =
      ({ v' with pos := f.layout.s * 512 % 512 }, .ok (f.layout.s * 512)) := by
    unfold View.seekOffset
    have hfm : (wrote v [c]).fmt = f := h.fmt
    rw [hfm, y1]
    simp only
    rw [if_neg (show ¬ ((⟨(wrote v [c]).cur.c, (wrote v [c]).cur.h, (wrote v [c]).sid⟩ : Chs) = secondTrack f) from hne)]
    simp only [hfm] at hcom
    simp only [hcom, e1]
  have hst := e4 (f.layout.s * 512 % 512) (by omega)
  have hflush : ({ v' with pos := f.layout.s * 512 % 512 } : View).flush = ({ v' with pos := f.layout.s * 512 % 512 }, .ok ()) := by
    unfold View.flush View.commit
    rw [if_neg (by rw [e2]; simp)]
  simp only [viewRun, viewStep, hw, View.seek, hseek, hflush]
  exact ⟨trivial, hW.reads _ _ hst.w⟩

/-- **C18 is false of the code, 2.** On every PC image, write two sectors' worth of bytes at the start and
flush: success is reported for all 1024 bytes, but the first sector is left as it was. -/
theorem C18_false_crossing_write (f : StdFormat) (hf : f.isPc = true) (file : List Byte)
    (hl : file.length = f.diskSize) (H : List Byte → Nat) (nz : Noise) (nz' : Chs → Noise) (a b : List Byte)
    (ha : a.length = 512) (hb : b.length = 512) :
    ∃ d0, Raw.loadImage nz file = .ok d0 ∧ (NoCollision H d0 → ∃ d v, Raw.load H nz file = .ok d ∧
      View.new nz' d f = .ok v ∧
      let ops := [.write nz' (a ++ b), .flush]
      (viewRun v ops).2 = [.count 1024, .done] ∧
      SectorsAre f.layout (viewRun v ops).1.disk (overwrite file 512 b)) := by
  obtain ⟨d0, h0, h⟩ := opened f hf file hl H nz nz'
  refine ⟨d0, h0, fun hH => ?_⟩
  obtain ⟨d, v, h1, n1, n2, h, hp⟩ := h hH
  refine ⟨d, v, h1, n1, ?_⟩
  have hW := store_map hf
  obtain ⟨g1, g2, g3, g4, g5, g6, g7⟩ := pc_layout f hf
  have hs2 : 2 ≤ f.layout.s := by clear * - ; cases f <;> decide
  have hy : InLayout f.layout ⟨0, 0, 2⟩ := ⟨g4, g5, by simp only; omega, by simp only; omega⟩
  have hyl : lbaOf f.layout ⟨0, 0, 2⟩ = 1 := by unfold lbaOf; simp only [g1, Nat.zero_mul]
  have hfit := lba_fits hf hy
  rw [hyl] at hfit
  obtain ⟨d', w1, w2⟩ := hW.writes trivial v.disk file ⟨0, 0, 2⟩ a h.w hy ha
  rw [hyl] at w2
  have hwa : wrote v a = ⟨v.disk, f, ⟨0, 0⟩, 1, f.layout.s, a, 512, true, 512, false⟩ := by
    unfold wrote
    have : overwrite v.buf v.pos a = a := by
      unfold overwrite
      rw [hp, List.take_zero, List.nil_append, List.drop_of_length_le (by rw [h.buf]; omega), List.append_nil]
    rw [this, h.fmt, h.cur, h.sid, h.spt, h.size, h.eod, hp, ha]
    have : a.isEmpty = false := by cases a with | nil => simp at ha | cons => rfl
    rw [this, n2]; rfl
  obtain ⟨v1, e1, e2, e3, e4⟩ := load_ok hW hf nz'
    ⟨d', f, ⟨0, 0⟩, 2, f.layout.s, a, 512, false, 512, false⟩ _ ⟨0, 0, 2⟩ w2 rfl rfl rfl hy rfl
  have hst := e4 0 (by omega)
  have hv1 : ({ v1 with pos := 0 } : View) = v1 := by rw [← e3]
  rw [hv1] at hst
  have hnext : View.nextSector nz' ⟨v.disk, f, ⟨0, 0⟩, 1, f.layout.s, a, 512, true, 512, false⟩ = (v1, .ok ()) := by
    unfold View.nextSector
    rw [if_neg (by simp only; omega)]
    simp only [View.commit, if_true, View.chsn, w1, Bool.false_eq_true, if_false, e1]
  have hwb := write_in nz' b v1 hst.eod (by rw [e3, hst.buf]; omega)
  have hstep : View.write nz' b (wrote v a) = (wrote v1 b, .ok 512) := by
    rw [← hb, ← hwb, hwa]
    cases b with
    | nil => simp at hb
    | cons c l =>
      have hfill : View.fill nz' ⟨v.disk, f, ⟨0, 0⟩, 1, f.layout.s, a, 512, true, 512, false⟩ = (v1, .ok ()) := by
        unfold View.fill
        rw [if_neg (by simp only; omega), hnext]
      have hfill1 : v1.fill nz' = (v1, .ok ()) := by
        unfold View.fill; rw [if_pos (by rw [hst.buf, e3]; omega)]
      conv => lhs; unfold View.write
      conv => rhs; unfold View.write
      simp only [hst.eod, Bool.false_eq_true, if_false, hfill, hfill1]
  have hwrite : v.write nz' (a ++ b) = (wrote v1 b, .ok 1024) := by
    rw [write_append nz' a b v h.eod (by rw [hp, h.buf]; omega), hstep]
    simp only [ha]
  have hst2 : Stands f (MapHolds f) (wrote v1 b) ⟨overwrite file 512 b, 1024⟩ ⟨0, 0, 2⟩ (overwrite file (1 * 512) a) := by
    refine ⟨hst.w, hst.fmt, hst.spt, hst.size, hst.here, hst.cur, hst.sid, hst.eod, ?_, ?_, ?_, ?_, ?_⟩
    · show v1.pos + b.length ≤ 512
      omega
    · show 1024 = lbaOf f.layout ⟨0, 0, 2⟩ * 512 + (v1.pos + b.length)
      rw [hyl]; omega
    · show (overwrite v1.buf v1.pos b).length = 512
      rw [overwrite_length _ _ _ (by rw [hst.buf]; omega), hst.buf]
    · have hob : overwrite v1.buf v1.pos b = b := by
        unfold overwrite
        rw [e3, List.take_zero, List.nil_append, List.drop_of_length_le (by rw [hst.buf]; omega), List.append_nil]
      show overwrite file 512 b = overwrite (overwrite file (1 * 512) a) (lbaOf f.layout ⟨0, 0, 2⟩ * 512) (overwrite v1.buf v1.pos b)
      rw [hob, hyl]
      apply List.ext_getElem?
      intro i
      have hol := overwrite_length file (1 * 512) a (by omega)
      rw [overwrite_getElem? file _ _ (by omega), overwrite_getElem? (overwrite file (1 * 512) a) _ _ (by omega),
        overwrite_getElem? file _ _ (by omega), ha, hb]
      by_cases hi : 512 ≤ i ∧ i < 512 + 512
      · rw [if_pos hi, if_pos (by omega)]
      · rw [if_neg hi, if_neg (by omega), if_neg (by omega)]
    · intro hd
      have : (wrote v1 b).dirty = true := by
        unfold wrote
        cases b with
        | nil => simp at hb
        | cons c l => simp
      rw [this] at hd; simp at hd
  obtain ⟨v2, k1, k2, k3, k4⟩ := hst2.commit hW (fun _ => trivial)
  have hflush : (wrote v1 b).flush = (v2, .ok ()) := k1
  simp only [viewRun, viewStep, hwrite, hflush]
  exact ⟨trivial, hW.reads _ _ k4⟩

/-! ### The hypotheses can be met -/

/-- A calm history that crosses sectors and tracks, writes, flushes and reads to the end. -/
example (nz : Chs → Noise) (file : List Byte) (hl : file.length = 368640) :
    CalmRun 512 9 ⟨file, 0⟩ ⟨none, false⟩
      [.read nz 10000, .seek nz (.start 700), .write nz [1#8, 2#8], .flush, .seek nz (.start 100000),
       .read nz 268640, .seek nz (.fin (-1)), .read nz 2, .seek nz (.start 5)] := by
  simp only [CalmRun, Calm, Book.step, FlatFile.step, FlatFile.target, overwrite, slice, hl,
    List.length_append, List.length_take, List.length_drop, List.length_cons, List.length_nil]
  simp [hl]

end Fox
