import Verif.Spec.FlatFile
import Verif.Proofs.RawRound
/-
The sector view refines a flat file on calm histories.
-/
namespace Fox
open Fox.Spec

theorem slice_len (l : List Byte) (o k : Nat) (h : o + k ≤ l.length) : (slice l o k).length = k := by
  unfold slice; rw [List.length_take, List.length_drop]; omega

theorem overwrite_length (l : List Byte) (off : Nat) (buf : List Byte) (h : off + buf.length ≤ l.length) :
    (overwrite l off buf).length = l.length := by
  unfold overwrite
  rw [List.length_append, List.length_append, List.length_take, List.length_drop]; omega

theorem overwrite_getElem? (l : List Byte) (off : Nat) (buf : List Byte) (h : off + buf.length ≤ l.length) (i : Nat) :
    (overwrite l off buf)[i]? = if off ≤ i ∧ i < off + buf.length then buf[i - off]? else l[i]? := by
  unfold overwrite
  have e1 : (l.take off).length = off := by rw [List.length_take]; omega
  rw [List.append_assoc, List.getElem?_append, e1]
  by_cases h1 : i < off
  · rw [if_pos h1, if_neg (by omega), List.getElem?_take, if_pos h1]
  · rw [if_neg h1, List.getElem?_append]
    by_cases h2 : i < off + buf.length
    · rw [if_pos (by omega), if_pos (by omega)]
    · rw [if_neg (by omega), if_neg (by omega), List.getElem?_drop]
      congr 1; omega

theorem slice_getElem? (l : List Byte) (o k i : Nat) : (slice l o k)[i]? = if i < k then l[o + i]? else none := by
  unfold slice
  rw [List.getElem?_take]
  split
  · rw [List.getElem?_drop]
  · rfl

theorem overwrite_self (l : List Byte) (off k : Nat) (h : off + k ≤ l.length) : overwrite l off (slice l off k) = l := by
  apply List.ext_getElem?
  intro i
  have hl := slice_len l off k h
  rw [overwrite_getElem? _ _ _ (by omega), hl, slice_getElem?]
  by_cases c : off ≤ i ∧ i < off + k
  · rw [if_pos c, if_pos (by omega)]; congr 1; omega
  · rw [if_neg c]

theorem slice_overwrite_same (l : List Byte) (off : Nat) (buf : List Byte) (h : off + buf.length ≤ l.length) :
    slice (overwrite l off buf) off buf.length = buf := by
  apply List.ext_getElem?
  intro i
  rw [slice_getElem?]
  by_cases c : i < buf.length
  · rw [if_pos c, overwrite_getElem? _ _ _ h, if_pos (by omega)]; congr 1; omega
  · rw [if_neg c, List.getElem?_eq_none (by omega)]

theorem slice_overwrite_other (l : List Byte) (off : Nat) (buf : List Byte) (h : off + buf.length ≤ l.length)
    (o k : Nat) (hd : o + k ≤ off ∨ off + buf.length ≤ o) : slice (overwrite l off buf) o k = slice l o k := by
  apply List.ext_getElem?
  intro i
  rw [slice_getElem?, slice_getElem?]
  by_cases c : i < k
  · rw [if_pos c, if_pos c, overwrite_getElem? _ _ _ h, if_neg (by omega)]
  · rw [if_neg c, if_neg c]

theorem slice_cons (l : List Byte) (o n : Nat) (b : Byte) (h : l[o]? = some b) :
    slice l o (n + 1) = b :: slice l (o + 1) n := by
  unfold slice
  obtain ⟨h1, h2⟩ := List.getElem?_eq_some_iff.1 h
  rw [List.drop_eq_getElem_cons h1, List.take_succ_cons, h2]

theorem slice_past (l : List Byte) (o n : Nat) (h : l.length ≤ o) : slice l o n = [] := by
  unfold slice; rw [List.drop_eq_nil_of_le h, List.take_nil]

/-! ### Facts about PC formats -/

theorem pc_layout (f : StdFormat) (hf : f.isPc = true) :
    f.layout.sOff = 1 ∧ f.layout.size = 512 ∧ f.diskSize = sectorCount f.layout * 512 ∧
    0 < f.layout.c ∧ 0 < f.layout.h ∧ 0 < f.layout.s ∧ (f.layout.h = 1 ∨ f.layout.h = 2) := by
  cases f <;> first | exact absurd hf (by decide) | decide

/-- A disk that can be read, and if `wr` written, as an image. -/
structure Store (f : StdFormat) (wr : Prop) (W : Disk → List Byte → Prop) : Prop where
  reads : ∀ d img, W d img → SectorsAre f.layout d img
  len : ∀ d img, W d img → img.length = f.diskSize
  writes : wr → ∀ d img x buf, W d img → InLayout f.layout x → buf.length = 512 →
    ∃ d', d.writeBasic ⟨x.c, x.h⟩ (.ofChsn ⟨x.c, x.h, x.s, f.layout.n⟩) none buf = (d', .ok ()) ∧
      W d' (overwrite img (lbaOf f.layout x * 512) buf)

/-- The view stands in sector `x`; `img` is what is on the disk. -/
structure Stands (f : StdFormat) (W : Disk → List Byte → Prop) (v : View) (F : FlatFile) (x : Chs)
    (img : List Byte) : Prop where
  w : W v.disk img
  fmt : v.fmt = f
  spt : v.spt = f.layout.s
  size : v.size = 512
  here : InLayout f.layout x
  cur : v.cur = ⟨x.c, x.h⟩
  sid : v.sid = x.s
  eod : v.eod = false
  pos : v.pos ≤ 512
  fpos : F.pos = lbaOf f.layout x * 512 + v.pos
  buf : v.buf.length = 512
  data : F.data = overwrite img (lbaOf f.layout x * 512) v.buf
  clean : v.dirty = false → F.data = img

/-- The view has run into the end. -/
structure Over (f : StdFormat) (W : Disk → List Byte → Prop) (v : View) (F : FlatFile) : Prop where
  w : W v.disk F.data
  fmt : v.fmt = f
  spt : v.spt = f.layout.s
  size : v.size = 512
  cur : v.cur = ⟨f.layout.c - 1, f.layout.h - 1⟩
  sid : v.sid = 1
  eod : v.eod = true
  dirty : v.dirty = false
  fpos : F.pos = F.data.length

/-- The simulation relation. -/
def VRel (f : StdFormat) (W : Disk → List Byte → Prop) (v : View) (F : FlatFile) (b : Book) : Prop :=
  (∃ x img, Stands f W v F x img ∧ b = ⟨if v.dirty then some (lbaOf f.layout x) else none, false⟩) ∨
  (Over f W v F ∧ b = ⟨none, true⟩)

section
variable {f : StdFormat} {wr : Prop} {W : Disk → List Byte → Prop}

theorem lba_fits (hf : f.isPc = true) {x : Chs} (hx : InLayout f.layout x) :
    lbaOf f.layout x * 512 + 512 ≤ f.diskSize := by
  have h1 := lbaOf_lt hx
  have h2 := (pc_layout f hf).2.2.1
  omega

theorem Stands.len (hW : Store f wr W) (hf : f.isPc = true) {v : View} {F : FlatFile} {x : Chs} {img : List Byte}
    (h : Stands f W v F x img) : F.data.length = f.diskSize := by
  have h1 := hW.len _ _ h.w
  have h2 := lba_fits hf h.here
  rw [h.data, overwrite_length _ _ _ (by rw [h.buf]; omega), h1]

theorem Stands.bufEq (hW : Store f wr W) (hf : f.isPc = true) {v : View} {F : FlatFile} {x : Chs} {img : List Byte}
    (h : Stands f W v F x img) : v.buf = slice F.data (lbaOf f.layout x * 512) 512 := by
  have h1 := hW.len _ _ h.w
  have h2 := lba_fits hf h.here
  have := slice_overwrite_same img (lbaOf f.layout x * 512) v.buf (by rw [h.buf]; omega)
  rw [h.buf] at this
  rw [h.data, this]

/-- Reading a sector in. -/
theorem load_ok (hW : Store f wr W) (hf : f.isPc = true) (nz : Chs → Noise) (v : View) (D : List Byte) (y : Chs)
    (h1 : W v.disk D) (h2 : v.fmt = f) (h3 : v.spt = f.layout.s) (h4 : v.size = 512)
    (h5 : InLayout f.layout y) (h6 : v.cur = ⟨y.c, y.h⟩) :
    ∃ v', v.readSector nz y.s = (v', .ok ()) ∧ v'.dirty = false ∧ v'.pos = 0 ∧
      ∀ r, r ≤ 512 → Stands f W { v' with pos := r } ⟨D, lbaOf f.layout y * 512 + r⟩ y D := by
  have hl := hW.len _ _ h1
  have hs := lba_fits hf h5
  have hr := hW.reads _ _ h1 y (nz ⟨y.c, y.h, y.s⟩) h5
  have hz := (pc_layout f hf).2.1
  unfold fileSector at hr
  rw [hz] at hr
  have hlen := slice_len D (lbaOf f.layout y * 512) 512 (by omega)
  obtain ⟨d, fm, cu, si, sp, bu, sz, di, po, eo⟩ := v
  simp only at h1 h2 h3 h4 h6
  subst h2 h3 h4 h6
  unfold View.readSector
  simp only [View.chsn, hr]
  refine ⟨_, rfl, rfl, rfl, ?_⟩
  intro r hr'
  exact ⟨h1, rfl, rfl, rfl, h5, rfl, rfl, rfl, hr', rfl, fit_length _ _,
    by simp only [fit_self 512 _ hlen]; exact (overwrite_self D _ 512 (by omega)).symm, fun _ => rfl⟩

/-- Committing in place. -/
theorem Stands.commit (hW : Store f wr W) {v : View} {F : FlatFile} {x : Chs}
    {img : List Byte} (h : Stands f W v F x img) (hwr : v.dirty = true → wr) :
    ∃ v', v.commit = (v', .ok ()) ∧ v'.dirty = false ∧ v' = { v with disk := v'.disk, dirty := false } ∧
      W v'.disk F.data := by
  obtain ⟨h1, h2, h3, h4, h5, h6, h7, h8, h9, h10, h11, h12, h13⟩ := h
  obtain ⟨d, fm, cu, si, sp, bu, sz, di, po, eo⟩ := v
  simp only at h1 h2 h3 h4 h6 h7 h8 h9 h10 h11 h12 h13 hwr
  subst h2 h3 h4 h6 h7 h8
  unfold View.commit
  cases di with
  | false =>
    simp only [Bool.false_eq_true, if_false]
    refine ⟨_, rfl, rfl, rfl, ?_⟩
    rw [h13 rfl]; exact h1
  | true =>
    obtain ⟨d', e, hd'⟩ := hW.writes (hwr rfl) d img x bu h1 h5 h11
    simp only [if_true, View.chsn, e]
    refine ⟨_, rfl, rfl, rfl, ?_⟩
    rw [h12]; exact hd'

/-- Moving on from a clean sector. -/
theorem Stands.next (hW : Store f wr W) (hf : f.isPc = true) (nz : Chs → Noise) {v : View} {F : FlatFile} {x : Chs}
    {img : List Byte} (h : Stands f W v F x img) (hc : v.dirty = false) (hp : v.pos = 512) :
    ∃ v', v.nextSector nz = (v', .ok ()) ∧
      ((∃ y, Stands f W v' F y F.data ∧ v'.pos = 0 ∧ v'.dirty = false) ∨ Over f W v' F) := by
  have hlen := h.len hW hf
  obtain ⟨h1, h2, h3, h4, h5, h6, h7, h8, h9, h10, h11, h12, h13⟩ := h
  obtain ⟨d, fm, cu, si, sp, bu, sz, di, po, eo⟩ := v
  simp only at h1 h2 h3 h4 h6 h7 h8 h9 h10 h11 h12 h13 hc hp
  replace h13 := h13 hc
  subst h2 h3 h4 h6 h7 h8 hc hp
  obtain ⟨g1, g2, g3, g4, g5, g6, g7⟩ := pc_layout fm hf
  have hx := h5
  obtain ⟨x1, x2, x3, x4⟩ := h5
  obtain ⟨D, P⟩ := F
  simp only at h10 h12 h13 hlen
  subst h13
  clear h12
  unfold View.nextSector
  -- after the move, nothing to commit; read sector `y`
  have go : ∀ y : Chs, InLayout fm.layout y → lbaOf fm.layout y = lbaOf fm.layout x + 1 →
      ∃ v', View.readSector nz ⟨d, fm, ⟨y.c, y.h⟩, y.s, fm.layout.s, bu, 512, false, 512, false⟩ y.s = (v', .ok ()) ∧
        ((∃ y, Stands fm W v' ⟨D, P⟩ y D ∧ v'.pos = 0 ∧ v'.dirty = false) ∨ Over fm W v' ⟨D, P⟩) := by
    intro y hy hl
    obtain ⟨v', e1, e2, e3, e4⟩ := load_ok hW hf nz
      ⟨d, fm, ⟨y.c, y.h⟩, y.s, fm.layout.s, bu, 512, false, 512, false⟩ D y h1 rfl rfl rfl hy rfl
    refine ⟨v', e1, Or.inl ⟨y, ?_, e3, e2⟩⟩
    have := e4 0 (by omega)
    have hv : ({ v' with pos := 0 } : View) = v' := by rw [← e3]
    rw [hv] at this
    have hP : P = lbaOf fm.layout y * 512 + 0 := by rw [hl, h10]; omega
    rw [hP]; exact this
  by_cases c1 : x.s + 1 > fm.layout.s
  · simp only [if_pos c1]
    have hs : x.s = fm.layout.s := by omega
    unfold Ch.seekNextTrack Layout.ch
    by_cases c2 : x.c = fm.layout.c - 1 ∧ x.h ≥ fm.layout.h - 1
    · simp only [if_pos c2, View.commit, Bool.false_eq_true, if_false, Bool.not_false, if_true]
      refine ⟨_, rfl, Or.inr ⟨h1, rfl, rfl, rfl, ?_, rfl, rfl, rfl, ?_⟩⟩
      · have : x.h = fm.layout.h - 1 := by omega
        simp only [Ch.mk.injEq]; omega
      · show P = D.length
        rw [h10, hlen, g3]
        have : lbaOf fm.layout x + 1 = sectorCount fm.layout := by
          unfold lbaOf sectorCount
          rw [c2.1, hs, g1]
          rcases g7 with g7 | g7 <;> rw [g7] at c2 x2 ⊢
          · have : x.h = 0 := by omega
            rw [this, Nat.one_mul, Nat.mul_one, ← Nat.succ_pred_eq_of_pos g4, Nat.succ_mul]
            simp only [Nat.succ_sub_one]; omega
          · have : x.h = 1 := by omega
            rw [this, ← Nat.succ_pred_eq_of_pos g4]
            simp only [Nat.succ_sub_one, Nat.succ_mul, Nat.zero_mul, Nat.zero_add, Nat.add_mul,
              Nat.mul_comm (fm.layout.c.pred)]
            omega
        omega
    · simp only [if_neg c2, View.commit, Bool.false_eq_true, if_false, Bool.not_true]
      unfold Ch.nextTrack
      by_cases c3 : x.h < fm.layout.h - 1
      · simp only [if_pos c3, Option.getD_some]
        refine go ⟨x.c, x.h + 1, 1⟩ ⟨x1, by simp only; omega, by simp only; omega, by simp only; omega⟩ ?_
        unfold lbaOf
        simp only [Nat.add_mul, Nat.one_mul, hs, g1]; omega
      · have c4 : x.c < fm.layout.c - 1 := by omega
        simp only [if_neg c3, if_pos c4, Option.getD_some]
        refine go ⟨x.c + 1, 0, 1⟩ ⟨by simp only; omega, by simp only; omega, by simp only; omega, by simp only; omega⟩ ?_
        unfold lbaOf
        have : x.h + 1 = fm.layout.h := by omega
        rw [← this]
        simp only [Nat.add_mul, Nat.one_mul, hs, g1]; omega
  · simp only [if_neg c1, View.commit, Bool.false_eq_true, if_false]
    refine go ⟨x.c, x.h, x.s + 1⟩ ⟨x1, x2, by simp only; omega, by simp only; omega⟩ ?_
    unfold lbaOf
    simp only; omega

theorem ite_dirty (b : Bool) (k : Nat) : (if b = true then some k else none) = none → b = false := by
  cases b <;> simp

theorem Over.len (hW : Store f wr W) {v : View} {F : FlatFile} (h : Over f W v F) : F.data.length = f.diskSize :=
  hW.len _ _ h.w

theorem VRel.len (hW : Store f wr W) (hf : f.isPc = true) {v : View} {F : FlatFile} {b : Book}
    (h : VRel f W v F b) : F.data.length = f.diskSize := by
  rcases h with ⟨x, img, h, _⟩ | ⟨h, _⟩
  · exact h.len hW hf
  · exact h.len hW

theorem Stands.byte (hW : Store f wr W) (hf : f.isPc = true) {v : View} {F : FlatFile} {x : Chs} {img : List Byte}
    (h : Stands f W v F x img) (hp : v.pos < 512) : v.buf[v.pos]? = F.data[F.pos]? := by
  rw [h.bufEq hW hf, slice_getElem?, if_pos hp, h.fpos]

theorem Stands.advance {v : View} {F : FlatFile} {x : Chs} {img : List Byte}
    (h : Stands f W v F x img) (hp : v.pos < 512) :
    Stands f W { v with pos := v.pos + 1 } ⟨F.data, F.pos + 1⟩ x img :=
  ⟨h.w, h.fmt, h.spt, h.size, h.here, h.cur, h.sid, h.eod, hp, by show F.pos + 1 = lbaOf f.layout x * 512 + (v.pos + 1); rw [h.fpos]; omega, h.buf, h.data, h.clean⟩

/-- Reading. -/
theorem read_ok (hW : Store f wr W) (hf : f.isPc = true) (nz : Chs → Noise) : ∀ (n : Nat) (v : View) (F : FlatFile)
    (b : Book), VRel f W v F b → (∀ k, b.dirty = some k → F.pos + n ≤ (k + 1) * 512) →
    ∃ v', v.read nz n = (v', .ok (slice F.data F.pos n)) ∧ v'.dirty = v.dirty ∧
      VRel f W v' ⟨F.data, F.pos + (slice F.data F.pos n).length⟩
        ⟨b.dirty, b.ended || decide (F.data.length < F.pos + n)⟩
  | 0, v, F, b, h, _ => by
    have h0 : slice F.data F.pos 0 = [] := by unfold slice; rw [List.take_zero]
    refine ⟨v, by rw [h0]; rfl, rfl, ?_⟩
    have hle : F.pos ≤ F.data.length := by
      rcases h with ⟨x, img, h, _⟩ | ⟨h, _⟩
      · have := h.len hW hf
        have := lba_fits hf h.here
        have := h.fpos
        have := h.pos
        omega
      · rw [h.fpos]
    rw [h0, List.length_nil, Nat.add_zero, decide_eq_false (by omega), Bool.or_false]
    exact h
  | n + 1, v, F, b, h, hc => by
    -- reading on from inside a sector
    have inside : ∀ (v : View) (x : Chs) (img : List Byte), Stands f W v F x img → v.pos < 512 →
        b = ⟨if v.dirty then some (lbaOf f.layout x) else none, false⟩ →
        ∃ v', v.read nz (n + 1) = (v', .ok (slice F.data F.pos (n + 1))) ∧ v'.dirty = v.dirty ∧
          VRel f W v' ⟨F.data, F.pos + (slice F.data F.pos (n + 1)).length⟩
            ⟨b.dirty, b.ended || decide (F.data.length < F.pos + (n + 1))⟩ := by
      intro v x img h hp hb
      have hby := h.byte hW hf hp
      have hlt : v.pos < v.buf.length := by rw [h.buf]; exact hp
      have hbb : v.buf[v.pos]? = some v.buf[v.pos] := List.getElem?_eq_getElem hlt
      obtain ⟨v', e1, e2, e3⟩ := read_ok hW hf nz n { v with pos := v.pos + 1 } ⟨F.data, F.pos + 1⟩ b
        (Or.inl ⟨x, img, h.advance hp, hb⟩) (fun k hk => by have := hc k hk; simp only; omega)
      refine ⟨v', ?_, e2, ?_⟩
      · unfold View.read
        have he := h.eod
        rw [if_neg (by rw [he]; simp)]
        simp only [View.fill, if_pos hlt]
        rw [if_neg (by rw [he]; simp)]
        simp only [hbb, e1]
        rw [slice_cons F.data F.pos n v.buf[v.pos] (by rw [← hby, hbb])]
      · rw [slice_cons F.data F.pos n v.buf[v.pos] (by rw [← hby, hbb]), List.length_cons]
        simp only at e3
        have g1 : F.pos + 1 + (slice F.data (F.pos + 1) n).length = F.pos + ((slice F.data (F.pos + 1) n).length + 1) := by
          omega
        have g2 : F.pos + 1 + n = F.pos + (n + 1) := by omega
        rw [g1, g2] at e3
        exact e3
    rcases h with ⟨x, img, h, hb⟩ | ⟨h, hb⟩
    · by_cases hp : v.pos < 512
      · exact inside v x img h hp hb
      · have hp : v.pos = 512 := by have := h.pos; omega
        have hd : v.dirty = false := by
          cases hv : v.dirty with
          | false => rfl
          | true =>
            have := hc (lbaOf f.layout x) (by rw [hb, hv]; rfl)
            have := h.fpos
            omega
        have hbn : b = ⟨none, false⟩ := by rw [hb, hd]; rfl
        obtain ⟨v1, e1, e2⟩ := h.next hW hf nz hd hp
        have hfill : v.fill nz = (v1, .ok ()) := by
          unfold View.fill; rw [if_neg (by rw [h.buf]; omega), e1]
        rcases e2 with ⟨y, e2, e3, e4⟩ | e2
        · obtain ⟨v', k1, k2, k3⟩ := inside v1 y F.data e2 (by omega) (by rw [hbn, e4]; rfl)
          refine ⟨v', ?_, by rw [k2, e4, hd], k3⟩
          rw [← k1]
          have hfill1 : v1.fill nz = (v1, .ok ()) := by
            unfold View.fill; rw [if_pos (by rw [e2.buf]; omega)]
          conv => lhs; unfold View.read
          conv => rhs; unfold View.read
          simp only [h.eod, e2.eod, Bool.false_eq_true, if_false, hfill, hfill1]
        · have hlen := e2.fpos
          have hs : slice F.data F.pos (n + 1) = [] := slice_past _ _ _ (by omega)
          refine ⟨v1, ?_, by rw [e2.dirty, hd], Or.inr ⟨?_, ?_⟩⟩
          · unfold View.read
            simp only [h.eod, e2.eod, Bool.false_eq_true, if_false, hfill, if_true, hs]
          · rw [hs]; exact e2
          · rw [hbn, decide_eq_true (by omega)]; rfl
    · have hs : slice F.data F.pos (n + 1) = [] := slice_past _ _ _ (by have := h.fpos; omega)
      refine ⟨v, ?_, rfl, Or.inr ⟨?_, ?_⟩⟩
      · unfold View.read
        simp only [h.eod, if_true, hs]
      · rw [hs]; exact h
      · rw [hb]; rfl

theorem overwrite_cons (l : List Byte) (p : Nat) (c : Byte) (m : List Byte) (h : p + (m.length + 1) ≤ l.length) :
    overwrite (l.set p c) (p + 1) m = overwrite l p (c :: m) := by
  apply List.ext_getElem?
  intro i
  rw [overwrite_getElem? _ _ _ (by rw [List.length_set]; omega), overwrite_getElem? _ _ _ (by rw [List.length_cons]; omega),
    List.getElem?_set, List.length_cons]
  by_cases h1 : p + 1 ≤ i ∧ i < p + 1 + m.length
  · rw [if_pos h1, if_pos (by omega)]
    have : i - p = (i - (p + 1)) + 1 := by omega
    rw [this, List.getElem?_cons_succ]
  · rw [if_neg h1]
    by_cases h2 : p = i
    · subst h2
      rw [if_pos rfl, if_pos (by omega), if_pos (by omega), Nat.sub_self]; rfl
    · rw [if_neg h2, if_neg (by omega)]

theorem overwrite_nil (l : List Byte) (p : Nat) : overwrite l p [] = l := by
  unfold overwrite; rw [List.append_nil, List.length_nil, Nat.add_zero, List.take_append_drop]

/-- The view after writing `l` within the sector. -/
def wrote (v : View) (l : List Byte) : View :=
  ⟨v.disk, v.fmt, v.cur, v.sid, v.spt, overwrite v.buf v.pos l, v.size, v.dirty || !l.isEmpty, v.pos + l.length, v.eod⟩

/-- Writing within a sector. -/
theorem write_in (nz : Chs → Noise) : ∀ (l : List Byte) (v : View), v.eod = false → v.pos + l.length ≤ v.buf.length →
    v.write nz l = (wrote v l, .ok l.length)
  | [], v, _, _ => by
    unfold View.write wrote
    rw [overwrite_nil, List.length_nil, Nat.add_zero, List.isEmpty_nil, Bool.not_true, Bool.or_false]
  | c :: l, v, he, hl => by
    rw [List.length_cons] at hl
    have hp : v.pos < v.buf.length := by omega
    unfold View.write View.fill
    have ih := write_in nz l { v with buf := v.buf.set v.pos c, pos := v.pos + 1, dirty := true } he
      (by simp only [List.length_set]; omega)
    rw [if_neg (by rw [he]; simp)]
    simp only [if_pos hp]
    rw [if_neg (by rw [he]; simp)]
    simp only [ih]
    unfold wrote
    simp only
    rw [overwrite_cons _ _ _ _ (by omega)]
    simp only [List.length_cons, List.isEmpty_cons, Bool.not_false, Bool.or_true, Bool.true_or]
    have : v.pos + 1 + l.length = v.pos + (l.length + 1) := by omega
    rw [this]

theorem overwrite_nested (img : List Byte) (off : Nat) (buf : List Byte) (p : Nat) (l : List Byte)
    (h1 : off + buf.length ≤ img.length) (h2 : p + l.length ≤ buf.length) :
    overwrite img off (overwrite buf p l) = overwrite (overwrite img off buf) (off + p) l := by
  apply List.ext_getElem?
  intro i
  rw [overwrite_getElem? img off _ (by rw [overwrite_length _ _ _ h2]; omega),
    overwrite_getElem? (overwrite img off buf) _ _ (by rw [overwrite_length _ _ _ h1]; omega), overwrite_length _ _ _ h2,
    overwrite_getElem? _ _ _ h1, overwrite_getElem? _ _ _ h2]
  by_cases c1 : off + p ≤ i ∧ i < off + p + l.length
  · rw [if_pos c1, if_pos (by omega), if_pos (by omega)]; congr 1; omega
  · rw [if_neg c1]
    by_cases c2 : off ≤ i ∧ i < off + buf.length
    · rw [if_pos c2, if_pos c2, if_neg (by omega)]
    · rw [if_neg c2, if_neg c2]

/-- Writing. -/
theorem write_ok (hW : Store f wr W) (hf : f.isPc = true) (nz : Chs → Noise) (buf : List Byte) (v : View)
    (F : FlatFile) (b : Book) (h : VRel f W v F b) (hc : Calm 512 f.layout.s F b (.write nz buf)) :
    ∃ v', v.write nz buf = (v', .ok (buf.take (F.data.length - F.pos)).length) ∧
      VRel f W v' (F.step (.write nz buf)).1 (b.step 512 F (.write nz buf)) := by
  cases buf with
  | nil =>
    refine ⟨v, ?_, ?_⟩
    · rw [List.take_nil]; unfold View.write; rfl
    · simp only [FlatFile.step, Book.step, List.take_nil, overwrite_nil, List.length_nil, Nat.add_zero, if_true]
      exact h
  | cons c l =>
    obtain ⟨hc1, hc2⟩ := hc (by simp)
    have hlen := h.len hW hf
    have inside : ∀ (v : View) (x : Chs) (img : List Byte), Stands f W v F x img → v.pos < 512 →
        F.pos + (c :: l).length ≤ (F.pos / 512 + 1) * 512 →
        ∃ v', v.write nz (c :: l) = (v', .ok ((c :: l).take (F.data.length - F.pos)).length) ∧
          VRel f W v' (F.step (.write nz (c :: l))).1 ⟨some (F.pos / 512), false⟩ := by
      intro v x img h hp hroom
      have hfp := h.fpos
      have hk : F.pos / 512 = lbaOf f.layout x := by omega
      have hfit := lba_fits hf h.here
      have hroom2 : v.pos + (c :: l).length ≤ 512 := by omega
      have htake : (c :: l).take (F.data.length - F.pos) = c :: l := List.take_of_length_le (by omega)
      have himg := hW.len _ _ h.w
      simp only [FlatFile.step]
      rw [htake]
      refine ⟨_, write_in nz (c :: l) v h.eod (by rw [h.buf]; exact hroom2), Or.inl ⟨x, img, ?_, ?_⟩⟩
      · refine ⟨h.w, h.fmt, h.spt, h.size, h.here, h.cur, h.sid, h.eod, hroom2, ?_, ?_, ?_, ?_⟩
        · simp only [wrote]; omega
        · simp only [wrote]; rw [overwrite_length _ _ _ (by rw [h.buf]; exact hroom2), h.buf]
        · simp only [wrote]
          rw [overwrite_nested _ _ _ _ _ (by rw [h.buf]; omega) (by rw [h.buf]; exact hroom2), ← h.data, h.fpos]
        · simp [wrote]
      · simp only [wrote, List.isEmpty_cons, Bool.not_false, Bool.or_true, if_true, hk]
    rcases h with ⟨x, img, h, hb⟩ | ⟨h, hb⟩
    · have hfp := h.fpos
      have hfit := lba_fits hf h.here
      by_cases hp : v.pos < 512
      · have hroom : F.pos + (c :: l).length ≤ (F.pos / 512 + 1) * 512 := by
          rcases hc2 with hc2 | hc2
          · omega
          · exact hc2
        obtain ⟨v', e1, e2⟩ := inside v x img h hp hroom
        refine ⟨v', e1, ?_⟩
        simp only [Book.step]
        rw [if_neg (by simp), if_neg (by omega), hb]
        exact e2
      · have hp : v.pos = 512 := by have := h.pos; omega
        have hd : v.dirty = false := by
          cases hv : v.dirty with
          | false => rfl
          | true =>
            have h2 := hc1 (lbaOf f.layout x) (by rw [hb, hv]; rfl)
            rw [List.length_cons] at h2
            omega
        have hbn : b = ⟨none, false⟩ := by rw [hb, hd]; rfl
        obtain ⟨v1, e1, e2⟩ := h.next hW hf nz hd hp
        have hfill : v.fill nz = (v1, .ok ()) := by
          unfold View.fill; rw [if_neg (by rw [h.buf]; omega), e1]
        rcases e2 with ⟨y, e2, e3, e4⟩ | e2
        · have hfit2 := lba_fits hf e2.here
          have hfp2 := e2.fpos
          obtain ⟨v', k1, k2⟩ := inside v1 y F.data e2 (by omega) (by
            rcases hc2 with hc2 | hc2
            · omega
            · exact hc2)
          refine ⟨v', ?_, ?_⟩
          · rw [← k1]
            have hfill1 : v1.fill nz = (v1, .ok ()) := by
              unfold View.fill; rw [if_pos (by rw [e2.buf]; omega)]
            conv => lhs; unfold View.write
            conv => rhs; unfold View.write
            simp only [h.eod, e2.eod, Bool.false_eq_true, if_false, hfill, hfill1]
          · simp only [Book.step]
            rw [if_neg (by simp), if_neg (by omega), hbn]
            exact k2
        · have hpl := e2.fpos
          have htake : (c :: l).take (F.data.length - F.pos) = [] := by rw [hpl, Nat.sub_self, List.take_zero]
          refine ⟨v1, ?_, Or.inr ⟨?_, ?_⟩⟩
          · rw [htake]
            unfold View.write
            simp only [h.eod, e2.eod, Bool.false_eq_true, if_false, hfill, if_true, List.length_nil]
          · simp only [FlatFile.step]
            rw [htake, overwrite_nil]; exact e2
          · simp only [Book.step]
            rw [if_neg (by simp), if_pos (by omega), hbn]
    · have hpl := h.fpos
      have htake : (c :: l).take (F.data.length - F.pos) = [] := by rw [hpl, Nat.sub_self, List.take_zero]
      refine ⟨v, ?_, Or.inr ⟨?_, ?_⟩⟩
      · rw [htake]
        unfold View.write
        simp only [h.eod, if_true, List.length_nil]
      · simp only [FlatFile.step]
        rw [htake, overwrite_nil]; exact h
      · simp only [Book.step]
        rw [if_neg (by simp), if_pos (by omega), hb]

/-- Flushing. -/
theorem flush_ok (hW : Store f wr W) (hf : f.isPc = true) (v : View) (F : FlatFile) (b : Book) (h : VRel f W v F b)
    (hwr : v.dirty = true → wr) : ∃ v', v.flush = (v', .ok ()) ∧ v'.dirty = false ∧ VRel f W v' F ⟨none, b.ended⟩ := by
  rcases h with ⟨x, img, h, hb⟩ | ⟨h, hb⟩
  · obtain ⟨v', e1, e2, e3, e4⟩ := h.commit hW hwr
    refine ⟨v', e1, e2, Or.inl ⟨x, F.data, ?_, by rw [e2, hb]; rfl⟩⟩
    have hl := hW.len _ _ e4
    have hl' := hW.len _ _ h.w
    have hbuf : overwrite F.data (lbaOf f.layout x * 512) v.buf = F.data := by
      have hfit := lba_fits hf h.here
      have hle : lbaOf f.layout x * 512 + v.buf.length ≤ img.length := by rw [h.buf]; omega
      have h3 := overwrite_self F.data (lbaOf f.layout x * 512) v.buf.length (by omega)
      have h4 := slice_overwrite_same img _ _ hle
      rw [← h.data] at h4
      rw [h4] at h3; exact h3
    rw [e3]
    exact ⟨e4, h.fmt, h.spt, h.size, h.here, h.cur, h.sid, h.eod, h.pos, h.fpos, h.buf, hbuf.symm, fun _ => rfl⟩
  · refine ⟨v, ?_, h.dirty, Or.inr ⟨h, by rw [hb]⟩⟩
    unfold View.flush View.commit
    rw [h.dirty]; rfl

theorem track_of_lba {g : Layout} {x y : Chs} (hx : InLayout g x) (hy : InLayout g y)
    (e : lbaOf g x / g.s = lbaOf g y / g.s) : x.c = y.c ∧ x.h = y.h := by
  obtain ⟨a1, a2, a3, a4⟩ := hx
  obtain ⟨b1, b2, b3, b4⟩ := hy
  have hs : 0 < g.s := by omega
  have k : ∀ z : Chs, z.s - g.sOff < g.s → lbaOf g z / g.s = z.c * g.h + z.h := by
    intro z hz
    unfold lbaOf
    rw [← Nat.mul_assoc, ← Nat.add_mul, Nat.mul_comm, Nat.mul_add_div hs, Nat.div_eq_of_lt hz, Nat.add_zero]
  rw [k x (by omega), k y (by omega)] at e
  have ha : (x.c * g.h + x.h) / g.h = x.c := by
    rw [Nat.mul_comm, Nat.mul_add_div (by omega), Nat.div_eq_of_lt a2, Nat.add_zero]
  have hb : (y.c * g.h + y.h) / g.h = y.c := by
    rw [Nat.mul_comm, Nat.mul_add_div (by omega), Nat.div_eq_of_lt b2, Nat.add_zero]
  have hc : x.c = y.c := by rw [← ha, e, hb]
  rw [hc] at e
  exact ⟨hc, by omega⟩

theorem fromRaw_ok (hf : f.isPc = true) (t : Nat) (ht : t < f.diskSize) :
    ∃ y, f.layout.fromRawOffset t = some (y, t % 512) ∧ InLayout f.layout y ∧ lbaOf f.layout y = t / 512 := by
  obtain ⟨g1, g2, g3, g4, g5, g6, g7⟩ := pc_layout f hf
  have hn : t / 512 < sectorCount f.layout := by omega
  obtain ⟨b, _, _⟩ := C12_lba_chs_bijection_partial f.layout (by omega) (by omega)
  obtain ⟨x, hx, hin, hl⟩ := b _ hn
  have hp : 0 < f.layout.h * f.layout.s := Nat.mul_pos g5 g6
  unfold Layout.fromLbaChecked at hx
  rw [if_neg (by omega)] at hx
  injection hx with hx
  refine ⟨x, ?_, hin, by rw [← toLba_eq, hl]⟩
  unfold Layout.fromRawOffset
  rw [g2, hx]; rfl

theorem toRaw_ok (hf : f.isPc = true) {x : Chs} (hx : InLayout f.layout x) :
    f.layout.toRawOffset x = some (lbaOf f.layout x * 512) := by
  obtain ⟨g1, g2, g3, g4, g5, g6, g7⟩ := pc_layout f hf
  unfold Layout.toRawOffset
  rw [if_pos ((C12_contains_iff _ _).2 (Or.inl hx)), toLba_eq, g2]

/-- Seeking to an offset. -/
theorem seekOffset_ok (hW : Store f wr W) (hf : f.isPc = true) (nz : Chs → Noise) (v : View) (F : FlatFile)
    (b : Book) (h : VRel f W v F b) (hwr : v.dirty = true → wr) (t : Nat) (ht : t < F.data.length)
    (hd : ∀ k, b.dirty = some k → t / 512 / f.layout.s = k / f.layout.s)
    (he : b.ended = true → t / 512 + f.layout.s ≠ F.data.length / 512) :
    ∃ v', v.seekOffset nz t = (v', .ok t) ∧ (v'.dirty = true → wr) ∧
      VRel f W v' ⟨F.data, t⟩ ⟨if b.dirty = some (t / 512) then b.dirty else none, false⟩ := by
  have hlen := h.len hW hf
  obtain ⟨y, y1, y2, y3⟩ := fromRaw_ok hf t (by omega)
  have hpos : t = lbaOf f.layout y * 512 + t % 512 := by omega
  -- reading sector `y` in after the commit
  have load : ∀ v1 : View, W v1.disk F.data → v1.fmt = f → v1.spt = f.layout.s → v1.size = 512 →
      v1.cur = ⟨y.c, y.h⟩ → ∃ v', v1.readSector nz y.s = (v', .ok ()) ∧ v'.dirty = false ∧
        VRel f W { v' with pos := t % 512 } ⟨F.data, t⟩ ⟨none, false⟩ := by
    intro v1 a1 a2 a3 a4 a5
    obtain ⟨v', e1, e2, _, e4⟩ := load_ok hW hf nz v1 F.data y a1 a2 a3 a4 y2 a5
    refine ⟨v', e1, e2, Or.inl ⟨y, F.data, ?_, by simp only [e2]; rfl⟩⟩
    have := e4 (t % 512) (by omega)
    rw [← hpos] at this
    exact this
  rcases h with ⟨x, img, h, hb⟩ | ⟨h, hb⟩
  · by_cases hxy : x = y
    · subst hxy
      refine ⟨{ v with pos := t % 512 }, ?_, hwr, Or.inl ⟨x, img, ?_, ?_⟩⟩
      · unfold View.seekOffset
        rw [h.fmt, y1]
        simp only
        rw [if_pos (by rw [h.cur, h.sid])]
      · exact ⟨h.w, h.fmt, h.spt, h.size, h.here, h.cur, h.sid, h.eod, by simp only; omega, hpos, h.buf, h.data, h.clean⟩
      · simp only [hb, y3]
        cases hv : v.dirty with
        | true => simp
        | false => simp
    · have hcond : ¬ ((⟨v.cur.c, v.cur.h, v.sid⟩ : Chs) = y) := by
        intro hc
        apply hxy
        rw [← hc, h.cur, h.sid]
      have hbook : (if b.dirty = some (t / 512) then b.dirty else none) = none := by
        rw [hb]
        simp only
        cases hv : v.dirty with
        | true =>
          simp only [if_true]
          rw [if_neg]
          intro hc
          injection hc with hc
          exact hxy (lbaOf_inj h.here y2 (by rw [hc, y3]))
        | false => simp
      rw [hbook]
      have hcommit : ∃ v1, { v with cur := ⟨y.c, y.h⟩ }.commit = (v1, .ok ()) ∧ W v1.disk F.data ∧ v1.fmt = f ∧
          v1.spt = f.layout.s ∧ v1.size = 512 ∧ v1.cur = ⟨y.c, y.h⟩ := by
        rcases Bool.eq_false_or_eq_true v.dirty with hv | hv
        rotate_left
        · refine ⟨{ v with cur := ⟨y.c, y.h⟩ }, ?_, ?_, h.fmt, h.spt, h.size, rfl⟩
          · unfold View.commit; simp only [hv, Bool.false_eq_true, if_false]
          · simp only; rw [h.clean hv]; exact h.w
        · have ht := hd (lbaOf f.layout x) (by rw [hb, hv]; rfl)
          rw [← y3] at ht
          obtain ⟨c1, c2⟩ := track_of_lba y2 h.here ht
          have hv1 : ({ v with cur := ⟨y.c, y.h⟩ } : View) = v := by
            rw [c1, c2, ← h.cur]
          rw [hv1]
          obtain ⟨v1, e1, e2, e3, e4⟩ := h.commit hW hwr
          refine ⟨v1, e1, e4, ?_, ?_, ?_, ?_⟩
          · rw [e3]; exact h.fmt
          · rw [e3]; exact h.spt
          · rw [e3]; exact h.size
          · rw [e3]; simp only; rw [h.cur, c1, c2]
      obtain ⟨v1, k1, k2, k3, k4, k5, k6⟩ := hcommit
      obtain ⟨v', l1, l2, l3⟩ := load { v1 with sid := y.s } k2 k3 k4 k5 k6
      refine ⟨{ v' with pos := t % 512 }, ?_, by simp only [l2]; intro hc; simp at hc, l3⟩
      unfold View.seekOffset
      rw [h.fmt, y1]
      simp only
      rw [if_neg hcond]
      simp only [h.fmt] at k1
      simp only [k1, l1]
  · obtain ⟨g1, g2, g3, g4, g5, g6, g7⟩ := pc_layout f hf
    have he := he (by rw [hb])
    have hcond : ¬ ((⟨v.cur.c, v.cur.h, v.sid⟩ : Chs) = y) := by
      intro hc
      apply he
      rw [← y3, ← hc, h.cur, h.sid, hlen, g3]
      unfold lbaOf sectorCount
      simp only [g1, Nat.sub_self, Nat.add_zero]
      rw [Nat.mul_div_cancel _ (by omega)]
      rcases g7 with g7 | g7 <;> rw [g7]
      · simp only [Nat.sub_self, Nat.zero_mul, Nat.add_zero, Nat.one_mul, Nat.mul_one]
        rw [Nat.sub_mul, Nat.one_mul]
        have := Nat.le_mul_of_pos_left f.layout.s g4
        omega
      · simp only [Nat.add_one_sub_one, Nat.one_mul]
        rw [Nat.sub_mul, Nat.one_mul, Nat.mul_assoc]
        have := Nat.le_mul_of_pos_left (2 * f.layout.s) g4
        omega
    rw [hb]
    simp only
    obtain ⟨v', l1, l2, l3⟩ := load { { v with cur := ⟨y.c, y.h⟩ } with sid := y.s } h.w h.fmt h.spt h.size rfl
    refine ⟨{ v' with pos := t % 512 }, ?_, by simp only [l2]; intro hc; simp at hc, by simpa using l3⟩
    unfold View.seekOffset
    rw [h.fmt, y1]
    simp only
    rw [if_neg hcond]
    have hk : ({ v with cur := ⟨y.c, y.h⟩ } : View).commit = ({ v with cur := ⟨y.c, y.h⟩ }, .ok ()) := by
      unfold View.commit; simp only [h.dirty, Bool.false_eq_true, if_false]
    simp only [h.fmt] at hk l1
    simp only [hk, l1]

/-- The seek calls. -/
theorem seek_ok (hW : Store f wr W) (hf : f.isPc = true) (nz : Chs → Noise) (v : View) (F : FlatFile)
    (b : Book) (h : VRel f W v F b) (hwr : v.dirty = true → wr) (s : SeekFrom) (hc : Calm 512 f.layout.s F b (.seek nz s)) :
    ∃ v', v.seek nz s = (v', .ok (F.target s).toNat) ∧ (v'.dirty = true → wr) ∧
      VRel f W v' (F.step (.seek nz s)).1 (b.step 512 F (.seek nz s)) := by
  obtain ⟨c1, c2, c3, c4⟩ := hc
  have hlen := h.len hW hf
  obtain ⟨v', e1, e2, e3⟩ := seekOffset_ok hW hf nz v F b h hwr (F.target s).toNat (by omega) c3 (fun he => (c4 he).2)
  refine ⟨v', ?_, e2, ?_⟩
  · rw [← e1]
    unfold View.seek
    congr 1
    have hfmt : v.fmt = f := by
      rcases h with ⟨x, img, h, _⟩ | ⟨h, _⟩
      · exact h.fmt
      · exact h.fmt
    cases s with
    | start n => simp [FlatFile.target]
    | fin i => simp only [FlatFile.target]; rw [hfmt, hlen]
    | cur i =>
      simp only [FlatFile.target]
      have : v.offset = F.pos := by
        rcases h with ⟨x, img, h, hb⟩ | ⟨h, hb⟩
        · unfold View.offset
          have hx : (⟨v.cur.c, v.cur.h, v.sid⟩ : Chs) = x := by rw [h.cur, h.sid]
          rw [hx, h.fmt, toRaw_ok hf h.here, h.fpos]; rfl
        · exact absurd rfl ((c4 (by rw [hb])).1 i)
      rw [this]
  · simp only [FlatFile.step, Book.step]
    rw [if_neg (by omega)]
    exact e3

/-- Whether a history writes. -/
def noWrites : List IoOp → Prop
  | [] => True
  | .write _ _ :: _ => False
  | _ :: ops => noWrites ops

theorem run_ok (hW : Store f wr W) (hf : f.isPc = true) : ∀ (ops : List IoOp) (v : View) (F : FlatFile) (b : Book),
    VRel f W v F b → (v.dirty = true → wr) → (wr ∨ noWrites ops) → CalmRun 512 f.layout.s F b ops →
    (viewRun v ops).2 = (F.run ops).2 ∧ VRel f W (viewRun v ops).1 (F.run ops).1 (Book.run 512 F b ops)
  | [], v, F, b, h, _, _, _ => ⟨rfl, h⟩
  | op :: ops, v, F, b, h, hd, hw, hc => by
    obtain ⟨c1, c2⟩ := hc
    have hw' : wr ∨ noWrites ops := by
      rcases hw with hw | hw
      · exact Or.inl hw
      · cases op with
        | write nz buf => exact absurd hw (by simp [noWrites])
        | _ => exact Or.inr hw
    have key : (viewStep v op).2 = (F.step op).2 ∧ VRel f W (viewStep v op).1 (F.step op).1 (b.step 512 F op) ∧
        ((viewStep v op).1.dirty = true → wr) := by
      cases op with
      | seek nz s =>
        obtain ⟨v', e1, e2, e3⟩ := seek_ok hW hf nz v F b h hd s c1
        simp only [viewStep, e1]
        refine ⟨?_, e3, e2⟩
        simp only [FlatFile.step]
        rw [if_neg (by have := c1.1; omega)]
      | read nz n =>
        obtain ⟨v', e1, e2, e3⟩ := read_ok hW hf nz n v F b h c1
        simp only [viewStep, e1]
        exact ⟨rfl, e3, by rw [e2]; exact hd⟩
      | write nz buf =>
        obtain ⟨v', e1, e2⟩ := write_ok hW hf nz buf v F b h c1
        simp only [viewStep, e1]
        refine ⟨rfl, e2, fun _ => ?_⟩
        rcases hw with hw | hw
        · exact hw
        · exact absurd hw (by simp [noWrites])
      | flush =>
        obtain ⟨v', e1, e2, e3⟩ := flush_ok hW hf v F b h hd
        simp only [viewStep, e1]
        exact ⟨rfl, e3, by rw [e2]; intro hx; simp at hx⟩
    obtain ⟨k1, k2, k3⟩ := key
    obtain ⟨r1, r2⟩ := run_ok hW hf ops _ _ _ k2 k3 hw' c2
    refine ⟨?_, r2⟩
    show (viewStep v op).2 :: (viewRun (viewStep v op).1 ops).2 = (F.step op).2 :: (FlatFile.run (F.step op).1 ops).2
    rw [k1, r1]

theorem new_ok (hW : Store f wr W) (hf : f.isPc = true) (nz : Chs → Noise) (d : Disk) (img : List Byte) (h : W d img) :
    ∃ v, View.new nz d f = .ok v ∧ v.dirty = false ∧ v.disk = d ∧ VRel f W v ⟨img, 0⟩ ⟨none, false⟩ := by
  obtain ⟨g1, g2, g3, g4, g5, g6, g7⟩ := pc_layout f hf
  have hx : InLayout f.layout ⟨0, 0, 1⟩ := ⟨g4, g5, by simp only; omega, by simp only; omega⟩
  have hl : lbaOf f.layout ⟨0, 0, 1⟩ = 0 := by unfold lbaOf; simp only [g1, Nat.zero_mul, Nat.sub_self]
  obtain ⟨v', e1, e2, e3, e4⟩ := load_ok hW hf nz
    ⟨d, f, ⟨0, 0⟩, 1, f.layout.s, List.replicate f.layout.size 0, f.layout.size, false, 0, false⟩ img ⟨0, 0, 1⟩
    h rfl rfl g2 hx rfl
  refine ⟨v', ?_, e2, ?_, Or.inl ⟨⟨0, 0, 1⟩, img, ?_, by rw [e2]; rfl⟩⟩
  · unfold View.new; rw [e1]
  · unfold View.readSector at e1
    simp only at e1
    split at e1
    · simp at e1
    · injection e1 with e1 _
      rw [← e1]
  · have := e4 0 (by omega)
    have hv : ({ v' with pos := 0 } : View) = v' := by rw [← e3]
    rw [hv, hl] at this
    exact this

/-! ### The two stores -/

/-- Any disk whose sectors read as an image can be viewed. -/
theorem store_reads :
    Store f False (fun d img => SectorsAre f.layout d img ∧ img.length = f.diskSize) :=
  ⟨fun _ _ h => h.1, fun _ _ h => h.2, fun h => h.elim⟩

theorem lookup_update_ne (a b : Chsn) (hab : a ≠ b) (buf : List Byte) : ∀ m : SectorMap,
    (m.update (.ofChsn a) buf).lookup (.ofChsn b) = m.lookup (.ofChsn b)
  | [] => rfl
  | e :: m => by
    unfold SectorMap.update
    by_cases h1 : agrees (.ofChsn a) e.1
    · rw [if_pos h1]
      have : a = e.1 := (agrees_ofChsn _ _).1 h1
      unfold SectorMap.lookup
      have h2 : ¬ agrees (.ofChsn b) e.1 := by
        rw [agrees_ofChsn, ← this]; exact fun hh => hab hh.symm
      rw [if_neg h2, if_neg h2]
    · rw [if_neg h1]
      unfold SectorMap.lookup
      rw [lookup_update_ne a b hab buf m]

theorem lookup_update_eq (q : Query) (buf : List Byte) : ∀ (m : SectorMap) (l : List Byte), m.lookup q = some l →
    (m.update q buf).lookup q = some buf
  | [], l, h => by simp [SectorMap.lookup] at h
  | e :: m, l, h => by
    unfold SectorMap.lookup at h
    unfold SectorMap.update
    by_cases h1 : agrees q e.1
    · rw [if_pos h1]
      unfold SectorMap.lookup
      rw [if_pos h1]
    · rw [if_neg h1] at h
      rw [if_neg h1]
      unfold SectorMap.lookup
      rw [if_neg h1]
      exact lookup_update_eq q buf m l h

/-- A disk that refines a map holding an image. -/
def MapHolds (f : StdFormat) (d : Disk) (img : List Byte) : Prop :=
  img.length = f.diskSize ∧ ∃ M, DiskRel true d M ∧ ∀ x, InLayout f.layout x → ∃ m, M ⟨x.c, x.h⟩ = some m ∧
    m.lookup (.ofChsn ⟨x.c, x.h, x.s, f.layout.n⟩) = some (slice img (lbaOf f.layout x * 512) 512)

theorem store_map (hf : f.isPc = true) : Store f True (MapHolds f) := by
  obtain ⟨g1, g2, g3, g4, g5, g6, g7⟩ := pc_layout f hf
  refine ⟨?_, fun _ _ h => h.1, ?_⟩
  · rintro d img ⟨hl, M, hM, h⟩ x nz hx
    obtain ⟨m, m1, m2⟩ := h x hx
    rw [hM.readBasic, m1]
    simp only [m2]
    unfold fileSector
    rw [g2]
  · rintro _ d img x buf ⟨hl, M, hM, h⟩ hx hb
    obtain ⟨m, m1, m2⟩ := h x hx
    have hfit := lba_fits hf hx
    have hlen := slice_len img (lbaOf f.layout x * 512) 512 (by omega)
    obtain ⟨s1, s2⟩ := hM.step (.write ⟨x.c, x.h⟩ (.ofChsn ⟨x.c, x.h, x.s, f.layout.n⟩) buf)
    simp only [basicStep, DiskMap.step, m1, m2] at s1 s2
    rw [if_neg (by rw [hb, hlen]; simp)] at s1 s2
    rcases hw : d.writeBasic ⟨x.c, x.h⟩ (.ofChsn ⟨x.c, x.h, x.s, f.layout.n⟩) none buf with ⟨d', r⟩
    rw [hw] at s1 s2
    simp only at s1 s2
    refine ⟨d', ?_, by rw [overwrite_length _ _ _ (by rw [hb]; omega)]; exact hl, _, s1, ?_⟩
    · congr 1
      unfold seenBasicWrite at s2
      cases r with
      | ok u => rfl
      | error e => cases e <;> simp at s2
    · intro y hy
      obtain ⟨m', k1, k2⟩ := h y hy
      by_cases ht : (⟨y.c, y.h⟩ : Ch) = ⟨x.c, x.h⟩
      · simp only [Ch.mk.injEq] at ht
        refine ⟨_, if_pos (by rw [ht.1, ht.2]), ?_⟩
        have hm : m' = m := by
          rw [ht.1, ht.2, m1] at k1
          injection k1 with k1; exact k1.symm
        by_cases hs : y.s = x.s
        · have hyx : y = x := by cases x; cases y; simp_all
          rw [hyx, lookup_update_eq _ _ _ _ m2]
          have := slice_overwrite_same img (lbaOf f.layout x * 512) buf (by rw [hb]; omega)
          rw [hb] at this
          rw [this]
        · rw [lookup_update_ne _ _ (by simp only [ne_eq, Chsn.mk.injEq]; omega), ← hm, k2]
          have hne : lbaOf f.layout y ≠ lbaOf f.layout x := fun he => hs (by rw [lbaOf_inj hy hx he])
          rw [slice_overwrite_other _ _ _ (by rw [hb]; omega) _ _ (by rw [hb]; omega)]
      · refine ⟨m', by rw [if_neg ht]; exact k1, ?_⟩
        have hne : lbaOf f.layout y ≠ lbaOf f.layout x := fun he => ht (by rw [lbaOf_inj hy hx he])
        rw [k2, slice_overwrite_other _ _ _ (by rw [hb]; omega) _ _ (by rw [hb]; omega)]

/-- Writing on past the end of a sector. -/
theorem write_append (nz : Chs → Noise) : ∀ (l m : List Byte) (v : View), v.eod = false →
    v.pos + l.length ≤ v.buf.length →
    v.write nz (l ++ m) = match (wrote v l).write nz m with
      | (v', .error e) => (v', .error e)
      | (v', .ok n) => (v', .ok (n + l.length))
  | [], m, v, _, _ => by
    have : wrote v [] = v := by
      unfold wrote
      rw [overwrite_nil, List.length_nil, Nat.add_zero, List.isEmpty_nil, Bool.not_true, Bool.or_false]
    rw [this, List.nil_append]
    rcases View.write nz m v with ⟨v', e | n⟩ <;> rfl
  | c :: l, m, v, he, hl => by
    rw [List.length_cons] at hl
    have hp : v.pos < v.buf.length := by omega
    have ih := write_append nz l m { v with buf := v.buf.set v.pos c, pos := v.pos + 1, dirty := true } he
      (by simp only [List.length_set]; omega)
    have hw : wrote { v with buf := v.buf.set v.pos c, pos := v.pos + 1, dirty := true } l = wrote v (c :: l) := by
      unfold wrote
      simp only
      rw [overwrite_cons _ _ _ _ (by omega)]
      simp only [List.length_cons, List.isEmpty_cons, Bool.not_false, Bool.or_true, Bool.true_or]
      have : v.pos + 1 + l.length = v.pos + (l.length + 1) := by omega
      rw [this]
    rw [hw] at ih
    rw [List.cons_append]
    conv => lhs; unfold View.write View.fill
    rw [if_neg (by rw [he]; simp)]
    simp only [if_pos hp]
    rw [if_neg (by rw [he]; simp)]
    simp only [ih]
    rcases View.write nz m (wrote v (c :: l)) with ⟨v', e | n⟩
    · rfl
    · simp only [List.length_cons]; congr 2

end
end Fox
