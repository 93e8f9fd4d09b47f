import Verif.Props.CatalogScan
import Verif.Props.Pri
import Verif.Proofs.F86
import Verif.Proofs.F86File
import Verif.Props.Deleted
/-
C114: the index of a sector.  C117: the sector map.  C118: sector counts and ids.  C119: raw reads.  C120: weak bits.
-/
namespace Fox
open S34 Spec

/-! ## C114, the index of a sector -/

theorem sectorIndexLoop_spec (index k' : Nat) : ∀ (l : List Inst) (i k : Nat), i ≤ index →
    (sectorIndexLoop index i k l = some k' ↔
      ∃ x, l[index - i]? = some x ∧ x.elem.isData = true ∧ k' = k + (l.take (index - i)).countP (·.elem.isData))
  | [], i, k, _ => by simp [sectorIndexLoop]
  | x :: rest, i, k, h => by
    rw [sectorIndexLoop]
    by_cases hi : index = i
    · subst hi
      simp only [true_and, Nat.sub_self, List.getElem?_cons_zero, List.take_zero, List.countP_nil, Nat.add_zero]
      by_cases hd : x.elem.isData = true
      · rw [if_pos hd]
        constructor
        · intro h; injection h with h; exact ⟨x, rfl, hd, h.symm⟩
        · rintro ⟨y, -, -, rfl⟩; rfl
      · rw [if_neg hd]
        constructor
        · intro h
          have : ∀ (l : List Inst) (j k : Nat), index < j → sectorIndexLoop index j k l = none := by
            intro l
            induction l with
            | nil => intros; rfl
            | cons y l ih =>
              intro j k hj
              rw [sectorIndexLoop, if_neg (fun hh => by omega)]
              exact ih _ _ (by omega)
          rw [this rest _ _ (by omega)] at h
          cases h
        · rintro ⟨y, hy, hyd, -⟩
          injection hy with hy
          subst hy
          exact absurd hyd hd
    · rw [if_neg (fun hh => hi hh.1), sectorIndexLoop_spec index k' rest (i + 1) _ (by omega)]
      have e : index - i = (index - (i + 1)) + 1 := by omega
      rw [e, List.getElem?_cons_succ, List.take_succ_cons, List.countP_cons]
      have hc : ∀ m : Nat, (if x.elem.isData = true then k + 1 else k) + m = k + (m + if x.elem.isData = true then 1 else 0) := by
        intro m; split <;> omega
      simp only [hc]

theorem sectorList_length (t : Track) : t.sectorList.length = t.items.countP (·.elem.isData) := by
  unfold Track.sectorList
  generalize t.items = l
  induction l with
  | nil => rfl
  | cons y l ih =>
    rw [List.filterMap_cons, List.countP_cons]
    cases hy : y.elem <;> simp [Elem.isData, ih]

/-- **C114, the index of a sector**: on every track, `sector_index_from_element_index` gives an index exactly for the elements of sector data, and
it is the place of the sector in the sector list. -/
theorem C114_sector_index (t : Track) (i k : Nat) :
    (sectorIndex t.items i = some k ↔ ∃ x, t.items[i]? = some x ∧ x.elem.isData = true ∧ k = (t.items.take i).countP (·.elem.isData)) ∧
    (sectorIndex t.items i = some k → ∃ x c ae de del, t.items[i]? = some x ∧ x.elem = .data c ae de del ∧
      t.sectorList[k]? = some (c, ae, de, del)) := by
  have h1 : sectorIndex t.items i = some k ↔
      ∃ x, t.items[i]? = some x ∧ x.elem.isData = true ∧ k = (t.items.take i).countP (·.elem.isData) := by
    unfold sectorIndex
    split
    · next h =>
      constructor
      · intro h; cases h
      · rintro ⟨x, hx, -⟩
        rw [List.getElem?_eq_none (by omega)] at hx
        cases hx
    · rw [sectorIndexLoop_spec i k t.items 0 0 (by omega)]
      simp
  refine ⟨h1, fun h => ?_⟩
  obtain ⟨x, hx, hd, hk⟩ := h1.1 h
  cases he : x.elem with
  | marker m => rw [he] at hd; cases hd
  | header c ae m => rw [he] at hd; cases hd
  | data c ae de del =>
    refine ⟨x, c, ae, de, del, hx, he, ?_⟩
    have hsplit : t.items = t.items.take i ++ x :: t.items.drop (i + 1) := by
      obtain ⟨hlt, hxe⟩ := List.getElem?_eq_some_iff.1 hx
      rw [← hxe, List.getElem_cons_drop, List.take_append_drop]
    have hlen := sectorList_length { t with items := t.items.take i }
    unfold Track.sectorList at hlen ⊢
    replace hlen := hlen.trans hk.symm
    rw [hsplit, List.filterMap_append, List.getElem?_append_right (Nat.le_of_eq hlen), hlen, Nat.sub_self, List.filterMap_cons]
    simp only [he]
    rfl

/-! ## C117 -/

/-- The table entries name tracks of the pool. -/
def Backed (d : Disk) : Prop := ∀ i ∈ d.map0 ++ d.map1, i < d.pool.length

theorem mapM_ok {α β : Type} (f : α → Except Err β) (g : α → β) : ∀ l : List α, (∀ x ∈ l, f x = .ok (g x)) → l.mapM f = .ok (l.map g)
  | [], _ => rfl
  | x :: l, h => by
    rw [List.mapM_cons, h x (by simp), mapM_ok f g l fun y hy => h y (by simp [hy])]
    rfl

theorem headMap_backed {d : Disk} (h : Backed d) (k : Nat) : ∀ i ∈ d.headMap k, i < d.pool.length := by
  intro i hi
  unfold Disk.headMap at hi
  split at hi
  · exact h i (by simp [hi])
  · exact h i (by simp [hi])

theorem rows_ok (d : Disk) (h : Backed d) (k : Nat) :
    (d.headMap k).mapM (fun i => match d.pool[i]? with
      | none => (Except.error Err.panic : Except Err (List DiskTrack.Entry))
      | some t => .ok t.sectorList) = .ok ((d.headMap k).map fun i => ((d.pool[i]?).map (·.sectorList)).getD []) := by
  apply mapM_ok
  intro i hi
  have := headMap_backed h k i hi
  rw [List.getElem?_eq_getElem this]
  rfl

/-- **C117 (partial).** For every disk of at most two heads: the sector map has one part per head and in it one row per track, and the row of
the cylinder and head is the sector list of the track that reads and writes go to there. -/
theorem C117_map_partial (d : Disk) (hb : Backed d) (hg : d.geometry.h ≤ 2) :
    ∃ m, d.sectorMap = .ok m ∧ m.length = d.geometry.h ∧
      (∀ h row, m[h]? = some row → row.length = (d.headMap h).length) ∧
      ∀ ch i t, ch.h < d.geometry.h → d.seek ch = .ok (i, t) → ∃ row, m[ch.h]? = some row ∧ row[ch.c]? = some t.sectorList := by
  have hm : d.sectorMap = .ok ((List.range d.geometry.h).map fun h => (d.headMap h).map fun i => ((d.pool[i]?).map (·.sectorList)).getD []) := by
    unfold Disk.sectorMap
    apply mapM_ok
    intro h hh
    rw [List.mem_range] at hh
    rw [if_neg (by omega)]
    exact rows_ok d hb h
  refine ⟨_, hm, by simp, ?_, ?_⟩
  · intro h row hr
    rw [List.getElem?_map] at hr
    by_cases hh : h < d.geometry.h
    · rw [List.getElem?_range hh] at hr
      cases hr
      simp
    · rw [List.getElem?_eq_none (by simpa using hh)] at hr
      cases hr
  · intro ch i t hh hs
    refine ⟨_, by rw [List.getElem?_map, List.getElem?_range hh]; rfl, ?_⟩
    unfold Disk.seek at hs
    split at hs
    · cases hs
    · cases hc : (d.headMap ch.h)[ch.c]? with
      | none => simp only [hc] at hs; cases hs
      | some j =>
        simp only [hc] at hs
        cases hp : d.pool[j]? with
        | none => simp only [hp] at hs; cases hs
        | some u =>
          simp only [hp] at hs
          cases hs
          rw [List.getElem?_map, hc, Option.map_some, hp]
          rfl

/-- **C117, the rows**: the sector list of a list of sectors is those sectors with their marks; that of a well-formed track of cells is its
sectors with theirs. -/
theorem C117_rows (ch : Ch) :
    (∀ m : MetaTrack, (DiskTrack.sect m).sectorList.map (·.id) = m.sectors.map (·.id) ∧
      ∀ (k : Nat) (s : MetaSector), m.sectors[k]? = some s → (DiskTrack.sect m).sectorList[k]? = some ⟨s.id, s.addressError, s.dataError, s.deletedMark, false⟩) ∧
    (∀ t iam secs, TrackOk t iam secs →
      (DiskTrack.bit ch t).sectorList = secs.map (fun x => ⟨x.id, false, x.de, x.del, false⟩) ∧
      (DiskTrack.flux ch (some t)).sectorList = secs.map (fun x => ⟨x.id, false, x.de, x.del, false⟩)) := by
  refine ⟨fun m => ⟨?_, ?_⟩, fun t iam secs h => ?_⟩
  · simp [DiskTrack.sectorList]
  · intro k s hk
    simp [DiskTrack.sectorList, hk]
  · have : t.sectorList.map (fun x => (⟨x.1, x.2.1, x.2.2.1, x.2.2.2, false⟩ : DiskTrack.Entry)) =
        secs.map fun x => ⟨x.id, false, x.de, x.del, false⟩ := by
      rw [h.catalogue.2.2, List.map_map]
      rfl
    exact ⟨this, this⟩

/-- **C117 fails** with a panic if the geometry tells of more than two heads, as HFE, MFM, TeleDisk, SuperCard Pro, IPF and other files may
say in their headers. -/
theorem C117_false_heads (d : Disk) (hb : Backed d) (hg : 2 < d.geometry.h) : d.sectorMap = .error .panic := by
  have key : ∀ l : List Nat, (∃ h ∈ l, h ≥ 2) → l.mapM (fun h =>
      if h ≥ 2 then (Except.error Err.panic : Except Err (List (List DiskTrack.Entry)))
      else (d.headMap h).mapM fun i => match d.pool[i]? with
        | none => .error .panic
        | some t => .ok t.sectorList) = .error .panic := by
    intro l
    induction l with
    | nil => rintro ⟨h, hh, -⟩; cases hh
    | cons x l ih =>
      rintro ⟨h, hh, h2⟩
      rw [List.mapM_cons]
      by_cases hx : x ≥ 2
      · rw [if_pos hx]; rfl
      · rw [if_neg hx, rows_ok d hb x]
        rcases List.mem_cons.1 hh with rfl | hh
        · exact absurd h2 hx
        · rw [ih ⟨h, hh, h2⟩]; rfl
  exact key _ ⟨2, List.mem_range.2 hg, Nat.le_refl _⟩

/-- **C117 fails** for tracks on heads the geometry does not tell of: the map is the same whatever they are. -/
theorem C117_false_unlisted (d : Disk) (hb : Backed d) (hg : d.geometry.h ≤ 2) (m : List (List (List DiskTrack.Entry))) (h : d.sectorMap = .ok m)
    (ch : Ch) (hc : d.geometry.h ≤ ch.h) : m[ch.h]? = none := by
  obtain ⟨m', h', hl, -⟩ := C117_map_partial d hb hg
  rw [h] at h'
  cases h'
  exact List.getElem?_eq_none (by omega)

/-- An image made with `create` and two tracks: they can be read, and the map is empty. -/
example : ∃ d, diskAfter {} [.addMeta ⟨0, 0⟩, .addMeta ⟨0, 1⟩] = d ∧ Backed d ∧ d.map0.length = 1 ∧ d.map1.length = 1 ∧
    d.sectorMap.toOption = some [] := ⟨_, rfl, by unfold Backed; decide, by decide, by decide, by decide⟩

/-- Two heads, three tracks. -/
example : ∃ d : Disk, Backed d ∧ d.geometry.h = 2 ∧ d.sectorMap.toOption = some [[[⟨⟨0, 0, 1, 2⟩, false, false, false, false⟩], []],
    [[⟨⟨0, 1, 9, 2⟩, false, false, false, false⟩]]] :=
  ⟨{ pool := [.sect ⟨⟨0, 0⟩, [{ bareSector with id := ⟨0, 0, 1, 2⟩ }]⟩, .sect ⟨⟨0, 1⟩, [{ bareSector with id := ⟨0, 1, 9, 2⟩ }]⟩, .sect ⟨⟨1, 0⟩, []⟩],
     map0 := [0, 2], map1 := [1], geometry := ⟨2, 2⟩ }, by unfold Backed; decide, rfl, by decide⟩

/-! ## C118 -/

/-- A list of sectors. -/
def isList : DiskTrack → Bool
  | .sect _ => true
  | _ => false

/-- **C118, the sector list**: on every catalogue the library makes, it has exactly the sectors whose header is followed by data, in order and
with the address mark of the header; the sector count counts the headers, with or without data. -/
theorem C118_list (t : Track) (h : Paired t.items) :
    t.sectorList.map (fun e => (e.1, e.2.1)) =
      t.items.filterMap (fun x => match x.elem with | .header c ae false => some (c, ae) | _ => none) ∧
    t.sectorIds.length = t.sectorList.length + t.items.countP (fun x => match x.elem with | .header _ _ true => true | _ => false) := by
  unfold Track.sectorList Track.sectorIds
  generalize t.items = l at h
  induction h with
  | nil => exact ⟨rfl, rfl⟩
  | marker h _ ih => simpa [h] using ih
  | orphan h _ ih =>
    obtain ⟨i1, i2⟩ := ih
    simp only [List.filterMap_cons, List.countP_cons, h, List.length_cons, if_true]
    exact ⟨i1, by omega⟩
  | sector hx hy h _ ih =>
    obtain ⟨i1, i2⟩ := ih
    simp only [List.filterMap_cons, List.countP_cons, hx, hy, List.length_cons, List.map_cons, Bool.false_eq_true, if_false]
    exact ⟨by rw [i1], by omega⟩

theorem markLast_chsn : ∀ l : List Inst, ∀ x ∈ markLast l, ∃ y ∈ l, y.elem = x.elem ∧ y.chsn = x.chsn
  | [], x, h => by simp [markLast] at h
  | [a], x, h => by simp [markLast] at h; subst h; exact ⟨a, by simp⟩
  | a :: b :: l, x, h => by
    rw [markLast] at h
    rcases List.mem_cons.1 h with rfl | h
    · exact ⟨x, by simp⟩
    · obtain ⟨y, hy, e⟩ := markLast_chsn (b :: l) x h
      exact ⟨y, List.mem_cons_of_mem _ hy, e⟩

theorem bitHas_ok {t : Track} {iam : Option Nat} {secs : List Sec} (h : TrackOk t iam secs) (sid : Nat) :
    DiskTrack.bitHas t sid = true ↔ ∃ x ∈ secs, x.id.s = sid := by
  unfold DiskTrack.bitHas
  rw [List.any_eq_true, h.items]
  unfold itemsOf
  constructor
  · rintro ⟨x, hx, hm⟩
    obtain ⟨y, hy, e1, e2⟩ := markLast_chsn _ x hx
    rw [← e1, ← e2] at hm
    rcases List.mem_append.1 hy with hy | hy
    · cases iam with
      | none => cases hy
      | some o =>
        simp only [Option.toList_some, List.map_cons, List.map_nil, List.mem_singleton] at hy
        subst hy
        cases hm
    · obtain ⟨z, hz, hy⟩ := List.mem_flatMap.1 hy
      unfold secItems at hy
      simp only [List.mem_cons, List.not_mem_nil, or_false] at hy
      rcases hy with rfl | rfl | rfl | rfl
      · exact ⟨z, hz, by simpa using hm⟩
      · cases hm
      · cases hm
      · cases hd : z.del <;> simp only [hd, dataMark] at hm <;> cases hm
  · rintro ⟨z, hz, rfl⟩
    have hmem : ({ elem := .marker .idam, start := 16 * z.io, stop := 16 * z.io + 64, chsn := some z.id } : Inst) ∈ secs.flatMap secItems :=
      List.mem_flatMap.2 ⟨z, hz, by unfold secItems; exact List.mem_cons_self⟩
    obtain ⟨b, hb⟩ := markLast_start _ _ (List.mem_append_right
      (iam.toList.map (fun o => ({ elem := .marker .iam, start := 16 * o, stop := 16 * o + 64, chsn := some ⟨0, 0, 0, 0⟩ } : Inst))) hmem)
    exact ⟨_, hb, by simp⟩

/-- **C118 (partial), ids.** On a list of sectors `has_sector_id` is as documented: with a full id exactly if a sector has it, else exactly if
one has the number; on a well-formed track of cells, exactly if a sector has the number.  Missing: the full id there. -/
theorem C118_has_partial (sid : Nat) :
    (∀ (m : MetaTrack) (c : Chsn), ((DiskTrack.sect m).hasSectorId sid (some c) = true ↔ ∃ s ∈ m.sectors, s.id = c) ∧
      ((DiskTrack.sect m).hasSectorId sid none = true ↔ ∃ s ∈ m.sectors, s.id.s = sid)) ∧
    (∀ ch t iam secs, TrackOk t iam secs → ((DiskTrack.bit ch t).hasSectorId sid none = true ↔ ∃ x ∈ secs, x.id.s = sid) ∧
      ((DiskTrack.flux ch (some t)).hasSectorId sid none = true ↔ ∃ x ∈ secs, x.id.s = sid)) := by
  refine ⟨fun m c => ⟨?_, ?_⟩, fun ch t iam secs h => ⟨bitHas_ok h sid, bitHas_ok h sid⟩⟩
  · simp [DiskTrack.hasSectorId]
  · simp [DiskTrack.hasSectorId]

/-- **C118 fails** for full ids on tracks of cells or flux: the full id is ignored, not the number. -/
theorem C118_false_full (x : DiskTrack) (h : isList x = false) (sid : Nat) (c : Chsn) :
    x.hasSectorId sid (some c) = x.hasSectorId sid none := by
  cases x with
  | sect t => cases h
  | bit _ _ => rfl
  | flux _ o => cases o <;> rfl
  | other _ => rfl

/-- So on every well-formed track of cells with sectors, ids are said to be there that are not, whatever the sector number in them. -/
theorem C118_false_there (ch : Ch) (t : Track) (iam : Option Nat) (secs : List Sec) (h : TrackOk t iam secs) (x : Sec) (hx : x ∈ secs) (c : Chsn) :
    (DiskTrack.bit ch t).hasSectorId x.id.s (some c) = true := by
  rw [C118_false_full _ rfl]
  exact ((C118_has_partial x.id.s).2 ch t iam secs h).1.2 ⟨x, hx, rfl⟩

/-- Such a track, with one sector of cylinder 0: it is said to have the id 9/9/9/9. -/
example : ∃ t, TrackOk t none [exDeleted] ∧ (DiskTrack.bit ⟨0, 0⟩ t).hasSectorId 1 (some ⟨9, 9, 9, 9⟩) = true ∧
    (DiskTrack.bit ⟨0, 0⟩ t).sectorList.length = 1 ∧ ∃ x n, itemAt t.items (16 * exDeleted.io + 3) = some (x, n) := by
  obtain ⟨t, h, -⟩ := exDeleted_ok
  obtain ⟨x, n, -, hx, -⟩ := C114_false_innermost h exDeleted (by simp) 3 (by decide)
  exact ⟨t, h, C118_false_there _ t none _ h exDeleted (by simp) _, by rw [((C117_rows ⟨0, 0⟩).2 t none _ h).1]; rfl, x, n, hx⟩

/-- **C118 fails** for tracks with deleted data: `TrackMetadata::sector_ct` counts the marks of normal data only, so on a well-formed track it
is the number of sectors that are not deleted (modulo 256, and a panic with overflow checks). -/
theorem C118_false_deleted (t : Track) (iam : Option Nat) (secs : List Sec) (h : TrackOk t iam secs) :
    dataMarkerCt false t.items = .ok (secs.countP (fun x => !x.del) % 256) ∧
    (256 ≤ secs.countP (fun x => !x.del) → dataMarkerCt true t.items = .error .panic) := by
  have hl : (t.items.filter (·.elem.isDataMarker)).length = secs.countP (fun x => !x.del) := by
    rw [← List.countP_eq_length_filter, h.items]
    have hmark : ∀ l : List Inst, (markLast l).countP (·.elem.isDataMarker) = l.countP (·.elem.isDataMarker) := by
      intro l
      induction l with
      | nil => rfl
      | cons a l ih =>
        cases l with
        | nil => simp [markLast, List.countP_cons]
        | cons b l => rw [markLast, List.countP_cons, ih, ← List.countP_cons]
    have hsec : ∀ secs : List Sec, (secs.flatMap secItems).countP (·.elem.isDataMarker) = secs.countP (fun x => !x.del) := by
      intro secs
      induction secs with
      | nil => rfl
      | cons x rest ih =>
        rw [List.flatMap_cons, List.countP_append, ih, List.countP_cons]
        cases hd : x.del <;> simp [secItems, Elem.isDataMarker, hd, dataMark] <;> omega
    unfold itemsOf
    rw [hmark, List.countP_append, hsec]
    cases iam <;> simp [Elem.isDataMarker]
  unfold dataMarkerCt
  simp only [hl]
  exact ⟨by rw [if_neg (by simp)], fun h0 => by rw [if_pos ⟨trivial, h0⟩]⟩

/-! ## C119 -/

/-- The bits of bytes, highest first. -/
def bitAt (bs : List Byte) (i : Nat) : Bool := (bs.getD (i / 8) 0).getMsbD (i % 8)

/-- **C119 (partial).** A raw read of a track of cells gives its length in cells and exactly its cells, eight to a byte with the first in the
highest bit, and 0s after the last; lists of sectors and flux tracks not yet decoded are refused, as are places beyond the disk. -/
theorem C119_raw_partial (d : Disk) (ch : Ch) (over : Option Nat) :
    (∀ i c t, d.seek ch = .ok (i, c) → (∃ x, c = .bit x t ∨ c = .flux x (some t)) →
      ∃ bs, d.readTrackRaw ch over = .ok (bs, t.data.bits.bits.length) ∧ bs.length = (t.data.bits.bits.length + 7) / 8 ∧
        ∀ k, k < 8 * bs.length → bitAt bs k = t.data.bits.bits.getD k false) ∧
    (∀ i c, d.seek ch = .ok (i, c) → isList c = true → d.readTrackRaw ch over = .error .unsupported) ∧
    (∀ i x, d.seek ch = .ok (i, .flux x none) → d.readTrackRaw ch over = .error .schema) ∧
    (d.seek ch = .error .seek ↔ d.readTrackRaw ch over = .error .seek) := by
  have step : ∀ i c, d.seek ch = .ok (i, c) → d.readTrackRaw ch over = c.readRaw over := by
    intro i c hs
    unfold Disk.seek at hs
    unfold Disk.readTrackRaw
    split at hs
    · cases hs
    · next hh =>
      cases hc : (d.headMap ch.h)[ch.c]? with
      | none => simp only [hc] at hs; cases hs
      | some j =>
        have hlt := (List.getElem?_eq_some_iff.1 hc).1
        rw [if_neg (by omega)]
        simp only [hc] at hs ⊢
        cases hp : d.pool[j]? with
        | none => simp only [hp] at hs; cases hs
        | some u => simp only [hp] at hs ⊢; cases hs; rfl
  refine ⟨?_, ?_, ?_, ?_⟩
  · intro i c t hs hc
    rw [step i c hs]
    have : c.readRaw over = .ok (DiskTrack.packed t.data.bits.bits, t.data.bits.bits.length) := by
      rcases hc with ⟨x, rfl | rfl⟩ <;> rfl
    refine ⟨_, this, packed_length _, fun k hk => ?_⟩
    rw [packed_length] at hk
    exact dat_packed _ k hk
  · intro i c hs hc
    rw [step i c hs]
    cases c <;> first | (cases hc; done) | rfl
  · intro i x hs
    rw [step i _ hs]; rfl
  · constructor
    · intro hs
      unfold Disk.seek at hs
      unfold Disk.readTrackRaw
      split at hs
      · next hh => rw [if_pos (Or.inl hh)]
      · cases hc : (d.headMap ch.h)[ch.c]? with
        | none => rw [if_pos (Or.inr (List.getElem?_eq_none_iff.1 hc))]
        | some j =>
          simp only [hc] at hs
          cases hp : d.pool[j]? with
          | none => simp only [hp] at hs; cases hs
          | some u => simp only [hp] at hs; cases hs
    · intro hr
      cases hs : d.seek ch with
      | ok r =>
        rw [step r.1 r.2 hs] at hr
        cases hc : r.2 with
        | flux c o => rw [hc] at hr; cases o <;> cases hr
        | bit c t => rw [hc] at hr; cases hr
        | sect t => rw [hc] at hr; cases hr
        | other c => rw [hc] at hr; cases hr
      | error e =>
        unfold Disk.seek at hs
        unfold Disk.readTrackRaw at hr
        split at hs
        · exact hs.symm
        · next hh =>
          cases hc : (d.headMap ch.h)[ch.c]? with
          | none => simp only [hc] at hs; exact hs.symm
          | some j =>
            have hlt := (List.getElem?_eq_some_iff.1 hc).1
            rw [if_neg (by omega)] at hr
            simp only [hc] at hs hr
            cases hp : d.pool[j]? with
            | none => simp only [hp] at hr; cases hr
            | some u => simp only [hp] at hs; cases hs

/-- **C119 fails** for reads past the end: the argument changes nothing. -/
theorem C119_false_overdump (d : Disk) (ch : Ch) (over : Option Nat) : d.readTrackRaw ch over = d.readTrackRaw ch none := by
  unfold Disk.readTrackRaw
  split
  · rfl
  · split
    · rfl
    · split
      · rfl
      · next t _ =>
        cases t with
        | flux c o => cases o <;> rfl
        | bit _ _ => rfl
        | sect _ => rfl
        | other _ => rfl

/-- Ten cells are two bytes. -/
example (t : Track) (h : t.data.bits.bits = [true, false, false, false, false, false, true, true, false, true]) :
    ({ pool := [.bit ⟨0, 0⟩ t], map0 := [0] } : Disk).readTrackRaw ⟨0, 0⟩ (some 5) = .ok ([0x83#8, 0x40#8], 10) := by
  show DiskTrack.readRaw (.bit ⟨0, 0⟩ t) (some 5) = _
  unfold DiskTrack.readRaw
  simp only [h]
  rfl

/-! ## C120 -/

/-- The mask knows whether it has bits. -/
def Honest (m : MetaTrack) : Prop := ∀ s ∈ m.sectors, s.weak.hasBits = s.weak.mask.any (· != 0#8)

/-- **C120 (partial).** A list of sectors has weak bits exactly if a sector has bits set in its mask — on lists whose masks are honest, as
adding and writing sectors leaves them. -/
theorem C120_sectors_partial (m : MetaTrack) (h : Honest m) :
    ((DiskTrack.sect m).hasWeakBits = true ↔ ∃ s ∈ m.sectors, ∃ b ∈ s.weak.mask, b ≠ 0#8) ∧
    (∀ p m', m.addSector p = .ok m' → Honest m') ∧
    (∀ q buf del r, m.writeSector q buf del = .ok r → Honest r.2) := by
  refine ⟨?_, ?_, ?_⟩
  · show (m.sectors.any (·.weak.hasBits)) = true ↔ _
    rw [List.any_eq_true]
    constructor
    · rintro ⟨s, hs, hb⟩
      rw [h s hs, List.any_eq_true] at hb
      obtain ⟨b, hb, hn⟩ := hb
      exact ⟨s, hs, b, hb, by simpa using hn⟩
    · rintro ⟨s, hs, b, hb, hn⟩
      refine ⟨s, hs, ?_⟩
      rw [h s hs, List.any_eq_true]
      exact ⟨b, hb, by simpa using hn⟩
  · intro p m' hm
    unfold MetaTrack.addSector at hm
    split at hm
    · have upd : ∀ (l l' : List MetaSector), (∀ s ∈ l, s.weak.hasBits = s.weak.mask.any (· != 0#8)) →
          MetaTrack.updateFirst (fun s => s.id == p.id) (fun es =>
            if p.data = [] ∨ es.data = [] then (es.weak.orSlice []).map fun w => { es with weak := w } else .error .panic) l = .ok l' →
          ∀ s ∈ l', s.weak.hasBits = s.weak.mask.any (· != 0#8) := by
        intro l
        induction l with
        | nil => intro l' _ h1 s hs; rw [MetaTrack.updateFirst] at h1; cases h1; cases hs
        | cons x l ih =>
          intro l' hl h1
          rw [MetaTrack.updateFirst] at h1
          split at h1
          · split at h1
            · cases ho : x.weak.orSlice [] with
              | error e => rw [ho] at h1; cases h1
              | ok w =>
                rw [ho] at h1
                cases h1
                intro s hs
                rcases List.mem_cons.1 hs with rfl | hs
                · unfold MetaMask.orSlice at ho
                  rw [if_neg (by simp)] at ho
                  cases ho
                  rfl
                · exact hl s (by simp [hs])
            · cases h1
          · cases hu : MetaTrack.updateFirst (fun s => s.id == p.id) (fun es =>
                if p.data = [] ∨ es.data = [] then (es.weak.orSlice []).map fun w => { es with weak := w } else .error .panic) l with
            | error e => rw [hu] at h1; cases h1
            | ok l'' =>
              rw [hu] at h1
              cases h1
              intro s hs
              rcases List.mem_cons.1 hs with rfl | hs
              · exact hl s (by simp)
              · exact ih l'' (fun y hy => hl y (by simp [hy])) hu s hs
      cases hu : MetaTrack.updateFirst (fun s => s.id == p.id) (fun es =>
          if p.data = [] ∨ es.data = [] then (es.weak.orSlice []).map fun w => { es with weak := w } else .error .panic) m.sectors with
      | error e => rw [hu] at hm; cases hm
      | ok l' =>
        rw [hu] at hm
        cases hm
        exact upd _ _ h hu
    · cases hm
      intro s hs
      rcases List.mem_append.1 hs with hs | hs
      · exact h s hs
      · rw [List.mem_singleton.1 hs]
        unfold MetaTrack.newSector
        cases p.weakMask with
        | some w => rfl
        | none =>
          show false = (List.replicate _ 0#8).any _
          rw [eq_comm, List.any_eq_false]
          intro b hb
          rw [(List.mem_replicate.1 hb).2]
          simp
  · intro q buf del r hw
    unfold MetaTrack.writeSector at hw
    split at hw
    · cases hw; exact h
    · split at hw
      · cases hw
      · dsimp only at hw
        split at hw
        · cases hw; exact h
        · split at hw
          · cases hw
          · cases hw
            intro s hs
            obtain ⟨y, hy, rfl⟩ := List.mem_map.1 hs
            have := h y hy
            split
            · exact this
            · exact this
    · cases hw

/-- **C120 fails** for tracks of cells: every one (shorter than 2^64 - 1 cells) is said to have weak bits, whatever its mask and its cells, and so
is every disk with one. -/
theorem C120_false_always (ch : Ch) (t : Track) (h : t.data.bits.bits.length < 2 ^ 64 - 1) :
    (DiskTrack.bit ch t).hasWeakBits = true ∧ (DiskTrack.flux ch (some t)).hasWeakBits = true ∧
    ∀ d, Listed d (.bit ch t) → d.anyWeak = true := by
  have hb : t.data.hasWeakBits = true := by
    have := detect_le 6 t.data.bits.bits 0 0 0
    unfold Mfm.hasWeakBits
    rw [decide_eq_true_eq, Nat.mod_eq_of_lt (by omega)]
    omega
  refine ⟨hb, hb, ?_⟩
  rintro d ⟨i, hi, hp⟩
  unfold Disk.anyWeak
  rw [List.any_eq_true]
  exact ⟨.bit ch t, List.mem_filterMap.2 ⟨i, (mem_trackIdx d i).2 hi, hp⟩, hb⟩

/-- **C120, disks**: a disk of lists of sectors has weak bits exactly if one of its tracks does. -/
theorem C120_disk (d : Disk) : d.anyWeak = true ↔ ∃ t, Listed d t ∧ t.hasWeakBits = true := by
  unfold Disk.anyWeak
  rw [List.any_eq_true]
  constructor
  · rintro ⟨t, ht, hw⟩
    obtain ⟨i, hi, hp⟩ := List.mem_filterMap.1 ht
    exact ⟨t, ⟨i, (mem_trackIdx d i).1 hi, hp⟩, hw⟩
  · rintro ⟨t, ⟨i, hi, hp⟩, hw⟩
    exact ⟨t, List.mem_filterMap.2 ⟨i, (mem_trackIdx d i).2 hi, hp⟩, hw⟩

/-- A list with one weak sector, and one with none. -/
example : ∃ m m' : MetaTrack, Honest m ∧ Honest m' ∧ (DiskTrack.sect m).hasWeakBits = true ∧ (DiskTrack.sect m').hasWeakBits = false :=
  ⟨⟨⟨0, 0⟩, [MetaTrack.newSector { id := ⟨0, 0, 1, 0⟩, data := [1#8, 2#8], weakMask := some [0#8, 4#8] }]⟩,
   ⟨⟨0, 0⟩, [MetaTrack.newSector { id := ⟨0, 0, 1, 0⟩, data := [1#8, 2#8], weakMask := some [0#8, 0#8] }]⟩,
   by unfold Honest; decide, by unfold Honest; decide, by decide, by decide⟩

end Fox
