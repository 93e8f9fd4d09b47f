import Verif.Proofs.TrackMap
/-
C05, C06, C07, C08, C33: formatting, reading, writing and rescanning System34 MFM tracks.
-/
namespace Fox
open Fox.Spec Fox.S34

/-! ### A fresh track can be formatted -/

/-- Every empty track created by the library, whatever its length, with the System34 schema, meets the
conditions of the theorems below. -/
theorem emptyTrack_formattable (n : Nat) :
    ∃ t, Track.emptyTrack n = .ok t ∧ t.data.len = n ∧
      Formattable { t with schema := some .system34 } := by
  have hlen : (((List.range n).map fun i => i % 2 == 0).take n).length = n := by simp
  unfold Track.emptyTrack Mfm.new
  simp only [List.length_replicate, Option.getD_none, Nat.lt_irrefl, if_false]
  refine ⟨_, rfl, hlen, ⟨Or.inr ?_, rfl, ⟨?_, rfl, ?_⟩, rfl⟩⟩
  · intro b hb
    exact (List.mem_replicate.1 hb).2
  · rfl
  · show 16 * ((List.length _ + 15) / 16) ≤ (List.replicate _ _).length + 15
    rw [List.length_replicate]
    generalize hn : (((List.range n).map fun i => i % 2 == 0).take n).length = k
    show 16 * ((List.length (((List.range n).map fun i => i % 2 == 0).take n) + 15) / 16) ≤ k + 15
    omega

/-! ### Catalogue of a well-formed track -/

theorem filterMap_items {β : Type} (f : Elem → Option β) (g : Inst → Option β) (hg : ∀ x, g x = f x.elem)
    (hm : ∀ m, f (.marker m) = none) (iam : Option Nat) (secs : List Sec) :
    (itemsOf iam secs).filterMap g = secs.flatMap fun x =>
      (f (.header x.id false false)).toList ++ (f (.data x.id false x.de x.del)).toList := by
  have hfrom : ∀ secs : List Sec, (itemsFrom secs).filterMap g = secs.flatMap fun x =>
      (f (.header x.id false false)).toList ++ (f (.data x.id false x.de x.del)).toList := by
    intro secs
    induction secs with
    | nil => rfl
    | cons x rest ih =>
      rw [itemsFrom_cons, List.filterMap_append, ih, List.flatMap_cons]
      congr 1
      rw [List.filterMap_cons_none (by rw [hg]; exact hm _)]
      have hlast : List.filterMap g [lastItem x rest.isEmpty] = [] := by
        rw [List.filterMap_cons_none (by rw [hg]; exact hm _)]; rfl
      cases h1 : f (.header x.id false false) <;> cases h2 : f (.data x.id false x.de x.del) <;>
        simp [hg, h1, h2, hm, lastItem]
  rw [itemsOf_eq, List.filterMap_append, hfrom]
  cases iam with
  | none => rfl
  | some o =>
    show List.filterMap g [_] ++ _ = _
    rw [List.filterMap_cons_none (by rw [hg]; exact hm _)]; rfl

theorem flatMap_single {α β : Type} (f : α → β) : ∀ l : List α, l.flatMap (fun x => [f x]) = l.map f
  | [] => rfl
  | x :: l => by rw [List.flatMap_cons, flatMap_single f l]; rfl

theorem Spec.TrackOk.catalogue {t : Track} {iam : Option Nat} {secs : List Sec} (h : TrackOk t iam secs) :
    t.sectorIds = secs.map Sec.id ∧ t.validSectorIds = secs.map Sec.id ∧
    t.sectorList = secs.map fun x => (x.id, false, x.de, x.del) := by
  unfold Track.sectorIds Track.validSectorIds Track.sectorList
  rw [h.items]
  refine ⟨?_, ?_, ?_⟩
  · rw [filterMap_items (fun e => match e with | .header c _ _ => some c | _ => none) _
      (fun x => by cases x.elem <;> rfl) (fun _ => rfl)]
    exact flatMap_single _ _
  · rw [filterMap_items (fun e => match e with | .header c false _ => some c | _ => none) _
      (fun x => by cases x.elem <;> rfl) (fun _ => rfl)]
    exact flatMap_single _ _
  · rw [filterMap_items (fun e => match e with | .data c ae de del => some (c, ae, de, del) | _ => none) _
      (fun x => by cases x.elem <;> rfl) (fun _ => rfl)]
    exact flatMap_single (fun x : Sec => (x.id, false, x.de, x.del)) _

theorem layout_ids (std : Standard) (pat : List Byte) (gap3 : Nat) : ∀ (ids : List Chsn) (base off : Nat),
    (layout std pat gap3 base off ids).map Sec.id = ids.map onDisk
  | [], _, _ => rfl
  | x :: xs, base, off => by rw [layout, List.map_cons, layout_ids std pat gap3 xs]; rfl

theorem layout_list (std : Standard) (pat : List Byte) (gap3 : Nat) : ∀ (ids : List Chsn) (base off : Nat),
    ((layout std pat gap3 base off ids).map fun x => (x.id, false, x.de, x.del)) =
      ids.map fun x => (onDisk x, false, false, false)
  | [], _, _ => rfl
  | x :: xs, base, off => by rw [layout, List.map_cons, layout_list std pat gap3 xs]; rfl

theorem onDisk_eq {x : Chsn} (h : x.c < 256) : onDisk x = x := by
  unfold onDisk; rw [Nat.mod_eq_of_lt h]

/-! ## C05 -/

/-- **C05.** Formatting succeeds, a scan of the recorded cells finds exactly the marks of the layout
(one IDAM and one DAM per requested sector, in order, plus the index mark of the IBM standards) at the
layout positions, and the catalogue lists exactly the requested sectors, in order, with no address or
data error and no deleted mark.  The previous contents of the track are arbitrary. -/
theorem C05_format_discoverable (t : Track) (ht : Formattable t) (rnd : Nat → Bool) (std : Standard)
    (ids : List Chsn) (hid : ∀ x ∈ ids, x.WF ∧ x.c < 256) (pat : List Byte) (hp : pat ≠ []) (gap3 : Nat)
    (hf : Fits std gap3 ids t.data.len) :
    ∃ t', t.format rnd std ids pat gap3 = .ok t' ∧
      (scanMarkers t'.data).map (fun m => (m.kind, m.start)) =
        (marksOf (iamOf std) (formatted std pat gap3 ids)).map (fun x => (x.1, 16 * x.2)) ∧
      t'.sectorIds = ids ∧ t'.validSectorIds = ids ∧
      t'.sectorList = ids.map fun x => (x, false, false, false) := by
  obtain ⟨t', h1, h2, _⟩ := format_trackOk t rnd std ids pat gap3 hp ht (fun x hx => (hid x hx).1) hf
  obtain ⟨B, hs⟩ := h2.stream
  obtain ⟨c1, c2, c3⟩ := h2.catalogue
  have hids : ids.map onDisk = ids := by
    conv => rhs; rw [← List.map_id ids]
    exact List.map_congr_left fun x hx => onDisk_eq (hid x hx).2
  refine ⟨t', h1, ?_, ?_, ?_, ?_⟩
  · rw [hs.scanMarkers, List.map_map]; rfl
  · rw [c1]; unfold formatted; rw [layout_ids, hids]
  · rw [c2]; unfold formatted; rw [layout_ids, hids]
  · rw [c3]; unfold formatted; rw [layout_list]
    exact List.map_congr_left fun x hx => by rw [onDisk_eq (hid x hx).2]

/-- **C05, finding.** A requested sector with a cylinder number of 256 or more is not discoverable: the
header records only the low byte, and a read of the requested id reports not-found. -/
theorem C05_false_large_cylinder (t : Track) (ht : Formattable t) (rnd : Nat → Bool) (std : Standard)
    (ids : List Chsn) (hid : ∀ x ∈ ids, x.WF) (pat : List Byte) (hp : pat ≠ []) (gap3 : Nat)
    (hf : Fits std gap3 ids t.data.len) (x : Chsn) (hx : 256 ≤ x.c) :
    ∃ t', t.format rnd std ids pat gap3 = .ok t' ∧ x ∉ t'.sectorIds ∧
      ∀ rnd', ∃ r, t'.readSector rnd' (.ofChsn x) none none .dataOnly false = .ok r ∧
        r.notFound = true := by
  obtain ⟨t', h1, h2, _⟩ := format_trackOk t rnd std ids pat gap3 hp ht hid hf
  obtain ⟨c1, _, _⟩ := h2.catalogue
  have hlt : ∀ y ∈ formatted std pat gap3 ids, y.id.c < 256 := by
    intro y hy
    have : y.id ∈ (formatted std pat gap3 ids).map Sec.id := List.mem_map.2 ⟨y, hy, rfl⟩
    unfold formatted at this
    rw [layout_ids] at this
    obtain ⟨z, _, hz⟩ := List.mem_map.1 this
    rw [← hz]
    exact Nat.mod_lt _ (by decide)
  refine ⟨t', h1, ?_, ?_⟩
  · rw [c1]
    intro hmem
    obtain ⟨y, hy, rfl⟩ := List.mem_map.1 hmem
    have := hlt y hy
    omega
  · intro rnd'
    refine ⟨_, h2.readSector_none rnd' (.ofChsn x) none none .dataOnly ?_ false, rfl⟩
    intro y hy hh
    rw [hit_none] at hh
    have := hlt y hy
    simp [agrees, Query.ofChsn] at hh
    omega

/-! ## C06 -/

theorem layout_split (std : Standard) (pat : List Byte) (gap3 : Nat) (x : Chsn) (b : List Chsn) :
    ∀ (a : List Chsn) (base off : Nat), ∃ A y C, layout std pat gap3 base off (a ++ x :: b) = A ++ y :: C ∧
      A.map Sec.id = a.map onDisk ∧ y.id = onDisk x ∧
      y.data = fillBytes pat (off + (a.map Chsn.size).sum) x.size
  | [], base, off => ⟨[], _, _, by rw [List.nil_append, layout]; rfl, rfl, rfl, by simp⟩
  | z :: a, base, off => by
    obtain ⟨A, y, C, h1, h2, h3, h4⟩ := layout_split std pat gap3 x b a
      (base + sectorBytes std gap3 z) (off + z.size)
    refine ⟨_ :: A, y, C, by rw [List.cons_append, layout, h1, List.cons_append], ?_, h3, ?_⟩
    · rw [List.map_cons, List.map_cons, h2]
    · rw [h4, List.map_cons, List.sum_cons, Nat.add_assoc]

theorem agrees_ofChsn (x y : Chsn) : agrees (.ofChsn x) y = true ↔ x = y := by
  cases x; cases y
  simp [agrees, Query.ofChsn]
  constructor
  · rintro ⟨⟨⟨rfl, rfl⟩, rfl⟩, rfl⟩; simp
  · rintro ⟨rfl, rfl, rfl, rfl⟩; simp

/-- **C06.** After formatting with distinct ids, a read of any requested sector finds it and returns
exactly the part of the endlessly repeated fill pattern that begins where the previous sectors stopped,
with no flag raised and matching checksums. -/
theorem C06_fresh_read (t : Track) (ht : Formattable t) (rnd : Nat → Bool) (std : Standard)
    (a b : List Chsn) (x : Chsn) (hid : ∀ y ∈ a ++ x :: b, y.WF ∧ y.c < 256) (hd : (a ++ x :: b).Nodup)
    (pat : List Byte) (hp : pat ≠ []) (gap3 : Nat) (hf : Fits std gap3 (a ++ x :: b) t.data.len) :
    ∃ t', t.format rnd std (a ++ x :: b) pat gap3 = .ok t' ∧ ∀ rnd' debug,
      ∃ r, t'.readSector rnd' (.ofChsn x) none none .dataOnly debug = .ok r ∧ r.notFound = false ∧
        r.idChsn = some x ∧ cleanRead r = true ∧
        r.bytes = fillBytes pat ((a.map Chsn.size).sum) x.size := by
  obtain ⟨t', h1, h2, _⟩ := format_trackOk t rnd std _ pat gap3 hp ht (fun y hy => (hid y hy).1) hf
  refine ⟨t', h1, ?_⟩
  intro rnd' debug
  obtain ⟨A, y, C, e1, e2, e3, e4⟩ := layout_split std pat gap3 x b a (preBytes std) 0
  have hclean : y.del = false ∧ y.de = false ∧ y.crc = y.goodCrc := by
    obtain ⟨p, q, r, _⟩ := layout_del std pat gap3 (a ++ x :: b) (preBytes std) 0 y (by rw [e1]; simp)
    exact ⟨p, q, r⟩
  unfold formatted at h2
  rw [e1] at h2
  have hxy : y.id = x := by rw [e3]; exact onDisk_eq (hid x (by simp)).2
  have hA : ∀ z ∈ A, ¬ Hit (.ofChsn x) ((none : Option Nat).getD 0) z := by
    intro z hz
    rw [hit_none, agrees_ofChsn]
    intro hxz
    have hmem : z.id ∈ A.map Sec.id := List.mem_map.2 ⟨z, hz, rfl⟩
    rw [e2] at hmem
    obtain ⟨w, hw, hw2⟩ := List.mem_map.1 hmem
    rw [onDisk_eq (hid w (by simp [hw])).2] at hw2
    rw [List.nodup_append] at hd
    exact hd.2.2 w hw x (by simp) (by rw [hw2, hxz])
  refine ⟨readOk y, h2.readSector rnd' _ none hA ((hit_none _ _).2 ((agrees_ofChsn _ _).2 hxy.symm)) debug,
    rfl, ?_, ?_, ?_⟩
  · show some y.id = some x
    rw [hxy]
  · unfold cleanRead readOk
    simp [hclean.1, hclean.2.1, hclean.2.2]
  · rw [readOk_bytes, e4, Nat.zero_add]

/-! ## C08 and C07 -/

/-- **C08.** Every history of operations on a track — formats, reads, writes, rescans, in any order and
number — that begins with a format shows the user exactly what the map from sector ids to contents
shows. -/
theorem C08_track_is_map (t : Track) (ht : Formattable t) (rnd : Nat → Bool) (std : Standard)
    (ids : List Chsn) (pat : List Byte) (hp : pat ≠ []) (gap3 : Nat) (ops : List TrackOp)
    (hops : ∀ op ∈ TrackOp.format rnd std ids pat gap3 :: ops, op.Ok t.data.len) :
    trackRun t (.format rnd std ids pat gap3 :: ops) = mapRun [] (.format rnd std ids pat gap3 :: ops) := by
  obtain ⟨h1, h2⟩ := step_format (N := t.data.len) ht rfl rnd std ids pat gap3 (hops _ (by simp)) hp
  show _ :: _ = _ :: _
  rw [h2, run_map ops _ _ _ h1 (fun o ho => hops o (by simp [ho]))]
  simp only [mapStep, if_neg hp]
  unfold formatted
  rw [fresh_eq]

theorem lookup_update (q : Query) (buf : List Byte) : ∀ m : SectorMap,
    m.lookup q ≠ none → (m.update q buf).lookup q = some buf
  | [], h => absurd rfl h
  | e :: m, h => by
    unfold SectorMap.lookup at h
    unfold SectorMap.update
    by_cases he : agrees q e.1 = true
    · rw [if_pos he]; simp [SectorMap.lookup, he]
    · rw [if_neg he] at h ⊢
      simp only [SectorMap.lookup, if_neg he]
      exact lookup_update q buf m h

theorem rel_after {N : Nat} : ∀ (ops : List TrackOp) (t : Track) (iam : Option Nat) (secs : List Sec),
    Rel N t iam secs → (∀ op ∈ ops, op.Ok N) → ∃ iam' secs', Rel N (trackAfter t ops) iam' secs'
  | [], _, iam, secs, h, _ => ⟨iam, secs, h⟩
  | op :: ops, t, iam, secs, h, hops => by
    have : ∃ iam' secs', Rel N (trackStep t op).1 iam' secs' := by
      by_cases hk : op.KeepsLayout
      · obtain ⟨secs', h1, _⟩ := step_keeps h op hk
        exact ⟨iam, secs', h1⟩
      · cases op with
        | format rnd std ids pat gap3 =>
          by_cases hp : pat = []
          · have hf : t.format rnd std ids pat gap3 = .error .parameter := by
              unfold Track.format formatTrackAsBytes; rw [if_pos hp]
            exact ⟨iam, secs, by simp only [trackStep, hf]; exact h⟩
          · exact ⟨_, _, (step_format h.ok.formattable h.len rnd std ids pat gap3 (hops _ (by simp)) hp).1⟩
        | _ => exact absurd trivial hk
    obtain ⟨iam', secs', h1⟩ := this
    exact rel_after ops _ iam' secs' h1 (fun o ho => hops o (by simp [ho]))

/-- **C07.** After any history that begins with a format: a write that reports success makes the next
read with the same query return exactly the written bytes (clean, checksums equal); and a write succeeds
whenever the query finds a sector and the buffer has the sector's size. -/
theorem C07_read_after_write (t : Track) (ht : Formattable t) (rnd : Nat → Bool) (std : Standard)
    (ids : List Chsn) (pat : List Byte) (hp : pat ≠ []) (gap3 : Nat) (ops : List TrackOp)
    (hops : ∀ op ∈ TrackOp.format rnd std ids pat gap3 :: ops, op.Ok t.data.len) (q : Query)
    (buf : List Byte) (deleted debug : Bool) :
    let t' := trackAfter t (.format rnd std ids pat gap3 :: ops)
    ((trackStep t' (.write q buf deleted debug)).2 = .done → ∀ rnd' debug',
      (trackStep (trackStep t' (.write q buf deleted debug)).1 (.read rnd' q debug')).2 = .bytes buf) ∧
    (∀ rnd' old, (trackStep t' (.read rnd' q debug)).2 = .bytes old → buf.length = old.length →
      (trackStep t' (.write q buf false debug)).2 = .done) := by
  intro t'
  obtain ⟨h1, _⟩ := step_format (N := t.data.len) ht rfl rnd std ids pat gap3 (hops _ (by simp)) hp
  obtain ⟨iam, secs, hr⟩ := rel_after ops _ _ _ h1 (fun o ho => hops o (by simp [ho]))
  have hr' : Rel t.data.len t' iam secs := hr
  refine ⟨?_, ?_⟩
  · intro hw rnd' debug'
    obtain ⟨secs', g1, g2, g3, _⟩ := step_keeps hr' (.write q buf deleted debug) trivial
    obtain ⟨_, _, k2, _⟩ := step_keeps g1 (.read rnd' q debug') trivial
    rw [k2, g3]
    rw [g2] at hw
    cases hl : (toMap secs).lookup q with
    | none => simp [mapStep, hl] at hw
    | some old =>
      simp only [mapStep, hl] at hw ⊢
      split at hw
      · cases hw
      · rename_i hc
        simp only [if_neg hc]
        rw [lookup_update q buf _ (by rw [hl]; simp)]
  · intro rnd' old hrd hlen
    obtain ⟨_, _, g2, _⟩ := step_keeps hr' (.read rnd' q debug) trivial
    obtain ⟨_, _, k2, _⟩ := step_keeps hr' (.write q buf false debug) trivial
    rw [k2]
    rw [g2] at hrd
    cases hl : (toMap secs).lookup q with
    | none => simp [mapStep, hl] at hrd
    | some o =>
      simp only [mapStep, hl, Outcome.bytes.injEq] at hrd ⊢
      subst hrd
      rw [if_neg (by simp [hlen])]

/-! ## C33 -/

/-- **C33.** After any history of reads, writes and rescans on a formatted track, scanning the cells from
scratch finds the same marks at the same positions as right after formatting, and a rescan produces
exactly the catalogue produced by the format. -/
theorem C33_rescan_stable (t : Track) (ht : Formattable t) (rnd : Nat → Bool) (std : Standard)
    (ids : List Chsn) (hid : ∀ x ∈ ids, x.WF) (pat : List Byte) (hp : pat ≠ []) (gap3 : Nat)
    (hf : Fits std gap3 ids t.data.len) (ops : List TrackOp) (hk : ∀ op ∈ ops, op.KeepsLayout) :
    ∃ t1, t.format rnd std ids pat gap3 = .ok t1 ∧
      scanMarkers (trackAfter t1 ops).data = scanMarkers t1.data ∧
      (trackAfter t1 ops).items = t1.items ∧
      ∀ rnd', ∃ t2, (trackAfter t1 ops).rescan34 rnd' = .ok t2 ∧ t2.items = t1.items ∧
        t2.data.bits = (trackAfter t1 ops).data.bits := by
  obtain ⟨t1, h1, h2, h3⟩ := format_trackOk t rnd std ids pat gap3 hp ht hid hf
  have hr : Rel t.data.len t1 (iamOf std) (formatted std pat gap3 ids) := by
    refine ⟨h2, ?_, by rw [h3]; omega⟩
    intro x hx
    obtain ⟨a, b, c, _⟩ := layout_del std pat gap3 ids _ _ x hx
    exact ⟨a, b, c⟩
  obtain ⟨secs', g1, g2, g3⟩ := run_keeps ops t1 _ _ hr hk
  obtain ⟨B, hs⟩ := h2.stream
  obtain ⟨B', hs'⟩ := g1.ok.stream
  have hi : (trackAfter t1 ops).items = t1.items := by rw [g1.ok.items, h2.items, g3]
  refine ⟨t1, h1, ?_, hi, ?_⟩
  · rw [hs.scanMarkers, hs'.scanMarkers, g2]
  · intro rnd'
    obtain ⟨t2, k1, k2, _, k4⟩ := g1.ok.rescan rnd'
    refine ⟨t2, k1, ?_, k4⟩
    rw [k2.items, map_rescanned g1.clean, g3, h2.items]

/-! ### A concrete case: one PC track

A 720K-style track of 100000 cells with nine 512-byte sectors, as the library formats it. -/

def exIds : List Chsn := (List.range 9).map fun i => ⟨3, 1, i + 1, 2⟩

example : (∀ x ∈ exIds, x.WF ∧ x.c < 256) ∧ exIds.Nodup ∧ Fits .iso 0x50 exIds 100000 ∧
    Fits .ibm 0x50 exIds 100000 := by
  refine ⟨?_, ?_, ?_, ?_⟩
  · simp [exIds, Chsn.WF]; intro i hi; omega
  · decide
  · decide
  · decide

/-- The hypotheses of C05–C08 and C33 hold together on a track the library creates. -/
example : ∃ t, Formattable t ∧ Fits .ibm 0x50 exIds t.data.len ∧
    ∀ op ∈ [TrackOp.format (fun _ => false) .ibm exIds [0xF6#8] 0x50,
      .write (.ofChsn ⟨3, 1, 4, 2⟩) (List.replicate 512 0xA5#8) false false,
      .read (fun _ => true) (.ofChsn ⟨3, 1, 4, 2⟩) false], op.Ok t.data.len := by
  obtain ⟨t, _, h2, h3⟩ := emptyTrack_formattable 100000
  have hf : Fits .ibm 0x50 exIds 100000 := by decide
  refine ⟨_, h3, by rw [show (_ : Track).data.len = 100000 from h2]; exact hf, ?_⟩
  intro op hop
  simp only [List.mem_cons, List.not_mem_nil, or_false] at hop
  rcases hop with rfl | rfl | rfl
  · refine ⟨?_, by rw [show (_ : Track).data.len = 100000 from h2]; exact hf⟩
    simp [exIds, Chsn.WF]; intro i hi; omega
  · trivial
  · trivial

/-- The map answers the history of the previous example as expected. -/
example : mapRun [] [TrackOp.format (fun _ => false) .ibm exIds [0xF6#8] 0x50,
      .write (.ofChsn ⟨3, 1, 4, 2⟩) (List.replicate 512 0xA5#8) false false,
      .read (fun _ => true) (.ofChsn ⟨3, 1, 4, 2⟩) false,
      .read (fun _ => true) (.ofChsn ⟨3, 1, 5, 2⟩) false,
      .read (fun _ => true) (.ofChsn ⟨3, 1, 10, 2⟩) false] =
    [.done, .done, .bytes (List.replicate 512 0xA5#8), .bytes (List.replicate 512 0xF6#8), .notFound] := by
  decide +kernel

end Fox
