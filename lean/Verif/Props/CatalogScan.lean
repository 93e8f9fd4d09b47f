import Verif.Spec.Catalog
import Verif.Props.CatalogPos
import Verif.Props.Analysis
/-
C115: scanning for a sector and reading it.  C116: copy protections.
-/
namespace Fox
open S34 Spec

/-! ## C115 -/

/-- What the search reports about data comes from an element of data. -/
theorem findLoop_source (q : Query) (index : Nat) (all : List Inst) : ∀ (l : List Inst) (ei : Nat) (st : FindState), l = all.drop ei →
    ∀ k c ae de del nd last, findLoop q index ei st l = .found k c ae de del nd last →
      (de = false ∧ del = false) ∨ (nd = false ∧ ∃ x, all[k]? = some x ∧ x.elem = .data c ae de del)
  | [], ei, st, _, k, c, ae, de, del, nd, last, h => by rw [findLoop] at h; cases h
  | x :: rest, ei, st, hl, k, c, ae, de, del, nd, last, h => by
    have hrest : rest = all.drop (ei + 1) := by rw [← List.tail_drop, ← hl]; rfl
    have ih := fun st => findLoop_source q index all rest (ei + 1) st hrest k c ae de del nd last
    rw [findLoop] at h
    split at h
    · exact ih _ h
    · split at h
      · split at h
        · dsimp only at h
          split at h
          · cases h; exact Or.inl ⟨rfl, rfl⟩
          · exact ih _ h
        · exact ih _ h
      · next c' ae' de' del' he =>
        split at h
        · cases h
          refine Or.inr ⟨rfl, x, ?_, he⟩
          have := congrArg (fun l => l[0]?) hl
          simpa using this.symm
        · exact ih _ h
      · exact ih _ h

theorem findSector_source (q : Query) (items : List Inst) (index : Nat) (k : Nat) (c : Chsn) (ae de del nd last : Bool)
    (h : findSectorElement q items index = .found k c ae de del nd last) :
    (de = false ∧ del = false) ∨ (nd = false ∧ ∃ x, items[k]? = some x ∧ x.elem = .data c ae de del) :=
  findLoop_source q index items items 0 {} rfl _ _ _ _ _ _ _ h

/-- The flags that both a scan and a read report. -/
def ScanFlags.same (f : ScanFlags) (r : ReadResult) : Prop :=
  f.notFound = r.notFound ∧ f.noDam = r.noDam ∧ f.deletedMark = r.deletedMark ∧ f.addressError = r.addressCrcError ∧
    f.dataError = r.dataCrcError ∧ f.wrongCylinder = r.wrongCylinder ∧ f.badCylinder = r.badCylinder ∧ f.wrongHead = r.wrongHead

/-- The catalogue of the track, if it has one, is like those the library makes. -/
def Catalogued : DiskTrack → Prop
  | .bit _ t => Paired t.items
  | .flux _ (some t) => Paired t.items
  | _ => True

theorem scan_bit (t : Track) (rnd : Nat → Bool) (q : Query) (n offset : Option Nat) (scope : Scope) (debug : Bool) (r : ReadResult)
    (hp : debug = true ∨ Paired t.items) (hr : t.readSector rnd q n offset scope debug = .ok r) :
    ∃ f, t.scanSector q offset = .ok f ∧ f.same r := by
  unfold Track.scanSector Track.scanSectorElement
  unfold Track.readSector at hr
  cases hc : t.schema with
  | none => simp [hc] at hr
  | some sch =>
    simp only [hc, Except.map] at hr ⊢
    refine ⟨_, rfl, ?_⟩
    cases hf : findSectorElement q t.items (offset.getD 0) with
    | notFound wc bc wh =>
      simp only [hf] at hr
      injection hr with hr
      subst hr
      exact ⟨rfl, rfl, rfl, rfl, rfl, rfl, rfl, rfl⟩
    | found ei c ae de del noDam last =>
      simp only [hf] at hr
      have hsrc := findSector_source q t.items _ _ _ _ _ _ _ _ hf
      cases noDam with
      | true =>
        rw [if_pos rfl] at hr
        injection hr with hr
        subst hr
        rcases hsrc with ⟨rfl, rfl⟩ | ⟨h0, -⟩
        · exact ⟨rfl, rfl, rfl, rfl, rfl, rfl, rfl, rfl⟩
        · cases h0
      | false =>
        rw [if_neg (by simp)] at hr
        by_cases hae : (ae && !debug) = true
        · rw [if_pos hae] at hr
          injection hr with hr
          subst hr
          simp only [Bool.and_eq_true, Bool.not_eq_true'] at hae
          obtain ⟨rfl, rfl⟩ := hae
          rcases hp with h0 | hp
          · cases h0
          · have hok := findLoop_sound q (offset.getD 0) t.items hp 0 {} rfl rfl
            rw [show findLoop q (offset.getD 0) 0 {} t.items = findSectorElement q t.items (offset.getD 0) from rfl, hf] at hok
            obtain ⟨-, x, hx, -, -, hh⟩ := hok
            have : de = false ∧ del = false := by
              rcases hsrc with h | ⟨-, y, hy, he⟩
              · exact h
              · rw [hx] at hy
                injection hy with hy
                subst hy
                rcases hh with ⟨-, he'⟩ | ⟨⟨h0, -⟩, -⟩
                · rw [he] at he'; cases he'
                · cases h0
            obtain ⟨rfl, rfl⟩ := this
            exact ⟨rfl, rfl, rfl, rfl, rfl, rfl, rfl, rfl⟩
        · rw [if_neg hae] at hr
          cases hi : t.items[ei]? with
          | none => simp [hi] at hr
          | some x =>
            simp only [hi] at hr
            split at hr
            · simp at hr
            · simp at hr
            · injection hr with hr
              subst hr
              exact ⟨rfl, rfl, rfl, rfl, rfl, rfl, rfl, rfl⟩

/-- **C115.** Whenever a sector can be read — in debug mode or from a track catalogued by the library —, a scan for it succeeds and reports
the same flags: whether it was found, without data, deleted, with a bad address or data CRC, on a wrong or bad cylinder or wrong head.
This holds on every kind of track, for every query, size, position and scope. -/
theorem C115_scan (t : DiskTrack) (nz : Noise) (q : Query) (n offset : Option Nat) (scope : Scope) (debug : Bool) (r : ReadResult)
    (hp : debug = true ∨ Catalogued t) (hr : t.readSector nz q n offset scope debug = .ok r) :
    ∃ f, t.scanSector q offset = .ok f ∧ f.same r := by
  cases t with
  | bit c t => exact scan_bit t nz.bit q n offset scope debug r hp hr
  | flux c o =>
    cases o with
    | none => cases hr
    | some t => exact scan_bit t nz.bit q n offset scope debug r hp hr
  | other c => cases hr
  | sect t =>
    replace hr : t.readSector nz.byte q scope = .ok r := hr
    refine ⟨_, rfl, ?_⟩
    unfold MetaTrack.readSector at hr
    unfold MetaTrack.scanSector
    cases scope <;> simp only at hr <;> try cases hr
    cases hm : t.matching q with
    | nil =>
      simp only [hm] at hr
      injection hr with hr
      subst hr
      exact ⟨rfl, rfl, rfl, rfl, rfl, rfl, rfl, rfl⟩
    | cons s rest =>
      simp only [hm] at hr
      cases hd : s.readData nz.byte with
      | error e => rw [hd] at hr; cases hr
      | ok buf =>
        rw [hd] at hr
        injection hr with hr
        subst hr
        exact ⟨rfl, rfl, rfl, rfl, rfl, rfl, rfl, rfl⟩

/-- **C115 (tracks without a catalogue).** Flux that was not decoded and other kinds of tracks are not scanned, and not read either. -/
theorem C115_unresolved (c : Ch) (nz : Noise) (q : Query) (n offset : Option Nat) (scope : Scope) (debug : Bool) :
    (DiskTrack.flux c none).scanSector q offset = .error .schema ∧ (DiskTrack.flux c none).readSector nz q n offset scope debug = .error .schema ∧
    (DiskTrack.other c).scanSector q offset = .error .unsupported := ⟨rfl, rfl, rfl⟩

/-- **C115, Amiga tracks**, in debug mode. -/
theorem C115_amiga (t : Amiga.Track) (rnd : Nat → Bool) (q : Query) (n offset : Option Nat) (scope : Scope) (r : ReadResult)
    (hr : t.readSector rnd q n offset scope true = .ok r) : (t.scanSector q offset).same r := by
  have src : ∀ (l : List Amiga.Inst) (ei : Nat) (f : Amiga.Flags) k c ae de del last,
      Amiga.findLoop q (offset.getD 0) ei f l = .found k c ae de del true last → de = false ∧ del = false := by
    intro l
    induction l with
    | nil => intro ei f k c ae de del last h; rw [Amiga.findLoop] at h; cases h
    | cons x rest ih =>
      intro ei f k c ae de del last h
      rw [Amiga.findLoop] at h
      split at h
      · exact ih _ _ _ _ _ _ _ _ h
      · split at h
        · split at h
          · cases h; exact ⟨rfl, rfl⟩
          · split at h <;> exact ih _ _ _ _ _ _ _ _ h
        · split at h
          · cases h
          · exact ih _ _ _ _ _ _ _ _ h
  unfold Amiga.Track.scanSector
  unfold Amiga.Track.readSector at hr
  cases hf : Amiga.findSectorElement q t.items (offset.getD 0) with
  | notFound wc bc wh =>
    simp only [hf] at hr
    injection hr with hr
    subst hr
    exact ⟨rfl, rfl, rfl, rfl, rfl, rfl, rfl, rfl⟩
  | found ei c ae de del noDam last =>
    simp only [hf] at hr
    cases noDam with
    | true =>
      rw [if_pos rfl] at hr
      injection hr with hr
      subst hr
      obtain ⟨rfl, rfl⟩ := src _ _ _ _ _ _ _ _ _ hf
      exact ⟨rfl, rfl, rfl, rfl, rfl, rfl, rfl, rfl⟩
    | false =>
      rw [if_neg (by simp), if_neg (by simp)] at hr
      cases hi : t.items[ei]? with
      | none => simp [hi] at hr
      | some x =>
        simp only [hi] at hr
        split at hr
        · cases hr
        · split at hr
          · cases hr
          · injection hr with hr
            subst hr
            exact ⟨rfl, rfl, rfl, rfl, rfl, rfl, rfl, rfl⟩

/-- A sector without data in a list of sectors. -/
def bareSector : MetaSector := { id := ⟨5, 0, 1, 2⟩, noDam := true, data := [], weak := .empty 0, hole := .empty 0 }

/-- **C115 fails** for sectors without data on tracks that are lists of sectors: neither a scan nor a read ever says that there is none. -/
theorem C115_false_missing (t : MetaTrack) (q : Query) (rnd : Nat → Byte) (scope : Scope) :
    (t.scanSector q).noDam = false ∧ ∀ r, t.readSector rnd q scope = .ok r → r.noDam = false := by
  constructor
  · unfold MetaTrack.scanSector; split <;> rfl
  · intro r hr
    unfold MetaTrack.readSector at hr
    split at hr
    · cases hr
    · split at hr
      · cases hr; rfl
      · split at hr
        · cases hr
        · cases hr; rfl
    · cases hr

/-- One is there, is found and read as a sector of no bytes. -/
example (rnd : Nat → Byte) : (MetaTrack.scanSector ⟨⟨5, 0⟩, [bareSector]⟩ (.ofChsn ⟨5, 0, 1, 2⟩)).notFound = false ∧
    ∃ r, MetaTrack.readSector ⟨⟨5, 0⟩, [bareSector]⟩ rnd (.ofChsn ⟨5, 0, 1, 2⟩) .dataOnly = .ok r ∧ r.notFound = false ∧ r.readBuf = [] :=
  ⟨by decide, _, rfl, rfl, rfl⟩

/-! ## C116 -/

/-- A sector as the search for protections sees it: its id, whether its address CRC is bad, whether its data CRC is. -/
abbrev Seen := Chsn × Bool × Bool

/-- The first sector with the id has these errors. -/
def FirstSeen (l : List Seen) (id : Chsn) (ae de : Bool) : Prop := ∃ a b, l = a ++ (id, ae, de) :: b ∧ ∀ x ∈ a, x.1 ≠ id

/-- What the comments of `detect_copy_protection` say (src/copy_protection.rs:67-92) about a track with these sectors: CopyLock if sector 1
of 256 bytes has bad data, version 2 if its address is bad too; otherwise Superlok if, beyond cylinder 1, sector 1 of 8192 bytes has bad
data; otherwise Interlock if there are 96 sectors. -/
def Detected (l : List Seen) (ch : Ch) (r : Option Protection) : Prop :=
  (∀ v, r = some (.copyLock v) ↔ ∃ ae, FirstSeen l ⟨ch.c, ch.h, 1, 1⟩ ae true ∧ v = if ae then 2 else 1) ∧
  (∀ v, r = some (.superlok v) ↔ v = 1 ∧ (¬ ∃ ae, FirstSeen l ⟨ch.c, ch.h, 1, 1⟩ ae true) ∧ 1 < ch.c ∧ ∃ ae, FirstSeen l ⟨ch.c, ch.h, 1, 6⟩ ae true) ∧
  (∀ v, r = some (.interlock v) ↔ v = 1 ∧ (¬ ∃ ae, FirstSeen l ⟨ch.c, ch.h, 1, 1⟩ ae true) ∧
    ¬ (1 < ch.c ∧ ∃ ae, FirstSeen l ⟨ch.c, ch.h, 1, 6⟩ ae true) ∧ l.length = 96)

theorem first_unique {l : List Seen} {id : Chsn} {ae de ae' de' : Bool} (h : FirstSeen l id ae de) (h' : FirstSeen l id ae' de') : ae = ae' ∧ de = de' := by
  have find : ∀ ae de, FirstSeen l id ae de → l.find? (fun x => decide (x.1 = id)) = some (id, ae, de) := by
    rintro ae de ⟨a, b, rfl, hn⟩
    rw [List.find?_append, List.find?_eq_none.2 (fun x hx => by simpa using hn x hx), Option.none_or, List.find?_cons]
    simp
  have e := find _ _ h
  rw [find _ _ h'] at e
  injection e with e
  injection e with _ e
  injection e with e1 e2
  exact ⟨e1.symm, e2.symm⟩

/-- The scan for a sector tells the errors of the first with the id. -/
def Tells (t : DiskTrack) (l : List Seen) (n : Nat) : Prop :=
  ∃ f, t.scanSector ⟨some t.ch.c, some t.ch.h, 1, some n⟩ none = .ok f ∧
    ((f.notFound = true ∧ f.dataError = false ∧ ∀ ae de, ¬ FirstSeen l ⟨t.ch.c, t.ch.h, 1, n⟩ ae de) ∨
      FirstSeen l ⟨t.ch.c, t.ch.h, 1, n⟩ f.addressError f.dataError)

theorem tells_bad {t : DiskTrack} {l : List Seen} {n : Nat} (h : Tells t l n) :
    ∃ f, t.scanSector ⟨some t.ch.c, some t.ch.h, 1, some n⟩ none = .ok f ∧
      ((f.dataError = true ∧ FirstSeen l ⟨t.ch.c, t.ch.h, 1, n⟩ f.addressError true) ∨
       (f.dataError = false ∧ ¬ ∃ ae, FirstSeen l ⟨t.ch.c, t.ch.h, 1, n⟩ ae true)) := by
  obtain ⟨f, hf, h | h⟩ := h
  · exact ⟨f, hf, Or.inr ⟨h.2.1, fun ⟨ae, ha⟩ => h.2.2 _ _ ha⟩⟩
  · cases hd : f.dataError with
    | true => rw [hd] at h; exact ⟨f, hf, Or.inl ⟨hd, h⟩⟩
    | false =>
      rw [hd] at h
      refine ⟨f, hf, Or.inr ⟨hd, fun ⟨ae, ha⟩ => ?_⟩⟩
      have := (first_unique h ha).2
      cases this

theorem detected_of_tells (t : DiskTrack) (l : List Seen) (h1 : Tells t l 1) (h6 : Tells t l 6) (hl : t.sectorCt = l.length) :
    Detected l t.ch t.protection := by
  obtain ⟨f1, e1, c1⟩ := tells_bad h1
  obtain ⟨f6, e6, c6⟩ := tells_bad h6
  have hr : t.protection = ((if f1.dataError then some (Protection.copyLock (if f1.addressError then 2 else 1)) else none).or
      (if t.ch.c > 1 then (if f6.dataError then some (Protection.superlok 1) else none) else none)).or
      (if t.sectorCt = 96 then some (Protection.interlock 1) else none) := by
    unfold DiskTrack.protection
    simp only [e1, e6]
  rw [hr, hl]
  rcases c1 with ⟨d1, g1⟩ | ⟨d1, g1⟩
  · rw [d1]
    simp only [if_true, Option.some_or]
    refine ⟨fun v => ⟨fun h => ⟨_, g1, ?_⟩, ?_⟩, fun v => ⟨(fun h => by cases h), fun h => absurd ⟨_, g1⟩ h.2.1⟩,
      fun v => ⟨(fun h => by cases h), fun h => absurd ⟨_, g1⟩ h.2.1⟩⟩
    · injection h with h
      injection h with h
      exact h.symm
    · rintro ⟨ae, ha, rfl⟩
      rw [(first_unique g1 ha).1]
  · rw [d1]
    simp only [Bool.false_eq_true, if_false, Option.none_or]
    refine ⟨fun v => ⟨fun h => ?_, fun ⟨ae, ha, _⟩ => absurd ⟨ae, ha⟩ g1⟩, ?_⟩
    · split at h
      · split at h
        · cases h
        · split at h <;> cases h
      · split at h <;> cases h
    rcases c6 with ⟨d6, g6⟩ | ⟨d6, g6⟩ <;> by_cases hc : t.ch.c > 1
    · rw [d6, if_pos hc]
      refine ⟨fun v => ⟨fun h => ⟨?_, g1, hc, _, g6⟩, ?_⟩, fun v => ⟨(fun h => by cases h), fun h => absurd ⟨hc, _, g6⟩ h.2.2.1⟩⟩
      · cases h; rfl
      · rintro ⟨rfl, -⟩; rfl
    · rw [if_neg hc, Option.none_or]
      refine ⟨fun v => ⟨(fun h => by split at h <;> cases h), fun h => absurd h.2.2.1 hc⟩, fun v => ⟨fun h => ?_, ?_⟩⟩
      · split at h
        · next h96 => cases h; exact ⟨rfl, g1, fun h => hc h.1, h96⟩
        · cases h
      · rintro ⟨rfl, -, -, h96⟩; rw [if_pos h96]
    · rw [d6, if_pos hc]
      simp only [Bool.false_eq_true, if_false, Option.none_or]
      refine ⟨fun v => ⟨(fun h => by split at h <;> cases h), fun h => absurd h.2.2.2 g6⟩, fun v => ⟨fun h => ?_, ?_⟩⟩
      · split at h
        · next h96 => cases h; exact ⟨rfl, g1, fun h => g6 h.2, h96⟩
        · cases h
      · rintro ⟨rfl, -, -, h96⟩; rw [if_pos h96]
    · rw [if_neg hc, Option.none_or]
      refine ⟨fun v => ⟨(fun h => by split at h <;> cases h), fun h => absurd h.2.2.1 hc⟩, fun v => ⟨fun h => ?_, ?_⟩⟩
      · split at h
        · next h96 => cases h; exact ⟨rfl, g1, fun h => hc h.1, h96⟩
        · cases h
      · rintro ⟨rfl, -, -, h96⟩; rw [if_pos h96]

theorem agrees_full (c h n : Nat) (id : Chsn) : agrees ⟨some c, some h, 1, some n⟩ id = true ↔ id = ⟨c, h, 1, n⟩ := by
  obtain ⟨c', h', s', n'⟩ := id
  unfold agrees
  simp
  omega

/-- The sectors of a list, as the search sees them. -/
def seenMeta (t : MetaTrack) : List Seen := t.sectors.map fun s => (s.id, s.addressError, s.dataError)

/-- **C116 (partial), lists of sectors**: the detection is exactly as described. -/
theorem C116_sectors (t : MetaTrack) : Detected (seenMeta t) t.ch (DiskTrack.sect t).protection := by
  have tells : ∀ n, Tells (.sect t) (seenMeta t) n := by
    intro n
    refine ⟨_, rfl, ?_⟩
    show (t.scanSector _).notFound = true ∧ (t.scanSector _).dataError = false ∧ _ ∨ FirstSeen _ _ (t.scanSector _).addressError (t.scanSector _).dataError
    unfold MetaTrack.scanSector MetaTrack.matching
    have hm : ∀ s : MetaSector, Query.matchesB ⟨some t.ch.c, some t.ch.h, 1, some n⟩ s.id = true ↔ s.id = ⟨t.ch.c, t.ch.h, 1, n⟩ := fun s => by
      rw [matchesB_agrees]; exact agrees_full _ _ _ _
    cases he : t.sectors.filter (fun s => Query.matchesB ⟨some t.ch.c, some t.ch.h, 1, some n⟩ s.id) with
    | nil =>
      simp only [DiskTrack.ch, he]
      refine Or.inl ⟨trivial, trivial, ?_⟩
      rintro ae de ⟨a, b, hl, -⟩
      have : (⟨t.ch.c, t.ch.h, 1, n⟩, ae, de) ∈ seenMeta t := by rw [hl]; simp
      obtain ⟨s, hs, e⟩ := List.mem_map.1 this
      have hi : s.id = ⟨t.ch.c, t.ch.h, 1, n⟩ := congrArg Prod.fst e
      have : s ∈ t.sectors.filter (fun s => Query.matchesB ⟨some t.ch.c, some t.ch.h, 1, some n⟩ s.id) :=
        List.mem_filter.2 ⟨hs, (hm s).2 hi⟩
      rw [he] at this
      cases this
    | cons s rest =>
      simp only [DiskTrack.ch, he]
      right
      obtain ⟨a, b, hab, hna, hs, -⟩ := List.filter_eq_cons_iff.1 he
      refine ⟨a.map fun s => (s.id, s.addressError, s.dataError), b.map fun s => (s.id, s.addressError, s.dataError), ?_, ?_⟩
      · unfold seenMeta
        rw [hab, List.map_append, List.map_cons, (hm s).1 hs]
      · intro x hx
        obtain ⟨y, hy, rfl⟩ := List.mem_map.1 hx
        intro h0
        exact hna y hy ((hm y).2 h0)
  exact detected_of_tells _ _ (tells 1) (tells 6) (by simp [DiskTrack.sectorCt, seenMeta])

/-- A CopyLock track of version 2 in a list of sectors. -/
example : (DiskTrack.sect ⟨⟨3, 0⟩, [{ bareSector with id := ⟨3, 0, 1, 1⟩, addressError := true, dataError := true }]⟩).protection =
    some (.copyLock 2) := by decide

/-- **C116 (partial), well-formed tracks of cells**: the detection is exactly as described. -/
theorem C116_cells (ch : Ch) (t : Track) (iam : Option Nat) (secs : List Sec) (h : TrackOk t iam secs) :
    Detected (secs.map fun x => (x.id, false, x.de)) ch (DiskTrack.bit ch t).protection ∧
    Detected (secs.map fun x => (x.id, false, x.de)) ch (DiskTrack.flux ch (some t)).protection := by
  have hids : t.sectorIds.length = secs.length := by
    rw [h.catalogue.1, List.length_map]
  have first : ∀ (P : Sec → Prop) (l : List Sec), (∃ y ∈ l, P y) → ∃ a y b, l = a ++ y :: b ∧ (∀ z ∈ a, ¬ P z) ∧ P y := by
    intro P l
    induction l with
    | nil => rintro ⟨y, hy, -⟩; cases hy
    | cons z l ih =>
      intro he
      by_cases hz : P z
      · exact ⟨[], z, l, rfl, by simp, hz⟩
      · obtain ⟨y, hy, hp⟩ := he
        rcases List.mem_cons.1 hy with rfl | hy
        · exact absurd hp hz
        · obtain ⟨a, x, b, rfl, h1, h2⟩ := ih ⟨y, hy, hp⟩
          refine ⟨z :: a, x, b, rfl, ?_, h2⟩
          intro w hw
          rcases List.mem_cons.1 hw with rfl | hw
          · exact hz
          · exact h1 w hw
  have tells : ∀ n, ∃ f, t.scanSector ⟨some ch.c, some ch.h, 1, some n⟩ none = .ok f ∧
      ((f.notFound = true ∧ f.dataError = false ∧ ∀ ae de, ¬ FirstSeen (secs.map fun x => (x.id, false, x.de)) ⟨ch.c, ch.h, 1, n⟩ ae de) ∨
        FirstSeen (secs.map fun x => (x.id, false, x.de)) ⟨ch.c, ch.h, 1, n⟩ f.addressError f.dataError) := by
    intro n
    obtain ⟨w1, w2⟩ := C21_wellformed h ⟨some ch.c, some ch.h, 1, some n⟩ 0
    unfold Track.scanSector Track.scanSectorElement
    simp only [h.schema, Except.map]
    refine ⟨_, rfl, ?_⟩
    by_cases hx : ∃ x ∈ secs, x.id = ⟨ch.c, ch.h, 1, n⟩
    · right
      obtain ⟨a, x, b, hs, ha, hi⟩ := first _ secs hx
      obtain ⟨ei, hf, -⟩ := w1 a x b hs (fun y hy hc => ha y hy ((agrees_full _ _ _ _).1 hc.2)) (Nat.zero_le _) ((agrees_full _ _ _ _).2 hi)
      rw [show (none : Option Nat).getD 0 = 0 from rfl, hf]
      refine ⟨a.map fun x => (x.id, false, x.de), b.map fun x => (x.id, false, x.de), ?_, ?_⟩
      · rw [hs, List.map_append, List.map_cons, hi]; rfl
      · intro y hy
        obtain ⟨z, hz, rfl⟩ := List.mem_map.1 hy
        exact ha z hz
    · left
      obtain ⟨wc, bc, wh, hf⟩ := w2.1 fun x hx' hc => hx ⟨x, hx', (agrees_full _ _ _ _).1 hc.2⟩
      rw [show (none : Option Nat).getD 0 = 0 from rfl, hf]
      refine ⟨rfl, rfl, ?_⟩
      rintro ae de ⟨a, b, hl, -⟩
      have : (⟨ch.c, ch.h, 1, n⟩, ae, de) ∈ secs.map fun x => (x.id, false, x.de) := by rw [hl]; simp
      obtain ⟨s, hs, e⟩ := List.mem_map.1 this
      exact hx ⟨s, hs, congrArg Prod.fst e⟩
  exact ⟨detected_of_tells (.bit ch t) _ (tells 1) (tells 6) (by rw [List.length_map]; exact hids),
    detected_of_tells (.flux ch (some t)) _ (tells 1) (tells 6) (by rw [List.length_map]; exact hids)⟩

/-- Why a protection is reported. -/
theorem protection_inv (t : DiskTrack) (p : Protection) (h : t.protection = some p) :
    (∃ f, t.scanSector ⟨some t.ch.c, some t.ch.h, 1, some 1⟩ none = .ok f ∧ f.dataError = true ∧
      p = .copyLock (if f.addressError then 2 else 1)) ∨
    (1 < t.ch.c ∧ ∃ f, t.scanSector ⟨some t.ch.c, some t.ch.h, 1, some 6⟩ none = .ok f ∧ f.dataError = true ∧ p = .superlok 1) ∨
    (t.sectorCt = 96 ∧ p = .interlock 1) := by
  unfold DiskTrack.protection at h
  simp only [Option.or_eq_some_iff] at h
  rcases h with (h | ⟨-, h⟩) | ⟨-, h⟩
  · left
    split at h
    · next f hf =>
      split at h
      · next hd => injection h with h; exact ⟨f, hf, hd, h.symm⟩
      · cases h
    · cases h
  · right; left
    split at h
    · next hc =>
      split at h
      · next f hf =>
        split at h
        · next hd => injection h with h; exact ⟨hc, f, hf, hd, h.symm⟩
        · cases h
      · cases h
    · cases h
  · right; right
    split at h
    · next h96 => injection h with h; exact ⟨h96, h.symm⟩
    · cases h

/-- **C116 (partial), every track of cells the library catalogued**: CopyLock and Superlok are reported only if a sector with the id is
there, with a good address and bad data. -/
theorem C116_sound_partial (ch : Ch) (t : Track) (hp : Paired t.items) (x : DiskTrack) (hx : x = .bit ch t ∨ x = .flux ch (some t)) :
    (∀ v, x.protection = some (.copyLock v) → v = 1 ∧ ∃ y ∈ t.items, ∃ del, y.elem = .data ⟨ch.c, ch.h, 1, 1⟩ false true del) ∧
    (∀ v, x.protection = some (.superlok v) → v = 1 ∧ 1 < ch.c ∧ ∃ y ∈ t.items, ∃ del, y.elem = .data ⟨ch.c, ch.h, 1, 6⟩ false true del) ∧
    (∀ v, x.protection = some (.interlock v) → v = 1 ∧ t.sectorIds.length = 96) := by
  have key : ∀ n f, t.scanSector ⟨some ch.c, some ch.h, 1, some n⟩ none = .ok f → f.dataError = true →
      f.addressError = false ∧ ∃ y ∈ t.items, ∃ del, y.elem = .data ⟨ch.c, ch.h, 1, n⟩ false true del := by
    intro n f hf hd
    unfold Track.scanSector Track.scanSectorElement at hf
    cases hs : t.schema with
    | none => simp only [hs] at hf; cases hf
    | some s =>
      simp only [hs, Except.map] at hf
      injection hf with hf
      subst hf
      cases hr : findSectorElement ⟨some ch.c, some ch.h, 1, some n⟩ t.items ((none : Option Nat).getD 0) with
      | notFound wc bc wh => rw [hr] at hd; cases hd
      | found ei c ae de del nd last =>
        rw [hr] at hd
        replace hd : de = true := hd
        subst hd
        have hok := findLoop_sound ⟨some ch.c, some ch.h, 1, some n⟩ ((none : Option Nat).getD 0) t.items hp 0 {} rfl rfl
        rw [show findLoop _ ((none : Option Nat).getD 0) 0 {} t.items = _ from hr] at hok
        obtain ⟨-, y, hy, -, -, hh⟩ := hok
        rcases findSector_source _ _ _ _ _ _ _ _ _ _ hr with h0 | ⟨-, z, hz, he⟩
        · exact absurd h0.1 (by simp)
        · rw [hy] at hz
          injection hz with hz
          subst hz
          rcases hh with ⟨-, he'⟩ | ⟨⟨h1, h2⟩, -, ha⟩
          · rw [he] at he'; cases he'
          · have hc := (agrees_full _ _ _ _).1 ha
            subst h1 hc
            exact ⟨rfl, y, List.mem_of_getElem? hy, del, he⟩
  have hch : x.ch = ch := by rcases hx with rfl | rfl <;> rfl
  have hsc : ∀ q off, x.scanSector q off = t.scanSector q off := by rcases hx with rfl | rfl <;> exact fun _ _ => rfl
  have hct : x.sectorCt = t.sectorIds.length := by rcases hx with rfl | rfl <;> rfl
  refine ⟨fun v hv => ?_, fun v hv => ?_, fun v hv => ?_⟩ <;>
    rcases protection_inv x _ hv with ⟨f, hf, hd, he⟩ | ⟨hc, f, hf, hd, he⟩ | ⟨h96, he⟩ <;> cases he <;>
    simp only [hch, hsc, hct] at *
  · obtain ⟨ha, hy⟩ := key 1 f hf hd
    exact ⟨by rw [ha]; rfl, hy⟩
  · exact ⟨trivial, hc, (key 6 f hf hd).2⟩
  · exact ⟨trivial, h96⟩

/-- **C116 fails** for CopyLock 2 on tracks of cells or flux: none is ever reported as that. -/
theorem C116_false_v2 (ch : Ch) (t : Track) (hp : Paired t.items) (x : DiskTrack) (hx : x = .bit ch t ∨ x = .flux ch (some t)) :
    x.protection ≠ some (.copyLock 2) := fun h => absurd ((C116_sound_partial ch t hp x hx).1 2 h).1 (by decide)

/-- A track with sector 1 of 256 bytes with bad address and bad data: no protection is seen, though it is like the example above. -/
example (t : Track) (hs : t.schema = some .system34)
    (hi : t.items = [⟨.header ⟨3, 0, 1, 1⟩ true false, 1000, 1256, none, false⟩, ⟨.data ⟨3, 0, 1, 1⟩ true true false, 2000, 6000, none, true⟩]) :
    Paired t.items ∧ (DiskTrack.bit ⟨3, 0⟩ t).protection = none := by
  constructor
  · rw [hi]; exact .sector (de := true) (del := false) rfl rfl (by decide) .nil
  · have hsc : ∀ n, t.scanSector ⟨some 3, some 0, 1, some n⟩ none = .ok (.ofScan (findSectorElement ⟨some 3, some 0, 1, some n⟩ t.items 0)) := by
      intro n
      unfold Track.scanSector Track.scanSectorElement
      simp only [hs]
      rfl
    have hct : t.sectorIds.length = 1 := by unfold Track.sectorIds; rw [hi]; rfl
    cases hp : (DiskTrack.bit ⟨3, 0⟩ t).protection with
    | none => rfl
    | some p =>
      rcases protection_inv _ p hp with ⟨f, hf, hd, -⟩ | ⟨-, f, hf, hd, -⟩ | ⟨h96, -⟩
      · replace hf := (hsc 1).symm.trans hf
        rw [hi] at hf
        cases hf; exact absurd hd (by decide)
      · replace hf := (hsc 6).symm.trans hf
        rw [hi] at hf
        cases hf; exact absurd hd (by decide)
      · rw [show (DiskTrack.bit ⟨3, 0⟩ t).sectorCt = _ from hct] at h96; cases h96

/-- **C116, the disk**: the protection of the first track that shows one, the tracks taken cylinder by cylinder and head 0 before head 1. -/
theorem C116_disk (d : Disk) :
    (d.protection = none ↔ ∀ t, Listed d t → t.protection = none) ∧
    (∀ p, d.protection = some p ↔ ∃ a t b, d.trackList = a ++ t :: b ∧ (∀ x ∈ a, x.protection = none) ∧ t.protection = some p) := by
  have mem : ∀ t, t ∈ d.trackList ↔ Listed d t := by
    intro t
    unfold Disk.trackList
    rw [List.mem_filterMap]
    exact ⟨fun ⟨i, hi, hp⟩ => ⟨i, (mem_trackIdx d i).1 hi, hp⟩, fun ⟨i, hi, hp⟩ => ⟨i, (mem_trackIdx d i).2 hi, hp⟩⟩
  unfold Disk.protection
  refine ⟨?_, fun p => ?_⟩
  · rw [List.findSome?_eq_none_iff]
    exact ⟨fun h t ht => h t ((mem t).2 ht), fun h t ht => h t ((mem t).1 ht)⟩
  · rw [List.findSome?_eq_some_iff]
    constructor
    · rintro ⟨a, t, b, h1, h2, h3⟩; exact ⟨a, t, b, h1, h3, h2⟩
    · rintro ⟨a, t, b, h1, h2, h3⟩; exact ⟨a, t, b, h1, h3, h2⟩

end Fox
