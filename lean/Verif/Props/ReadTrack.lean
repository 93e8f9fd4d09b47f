import Verif.Spec.ReadTrack
import Verif.Props.MetaSector
/-
C36: reading a whole track returns the contents of its sectors in track order.
-/
namespace Fox
open Fox.Spec Fox.S34

/-! ### Bitstream tracks -/

theorem nextLoop_iam (index : Nat) (iam : Option Nat) (secs : List Sec) :
    Track.nextSectorLoop index 0 none (itemsOf iam secs) =
      Track.nextSectorLoop index iam.toList.length none (itemsFrom secs) := by
  rw [itemsOf_eq]
  cases iam with
  | none => rfl
  | some o =>
    show Track.nextSectorLoop index 0 none (_ :: itemsFrom secs) = _
    rw [Track.nextSectorLoop]
    split <;> rfl

theorem nextLoop_skip (index : Nat) (x : Sec) (rest : List Sec) (hio : x.io ≤ x.dof)
    (hx : 16 * x.dof < index) (ei : Nat) :
    Track.nextSectorLoop index ei none (itemsFrom (x :: rest)) =
      Track.nextSectorLoop index (ei + 4) none (itemsFrom rest) := by
  rw [itemsFrom_cons]
  simp only [List.cons_append, List.nil_append]
  rw [Track.nextSectorLoop, if_pos (by show 16 * x.io < index; omega), Track.nextSectorLoop,
    if_pos (by show 16 * x.io < index; omega), Track.nextSectorLoop,
    if_pos (by show 16 * x.dof < index; omega), Track.nextSectorLoop,
    if_pos (by show 16 * x.dof < index; omega)]

theorem nextLoop_hit (index : Nat) (x : Sec) (rest : List Sec) (hio : x.io ≤ x.dof)
    (hx : index ≤ 16 * x.io) (ei : Nat) :
    Track.nextSectorLoop index ei none (itemsFrom (x :: rest)) =
      .found (ei + 2) x.id false x.de x.del false false := by
  rw [itemsFrom_cons]
  simp only [List.cons_append, List.nil_append]
  rw [Track.nextSectorLoop, if_neg (by show ¬ 16 * x.io < index; omega)]
  simp only
  rw [Track.nextSectorLoop, if_neg (by show ¬ 16 * x.io < index; omega)]
  simp only
  rw [Track.nextSectorLoop, if_neg (by show ¬ 16 * x.dof < index; omega)]

theorem nextLoop_first (index : Nat) (b : List Sec) : ∀ (a : List Sec),
    (∀ y ∈ a, y.io ≤ y.dof ∧ 16 * y.dof < index) → ∀ ei,
    Track.nextSectorLoop index ei none (itemsFrom (a ++ b)) =
      Track.nextSectorLoop index (ei + 4 * a.length) none (itemsFrom b)
  | [], _, ei => rfl
  | y :: a, ha, ei => by
    rw [List.cons_append, nextLoop_skip index y _ (ha y (by simp)).1 (ha y (by simp)).2,
      nextLoop_first index b a (fun z hz => ha z (by simp [hz])), List.length_cons]
    congr 1; omega

theorem readAll_loop {t : Track} {iam : Option Nat} (rnd : Nat → Bool) (size eot : Nat) :
    ∀ (b a : List Sec) (fuel index : Nat) (acc : Track.ReadTrack),
    TrackOk t iam (a ++ b) → (∀ x ∈ b, Clean x ∧ x.data.length = size) → b.length < fuel →
    (∀ y ∈ a, 16 * y.dof < index) → (∀ y ∈ b, index ≤ 16 * y.io) →
    t.readAllLoop rnd size eot fuel index acc =
      { notFound := acc.notFound && b.isEmpty
        sectorsRead := (if b.isEmpty then acc.sectorsRead
          else min 65535 (acc.sectorsRead + (upTo eot (toMap b)).length))
        readBuf := acc.readBuf ++ (upTo eot (toMap b)).flatMap (·.2)
        deletedMark := acc.deletedMark
        addressCrcError := acc.addressCrcError
        dataCrcError := acc.dataCrcError }
  | [], a, fuel + 1, index, acc, h, _, _, ha, _ => by
    rw [Track.readAllLoop]
    obtain ⟨B, hs⟩ := h.stream
    obtain ⟨lo, _, _, hpl⟩ := hs.placed
    have : t.nextSector index = .notFound false false false := by
      unfold Track.nextSector
      rw [h.items, nextLoop_iam, nextLoop_first index [] a]
      · rfl
      · intro y hy
        have := placed_mem hpl (x := y) (by simp [hy])
        exact ⟨by omega, ha y hy⟩
    rw [this]
    simp [toMap, upTo]
  | x :: b, a, fuel + 1, index, acc, h, hb, hf, ha, hi => by
    obtain ⟨B, hs⟩ := h.stream
    obtain ⟨lo, _, _, hpl⟩ := hs.placed
    obtain ⟨d1, d2, d3, d4, d5⟩ := placed_disjoint hpl
    have hmem : x ∈ a ++ x :: b := by simp
    obtain ⟨hcl, hsz⟩ := hb x (by simp)
    have hsec := hs.secOk x hmem
    have hnext : t.nextSector index =
        .found (iam.toList.length + 4 * a.length + 2) x.id false x.de x.del false false := by
      unfold Track.nextSector
      rw [h.items, nextLoop_iam, nextLoop_first index (x :: b) a, nextLoop_hit index x b (by omega) (hi x (by simp))]
      intro y hy
      exact ⟨by have := d1 y hy; omega, ha y hy⟩
    have hbuf : ((t.data.seekStart (16 * x.dof + 64)).readBytes rnd size).1 = x.data := by
      have hstop : x.stop = x.dof + 6 + x.data.length := rfl
      have hrd := hs.seekRead h.clock rnd (mem_dam (iam := iam) hmem) (b := x.dof + 4) (n := size)
        (by omega) (by omega)
      rw [show 16 * x.dof + 64 = 16 * (x.dof + 4) by omega, hrd]
      show slice B (x.dof + 4) size = x.data
      have hbody := hsec.body
      have hml := markBytes_length (dataMark x.del)
      have : slice (slice B x.dof (6 + x.data.length)) 4 size = x.data := by
        rw [hbody]
        exact slice_append_mid _ _ _ _ _ hml.symm hsz.symm
      rw [← this]
      unfold slice
      rw [List.drop_take, List.take_take, List.drop_drop]
      congr 1
      omega
    have hx2 : 16 * x.dof + 64 + x.data.length * 16 ≤ 16 * x.stop := by
      have : x.stop = x.dof + 6 + x.data.length := rfl
      omega
    rw [Track.readAllLoop, hnext]
    simp only [h.items, itemsOf_getElem, hbuf, hcl.1, hcl.2.1, Bool.or_false]
    by_cases he : x.id.s = eot
    · rw [if_pos he]
      simp [toMap, upTo, he]
    · rw [if_neg he]
      rw [readAll_loop rnd size eot b (a ++ [x]) fuel _ _ (by rw [List.append_assoc]; exact h)
        (fun y hy => hb y (by simp [hy])) (by simp at hf; omega)
        (by
          intro y hy
          rcases List.mem_append.1 hy with hy | hy
          · have := ha y hy
            have := hi x (by simp)
            omega
          · rw [List.mem_singleton] at hy; subst hy; omega)
        (by
          intro y hy
          have := (d2 y hy).1
          omega)]
      have hup : upTo eot (toMap (x :: b)) = (x.id, x.data) :: upTo eot (toMap b) := by
        show upTo eot ((x.id, x.data) :: toMap b) = _
        rw [upTo, if_neg he]
      simp only [hup, List.flatMap_cons, List.append_assoc, Bool.false_and, List.length_cons,
        List.isEmpty_cons, Bool.and_false, Bool.false_eq_true, if_false]
      cases b with
      | nil => simp [toMap, upTo]
      | cons z b => simp; omega

theorem rel_after_map {N : Nat} : ∀ (ops : List TrackOp) (t : Track) (iam : Option Nat) (secs : List Sec),
    Rel N t iam secs → (∀ op ∈ ops, op.Ok N) →
    ∃ iam' secs', Rel N (trackAfter t ops) iam' secs' ∧ toMap secs' = mapAfter (toMap secs) ops
  | [], _, iam, secs, h, _ => ⟨iam, secs, h, rfl⟩
  | op :: ops, t, iam, secs, h, hops => by
    have : ∃ iam' secs', Rel N (trackStep t op).1 iam' secs' ∧ toMap secs' = (mapStep (toMap secs) op).1 := by
      by_cases hk : op.KeepsLayout
      · obtain ⟨secs', h1, _, h3, _⟩ := step_keeps h op hk
        exact ⟨iam, secs', h1, h3⟩
      · cases op with
        | format rnd std ids pat gap3 =>
          by_cases hp : pat = []
          · have hf : t.format rnd std ids pat gap3 = .error .parameter := by
              unfold Track.format formatTrackAsBytes; rw [if_pos hp]
            exact ⟨iam, secs, by simp only [trackStep, hf]; exact h, by simp [mapStep, hp]⟩
          · refine ⟨_, _, (step_format h.ok.formattable h.len rnd std ids pat gap3 (hops _ (by simp)) hp).1, ?_⟩
            simp only [mapStep, if_neg hp]
            exact fresh_eq std pat gap3 ids _ _
        | _ => exact absurd trivial hk
    obtain ⟨iam', secs', h1, h2⟩ := this
    obtain ⟨i2, s2, g1, g2⟩ := rel_after_map ops _ iam' secs' h1 (fun o ho => hops o (by simp [ho]))
    exact ⟨i2, s2, g1, by rw [g2, h2]; rfl⟩

/-- **C36 (bitstream).** After any history of formats, writes, reads and rescans that begins with a format,
on a track whose sectors all have the requested size, reading the whole track returns the current contents
of the sectors in track order, up to and including the first sector numbered `eot` (all of them if there is
none), with no error flag; "not found" is reported exactly when there is no sector. -/
theorem C36_read_all_sectors (t : Track) (ht : Formattable t) (rnd : Nat → Bool) (std : Standard)
    (ids : List Chsn) (pat : List Byte) (hp : pat ≠ []) (gap3 : Nat) (ops : List TrackOp)
    (hops : ∀ op ∈ TrackOp.format rnd std ids pat gap3 :: ops, op.Ok t.data.len) (n eot : Nat)
    (rnd' : Nat → Bool)
    (hsz : ∀ e ∈ mapAfter [] (.format rnd std ids pat gap3 :: ops), e.2.length = nSize n) :
    let m := mapAfter [] (.format rnd std ids pat gap3 :: ops)
    let r := (trackAfter t (.format rnd std ids pat gap3 :: ops)).readAllSectors rnd' n eot
    r.readBuf = (upTo eot m).flatMap (·.2) ∧ (r.notFound = true ↔ m = []) ∧
      r.sectorsRead = min 65535 (upTo eot m).length ∧
      r.deletedMark = false ∧ r.addressCrcError = false ∧ r.dataCrcError = false := by
  intro m r
  obtain ⟨h1, _⟩ := step_format (N := t.data.len) ht rfl rnd std ids pat gap3 (hops _ (by simp)) hp
  obtain ⟨iam, secs, hr, hm⟩ := rel_after_map ops _ _ _ h1 (fun o ho => hops o (by simp [ho]))
  have hm' : toMap secs = m := by
    rw [hm]
    show _ = mapAfter (mapStep [] (.format rnd std ids pat gap3)).1 ops
    simp only [mapStep, if_neg hp]
    unfold formatted
    rw [fresh_eq]
  have hr' : Rel t.data.len (trackAfter t (.format rnd std ids pat gap3 :: ops)) iam secs := hr
  have hlen : secs.length < (trackAfter t (.format rnd std ids pat gap3 :: ops)).items.length + 1 := by
    rw [hr'.ok.items, itemsOf_eq]
    have : ∀ l : List Sec, l.length ≤ (itemsFrom l).length := by
      intro l
      induction l with
      | nil => simp
      | cons x l ih => rw [itemsFrom_cons]; simp; omega
    have := this secs
    simp; omega
  have key := readAll_loop rnd' (nSize n) eot secs [] _ 0 {} hr'.ok (by
    intro x hx
    refine ⟨hr'.clean x hx, hsz (x.id, x.data) ?_⟩
    rw [show mapAfter [] (.format rnd std ids pat gap3 :: ops) = m from rfl, ← hm']
    exact List.mem_map.2 ⟨x, hx, rfl⟩) hlen (by simp) (by simp)
  have hrr : r = _ := key
  rw [hm'] at hrr
  have he : secs.isEmpty = m.isEmpty := by rw [← hm']; cases secs <;> rfl
  rw [he] at hrr
  rw [hrr]
  refine ⟨rfl, ?_, ?_, rfl, rfl, rfl⟩
  · simp
  · cases m with
    | nil => simp [upTo]
    | cons e m => simp

/-- The hypotheses of C36 hold on the library's own track, written once. -/
example : ∃ t, Formattable t ∧
    (∀ op ∈ [TrackOp.format (fun _ => false) .ibm exIds [0xF6#8] 0x50,
      .write (.ofChsn ⟨3, 1, 4, 2⟩) (List.replicate 512 0xA5#8) false false], op.Ok t.data.len) ∧
    (∀ e ∈ mapAfter [] [TrackOp.format (fun _ => false) .ibm exIds [0xF6#8] 0x50,
      .write (.ofChsn ⟨3, 1, 4, 2⟩) (List.replicate 512 0xA5#8) false false], e.2.length = nSize 2) := by
  obtain ⟨t, _, h2, h3⟩ := emptyTrack_formattable 100000
  have hf : Fits .ibm 0x50 exIds 100000 := by decide
  refine ⟨_, h3, ?_, by decide +kernel⟩
  intro op hop
  simp only [List.mem_cons, List.not_mem_nil, or_false] at hop
  rcases hop with rfl | rfl
  · refine ⟨?_, by rw [show (_ : Track).data.len = 100000 from h2]; exact hf⟩
    simp [exIds, Chsn.WF]; intro i hi; omega
  · trivial

/-! ### Metasector tracks -/

theorem metaReadAll_loop (rnd : Nat → Nat → Byte) (len : Nat) (hlen : len ≤ 65535) :
    ∀ (l : List MetaSector) (i : Nat) (acc : Track.ReadTrack),
    (∀ s ∈ l, s.noDam = false ∧ (∀ b ∈ s.weak.mask, b = 0#8) ∧ (∀ b ∈ s.hole.mask, b = 0#8)) →
    acc.sectorsRead ≤ len →
    ∃ r, MetaTrack.readAllLoop rnd len i l acc = .ok r ∧
      r.readBuf = acc.readBuf ++ (l.take (len - acc.sectorsRead)).flatMap (·.data) ∧
      (r.notFound = true ↔ acc.notFound = true ∧ l = []) ∧
      r.sectorsRead = acc.sectorsRead + min (len - acc.sectorsRead) l.length
  | [], i, acc, _, _ => ⟨acc, rfl, by simp, by simp, by simp⟩
  | s :: l, i, acc, h, ha => by
    rw [MetaTrack.readAllLoop]
    by_cases hc : acc.sectorsRead ≥ len
    · rw [if_pos hc]
      have : len - acc.sectorsRead = 0 := by omega
      exact ⟨_, rfl, by simp [this], by simp, by simp [this]⟩
    · rw [if_neg hc]
      obtain ⟨h1, h2, h3⟩ := h s (by simp)
      have hd : s.readData (rnd i) = .ok s.data := by
        unfold MetaSector.readData
        rw [h1, if_neg (by simp), applyMasks_zero _ _ _ _ _ h2 h3]
      rw [hd]
      simp only
      have hmin : min 65535 (acc.sectorsRead + 1) = acc.sectorsRead + 1 := by omega
      rw [hmin]
      obtain ⟨r, g1, g2, g3, g4⟩ := metaReadAll_loop rnd len hlen l (i + 1)
        ⟨false, acc.sectorsRead + 1, acc.readBuf ++ s.data, acc.deletedMark || s.deletedMark,
          acc.addressCrcError || s.addressError, acc.dataCrcError || s.dataError⟩
        (fun x hx => h x (by simp [hx])) (by simp only; omega)
      refine ⟨r, g1, ?_, ?_, ?_⟩
      · rw [g2]
        have : len - acc.sectorsRead = (len - (acc.sectorsRead + 1)) + 1 := by omega
        rw [this, List.take_succ_cons, List.flatMap_cons, List.append_assoc]
      · rw [g3]; simp
      · rw [g4, List.length_cons]
        simp only
        omega

/-- **C36 (metasector).** Reading a whole sector-list track returns the contents of its first `len`
sectors in order. -/
theorem C36_metasector (t : MetaTrack) (ht : t.Sound) (rnd : Nat → Nat → Byte) (len : Nat)
    (hlen : len ≤ 255) :
    ∃ r, t.readAllSectors rnd len = .ok r ∧ r.readBuf = (t.sectors.take len).flatMap (·.data) ∧
      (r.notFound = true ↔ t.sectors = []) ∧ r.sectorsRead = min len t.sectors.length := by
  obtain ⟨r, h1, h2, h3, h4⟩ := metaReadAll_loop rnd len (by omega) t.sectors 0 {}
    (fun s hs => ⟨(ht s hs).1, (ht s hs).2.1, (ht s hs).2.2.1⟩) (by simp)
  refine ⟨r, h1, ?_, ?_, ?_⟩
  · simpa using h2
  · simpa using h3
  · simpa using h4

theorem newSector_sound (ch : Ch) (c : Chsn) (d : List Byte) (h : d.length = c.size) :
    MetaTrack.Sound ⟨ch, [MetaTrack.newSector ⟨c, d, none, none, false, false, false, false, false⟩]⟩ := by
  intro s hs
  rw [List.mem_singleton.1 hs]
  exact ⟨rfl, fun b hb => (List.mem_replicate.1 hb).2, fun b hb => (List.mem_replicate.1 hb).2, h⟩

example : MetaTrack.Sound ⟨⟨0, 0⟩, [MetaTrack.newSector ⟨⟨0, 0, 1, 0⟩, List.replicate 128 1#8, none, none,
    false, false, false, false, false⟩]⟩ :=
  newSector_sound _ _ _ (by rw [List.length_replicate]; decide)

end Fox
