import Verif.Model.Resolution
import Verif.Props.Disk
import Verif.Props.VizData
/-
C143: the resolutions of an image.
-/
namespace Fox
open Spec Viz

theorem mem_resolutions (d : Disk) (r : Resolution) : r ∈ d.resolutions ↔ d.res.has r = true := by
  unfold Disk.resolutions
  rw [List.mem_filter]
  exact ⟨fun h => h.2, fun h => ⟨by cases r <;> simp, h⟩⟩

theorem has_insert (s : ResSet) (r x : Resolution) : (s.insert r).has x = true ↔ x = r ∨ s.has x = true := by
  cases r <;> cases x <;> simp [ResSet.insert, ResSet.has]

/-- Every track has a resolution that is listed. -/
def ResSound (d : Disk) : Prop := ∀ t ∈ d.pool, d.res.has t.resolution = true

theorem resSound_insert {d : Disk} (h : ResSound d) (r : Resolution) : ResSound { d with res := d.res.insert r } :=
  fun t ht => (has_insert _ _ _).2 (.inr (h t ht))

theorem resSound_push {d : Disk} (h : ResSound d) (k : Nat) (t : DiskTrack) (ht : d.res.has t.resolution = true) : ResSound (d.pushTrack k t) := by
  intro t' ht'
  rw [res_pushTrack]
  rw [pool_pushTrack] at ht'
  rcases List.mem_append.1 ht' with ht' | ht'
  · exact h t' ht'
  · rw [List.mem_singleton.1 ht']; exact ht

theorem emptyBit_resolution {ch : Ch} {enc : Encoding} {cells : Nat} {clock : Option Bool} {t : DiskTrack} (h : Disk.emptyBit ch enc cells clock = .ok t) :
    t.resolution = .bitStream := by
  unfold Disk.emptyBit at h
  split at h
  · cases hm : Mfm.new ((List.range cells).map fun i => i % 2 == Bool.toNat _) none none with
    | error e => rw [hm] at h; cases h
    | ok x => rw [hm] at h; injection h with h; rw [← h]; rfl
  · cases hm : Mfm.new (List.replicate cells false) none none with
    | error e => rw [hm] at h; cases h
    | ok x => rw [hm] at h; injection h with h; rw [← h]; rfl
  · cases h
  · injection h with h; rw [← h]; rfl

theorem min_has {s : ResSet} {r : Resolution} (h : s.min = some r) : s.has r = true := by
  unfold ResSet.min at h
  split at h
  · injection h with h; subst h; assumption
  · split at h
    · injection h with h; subst h; assumption
    · split at h
      · injection h with h; subst h; assumption
      · cases h

theorem resSound_step {d : Disk} (h : ResSound d) (op : DiskOp) : ResSound (diskStep d op) := by
  have hsub : ∀ d' : Disk, d'.res = d.res → (∀ t' ∈ d'.pool, ∃ t ∈ d.pool, t'.resolution = t.resolution) → ResSound d' := by
    intro d' h1 h2 t ht
    obtain ⟨u, hu, e⟩ := h2 t ht
    rw [h1, e]
    exact h u hu
  by_cases ha : op.Adds
  · cases op with
    | addBit ch made =>
      simp only [diskStep, Disk.addBit]
      split
      · exact h
      · split
        · exact h
        · cases made with
          | error e => exact resSound_insert h _
          | ok t => exact resSound_push (resSound_insert h _) _ _ ((has_insert d.res .bitStream .bitStream).2 (.inl rfl))
    | addMeta ch =>
      simp only [diskStep, Disk.addMeta]
      split
      · exact h
      · split
        · exact h
        · exact resSound_push (resSound_insert h _) _ _ ((has_insert d.res .metaSector .metaSector).2 (.inl rfl))
    | addFlux ch made =>
      simp only [diskStep, Disk.addFlux]
      split
      · exact h
      · split
        · exact h
        · cases made with
          | error e => exact resSound_insert h _
          | ok t => exact resSound_push (resSound_insert h _) _ _ ((has_insert d.res .fluxStream .fluxStream).2 (.inl rfl))
    | addEmpty ch enc res cells clock =>
      have hfin : ∀ d' : Disk, ResSound d' → ResSound (match d'.res.min with
          | some .bitStream =>
            if (d'.headMap ch.h).length ≠ ch.c then (d', Except.error Err.parameter)
            else match Disk.emptyBit ch enc cells clock with
              | .error e => (d', .error e)
              | .ok t => (d'.pushTrack ch.h t, .ok d'.pool.length)
          | some .metaSector =>
            if (d'.headMap ch.h).length ≠ ch.c then (d', .error .parameter)
            else (d'.pushTrack ch.h (.sect { ch := ch }), .ok d'.pool.length)
          | _ => (d', .error .incompatible)).1 := by
        intro d' hd
        split
        · next hmin =>
          split
          · exact hd
          · split
            · exact hd
            · next t ht => exact resSound_push hd _ _ (by rw [emptyBit_resolution ht]; exact min_has hmin)
        · next hmin =>
          split
          · exact hd
          · exact resSound_push hd _ _ (min_has hmin)
        · exact hd
      simp only [diskStep, Disk.addEmpty]
      split
      · exact h
      · cases res with
        | none =>
          simp only
          split
          · exact h
          · exact hfin d h
        | some r =>
          simp only
          split
          · exact h
          · exact hfin { d with res := d.res.insert r } (resSound_insert h r)
    | _ => exact absurd ha id
  · have hremap : ∀ l c (pool : List DiskTrack), ∀ t' ∈ Disk.remapHead c l pool, ∃ t ∈ pool, t'.resolution = t.resolution := by
      intro l c pool t' ht'
      obtain ⟨j, hj⟩ := List.mem_iff_getElem?.1 ht'
      have hlt := (List.getElem?_eq_some_iff.1 hj).1
      rw [remapHead_length] at hlt
      obtain ⟨t, h1, _, h3⟩ := remapHead_same l c pool j pool[j] (List.getElem?_eq_getElem hlt)
      rw [hj] at h1; cases h1
      exact ⟨_, List.getElem_mem hlt, h3⟩
    have hodd : ∀ g, ResSound ({ d.removeOdd with geometry := g } : Disk).remap := by
      intro g
      refine hsub _ rfl ?_
      intro t' ht'
      obtain ⟨t1, h1, e1⟩ := hremap _ _ _ t' ht'
      obtain ⟨t2, h2, e2⟩ := hremap _ _ _ t1 h1
      exact ⟨t2, h2, e1.trans e2⟩
    by_cases hr : op.Removes
    · cases op with
      | normalize H nz =>
        simp only [diskStep, Disk.normalize]
        split
        · exact hodd _
        · split
          · exact hodd _
          · exact h
      | removeEmpty => exact hsub _ rfl (fun t ht => ⟨t, ht, rfl⟩)
      | _ => exact absurd hr id
    · by_cases hreset : op = .reset
      · subst hreset
        exact hsub _ rfl (by intro t ht; exact absurd ht List.not_mem_nil)
      · obtain ⟨_, _, e2, e3, hp⟩ := touch_cases d op ha hr hreset
        refine hsub _ e2 ?_
        intro t' ht'
        rcases hp with hp | ⟨j, a, b, h1, _, h2, hp⟩
        · rw [hp] at ht'; exact ⟨t', ht', rfl⟩
        · rw [hp] at ht'
          rcases List.mem_or_eq_of_mem_set ht' with ht' | rfl
          · exact ⟨t', ht', rfl⟩
          · exact ⟨a, List.mem_of_getElem? h1, h2⟩

theorem resSound_after : ∀ (ops : List DiskOp) (d : Disk), ResSound d → ResSound (diskAfter d ops)
  | [], _, h => h
  | op :: ops, _, h => resSound_after ops _ (resSound_step h op)

/-- A new image, that holds tracks of several resolutions or not. -/
def newImage (multires : Bool) : Disk := { multires }

/-- **C143 (partial).** Whatever was done to an image, the resolution of each of its tracks is listed; if it has a track with cells, it says that it can be
visualized; and if it says that it cannot, no data can be drawn of either side.
Missing: that nothing else is listed (refuted below; `C143_exact`). -/
theorem C143_listed_partial (multires : Bool) (ops : List DiskOp) :
    let d := diskAfter (newImage multires) ops
    (∀ t ∈ d.pool, t.resolution ∈ d.resolutions) ∧
    (∀ t ∈ d.pool, ∀ s, WithCells t s → d.canVisualize = true) ∧
    (d.canVisualize = false → ∀ (p : Params) (side slices : Nat) (ov : Rat), side ≤ 1 → ¬ ∃ dl, dataSlices d p side slices ov = .ok dl) := by
  have hs := resSound_after ops (newImage multires) (by intro t ht; cases ht)
  have hv : ∀ t ∈ (diskAfter (newImage multires) ops).pool, ∀ s, WithCells t s → (diskAfter (newImage multires) ops).canVisualize = true := by
    intro t ht s hc
    have := hs t ht
    obtain ⟨ch, rfl | rfl⟩ := hc
    · have : (diskAfter (newImage multires) ops).res.has .bitStream = true := this
      unfold Disk.canVisualize; rw [this]; simp
    · have : (diskAfter (newImage multires) ops).res.has .fluxStream = true := this
      unfold Disk.canVisualize; rw [this]; rfl
  refine ⟨fun t ht => (mem_resolutions _ _).2 (hs t ht), hv, ?_⟩
  intro hno p side slices ov hside hex
  obtain ⟨_, hne, _⟩ := (C128_defined _ p side slices ov hside).1 hex
  obtain ⟨s, hsm⟩ := List.exists_mem_of_ne_nil _ hne
  obtain ⟨i, _, t, hp, hc⟩ := (C128_drawn _ _ _).1 hsm
  rw [hv t (List.mem_of_getElem? hp) s hc] at hno
  cases hno

/-- Tracks of given data are added, or sectors written, or tracks formatted; and what is added is not refused. -/
def PlainOps : Disk → List DiskOp → Prop
  | _, [] => True
  | d, op :: ops => (match op with
    | .addBit .. | .addMeta .. | .addFlux .. => diskErr d op = none
    | .write .. | .format .. => True
    | _ => False) ∧ PlainOps (diskStep d op) ops

/-- Some track has every resolution that is listed. -/
def ResFull (d : Disk) : Prop := ∀ r, d.res.has r = true → ∃ t ∈ d.pool, t.resolution = r

theorem resFull_step {d : Disk} (h : ResFull d) (op : DiskOp) (hop : PlainOps d [op]) : ResFull (diskStep d op) := by
  have push : ∀ (r : Resolution) (k : Nat) (t : DiskTrack), t.resolution = r → ResFull (({ d with res := d.res.insert r } : Disk).pushTrack k t) := by
    intro r k t ht x hx
    rw [res_pushTrack] at hx
    rw [pool_pushTrack]
    rcases (has_insert _ _ _).1 hx with e | e
    · exact ⟨t, by simp, by rw [ht, e]⟩
    · obtain ⟨u, hu, e⟩ := h x e
      exact ⟨u, by simp [hu], e⟩
  have same : ∀ (op : DiskOp), ¬ op.Adds → ¬ op.Removes → op ≠ .reset → ResFull (diskStep d op) := by
    intro op h1 h2 h3 r hr
    obtain ⟨_, _, e2, _, hp⟩ := touch_cases d op h1 h2 h3
    rw [e2] at hr
    obtain ⟨u, hu, e⟩ := h r hr
    rcases hp with hp | ⟨j, a, b, q1, _, q2, hp⟩
    · exact ⟨u, by rw [hp]; exact hu, e⟩
    · rw [hp]
      obtain ⟨k, hk⟩ := List.mem_iff_getElem?.1 hu
      by_cases ejk : j = k
      · subst ejk
        rw [q1] at hk; cases hk
        refine ⟨b, ?_, by rw [q2]; exact e⟩
        apply List.mem_of_getElem? (i := j)
        rw [List.getElem?_set, if_pos rfl, if_pos (List.getElem?_eq_some_iff.1 q1).1]
      · exact ⟨u, List.mem_of_getElem? (i := k) (by rw [List.getElem?_set, if_neg ejk]; exact hk), e⟩
  cases op with
  | addBit ch made =>
    have he : diskErr d (.addBit ch made) = none := hop.1
    simp only [diskStep, diskErr, Disk.addBit] at he ⊢
    split
    · exact h
    · split
      · exact h
      · rename_i h1 h2
        rw [if_neg h1, if_neg h2] at he
        cases made with
        | error e => simp [diskErr.errOf] at he
        | ok t => exact push _ _ _ rfl
  | addMeta ch =>
    simp only [diskStep, Disk.addMeta]
    split
    · exact h
    · split
      · exact h
      · exact push _ _ _ rfl
  | addFlux ch made =>
    have he : diskErr d (.addFlux ch made) = none := hop.1
    simp only [diskStep, diskErr, Disk.addFlux] at he ⊢
    split
    · exact h
    · split
      · exact h
      · rename_i h1 h2
        rw [if_neg h1, if_neg h2] at he
        cases made with
        | error e => simp [diskErr.errOf] at he
        | ok t => exact push _ _ _ rfl
  | write ch q off buf del dbg => exact same _ (by simp [DiskOp.Adds]) (by simp [DiskOp.Removes]) (by intro e; cases e)
  | format nz ch ids pat gap3 => exact same _ (by simp [DiskOp.Adds]) (by simp [DiskOp.Removes]) (by intro e; cases e)
  | addEmpty => exact hop.1.elim
  | normalize => exact hop.1.elim
  | removeEmpty => exact hop.1.elim
  | reset => exact hop.1.elim

/-- **C143.** After any history of added tracks, of writes and of formatting in which no track was refused, exactly the resolutions of the tracks are listed. -/
theorem C143_exact (multires : Bool) (ops : List DiskOp) (h : PlainOps (newImage multires) ops) (r : Resolution) :
    r ∈ (diskAfter (newImage multires) ops).resolutions ↔ ∃ t ∈ (diskAfter (newImage multires) ops).pool, t.resolution = r := by
  have hs := resSound_after ops (newImage multires) (by intro t ht; cases ht)
  have hf : ∀ (ops : List DiskOp) (d : Disk), ResFull d → PlainOps d ops → ResFull (diskAfter d ops) := by
    intro ops
    induction ops with
    | nil => intro d h _; exact h
    | cons op ops ih => intro d h hp; exact ih _ (resFull_step h op ⟨hp.1, trivial⟩) hp.2
  rw [mem_resolutions]
  constructor
  · exact hf ops _ (by intro r hr; cases r <;> cases hr) h r
  · rintro ⟨t, ht, rfl⟩; exact hs t ht

/-- Two resolutions on one image. -/
example : PlainOps (newImage true) [.addMeta ⟨0, 0⟩, .addFlux ⟨0, 1⟩ (.ok none), .write ⟨0, 0⟩ (.ofChsn ⟨0, 0, 1, 2⟩) none [] false false] ∧
    (diskAfter (newImage true) [.addMeta ⟨0, 0⟩, .addFlux ⟨0, 1⟩ (.ok none)]).resolutions = [.metaSector, .fluxStream] :=
  ⟨⟨rfl, rfl, trivial, trivial⟩, rfl⟩

/-- **C143 is false of the code: refused tracks.** A track that could not be made is listed, and the image without tracks says it can be visualized. -/
theorem C143_false_refused (multires : Bool) (ch : Ch) (hh : ch.h < 2) (e : Err) :
    let d := diskAfter (newImage multires) [.addBit ch (.error e)]
    d.pool = [] ∧ d.resolutions = [.bitStream] ∧ d.canVisualize = true := by
  have : ¬ ch.h ≥ 2 := by omega
  cases multires <;> simp [diskAfter, diskStep, Disk.addBit, newImage, Disk.rejects, ResSet.isEmpty, this, Disk.resolutions, ResSet.insert, ResSet.has, Disk.canVisualize] <;> rfl

/-- **C143 is false of the code: reset images.** A reset image has no tracks, and lists what it listed before: tracks of another resolution are refused. -/
theorem C143_false_reset (d : Disk) : (diskStep d .reset).pool = [] ∧ (diskStep d .reset).resolutions = d.resolutions ∧ (diskStep d .reset).canVisualize = d.canVisualize ∧
    (d.resolutions = [.bitStream] → ∀ ch : Ch, ch.h < 2 → diskErr (diskStep d .reset) (.addMeta ch) = some .incompatible) := by
  refine ⟨rfl, rfl, rfl, ?_⟩
  intro h ch hh
  have hb : d.res.has .bitStream = true := (mem_resolutions _ _).1 (by rw [h]; simp)
  have hs : d.res.has .metaSector = false := by
    cases e : d.res.has .metaSector with
    | false => rfl
    | true =>
      have := (mem_resolutions d .metaSector).2 e
      rw [h] at this
      simp at this
  have hrej : d.reset.rejects .metaSector = true := by
    have e1 : d.reset.res = d.res := rfl
    have e2 : d.reset.multires = false := rfl
    unfold Disk.rejects
    rw [e1, e2, hs]
    have : d.res.bit = true := hb
    unfold ResSet.isEmpty
    rw [this]
    simp

  have hn : ¬ ch.h ≥ 2 := by omega
  show diskErr.errOf (d.reset.addMeta ch).2 = _
  simp [Disk.addMeta, hn, hrej, diskErr.errOf]


/-- **C143 is false of the code: flux that was not understood.** Such an image says it can be visualized, and nothing can be drawn. -/
theorem C143_false_flux (multires : Bool) (p : Params) (side slices : Nat) (ov : Rat) (hs : side ≤ 1) :
    let d := diskAfter (newImage multires) [.addFlux ⟨0, 0⟩ (.ok none)]
    d.canVisualize = true ∧ ¬ ∃ dl, dataSlices d p side slices ov = .ok dl := by
  refine ⟨by cases multires <;> rfl, ?_⟩
  rw [C128_defined _ _ _ _ _ hs]
  rintro ⟨_, h, _⟩
  apply h
  have : side = 0 ∨ side = 1 := by omega
  rcases this with rfl | rfl <;> cases multires <;> rfl

end Fox
