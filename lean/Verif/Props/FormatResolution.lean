import Verif.Model.FormatResolution
import Verif.Spec.FormatResolution
import Verif.Props.Resolution
import Verif.Props.SauceEx
import Verif.Props.Caps
/-
C149: the resolution a file format states, and that of the images loaded from it.
-/
namespace Fox
open Spec

theorem only_push {r : Resolution} {d : Disk} (h : HoldsOnly r d) (k : Nat) {t : DiskTrack} (ht : t.resolution = r) :
    HoldsOnly r ({ d with res := d.res.insert r }.pushTrack k t) := by
  constructor
  · intro t' ht'
    rw [pool_pushTrack] at ht'
    rcases List.mem_append.1 ht' with ht' | ht'
    · exact h.1 t' ht'
    · rw [List.mem_singleton.1 ht']; exact ht
  · intro r' hr'
    rw [res_pushTrack] at hr'
    rcases (has_insert _ _ _).1 hr' with e | e
    · exact e
    · exact h.2 r' e

theorem only_set {r : Resolution} {d : Disk} (h : HoldsOnly r d) (i : Nat) {t : DiskTrack} (ht : t.resolution = r) :
    HoldsOnly r { d with pool := d.pool.set i t } := by
  refine ⟨fun t' ht' => ?_, h.2⟩
  rcases List.mem_or_eq_of_mem_set ht' with ht' | ht'
  · exact h.1 t' ht'
  · rw [ht']; exact ht

theorem only_addBit {d d' : Disk} {ch : Ch} {m : Except Err Track} {i : Nat} (h : HoldsOnly .bitStream d) (e : d.addBit ch m = (d', .ok i)) :
    HoldsOnly .bitStream d' := by
  unfold Disk.addBit at e
  split at e
  · cases e
  · split at e
    · cases e
    · cases m with
      | error x => cases e
      | ok t =>
        obtain ⟨rfl, _⟩ := Prod.mk.inj e
        exact only_push h _ rfl

theorem only_addFlux {d d' : Disk} {ch : Ch} {m : Except Err (Option Track)} {i : Nat} (h : HoldsOnly .fluxStream d)
    (e : d.addFlux ch m = (d', .ok i)) : HoldsOnly .fluxStream d' := by
  unfold Disk.addFlux at e
  split at e
  · cases e
  · split at e
    · cases e
    · cases m with
      | error x => cases e
      | ok t =>
        obtain ⟨rfl, _⟩ := Prod.mk.inj e
        exact only_push h _ rfl

theorem only_addMeta {d d' : Disk} {ch : Ch} {i : Nat} (h : HoldsOnly .metaSector d) (e : d.addMeta ch = (d', .ok i)) :
    HoldsOnly .metaSector d' := by
  unfold Disk.addMeta at e
  split at e
  · cases e
  · split at e
    · cases e
    · obtain ⟨rfl, _⟩ := Prod.mk.inj e
      exact only_push h _ rfl

theorem only_addEmpty {d d' : Disk} {ch : Ch} {enc : Encoding} {cells : Nat} {clock : Option Bool} {i : Nat} (h : HoldsOnly .bitStream d)
    (e : d.addEmpty ch enc (some .bitStream) cells clock = (d', .ok i)) : HoldsOnly .bitStream d' := by
  have hmin : (d.res.insert .bitStream).min = some .bitStream := by
    cases hm : (d.res.insert .bitStream).min with
    | none =>
      exfalso
      have : (d.res.insert .bitStream).has .bitStream = true := (has_insert _ _ _).2 (.inl rfl)
      unfold ResSet.min at hm
      simp only [ResSet.has] at this
      split at hm
      · cases hm
      · cases hm
    | some r =>
      have := min_has hm
      rcases (has_insert _ _ _).1 this with e | e
      · rw [e]
      · rw [h.2 r e]
  unfold Disk.addEmpty at e
  split at e
  · cases e
  · simp only at e
    split at e
    · cases e
    · rw [hmin] at e
      simp only at e
      split at e
      · cases e
      · cases hx : Disk.emptyBit ch enc cells clock with
        | error x => rw [hx] at e; cases e
        | ok t =>
          rw [hx] at e
          obtain ⟨rfl, _⟩ := Prod.mk.inj e
          exact only_push h _ (emptyBit_resolution hx)

/-! ## The formats -/

theorem only_geometry {r : Resolution} {d : Disk} (h : HoldsOnly r d) (g : Ch) : HoldsOnly r { d with geometry := g } := h

theorem only_imdTrack {debug : Bool} {st st' : Imd.State} {x : Imd.Header} {bs bs' : List Byte} (h : HoldsOnly .metaSector st.disk)
    (e : Imd.track debug st x bs = .ok (st', bs')) : HoldsOnly .metaSector st'.disk := by
  unfold Imd.track at e
  simp only at e
  repeat' (split at e <;> try contradiction)
  all_goals (cases e; exact only_set (only_addMeta h ‹_ = (_, Except.ok _)›) _ rfl)

theorem only_imdLoop (debug : Bool) : ∀ (n : Nat) (st st' : Imd.State) (bs : List Byte), HoldsOnly .metaSector st.disk →
    Imd.loop debug n st bs = .ok st' → HoldsOnly .metaSector st'.disk
  | 0, st, st', bs, h, e => by rw [Imd.loop.eq_def] at e; simp only at e; cases e; exact h
  | n + 1, st, st', bs, h, e => by
    rw [Imd.loop.eq_def] at e
    split at e
    · cases e; exact h
    · rename_i heq
      cases heq
      split at e
      · cases e
      · rename_i x st1 bs1 hx
        exact only_imdLoop debug _ st1 st' bs1 (only_imdTrack h hx) e
    · cases e; exact h

theorem only_psiAdd {st st' : Psi.State} {p : AddSector} (h : HoldsOnly .metaSector st.disk) (e : Psi.addSector st p = .ok st') :
    HoldsOnly .metaSector st'.disk := by
  unfold Psi.addSector at e
  repeat' (split at e <;> try contradiction)
  all_goals (cases e; exact only_set h _ rfl)

theorem only_psiSect {st st' : Psi.State} {a b c d e f g i : Byte} (h : HoldsOnly .metaSector st.disk) (he : Psi.sect st a b c d e f g i = .ok st') :
    HoldsOnly .metaSector st'.disk := by
  unfold Psi.sect at he
  simp only at he
  repeat' (split at he <;> try contradiction)
  all_goals first
    | (cases he; assumption)
    | (rename_i hx _
       split at hx
       · cases hx
         first
           | exact only_psiAdd (by exact h) he
           | (cases he; exact h)
       · split at hx
         · cases hx
         · cases hx
           have := only_addMeta h ‹_ = (_, Except.ok _)›
           first
             | exact only_psiAdd (by exact this) he
             | (cases he; exact this))

theorem only_psiStep {st st' : Psi.State} {c : Pce.Chunk} (h : HoldsOnly .metaSector st.disk) (e : Psi.step st c = .ok st') :
    HoldsOnly .metaSector st'.disk := by
  unfold Psi.step at e
  repeat' (split at e <;> try contradiction)
  all_goals first
    | exact only_psiSect h e
    | exact only_psiAdd h e
    | (cases e; exact h)

theorem only_psiLoop : ∀ (n : Nat) (bs : List Byte) (st st' : Psi.State) (c : Pce.Chunk), HoldsOnly .metaSector st.disk →
    Psi.loop n bs st c = .ok st' → HoldsOnly .metaSector st'.disk
  | 0, bs, st, st', c, h, e => by rw [Psi.loop] at e; cases e; exact h
  | n + 1, bs, st, st', c, h, e => by
    rw [Psi.loop] at e
    split at e
    · cases e; exact h
    · split at e
      · cases e
      · split at e
        · cases e
        · exact only_psiLoop n _ _ _ _ (only_psiStep h ‹_›) e

theorem only_td0Loop : ∀ (n : Nat) (st st' : Td0.State) (bs : List Byte), HoldsOnly .metaSector st.disk →
    Td0.loop n st bs = .ok st' → HoldsOnly .metaSector st'.disk
  | 0, st, st', bs, h, e => by rw [Td0.loop.eq_def] at e; simp only at e; cases e
  | n + 1, st, st', bs, h, e => by
    rw [Td0.loop.eq_def] at e
    split at e
    · cases e
    · rename_i heq
      cases heq
      split at e
      · cases e; exact h
      · split at e
        · cases e
        · rename_i hx
          refine only_td0Loop _ _ _ _ ?_ e
          unfold Td0.track at hx
          repeat' (split at hx <;> try contradiction)
          all_goals (cases hx; exact only_set (only_addMeta h ‹_ = (_, Except.ok _)›) _ rfl)
    · cases e; exact h

theorem only_td0Body {d d' : Disk} {c : Bool} {x : Byte} {n : Nat} {body : List Byte} (h : HoldsOnly .metaSector d)
    (e : Td0.loadBody d c x n body = .ok d') : HoldsOnly .metaSector d' := by
  unfold Td0.loadBody at e
  split at e
  · cases e
  · split at e
    · cases e
    · cases e
      exact only_geometry (only_td0Loop _ _ _ _ h ‹_›) _

theorem only_hfe (debug : Bool) (rnd : Nat → Bool) (sides : Nat) (f : List Byte) : ∀ (l : List (Nat × Nat)) (c : Nat) (d d' : Disk),
    HoldsOnly .bitStream d → Hfe.tracks debug rnd sides f l c d = .ok d' → HoldsOnly .bitStream d'
  | [], c, d, d', h, e => by rw [Hfe.tracks] at e; cases e; exact h
  | (o, len) :: rest, c, d, d', h, e => by
    rw [Hfe.tracks] at e
    split at e
    · cases e
    · split at e
      · cases e
      · split at e
        · cases e
        · rename_i h1
          split at e
          · split at e
            · cases e
            · rename_i h2
              exact only_hfe debug rnd sides f rest _ _ _ (only_addBit (only_addBit h h1) h2) e
          · exact only_hfe debug rnd sides f rest _ _ _ (only_addBit h h1) e

theorem only_tc (debug : Bool) (rnd : Nat → Bool) (shift sides : Nat) (f : List Byte) : ∀ (l : List (Nat × Nat)) (i hd : Nat) (d d' : Disk),
    HoldsOnly .bitStream d → Tc.tracks debug rnd shift sides f l i hd d = .ok d' → HoldsOnly .bitStream d'
  | [], i, hd, d, d', h, e => by rw [Tc.tracks] at e; cases e; exact h
  | (o, n) :: rest, i, hd, d, d', h, e => by
    rw [Tc.tracks] at e
    split at e
    · cases e
    · split at e
      · cases e
      · rename_i h1
        exact only_tc debug rnd shift sides f rest _ _ _ _ (only_addBit h h1) e

theorem only_hxc (debug : Bool) (rnd : Nat → Bool) (adv : Bool) (f : List Byte) : ∀ (l : List Hxc.Entry) (d d' : Disk),
    HoldsOnly .bitStream d → Hxc.tracks debug rnd adv f l d = .ok d' → HoldsOnly .bitStream d'
  | [], d, d', h, e => by rw [Hxc.tracks] at e; cases e; exact h
  | x :: rest, d, d', h, e => by
    rw [Hxc.tracks] at e
    split at e
    · cases e
    · split at e
      · cases e
      · rename_i h1
        exact only_hxc debug rnd adv f rest _ _ (only_addBit h h1) e

theorem only_f86Add {rnd : Nat → Bool} {d d' : Disk} {ch : Ch} {enc : Encoding} {data : List Byte} {cells : Nat} {weak : Option (List Byte)}
    (h : HoldsOnly .bitStream d) (e : F86.addTrack rnd d ch enc data cells weak = .ok d') : HoldsOnly .bitStream d' := by
  unfold F86.addTrack at e
  split at e
  · split at e
    · cases e
    · cases e; exact only_addBit h ‹_›
  · split at e
    · cases e
    · split at e
      · cases e
      · cases e; exact only_push h _ rfl

theorem only_f86Step {debug : Bool} {bitLen : Encoding → F86.Rate → F86.Rpm → Nat × Bool → Int → Nat} {rnd : Nat → Bool} {flags : Nat} {bs : List Byte}
    {st st' : F86.State} {x : Nat × Nat} (h : HoldsOnly .bitStream st.disk) (e : F86.step debug bitLen rnd flags bs st x = .ok st') :
    HoldsOnly .bitStream st'.disk := by
  unfold F86.step at e
  simp only at e
  repeat' (split at e <;> try contradiction)
  all_goals (cases e; exact only_f86Add h ‹F86.addTrack _ _ _ _ _ _ _ = _›)

theorem only_f86 (debug : Bool) (bitLen : Encoding → F86.Rate → F86.Rpm → Nat × Bool → Int → Nat) (rnd : Nat → Bool) (flags : Nat) (bs : List Byte) :
    ∀ (l : List (Nat × Nat)) (st st' : F86.State), HoldsOnly .bitStream st.disk → F86.steps debug bitLen rnd flags bs st l = .ok st' →
      HoldsOnly .bitStream st'.disk
  | [], st, st', h, e => by rw [F86.steps] at e; cases e; exact h
  | x :: xs, st, st', h, e => by
    rw [F86.steps] at e
    split at e
    · cases e
    · exact only_f86 debug bitLen rnd flags bs xs _ _ (only_f86Step h ‹_›) e

theorem only_priStep {alt : BitVec 32 → BitVec 32 → BitVec 32} {rnd : Nat → Bool} {st st' : Pri.State} {c : Pce.Chunk} (h : HoldsOnly .bitStream st.disk)
    (e : Pri.step alt rnd st c = .ok st') : HoldsOnly .bitStream st'.disk := by
  unfold Pri.step at e
  simp only at e
  repeat' (split at e <;> try contradiction)
  all_goals first
    | (cases e; exact h)
    | (cases e; exact only_addBit h ‹_ = (_, Except.ok _)›)
    | (cases e; exact only_set h _ rfl)

theorem only_priLoop (alt : BitVec 32 → BitVec 32 → BitVec 32) (rnd : Nat → Bool) : ∀ (n : Nat) (bs : List Byte) (st st' : Pri.State) (c : Pce.Chunk),
    HoldsOnly .bitStream st.disk → Pri.loop alt rnd n bs st c = .ok st' → HoldsOnly .bitStream st'.disk
  | 0, bs, st, st', c, h, e => by rw [Pri.loop] at e; cases e; exact h
  | n + 1, bs, st, st', c, h, e => by
    rw [Pri.loop] at e
    split at e
    · cases e; exact h
    · split at e
      · cases e
      · split at e
        · cases e
        · exact only_priLoop alt rnd n _ _ _ _ (only_priStep h ‹_›) e

theorem only_scp (debug : Bool) (rnd : Nat → Bool) (fm : Flux.FmCodec) (f : List Byte) (hd : Scp.Header) : ∀ (l : List Nat) (place : Option Ch) (d : Disk)
    (rate : Option F86.Rate) (r : Disk × Ch × Option F86.Rate), HoldsOnly .fluxStream d → Scp.tracks debug rnd fm f hd l place d rate = .ok r →
    HoldsOnly .fluxStream r.1
  | [], place, d, rate, r, h, e => by rw [Scp.tracks] at e; cases e; exact h
  | o :: rest, place, d, rate, r, h, e => by
    rw [Scp.tracks] at e
    simp only at e
    split at e
    · cases e
    · split at e
      · cases e
      · split at e
        · cases e
        · exact only_scp debug rnd fm f hd rest _ _ _ _ (only_addFlux h ‹_ = (_, Except.ok _)›) e

theorem only_mfi (debug : Bool) (rnd : Nat → Bool) (fm : Flux.FmCodec) : ∀ (l : List (Ch × List Byte)) (d : Disk) (q : Option F86.Density)
    (r : Disk × Option F86.Density), HoldsOnly .fluxStream d → Mfi.tracks debug rnd fm l d q = .ok r → HoldsOnly .fluxStream r.1
  | [], d, q, r, h, e => by rw [Mfi.tracks] at e; cases e; exact h
  | t :: ts, d, q, r, h, e => by
    rw [Mfi.tracks] at e
    simp only at e
    split at e
    · cases e
    · split at e
      · cases e
      · exact only_mfi debug rnd fm ts _ _ _ (only_addFlux h ‹_ = (_, Except.ok _)›) e

theorem only_setResolution {r : Resolution} {d : Disk} (h : ∀ t ∈ d.pool, t.resolution = r) : HoldsOnly r (d.setResolution r) := by
  refine ⟨h, fun r' hr => ?_⟩
  rcases (has_insert {} r r').1 hr with e | e
  · exact e
  · cases r' <;> cases e

theorem only_ipf (room : Nat) (rnd : Nat → Bool) (f : List Byte) (st : Ipf.Store) (i : Ipf.Info) : ∀ (l : List Nat) (d : Disk) (r : Disk × List (Ch × List Chsn)),
    HoldsOnly .bitStream d → Ipf.tracks room rnd f st i l d = .ok r → HoldsOnly .bitStream r.1
  | [], d, r, h, e => by rw [Ipf.tracks] at e; cases e; exact h
  | k :: ks, d, r, h, e => by
    rw [Ipf.tracks] at e
    split at e
    · split at e
      · split at e
        · cases e
        · rename_i hx
          split at e
          · cases e
          · rename_i hy
            cases e
            refine (fun H => only_ipf room rnd f st i ks _ (_, _) H hy) ?_
            unfold Ipf.decodeTrack at hx
            repeat' (split at hx <;> try contradiction)
            all_goals (cases hx; exact only_set (only_addEmpty (only_setResolution h.1) ‹_ = (_, Except.ok _)›) _ rfl)
      · cases e
    · cases e

/-! Raw sector images -/

theorem format_resolution {x y : DiskTrack} {nz : Noise} {std : S34.Standard} {ids : List Chsn} {pat : List Byte} {gap3 : Nat}
    (h : x.format nz std ids pat gap3 = .ok y) : y.resolution = x.resolution := by
  unfold DiskTrack.format at h
  split at h
  · rename_i c t
    cases ht : t.format nz.bit std ids pat gap3 with
    | error e => rw [ht] at h; cases h
    | ok r => rw [ht] at h; cases h; rfl
  · cases h
  · rename_i c t
    cases ht : t.format nz.bit std ids pat gap3 with
    | error e => rw [ht] at h; cases h
    | ok r => rw [ht] at h; cases h; rfl
  · cases h
  · cases h

theorem only_rawBit (f : StdFormat) (nz : Noise) : ∀ (l : List Ch) (file : List Byte) (d d' : Disk), HoldsOnly .bitStream d →
    Raw.bitLoop f nz l file d = .ok d' → HoldsOnly .bitStream d'
  | [], file, d, d', h, e => by rw [Raw.bitLoop] at e; cases e; exact h
  | ch :: rest, file, d, d', h, e => by
    rw [Raw.bitLoop] at e
    split at e
    · cases e
    · rename_i hx
      refine only_rawBit f nz rest _ _ _ ?_ e
      unfold Raw.bitStep at hx
      simp only at hx
      split at hx
      · cases hx
      · rename_i ha
        have h1 := only_addEmpty h ha
        split at hx
        · cases hx
        · split at hx
          · cases hx
          · rename_i hi
            split at hx
            · cases hx
            · rename_i hf
              cases hx
              exact only_set h1 _ ((format_resolution hf).trans (h1.1 _ (List.mem_of_getElem? hi)))

theorem only_rawMeta (f : StdFormat) : ∀ (l : List Ch) (file : List Byte) (d d' : Disk), HoldsOnly .metaSector d →
    Raw.metaLoop f l file d = .ok d' → HoldsOnly .metaSector d'
  | [], file, d, d', h, e => by rw [Raw.metaLoop] at e; cases e; exact h
  | ch :: rest, file, d, d', h, e => by
    rw [Raw.metaLoop] at e
    split at e
    · cases e
    · rename_i hx
      refine only_rawMeta f rest _ _ _ ?_ e
      unfold Raw.metaStep at hx
      repeat' (split at hx <;> try contradiction)
      all_goals (cases hx; exact only_set (only_addMeta h ‹_ = (_, Except.ok _)›) _ rfl)

theorem only_fresh (r : Resolution) : HoldsOnly r {} := by
  refine ⟨fun t h => (by cases h), fun r' h => ?_⟩
  cases r' <;> cases h

/-! KryoFlux -/

theorem only_addFlux' {d : Disk} (h : HoldsOnly .fluxStream d) (ch : Ch) (m : Except Err (Option Track)) : HoldsOnly .fluxStream (d.addFlux ch m).1 := by
  unfold Disk.addFlux
  split
  · exact h
  · split
    · exact h
    · cases m with
      | error x =>
        refine ⟨h.1, fun r' hr => ?_⟩
        rcases (has_insert _ _ _).1 hr with e | e
        · exact e
        · exact h.2 r' e
      | ok t => exact only_push h _ rfl

theorem only_kryo (debug : Bool) (rnd : Nat → Bool) (fm : Flux.FmCodec) (d : Disk) (q : Kryo.Desc) (f : List Byte) (h : ∀ t ∈ d.pool, t.resolution = .fluxStream) :
    HoldsOnly .fluxStream (Kryo.load debug rnd fm d q f).1.1 := by
  have h0 : HoldsOnly .fluxStream { d with res := { flux := true } } :=
    ⟨h, fun r' hr => by cases r' <;> first | rfl | cases hr⟩
  unfold Kryo.load
  simp only
  split
  · exact h0
  · split
    · rename_i d1 x1 hx
      have e2 := congrArg Prod.fst hx
      simp only at e2
      show HoldsOnly _ d1
      rw [← e2]
      exact only_addFlux' h0 _ _
    · rename_i hx
      exact only_addFlux h0 hx

theorem only_kryoFiles (debug : Bool) (rnd : Nat → Bool) (fm : Flux.FmCodec) : ∀ (l : List (Option (List Byte))) (d d' : Disk) (q : Kryo.Desc),
    HoldsOnly .fluxStream d → Kryo.loadFiles debug rnd fm d q l = .ok d' → HoldsOnly .fluxStream d'
  | [], d, d', q, h, e => by rw [Kryo.loadFiles] at e; cases e; exact h
  | none :: fs, d, d', q, h, e => by rw [Kryo.loadFiles] at e; cases e
  | some f :: fs, d, d', q, h, e => by
    rw [Kryo.loadFiles] at e
    have := only_kryo debug rnd fm d q f h.1
    split at e
    · cases e
    · rename_i hx
      cases e
      rw [hx] at this
      exact this
    · rename_i hx
      rw [hx] at this
      exact only_kryoFiles debug rnd fm fs _ _ _ this e

/-! MOOF and WOZ -/

theorem only_sauceSlot {debug : Bool} {rnd : Nat → Bool} {fm : Flux.FmCodec} {f : List Byte} {p : Sauce.Plan} {s : Nat} {d d' : Disk} {ch : Ch}
    (h : HoldsOnly .bitStream d) (hp : p.flux = none) (e : Sauce.addSlot debug rnd fm f p s d ch = .ok d') : HoldsOnly .bitStream d' := by
  unfold Sauce.addSlot at e
  rw [hp] at e
  simp only at e
  split at e
  · unfold Sauce.addBits at e
    split at e
    · cases e
    · split at e
      · cases e
      · cases e; exact only_addBit h ‹_›
  · split at e
    · unfold Sauce.addBlank at e
      split at e
      · cases e
      · cases e; exact only_addEmpty h ‹_›
    · cases e; exact h

theorem only_sauce {debug : Bool} {rnd : Nat → Bool} {fm : Flux.FmCodec} {f : List Byte} {p : Sauce.Plan} (hp : p.flux = none) :
    ∀ (l : List Nat) (place : Option Ch) (d : Disk) (r : Disk × Option Ch), HoldsOnly .bitStream d →
      Sauce.tracks debug rnd fm f p l place d = .ok r → HoldsOnly .bitStream r.1
  | [], place, d, r, h, e => by rw [Sauce.tracks] at e; cases e; exact h
  | s :: rest, place, d, r, h, e => by
    rw [Sauce.tracks] at e
    split at e
    · cases e
    · split at e
      · cases e
      · split at e
        · cases e
        · exact only_sauce hp rest _ _ _ (only_sauceSlot h hp ‹_›) e

/-! After loading -/

theorem remapHead_resolution (r : Resolution) : ∀ (l : List Nat) (c : Nat) (pool : List DiskTrack), (∀ t ∈ pool, t.resolution = r) →
    ∀ t ∈ Disk.remapHead c l pool, t.resolution = r
  | [], c, pool, h => by rw [Disk.remapHead]; exact h
  | i :: rest, c, pool, h => by
    rw [Disk.remapHead]
    apply remapHead_resolution r rest
    split
    · rename_i t ht
      intro t' ht'
      rcases List.mem_or_eq_of_mem_set ht' with ht' | ht'
      · exact h t' ht'
      · rw [ht']
        have := h t (List.mem_of_getElem? ht)
        rw [← this]
        cases t <;> rfl
    · exact h

/-- What is done after parsing keeps the resolution. -/
theorem only_postLoad {r : Resolution} {d d' : Disk} {H : List Byte → Nat} {nz : Noise} (h : HoldsOnly r d) (e : d.postLoad H nz = .ok d') :
    HoldsOnly r d' := by
  obtain ⟨a, _, _, b⟩ := postLoad_tracks H nz d d' e
  have key : HoldsOnly r (d.normalize H nz) := by
    unfold Disk.normalize
    simp only
    split
    · exact ⟨remapHead_resolution r _ _ _ (remapHead_resolution r _ _ _ h.1), h.2⟩
    · split
      · exact ⟨remapHead_resolution r _ _ _ (remapHead_resolution r _ _ _ h.1), h.2⟩
      · exact h
  exact ⟨by rw [a]; exact key.1, by rw [b]; exact key.2⟩

/-! ## C149 -/

/-- **C149 (partial).** What the parser of a format makes of a file holds tracks of the resolution the format states, and names no other; a raw image, or a MOOF
or WOZ, aside.  Missing: those (refuted below). -/
theorem C149_stated_partial {fmt : Detect.Format} {d : Disk} (h : Parsed fmt d) (h1 : fmt ≠ .raw) (h2 : fmt ≠ .moof) (h3 : fmt ≠ .woz) :
    HoldsOnly fmt.resolution d := by
  cases h with
  | raw h => exact absurd rfl h1
  | moof h => exact absurd rfl h2
  | woz h => exact absurd rfl h3
  | imd h =>
    unfold Imd.load at h
    simp only at h
    repeat' (split at h <;> try contradiction)
    all_goals (cases h; exact only_geometry (only_imdLoop _ _ _ _ _ (only_fresh _) ‹_›) _)
  | psi h =>
    unfold Psi.load at h
    repeat' (split at h <;> try contradiction)
    rename_i hx
    simp only at h
    split at h
    · cases h
    · cases h
      exact only_geometry (only_psiLoop _ _ _ _ _ (only_fresh _) hx) _
  | pri h =>
    unfold Pri.load at h
    repeat' (split at h <;> try contradiction)
    rename_i hx _ _ _
    cases h
    exact only_geometry (only_priLoop _ _ _ _ _ _ _ (only_fresh _) ‹Pri.loop _ _ _ _ _ _ = _›) _
  | mfm h =>
    unfold Hxc.load at h
    simp only at h
    repeat' (split at h <;> try contradiction)
    all_goals (cases h; exact only_geometry (only_hxc _ _ _ _ _ _ _ (only_fresh _) ‹Hxc.tracks _ _ _ _ _ _ = _›) _)
  | td0 h =>
    unfold Td0.load at h
    repeat' (split at h <;> try contradiction)
    all_goals exact only_td0Body (only_fresh _) h
  | kryo h =>
    unfold Kryo.loadDir at h
    exact only_kryoFiles _ _ _ _ _ _ _ (only_geometry (only_fresh _) _) h
  | hfe h =>
    unfold Hfe.load at h
    repeat' (split at h <;> try contradiction)
    all_goals (cases h; exact only_geometry (only_hfe _ _ _ _ _ _ _ _ (only_fresh _) ‹Hfe.tracks _ _ _ _ _ _ _ = _›) _)
  | f86 h =>
    unfold F86.load at h
    simp only at h
    repeat' (split at h <;> try contradiction)
    all_goals (cases h; exact only_geometry (only_f86 _ _ _ _ _ _ _ _ (only_fresh _) ‹F86.steps _ _ _ _ _ _ _ = _›) _)
  | tc h =>
    unfold Tc.load at h
    simp only at h
    repeat' (split at h <;> try contradiction)
    all_goals
      unfold Tc.loadTracks at h
      simp only at h
      repeat' (split at h <;> try contradiction)
      all_goals (cases h; exact only_geometry (only_tc _ _ _ _ _ _ _ _ _ _ (only_fresh _) ‹Tc.tracks _ _ _ _ _ _ _ _ _ = _›) _)
  | scp h =>
    unfold Scp.load at h
    repeat' (split at h <;> try contradiction)
    all_goals (cases h; exact only_geometry (only_scp _ _ _ _ _ _ _ _ _ _ (only_fresh _) ‹Scp.tracks _ _ _ _ _ _ _ _ _ = _›) _)
  | mfi h =>
    unfold Mfi.load at h
    repeat' (split at h <;> try contradiction)
    all_goals (cases h; exact only_geometry (only_mfi _ _ _ _ _ _ _ (only_fresh _) ‹Mfi.tracks _ _ _ _ _ _ = _›) _)
  | ipf h =>
    unfold Ipf.load at h
    repeat' (split at h <;> try contradiction)
    all_goals (cases h; exact only_geometry (only_ipf _ _ _ _ _ _ _ _ (only_fresh _) ‹Ipf.tracks _ _ _ _ _ _ _ = _›) _)

/-- **C149 (after loading).** What is done with a parsed image before it is handed out leaves its resolution alone. -/
theorem C149_after_load {r : Resolution} {d d' : Disk} {H : List Byte → Nat} {nz : Noise} (h : HoldsOnly r d) (e : d.postLoad H nz = .ok d') :
    HoldsOnly r d' := only_postLoad h e

/-- **C149 (raw images).** A raw image of a PC disk has bit streams only, any other has lists of sectors. -/
theorem C149_raw {nz : Noise} {file : List Byte} {d : Disk} (h : Raw.loadImage nz file = .ok d) :
    ∃ f, StdFormat.ofSize file.length = some f ∧ HoldsOnly (if f.isPc then .bitStream else .metaSector) d := by
  unfold Raw.loadImage at h
  split at h
  · cases h
  · rename_i f hf
    refine ⟨f, hf, ?_⟩
    simp only at h
    split at h
    · cases h
    · split at h
      · cases h
      · split at h
        · rename_i hp
          rw [if_pos hp]
          unfold Raw.loadBit at h
          split at h
          · cases h
          · cases h
            exact only_geometry (only_rawBit _ _ _ _ _ _ (only_setResolution (d := {}) (only_fresh _).1) ‹_›) _
        · rename_i hp
          rw [if_neg hp]
          unfold Raw.loadMeta at h
          split at h
          · cases h
          · cases h
            exact only_geometry (only_rawMeta _ _ _ _ _ (only_setResolution (d := {}) (only_fresh _).1) ‹_›) _

/-- **C149 (MOOF and WOZ).** One without a map of flux tracks has bit streams only. -/
theorem C149_no_flux {k : Sauce.Kind} {debug : Bool} {rnd : Nat → Bool} {fm : Flux.FmCodec} {f : List Byte} {d : Disk} {x : Bool}
    (h : Sauce.load k debug rnd fm {} f = .ok (d, x))
    (hf : ∀ p, Sauce.chunks k f (f.length + 1) (if 12 ≤ f.length then 12 else 0) {} = .ok p → p.flux = none) : HoldsOnly .bitStream d := by
  have fin : ∀ (p : Sauce.Plan) (slots : List Nat) (sides : Nat) (pr : Bool) (d0 : Disk), HoldsOnly .bitStream d0 → p.flux = none →
      Sauce.finish debug rnd fm f p slots sides pr d0 = .ok (d, x) → HoldsOnly .bitStream d := by
    intro p slots sides pr d0 h0 hp e
    unfold Sauce.finish at e
    repeat' (split at e <;> try contradiction)
    all_goals (cases e; exact only_geometry (only_sauce hp _ _ _ _ h0 ‹Sauce.tracks _ _ _ _ _ _ _ _ = _›) _)
  unfold Sauce.load at h
  split at h
  · cases h
  · split at h
    · cases h
    · split at h
      · cases h
      · rename_i p hp
        have hpf := hf p hp
        unfold Sauce.build at h
        split at h
        · cases h
        · rename_i i _
          simp only at h
          have h0 : HoldsOnly .bitStream (if 0 < i.fluxBlock ∧ 0 < i.largestFlux then ({} : Disk).setMultires true else {}) := by
            split
            · exact only_fresh _
            · exact only_fresh _
          generalize (if 0 < i.fluxBlock ∧ 0 < i.largestFlux then ({} : Disk).setMultires true else {}) = d0 at h h0
          repeat' (split at h <;> try contradiction)
          all_goals exact fin _ _ _ _ _ h0 hpf h

/-- **C149 is false of raw images.** The format states lists of sectors, but every image of a PC disk is loaded as bit streams. -/
theorem C149_false_raw (f : StdFormat) (hf : f.isPc = true) (nz : Noise) (file : List Byte) (hl : file.length = f.diskSize) :
    ∃ d, Parsed .raw d ∧ d.pool ≠ [] ∧ ∀ t ∈ d.pool, t.resolution ≠ Detect.Format.raw.resolution := by
  obtain ⟨d, h, _, hb⟩ := loadImage_spec f hf nz file hl
  refine ⟨d, .raw h, fun e => ?_, fun t ht => ?_⟩
  · have := hb.len
    rw [e] at this
    have : 0 < f.layout.c * f.layout.h := by cases f <;> decide
    simp only [List.length_nil] at *
    omega
  · obtain ⟨f', hf', h'⟩ := C149_raw h
    rw [hl, ofSize_pc f hf] at hf'
    cases hf'
    rw [if_pos hf] at h'
    rw [h'.1 t ht]
    decide

/-- **C149 is false of MOOF images.** The format states bit streams, but a file with flux tracks is loaded with those. -/
theorem C149_false_moof (debug : Bool) (rnd : Nat → Bool) (fm : Flux.FmCodec) :
    ∃ f d x, Sauce.load .moof debug rnd fm {} f = .ok (d, x) ∧ Parsed .moof d ∧ ∃ t ∈ d.pool, t.resolution = .fluxStream := by
  obtain ⟨d, w, h, hc⟩ := SauceMake.fluxFile_loaded debug rnd fm
  refine ⟨_, d, w, h, .moof h, ?_⟩
  unfold KryoSet.fluxCells at hc
  split at hc
  · rename_i ch t ht
    refine ⟨.flux ch (some t), ?_, rfl⟩
    unfold Disk.track at ht
    split at ht
    · cases ht
    · injection ht with ht
      obtain ⟨i, _, hi⟩ := Option.bind_eq_some_iff.1 ht
      exact List.mem_of_getElem? hi
  · cases hc

/-- An ImageDisk file of one track with one sector, filled with 0xE5. -/
def smallImd : List Byte := [0x1A#8, 0x00#8, 0x00#8, 0x00#8, 0x01#8, 0x00#8, 0x01#8, 0x02#8, 0xE5#8]

/-- A parsed image that is not empty. -/
example : ∃ d, Parsed .imd d ∧ d.pool.length = 1 ∧ d.res.has .metaSector = true := by
  have h : (Imd.load true {} smallImd).toOption.map (fun d => (d.pool.length, d.res.has .metaSector)) = some (1, true) := by decide +kernel
  cases e : Imd.load true {} smallImd with
  | error x => rw [e] at h; cases h
  | ok d =>
    rw [e] at h
    have h : some (d.pool.length, d.res.has .metaSector) = some (1, true) := h
    injection h with h
    obtain ⟨h1, h2⟩ := Prod.mk.inj h
    exact ⟨d, .imd e, h1, h2⟩

end Fox
