import Verif.Props.FormatDisk
import Verif.Props.Analysis
import Verif.Proofs.SectorView
import Verif.Spec.Boot
/-
C147: the boot sector an image tells of is the one on the disk.
-/
namespace Fox
open Fox.Spec Fox.S34

theorem new_tells {d : Disk} {bytes : List Byte} {b : BootSector} (h : BootSector.new bytes = some b) (hd : d.boot = some b) :
    TellsBoot d bytes := by
  unfold BootSector.new at h
  split at h
  · cases h
  · cases h
    exact ⟨_, hd, rfl, rfl, rfl, rfl, rfl, rfl, rfl, rfl, rfl, rfl, rfl, rfl⟩

theorem finish_boot (x : Disk) : (Disk.examineBoot.finish x).boot = x.boot ∧ (Disk.examineBoot.finish x).pool = x.pool ∧
    (Disk.examineBoot.finish x).map0 = x.map0 ∧ (Disk.examineBoot.finish x).map1 = x.map1 := by
  obtain ⟨s, hs, _⟩ := finish_keeps x
  rw [hs]; exact ⟨rfl, rfl, rfl, rfl⟩

/-- The private reading of the boot sector is the public one. -/
theorem readBoot_first (d : Disk) (nz : Noise) (he : d.map0 ≠ []) : d.readBoot nz = match readFirst d nz with
    | .error e => .error e
    | .ok r => if r.readBuf.length < r.dataRange.2 then .error .panic else .ok r.bytes := by
  unfold Disk.readBoot readFirst Disk.readSector Disk.seek Disk.headMap
  rw [if_neg (by decide)]
  cases hm : d.map0 with
  | nil => exact absurd hm he
  | cons i rest =>
    simp only [if_pos, List.getElem?_cons_zero]
    cases hp : d.pool[i]? with
    | none => rfl
    | some t => rfl

theorem finish_readBoot (x : Disk) (nz : Noise) : (Disk.examineBoot.finish x).readBoot nz = x.readBoot nz := by
  obtain ⟨s, hs, _⟩ := finish_keeps x
  rw [hs]; rfl

theorem normalize_boot (H : List Byte → Nat) (nz : Noise) (d : Disk) : (d.normalize H nz).boot = d.boot := by
  unfold Disk.normalize
  simp only
  split
  · rfl
  · split <;> rfl

/-- **C147, loading.** Whatever disk a parser produces (no parser sets a boot sector itself), and whatever is on it:
after loading the image tells exactly of the boot sector that is read from the disk, and of none exactly if the
sector cannot be read or has less than 512 bytes. -/
theorem C147_loaded (d d' : Disk) (H : List Byte → Nat) (nz : Noise) (hd : d.boot = none) (h : d.postLoad H nz = .ok d') :
    (∀ r, readFirst d' nz = .ok r → 512 ≤ r.bytes.length → TellsBoot d' r.bytes) ∧
    (∀ r, readFirst d' nz = .ok r → r.bytes.length < 512 → d'.boot = none) ∧
    (∀ e, readFirst d' nz = .error e → d'.boot = none) := by
  unfold Disk.postLoad at h
  have hb : (d.normalize H nz).analyze.boot = none := (normalize_boot H nz d).trans hd
  generalize (d.normalize H nz).analyze = N at h hb
  unfold Disk.examineBoot at h
  by_cases he : d'.map0 = []
  · have hf : ∀ r, readFirst d' nz ≠ .ok r := by
      intro r
      unfold readFirst Disk.readSector Disk.seek Disk.headMap
      rw [if_neg (by decide), he]
      exact fun h => by cases h
    refine ⟨fun r hr => absurd hr (hf r), fun r hr => absurd hr (hf r), fun e _ => ?_⟩
    split at h
    · cases h
    · cases h; exact (finish_boot N).1.trans hb
    · rename_i buf hr
      split at h
      · cases h; exact (finish_boot N).1.trans hb
      · rename_i b _
        exfalso
        cases h
        rw [(finish_boot { N with boot := some b }).2.2.1] at he
        unfold Disk.readBoot at hr
        have he : N.map0 = [] := he
        rw [he] at hr
        cases hr
  · have hr' := readBoot_first d' nz he
    split at h
    · cases h
    · rename_i e hne hr
      cases h
      rw [finish_readBoot, hr] at hr'
      refine ⟨fun r q => ?_, fun r q => ?_, fun e q => (finish_boot N).1.trans hb⟩
      · rw [q] at hr'
        simp only at hr'
        split at hr'
        · cases hr'; exact absurd rfl hne
        · cases hr'
      · rw [q] at hr'
        simp only at hr'
        split at hr'
        · cases hr'; exact absurd rfl hne
        · cases hr'
    · rename_i buf hr
      have fin : ∀ x : Disk, x.readBoot nz = .ok buf → d' = Disk.examineBoot.finish x → ∀ r, readFirst d' nz = .ok r → r.bytes = buf := by
        intro x hx hd' r q
        rw [hd', finish_readBoot, hx, ← hd', q] at hr'
        simp only at hr'
        split at hr'
        · cases hr'
        · exact (Except.ok.inj hr').symm
      have fin2 : ∀ x : Disk, x.readBoot nz = .ok buf → d' = Disk.examineBoot.finish x → ∀ e, readFirst d' nz ≠ .error e := by
        intro x hx hd' e q
        rw [hd', finish_readBoot, hx, ← hd', q] at hr'
        cases hr'
      split at h
      · rename_i hn
        have hd' := (Except.ok.inj h).symm
        have hlt : buf.length < 512 := by
          unfold BootSector.new at hn
          split at hn
          · assumption
          · cases hn
        refine ⟨fun r q hl => ?_, fun r q _ => ?_, fun e q => absurd q (fin2 N hr hd' e)⟩
        · rw [fin N hr hd' r q] at hl; omega
        · rw [hd']; exact (finish_boot N).1.trans hb
      · rename_i b hn
        have hd' := (Except.ok.inj h).symm
        have hx : ({ N with boot := some b } : Disk).readBoot nz = .ok buf := hr
        have hge : ¬ buf.length < 512 := by
          intro hlt
          unfold BootSector.new at hn
          rw [if_pos hlt] at hn
          cases hn
        refine ⟨fun r q _ => ?_, fun r q hl => ?_, fun e q => absurd q (fin2 _ hx hd' e)⟩
        · rw [fin _ hx hd' r q]
          exact new_tells hn (by rw [hd']; exact (finish_boot _).1)
        · rw [fin _ hx hd' r q] at hl; exact absurd hl hge

/-! ### Only loading and updating set it -/

theorem pushTrack_boot (d : Disk) (h : Nat) (t : DiskTrack) : (d.pushTrack h t).boot = d.boot := by
  unfold Disk.pushTrack Disk.pushMap
  split <;> rfl

theorem addBit_boot (d : Disk) (ch : Ch) (made : Except Err Track) : (d.addBit ch made).1.boot = d.boot := by
  unfold Disk.addBit
  split
  · rfl
  · split
    · rfl
    · cases made with
      | error e => rfl
      | ok t => exact pushTrack_boot _ _ _

theorem addFlux_boot (d : Disk) (ch : Ch) (made : Except Err (Option Track)) : (d.addFlux ch made).1.boot = d.boot := by
  unfold Disk.addFlux
  split
  · rfl
  · split
    · rfl
    · cases made with
      | error e => rfl
      | ok t => exact pushTrack_boot _ _ _

theorem addMeta_boot (d : Disk) (ch : Ch) : (d.addMeta ch).1.boot = d.boot := by
  unfold Disk.addMeta
  split
  · rfl
  · split
    · rfl
    · exact pushTrack_boot _ _ _

theorem addEmpty_boot (d : Disk) (ch : Ch) (enc : Encoding) (r : Option Resolution) (cells : Nat) (clock : Option Bool) :
    (d.addEmpty ch enc r cells clock).1.boot = d.boot := by
  unfold Disk.addEmpty
  split
  · rfl
  · cases r with
    | none =>
      simp only
      split
      · rfl
      · split
        · split
          · rfl
          · split
            · rfl
            · exact pushTrack_boot _ _ _
        · split
          · rfl
          · exact pushTrack_boot _ _ _
        · rfl
    | some r =>
      simp only
      split
      · rfl
      · split
        · split
          · rfl
          · split
            · rfl
            · exact pushTrack_boot _ _ _
        · split
          · rfl
          · exact pushTrack_boot _ _ _
        · rfl

theorem writeSector_boot (d : Disk) (ch : Ch) (q : Query) (off : Option Nat) (buf : List Byte) (del dbg : Bool) :
    (d.writeSector ch q off buf del dbg).1.boot = d.boot := by
  unfold Disk.writeSector
  split
  · rfl
  · split <;> rfl

theorem formatTrack_boot (d : Disk) (nz : Noise) (ch : Ch) (ids : List Chsn) (pat : List Byte) (gap3 : Nat) :
    (d.formatTrack nz ch ids pat gap3).1.boot = d.boot := by
  unfold Disk.formatTrack
  split
  · rfl
  · split <;> rfl

/-- **C147, only loading and updating set it.** Through every history of operations the boot sector an image tells
of stays the same, whatever is written and formatted; emptying the image forgets it, for good. -/
theorem C147_kept (d : Disk) (ops : List DiskOp) :
    ((∀ op ∈ ops, ¬ op.Resets) → (diskAfter d ops).boot = d.boot) ∧
    ((∃ op ∈ ops, op.Resets) → (diskAfter d ops).boot = none) := by
  have step : ∀ (d : Disk) (op : DiskOp), ¬ op.Resets → (diskStep d op).boot = d.boot := by
    intro d op h
    cases op with
    | addBit ch made => exact addBit_boot d ch made
    | addMeta ch => exact addMeta_boot d ch
    | addFlux ch made => exact addFlux_boot d ch made
    | addEmpty ch enc r cells clock => exact addEmpty_boot d ch enc r cells clock
    | write ch q off buf del dbg => exact writeSector_boot d ch q off buf del dbg
    | format nz ch ids pat gap3 => exact formatTrack_boot d nz ch ids pat gap3
    | normalize H nz => exact normalize_boot H nz d
    | removeEmpty => rfl
    | reset => exact absurd trivial h
  have keep : ∀ (ops : List DiskOp) (d : Disk), (∀ op ∈ ops, ¬ op.Resets) → (diskAfter d ops).boot = d.boot := by
    intro ops
    induction ops with
    | nil => intro d _; rfl
    | cons op ops ih =>
      intro d h
      exact (ih (diskStep d op) fun o ho => h o (List.mem_cons_of_mem _ ho)).trans (step d op (h op List.mem_cons_self))
  have none_ : ∀ (ops : List DiskOp) (d : Disk), d.boot = none → (diskAfter d ops).boot = none := by
    intro ops
    induction ops with
    | nil => intro d h; exact h
    | cons op ops ih =>
      intro d h
      refine ih (diskStep d op) ?_
      by_cases hr : op.Resets
      · cases op <;> first | exact hr.elim | rfl
      · exact (step d op hr).trans h
  refine ⟨keep ops d, ?_⟩
  revert d
  induction ops with
  | nil => intro d ⟨op, h, _⟩; cases h
  | cons op ops ih =>
    intro d ⟨o, ho, hr⟩
    rcases List.mem_cons.1 ho with rfl | ho
    · refine none_ ops _ ?_
      cases o <;> first | exact hr.elim | rfl
    · exact ih (diskStep d op) ⟨o, ho, hr⟩


/-! ### Loaded sector images -/

theorem afterOps_boot : ∀ (ops : List SectorOp) (d : Disk), (afterOps d ops).boot = d.boot ∧ (∀ t, (afterOps d ops).closestFormat t = d.closestFormat t)
  | [], _ => ⟨rfl, fun _ => rfl⟩
  | .read _ _ _ :: ops, d => afterOps_boot ops d
  | .write ch q buf :: ops, d => by
    have h := afterOps_boot ops (basicStep d (.write ch q buf)).1
    have k : ∃ p, (basicStep d (.write ch q buf)).1 = { d with pool := p } := by
      simp only [basicStep, Disk.writeBasic, Disk.writeSector]
      cases d.seek ch with
      | error e => exact ⟨d.pool, rfl⟩
      | ok it =>
        simp only
        cases it.2.writeSector q none buf false false with
        | error e => exact ⟨d.pool, rfl⟩
        | ok r =>
          simp only
          split <;> exact ⟨_, rfl⟩
    obtain ⟨p, k⟩ := k
    have h1 : (afterOps d (.write ch q buf :: ops)) = afterOps (basicStep d (.write ch q buf)).1 ops := rfl
    rw [h1]
    rw [k] at h ⊢
    exact h

theorem first_lookup (f : StdFormat) (hf : f.isPc = true) (file : List Byte) (hl : file.length = f.diskSize) :
    ∃ m, imgDisk f.layout file ⟨0, 0⟩ = some m ∧ m.lookup ⟨some 0, some 0, 1, some 2⟩ = some (file.take 512) := by
  obtain ⟨m, l1, l2⟩ := imgDisk_lookup f.layout file ⟨0, 0, 1⟩ (by
    cases f <;> first | decide | exact absurd hf (by decide))
  rw [layout_n] at l2
  refine ⟨m, l1, l2.trans ?_⟩
  have hz : lbaOf f.layout ⟨0, 0, 1⟩ = 0 := by
    cases f <;> first | decide | exact absurd hf (by decide)
  rw [hz, (C31_sizes f f).2.2.2, Nat.zero_mul]
  rfl

theorem lookup_others (q : Query) (buf : List Byte) (hq : agrees q ⟨0, 0, 1, 2⟩ = false) : ∀ m : SectorMap,
    (m.update q buf).lookup ⟨some 0, some 0, 1, some 2⟩ = m.lookup ⟨some 0, some 0, 1, some 2⟩
  | [] => rfl
  | e :: m => by
    rw [SectorMap.update]
    have key : agrees ⟨some 0, some 0, 1, some 2⟩ e.1 = true → agrees q e.1 = false := by
      intro h
      have : e.1 = ⟨0, 0, 1, 2⟩ := by
        obtain ⟨⟨c, h', s, n⟩, l⟩ := e
        simp [agrees] at h
        obtain ⟨⟨⟨a, b⟩, c⟩, d⟩ := h
        subst a; subst b; subst c; subst d; rfl
      rw [this]; exact hq
    by_cases h : agrees ⟨some 0, some 0, 1, some 2⟩ e.1 = true
    · rw [if_neg (by rw [key h]; decide), SectorMap.lookup, SectorMap.lookup, if_pos h, if_pos h]
    · split
      · rw [SectorMap.lookup, SectorMap.lookup, if_neg h, if_neg h]
      · rw [SectorMap.lookup, SectorMap.lookup, if_neg h, if_neg h]
        exact lookup_others q buf hq m

theorem bitLoop_boot (f : StdFormat) (nz : Noise) : ∀ (l : List Ch) (file : List Byte) (d d' : Disk),
    Raw.bitLoop f nz l file d = .ok d' → d'.boot = d.boot
  | [], _, _, _, h => by cases h; rfl
  | ch :: l, file, d, d', h => by
    unfold Raw.bitLoop at h
    cases hs : Raw.bitStep f nz ch file d with
    | error e => rw [hs] at h; cases h
    | ok x =>
      rw [hs] at h
      refine (bitLoop_boot f nz l _ x d' h).trans ?_
      unfold Raw.bitStep at hs
      have hk := addEmpty_boot d ch .mfm (some .bitStream) f.bitcellCt (some false)
      simp only at hs
      split at hs
      · cases hs
      · rename_i y i hy
        rw [hy] at hk
        split at hs
        · cases hs
        · split at hs
          · cases hs
          · split at hs
            · cases hs
            · cases hs; exact hk

theorem loadImage_boot (f : StdFormat) (hf : f.isPc = true) (nz : Noise) (file : List Byte) (hl : file.length = f.diskSize) (d : Disk)
    (h : Raw.loadImage nz file = .ok d) : d.boot = none := by
  unfold Raw.loadImage at h
  have hof : StdFormat.ofSize file.length = some f := by
    rw [hl]; cases f <;> first | rfl | exact absurd hf (by decide)
  rw [hof] at h
  simp only [hf, if_true] at h
  split at h
  · cases h
  · split at h
    · cases h
    · unfold Raw.loadBit at h
      split at h
      · cases h
      · rename_i x hx
        cases h
        exact bitLoop_boot f nz _ _ _ _ hx

theorem rel_first {d : Disk} {M : DiskMap} {m : SectorMap} {old : List Byte} (h : DiskRel true d M) (hm : M ⟨0, 0⟩ = some m)
    (ho : m.lookup ⟨some 0, some 0, 1, some 2⟩ = some old) (nz : Noise) : ∃ r, readFirst d nz = .ok r ∧ r.bytes = old := by
  unfold readFirst Disk.readSector
  rcases h.seek ⟨0, 0⟩ with ⟨k, _⟩ | ⟨i, t, m', k1, k2, k3, k4, k5, k6, k7⟩
  · rw [hm] at k; cases k
  · rw [hm] at k4
    cases k4
    rw [k7]
    obtain ⟨r, r1, r2, r3⟩ := k5.read nz ⟨some 0, some 0, 1, some 2⟩ none (Or.inl rfl) true
    obtain ⟨_, _, r4, r5, _⟩ := r3 _ ho
    exact ⟨r, r1, r5⟩

theorem load_tells (f : StdFormat) (hf : f.isPc = true) (file : List Byte) (hl : file.length = f.diskSize)
    (H : List Byte → Nat) (nz : Noise) :
    ∃ d0, Raw.loadImage nz file = .ok d0 ∧ (NoCollision H d0 → ∃ d, Raw.load H nz file = .ok d ∧
      DiskRel true d (imgDisk f.layout file) ∧ TellsBoot d (file.take 512) ∧
      d.closestFormat true = some ((bootFormat file).getD f)) := by
  obtain ⟨d0, h0, h⟩ := load_spec f hf nz H file hl
  refine ⟨d0, h0, fun hH => ?_⟩
  obtain ⟨d, h1, h2, _, h4, h5, h6, h7⟩ := h hH
  refine ⟨d, h1, h2, ?_, closest_spec f hf d _ h4 h5 h6 h7⟩
  obtain ⟨m, m1, m2⟩ := first_lookup f hf file hl
  obtain ⟨r, r1, r2⟩ := rel_first h2 m1 m2 nz
  unfold Raw.load at h1
  rw [h0] at h1
  have hsz : 512 ≤ file.length := by rw [hl]; cases f <;> decide
  have := (C147_loaded d0 d H nz (loadImage_boot f hf nz file hl d0 h0) h1).1 r r1 (by
    rw [r2, List.length_take]; omega)
  rwa [r2] at this

theorem tells_congr {d e : Disk} {l : List Byte} (h : TellsBoot d l) (hb : e.boot = d.boot) : TellsBoot e l := by
  unfold TellsBoot at h ⊢
  rw [hb]; exact h

/-- **C147, sector images (partial).** A loaded image of a PC format tells of the boot sector of the file, and this
stays right through every history of sector reads and writes none of which writes the boot sector.  Missing: writes
of the boot sector itself, after which it is wrong (below). -/
theorem C147_others_partial (f : StdFormat) (hf : f.isPc = true) (file : List Byte) (hl : file.length = f.diskSize)
    (H : List Byte → Nat) (nz : Noise) (ops : List SectorOp)
    (ho : ∀ ch q buf, .write ch q buf ∈ ops → ch = ⟨0, 0⟩ → agrees q ⟨0, 0, 1, 2⟩ = false) :
    ∃ d0, Raw.loadImage nz file = .ok d0 ∧ (NoCollision H d0 → ∃ d, Raw.load H nz file = .ok d ∧
      (afterOps d ops).readBasic nz ⟨0, 0⟩ ⟨some 0, some 0, 1, some 2⟩ none = .ok (file.take 512) ∧
      TellsBoot (afterOps d ops) (file.take 512)) := by
  obtain ⟨d0, h0, h⟩ := load_tells f hf file hl H nz
  refine ⟨d0, h0, fun hH => ?_⟩
  obtain ⟨d, h1, h2, h3, _⟩ := h hH
  refine ⟨d, h1, ?_, tells_congr h3 (afterOps_boot ops d).1⟩
  obtain ⟨m, m1, m2⟩ := first_lookup f hf file hl
  have key : ∀ (ops : List SectorOp) (M : DiskMap) (m : SectorMap), M ⟨0, 0⟩ = some m →
      m.lookup ⟨some 0, some 0, 1, some 2⟩ = some (file.take 512) →
      (∀ ch q buf, .write ch q buf ∈ ops → ch = ⟨0, 0⟩ → agrees q ⟨0, 0, 1, 2⟩ = false) →
      ∃ m', mapAfter M ops ⟨0, 0⟩ = some m' ∧ m'.lookup ⟨some 0, some 0, 1, some 2⟩ = some (file.take 512) := by
    intro ops
    induction ops with
    | nil => intro M m a b _; exact ⟨m, a, b⟩
    | cons op ops ih =>
      intro M m a b c
      have c' : ∀ ch q buf, SectorOp.write ch q buf ∈ ops → ch = ⟨0, 0⟩ → agrees q ⟨0, 0, 1, 2⟩ = false :=
        fun ch q buf hh => c ch q buf (List.mem_cons_of_mem _ hh)
      show ∃ m', mapAfter (M.step op).1 ops ⟨0, 0⟩ = some m' ∧ _
      cases op with
      | read nz ch q =>
        refine ih _ m ?_ b c'
        simp only [DiskMap.step]
        split
        · exact a
        · split <;> exact a
      | write ch q buf =>
        simp only [DiskMap.step]
        split
        · exact ih _ m a b c'
        · rename_i mm hmm
          split
          · exact ih _ m a b c'
          · split
            · exact ih _ m a b c'
            · by_cases hch : ch = ⟨0, 0⟩
              · subst hch
                rw [a] at hmm
                cases hmm
                refine ih _ (m.update q buf) (by simp) ?_ c'
                rw [lookup_others q buf (c _ q buf List.mem_cons_self rfl)]
                exact b
              · exact ih _ m (by
                  simp only
                  rw [if_neg (fun h => hch h.symm)]; exact a) b c'
  obtain ⟨m', k1, k2⟩ := key ops _ m m1 m2 ho
  rw [(h2.after ops).readBasic, k1]
  simp only [k2]

theorem write_first (f : StdFormat) (hf : f.isPc = true) (file new : List Byte) (hl : file.length = f.diskSize)
    (hn : new.length = 512) (H : List Byte → Nat) (nz nz' : Noise) (ops : List SectorOp) :
    ∃ d0, Raw.loadImage nz file = .ok d0 ∧ (NoCollision H d0 → ∃ d e, Raw.load H nz file = .ok d ∧
      (afterOps d ops).writeBasic ⟨0, 0⟩ ⟨some 0, some 0, 1, some 2⟩ none new = (e, .ok ()) ∧
      e.readBasic nz' ⟨0, 0⟩ ⟨some 0, some 0, 1, some 2⟩ none = .ok new) := by
  obtain ⟨d0, h0, h⟩ := load_tells f hf file hl H nz
  refine ⟨d0, h0, fun hH => ?_⟩
  obtain ⟨d, h1, h2, _⟩ := h hH
  obtain ⟨m0, l1, l2⟩ := first_lookup f hf file hl
  have hsh := mapAfter_shape ⟨0, 0⟩ ops (imgDisk f.layout file)
  rw [l1] at hsh
  obtain ⟨m, hm, hsm⟩ := Option.map_eq_some_iff.1 hsh
  obtain ⟨old, o1, o2⟩ := lookup_shape _ m0 m _ hsm.symm l2
  have hsz : 512 ≤ file.length := by rw [hl]; cases f <;> decide
  rw [List.length_take] at o2
  have hrel := h2.after ops
  have hs := hrel.step (.write ⟨0, 0⟩ ⟨some 0, some 0, 1, some 2⟩ new)
  have hst : (mapAfter (imgDisk f.layout file) ops).step (.write ⟨0, 0⟩ ⟨some 0, some 0, 1, some 2⟩ new) =
      (fun ch' => if ch' = ⟨0, 0⟩ then some (m.update ⟨some 0, some 0, 1, some 2⟩ new) else mapAfter (imgDisk f.layout file) ops ch', .done) := by
    simp only [DiskMap.step, hm, o1]
    rw [if_neg (by omega)]
  rw [hst] at hs
  obtain ⟨s1, s2⟩ := hs
  refine ⟨d, (basicStep (afterOps d ops) (.write ⟨0, 0⟩ ⟨some 0, some 0, 1, some 2⟩ new)).1, h1, ?_, ?_⟩
  · simp only [basicStep] at s2 ⊢
    rcases hr : (afterOps d ops).writeBasic ⟨0, 0⟩ ⟨some 0, some 0, 1, some 2⟩ none new with ⟨e, r⟩
    rw [hr] at s2
    simp only at s2 ⊢
    unfold seenBasicWrite at s2
    split at s2 <;> cases s2
    rfl
  · rw [s1.readBasic]
    simp only [if_true]
    rw [lookup_update_eq _ new m old o1]

/-- **C147, updating.** After any history of reads and writes, updating the boot sector for a PC format makes the
image tell of exactly the boot sector that is then read from it. -/
theorem C147_updated (f g : StdFormat) (hf : f.isPc = true) (hg : g.isPc = true) (file : List Byte)
    (hl : file.length = f.diskSize) (H : List Byte → Nat) (nz nz' : Noise) (ops : List SectorOp) :
    ∃ d0, Raw.loadImage nz file = .ok d0 ∧ (NoCollision H d0 → ∃ d e' new, Raw.load H nz file = .ok d ∧
      (afterOps d ops).updateBoot nz g = (e', .ok ()) ∧
      e'.readBasic nz' ⟨0, 0⟩ ⟨some 0, some 0, 1, some 2⟩ none = .ok new ∧ TellsBoot e' new) := by
  obtain ⟨d0, h0, h⟩ := update_boot_core f g hf hg file hl H nz ops
  refine ⟨d0, h0, fun hH => ?_⟩
  obtain ⟨d, e', old, new, k1, k2, k3, k4, k5, k6⟩ := h hH
  refine ⟨d, e', new, k1, k3, ?_, ?_⟩
  · obtain ⟨d0', h0', hw⟩ := write_first f hf file new hl k4.len H nz nz' ops
    rw [h0] at h0'
    cases h0'
    obtain ⟨d', e, w1, w2, w3⟩ := hw hH
    rw [k1] at w1
    cases w1
    have := k6 [.read nz' ⟨0, 0⟩ ⟨some 0, some 0, 1, some 2⟩]
    simp only [basicRun, basicStep, w2, w3, List.cons.injEq, and_true, seenBasicRead] at this
    split at this <;> cases this
    assumption
  · cases hb : BootSector.new new with
    | none =>
      unfold BootSector.new at hb
      rw [if_neg (by rw [k4.len]; omega)] at hb
      cases hb
    | some b => exact new_tells hb (k5.trans hb)

/-- **C147 is false of the code: writing the boot sector.** On every loaded image of a PC format, after any history,
writing any other boot sector succeeds and it is read back, but the image still tells of the boot sector of the file
it was loaded from; and the format it guesses from it is still that one, even if the caller trusts the boot sector. -/
theorem C147_false_write (f : StdFormat) (hf : f.isPc = true) (file new : List Byte) (hl : file.length = f.diskSize)
    (hn : new.length = 512) (hne : new ≠ file.take 512) (H : List Byte → Nat) (nz nz' : Noise) (ops : List SectorOp) :
    ∃ d0, Raw.loadImage nz file = .ok d0 ∧ (NoCollision H d0 → ∃ d e, Raw.load H nz file = .ok d ∧
      (afterOps d ops).writeBasic ⟨0, 0⟩ ⟨some 0, some 0, 1, some 2⟩ none new = (e, .ok ()) ∧
      e.readBasic nz' ⟨0, 0⟩ ⟨some 0, some 0, 1, some 2⟩ none = .ok new ∧
      TellsBoot e (file.take 512) ∧ ¬ TellsBoot e new ∧
      e.closestFormat true = some ((bootFormat file).getD f)) := by
  obtain ⟨d0, h0, h⟩ := write_first f hf file new hl hn H nz nz' ops
  obtain ⟨d0', h0', h'⟩ := load_tells f hf file hl H nz
  rw [h0] at h0'
  cases h0'
  refine ⟨d0, h0, fun hH => ?_⟩
  obtain ⟨d, e, k1, k2, k3⟩ := h hH
  obtain ⟨d', g1, _, g3, g4⟩ := h' hH
  rw [k1] at g1
  cases g1
  have he : e = afterOps d (ops ++ [.write ⟨0, 0⟩ ⟨some 0, some 0, 1, some 2⟩ new]) := by
    have app : ∀ (a b : List SectorOp) (d : Disk), afterOps d (a ++ b) = afterOps (afterOps d a) b := by
      intro a
      induction a with
      | nil => intro b d; rfl
      | cons x a ih => intro b d; exact ih b _
    rw [app]
    show e = (basicStep (afterOps d ops) _).1
    simp only [basicStep, k2]
  have hb := afterOps_boot (ops ++ [.write ⟨0, 0⟩ ⟨some 0, some 0, 1, some 2⟩ new]) d
  rw [← he] at hb
  have ht := tells_congr g3 hb.1
  refine ⟨d, e, k1, k2, k3, ht, fun hw => ?_, (hb.2 true).trans g4⟩
  obtain ⟨b, b1, b2, _⟩ := ht
  obtain ⟨b', c1, c2, _⟩ := hw
  rw [b1] at c1
  cases c1
  rw [b2, List.take_take, Nat.min_self, List.take_of_length_le (by omega : new.length ≤ 512)] at c2
  exact hne c2.symm


/-- A blank 360K image, and a boot sector of 55s written to it. -/
example (nz : Noise) : ∃ d e, Raw.load numeral nz (List.replicate 368640 (0#8)) = .ok d ∧
    d.writeBasic ⟨0, 0⟩ ⟨some 0, some 0, 1, some 2⟩ none (List.replicate 512 0x55#8) = (e, .ok ()) ∧
    ¬ TellsBoot e (List.replicate 512 0x55#8) := by
  obtain ⟨d0, _, h⟩ := C147_false_write .pc360 rfl (List.replicate 368640 (0#8)) (List.replicate 512 0x55#8)
    List.length_replicate List.length_replicate (by
      intro h
      have := congrArg (fun l => l[0]?) h
      simp only [List.take_replicate, List.getElem?_replicate] at this
      revert this; decide) numeral nz nz []
  obtain ⟨d, e, h1, h2, _, _, h3, _⟩ := h (fun _ _ _ _ _ _ he => numeral_inj _ _ he)
  exact ⟨d, e, h1, h2, h3⟩

theorem addEmpties_boot (f : StdFormat) (r : Resolution) : ∀ (l : List Ch) (d : Disk), (Disk.addEmpties f r l d).1.boot = d.boot
  | [], _ => rfl
  | ch :: l, d => by
    unfold Disk.addEmpties
    have h := addEmpty_boot d ch .mfm (some r) f.bitcellCt (some false)
    split
    · rename_i e he; rw [he] at h; exact h
    · rename_i e he; rw [he] at h; exact (addEmpties_boot f r l _).trans h

theorem formatTracks_boot (f : StdFormat) (nz : Noise) : ∀ (l : List Ch) (d : Disk), (Disk.formatTracks f nz l d).1.boot = d.boot
  | [], _ => rfl
  | ch :: l, d => by
    unfold Disk.formatTracks
    have h := formatTrack_boot d nz ch (Disk.formatIds f.layout ch) [0x00] f.gap3
    split
    · rename_i e he; rw [he] at h; exact h
    · rename_i e _ he; rw [he] at h; exact (formatTracks_boot f nz l _).trans h

theorem format_boot (d : Disk) (nz : Noise) (f : StdFormat) (r : Resolution) (boot creator : Option (List Byte)) :
    (d.format nz f r .fat12 boot creator).1.boot = none := by
  unfold Disk.format
  rw [if_neg (by decide)]
  simp only
  split
  · rfl
  · have h := addEmpties_boot f r (Disk.headMajor f.layout) d.reset
    split
    · rename_i e he; rw [he] at h; exact h
    · rename_i e _ he
      rw [he] at h
      have h2 := formatTracks_boot f nz (Disk.headMajor f.layout) e
      split
      · rename_i e2 he2; rw [he2] at h2; exact h2.trans h
      · rename_i e2 _ he2
        rw [he2] at h2
        unfold Disk.writeBoot
        rename_i buf _ _ _ _ _
        have h3 := writeSector_boot e2 ⟨0, 0⟩ ⟨some 0, some 0, 1, some 2⟩ none buf false false
        split
        · rename_i e3 _ he3; rw [he3] at h3; exact h3.trans (h2.trans h)
        · rename_i e3 _ he3; rw [he3] at h3; exact h3.trans (h2.trans h)

/-- **C147 is false of the code: formatting the image.** After an image has been formatted, with whatever boot
sector, the boot sector is there to be read, but the image tells of none. -/
theorem C147_false_format (f : StdFormat) (hf : f.isPc = true) (nz nz' : Noise) (d : Disk) (template : List Byte)
    (ht : 512 ≤ template.length) (hs : d.res.sect = false) (hb : d.res.bit = true ∨ d.res.isEmpty = true) :
    ∃ d' boot, d.format nz f .bitStream .fat12 (some template) none = (d', .ok ()) ∧ IsBoot f template none boot ∧
      d'.readBasic nz' ⟨0, 0⟩ ⟨some 0, some 0, 1, some 2⟩ none = .ok boot ∧ d'.boot = none := by
  obtain ⟨d', boot, h1, h2, h3⟩ := C59_format f hf nz d template ht hs hb
  refine ⟨d', boot, h1, h2, ?_, ?_⟩
  · have := h3 [.read nz' ⟨0, 0⟩ ⟨some 0, some 0, 1, some 2⟩]
    obtain ⟨n, hn⟩ : ∃ n, f.layout.s = n + 1 := ⟨f.layout.s - 1, by cases f <;> decide⟩
    have hin : 0 < f.layout.c ∧ 0 < f.layout.h := by cases f <;> decide
    obtain ⟨t, hk⟩ : ∃ t, (freshDisk f boot) ⟨0, 0⟩ = some ((⟨0, 0, 1, 2⟩, boot) :: t) := by
      unfold freshDisk
      rw [if_pos hin, hn, List.range_succ_eq_map, List.map_cons, if_pos ⟨rfl, rfl, rfl⟩]
      exact ⟨_, rfl⟩
    simp only [basicRun, basicStep, DiskMap.run, DiskMap.step, hk, SectorMap.lookup, List.cons.injEq, and_true] at this
    rw [if_pos (by decide)] at this
    unfold seenBasicRead at this
    split at this <;> cases this
    assumption
  · have := format_boot d nz f .bitStream (some template) none
    rw [h1] at this
    exact this

end Fox
