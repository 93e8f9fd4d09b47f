import Verif.Props.Detect
import Verif.Props.Kryo
/-
C88: saved images are known again.  C89: archives of one file.  C90: archives of KryoFlux sets.
-/
namespace Fox
open Spec Spec.FileKind Detect

/-! ## C88 -/

theorem imd_long (l : List Byte) (h : ImdLine l) : 27 ≤ l.length := by
  obtain ⟨v, vv, s1, dd, mo, yy, s2, hh, mm, ss, hv, hvv, hs1, hdd, hmo, hyy, hs2, hhh, hmm, hss, rfl⟩ := h
  have a1 := hv.1
  have a2 := hvv.1
  have a3 := List.length_pos_iff.2 hs1.1
  have a4 : 1 ≤ dd.length := by rcases hdd with h | h <;> (have := h.1; omega)
  have a5 := hmo.1
  have a6 := hyy.1
  have a7 := List.length_pos_iff.2 hs2.1
  have a8 : 1 ≤ hh.length := by rcases hhh with h | h <;> (have := h.1; omega)
  have a9 := hmm.1
  have a10 := hss.1
  simp only [imd_text, dot_text, colon_text, slash_text, List.length_append, List.length_cons, List.length_nil]
  omega

/-- A zero among the first bytes ends the text too soon for a line of ImageDisk. -/
theorem no_line (a r : List Byte) (h : a.length < 27) : ¬ HasImdLine (a ++ 0#8 :: r) := by
  rintro ⟨x, l, z, e, hl⟩
  have h1 : (textOf (a ++ 0#8 :: r)).length ≤ a.length := by
    unfold textOf
    refine Nat.le_trans (List.length_filter_le _ _) ?_
    clear e h
    induction a with
    | nil => simp
    | cons b a ih =>
      rw [List.cons_append, List.takeWhile_cons]
      split
      · simp only [List.length_cons]; omega
      · simp
  rw [e, List.length_append, List.length_append] at h1
  have := imd_long l hl
  omega

theorem pri_begins (rate : DiskTrack → BitVec 32) (comment : Option (List Byte)) (d : Disk) (bs : List Byte)
    (h : Pri.save rate comment d = .ok bs) : ∃ r, bs = text ['P', 'R', 'I', ' '] ++ 0#8 :: r ∧ 8 ≤ bs.length := by
  have key : ∀ t, Pri.saveChunks rate d t = .ok bs → ∃ r, bs = text ['P', 'R', 'I', ' '] ++ 0#8 :: r ∧ 8 ≤ bs.length := by
    intro t ht
    unfold Pri.saveChunks at ht
    split at ht
    · cases ht
    · cases ht
      refine ⟨_, by rw [List.flatMap_cons]; rfl, ?_⟩
      rw [List.flatMap_cons, List.length_append, List.length_append]
      have : 8 ≤ (Pce.writeChunk ⟨Pce.idPri, [0#8, 0#8, 0#8, 0#8]⟩).length := by decide +kernel
      omega
  unfold Pri.save at h
  split at h
  · cases h
  · split at h
    · split at h
      · cases h
      · exact key _ h
    · exact key _ h

/-- **C88 (partial), PRI.** A saved PRI file is known for one again unless it happens to have the size of a raw image. -/
theorem C88_pri_partial (u : Unpack) (sort : List Path → List Path) (rate : DiskTrack → BitVec 32) (comment : Option (List Byte))
    (d : Disk) (bs : List Byte) (h : Pri.save rate comment d = .ok bs) (hn : bs.length ∉ rawSizes) :
    container u sort bs = .ok (.file .pri) := by
  obtain ⟨r, e, hl⟩ := pri_begins rate comment d bs h
  have hb : Bears bs .pri := ⟨hl, _, List.mem_singleton.2 rfl, _, e⟩
  exact ((C87_told_apart_partial u sort bs (bears_no_archive _ _ hb)).2.2.1 .pri (by simp) (by simp)).2
    ⟨hn, by rw [e]; exact no_line _ r (by decide), hb⟩

theorem f86_begins (m : F86.Meta) (d : Disk) (bs : List Byte) (h : F86.save m d = .ok bs) :
    ∃ a r, bs = (text ['8', '6', 'B', 'F'] ++ [12#8, 2#8]) ++ a ++ 0#8 :: r ∧ a.length = 4 := by
  have tbl : ∀ (os : List Nat) (n : Nat), 0 < n → (∀ o ∈ os.head?, o = 1032 ∨ o = 2056) →
      ∃ a b r, (os ++ List.replicate n 0).flatMap F86.le4 = a :: b :: 0#8 :: r := by
    intro os n hn ho
    cases os with
    | nil =>
      obtain ⟨k, rfl⟩ : ∃ k, n = k + 1 := ⟨n - 1, by omega⟩
      rw [List.nil_append, List.replicate_succ, List.flatMap_cons]
      exact ⟨_, _, _, rfl⟩
    | cons o os =>
      rw [List.cons_append, List.flatMap_cons]
      rcases ho o rfl with rfl | rfl <;> exact ⟨_, _, _, rfl⟩
  unfold F86.save at h
  split at h
  · cases h
  · simp only at h
    split at h
    · cases h
    · split at h
      · cases h
      · rename_i hh
        split at h
        · cases h
        · split at h
          · cases h
          · split at h
            · cases h
            · rename_i rate _ _ os bytes hs
              cases h
              have hH : d.geometry.h = 1 ∨ d.geometry.h = 2 := by
                simp only [Decidable.not_and_iff_not_or_not, Decidable.not_not, ne_eq] at hh
                exact hh
              have hlen : ∀ k c hd cp pos os bytes, F86.saveLoop m d.hasWeakBits (decide (d.geometry.c < 80))
                  (rate + F86.encFlag m.encoding + F86.rpmFlag m.rpm) d k c hd cp pos = .ok (os, bytes) →
                  os.length = k ∧ ∀ o ∈ os.head?, o = pos % 2 ^ 32 := by
                intro k
                induction k with
                | zero =>
                  intro c hd cp pos os bytes h
                  rw [F86.saveLoop] at h
                  cases h
                  exact ⟨rfl, fun o ho => by cases ho⟩
                | succ k ih =>
                  intro c hd cp pos os bytes h
                  rw [F86.saveLoop] at h
                  split at h
                  · cases h
                  · split at h
                    · cases h
                    · simp only at h
                      split at h
                      · cases h
                      · rename_i os' bs' hnext
                        cases h
                        refine ⟨?_, fun o ho => by cases ho; rfl⟩
                        rw [List.length_cons, Nat.add_right_cancel_iff]
                        split at hnext
                        · split at hnext
                          · split at hnext
                            · exact (ih _ _ _ _ _ _ hnext).1
                            · exact (ih _ _ _ _ _ _ hnext).1
                          · exact (ih _ _ _ _ _ _ hnext).1
                        · exact (ih _ _ _ _ _ _ hnext).1
              obtain ⟨l1, l2⟩ := hlen _ _ _ _ _ _ _ hs
              obtain ⟨a, b, r, e⟩ : ∃ a b r, (os ++ List.replicate (256 * d.geometry.h - os.length) 0).flatMap F86.le4 = a :: b :: 0#8 :: r := by
                by_cases hn : 0 < 256 * d.geometry.h - os.length
                · refine tbl os _ hn fun o ho => ?_
                  rw [l2 o ho]
                  rcases hH with hH | hH <;> rw [hH] <;> simp
                · cases os with
                  | nil => rw [List.length_nil] at hn; omega
                  | cons o os =>
                    rw [List.cons_append, List.flatMap_cons]
                    have := l2 o rfl
                    rcases hH with hH | hH <;> rw [hH] at this <;> (rw [this]; exact ⟨_, _, _, rfl⟩)
              rw [e]
              exact ⟨F86.le2 _ ++ [a, b], r ++ bytes, by simp only [List.append_assoc, List.cons_append, List.nil_append]; rfl, rfl⟩

/-- **C88 (partial), 86F.** Likewise. -/
theorem C88_f86_partial (u : Unpack) (sort : List Path → List Path) (m : F86.Meta) (d : Disk) (bs : List Byte)
    (h : F86.save m d = .ok bs) (hn : bs.length ∉ rawSizes) : container u sort bs = .ok (.file .f86) := by
  obtain ⟨a, r, e, hl⟩ := f86_begins m d bs h
  have hb : Bears bs .f86 := by
    refine ⟨?_, _, List.mem_singleton.2 rfl, a ++ 0#8 :: r, by rw [e, List.append_assoc]⟩
    rw [e]
    simp [text, headerSize, hl]
    omega
  refine ((C87_told_apart_partial u sort bs (bears_no_archive _ _ hb)).2.2.1 .f86 (by simp) (by simp)).2 ⟨hn, ?_, hb⟩
  rw [e]
  refine no_line _ r ?_
  rw [List.length_append, hl]
  decide

theorem closest_known (d : Disk) (b : Bool) (g : StdFormat) (h : d.closestFormat b = some g) : g.diskSize ∈ rawSizes := by
  have h1 : ∀ x g, StdFormat.ofChs x = some g → g.diskSize ∈ rawSizes := by
    intro x g hx
    unfold StdFormat.ofChs at hx
    repeat' split at hx
    all_goals first | (cases hx; decide) | cases hx
  have h2 : ∀ (x : Bpb2) g, x.format = some g → g.diskSize ∈ rawSizes := by
    intro x g hx
    unfold Bpb2.format at hx
    have cut : ∀ (c : Prop) [Decidable c] (a : StdFormat) (r : Option StdFormat), a.diskSize ∈ rawSizes →
        (r = some g → g.diskSize ∈ rawSizes) → (if c then some a else r) = some g → g.diskSize ∈ rawSizes := by
      intro c _ a r h1 h2 h
      by_cases hc : c
      · rw [if_pos hc] at h; cases h; exact h1
      · rw [if_neg hc] at h; exact h2 h
    revert hx
    repeat' refine cut _ _ _ (by decide) ?_
    intro hx
    cases hx
  have hb : ∀ g, (d.boot.bind (·.standardFormat)) = some g → g.diskSize ∈ rawSizes := by
    intro g hg
    obtain ⟨s, _, hs⟩ := Option.bind_eq_some_iff.1 hg
    exact h2 _ _ hs
  have hc : ∀ g, (d.spt.bind fun spt =>
      (StdFormat.normalizedTrackCt d.map0.length).bind fun c => StdFormat.ofChs ⟨c, d.geometry.h, spt % 256⟩) = some g →
      g.diskSize ∈ rawSizes := by
    intro g hg
    obtain ⟨s, _, hs⟩ := Option.bind_eq_some_iff.1 hg
    obtain ⟨c, _, hs⟩ := Option.bind_eq_some_iff.1 hs
    exact h1 _ _ hs
  unfold Disk.closestFormat at h
  simp only at h
  generalize (d.boot.bind (·.standardFormat)) = x at h hb
  generalize (d.spt.bind fun spt =>
      (StdFormat.normalizedTrackCt d.map0.length).bind fun c => StdFormat.ofChs ⟨c, d.geometry.h, spt % 256⟩) = y at h hc
  have hor : ∀ g, x.or y = some g → g.diskSize ∈ rawSizes := by
    intro g hg
    cases x with
    | none => exact hc g hg
    | some v => exact hb g hg
  split at h
  · split at h
    · exact hb g h
    · split at h
      · exact hc g h
      · exact hor g h
  · exact hor g h

/-- **C88 (partial), raw.** A saved raw image is known for one again unless it happens to begin like an archive. -/
theorem C88_raw_partial (u : Unpack) (sort : List Path → List Path) (nz : Noise) (d : Disk) (bs : List Byte)
    (h : Raw.save nz d = .ok bs) (ha : ¬ Archive bs) : container u sort bs = .ok (.file .raw) := by
  refine (C87_told_apart_partial u sort bs ha).1.2 ?_
  cases hc : d.closestFormat true with
  | none => unfold Raw.save at h; rw [hc] at h; cases h
  | some g =>
    rw [save_length nz d g hc bs h]
    exact closest_known d true g hc

/-- **C88 is false of the code: sizes.** An image saved as PRI to a file of `n` bytes is taken for a raw image when it is saved
with a comment that fills the file up to the size of one. -/
theorem C88_false_size (u : Unpack) (sort : List Path → List Path) (rate : DiskTrack → BitVec 32) (d : Disk) (bs : List Byte)
    (h : Pri.save rate none d = .ok bs) (N : Nat) (hN : N ∈ rawSizes) (h1 : bs.length + 12 ≤ N) (h2 : N ≤ bs.length + 1012) :
    ∃ t bs', t.length ≤ 1000 ∧ Pri.save rate (some t) d = .ok bs' ∧ container u sort bs' = .ok (.file .raw) := by
  unfold Pri.save at h
  by_cases hr : d.res ≠ { bit := true }
  · rw [if_pos hr] at h; cases h
  rw [if_neg hr] at h
  simp only at h
  unfold Pri.saveChunks at h
  cases hc : Pri.tracksChunks rate d.trackList with
  | error e => rw [hc] at h; cases h
  | ok cs =>
    rw [hc] at h
    cases h
    rw [List.nil_append, List.length_append] at h1 h2
    have hw : ∀ t : List Byte, (Pce.writeChunk ⟨Pce.idText, t⟩).length = t.length + 12 := by
      intro t
      unfold Pce.writeChunk
      simp only [List.length_append]
      have : Pce.idText.bytes.length = 4 := rfl
      have hbe : ∀ x, (OddEven.be32 x).length = 4 := fun x => rfl
      rw [this, hbe, hbe]
      omega
    generalize hL : ((⟨Pce.idPri, [0#8, 0#8, 0#8, 0#8]⟩ :: cs : List Pce.Chunk).flatMap Pce.writeChunk).length = L at h1 h2
    have hs : Pri.save rate (some (List.replicate (N - (L + Pce.footer.length) - 12) 0x20#8)) d = .ok
          ((⟨Pce.idPri, [0#8, 0#8, 0#8, 0#8]⟩ :: ([⟨Pce.idText, List.replicate (N - (L + Pce.footer.length) - 12) 0x20#8⟩] ++ cs)).flatMap
            Pce.writeChunk ++ Pce.footer) := by
      unfold Pri.save
      rw [if_neg hr]
      simp only
      rw [if_neg (by rw [List.length_replicate]; omega)]
      unfold Pri.saveChunks
      rw [hc]
    refine ⟨List.replicate (N - (L + Pce.footer.length) - 12) 0x20#8, _, by rw [List.length_replicate]; omega, hs, ?_⟩
    obtain ⟨r, e, hl⟩ := pri_begins _ _ _ _ hs
    have hb : Bears _ .pri := ⟨hl, _, List.mem_singleton.2 rfl, _, e⟩
    refine (C87_told_apart_partial u sort _ (bears_no_archive _ _ hb)).1.2 ?_
    rw [List.flatMap_cons] at hL
    rw [List.length_append] at hL
    have : (((⟨Pce.idPri, [0#8, 0#8, 0#8, 0#8]⟩ :: ([⟨Pce.idText, List.replicate (N - (L + Pce.footer.length) - 12) 0x20#8⟩] ++ cs)).flatMap
          Pce.writeChunk ++ Pce.footer)).length = N := by
      rw [List.flatMap_cons, List.singleton_append, List.flatMap_cons, List.length_append, List.length_append, List.length_append, hw,
        List.length_replicate]
      omega
    rw [this]
    exact hN

/-- One track of `8 * n` cells. -/
def longTrack (n : Nat) : Disk :=
  { res := { bit := true }, map0 := [0],
    pool := [.bit ⟨0, 0⟩ { data := { bits := .ofBits (List.replicate (8 * n) true), clockMap := .ofBits [], weakMask := .ofBits [] } }] }

theorem longTrack_saved (n : Nat) (rate : DiskTrack → BitVec 32) : ∃ bs, Pri.save rate none (longTrack n) = .ok bs ∧ bs.length = n + 68 := by
  have hp : (DiskTrack.packed (List.replicate (8 * n) true)).length = n := by
    rw [packed_length, List.length_replicate]; omega
  have hw : ∀ (i : Pce.Id) (t : List Byte), i.bytes.length = 4 → (Pce.writeChunk ⟨i, t⟩).length = t.length + 12 := by
    intro i t hi
    unfold Pce.writeChunk
    simp only [List.length_append]
    have hbe : ∀ x, (OddEven.be32 x).length = 4 := fun x => rfl
    rw [hi, hbe, hbe]
    omega
  refine ⟨([⟨Pce.idPri, [0#8, 0#8, 0#8, 0#8]⟩, ⟨Pce.idTrak, Pri.trackHeader ⟨0, 0⟩ (List.replicate (8 * n) true).length (rate _)⟩,
    ⟨Pce.idData, DiskTrack.packed (List.replicate (8 * n) true)⟩] : List Pce.Chunk).flatMap Pce.writeChunk ++ Pce.footer, rfl, ?_⟩
  rw [List.flatMap_cons, List.flatMap_cons, List.flatMap_singleton, List.length_append, List.length_append, List.length_append, hw, hw, hw, hp]
  · show 4 + 12 + (16 + 12 + (n + 12)) + 12 = n + 68
    omega
  all_goals rfl

/-- For example, an image with one track of 163000 bytes, the comment filling the file up to 160 K. -/
example (u : Unpack) (sort : List Path → List Path) (rate : DiskTrack → BitVec 32) :
    ∃ t bs, t.length ≤ 1000 ∧ Pri.save rate (some t) (longTrack 163000) = .ok bs ∧ container u sort bs = .ok (.file .raw) := by
  obtain ⟨bs, h, hl⟩ := longTrack_saved 163000 rate
  exact C88_false_size u sort rate _ bs h (160 * 1024) (by decide) (by omega) (by omega)

/-- A raw image of 1.44 M that begins like a gzip file. -/
def gzRaw : List Byte := 0x1F#8 :: 0x8B#8 :: 8#8 :: List.replicate 1474557 0#8

/-- **C88 is false of the code: archives.** There is a raw image that the raw loader loads and the raw saver saves again, byte for
byte; but as a file it is an error, since it begins like a gzip file and is none. -/
theorem C88_false_archive (u : Unpack) (sort : List Path → List Path) (hu : u.gunzip gzRaw = none) (H : List Byte → Nat) (nz nz' : Noise) :
    (∃ d0, Raw.loadImage nz gzRaw = .ok d0 ∧ (NoCollision H d0 → ∃ d, Raw.load H nz gzRaw = .ok d ∧ Raw.save nz' d = .ok gzRaw)) ∧
      container u sort gzRaw = .error .io := by
  have hl : gzRaw.length = 1474560 := by
    unfold gzRaw
    rw [List.length_cons, List.length_cons, List.length_cons, List.length_replicate]
  have hz : ∀ k, k < 1474557 → gzRaw.getD (k + 3) 0 = 0 := fun k hk => getD_replicate_byte 1474557 k 0#8 hk
  refine ⟨C16_blank_boot_sector_partial .pc1440 rfl gzRaw (by rw [hl]; decide) (hz 16 (by omega)) (hz 17 (by omega)) (hz 18 (by omega))
    H nz nz', ?_⟩
  have h1 : Detect.starts 4 [0x50#8, 0x4B#8, 0x03#8, 0x04#8] gzRaw = false := by
    unfold Detect.starts gzRaw
    rw [show [0x50#8, 0x4B#8, 0x03#8, 0x04#8].length = 4 from rfl, List.take_succ_cons]
    rw [show (31#8 :: List.take 3 (139#8 :: 8#8 :: List.replicate 1474557 0#8) == [0x50#8, 0x4B#8, 0x03#8, 0x04#8]) = false from rfl,
      Bool.and_false]
  have h2 : Detect.starts 3 [0x1F#8, 0x8B#8, 0x08#8] gzRaw = true := by
    unfold Detect.starts
    rw [hl]
    rfl
  unfold container
  rw [h1, h2, hu]
  rfl

/-! ## C89 -/

/-- What a single file packed into an archive is taken for. -/
theorem single_plain (x : List Byte) : single x = match plain x with
    | .error e => .error e
    | .ok (.file F) => .ok (.resolved F x)
    | .ok .kryo => .ok (.resolved .kryo x)
    | .ok c => .ok c := by
  unfold single plain
  cases detect x with
  | none => rfl
  | some F => cases F <;> rfl

/-- A zip file `f` with the one file `x` in it, or a gzip file of `x`. -/
def Packs (u : Unpack) (f x : List Byte) : Prop :=
  (∃ r p n, f = text ['P', 'K'] ++ [3#8, 4#8] ++ r ∧ u.unzip f = some ⟨[(p, x)], n⟩) ∨
    ((∃ r, f = [0x1F#8, 0x8B#8, 8#8] ++ r) ∧ u.gunzip f = some x)

theorem packs_container (u : Unpack) (sort : List Path → List Path) (f x : List Byte) (h : Packs u f x) :
    container u sort f = if x.length > maxFile then .error .io else single x := by
  rcases h with ⟨r, p, n, rfl, h⟩ | ⟨⟨r, rfl⟩, h⟩
  · unfold container
    rw [if_pos (by simp [Detect.starts, text]), h]
  · unfold container
    rw [if_neg (by simp [Detect.starts]), if_pos (by simp [Detect.starts]), h]

/-- **C89 (partial).** A disk image packed into a zip or gzip file loads as the image itself does, with any selection and any
parsers; and an image that is not recognised is not recognised in the archive either.  Missing: streams of a KryoFlux set
(`C89_false_kryo`), images that begin like an archive, and images of more than 100,000,000 bytes. -/
theorem C89_packed_partial (u : Unpack) (sort : List Path → List Path) (L : Loaders) (sel sel' : Option Selection) (f x : List Byte)
    (h : Packs u f x) (hx : x.length ≤ maxFile) (ha : ¬ Archive x) (hk : container u sort x ≠ .ok .kryo) :
    Detect.load u sort L sel f = Detect.load u sort L sel' x := by
  have e := packs_container u sort f x h
  rw [if_neg (by omega), single_plain] at e
  rw [container_plain u sort x ha] at hk
  unfold Detect.load
  rw [e, container_plain u sort x ha]
  cases hp : plain x with
  | error e => rfl
  | ok c =>
    unfold plain at hp
    split at hp
    · cases hp
    · cases hp
      exact absurd (by unfold plain; simp [*]) hk
    · cases hp; rfl

/-- **C89**: an archive of an archive is not opened again: it is looked at like a file of some format. -/
theorem C89_nested (u : Unpack) (sort : List Path → List Path) (L : Loaders) (sel : Option Selection) (f x : List Byte)
    (h : Packs u f x) (ha : Archive x) (hn : x.length ∉ rawSizes) (hi : ¬ HasImdLine x) :
    Detect.load u sort L sel f = .error .unknownFormat ∨ Detect.load u sort L sel f = .error .io := by
  have e := packs_container u sort f x h
  unfold Detect.load
  rw [e]
  by_cases hx : x.length > maxFile
  · rw [if_pos hx]; exact Or.inr rfl
  · rw [if_neg hx]
    have hd : detect x = none := by
      refine (detect_none x).2 ⟨hn, hi, fun F hb => bears_no_archive x F hb ha⟩
    unfold single
    rw [hd]
    exact Or.inl rfl

/-- **C89**: more than 100,000,000 bytes are not unpacked. -/
theorem C89_too_long (u : Unpack) (sort : List Path → List Path) (L : Loaders) (sel : Option Selection) (f x : List Byte)
    (h : Packs u f x) (hx : maxFile < x.length) : Detect.load u sort L sel f = .error .io := by
  have e := packs_container u sort f x h
  unfold Detect.load
  rw [e, if_pos hx]

/-- **C89 is false of the code: KryoFlux.** A stream of a KryoFlux set loads the set it belongs to; packed, it loads alone. -/
theorem C89_false_kryo (u : Unpack) (sort : List Path → List Path) (L : Loaders) (sel : Option Selection) (f x : List Byte)
    (h : Packs u f x) (hx : x.length ≤ maxFile) (hk : container u sort x = .ok .kryo) :
    Detect.load u sort L sel x = L.set ∧ Detect.load u sort L sel f = L.parse .kryo x := by
  have e := packs_container u sort f x h
  have hp : plain x = .ok .kryo := by
    unfold container at hk
    repeat' split at hk
    all_goals first | exact hk | cases hk | skip
    all_goals (unfold single at hk; split at hk <;> cases hk)
  rw [if_neg (by omega), single_plain, hp] at e
  refine ⟨?_, ?_⟩
  · unfold Detect.load; rw [hk]
  · unfold Detect.load; rw [e]

/-- **C89 is false of the code: more files.** A zip file with more than one file and at most 5,000,000 bytes in them is
taken for a raw image if it has the size of one. -/
theorem C89_false_several (u : Unpack) (sort : List Path → List Path) (f : List Byte) (x y : Path × List Byte)
    (zs : List (Path × List Byte)) (n : Nat) (hf : ∃ r, f = text ['P', 'K'] ++ [3#8, 4#8] ++ r)
    (hu : u.unzip f = some ⟨x :: y :: zs, n⟩) (hn : n ≤ 5000000) (hl : f.length ∈ rawSizes) :
    container u sort f = .ok (.file .raw) := by
  obtain ⟨r, rfl⟩ := hf
  unfold container
  rw [if_pos (by simp [Detect.starts, text]), hu]
  simp only
  rw [if_neg (by omega)]
  exact (plain_ok _ .raw).2 ((detect_raw _).2 hl)

/-- For example, a PRI file packed by gzip (here with no more than the mark of it). -/
example (sort : List Path → List Path) (L : Loaders) : ∃ u f,
    Packs u f (bare .pri 300) ∧ Detect.load u sort L none f = L.parse .pri (bare .pri 300) := by
  have hb : Bears (bare .pri 300) .pri := bare_bears .pri 300 (by decide) (by decide) (by omega)
  have hl : (bare .pri 300).length = 300 := bare_length .pri 300 (by omega)
  have hp : Packs ⟨fun _ => none, fun _ => some (bare .pri 300)⟩ [0x1F#8, 0x8B#8, 8#8] (bare .pri 300) := Or.inr ⟨⟨[], rfl⟩, rfl⟩
  have hc : ∀ u, container u sort (bare .pri 300) = .ok (.file .pri) := fun u =>
    ((C87_told_apart_partial u sort _ (bears_no_archive _ _ hb)).2.2.1 .pri (by simp) (by simp)).2
      ⟨by rw [hl]; decide, by rw [show bare .pri 300 = text ['P', 'R', 'I', ' '] ++ 0#8 :: List.replicate 295 0#8 from rfl]; exact no_line _ _ (by decide), hb⟩
  refine ⟨_, _, hp, ?_⟩
  rw [C89_packed_partial _ sort L none none _ _ hp (by rw [hl]; decide) (bears_no_archive _ _ hb) (by rw [hc]; intro h; cases h)]
  unfold Detect.load
  rw [hc]

end Fox
