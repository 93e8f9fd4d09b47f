import Verif.Proofs.IpfTrack
import Verif.Proofs.BitDisk
namespace Fox
namespace Ipf
open Spec IpfFile

attribute [local irreducible] number be32At

/-! ### The order of the tracks -/

theorem notAfter_iff (a b : Ch) : notAfter a b = true ↔ a.c < b.c ∨ a.c = b.c ∧ a.h ≤ b.h := by
  unfold notAfter
  exact decide_eq_true_iff

theorem notAfter_trans (a b c : Ch) (h1 : notAfter a b = true) (h2 : notAfter b c = true) : notAfter a c = true := by
  rw [notAfter_iff] at *
  omega

theorem notAfter_total (a b : Ch) : (notAfter a b || notAfter b a) = true := by
  rw [Bool.or_eq_true, notAfter_iff, notAfter_iff]
  omega

/-- Sorted by place, a complete set of tracks comes in order. -/
theorem ordered_of {l : List Ch} (hp : l.Pairwise fun a b => notAfter a b = true) (hc : Complete l) : OrderedChs l := by
  intro i ch hi
  have hmem : ch ∈ l := List.mem_of_getElem? hi
  obtain ⟨hil, hie⟩ := List.getElem?_eq_some_iff.1 hi
  refine ⟨(hc.side ch hmem).1, ?_⟩
  rw [List.pairwise_iff_getElem] at hp
  have hnd := hc.once
  have hperm : (((l.take i).filter fun y => y.h == ch.h).map Ch.c).Perm (List.range ch.c) := by
    rw [List.perm_ext_iff_of_nodup]
    · intro c'
      rw [List.mem_map, List.mem_range]
      constructor
      · rintro ⟨y, hy, rfl⟩
        rw [List.mem_filter] at hy
        obtain ⟨hy, hyh⟩ := hy
        rw [List.mem_take_iff_getElem] at hy
        obtain ⟨j, hj, rfl⟩ := hy
        have hji : j < i := by omega
        have h1 := hp j i (by omega) hil hji
        rw [notAfter_iff, hie] at h1
        have hne : l[j] ≠ ch := by
          intro h0
          rw [← hie] at h0
          have := (List.getElem_inj hnd).1 h0
          omega
        have hyh : (l[j]).h = ch.h := by simpa using hyh
        rcases h1 with h1 | h1
        · exact h1
        · exfalso; apply hne
          have : l[j] = ⟨(l[j]).c, (l[j]).h⟩ := rfl
          rw [this, h1.1, hyh]
      · intro hlt
        obtain ⟨j, hj, hje⟩ := List.mem_iff_getElem.1 (hc.below ch hmem c' hlt)
        refine ⟨⟨c', ch.h⟩, ?_, rfl⟩
        rw [List.mem_filter]
        refine ⟨?_, by simp⟩
        rw [List.mem_take_iff_getElem]
        rcases Nat.lt_trichotomy j i with h | h | h
        · exact ⟨j, by omega, hje⟩
        · subst h
          rw [hie] at hje
          rw [hje] at hlt
          exact absurd hlt (Nat.lt_irrefl _)
        · have h1 := hp i j hil hj h
          rw [notAfter_iff, hie, hje] at h1
          simp only at h1
          omega
    · rw [List.nodup_iff_pairwise_ne, List.pairwise_map]
      have h1 : ((l.take i).filter fun y => y.h == ch.h).Pairwise (· ≠ ·) := by
        rw [← List.nodup_iff_pairwise_ne]
        exact (hnd.sublist (List.take_sublist _ _)).sublist List.filter_sublist
      refine h1.imp_of_mem ?_
      intro a b ha hb hab hcc
      rw [List.mem_filter] at ha hb
      have e1 : a.h = ch.h := by simpa using ha.2
      have e2 : b.h = ch.h := by simpa using hb.2
      apply hab
      have : a = ⟨a.c, a.h⟩ := rfl
      rw [this, hcc, e1, ← e2]
    · exact List.nodup_range
  have := hperm.length_eq
  rw [List.length_map, List.length_range] at this
  exact this.symm

/-- What the sorting of the image records yields. -/
theorem sorted_spec (l : List Image) : (sorted l).Perm (List.range l.length) ∧
    ((sorted l).map fun k => (l[k]?.map Image.ch).getD ⟨0, 0⟩).Pairwise fun a b => notAfter a b = true := by
  unfold sorted
  refine ⟨List.mergeSort_perm _ _, ?_⟩
  rw [List.pairwise_map]
  exact List.pairwise_mergeSort (le := fun a b : Nat => notAfter ((l[a]?.map Image.ch).getD ⟨0, 0⟩) ((l[b]?.map Image.ch).getD ⟨0, 0⟩)) (fun a b c h1 h2 => notAfter_trans _ _ _ h1 h2) (fun a b => notAfter_total _ _) _

theorem complete_perm {a b : List Ch} (h : a.Perm b) (hb : Complete b) : Complete a :=
  ⟨fun ch hch => hb.side ch (h.mem_iff.1 hch), h.nodup_iff.2 hb.once,
   fun ch hch c hc => h.mem_iff.2 (hb.below ch (h.mem_iff.1 hch) c hc)⟩

theorem withTrack_set {d : Disk} (hd : d.res = {} ∨ d.res = { bit := true }) (h : Nat) (y : DiskTrack) :
    withTrack (d.setResolution .bitStream) h y = withTrack d h y := by
  unfold withTrack Disk.setResolution
  rcases hd with hd | hd <;> rw [hd] <;> rfl

/-- Adding the tracks one after the other. -/
theorem tracks_at {room : Nat} {rnd : Nat → Bool} {f : List Byte} {v2 : Bool} {st : Store} {i : Info}
    {xs zs : List Entry} (hr : f.length ≤ room) (hi : i.encoder = if v2 then 2 else 1)
    (him : st.images = xs.map imageOfEntry) (hlen : zs.length = xs.length)
    (hx : ∀ x ∈ xs, x.Says room v2 ∧ x.track.ch.c < 65536 ∧ x.track.ch.h < 2 ∧ 0 < x.track.cells)
    (hz : ∀ (k : Nat) z, zs[k]? = some z → z.Says room v2 ∧ ∃ d, st.datas[k]? = some d ∧ Found f v2 z d)
    (hfit : ∀ (k : Nat) x z, xs[k]? = some x → zs[k]? = some z → (seenLaid v2 z.track.blocks).length ≤ x.track.cells) :
    ∀ (ks : List Nat) (pre : List Ch) (d : Disk), (∀ k ∈ ks, k < xs.length) →
      OrderedChs (pre ++ ks.map fun k => (xs[k]?.map fun x => x.track.ch).getD ⟨0, 0⟩) →
      (∀ h, h < 2 → (d.headMap h).length = (pre.filter fun y => y.h == h).length) →
      (d.res = {} ∨ d.res = { bit := true }) →
      ∃ (ys : List DiskTrack) (l : List (Ch × List Chsn)), tracks room rnd f st i ks d = .ok (pushAll d ys, l) ∧
        ys.length = ks.length ∧ l.length = ks.length ∧
        ∀ (j k : Nat), ks[j]? = some k → ∃ x z y ids, xs[k]? = some x ∧ zs[k]? = some z ∧ ys[j]? = some y ∧
          l[j]? = some (x.track.ch, ids) ∧ Made rnd v2 x z y ids
  | [], pre, d, _, _, _, _ => ⟨[], [], rfl, rfl, rfl, fun j k h => by simp at h⟩
  | k :: ks, pre, d, hk, ho, hm, hd => by
    have hkl := hk k (by simp)
    obtain ⟨x, hxk⟩ : ∃ x, xs[k]? = some x := ⟨xs[k], List.getElem?_eq_getElem hkl⟩
    obtain ⟨z, hzk⟩ : ∃ z, zs[k]? = some z := ⟨zs[k]'(by omega), List.getElem?_eq_getElem (by omega)⟩
    obtain ⟨sx, cx, hhx, x0⟩ := hx x (List.mem_of_getElem? hxk)
    obtain ⟨sz, dt, hdt, hfd⟩ := hz k z hzk
    have hch := image_ch sx cx hhx
    have hmap : (d.headMap x.track.ch.h).length = x.track.ch.c := by
      have := ho pre.length x.track.ch (by
        rw [List.getElem?_append_right (Nat.le_refl _), Nat.sub_self, List.map_cons, List.getElem?_cons_zero, hxk]
        rfl)
      rw [List.take_left] at this
      rw [hm _ hhx, this.2]
    obtain ⟨y, ids, y1, y2⟩ := decodeTrack_at (rnd := rnd) (d := d) hch sx.cells sx.start sz hfd hr hhx x0
      (hfit k x z hxk hzk) hmap
    rw [withTrack_set hd] at y1
    have hyc : y.ch = x.track.ch := y2.ch
    obtain ⟨ys, l, t1, t2, t3, t4⟩ := tracks_at hr hi him hlen hx hz hfit ks (pre ++ [x.track.ch]) (withTrack d x.track.ch.h y)
      (fun k hk' => hk k (by simp [hk'])) (by
        rw [List.append_assoc]
        rw [List.map_cons, hxk] at ho
        exact ho)
      (by
        intro h hh
        rw [withTrack_map d x.track.ch.h h y hhx hh, List.length_append, hm h hh, List.filter_append, List.length_append]
        by_cases e : h = x.track.ch.h
        · rw [if_pos e, List.filter_cons_of_pos (p := fun y : Ch => y.h == h) (by simp [e])]; rfl
        · rw [if_neg e, List.filter_cons_of_neg (p := fun y : Ch => y.h == h) (by simpa using fun h0 => e h0.symm)]; rfl)
      (.inr (withTrack_res_bit hd _ _))
    refine ⟨y :: ys, (x.track.ch, ids) :: l, ?_, by simp [t2], by simp [t3], ?_⟩
    · rw [tracks, him, List.getElem?_map, hxk, hdt]
      simp only [Option.map_some]
      have he : i.encoder = 1 ∨ i.encoder = 2 := by rw [hi]; cases v2 <;> simp
      have he2 : (i.encoder == 2) = v2 := by rw [hi]; cases v2 <;> rfl
      rw [if_pos he, he2, y1]
      simp only
      rw [t1]
      simp only [hch, pushAll, hyc]
    · intro j k' hj
      cases j with
      | zero =>
        have : k = k' := by simpa using hj
        subst this
        exact ⟨x, z, y, ids, hxk, hzk, rfl, rfl, y2⟩
      | succ j =>
        rw [List.getElem?_cons_succ] at hj ⊢
        exact t4 j k' hj

theorem at?_geometry (d : Disk) (g : Ch) (h c : Nat) : at? { d with geometry := g } h c = at? d h c := rfl

theorem load_stages {room : Nat} {rnd : Nat → Bool} {d d' : Disk} {f : List Byte} {c : Chunk} {p : Nat} {st : Store} {i : Info}
    {l : List (Ch × List Chsn)} (h1 : readChunk f 0 = .ok (c, p)) (h2 : c.id = idCaps) (h3 : records f f.length p {} = .ok st)
    (h4 : st.info = some i) (h5 : tracks room rnd f st i (sorted st.images) d = .ok (d', l)) :
    load room rnd d f = .ok ({ d' with geometry := ⟨(i.maxTrack + 1) % 65536, (i.maxSide + 1) % 256⟩ }, l) := by
  unfold load
  rw [h1]
  dsimp only
  rw [if_neg (by rw [h2]; simp), h3]
  dsimp only
  rw [h4]
  dsimp only
  rw [h5]

/-- An IPF file loads; the track of an IMGE chunk gets the cells of the DATA chunk at the same position. -/
theorem load_file {room : Nat} (rnd : Nat → Bool) {f inf : List Byte} {v2 : Bool} {xs zs : List Entry}
    (h : IsFile room v2 xs zs inf f) (hsub : ∀ z ∈ zs, z ∈ xs) (hlen : zs.length = xs.length) (hr : f.length ≤ room)
    (hc : Complete (xs.map fun x => x.track.ch)) (h0 : ∀ x ∈ xs, 0 < x.track.cells)
    (hfit : ∀ (k : Nat) x z, xs[k]? = some x → zs[k]? = some z → (seenLaid v2 z.track.blocks).length ≤ x.track.cells) :
    ∃ d l, load room rnd {} f = .ok (d, l) ∧
      (∀ (k : Nat) x z, xs[k]? = some x → zs[k]? = some z → ∃ y ids, at? d x.track.ch.h x.track.ch.c = some y ∧
        (x.track.ch, ids) ∈ l ∧ Made rnd v2 x z y ids) ∧
      l.length = xs.length ∧
      (∀ ch : Ch, ch.h < 2 → at? d ch.h ch.c ≠ none → ∃ x ∈ xs, x.track.ch = ch) ∧
      d.geometry = ⟨(number inf 28 + 1) % 65536, (number inf 36 + 1) % 256⟩ := by
  obtain ⟨c, p, ds, r1, r2, r3, r4, r5⟩ := records_file h hsub
  generalize number inf 28 = mt at r3 ⊢
  generalize number inf 36 = ms at r3 ⊢
  have hxs : ∀ x ∈ xs, x.Says room v2 ∧ x.track.ch.c < 65536 ∧ x.track.ch.h < 2 ∧ 0 < x.track.cells := fun x hx => by
    have := hc.side _ (List.mem_map_of_mem (f := fun x : Entry => x.track.ch) hx)
    exact ⟨h.says x hx, this.2, this.1, h0 x hx⟩
  obtain ⟨s1, s2⟩ := sorted_spec (xs.map imageOfEntry)
  have hks : ∀ k ∈ sorted (xs.map imageOfEntry), k < xs.length := fun k hk => by
    have := s1.mem_iff.1 hk
    simpa using this
  have hchs : ((sorted (xs.map imageOfEntry)).map fun k => ((xs.map imageOfEntry)[k]?.map Image.ch).getD ⟨0, 0⟩) =
      (sorted (xs.map imageOfEntry)).map fun k => (xs[k]?.map fun x => x.track.ch).getD ⟨0, 0⟩ := by
    apply List.map_congr_left
    intro k hk
    have hkl := hks k hk
    obtain ⟨a, b, c, _⟩ := hxs _ (List.getElem_mem hkl)
    rw [List.getElem?_map, List.getElem?_eq_getElem hkl, Option.map_some, Option.map_some, Option.map_some, Option.getD_some,
      Option.getD_some, image_ch a b c]
  rw [hchs] at s2
  have hperm : ((sorted (xs.map imageOfEntry)).map fun k => (xs[k]?.map fun x => x.track.ch).getD ⟨0, 0⟩).Perm
      (xs.map fun x => x.track.ch) := by
    refine (s1.map _).trans ?_
    rw [List.length_map]
    have : (List.range xs.length).map (fun k => (xs[k]?.map fun x => x.track.ch).getD ⟨0, 0⟩) = xs.map fun x => x.track.ch := by
      apply List.ext_getElem?
      intro j
      rw [List.getElem?_map, List.getElem?_map]
      by_cases hj : j < xs.length
      · rw [List.getElem?_range hj, List.getElem?_eq_getElem hj]
        simp [hj]
      · rw [List.getElem?_eq_none (by simp; omega), List.getElem?_eq_none (by omega)]
        rfl
    rw [this]
  have ho := ordered_of s2 (complete_perm hperm hc)
  obtain ⟨ys, l, t1, t2, t3, t4⟩ := tracks_at (rnd := rnd) (f := f) (v2 := v2)
    (st := { enc := if v2 then 2 else 1, images := xs.map imageOfEntry, datas := ds,
             info := some ⟨if v2 then 2 else 1, mt, ms⟩ })
    (i := ⟨if v2 then 2 else 1, mt, ms⟩) (xs := xs) (zs := zs) hr rfl rfl hlen hxs
    (fun k z hz => ⟨h.says z (hsub z (List.mem_of_getElem? hz)), r5 k z hz⟩) hfit
    (sorted (xs.map imageOfEntry)) [] {} hks (by rw [List.nil_append]; exact ho)
    (fun h hh => by unfold Disk.headMap; split <;> rfl) (.inl rfl)
  have hyc : ys.map DiskTrack.ch = (sorted (xs.map imageOfEntry)).map fun k => (xs[k]?.map fun x => x.track.ch).getD ⟨0, 0⟩ := by
    apply List.ext_getElem?
    intro j
    rw [List.getElem?_map, List.getElem?_map]
    by_cases hj : j < (sorted (xs.map imageOfEntry)).length
    · obtain ⟨x, z, y, ids, e1, e2, e3, e5, e4⟩ := t4 j _ (List.getElem?_eq_getElem hj)
      rw [e3, List.getElem?_eq_getElem hj, Option.map_some, Option.map_some, e1, e4.ch]
      rfl
    · rw [List.getElem?_eq_none (by omega), List.getElem?_eq_none (by omega)]
      rfl
  rw [← hyc] at ho
  refine ⟨{ pushAll {} ys with geometry := ⟨(mt + 1) % 65536, (ms + 1) % 256⟩ }, l, ?_, ?_, ?_, ?_, rfl⟩
  · exact load_stages r1 r2 r3 rfl t1
  · intro k x z hxk hzk
    have hmem : k ∈ sorted (xs.map imageOfEntry) := s1.mem_iff.2 (by
      rw [List.length_map, List.mem_range]; exact (List.getElem?_eq_some_iff.1 hxk).1)
    obtain ⟨j, hj, hjk⟩ := List.mem_iff_getElem.1 hmem
    obtain ⟨x', z', y, ids, e1, e2, e3, e5, e4⟩ := t4 j k (by rw [List.getElem?_eq_getElem hj, hjk])
    rw [hxk] at e1
    rw [hzk] at e2
    cases e1
    cases e2
    refine ⟨y, ids, ?_, List.mem_of_getElem? e5, e4⟩
    rw [at?_geometry]
    exact (pushAll_at ho (ch := x.track.ch) (hxs x (List.mem_of_getElem? hxk)).2.2.1 y).2 ⟨List.mem_of_getElem? e3, e4.ch⟩
  · rw [t3, s1.length_eq]; simp
  · intro ch hh hne
    rw [at?_geometry] at hne
    cases hy : at? (pushAll {} ys) ch.h ch.c with
    | none => exact absurd hy hne
    | some y =>
      obtain ⟨m1, m2⟩ := (pushAll_at ho hh y).1 hy
      obtain ⟨j, hj, hje⟩ := List.mem_iff_getElem.1 m1
      obtain ⟨x, z, y', ids, e1, e2, e3, e5, e4⟩ := t4 j _ (List.getElem?_eq_getElem (by omega : j < (sorted (xs.map imageOfEntry)).length))
      rw [List.getElem?_eq_getElem hj, hje] at e3
      cases e3
      exact ⟨x, List.mem_of_getElem? e1, e4.ch.symm.trans m2⟩

end Ipf
end Fox
