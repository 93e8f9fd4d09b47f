import Verif.Model.RawLayout
import Verif.Model.StandardFormat
/-
C144: layouts guessed from the size of a raw image.
-/
namespace Fox
open RawLayout

/-- The bytes of an image of a layout. -/
def Layout.bytes (l : Layout) : Nat := l.c * l.h * l.s * l.size

theorem mem_spts (x : Nat) : x ∈ spts ↔ 8 ≤ x ∧ x ≤ 18 := by
  unfold spts
  rw [List.mem_map]
  constructor
  · rintro ⟨a, h, rfl⟩; rw [List.mem_range] at h; omega
  · intro h; exact ⟨x - 8, List.mem_range.2 (by omega), by omega⟩

/-- What a candidate is. -/
theorem candidate_some {total z spt : Nat} {l : Layout} (h8 : 8 ≤ spt) :
    candidate total z spt = some l ↔
      ∃ c k, l = ⟨c, k, spt, 0, z⟩ ∧ total = c * k * spt ∧ (k = 2 ∨ (k = 1 ∧ c % 2 = 1)) ∧ ((39 ≤ c ∧ c < 45) ∨ (79 ≤ c ∧ c ≤ 85)) := by
  unfold candidate
  have hd : total % spt = 0 → total = total / spt * spt := fun h => by
    have := Nat.div_add_mod total spt
    rw [h, Nat.add_zero, Nat.mul_comm] at this; exact this.symm
  constructor
  · intro h
    split at h
    · cases h
    · next hm =>
      have hm : total % spt = 0 := by omega
      have ht := hd hm
      simp only at h
      by_cases he : total / spt % 2 = 0
      · simp only [he, if_true] at h
        split at h
        · next hc =>
          injection h with h
          refine ⟨_, 2, h.symm, ?_, .inl rfl, by omega⟩
          have : total / spt / 2 * 2 = total / spt := by omega
          rw [this]; exact ht
        · cases h
      · simp only [he, if_false] at h
        split at h
        · next hc =>
          injection h with h
          refine ⟨_, 1, h.symm, ?_, .inr ⟨rfl, by omega⟩, by omega⟩
          rw [Nat.mul_one, Nat.div_one]; exact ht
        · cases h
  · rintro ⟨c, k, rfl, rfl, hk, hc⟩
    have hs : 0 < spt := by omega
    rw [if_neg (by rw [Nat.mul_mod_left]; simp)]
    simp only
    rw [Nat.mul_div_cancel _ hs]
    rcases hk with rfl | ⟨rfl, hodd⟩
    · have e : c * 2 % 2 = 0 := by omega
      simp only [e, if_true]
      have : c * 2 / 2 = c := by omega
      rw [this, if_pos (by omega)]
    · have e : ¬ c * 1 % 2 = 0 := by omega
      simp only [e, if_false]
      have : c * 1 / 1 = c := by omega
      rw [this, if_pos (by omega)]

/-- The layouts that are found, told without the search. -/
theorem derive_ok {size : Nat} {z : Option Nat} {ls : List Layout} (h : deriveMatches size z = .ok ls) (l : Layout) :
    l ∈ ls ↔ ∃ l0, (∃ spt ∈ spts, candidate (size / z.getD 512) (z.getD 512) spt = some l0) ∧ l ∈ equivalents l0 := by
  unfold deriveMatches at h
  simp only at h
  split at h
  · cases h
  · split at h
    · cases h
    · split at h
      · cases h
      · injection h with h
        subst h
        rw [List.mem_flatMap]
        refine exists_congr fun l0 => and_congr ?_ Iff.rfl
        rw [List.mem_mergeSort, List.mem_filterMap]
        rfl

theorem bytes_equivalents {l l0 : Layout} (h : l ∈ equivalents l0) : l.bytes = l0.bytes ∧ l.s = l0.s ∧ l.size = l0.size ∧ l.sOff = l0.sOff := by
  unfold equivalents at h
  split at h
  · next hc =>
    simp only [List.mem_cons, List.not_mem_nil, or_false] at h
    rcases h with rfl | rfl
    · exact ⟨rfl, rfl, rfl, rfl⟩
    · refine ⟨?_, rfl, rfl, rfl⟩
      show l0.c / 2 * 2 * l0.s * l0.size = l0.c * l0.h * l0.s * l0.size
      have : l0.c / 2 * 2 = l0.c := by omega
      rw [this, hc.2.2, Nat.mul_one]
  · split at h
    · next hc =>
      simp only [List.mem_cons, List.not_mem_nil, or_false] at h
      rcases h with rfl | rfl
      · exact ⟨rfl, rfl, rfl, rfl⟩
      · refine ⟨?_, rfl, rfl, rfl⟩
        show l0.c * 2 * 1 * l0.s * l0.size = l0.c * l0.h * l0.s * l0.size
        rw [hc.2, Nat.mul_one]
    · rw [List.mem_singleton.1 h]; exact ⟨rfl, rfl, rfl, rfl⟩

/-- A layout of a disk: 39 to 44 or 79 to 85 cylinders, one or two sides, 8 to 18 sectors a track. -/
def Usual (l : Layout) : Prop :=
  ((39 ≤ l.c ∧ l.c ≤ 44) ∨ (79 ≤ l.c ∧ l.c ≤ 85)) ∧ (l.h = 1 ∨ l.h = 2) ∧ 8 ≤ l.s ∧ l.s ≤ 18 ∧ l.sOff = 0

theorem distance_equivalents {total z spt : Nat} (h8 : 8 ≤ spt) {l l0 : Layout} (h0 : candidate total z spt = some l0) (h : l ∈ equivalents l0) :
    distance l0.c ≤ distance l.c ∧ (l = l0 ∨ (l0.h = 2 ∧ l0.c ≤ 44 ∧ l = { l0 with c := l0.c * 2, h := 1 })) := by
  obtain ⟨c, k, rfl, _, hk, hc⟩ := (candidate_some h8).1 h0
  unfold equivalents at h
  split at h
  · next hx => simp only at hx; omega
  · split at h
    · next hx =>
      simp only at hx
      simp only [List.mem_cons, List.not_mem_nil, or_false] at h
      rcases h with rfl | rfl
      · exact ⟨Nat.le_refl _, .inl rfl⟩
      · refine ⟨?_, .inr ⟨hx.2, by show c ≤ 44; omega, rfl⟩⟩
        show distance c ≤ distance (c * 2)
        unfold distance
        split <;> split <;> omega
    · rw [List.mem_singleton.1 h]; exact ⟨Nat.le_refl _, .inl rfl⟩

theorem head_equivalents (l : Layout) : ∃ t, equivalents l = l :: t := by
  unfold equivalents
  split
  · exact ⟨_, rfl⟩
  · split <;> exact ⟨_, rfl⟩

/-- **C144 (partial).** Every layout that is guessed for an image of a size has exactly that size, is a usual layout or one of up to 88 cylinders, and has sectors
of the size that was asked for; and no guess is nearer to 40 or 80 cylinders than the first.
Missing: that every usual layout is guessed (refuted below; see `C144_found`). -/
theorem C144_guessed_partial {size : Nat} {z : Option Nat} {ls : List Layout} (h : deriveMatches size z = .ok ls) :
    ls ≠ [] ∧ (∀ l ∈ ls, l.bytes = size ∧ l.size = z.getD 512 ∧ l.sOff = 0 ∧ 8 ≤ l.s ∧ l.s ≤ 18 ∧
      ((39 ≤ l.c ∧ l.c ≤ 44) ∨ (78 ≤ l.c ∧ l.c ≤ 88)) ∧ (l.h = 1 ∨ l.h = 2)) ∧
    (∀ m, ls.head? = some m → ∀ l ∈ ls, distance m.c ≤ distance l.c) := by
  have hmem := derive_ok h
  have hz : size = size / z.getD 512 * z.getD 512 := by
    unfold deriveMatches at h
    simp only at h
    split at h
    · cases h
    · split at h
      · cases h
      · next hm =>
        have hm : size % z.getD 512 = 0 := Decidable.not_not.1 hm
        have := Nat.div_add_mod size (z.getD 512)
        rw [hm, Nat.add_zero, Nat.mul_comm] at this; exact this.symm
  have hhead : ∃ x t, ls = x :: t ∧ ∀ l0 spt, spt ∈ spts → candidate (size / z.getD 512) (z.getD 512) spt = some l0 → distance x.c ≤ distance l0.c := by
    unfold deriveMatches at h
    simp only at h
    split at h
    · cases h
    · split at h
      · cases h
      · split at h
        · cases h
        · next hne =>
          injection h with h
          generalize hf : spts.filterMap (candidate (size / z.getD defaultSize) (z.getD defaultSize)) = found at h hne
          have hp := List.pairwise_mergeSort (le := fun a b : Layout => decide (distance a.c ≤ distance b.c)) (by intro a b c; simp only [decide_eq_true_eq]; omega)
            (by intro a b; simp only [Bool.or_eq_true, decide_eq_true_eq]; omega) found
          have hm : ∀ y, y ∈ found.mergeSort (fun a b => decide (distance a.c ≤ distance b.c)) ↔ y ∈ found := fun y => List.mem_mergeSort
          revert h hp hm
          generalize found.mergeSort (fun a b => decide (distance a.c ≤ distance b.c)) = sorted
          intro h hp hm
          cases sorted with
          | nil =>
            cases found with
            | nil => exact absurd rfl hne
            | cons y _ => exact absurd ((hm y).2 (by simp)) (by simp)
          | cons x t =>
            obtain ⟨t', ht'⟩ := head_equivalents x
            refine ⟨x, t' ++ t.flatMap equivalents, by rw [← h, List.flatMap_cons, ht']; rfl, ?_⟩
            intro l0 spt hs hc
            have : l0 ∈ found := by rw [← hf]; exact List.mem_filterMap.2 ⟨spt, hs, hc⟩
            rcases List.mem_cons.1 ((hm l0).2 this) with rfl | hin
            · exact Nat.le_refl _
            · simpa using (List.pairwise_cons.1 hp).1 l0 hin
  obtain ⟨x, t, hls, hx⟩ := hhead
  refine ⟨by rw [hls]; simp, ?_, ?_⟩
  · intro l hl
    obtain ⟨l0, ⟨spt, hs, hc⟩, he⟩ := (hmem l).1 hl
    have h8 := (mem_spts _).1 hs
    obtain ⟨b1, b2, b3, b4⟩ := bytes_equivalents he
    obtain ⟨_, hd⟩ := distance_equivalents h8.1 hc he
    obtain ⟨c, k, rfl, ht, hk, hr⟩ := (candidate_some h8.1).1 hc
    refine ⟨?_, b3, b4, by rw [b2]; exact h8.1, by rw [b2]; exact h8.2, ?_⟩
    · rw [b1]; show c * k * spt * z.getD 512 = size
      rw [← ht]; exact hz.symm
    · rcases hd with rfl | ⟨q1, q2, rfl⟩
      · simp only; omega
      · have q2 : c ≤ 44 := q2
        exact ⟨.inr (by show 78 ≤ c * 2 ∧ c * 2 ≤ 88; omega), .inl rfl⟩
  · intro m hm l hl
    rw [hls] at hm
    injection hm with hm
    subst hm
    obtain ⟨l0, ⟨spt, hs, hc⟩, he⟩ := (hmem l).1 hl
    exact Nat.le_trans (hx l0 spt hs hc) (distance_equivalents ((mem_spts _).1 hs).1 hc he).1

/-- **C144.** A usual layout is guessed from the size of its image, unless it has one side of 40, 42 or 44 cylinders. -/
theorem C144_found (g : Layout) (hu : Usual g) (hz : 0 < g.size) :
    (∃ ls, deriveMatches g.bytes (some g.size) = .ok ls ∧ g ∈ ls) ↔ ¬ (g.h = 1 ∧ g.c ≤ 44 ∧ g.c % 2 = 0) := by
  obtain ⟨c, h, s, o, z⟩ := g
  obtain ⟨hc, hh, h8, h18, ho⟩ := hu
  simp only at hc hh h8 h18 ho hz
  subst ho
  have hspt : s ∈ spts := (mem_spts _).2 ⟨h8, h18⟩
  have hdiv : (⟨c, h, s, 0, z⟩ : Layout).bytes / z = c * h * s := Nat.mul_div_cancel _ hz
  constructor
  · rintro ⟨ls, hls, hg⟩ ⟨q1, q2, q3⟩
    simp only at q1 q2 q3
    obtain ⟨l0, ⟨spt, hs, hcand⟩, he⟩ := (derive_ok hls _).1 hg
    have h8' := (mem_spts _).1 hs
    obtain ⟨_, hd⟩ := distance_equivalents h8'.1 hcand he
    obtain ⟨c0, k0, rfl, _, hk, hr⟩ := (candidate_some h8'.1).1 hcand
    rcases hd with hd | ⟨_, _, hd⟩
    · injection hd with e1 e2 e3
      omega
    · injection hd with e1 e2 e3
      simp only at e1
      omega
  · intro hn
    simp only at hn
    have key : ∃ l0, candidate (c * h * s) z s = some l0 ∧ (⟨c, h, s, 0, z⟩ : Layout) ∈ equivalents l0 := by
      by_cases hcase : h = 2 ∨ c % 2 = 1
      · refine ⟨⟨c, h, s, 0, z⟩, (candidate_some h8).2 ⟨c, h, rfl, rfl, by omega, by omega⟩, ?_⟩
        obtain ⟨t, ht⟩ := head_equivalents ⟨c, h, s, 0, z⟩
        rw [ht]; simp
      · have h1 : h = 1 := by omega
        subst h1
        refine ⟨⟨c / 2, 2, s, 0, z⟩, (candidate_some h8).2 ⟨c / 2, 2, rfl, ?_, .inl rfl, by omega⟩, ?_⟩
        · have : c / 2 * 2 = c * 1 := by omega
          rw [this]
        · unfold equivalents
          rw [if_neg (by show ¬ (c / 2 ≥ 79 ∧ c / 2 % 2 = 0 ∧ 2 = 1); omega), if_pos (by show c / 2 ≤ 45 ∧ 2 = 2; omega)]
          have : c / 2 * 2 = c := by omega
          simp [this]
    obtain ⟨l0, hcand, he⟩ := key
    have hex : ∃ ls, deriveMatches (⟨c, h, s, 0, z⟩ : Layout).bytes (some z) = .ok ls := by
      unfold deriveMatches
      simp only [Option.getD_some]
      rw [if_neg (by omega), if_neg (by show ¬ (c * h * s * z) % z ≠ 0; rw [Nat.mul_mod_left]; simp), hdiv]
      have : l0 ∈ spts.filterMap (candidate (c * h * s) z) := List.mem_filterMap.2 ⟨s, hspt, hcand⟩
      cases hf : spts.filterMap (candidate (c * h * s) z) with
      | nil => rw [hf] at this; cases this
      | cons y ys => exact ⟨_, rfl⟩
    obtain ⟨ls, hls⟩ := hex
    refine ⟨ls, hls, (derive_ok hls _).2 ⟨l0, ⟨s, hspt, ?_⟩, he⟩⟩
    simp only [Option.getD_some]
    rw [hdiv]; exact hcand

/-- A disk of 82 cylinders with two sides of eleven sectors, and one of a single side. -/
example : Usual ⟨82, 2, 11, 0, 512⟩ ∧ (deriveMatches 923648 (some 512)).toOption = some [⟨82, 2, 11, 0, 512⟩] ∧
    (deriveMatches 461824 none).toOption = some [⟨41, 2, 11, 0, 512⟩, ⟨82, 1, 11, 0, 512⟩] := by
  refine ⟨by unfold Usual; simp, ?_, ?_⟩ <;> decide +kernel

/-- **C144 is false of the code: disks of one side.** No layout is guessed for the images of the 160K and 180K disks. -/
theorem C144_false_single : deriveMatches StdFormat.pc160.diskSize (some 512) = .error .parameter ∧ deriveMatches StdFormat.pc180.diskSize (some 512) = .error .parameter := by
  constructor <;> rfl

/-- **C144 is false of the code: the conversion.** The size of an image of any standard format is refused, both when a layout is asked for and when a list is; and a layout that is given
never has the size of the image. -/
theorem C144_false_convert :
    (∀ f : StdFormat, ofSize f.diskSize = none ∧ ofRawSize f.diskSize none = .error .parameter) ∧
    (∀ size l, 0 < size → ofSize size = some l → l.bytes ≠ size) := by
  constructor
  · intro f; cases f <;> constructor <;> rfl
  · intro size l hs h
    unfold ofSize at h
    split at h
    · cases h
    · injection h with h
      subst h
      show 80 * 2 * 10 * size ≠ size
      omega

/-- What the list does besides: a size is refused whenever its sectors are not a multiple of the bytes of one; else the guesses are those of above. -/
theorem C144_convert (size z : Nat) (hz : 0 < z) :
    (size / z % z ≠ 0 → ofRawSize size (some z) = .error .parameter) ∧ (size / z % z = 0 → ofRawSize size (some z) = deriveMatches size (some z)) := by
  unfold ofRawSize
  simp only [Option.getD_some]
  rw [if_neg (by omega)]
  exact ⟨fun h => by rw [if_pos h], fun h => by rw [if_neg (by omega)]⟩

end Fox
