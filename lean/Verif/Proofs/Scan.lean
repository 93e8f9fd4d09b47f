import Verif.Proofs.Stream
import Verif.Props.Mfm
/-
Scanning a well-formed stream for address marks.
-/
namespace Fox
open Fox.Spec Fox.S34

theorem window64_eq {r : BitRing} (hw : r.wrap = r.bits.length) (p : Nat) (hp : p + 64 ≤ r.bits.length)
    (w : BitVec 64) :
    window64 r p = w ↔ ∀ k, k < 64 → r.bits.getD (p + k) false = w.getMsbD k := by
  constructor
  · intro h k hk
    rw [← h, window64_getMsbD _ _ _ hk, BitRing.bitAt_lt hw (by omega)]
  · intro h
    apply BitVec.eq_of_getMsbD_eq
    intro k hk
    rw [window64_getMsbD _ _ _ hk, BitRing.bitAt_lt hw (by omega), h k hk]

theorem anyMask_bits (w : BitVec 64) (h : w &&& 0xFFFFFFFFFFFF0000#64 = 0x4489448944890000#64) :
    ∀ k, k < 48 → w.getMsbD k = (0x448944894489#48).getMsbD k := by
  intro k hk
  have h1 : (w &&& 0xFFFFFFFFFFFF0000#64).getMsbD k = (0x4489448944890000#64).getMsbD k := by rw [h]
  rw [BitVec.getMsbD_and] at h1
  have h2 : ∀ k : Fin 48, (0xFFFFFFFFFFFF0000#64).getMsbD k = true ∧
      (0x4489448944890000#64).getMsbD k = (0x448944894489#48).getMsbD k := by decide
  obtain ⟨a, b⟩ := h2 ⟨k, hk⟩
  rw [a, b, Bool.and_true] at h1
  exact h1

theorem markWord_match (m : Marker) (h : m ≠ .iam) :
    markWord m &&& anyMarkerEnc.mask = anyMarkerEnc.bits ∧
    Marker.ofU16 ((markWord m).setWidth 16) = some m := by
  cases m <;> first | exact absurd rfl h | decide

/-- The marks of the sectors are in ascending order, at least four bytes apart. -/
theorem placed_le {N : Nat} : ∀ {lo : Nat} {secs : List Sec}, Placed N lo secs → lo ≤ N
  | _, [], h => h
  | lo, s :: rest, h => by
    have := placed_le h.2.2
    have h1 := h.1
    have h2 := h.2.1
    unfold Sec.stop at this
    omega

/-- Marks of the sectors alone. -/
def secMarks (secs : List Sec) : List (Marker × Nat) :=
  secs.flatMap fun s => [(.idam, s.io), (dataMark s.del, s.dof)]

theorem placed_marks {N : Nat} : ∀ {lo : Nat} {secs : List Sec}, Placed N lo secs →
    (∀ x ∈ secMarks secs, lo ≤ x.2 ∧ x.2 + 4 ≤ N) ∧
    (secMarks secs).Pairwise (fun a b => a.2 + 4 ≤ b.2)
  | lo, [], h => by simp [secMarks]
  | lo, s :: rest, h => by
    obtain ⟨h1, h2, h3⟩ := h
    obtain ⟨i1, i2⟩ := placed_marks h3
    have hle := placed_le h3
    unfold Sec.stop at hle i1
    have e : secMarks (s :: rest) = (.idam, s.io) :: (dataMark s.del, s.dof) :: secMarks rest := rfl
    rw [e]
    constructor
    · intro x hx
      rcases List.mem_cons.1 hx with rfl | hx
      · dsimp only; omega
      · rcases List.mem_cons.1 hx with rfl | hx
        · dsimp only; omega
        · have := i1 x hx; omega
    · rw [List.pairwise_cons, List.pairwise_cons]
      refine ⟨fun x hx => ?_, fun x hx => ?_, i2⟩
      · rcases List.mem_cons.1 hx with rfl | hx
        · dsimp only; omega
        · have := i1 x hx; dsimp only; omega
      · have := i1 x hx; dsimp only; omega

theorem secMarks_ne_iam (secs : List Sec) : ∀ x ∈ secMarks secs, x.1 ≠ .iam := by
  intro x hx
  simp only [secMarks, List.mem_flatMap, List.mem_cons, List.not_mem_nil, or_false] at hx
  obtain ⟨s, _, rfl | rfl⟩ := hx
  · simp
  · cases h : s.del <;> simp [dataMark]

theorem mem_marksOf {iam : Option Nat} {secs : List Sec} {x : Marker × Nat} :
    x ∈ marksOf iam secs ↔ (∃ o, iam = some o ∧ x = (.iam, o)) ∨ x ∈ secMarks secs := by
  unfold marksOf secMarks
  rw [List.mem_append]
  cases iam <;> simp

theorem secMarks_iff {iam : Option Nat} {secs : List Sec} {m : Marker} {o : Nat} (h : m ≠ .iam) :
    (m, o) ∈ marksOf iam secs ↔ (m, o) ∈ secMarks secs := by
  rw [mem_marksOf]
  constructor
  · rintro (⟨o', _, h1⟩ | h1)
    · injection h1 with h1; exact absurd h1 h
    · exact h1
  · exact Or.inr

/-- A length bound for ascending marks. -/
theorem marks_length {N : Nat} : ∀ (l : List (Marker × Nat)) (lo : Nat),
    (∀ x ∈ l, lo ≤ x.2 ∧ x.2 + 4 ≤ N) → l.Pairwise (fun a b => a.2 + 4 ≤ b.2) → l.length ≤ N - lo
  | [], _, _, _ => by simp
  | x :: l, lo, h, hp => by
    rw [List.pairwise_cons] at hp
    have hx := h x (by simp)
    have := marks_length (N := N) l (lo + 4) (fun y hy => by
      have h1 := hp.1 y hy
      have h2 := h y (by simp [hy])
      omega) hp.2
    simp only [List.length_cons]; omega

def toItem (x : Marker × Nat) : MarkerItem := ⟨x.1, 16 * x.2⟩

/-- The marker loop finds an ascending list of marks. -/
theorem scanMarkersLoop_eq (s : Mfm) : ∀ (l : List (Marker × Nat)) (fuel cur : Nat),
    l.length < fuel → (∀ x ∈ l, cur ≤ 16 * x.2 ∧ x.1 ≠ .iam ∧ window64 s.bits (16 * x.2) = markWord x.1) →
    l.Pairwise (fun a b => a.2 + 4 ≤ b.2) →
    (∀ p, MatchAt s.bits anyMarkerEnc cur s.len p ↔ ∃ x ∈ l, p = 16 * x.2) →
    scanMarkersLoop s fuel cur = l.map toItem
  | [], 0, _, hf, _, _, _ => by simp at hf
  | [], fuel + 1, cur, _, _, _, hm => by
    have hnone : s.findMarker anyMarkerEnc cur none = none := by
      rw [(C04_find_marker s anyMarkerEnc cur none).1]
      intro p hp
      have : searchEnd s none = s.len := by simp [searchEnd]
      rw [this, hm p] at hp
      simp at hp
    rw [scanMarkersLoop, findNextMarker, hnone]
    rfl
  | x :: l, 0, _, hf, _, _, _ => by simp at hf
  | x :: l, fuel + 1, cur, hf, hx, hp, hm => by
    obtain ⟨h1, h2, h3⟩ := hx x (by simp)
    rw [List.pairwise_cons] at hp
    have he : searchEnd s none = s.len := by simp [searchEnd]
    have hsome : s.findMarker anyMarkerEnc cur none = some (16 * x.2, (markWord x.1).setWidth 16) := by
      rw [(C04_find_marker s anyMarkerEnc cur none).2]
      refine ⟨16 * x.2, ?_, ?_, ?_, by rw [h3]⟩
      · rw [he, hm]; exact ⟨x, by simp, rfl⟩
      · intro p hp'
        rw [he, hm] at hp'
        obtain ⟨y, hy, rfl⟩ := hp'
        rcases List.mem_cons.1 hy with rfl | hy
        · omega
        · have := hp.1 y hy; omega
      · show _ = 16 * x.2 + 64 - 64; omega
    rw [scanMarkersLoop, findNextMarker, hsome]
    simp only [(markWord_match x.1 h2).2, Option.map_some]
    rw [scanMarkersLoop_eq s l fuel (16 * x.2 + 64) (by simpa using hf)
      (fun y hy => ⟨by have := hp.1 y hy; omega, (hx y (by simp [hy])).2⟩) hp.2 ?_]
    · rfl
    · intro p
      constructor
      · intro hpm
        obtain ⟨y, hy, e⟩ := (hm p).1 ⟨by have := hpm.1; omega, hpm.2⟩
        rcases List.mem_cons.1 hy with rfl | hy
        · have := hpm.1; omega
        · exact ⟨y, hy, e⟩
      · rintro ⟨y, hy, rfl⟩
        have := (hm (16 * y.2)).2 ⟨y, by simp [hy], rfl⟩
        refine ⟨?_, this.2⟩
        have := hp.1 y hy; omega

section
variable {s : Mfm} {B : List Byte} {iam : Option Nat} {secs : List Sec}

theorem Spec.StreamOk.window (h : StreamOk s B iam secs) {m : Marker} {o : Nat}
    (hm : (m, o) ∈ marksOf iam secs) : window64 s.bits (16 * o) = markWord m := by
  obtain ⟨h1, h2⟩ := h.cells.mark m o hm
  have hl := h.cells.len
  rw [window64_eq h.wrap _ (by omega)]
  intro k hk
  exact h2 k hk

theorem Spec.StreamOk.match_any (h : StreamOk s B iam secs) (cur p : Nat) :
    MatchAt s.bits anyMarkerEnc cur s.len p ↔
      cur ≤ p ∧ ∃ x ∈ secMarks secs, p = 16 * x.2 := by
  have hl := h.cells.len
  constructor
  · rintro ⟨h1, h2, h3⟩
    change p + 64 ≤ s.bits.bits.length at h2
    have hb := anyMask_bits _ h3
    obtain ⟨m, o, hmem, hmi, he⟩ := h.cells.sync_a1x3 p (by omega) (by
      intro k hk
      rw [← hb k hk, window64_getMsbD _ _ _ (by omega), BitRing.bitAt_lt h.wrap (by omega)])
    exact ⟨h1, (m, o), (secMarks_iff hmi).1 hmem, he⟩
  · rintro ⟨h1, ⟨m, o⟩, hx, rfl⟩
    have hmem := (secMarks_iff (iam := iam) (secMarks_ne_iam _ _ hx)).2 hx
    refine ⟨h1, ?_, ?_⟩
    · have := (h.cells.mark m o hmem).1
      show 16 * o + 64 ≤ s.bits.bits.length
      omega
    · rw [h.window hmem]
      exact (markWord_match m (secMarks_ne_iam _ _ hx)).1

theorem Spec.StreamOk.match_iam (h : StreamOk s B iam secs) (p : Nat) :
    MatchAt s.bits { bits := Marker.iam.code } 0 (searchEnd s (some 5000)) p ↔
      ∃ o, iam = some o ∧ p = 16 * o := by
  have hl := h.cells.len
  have hse : searchEnd s (some 5000) = min 5000 s.bits.bits.length := rfl
  constructor
  · rintro ⟨_, h2, h3⟩
    have hw : window64 s.bits p = markWord .iam := by
      have : window64 s.bits p &&& BitVec.allOnes 64 = Marker.iam.code := h3
      rw [BitVec.and_allOnes] at this
      exact this
    rw [hse] at h2
    obtain ⟨o, hmem, he⟩ := h.cells.sync_iam p (by omega) ((window64_eq h.wrap p (by omega) _).1 hw)
    rw [mem_marksOf] at hmem
    rcases hmem with ⟨o', h4, h5⟩ | hmem
    · injection h5 with _ h5; subst h5; exact ⟨o, h4, he⟩
    · exact absurd rfl (secMarks_ne_iam _ _ hmem)
  · rintro ⟨o, rfl, rfl⟩
    have hmem : (Marker.iam, o) ∈ marksOf (some o) secs := by rw [mem_marksOf]; exact Or.inl ⟨o, rfl, rfl⟩
    have h1 := (h.cells.mark _ o hmem).1
    have h2 := (h.iamPos o rfl).2
    refine ⟨Nat.zero_le _, ?_, ?_⟩
    · rw [hse]; omega
    · show window64 s.bits (16 * o) &&& BitVec.allOnes 64 = Marker.iam.code
      rw [h.window hmem, BitVec.and_allOnes]; rfl

/-- A scan of a well-formed stream finds exactly its marks, in order. -/
theorem Spec.StreamOk.scanMarkers (h : StreamOk s B iam secs) :
    scanMarkers s = (marksOf iam secs).map toItem := by
  obtain ⟨lo, hlo, hiam, hpl⟩ := h.placed
  obtain ⟨p1, p2⟩ := placed_marks hpl
  have hl := h.cells.len
  have hlen : (secMarks secs).length < s.len + 1 := by
    have := marks_length _ _ p1 p2
    show _ < s.bits.bits.length + 1
    omega
  have hmem : ∀ x ∈ secMarks secs, x.1 ≠ .iam ∧ window64 s.bits (16 * x.2) = markWord x.1 := by
    intro x hx
    have hn := secMarks_ne_iam _ _ hx
    exact ⟨hn, h.window ((secMarks_iff hn).2 hx)⟩
  unfold S34.scanMarkers
  cases hi : iam with
  | none =>
    subst hi
    have hnone : s.findMarker { bits := Marker.iam.code } 0 (some 5000) = none := by
      rw [(C04_find_marker s _ 0 (some 5000)).1]
      intro p hp
      rw [h.match_iam] at hp
      obtain ⟨o, h1, _⟩ := hp
      cases h1
    rw [hnone]
    simp only
    rw [scanMarkersLoop_eq s (secMarks secs) _ 0 hlen
      (fun x hx => ⟨Nat.zero_le _, hmem x hx⟩) p2 ?_]
    · rfl
    · intro p
      rw [h.match_any]
      simp
  | some o =>
    subst hi
    have hsome : s.findMarker { bits := Marker.iam.code } 0 (some 5000)
        = some (16 * o, (markWord .iam).setWidth 16) := by
      rw [(C04_find_marker s _ 0 (some 5000)).2]
      refine ⟨16 * o, ?_, ?_, ?_, ?_⟩
      · rw [h.match_iam]; exact ⟨o, rfl, rfl⟩
      · intro p hp
        rw [h.match_iam] at hp
        obtain ⟨o', h1, h2⟩ := hp
        injection h1 with h1; omega
      · show _ = 16 * o + 64 - 64; omega
      · rw [h.window (mem_marksOf.2 (Or.inl ⟨o, rfl, rfl⟩))]
    rw [hsome]
    simp only
    have hge : ∀ x ∈ secMarks secs, o + 4 ≤ x.2 := by
      intro x hx
      have := p1 x hx; have := hiam o rfl; omega
    rw [scanMarkersLoop_eq s (secMarks secs) _ (16 * o + 64) hlen
      (fun x hx => ⟨by have := hge x hx; omega, hmem x hx⟩) p2 ?_]
    · rfl
    · intro p
      rw [h.match_any]
      constructor
      · exact fun h => h.2
      · rintro ⟨x, hx, rfl⟩
        exact ⟨by have := hge x hx; omega, x, hx, rfl⟩

end

end Fox
