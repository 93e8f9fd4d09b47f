import Verif.Proofs.F86
/-
A whole 86F file: the table of offsets, the tracks, the image made of them.
-/
namespace Fox
open Spec S34

/-! ### Adding tracks one after another -/

/-- The disk after adding tracks at the end of their sides. -/
def pushAll : Disk → List DiskTrack → Disk
  | d, [] => d
  | d, x :: xs => pushAll (withTrack d x.ch.h x) xs

theorem pushAll_spec : ∀ (xs : List DiskTrack) (d : Disk), Bounded d → (∀ x ∈ xs, x.ch.h < 2) →
    Bounded (pushAll d xs) ∧ (∀ h, h < 2 → side (pushAll d xs) h = side d h ++ xs.filter fun x => x.ch.h = h) ∧
    (∀ h, h < 2 → ((pushAll d xs).headMap h).length = (d.headMap h).length + (xs.filter fun x => x.ch.h = h).length) ∧
    ((pushAll d xs).map0 ++ (pushAll d xs).map1).Perm ((d.map0 ++ d.map1) ++ List.range' d.pool.length xs.length)
  | [], d, hb, _ => ⟨hb, fun h _ => by simp [pushAll], fun h _ => by simp [pushAll], by simp [pushAll]⟩
  | x :: xs, d, hb, hx => by
    have h0 := hx x (by simp)
    obtain ⟨i1, i2, i3, i4⟩ := pushAll_spec xs (withTrack d x.ch.h x)
      (withTrack_bounded hb _ _ h0) (fun y hy => hx y (by simp [hy]))
    refine ⟨i1, fun h hh => ?_, fun h hh => ?_, ?_⟩
    · show side (pushAll (withTrack d x.ch.h x) xs) h = _
      rw [i2 h hh, withTrack_side hb _ _ _ h0 hh, List.filter_cons]
      by_cases he : x.ch.h = h
      · simp [he]
      · have he' : ¬ h = x.ch.h := fun e => he e.symm
        simp [he, he']
    · show ((pushAll (withTrack d x.ch.h x) xs).headMap h).length = _
      rw [i3 h hh, withTrack_map _ _ _ _ h0 hh, List.filter_cons]
      by_cases he : x.ch.h = h
      · simp [he]; omega
      · have he' : ¬ h = x.ch.h := fun e => he e.symm
        simp [he, he']
    · show ((pushAll (withTrack d x.ch.h x) xs).map0 ++ (pushAll (withTrack d x.ch.h x) xs).map1).Perm _
      refine i4.trans ?_
      rw [withTrack_pool, List.length_append]
      have m0 := withTrack_map d x.ch.h 0 x h0 (by omega)
      have m1 := withTrack_map d x.ch.h 1 x h0 (by omega)
      simp only [Disk.headMap, if_true, Nat.one_ne_zero, if_false] at m0 m1
      rw [m0, m1]
      simp only [List.length_cons, List.length_nil, Nat.zero_add, List.range'_succ]
      rcases (by omega : x.ch.h = 0 ∨ x.ch.h = 1) with e | e
      · rw [if_pos e.symm, if_neg (by omega), List.append_nil]
        simp only [List.append_assoc, List.cons_append, List.nil_append]
        refine List.Perm.append_left _ ?_
        exact (List.perm_middle).symm
      · rw [if_neg (by omega), if_pos e.symm, List.append_nil]
        simp only [List.append_assoc, List.cons_append, List.nil_append]
        exact List.Perm.refl _

theorem withTrack_res (d : Disk) (h : Nat) (x : DiskTrack) : (withTrack d h x).res = d.res.insert .bitStream := by
  unfold withTrack Disk.pushTrack Disk.pushMap
  split <;> rfl

theorem withTrack_res_bit {d : Disk} (hd : d.res = {} ∨ d.res = { bit := true }) (h : Nat) (x : DiskTrack) :
    (withTrack d h x).res = { bit := true } := by
  rw [withTrack_res]
  rcases hd with e | e <;> rw [e] <;> rfl

theorem pushAll_res : ∀ (xs : List DiskTrack) (d : Disk), (d.res = {} ∨ d.res = { bit := true }) → xs ≠ [] →
    (pushAll d xs).res = { bit := true }
  | [], _, _, h => absurd rfl h
  | [x], d, hd, _ => withTrack_res_bit hd _ _
  | x :: y :: xs, d, hd, _ => pushAll_res (y :: xs) _ (.inr (withTrack_res_bit hd _ _)) (by simp)

/-! ### Offsets -/

/-- Where each of the blobs starts. -/
def startsAt : Nat → List (List Byte) → List Nat
  | _, [] => []
  | p, r :: rs => p :: startsAt (p + r.length) rs

/-- Where each of the blobs starts, and its length. -/
def spans : Nat → List (List Byte) → List (Nat × Nat)
  | _, [] => []
  | p, r :: rs => (p, r.length) :: spans (p + r.length) rs

theorem startsAt_length : ∀ (rs : List (List Byte)) (p : Nat), (startsAt p rs).length = rs.length
  | [], _ => rfl
  | r :: rs, p => by simp [startsAt, startsAt_length rs]

theorem startsAt_le : ∀ (rs : List (List Byte)) (p : Nat), ∀ x ∈ startsAt p rs, x ≤ p + rs.flatten.length
  | [], _, _, h => by simp [startsAt] at h
  | r :: rs, p, x, h => by
    simp only [startsAt, List.mem_cons] at h
    rw [List.flatten_cons, List.length_append]
    rcases h with rfl | h
    · omega
    · have := startsAt_le rs _ x h; omega

theorem startsAt_append : ∀ (a b : List (List Byte)) (p : Nat),
    startsAt p (a ++ b) = startsAt p a ++ startsAt (p + a.flatten.length) b
  | [], b, p => rfl
  | r :: a, b, p => by
    rw [List.cons_append, startsAt, startsAt, startsAt_append a b, List.flatten_cons, List.length_append,
      List.cons_append, Nat.add_assoc]

theorem le4_cons (n : Nat) (rest : List Byte) : F86.le4 n ++ rest = BitVec.ofNat 8 n :: BitVec.ofNat 8 (n / 256) ::
    BitVec.ofNat 8 (n / 65536) :: BitVec.ofNat 8 (n / 16777216) :: rest := rfl

/-- Reading the table. -/
theorem offsets86 (debug : Bool) (len : Nat) (hlen : len < 2 ^ 32) (blob : List Byte) :
    ∀ (rs : List (List Byte)) (r : List Byte) (p k : Nat), rs.length ≤ k → 0 < p →
      p + r.length + rs.flatten.length = len →
      F86.offsets debug len k ((startsAt (p + r.length) rs ++ List.replicate (k - rs.length) 0).flatMap F86.le4 ++ blob) p =
        .ok (spans p (r :: rs))
  | [], r, p, 0, _, _, hs => by
    unfold F86.offsets F86.subU
    simp only [List.flatten_nil, List.length_nil] at hs
    rw [if_pos (by omega)]
    simp only [spans]
    rw [show len - p = r.length by omega]
  | [], r, p, k + 1, _, _, hs => by
    simp only [List.flatten_nil, List.length_nil] at hs
    simp only [startsAt, List.nil_append, List.length_nil, Nat.sub_zero, List.replicate_succ, List.flatMap_cons,
      List.append_assoc]
    rw [le4_cons]
    unfold F86.offsets
    simp only [le4_value (show (0 : Nat) < 2 ^ 32 by decide), if_true]
    unfold F86.subU
    rw [if_pos (by omega)]
    simp only [spans]
    rw [show len - p = r.length by omega]
  | r' :: rs, r, p, 0, hk, _, _ => by simp at hk
  | r' :: rs, r, p, k + 1, hk, hp, hs => by
    simp only [List.flatten_cons, List.length_append] at hs
    simp only [List.length_cons] at hk
    have ih := offsets86 debug len hlen blob rs r' (p + r.length) k (by omega) (by omega) (by omega)
    simp only [startsAt, List.cons_append, List.flatMap_cons, List.append_assoc, List.length_cons]
    rw [le4_cons]
    unfold F86.offsets
    simp only [le4_value (show p + r.length < 2 ^ 32 by omega)]
    rw [if_neg (by omega)]
    have e1 : F86.subU debug 32 (p + r.length) p = .ok r.length := by
      unfold F86.subU; rw [if_pos (by omega)]; congr 1; omega
    rw [e1]
    simp only
    rw [show k + 1 - (rs.length + 1) = k - rs.length by omega, ih]
    simp only [spans]

/-! ### The loop of the loader -/

/-- A loaded track. -/
def conv86 (m : F86.Meta) (rnd : Nat → Bool) (dst : Ch) (e : Ch × Track) : DiskTrack :=
  match load86 m rnd e.1 e.2 with
  | .ok t' => .bit dst t'
  | .error _ => .bit dst e.2

theorem conv86_ch (m : F86.Meta) (rnd : Nat → Bool) (dst : Ch) (e : Ch × Track) : (conv86 m rnd dst e).ch = dst := by
  unfold conv86; split <;> rfl

/-- The entries of pairs of tracks. -/
def flat86 (P : List ((Ch × Track) × (Ch × Track))) : List (Ch × Track) := P.flatMap fun p => [p.1, p.2]

/-- The tracks loaded, from cylinder `c` on. -/
def convs86 (m : F86.Meta) (rnd : Nat → Bool) : Nat → List ((Ch × Track) × (Ch × Track)) → List DiskTrack
  | _, [] => []
  | c, p :: P => conv86 m rnd ⟨c, 0⟩ p.1 :: conv86 m rnd ⟨c, 1⟩ p.2 :: convs86 m rnd (c + 1) P

theorem steps86 {F : Nat} (hF : Flags86 F) {tf : Nat} {rpm : F86.Rpm} (hT : TFlags86 tf rpm) (m : F86.Meta)
    (debug : Bool) (bitLen : Encoding → F86.Rate → F86.Rpm → Nat × Bool → Int → Nat) (rnd : Nat → Bool)
    (bs : List Byte) : ∀ (P : List ((Ch × Track) × (Ch × Track))) (d : Disk) (c : Nat) (r : Option F86.Rpm) (off : Nat),
      (r = none ∨ r = some rpm) → (d.res = {} ∨ d.res = { bit := true }) →
      (∀ p ∈ P, Fit86 p.1.2 ∧ Fit86 p.2.2) → c + P.length < 65536 →
      (bs.drop off = (flat86 P).flatMap (rec86 m tf)) →
      F86.steps debug bitLen rnd F bs { disk := d, head := 0, cyl := c, rpm := r } (spans off ((flat86 P).map (rec86 m tf))) =
        .ok { disk := pushAll d (convs86 m rnd c P), head := 0, cyl := c + P.length,
              rpm := if P = [] then r else some rpm }
  | [], d, c, r, off, _, _, _, _, _ => by
    simp [flat86, spans, F86.steps, convs86, pushAll]
  | p :: P, d, c, r, off, hr, hres, hfit, hc, hoff => by
    obtain ⟨f1, f2⟩ := hfit p (by simp)
    obtain ⟨t1, l1, _⟩ := load86_ok (m := m) (src := p.1.1) f1 rnd
    obtain ⟨t2, l2, _⟩ := load86_ok (m := m) (src := p.2.1) f2 rnd
    have hcl : (p :: P).length = P.length + 1 := rfl
    have hoff1 : bs.drop off = rec86 m tf p.1 ++ (rec86 m tf p.2 ++ (flat86 P).flatMap (rec86 m tf)) := by
      rw [hoff]; unfold flat86; simp
    have hoff2 : bs.drop (off + (rec86 m tf p.1).length) = rec86 m tf p.2 ++ (flat86 P).flatMap (rec86 m tf) := by
      rw [← List.drop_drop, hoff1]; simp
    have hoff3 : bs.drop (off + (rec86 m tf p.1).length + (rec86 m tf p.2).length) = (flat86 P).flatMap (rec86 m tf) := by
      rw [← List.drop_drop, hoff2]; simp
    have s1 := step86 hF hT m debug bitLen rnd bs { disk := d, head := 0, cyl := c, rpm := r } hr hres
      (by show (0 : Nat) < 2; omega) p.1 f1 off _ hoff1 l1
    have hres1 := withTrack_res_bit hres 0 (.bit ⟨c, 0⟩ t1)
    have s2 := step86 hF hT m debug bitLen rnd bs
      { disk := withTrack d 0 (.bit ⟨c, 0⟩ t1), head := 1, cyl := c, rpm := some rpm } (.inr rfl) (.inr hres1)
      (by show (1 : Nat) < 2; omega) p.2 f2 _ _ hoff2 l2
    have hres2 := withTrack_res_bit (.inr hres1) 1 (.bit ⟨c, 1⟩ t2)
    have ih := steps86 hF hT m debug bitLen rnd bs P (withTrack (withTrack d 0 (.bit ⟨c, 0⟩ t1)) 1 (.bit ⟨c, 1⟩ t2))
      (c + 1) (some rpm) _ (.inr rfl) (.inr hres2) (fun q hq => hfit q (by simp [hq])) (by omega) hoff3
    have e0 : (flat86 (p :: P)).map (rec86 m tf) = rec86 m tf p.1 :: rec86 m tf p.2 :: (flat86 P).map (rec86 m tf) := by
      unfold flat86; simp
    rw [e0]
    simp only [spans, F86.steps]
    simp only [Nat.zero_ne_one, if_false, Nat.zero_add] at s1
    rw [s1]
    simp only [if_true, Nat.mod_eq_of_lt (show c + 1 < 65536 by omega)] at s2
    simp only [s2, ih]
    have c1 : conv86 m rnd ⟨c, 0⟩ p.1 = .bit ⟨c, 0⟩ t1 := by unfold conv86; rw [l1]
    have c2 : conv86 m rnd ⟨c, 1⟩ p.2 = .bit ⟨c, 1⟩ t2 := by unfold conv86; rw [l2]
    congr 1
    rw [hcl]
    simp only [convs86, pushAll, c1, c2, DiskTrack.ch]
    congr 1
    · omega
    · by_cases hP : P = []
      · rw [if_pos hP, if_neg (by simp)]
      · rw [if_neg hP, if_neg (by simp)]

/-! ### The loop of the writer -/

/-- The entry of a position. -/
def ent86 (d : Disk) (h c : Nat) : Ch × Track :=
  (⟨c, h⟩, match at? d h c with
    | some (.bit _ t) => t
    | _ => { data := { bits := .ofBits [], clockMap := .ofBits [], weakMask := .ofBits [] } })

/-- The entries of a cylinder. -/
def pair86 (d : Disk) (c : Nat) : (Ch × Track) × (Ch × Track) := (ent86 d 0 c, ent86 d 1 c)

/-- A position holds a track the format can hold. -/
def FitAt (d : Disk) (h c : Nat) : Prop := ∃ ch t, at? d h c = some (.bit ch t) ∧ Fit86 t

theorem FitAt.ent {d : Disk} {h c : Nat} (hf : FitAt d h c) : Fit86 (ent86 d h c).2 := by
  obtain ⟨ch, t, h1, h2⟩ := hf
  unfold ent86; rw [h1]; exact h2

theorem saveLoop_step {m : F86.Meta} {dbl : Bool} {tf : Nat} {d : Disk} {h c : Nat} (hh : h < 2) (hf : FitAt d h c)
    (k copy pos : Nat) {os : List Nat} {bytes : List Byte}
    (hn : (if h + 1 = d.geometry.h then
        if dbl then
          if copy + 1 = 2 then F86.saveLoop m true dbl tf d k (c + 1) 0 0 (pos + (rec86 m tf (ent86 d h c)).length)
          else F86.saveLoop m true dbl tf d k c 0 (copy + 1) (pos + (rec86 m tf (ent86 d h c)).length)
        else F86.saveLoop m true dbl tf d k (c + 1) 0 copy (pos + (rec86 m tf (ent86 d h c)).length)
      else F86.saveLoop m true dbl tf d k c (h + 1) copy (pos + (rec86 m tf (ent86 d h c)).length)) = .ok (os, bytes)) :
    F86.saveLoop m true dbl tf d (k + 1) c h copy pos =
      .ok (pos % 2 ^ 32 :: os, rec86 m tf (ent86 d h c) ++ bytes) := by
  obtain ⟨ch, t, h1, h2⟩ := hf
  have e : ent86 d h c = (⟨c, h⟩, t) := by unfold ent86; rw [h1]
  rw [e] at hn ⊢
  conv => lhs; unfold F86.saveLoop
  rw [if_pos hh]
  have h1' : ((d.headMap h)[c]?.bind fun i => d.pool[i]?) = some (.bit ch t) := h1
  rw [h1']
  simp only [trackBytes_rec m tf ⟨c, h⟩ ch h2]
  rw [hn]

/-- The writer's loop when each cylinder is written once. -/
theorem saveLoop_plain (m : F86.Meta) (tf : Nat) {d : Disk} (hg : d.geometry.h = 2) : ∀ (K c pos : Nat),
    (∀ c', c ≤ c' → c' < c + K → FitAt d 0 c' ∧ FitAt d 1 c') →
    F86.saveLoop m true false tf d (2 * K) c 0 0 pos =
      .ok ((startsAt pos ((flat86 ((List.range' c K).map (pair86 d))).map (rec86 m tf))).map (· % 2 ^ 32),
        (flat86 ((List.range' c K).map (pair86 d))).flatMap (rec86 m tf))
  | 0, c, pos, _ => by simp [F86.saveLoop, flat86, startsAt]
  | K + 1, c, pos, h => by
    obtain ⟨h0, h1⟩ := h c (by omega) (by omega)
    have ih := saveLoop_plain m tf hg K (c + 1) (pos + (rec86 m tf (ent86 d 0 c)).length + (rec86 m tf (ent86 d 1 c)).length)
      (fun c' a b => h c' (by omega) (by omega))
    have s1 := saveLoop_step (m := m) (dbl := false) (tf := tf) (by omega : 1 < 2) h1 (2 * K) 0
      (pos + (rec86 m tf (ent86 d 0 c)).length) (by rw [hg, if_pos rfl]; exact ih)
    have s0 := saveLoop_step (m := m) (dbl := false) (tf := tf) (by omega : 0 < 2) h0 (2 * K + 1) 0 pos
      (by rw [hg, if_neg (by omega)]; exact s1)
    rw [show 2 * (K + 1) = 2 * K + 1 + 1 by omega, s0]
    simp [List.range'_succ, flat86, startsAt, pair86]

/-- The writer's loop when each cylinder is written twice. -/
theorem saveLoop_dbl (m : F86.Meta) (tf : Nat) {d : Disk} (hg : d.geometry.h = 2) : ∀ (K c pos : Nat),
    (∀ c', c ≤ c' → c' < c + K → FitAt d 0 c' ∧ FitAt d 1 c') →
    F86.saveLoop m true true tf d (4 * K) c 0 0 pos =
      .ok ((startsAt pos ((flat86 ((List.range' c K).flatMap fun c => [pair86 d c, pair86 d c])).map (rec86 m tf))).map (· % 2 ^ 32),
        (flat86 ((List.range' c K).flatMap fun c => [pair86 d c, pair86 d c])).flatMap (rec86 m tf))
  | 0, c, pos, _ => by simp [F86.saveLoop, flat86, startsAt]
  | K + 1, c, pos, h => by
    obtain ⟨h0, h1⟩ := h c (by omega) (by omega)
    have ih := saveLoop_dbl m tf hg K (c + 1) (pos + (rec86 m tf (ent86 d 0 c)).length + (rec86 m tf (ent86 d 1 c)).length +
      (rec86 m tf (ent86 d 0 c)).length + (rec86 m tf (ent86 d 1 c)).length)
      (fun c' a b => h c' (by omega) (by omega))
    have s3 := saveLoop_step (m := m) (dbl := true) (tf := tf) (by omega : 1 < 2) h1 (4 * K) 1
      (pos + (rec86 m tf (ent86 d 0 c)).length + (rec86 m tf (ent86 d 1 c)).length + (rec86 m tf (ent86 d 0 c)).length)
      (by rw [hg, if_pos rfl]; exact ih)
    have s2 := saveLoop_step (m := m) (dbl := true) (tf := tf) (by omega : 0 < 2) h0 (4 * K + 1) 1
      (pos + (rec86 m tf (ent86 d 0 c)).length + (rec86 m tf (ent86 d 1 c)).length)
      (by rw [hg, if_neg (by omega)]; exact s3)
    have s1 := saveLoop_step (m := m) (dbl := true) (tf := tf) (by omega : 1 < 2) h1 (4 * K + 1 + 1) 0
      (pos + (rec86 m tf (ent86 d 0 c)).length) (by rw [hg, if_pos rfl]; exact s2)
    have s0 := saveLoop_step (m := m) (dbl := true) (tf := tf) (by omega : 0 < 2) h0 (4 * K + 1 + 1 + 1) 0 pos
      (by rw [hg, if_neg (by omega)]; exact s1)
    rw [show 4 * (K + 1) = 4 * K + 1 + 1 + 1 + 1 by omega, s0]
    simp [List.range'_succ, flat86, startsAt, pair86]

/-! ### Put together -/

theorem convs86_side (m : F86.Meta) (rnd : Nat → Bool) {h : Nat} (hh : h < 2) :
    ∀ (P : List ((Ch × Track) × (Ch × Track))) (c j : Nat),
      ((convs86 m rnd c P).filter fun x => x.ch.h = h)[j]? =
        P[j]?.map fun p => conv86 m rnd ⟨c + j, h⟩ (if h = 0 then p.1 else p.2)
  | [], c, j => by simp [convs86]
  | p :: P, c, j => by
    have ih := convs86_side m rnd hh P (c + 1)
    rw [convs86, List.filter_cons, List.filter_cons, conv86_ch, conv86_ch]
    rcases (by omega : h = 0 ∨ h = 1) with rfl | rfl
    · simp only [decide_true, if_true, Nat.one_ne_zero, decide_false, Bool.false_eq_true, if_false]
      cases j with
      | zero => rfl
      | succ j =>
        have := ih j
        simp only [if_true] at this
        simp only [List.getElem?_cons_succ]
        rw [show c + (j + 1) = c + 1 + j by omega]
        exact this
    · simp only [Nat.zero_ne_one, decide_false, Bool.false_eq_true, if_false, decide_true, if_true]
      cases j with
      | zero => rfl
      | succ j =>
        have := ih j
        simp only [Nat.one_ne_zero, if_false] at this
        simp only [List.getElem?_cons_succ, Nat.one_ne_zero, if_false]
        rw [show c + (j + 1) = c + 1 + j by omega]
        exact this

theorem convs86_length (m : F86.Meta) (rnd : Nat → Bool) : ∀ (P : List ((Ch × Track) × (Ch × Track))) (c : Nat),
    (convs86 m rnd c P).length = 2 * P.length
  | [], c => rfl
  | p :: P, c => by simp only [convs86, List.length_cons, convs86_length m rnd P]; omega

theorem convs86_heads (m : F86.Meta) (rnd : Nat → Bool) : ∀ (P : List ((Ch × Track) × (Ch × Track))) (c : Nat),
    ∀ x ∈ convs86 m rnd c P, x.ch.h < 2
  | [], c, x, h => by simp [convs86] at h
  | p :: P, c, x, h => by
    simp only [convs86, List.mem_cons] at h
    rcases h with rfl | rfl | h
    · rw [conv86_ch]; exact Nat.zero_lt_two
    · rw [conv86_ch]; exact Nat.one_lt_two
    · exact convs86_heads m rnd P _ x h

theorem twice_get {α : Type} (f : Nat → α) : ∀ (K a j : Nat),
    ((List.range' a K).flatMap fun c => [f c, f c])[j]? = if j < 2 * K then some (f (a + j / 2)) else none
  | 0, a, j => by simp
  | K + 1, a, j => by
    rw [List.range'_succ, List.flatMap_cons]
    match j with
    | 0 => simp
    | 1 => simp; omega
    | j + 2 =>
      simp only [List.cons_append, List.nil_append, List.getElem?_cons_succ]
      rw [twice_get f K (a + 1) j]
      by_cases h : j < 2 * K
      · rw [if_pos h, if_pos (by omega), show a + 1 + j / 2 = a + (j + 2) / 2 by omega]
      · rw [if_neg h, if_neg (by omega)]

theorem detect_le (run : Nat) : ∀ (bs : List Bool) (r w z : Nat), (Mfm.detectWeakLoop run r w z bs).1 ≤ r + bs.length
  | [], r, w, z => by simp [Mfm.detectWeakLoop]
  | b :: bs, r, w, z => by
    unfold Mfm.detectWeakLoop
    refine Nat.le_trans (detect_le run bs _ _ _) ?_
    simp only [List.length_cons]
    split <;> omega

theorem Fit86.weak {t : Track} (h : Fit86 t) : t.data.hasWeakBits = true := by
  have := detect_le 6 t.data.bits.bits 0 0 0
  have hc := h.cells
  unfold Mfm.hasWeakBits
  rw [decide_eq_true_eq, Nat.mod_eq_of_lt (by omega)]
  omega

/-- An image the format can hold: two sides of at least as many cylinders as the geometry says, at most 256. -/
structure Disk86 (d : Disk) : Prop where
  res : d.res = { bit := true }
  sides : d.geometry.h = 2
  len0 : d.geometry.c ≤ d.map0.length
  len1 : d.geometry.c ≤ d.map1.length
  pos : 0 < d.geometry.c
  small : d.geometry.c ≤ 256
  fits : ∀ h c, h < 2 → c < d.geometry.c → FitAt d h c

theorem Disk86.surface {d : Disk} (hd : Disk86 d) : d.hasWeakBits = true := by
  obtain ⟨ch, t, h1, h2⟩ := hd.fits 0 0 (by omega) hd.pos
  unfold Disk.hasWeakBits
  rw [List.any_eq_true]
  refine ⟨.bit ch t, ?_, h2.weak⟩
  rw [trackList_from]
  have : max d.map0.length d.map1.length = (max d.map0.length d.map1.length - 1) + 1 := by
    have := hd.len0; have := hd.pos; omega
  rw [this, tracksFrom_succ, h1]
  simp

/-- What the descriptor must say to be written and read. -/
structure Meta86 (m : F86.Meta) : Prop where
  density : m.density = .double ∨ m.density = .high
  rate : m.rate ≠ .nonstandard ∧ m.rate ≠ .r125
  encoding : m.encoding = .mfm

/-- The cylinders of the file. -/
def cyls86 (d : Disk) : List ((Ch × Track) × (Ch × Track)) :=
  if d.geometry.c < 80 then (List.range' 0 d.geometry.c).flatMap fun c => [pair86 d c, pair86 d c]
  else (List.range' 0 d.geometry.c).map (pair86 d)

/-- How often each cylinder is written. -/
def copies86 (d : Disk) : Nat := if d.geometry.c < 80 then 2 else 1

theorem cyls86_get (d : Disk) (j : Nat) : (cyls86 d)[j]? =
    if j < copies86 d * d.geometry.c then some (pair86 d (j / copies86 d)) else none := by
  unfold cyls86 copies86
  split
  · rw [twice_get, Nat.zero_add]
  · rw [List.getElem?_map, Nat.one_mul, Nat.div_one]
    by_cases h : j < d.geometry.c
    · rw [if_pos h, List.getElem?_range' h]; simp
    · rw [if_neg h, List.getElem?_eq_none (by simpa using h)]; rfl

theorem cyls86_length (d : Disk) : (cyls86 d).length = copies86 d * d.geometry.c := by
  have h := cyls86_get d
  apply Classical.byContradiction
  intro hne
  rcases Nat.lt_or_gt_of_ne hne with hlt | hgt
  · have := h (cyls86 d).length
    rw [List.getElem?_eq_none (Nat.le_refl _), if_pos hlt] at this
    cases this
  · have := h (copies86 d * d.geometry.c)
    rw [List.getElem?_eq_getElem hgt, if_neg (by omega)] at this
    cases this

theorem Disk86.fit_cyls {d : Disk} (hd : Disk86 d) : ∀ p ∈ cyls86 d, Fit86 p.1.2 ∧ Fit86 p.2.2 := by
  intro p hp
  obtain ⟨j, hj⟩ := List.mem_iff_getElem?.1 hp
  rw [cyls86_get] at hj
  split at hj
  · rename_i h
    cases hj
    have : j / copies86 d < d.geometry.c := Nat.div_lt_of_lt_mul h
    exact ⟨(hd.fits 0 _ (by omega) this).ent, (hd.fits 1 _ (by omega) this).ent⟩
  · cases hj

theorem flat86_length (P : List ((Ch × Track) × (Ch × Track))) : (flat86 P).length = 2 * P.length := by
  induction P with
  | nil => rfl
  | cons p P ih => unfold flat86 at ih ⊢; rw [List.flatMap_cons, List.length_append, ih]; simp; omega

theorem recs_bound (m : F86.Meta) (tf : Nat) : ∀ (E : List (Ch × Track)), (∀ e ∈ E, Fit86 e.2) →
    (E.flatMap (rec86 m tf)).length ≤ 2097164 * E.length
  | [], _ => by simp
  | e :: E, h => by
    have ih := recs_bound m tf E fun x hx => h x (by simp [hx])
    have := rec86_length m tf (h e (by simp))
    have := (h e (by simp)).cells
    rw [List.flatMap_cons, List.length_append, List.length_cons]
    omega

/-- The descriptor of a loaded file. -/
def meta86 (m : F86.Meta) : F86.Meta :=
  { density := m.density, rate := .r250, encoding := .mfm,
    rpm := some (if m.rpm = some .r360 then .r360 else .r300), writeProtect := some (m.writeProtect == some true) }

/-- The disk flags written. -/
def flags86 (m : F86.Meta) : Nat :=
  1 + (if m.density = .high then 2 else 0) + 8 + (if m.writeProtect = some true then 16 else 0) + 0x80 + 0x1000

theorem flags86_ok (m : F86.Meta) : Flags86 (flags86 m) ∧ flags86 m / 4 % 2 = 0 ∧ flags86 m / 256 % 2 = 0 ∧
    flags86 m / 2048 % 2 = 0 ∧ (flags86 m / 2 % 2 = 1 ↔ m.density = .high) ∧
    (flags86 m / 16 % 2 = 1 ↔ m.writeProtect = some true) ∧ flags86 m < 65536 := by
  unfold flags86
  by_cases h1 : m.density = .high <;> by_cases h2 : m.writeProtect = some true <;> simp only [h1, h2, if_true, if_false] <;>
    exact ⟨⟨by decide, by decide, by decide, by decide, by decide⟩, by decide, by decide, by decide, by decide, by decide, by decide⟩

/-- The track flags written. -/
def tflags86 (m : F86.Meta) : Nat := (F86.rateFlag m.rate).getD 0 + F86.encFlag m.encoding + F86.rpmFlag m.rpm

theorem tflags86_ok {m : F86.Meta} (hm : Meta86 m) :
    TFlags86 (tflags86 m) (if m.rpm = some .r360 then .r360 else .r300) := by
  have hr := hm.rate
  unfold tflags86
  rw [hm.encoding]
  have key : ∀ (r : F86.Rate) (p : Option F86.Rpm), r ≠ .nonstandard ∧ r ≠ .r125 →
      TFlags86 ((F86.rateFlag r).getD 0 + F86.encFlag .mfm + F86.rpmFlag p) (if p = some .r360 then .r360 else .r300) := by
    intro r p h
    cases p with
    | none => cases r <;> first | exact absurd rfl h.1 | exact absurd rfl h.2 | exact ⟨by decide, by decide, by decide, _, rfl⟩
    | some p =>
      cases p <;> cases r <;>
        first | exact absurd rfl h.1 | exact absurd rfl h.2 | exact ⟨by decide, by decide, by decide, _, rfl⟩
  exact key _ _ hr

/-- The bytes of the file. -/
def file86 (m : F86.Meta) (d : Disk) : List Byte :=
  let rs := (flat86 (cyls86 d)).map (rec86 m (tflags86 m))
  [0x38#8, 0x36#8, 0x42#8, 0x46#8, 0x0C#8, 0x02#8] ++ F86.le2 (flags86 m) ++
    (startsAt 2056 rs ++ List.replicate (512 - rs.length) 0).flatMap F86.le4 ++ rs.flatten

theorem copies_le {d : Disk} (hd : Disk86 d) : copies86 d * d.geometry.c ≤ 256 := by
  have := hd.small
  unfold copies86; split <;> omega

theorem flat_fit {d : Disk} (hd : Disk86 d) : ∀ e ∈ flat86 (cyls86 d), Fit86 e.2 := by
  intro e he
  unfold flat86 at he
  obtain ⟨p, hp, he⟩ := List.mem_flatMap.1 he
  obtain ⟨h1, h2⟩ := hd.fit_cyls p hp
  simp only [List.mem_cons, List.not_mem_nil, or_false] at he
  rcases he with rfl | rfl
  · exact h1
  · exact h2

theorem recs_small {d : Disk} (hd : Disk86 d) (m : F86.Meta) :
    2056 + ((flat86 (cyls86 d)).map (rec86 m (tflags86 m))).flatten.length < 2 ^ 32 := by
  have h1 := recs_bound m (tflags86 m) _ (flat_fit hd)
  rw [flat86_length, cyls86_length] at h1
  have h2 := copies_le hd
  rw [← List.flatMap_def]
  omega

theorem save86 {m : F86.Meta} (hm : Meta86 m) {d : Disk} (hd : Disk86 d) : F86.save m d = .ok (file86 m d) := by
  have hs := recs_small hd m
  unfold F86.save
  rw [if_neg (by rw [hd.res]; simp), hd.surface]
  have hden : F86.densityFlag m.density = some (if m.density = .high then 2 else 0) := by
    rcases hm.density with h | h <;> rw [h] <;> rfl
  have hrate : F86.rateFlag m.rate = some ((F86.rateFlag m.rate).getD 0) := by
    have := hm.rate
    cases hr : m.rate <;> first | exact absurd hr this.1 | exact absurd hr this.2 | rfl
  simp only [hden]
  rw [if_neg (by rw [hd.sides]; simp), if_neg (by have := hd.len0; have := hd.len1; omega), hrate]
  simp only [hd.sides, if_true]
  have hfit : ∀ c', 0 ≤ c' → c' < 0 + d.geometry.c → FitAt d 0 c' ∧ FitAt d 1 c' := fun c' _ h =>
    ⟨hd.fits 0 c' (by omega) (by omega), hd.fits 1 c' (by omega) (by omega)⟩
  have hloop : F86.saveLoop m true (decide (d.geometry.c < 80)) (tflags86 m) d
      (min (256 * 2) ((if decide (d.geometry.c < 80) = true then d.geometry.c * 2 else d.geometry.c) * 2)) 0 0 0 (8 + 4 * (256 * 2)) =
      .ok (startsAt 2056 ((flat86 (cyls86 d)).map (rec86 m (tflags86 m))), (flat86 (cyls86 d)).flatMap (rec86 m (tflags86 m))) := by
    have hmod : ∀ l : List Nat, (∀ x ∈ l, x < 2 ^ 32) → l.map (· % 2 ^ 32) = l := by
      intro l hl
      conv => rhs; rw [← List.map_id l]
      apply List.map_congr_left
      intro x hx
      exact Nat.mod_eq_of_lt (hl x hx)
    have hlt : ∀ x ∈ startsAt 2056 ((flat86 (cyls86 d)).map (rec86 m (tflags86 m))), x < 2 ^ 32 := by
      intro x hx
      have := startsAt_le _ _ x hx
      omega
    have hc := hd.small
    rw [← hmod _ hlt]
    unfold cyls86
    by_cases h80 : d.geometry.c < 80
    · simp only [h80, decide_true, if_true]
      rw [show min (256 * 2) (d.geometry.c * 2 * 2) = 4 * d.geometry.c by omega]
      exact saveLoop_dbl m (tflags86 m) hd.sides d.geometry.c 0 2056 hfit
    · simp only [h80, decide_false, Bool.false_eq_true, if_false]
      rw [show min (256 * 2) (d.geometry.c * 2) = 2 * d.geometry.c by omega]
      exact saveLoop_plain m (tflags86 m) hd.sides d.geometry.c 0 2056 hfit
  have htf : (F86.rateFlag m.rate).getD 0 + F86.encFlag m.encoding + F86.rpmFlag m.rpm = tflags86 m := rfl
  rw [htf, hloop]
  simp only
  unfold file86
  simp only [startsAt_length, List.flatMap_def]
  rfl

theorem flatMap_le4_length : ∀ l : List Nat, (l.flatMap F86.le4).length = 4 * l.length
  | [] => rfl
  | x :: l => by rw [List.flatMap_cons, List.length_append, flatMap_le4_length l]; simp [F86.le4]; omega

theorem load86_file {m : F86.Meta} (hm : Meta86 m) {d : Disk} (hd : Disk86 d) (debug : Bool)
    (bitLen : Encoding → F86.Rate → F86.Rpm → Nat × Bool → Int → Nat) (rnd : Nat → Bool) :
    F86.load debug bitLen rnd {} (file86 m d) = .ok
      ({ pushAll {} (convs86 m rnd 0 (cyls86 d)) with geometry := ⟨copies86 d * d.geometry.c, 2⟩ }, meta86 m) := by
  have hs := recs_small hd m
  have hpos := hd.pos
  have hcl := cyls86_length d
  have hcp : 1 ≤ copies86 d := by unfold copies86; split <;> omega
  have hcle := copies_le hd
  have hne : 1 ≤ copies86 d * d.geometry.c := Nat.mul_pos hcp hpos
  obtain ⟨hF, g1, g2, g3, g4, g5, g6⟩ := flags86_ok m
  have hT := tflags86_ok hm
  have hrl : ((flat86 (cyls86 d)).map (rec86 m (tflags86 m))).length = 2 * (copies86 d * d.geometry.c) := by
    rw [List.length_map, flat86_length, hcl]
  have hfl : (file86 m d).length = 2056 + ((flat86 (cyls86 d)).map (rec86 m (tflags86 m))).flatten.length := by
    unfold file86
    simp only [List.length_append, flatMap_le4_length, startsAt_length, List.length_replicate, hrl, F86.le2,
      List.length_cons, List.length_nil]
    omega
  have hdrop : (file86 m d).drop 2056 = (flat86 (cyls86 d)).flatMap (rec86 m (tflags86 m)) := by
    unfold file86
    simp only
    rw [List.drop_left' (by
      simp only [List.length_append, flatMap_le4_length, startsAt_length, List.length_replicate, hrl, F86.le2,
        List.length_cons, List.length_nil]
      omega), List.flatMap_def]
  have hst := steps86 hF hT m debug bitLen rnd (file86 m d) (cyls86 d) {} 0 none 2056 (.inl rfl) (.inl rfl)
    hd.fit_cyls (by omega) hdrop
  rcases hrs : (flat86 (cyls86 d)).map (rec86 m (tflags86 m)) with _ | ⟨r, rs⟩
  · rw [hrs] at hrl; simp at hrl; omega
  rw [hrs] at hst hrl hfl
  have hfile : file86 m d = 0x38#8 :: 0x36#8 :: 0x42#8 :: 0x46#8 :: 0x0C#8 :: 0x02#8 :: BitVec.ofNat 8 (flags86 m) ::
      BitVec.ofNat 8 (flags86 m / 256) :: BitVec.ofNat 8 2056 :: BitVec.ofNat 8 (2056 / 256) ::
      BitVec.ofNat 8 (2056 / 65536) :: BitVec.ofNat 8 (2056 / 16777216) ::
      ((startsAt (2056 + r.length) rs ++ List.replicate (511 - rs.length) 0).flatMap F86.le4 ++ (r :: rs).flatten) := by
    unfold file86
    simp only [hrs, startsAt, F86.le2, List.length_cons]
    rw [show 512 - (rs.length + 1) = 511 - rs.length by omega, List.cons_append (as := startsAt (2056 + r.length) rs),
      List.flatMap_cons]
    simp only [F86.le4, List.cons_append, List.nil_append]
  have hflags : (BitVec.ofNat 8 (flags86 m)).toNat + 256 * (BitVec.ofNat 8 (flags86 m / 256)).toNat = flags86 m := by
    rw [BitVec.toNat_ofNat, BitVec.toNat_ofNat]; omega
  unfold F86.load
  rw [hfile]
  simp only [hflags, le4_value (show 2056 < 2 ^ 32 by decide)]
  rw [if_neg (by omega), if_neg (by omega), if_neg (by omega)]
  have hsub : F86.subU debug 64 2056 8 = .ok 2048 := rfl
  rw [hsub]
  simp only [show 2048 / 4 - 1 = 511 from rfl]
  rw [← hfile, hfl]
  rw [List.length_cons] at hrl
  rw [offsets86 debug _ (by rw [← hrs]; exact hs) _ rs r 2056 511 (by omega) (by omega) (by
    rw [List.flatten_cons, List.length_append]; omega)]
  simp only [hst, if_neg (show cyls86 d ≠ [] by intro e; rw [e] at hcl; simp at hcl; omega)]
  have hden : (if flags86 m / 2 % 2 = 1 then F86.Density.high else F86.Density.double) = m.density := by
    rcases hm.density with h | h
    · rw [if_neg (by rw [g4, h]; decide), h]
    · rw [if_pos (g4.2 h), h]
  have hwp : decide (flags86 m / 16 % 2 = 1) = (m.writeProtect == some true) := by
    by_cases h : m.writeProtect = some true
    · rw [decide_eq_true (g5.2 h), h]; rfl
    · rw [decide_eq_false (fun e => h (g5.1 e))]
      symm
      rw [beq_eq_false_iff_ne]; exact h
  rw [if_pos hF.sides, hden, hwp, hcl, Nat.zero_add]
  rfl

/-- Saving and loading. -/
theorem f86_load {m : F86.Meta} (hm : Meta86 m) {d : Disk} (hd : Disk86 d) (debug : Bool)
    (bitLen : Encoding → F86.Rate → F86.Rpm → Nat × Bool → Int → Nat) (rnd : Nat → Bool) :
    ∃ bs d', F86.save m d = .ok bs ∧ F86.load debug bitLen rnd {} bs = .ok (d', meta86 m) ∧ Bounded d' ∧
      (∀ h c, h < 2 → at? d' h c = if c < copies86 d * d.geometry.c then
        some (conv86 m rnd ⟨c, h⟩ (ent86 d h (c / copies86 d))) else none) ∧
      (∀ h, h < 2 → (d'.headMap h).length = copies86 d * d.geometry.c) ∧ (d'.map0 ++ d'.map1).Nodup ∧
      d'.res = { bit := true } ∧ d'.geometry = ⟨copies86 d * d.geometry.c, 2⟩ := by
  have hcl := cyls86_length d
  have hb0 : Bounded ({} : Disk) := by
    intro h hh i hi; unfold Disk.headMap at hi; split at hi <;> simp at hi
  obtain ⟨s1, s2, s3, s4⟩ := pushAll_spec (convs86 m rnd 0 (cyls86 d)) {} hb0 (convs86_heads m rnd _ _)
  have hpos := hd.pos
  have hcp : 1 ≤ copies86 d := by unfold copies86; split <;> omega
  have hne : 1 ≤ copies86 d * d.geometry.c := Nat.mul_pos hcp hpos
  have hb1 : Bounded { pushAll {} (convs86 m rnd 0 (cyls86 d)) with geometry := ⟨copies86 d * d.geometry.c, 2⟩ } := s1
  have hat : ∀ h c, h < 2 → at? { pushAll {} (convs86 m rnd 0 (cyls86 d)) with geometry := ⟨copies86 d * d.geometry.c, 2⟩ } h c =
      if c < copies86 d * d.geometry.c then some (conv86 m rnd ⟨c, h⟩ (ent86 d h (c / copies86 d))) else none := by
    intro h c hh
    rw [← side_get _ hb1 hh]
    refine Eq.trans (show _ = (side (pushAll {} (convs86 m rnd 0 (cyls86 d))) h)[c]? from rfl) ?_
    rw [s2 h hh]
    have e0 : side ({} : Disk) h = [] := by unfold side Disk.headMap; split <;> rfl
    rw [e0, List.nil_append, convs86_side m rnd hh, cyls86_get, Nat.zero_add]
    by_cases hc : c < copies86 d * d.geometry.c
    · rw [if_pos hc, if_pos hc]
      rcases (by omega : h = 0 ∨ h = 1) with rfl | rfl <;> rfl
    · rw [if_neg hc, if_neg hc]; rfl
  have hlen : ∀ h, h < 2 → ((convs86 m rnd 0 (cyls86 d)).filter fun x => x.ch.h = h).length = copies86 d * d.geometry.c := by
    intro h hh
    rw [← hcl]
    have hget := convs86_side m rnd hh (cyls86 d) 0
    apply Classical.byContradiction
    intro hne
    rcases Nat.lt_or_gt_of_ne hne with hlt | hgt
    · have := hget ((convs86 m rnd 0 (cyls86 d)).filter fun x => x.ch.h = h).length
      rw [List.getElem?_eq_none (Nat.le_refl _), List.getElem?_eq_getElem hlt] at this
      cases this
    · have := hget (cyls86 d).length
      rw [List.getElem?_eq_getElem hgt, List.getElem?_eq_none (Nat.le_refl _)] at this
      cases this
  refine ⟨file86 m d, _, save86 hm hd, load86_file hm hd debug bitLen rnd, hb1, hat, ?_, ?_, ?_, rfl⟩
  · intro h hh
    refine Eq.trans (show _ = ((pushAll {} (convs86 m rnd 0 (cyls86 d))).headMap h).length from rfl) ?_
    rw [s3 h hh, hlen h hh]
    have : (({} : Disk).headMap h) = [] := by unfold Disk.headMap; split <;> rfl
    rw [this]; simp
  · refine (s4.nodup_iff).2 ?_
    simpa using List.nodup_range'
  · refine pushAll_res _ _ (.inl rfl) ?_
    intro e
    have := convs86_length m rnd (cyls86 d) 0
    rw [e, hcl] at this
    simp at this
    omega

end Fox
