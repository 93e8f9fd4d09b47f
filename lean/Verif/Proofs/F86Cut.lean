import Verif.Proofs.F86File
/-
Cut 86F files.
-/
namespace Fox
open Spec OddEven S34

theorem steps_fail (debug : Bool) (bitLen : Encoding → F86.Rate → F86.Rpm → Nat × Bool → Int → Nat) (rnd : Nat → Bool)
    (F : Nat) (bs : List Byte) : ∀ (l : List (Nat × Nat)) (st : F86.State) (x : Nat × Nat), x ∈ l →
      (∀ st, ∃ e, F86.step debug bitLen rnd F bs st x = .error e) → ∃ e, F86.steps debug bitLen rnd F bs st l = .error e
  | [], _, _, h, _ => by cases h
  | y :: l, st, x, h, hx => by
    unfold F86.steps
    rcases hy : F86.step debug bitLen rnd F bs st y with e | st'
    · exact ⟨e, rfl⟩
    · simp only
      rcases List.mem_cons.1 h with rfl | h
      · obtain ⟨e, he⟩ := hx st
        rw [hy] at he; cases he
      · exact steps_fail debug bitLen rnd F bs l st' x h hx

theorem steps_congr (debug : Bool) (bitLen : Encoding → F86.Rate → F86.Rpm → Nat × Bool → Int → Nat) (rnd : Nat → Bool)
    (F : Nat) (bs bs' : List Byte) : ∀ (l : List (Nat × Nat)) (st : F86.State), (∀ x ∈ l, bs.drop x.1 = bs'.drop x.1) →
      F86.steps debug bitLen rnd F bs st l = F86.steps debug bitLen rnd F bs' st l
  | [], _, _ => rfl
  | y :: l, st, h => by
    have e : F86.step debug bitLen rnd F bs st y = F86.step debug bitLen rnd F bs' st y := by
      unfold F86.step
      rw [h y (by simp)]
    unfold F86.steps
    rw [e]
    split
    · rfl
    · exact steps_congr debug bitLen rnd F bs bs' l _ fun x hx => h x (by simp [hx])

theorem offsets_ge (len : Nat) : ∀ (k : Nat) (bs : List Byte) (prev : Nat) (l : List (Nat × Nat)),
    F86.offsets true len k bs prev = .ok l → ∀ x ∈ l, prev ≤ x.1
  | 0, bs, prev, l, h => by
    unfold F86.offsets at h
    split at h
    · cases h
    · cases h; intro x hx; simp at hx; rw [hx]
  | k + 1, bs, prev, l, h => by
    unfold F86.offsets at h
    split at h
    · simp only at h
      split at h
      · split at h
        · cases h
        · cases h; intro x hx; simp at hx; rw [hx]
      · split at h
        · cases h
        · rename_i hs
          split at h
          · cases h
          · rename_i l' hl
            cases h
            intro x hx
            rcases List.mem_cons.1 hx with rfl | hx
            · exact Nat.le_refl _
            · have := offsets_ge len k _ _ _ hl x hx
              unfold F86.subU at hs
              split at hs
              · omega
              · simp at hs
    · cases h

/-- The first entry is the first offset. -/
theorem offsets_head (debug : Bool) (len : Nat) (k : Nat) (bs : List Byte) (prev : Nat) (l : List (Nat × Nat))
    (h : F86.offsets debug len k bs prev = .ok l) : ∃ n l', l = (prev, n) :: l' := by
  unfold F86.offsets at h
  split at h
  · split at h
    · cases h
    · cases h; exact ⟨_, _, rfl⟩
  · split at h
    · simp only at h
      split at h
      · split at h
        · cases h
        · cases h; exact ⟨_, _, rfl⟩
      · split at h
        · cases h
        · split at h
          · cases h
          · cases h; exact ⟨_, _, rfl⟩
    · cases h

/-- Another stream length changes only the size of the last entry. -/
theorem offsets_len (debug : Bool) (len len' : Nat) : ∀ (k : Nat) (bs bs' : List Byte) (prev : Nat) (l l' : List (Nat × Nat)),
    bs.take (4 * k) = bs'.take (4 * k) →
    F86.offsets debug len k bs prev = .ok l → F86.offsets debug len' k bs' prev = .ok l' →
    ∃ p s n n', l = p ++ [(s, n)] ∧ l' = p ++ [(s, n')] ∧ F86.subU debug 64 len' s = .ok n'
  | 0, bs, bs', prev, l, l', _, h, h' => by
    unfold F86.offsets at h h'
    split at h
    · cases h
    · split at h'
      · cases h'
      · rename_i e1 _ e2
        cases h; cases h'
        exact ⟨[], _, _, _, rfl, rfl, e2⟩
  | k + 1, bs, bs', prev, l, l', hb, h, h' => by
    unfold F86.offsets at h h'
    split at h
    · rename_i b0 b1 b2 b3 bs
      split at h'
      · rename_i c0 c1 c2 c3 bs'
        rw [show 4 * (k + 1) = 4 * k + 1 + 1 + 1 + 1 by omega] at hb
        simp only [List.take_succ_cons, List.cons.injEq] at hb
        obtain ⟨rfl, rfl, rfl, rfl, hb⟩ := hb
        simp only at h h'
        split at h
        · rename_i h0
          rw [if_pos h0] at h'
          split at h
          · cases h
          · split at h'
            · cases h'
            · rename_i e1 _ e2
              cases h; cases h'
              exact ⟨[], _, _, _, rfl, rfl, e2⟩
        · rename_i h0
          rw [if_neg h0] at h'
          split at h
          · cases h
          · rename_i n hn
            rw [hn] at h'
            simp only at h'
            split at h
            · cases h
            · rename_i l1 hl1
              split at h'
              · cases h'
              · rename_i l2 hl2
                cases h; cases h'
                obtain ⟨p, s, a, a', q1, q2, q3⟩ := offsets_len debug len len' k _ _ _ _ _ hb hl1 hl2
                exact ⟨(prev, n) :: p, s, a, a', by rw [q1]; rfl, by rw [q2]; rfl, q3⟩
      · cases h'
    · cases h

theorem spans_snoc : ∀ (rs : List (List Byte)) (p : Nat) (r : List Byte),
    spans p (rs ++ [r]) = spans p rs ++ [(p + rs.flatten.length, r.length)]
  | [], p, r => by simp [spans]
  | a :: rs, p, r => by
    simp only [List.cons_append, spans, spans_snoc rs, List.flatten_cons, List.length_append, Nat.add_assoc]

/-- A cut track entry of an even number of bytes cannot be read. -/
theorem step_cut {F : Nat} (hF : Flags86 F) {tf : Nat} (m : F86.Meta)
    (debug : Bool) (bitLen : Encoding → F86.Rate → F86.Rpm → Nat × Bool → Int → Nat) (rnd : Nat → Bool)
    (bs : List Byte) (st : F86.State) (e : Ch × Track) (hfit : Fit86 e.2)
    (heven : (e.2.data.bits.bits.length + 7) / 8 % 2 = 0) (off j : Nat)
    (hj : j < (rec86 m tf e).length) (hoff : bs.drop off = (rec86 m tf e).take j) :
    ∃ err, F86.step debug bitLen rnd F bs st (off, j) = .error err := by
  have hrl := rec86_length m tf hfit
  have hcl := hfit.cells
  have hbody : rec86 m tf e = BitVec.ofNat 8 tf :: BitVec.ofNat 8 (tf / 256) ::
      (BitVec.ofNat 8 e.2.data.len) :: (BitVec.ofNat 8 (e.2.data.len / 256)) ::
      (BitVec.ofNat 8 (e.2.data.len / 65536)) :: (BitVec.ofNat 8 (e.2.data.len / 16777216)) ::
      0#8 :: 0#8 :: 0#8 :: 0#8 :: (data86 m e.1 e.2 ++ weak86 e.2) := by
    unfold rec86 F86.le2 F86.le4
    simp
  by_cases h10 : j < 10
  · refine ⟨.io, ?_⟩
    unfold F86.step
    simp only [hoff, hF.extra, if_true]
    rw [hbody]
    rcases (show j = 0 ∨ j = 1 ∨ j = 2 ∨ j = 3 ∨ j = 4 ∨ j = 5 ∨ j = 6 ∨ j = 7 ∨ j = 8 ∨ j = 9 by omega) with
      rfl | rfl | rfl | rfl | rfl | rfl | rfl | rfl | rfl | rfl <;> rfl
  · obtain ⟨i, rfl⟩ : ∃ i, j = i + 10 := ⟨j - 10, by omega⟩
    have hoff' : bs.drop off = BitVec.ofNat 8 tf :: BitVec.ofNat 8 (tf / 256) ::
      (BitVec.ofNat 8 e.2.data.len) :: (BitVec.ofNat 8 (e.2.data.len / 256)) ::
      (BitVec.ofNat 8 (e.2.data.len / 65536)) :: (BitVec.ofNat 8 (e.2.data.len / 16777216)) ::
      0#8 :: 0#8 :: 0#8 :: 0#8 :: (data86 m e.1 e.2 ++ weak86 e.2).take i := by
      rw [hoff, hbody]; rfl
    unfold F86.step
    have hlen : e.2.data.len = e.2.data.bits.bits.length := rfl
    simp only [hoff', hF.extra, if_true, le4_value (show e.2.data.len < 2 ^ 32 by omega)]
    split
    · exact ⟨_, rfl⟩
    · split
      · exact ⟨_, rfl⟩
      · split
        · exact ⟨_, rfl⟩
        · split
          · exact ⟨_, rfl⟩
          · have hsub : F86.subU debug 64 (i + 10) 10 = .ok i := by
              unfold F86.subU; rw [if_pos (by omega)]; rfl
            rw [hsub]
            simp only
            split
            · exact ⟨_, rfl⟩
            · rename_i hev
              have hshift : F86.timeShift F = (0, false) := by unfold F86.timeShift; rw [if_pos hF.shift]
              have hneed : F86.toUsize ((e.2.data.len : Int).tdiv 8 + if (e.2.data.len : Int).tmod 8 ≠ 0 then 1 else 0) =
                  (e.2.data.bits.bits.length + 7) / 8 := by
                have e1 : (e.2.data.len : Int).tdiv 8 = ((e.2.data.len / 8 : Nat) : Int) := rfl
                have e2 : (e.2.data.len : Int).tmod 8 = ((e.2.data.len % 8 : Nat) : Int) := rfl
                rw [e1, e2]
                unfold F86.toUsize
                by_cases hz : e.2.data.len % 8 = 0
                · rw [hz, if_neg (by simp)]; omega
                · rw [if_pos (by omega)]; omega
              have hI : F86.toI32 e.2.data.len = (e.2.data.len : Int) := by
                unfold F86.toI32; rw [if_pos (by omega)]
              refine ⟨.corrupt, ?_⟩
              simp only [hshift, hF.surface, if_true, hF.speed, and_self, decide_true, F86.trackLength,
                Option.getD_some, hI, hneed]
              rw [if_pos (by omega)]

theorem step_empty {F : Nat} (debug : Bool) (bitLen : Encoding → F86.Rate → F86.Rpm → Nat × Bool → Int → Nat)
    (rnd : Nat → Bool) (bs : List Byte) (st : F86.State) (off n : Nat) (h : bs.length ≤ off) :
    ∃ err, F86.step debug bitLen rnd F bs st (off, n) = .error err := by
  refine ⟨.io, ?_⟩
  unfold F86.step
  simp only [List.drop_eq_nil_of_le h]

theorem spans_mem_last {rs : List (List Byte)} {p : Nat} {q : List (Nat × Nat)} {s n : Nat} {E : List (List Byte)} {r : List Byte}
    (hE : rs = E ++ [r]) (h : spans p rs = q ++ [(s, n)]) : s = p + E.flatten.length ∧ n = r.length := by
  rw [hE, spans_snoc] at h
  have := List.append_inj_right' h (by simp)
  simp only [List.cons.injEq, Prod.mk.injEq, and_true] at this
  exact ⟨this.1.symm, this.2.symm⟩

/-- Every cut file is refused. -/
theorem load_cut {m : F86.Meta} {d : Disk} (hd : Disk86 d) {E : List (Ch × Track)} {e : Ch × Track}
    (hE : flat86 (cyls86 d) = E ++ [e]) (heven : (e.2.data.bits.bits.length + 7) / 8 % 2 = 0) (debug : Bool)
    (bitLen : Encoding → F86.Rate → F86.Rpm → Nat × Bool → Int → Nat) (rnd : Nat → Bool) (d0 : Disk) (n : Nat)
    (hn : n < (file86 m d).length) : ∃ err, F86.load debug bitLen rnd d0 ((file86 m d).take n) = .error err := by
  have hs := recs_small hd m
  have hcl := cyls86_length d
  have hcle := copies_le hd
  obtain ⟨hF, g1, g2, g3, g4, g5, g6⟩ := flags86_ok m
  have hfe : Fit86 e.2 := flat_fit hd e (by rw [hE]; simp)
  have hrl : ((flat86 (cyls86 d)).map (rec86 m (tflags86 m))).length = 2 * (copies86 d * d.geometry.c) := by
    rw [List.length_map, flat86_length, hcl]
  have hfl : (file86 m d).length = 2056 + ((flat86 (cyls86 d)).map (rec86 m (tflags86 m))).flatten.length := by
    unfold file86
    simp only [List.length_append, flatMap_le4_length, startsAt_length, List.length_replicate, hrl, F86.le2,
      List.length_cons, List.length_nil]
    omega
  have hdrop : (file86 m d).drop 2056 = ((flat86 (cyls86 d)).map (rec86 m (tflags86 m))).flatten := by
    unfold file86
    simp only
    rw [List.drop_left' (by
      simp only [List.length_append, flatMap_le4_length, startsAt_length, List.length_replicate, hrl, F86.le2,
        List.length_cons, List.length_nil]
      omega)]
  have hlast : (flat86 (cyls86 d)).map (rec86 m (tflags86 m)) = E.map (rec86 m (tflags86 m)) ++ [rec86 m (tflags86 m) e] := by
    rw [hE]; simp
  rcases hrs : (flat86 (cyls86 d)).map (rec86 m (tflags86 m)) with _ | ⟨r, rs⟩
  · rw [hrs] at hlast; simp at hlast
  rw [hrs] at hrl hfl hlast hdrop
  have hfile : file86 m d = 0x38#8 :: 0x36#8 :: 0x42#8 :: 0x46#8 :: 0x0C#8 :: 0x02#8 :: BitVec.ofNat 8 (flags86 m) ::
      BitVec.ofNat 8 (flags86 m / 256) :: BitVec.ofNat 8 2056 :: BitVec.ofNat 8 (2056 / 256) ::
      BitVec.ofNat 8 (2056 / 65536) :: BitVec.ofNat 8 (2056 / 16777216) ::
      ((startsAt (2056 + r.length) rs ++ List.replicate (511 - rs.length) 0).flatMap F86.le4 ++ (r :: rs).flatten) := by
    unfold file86
    simp only [hrs, startsAt, F86.le2, List.length_cons]
    rw [show 512 - (rs.length + 1) = 511 - rs.length by omega, List.cons_append (as := startsAt (2056 + r.length) rs),
      List.flatMap_cons]
    simp only [F86.le4, List.cons_append, List.nil_append]
  have hflags : (BitVec.ofNat 8 (flags86 m)).toNat + 256 * (BitVec.ofNat 8 (flags86 m / 256)).toNat = flags86 m := by
    rw [BitVec.toNat_ofNat, BitVec.toNat_ofNat]; omega
  by_cases h12 : n < 12
  · by_cases h8 : n < 8
    · refine ⟨.io, ?_⟩
      rw [hfile]
      rcases (show n = 0 ∨ n = 1 ∨ n = 2 ∨ n = 3 ∨ n = 4 ∨ n = 5 ∨ n = 6 ∨ n = 7 by omega) with
        rfl | rfl | rfl | rfl | rfl | rfl | rfl | rfl <;> rfl
    · refine ⟨.io, ?_⟩
      unfold F86.load
      rw [hfile]
      rcases (show n = 8 ∨ n = 9 ∨ n = 10 ∨ n = 11 by omega) with rfl | rfl | rfl | rfl <;>
        simp only [List.take_succ_cons, List.take_zero, hflags] <;>
        rw [if_neg (by omega), if_neg (by omega), if_neg (by omega)]
  · obtain ⟨k, rfl⟩ : ∃ k, n = k + 12 := ⟨n - 12, by omega⟩
    have hcut : (file86 m d).take (k + 12) = 0x38#8 :: 0x36#8 :: 0x42#8 :: 0x46#8 :: 0x0C#8 :: 0x02#8 ::
      BitVec.ofNat 8 (flags86 m) ::
      BitVec.ofNat 8 (flags86 m / 256) :: BitVec.ofNat 8 2056 :: BitVec.ofNat 8 (2056 / 256) ::
      BitVec.ofNat 8 (2056 / 65536) :: BitVec.ofNat 8 (2056 / 16777216) ::
      ((startsAt (2056 + r.length) rs ++ List.replicate (511 - rs.length) 0).flatMap F86.le4 ++ (r :: rs).flatten).take k := by
      rw [hfile]; rfl
    have hclen : ((file86 m d).take (k + 12)).length = k + 12 := by rw [List.length_take]; omega
    generalize hbs : (file86 m d).take (k + 12) = bs at hclen
    rw [hbs] at hcut
    unfold F86.load
    rw [hcut]
    simp only [hflags, le4_value (show 2056 < 2 ^ 32 by decide)]
    rw [if_neg (by omega), if_neg (by omega), if_neg (by omega)]
    have hsub : F86.subU debug 64 2056 8 = .ok 2048 := rfl
    rw [hsub]
    simp only [show 2048 / 4 - 1 = 511 from rfl]
    rw [← hcut, hclen]
    rw [List.length_cons] at hrl
    have hfull := offsets86 debug (2056 + (r :: rs).flatten.length) (by rw [← hrs]; exact hs) (r :: rs).flatten rs r 2056 511
      (by omega) (by omega) (by rw [List.flatten_cons, List.length_append]; omega)
    generalize htab : (startsAt (2056 + r.length) rs ++ List.replicate (511 - rs.length) 0).flatMap F86.le4 ++ (r :: rs).flatten =
      tab at hfull
    rcases ho : F86.offsets debug (k + 12) 511 (tab.take k) 2056 with err | l
    · exact ⟨err, rfl⟩
    simp only
    have hst : ∃ err, F86.steps debug bitLen rnd (flags86 m) bs { disk := d0 } l = .error err := by
      by_cases hbig : k + 12 ≤ 2056
      · obtain ⟨a, l', rfl⟩ := offsets_head _ _ _ _ _ _ ho
        exact steps_fail debug bitLen rnd _ bs _ _ (2056, a) (by simp) fun st =>
          step_empty debug bitLen rnd bs st 2056 a (by omega)
      · obtain ⟨p, s, a, a', q1, q2, q3⟩ := offsets_len debug _ (k + 12) 511 tab (tab.take k) 2056 _ _ (by
          rw [List.take_take, Nat.min_eq_left (by omega)]) hfull ho
        obtain ⟨s1, _⟩ := spans_mem_last hlast q1
        refine steps_fail debug bitLen rnd _ bs _ _ (s, a') (by rw [q2]; simp) fun st => ?_
        by_cases hsn : s ≤ k + 12
        · have hEl : (r :: rs).flatten.length = (E.map (rec86 m (tflags86 m))).flatten.length + (rec86 m (tflags86 m) e).length := by
            rw [hlast, List.flatten_append, List.length_append]; simp
          have ha : a' = k + 12 - s := by
            unfold F86.subU at q3; rw [if_pos hsn] at q3; exact (Except.ok.inj q3).symm
          have hj : k + 12 - s < (rec86 m (tflags86 m) e).length := by
            rw [hfl, hEl] at hn
            rw [s1]
            omega
          rw [ha]
          refine step_cut hF m debug bitLen rnd bs st e hfe heven s _ hj ?_
          rw [← hbs, List.drop_take]
          congr 1
          rw [s1, ← List.drop_drop, hdrop, hlast, List.flatten_append, List.drop_left' rfl]
          simp
        · exact step_empty debug bitLen rnd bs st s a' (by omega)
    obtain ⟨err, hst⟩ := hst
    exact ⟨err, by rw [hst]⟩

/-- The last entry of the file. -/
theorem flat_last {d : Disk} (hd : Disk86 d) : ∃ E, flat86 (cyls86 d) = E ++ [ent86 d 1 (d.geometry.c - 1)] := by
  have hcp : 1 ≤ copies86 d := by unfold copies86; split <;> omega
  have hpos := hd.pos
  have hne : 1 ≤ copies86 d * d.geometry.c := Nat.mul_pos hcp hpos
  have hcl := cyls86_length d
  have hg := cyls86_get d (copies86 d * d.geometry.c - 1)
  rw [if_pos (by omega)] at hg
  have hdiv : (copies86 d * d.geometry.c - 1) / copies86 d = d.geometry.c - 1 := by
    unfold copies86; split <;> omega
  rw [hdiv] at hg
  have hsplit : cyls86 d = (cyls86 d).take (copies86 d * d.geometry.c - 1) ++ [pair86 d (d.geometry.c - 1)] := by
    conv => lhs; rw [← List.take_append_drop (copies86 d * d.geometry.c - 1) (cyls86 d)]
    congr 1
    obtain ⟨g1, g2⟩ := List.getElem?_eq_some_iff.1 hg
    rw [List.drop_eq_getElem_cons g1, g2, List.drop_eq_nil_of_le (by omega)]
  rw [hsplit]
  unfold flat86
  rw [List.flatMap_append]
  refine ⟨(List.flatMap (fun p => [p.1, p.2]) ((cyls86 d).take (copies86 d * d.geometry.c - 1))) ++ [ent86 d 0 (d.geometry.c - 1)], ?_⟩
  simp [pair86]

/-- The first six bytes are not looked at. -/
theorem load_name (a b : List Byte) (ha : a.length = 6) (hb : b.length = 6) (f : List Byte)
    (bitLen : Encoding → F86.Rate → F86.Rpm → Nat × Bool → Int → Nat) (rnd : Nat → Bool) (d : Disk) :
    F86.load true bitLen rnd d (a ++ f) = F86.load true bitLen rnd d (b ++ f) := by
  have hdrop : ∀ x, 8 ≤ x → (a ++ f).drop x = (b ++ f).drop x := by
    intro x hx
    rw [List.drop_append, List.drop_append, ha, hb, List.drop_eq_nil_of_le (as := a) (by omega),
      List.drop_eq_nil_of_le (as := b) (by omega)]
  have hlen : (a ++ f).length = (b ++ f).length := by simp [ha, hb]
  generalize hA : a ++ f = A at hdrop hlen
  generalize hB : b ++ f = B at hdrop hlen
  obtain ⟨a0, a1, a2, a3, a4, a5, rfl⟩ : ∃ a0 a1 a2 a3 a4 a5, a = [a0, a1, a2, a3, a4, a5] := by
    match a, ha with
    | [a0, a1, a2, a3, a4, a5], _ => exact ⟨_, _, _, _, _, _, rfl⟩
  obtain ⟨b0, b1, b2, b3, b4, b5, rfl⟩ : ∃ a0 a1 a2 a3 a4 a5, b = [a0, a1, a2, a3, a4, a5] := by
    match b, hb with
    | [a0, a1, a2, a3, a4, a5], _ => exact ⟨_, _, _, _, _, _, rfl⟩
  match f with
  | [] => rw [← hA, ← hB]; rfl
  | [_] => rw [← hA, ← hB]; rfl
  | f0 :: f1 :: rest =>
    have hA' : A = a0 :: a1 :: a2 :: a3 :: a4 :: a5 :: f0 :: f1 :: rest := hA.symm
    have hB' : B = b0 :: b1 :: b2 :: b3 :: b4 :: b5 :: f0 :: f1 :: rest := hB.symm
    unfold F86.load
    rw [hA', hB']
    simp only
    rw [← hA', ← hB']
    split
    · rfl
    · split
      · rfl
      · split
        · rfl
        · split
          · split
            · rfl
            · rename_i hs
              rw [hlen]
              split
              · rfl
              · rename_i os ho
                rw [steps_congr true bitLen rnd _ A B os _ fun x hx => hdrop _ (by
                  have := offsets_ge _ _ _ _ _ ho x hx
                  unfold F86.subU at hs
                  split at hs
                  · omega
                  · simp at hs)]
          · rfl

end Fox
