import Verif.Proofs.Td0Crc
import Verif.Proofs.Imd
/-
Loading TeleDisk files: sector contents, sectors, tracks.
-/
namespace Fox
namespace Td0
open Spec

theorem u16 (k : Nat) (h : k < 65536) : (BitVec.ofNat 16 k).toNat = k := by
  rw [BitVec.toNat_ofNat]; exact Nat.mod_eq_of_lt h

/-! ### Pairs -/

/-- A pair the wrong way round. -/
def swapped (x : Td0Pair) : List Byte := (List.replicate x.count [x.b, x.a]).flatten

theorem swapped_length (x : Td0Pair) : (swapped x).length = 2 * x.count := by
  unfold swapped; simp [Nat.mul_comm]

theorem contents_length (x : Td0Pair) : x.contents.length = 2 * x.count := by
  unfold Td0Pair.contents; simp [Nat.mul_comm]

theorem swapped_same (x : Td0Pair) (h : x.a = x.b) : swapped x = x.contents := by
  unfold swapped Td0Pair.contents; rw [h]

theorem copies_ok (size : Nat) (a b : Byte) : ∀ (k : Nat) (out : List Byte), out.length + 2 * k ≤ size →
    copies size a b k out = .ok (out ++ (List.replicate k [b, a]).flatten)
  | 0, out, _ => by simp [copies]
  | k + 1, out, h => by
    rw [copies, if_pos (by omega), copies_ok size a b k _ (by simp; omega)]
    simp [List.replicate_succ]

theorem pairEntry_ok (size : Nat) (p : Td0Pair) (out tail : List Byte) (hc : p.count < 65536)
    (hs : out.length + (swapped p).length ≤ size) : pairEntry size out (p.bytes ++ tail) = .ok (out ++ swapped p, tail) := by
  rw [swapped_length] at hs
  show pairEntry size out ((BitVec.ofNat 16 p.count).setWidth 8 :: ((BitVec.ofNat 16 p.count) >>> 8).setWidth 8 :: p.a :: p.b :: tail) = _
  rw [pairEntry, le16_word, u16 _ hc, copies_ok _ _ _ _ _ hs]
  rfl

theorem repeated_ok (size : Nat) : ∀ (l : List Td0Pair) (f : Nat) (out tail : List Byte), (∀ p ∈ l, 0 < p.count) →
    out.length + (l.flatMap swapped).length = size → size < 65536 → l.length < f →
    repeated size f out (l.flatMap Td0Pair.bytes ++ tail) = .ok (out ++ l.flatMap swapped, tail)
  | l, 0, _, _, _, _, _, hf => by omega
  | [], f + 1, out, tail, _, hs, _, _ => by
    rw [repeated, if_neg (by simp at hs; omega)]; simp
  | p :: l, f + 1, out, tail, hp, hs, hz, hf => by
    have h0 := hp p (by simp)
    have hl := swapped_length p
    rw [List.flatMap_cons, List.length_append] at hs
    rw [repeated, if_pos (by omega), List.flatMap_cons, List.append_assoc, pairEntry_ok size p out _ (by omega) (by omega)]
    simp only
    rw [repeated_ok size l f _ tail (fun q hq => hp q (by simp [hq])) (by rw [List.length_append]; omega) hz
      (by simp only [List.length_cons] at hf; omega)]
    simp

theorem pairEntry_cut (size : Nat) (p : Td0Pair) (out : List Byte) (k : Nat) (hk : k < p.bytes.length) :
    pairEntry size out (p.bytes.take k) = .error .io := by
  have hk : k < 4 := hk
  match k, hk with
  | 0, _ => rfl
  | 1, _ => rfl
  | 2, _ => rfl
  | 3, _ => rfl
  | k + 4, hk => omega

theorem repeated_cut (size : Nat) : ∀ (l : List Td0Pair) (f : Nat) (out : List Byte) (k : Nat), (∀ p ∈ l, 0 < p.count) →
    out.length + (l.flatMap swapped).length = size → size < 65536 → l.length < f → k < (l.flatMap Td0Pair.bytes).length →
    repeated size f out ((l.flatMap Td0Pair.bytes).take k) = .error .io
  | l, 0, _, _, _, _, _, hf, _ => by omega
  | [], f + 1, out, k, _, _, _, _, hk => by simp at hk
  | p :: l, f + 1, out, k, hp, hs, hz, hf, hk => by
    have h0 := hp p (by simp)
    have hl := swapped_length p
    rw [List.flatMap_cons, List.length_append] at hs hk
    rw [repeated, if_pos (by omega), List.flatMap_cons]
    by_cases hc : k < p.bytes.length
    · rw [List.take_append_of_le_length (by omega), pairEntry_cut size p out k hc]
    · rw [List.take_append, List.take_of_length_le (by omega), pairEntry_ok size p out _ (by omega) (by omega)]
      exact repeated_cut size l f _ _ (fun q hq => hp q (by simp [hq])) (by rw [List.length_append]; omega) hz
        (by simp only [List.length_cons] at hf; omega) (by omega)

/-! ### Runs -/

theorem runs_ok (size : Nat) (pat : List Byte) (h0 : 0 < pat.length) : ∀ (k : Nat) (out : List Byte),
    out.length + k * pat.length ≤ size → runs size pat k out = .ok (out ++ (List.replicate k pat).flatten)
  | 0, out, _ => by simp [runs]
  | k + 1, out, h => by
    rw [Nat.succ_mul] at h
    rw [runs, if_pos (by omega), if_neg (by omega), runs_ok size pat h0 k _ (by rw [List.length_append]; omega)]
    simp [List.replicate_succ]

theorem run_length (pat : List Byte) (k : Nat) : (Td0Run.run pat k).contents.length = k * pat.length := by
  simp [Td0Run.contents]

theorem run_pos {r : Td0Run} (h : r.Ok) : 0 < r.contents.length := by
  cases r with
  | literal d => exact h.1
  | run pat k =>
    rw [run_length]
    exact Nat.mul_pos h.2.2.2.1 h.1

theorem rleEntry_ok (size : Nat) (r : Td0Run) (h : r.Ok) (out tail : List Byte) (hs : out.length + r.contents.length ≤ size) :
    rleEntry size out (r.bytes ++ tail) = .ok (out ++ r.contents, tail) := by
  cases r with
  | literal d =>
    have hs : out.length + d.length ≤ size := hs
    show rleEntry size out (0#8 :: byteOf d.length :: (d ++ tail)) = _
    rw [rleEntry, if_pos rfl, byteOf_toNat h.2, if_neg (by omega), take_ok _ _ _ rfl]
    rfl
  | run pat k =>
    obtain ⟨h1, h2, h3, h4, h5⟩ := h
    rw [run_length] at hs
    show rleEntry size out (byteOf (pat.length / 2) :: byteOf k :: (pat ++ tail)) = _
    rw [rleEntry, if_neg, byteOf_toNat h3, byteOf_toNat h5, take_ok _ _ _ (by omega)]
    · simp only
      rw [runs_ok size pat h1 k out hs]
      rfl
    · intro e
      have := byteOf_toNat h3
      rw [e] at this
      have : 0 = pat.length / 2 := this
      omega

theorem rle_ok (size : Nat) : ∀ (l : List Td0Run) (f : Nat) (out tail : List Byte), (∀ r ∈ l, r.Ok) →
    out.length + (l.flatMap Td0Run.contents).length = size → l.length < f →
    rle size f out (l.flatMap Td0Run.bytes ++ tail) = .ok (out ++ l.flatMap Td0Run.contents, tail)
  | l, 0, _, _, _, _, hf => by omega
  | [], f + 1, out, tail, _, hs, _ => by
    rw [rle, if_neg (by simp at hs; omega)]; simp
  | r :: l, f + 1, out, tail, hp, hs, hf => by
    have h0 := hp r (by simp)
    have hpos := run_pos h0
    rw [List.flatMap_cons, List.length_append] at hs
    rw [rle, if_pos (by omega), List.flatMap_cons, List.append_assoc, rleEntry_ok size r h0 out _ (by omega)]
    simp only
    rw [rle_ok size l f _ tail (fun q hq => hp q (by simp [hq])) (by rw [List.length_append]; omega)
      (by simp only [List.length_cons] at hf; omega)]
    simp

theorem rleEntry_cut (size : Nat) (r : Td0Run) (h : r.Ok) (out : List Byte) (hs : out.length + r.contents.length ≤ size)
    (k : Nat) (hk : k < r.bytes.length) : rleEntry size out (r.bytes.take k) = .error .io := by
  cases r with
  | literal d =>
    have hs : out.length + d.length ≤ size := hs
    have hk : k < d.length + 2 := hk
    match k, hk with
    | 0, _ => rfl
    | 1, _ => rfl
    | k + 2, hk =>
      show rleEntry size out (0#8 :: byteOf d.length :: d.take k) = _
      rw [rleEntry, if_pos rfl, byteOf_toNat h.2, if_neg (by omega), take_short _ _ (by rw [List.length_take]; omega)]
  | run pat m =>
    obtain ⟨h1, h2, h3, h4, h5⟩ := h
    have hk : k < pat.length + 2 := hk
    match k, hk with
    | 0, _ => rfl
    | 1, _ => rfl
    | k + 2, hk =>
      show rleEntry size out (byteOf (pat.length / 2) :: byteOf m :: pat.take k) = _
      rw [rleEntry, if_neg, byteOf_toNat h3, take_short _ _ (by rw [List.length_take]; omega)]
      intro e
      have := byteOf_toNat h3
      rw [e] at this
      have : 0 = pat.length / 2 := this
      omega

theorem rle_cut (size : Nat) : ∀ (l : List Td0Run) (f : Nat) (out : List Byte) (k : Nat), (∀ r ∈ l, r.Ok) →
    out.length + (l.flatMap Td0Run.contents).length = size → l.length < f → k < (l.flatMap Td0Run.bytes).length →
    rle size f out ((l.flatMap Td0Run.bytes).take k) = .error .io
  | l, 0, _, _, _, _, hf, _ => by omega
  | [], f + 1, out, k, _, _, _, hk => by simp at hk
  | r :: l, f + 1, out, k, hp, hs, hf, hk => by
    have h0 := hp r (by simp)
    have hpos := run_pos h0
    rw [List.flatMap_cons, List.length_append] at hs hk
    rw [rle, if_pos (by omega), List.flatMap_cons]
    by_cases hc : k < r.bytes.length
    · rw [List.take_append_of_le_length (by omega), rleEntry_cut size r h0 out (by omega) k hc]
    · rw [List.take_append, List.take_of_length_le (by omega), rleEntry_ok size r h0 out _ (by omega)]
      exact rle_cut size l f _ _ (fun q hq => hp q (by simp [hq])) (by rw [List.length_append]; omega)
        (by simp only [List.length_cons] at hf; omega) (by omega)

/-! ### The contents of a sector -/

theorem flatMap_length_ge {α : Type} (f : α → List Byte) : ∀ (l : List α), (∀ x ∈ l, 0 < (f x).length) →
    l.length ≤ (l.flatMap f).length
  | [], _ => by simp
  | x :: l, h => by
    rw [List.flatMap_cons, List.length_append, List.length_cons]
    have := h x (by simp)
    have := flatMap_length_ge f l fun y hy => h y (by simp [hy])
    omega

theorem pair_bytes_pos (p : Td0Pair) : 0 < p.bytes.length := by show 0 < 4; omega
theorem run_bytes_pos (r : Td0Run) : 0 < r.bytes.length := by
  cases r <;> simp [Td0Run.bytes]

theorem flatMap_swapped {l : List Td0Pair} (h : ∀ p ∈ l, p.a = p.b ∧ 0 < p.count) :
    l.flatMap swapped = l.flatMap Td0Pair.contents := by
  induction l with
  | nil => rfl
  | cons p l ih =>
    rw [List.flatMap_cons, List.flatMap_cons, swapped_same p (h p (by simp)).1, ih fun q hq => h q (by simp [hq])]

theorem size_lt {n : Nat} (h : n ≤ 6) : 128 * 2 ^ n < 65536 := by
  have : 2 ^ n ≤ 2 ^ 6 := Nat.pow_le_pow_right (by omega) h
  omega

theorem nSize_six {n : Nat} (h : n ≤ 6) : nSize n = 128 * 2 ^ n := by
  rw [C14_n_size_partial n (by omega)]
  have : 2 ^ n ≤ 2 ^ 6 := Nat.pow_le_pow_right (by omega) h
  omega

theorem decode_ok (x : Td0Sec) (h : x.Ok) (ht : x.body.there = true) (tail : List Byte) :
    decode x.body.coded.1 (128 * 2 ^ x.n) (x.body.coded.2 ++ tail) = .ok (x.body.contents, tail) := by
  have hsz := h.size ht
  have hlt := size_lt h.n
  cases hb : x.body with
  | absent sk nd ck => rw [hb] at ht; cases ht
  | raw d =>
    rw [hb] at hsz
    exact take_ok d tail _ hsz
  | pairs l =>
    rw [hb] at hsz
    have hp := h.pairs l hb
    have hsz : (l.flatMap Td0Pair.contents).length = _ := hsz
    show repeated _ ((l.flatMap Td0Pair.bytes ++ tail).length + 1) [] (l.flatMap Td0Pair.bytes ++ tail) = .ok (l.flatMap Td0Pair.contents, tail)
    rw [repeated_ok _ l _ [] tail (fun p hq => (hp p hq).2) (by rw [flatMap_swapped hp, hsz]; simp) hlt (by
      have := flatMap_length_ge Td0Pair.bytes l fun p _ => pair_bytes_pos p
      rw [List.length_append]; omega), flatMap_swapped hp, List.nil_append]
  | rle l =>
    rw [hb] at hsz
    have hsz : (l.flatMap Td0Run.contents).length = _ := hsz
    show rle _ ((l.flatMap Td0Run.bytes ++ tail).length + 1) [] (l.flatMap Td0Run.bytes ++ tail) = .ok (l.flatMap Td0Run.contents, tail)
    rw [rle_ok _ l _ [] tail (h.rle l hb) (by rw [hsz]; simp) (by
      have := flatMap_length_ge Td0Run.bytes l fun p _ => run_bytes_pos p
      rw [List.length_append]; omega), List.nil_append]

theorem pairEntry_shorter {size : Nat} {out bs o r : List Byte} (h : pairEntry size out bs = .ok (o, r)) : r.length < bs.length := by
  match bs, h with
  | [], h => simp [pairEntry] at h
  | [_], h => simp [pairEntry] at h
  | [_, _], h => simp [pairEntry] at h
  | [_, _, _], h => simp [pairEntry] at h
  | lo :: hi :: a :: b :: rest, h =>
    rw [pairEntry] at h
    split at h
    · cases h
    · simp only [Except.ok.injEq, Prod.mk.injEq] at h
      rw [← h.2]; simp only [List.length_cons]; omega

/-- Fuel that covers all entries does not depend on how much is left of them. -/
theorem repeated_short : ∀ (size f g : Nat) (out bs : List Byte), bs.length < f → bs.length < g →
    repeated size f out bs = repeated size g out bs
  | _, 0, _, _, _, h, _ => by omega
  | _, _ + 1, 0, _, _, _, h => by omega
  | size, f + 1, g + 1, out, bs, hf, hg => by
    rw [repeated, repeated]
    split
    · cases he : pairEntry size out bs with
      | error e => rfl
      | ok p =>
        have := pairEntry_shorter (show pairEntry size out bs = .ok (p.1, p.2) from he)
        exact repeated_short size f g p.1 p.2 (by omega) (by omega)
    · rfl

theorem take_shorter {n : Nat} {bs d r : List Byte} (h : Imd.take n bs = .ok (d, r)) : r.length ≤ bs.length := by
  unfold Imd.take at h
  split at h
  · cases h
  · simp only [Except.ok.injEq, Prod.mk.injEq] at h
    rw [← h.2, List.length_drop]; omega

theorem rleEntry_shorter {size : Nat} {out bs o r : List Byte} (h : rleEntry size out bs = .ok (o, r)) : r.length < bs.length := by
  match bs, h with
  | [], h => simp [rleEntry] at h
  | [_], h => simp [rleEntry] at h
  | code :: arg :: rest, h =>
    rw [rleEntry] at h
    simp only [List.length_cons]
    split at h
    · split at h
      · cases h
      · cases ht : Imd.take arg.toNat rest with
        | error e => rw [ht] at h; cases h
        | ok p =>
          rw [ht] at h
          have := take_shorter (show Imd.take arg.toNat rest = .ok (p.1, p.2) from ht)
          simp only [Except.ok.injEq, Prod.mk.injEq] at h
          rw [← h.2]; omega
    · cases ht : Imd.take (code.toNat * 2) rest with
      | error e => rw [ht] at h; cases h
      | ok p =>
        rw [ht] at h
        have := take_shorter (show Imd.take (code.toNat * 2) rest = .ok (p.1, p.2) from ht)
        simp only at h
        split at h
        · cases h
        · simp only [Except.ok.injEq, Prod.mk.injEq] at h
          rw [← h.2]; omega

theorem rle_short : ∀ (size f g : Nat) (out bs : List Byte), bs.length < f → bs.length < g →
    rle size f out bs = rle size g out bs
  | _, 0, _, _, _, h, _ => by omega
  | _, _ + 1, 0, _, _, _, h => by omega
  | size, f + 1, g + 1, out, bs, hf, hg => by
    rw [rle, rle]
    split
    · cases he : rleEntry size out bs with
      | error e => rfl
      | ok p =>
        have := rleEntry_shorter (show rleEntry size out bs = .ok (p.1, p.2) from he)
        exact rle_short size f g p.1 p.2 (by omega) (by omega)
    · rfl

theorem decode_cut (x : Td0Sec) (h : x.Ok) (ht : x.body.there = true) (k : Nat) (hk : k < x.body.coded.2.length) :
    decode x.body.coded.1 (128 * 2 ^ x.n) (x.body.coded.2.take k) = .error .io := by
  have hsz := h.size ht
  have hlt := size_lt h.n
  cases hb : x.body with
  | absent sk nd ck => rw [hb] at ht; cases ht
  | raw d =>
    rw [hb] at hsz hk
    have hk : k < d.length := hk
    have hsz : d.length = _ := hsz
    exact take_short (d.take k) _ (by rw [List.length_take]; omega)
  | pairs l =>
    rw [hb] at hsz hk
    have hp := h.pairs l hb
    have hsz : (l.flatMap Td0Pair.contents).length = _ := hsz
    have hk : k < (l.flatMap Td0Pair.bytes).length := hk
    show repeated _ (((l.flatMap Td0Pair.bytes).take k).length + 1) [] ((l.flatMap Td0Pair.bytes).take k) = _
    rw [repeated_short _ _ (l.length + (l.flatMap Td0Pair.bytes).length + 1) _ _ (by omega) (by rw [List.length_take]; omega)]
    exact repeated_cut _ l _ [] k (fun p hq => (hp p hq).2) (by rw [flatMap_swapped hp, hsz]; simp) hlt (by omega) hk
  | rle l =>
    rw [hb] at hsz hk
    have hsz : (l.flatMap Td0Run.contents).length = _ := hsz
    have hk : k < (l.flatMap Td0Run.bytes).length := hk
    show rle _ (((l.flatMap Td0Run.bytes).take k).length + 1) [] ((l.flatMap Td0Run.bytes).take k) = _
    rw [rle_short _ _ (l.length + (l.flatMap Td0Run.bytes).length + 1) _ _ (by omega) (by rw [List.length_take]; omega)]
    exact rle_cut _ l _ [] k (h.rle l hb) (by rw [hsz]; simp) (by omega) hk

/-! ### A sector -/

theorem flags_value : ∀ (a b c d e f : Bool),
    (((flag a 1#8 ||| flag b 2#8 ||| flag c 4#8 ||| flag d 0x40#8 ||| (flag e 0x10#8 ||| flag f 0x20#8)) &&& 0x30#8 != 0#8) = (e || f)) ∧
    (((flag a 1#8 ||| flag b 2#8 ||| flag c 4#8 ||| flag d 0x40#8 ||| (flag e 0x10#8 ||| flag f 0x20#8)) &&& 2#8 != 0#8) = b) ∧
    (((flag a 1#8 ||| flag b 2#8 ||| flag c 4#8 ||| flag d 0x40#8 ||| (flag e 0x10#8 ||| flag f 0x20#8)) &&& 4#8 != 0#8) = c) := by
  decide

theorem flags_there : ∀ (a b c d : Bool),
    (((flag a 1#8 ||| flag b 2#8 ||| flag c 4#8 ||| flag d 0x40#8 ||| 0#8) &&& 0x30#8 != 0#8) = false) ∧
    (((flag a 1#8 ||| flag b 2#8 ||| flag c 4#8 ||| flag d 0x40#8 ||| 0#8) &&& 2#8 != 0#8) = b) ∧
    (((flag a 1#8 ||| flag b 2#8 ||| flag c 4#8 ||| flag d 0x40#8 ||| 0#8) &&& 4#8 != 0#8) = c) := by
  decide

/-- The flag byte of a sector. -/
def flagsOf (x : Td0Sec) : Byte :=
  flag x.dup 1#8 ||| flag x.err 2#8 ||| flag x.del 4#8 ||| flag x.noId 0x40#8 ||| x.body.flags

/-- What follows the header of a sector. -/
def bodyOf (x : Td0Sec) : List Byte :=
  if x.body.there then word (BitVec.ofNat 16 (x.body.coded.2.length + 1)) ++ x.body.coded.1 :: x.body.coded.2 else []

theorem bytesWith_eq (x : Td0Sec) (ck : Byte) : x.bytesWith ck =
    byteOf x.c :: byteOf x.h :: byteOf x.s :: byteOf x.n :: flagsOf x :: ck :: bodyOf x := rfl

theorem flags_of (x : Td0Sec) (h : x.Ok) : (flagsOf x &&& 0x30#8 != 0#8) = !x.body.there ∧
    (x.body.there = true → (flagsOf x &&& 2#8 != 0#8) = x.err ∧ (flagsOf x &&& 4#8 != 0#8) = x.del) := by
  unfold flagsOf
  cases hb : x.body with
  | absent sk nd ck =>
    refine ⟨?_, (fun e => by cases e)⟩
    show (_ &&& 0x30#8 != 0#8) = true
    rw [← h.absent sk nd ck hb]
    exact (flags_value x.dup x.err x.del x.noId sk nd).1
  | raw d =>
    obtain ⟨a, b, c⟩ := flags_there x.dup x.err x.del x.noId
    exact ⟨a, fun _ => ⟨b, c⟩⟩
  | pairs d =>
    obtain ⟨a, b, c⟩ := flags_there x.dup x.err x.del x.noId
    exact ⟨a, fun _ => ⟨b, c⟩⟩
  | rle d =>
    obtain ⟨a, b, c⟩ := flags_there x.dup x.err x.del x.noId
    exact ⟨a, fun _ => ⟨b, c⟩⟩

theorem check_there (x : Td0Sec) (ht : x.body.there = true) : x.check = low (Td0.crc x.body.contents 0#16) := by
  rw [crc_eq]
  unfold Td0Sec.check low
  cases hb : x.body with
  | absent sk nd ck => rw [hb] at ht; cases ht
  | raw d => rfl
  | pairs d => rfl
  | rle d => rfl

/-- The sectors a sector record adds. -/
def adds (x : Td0Sec) : List MetaSector := if x.body.there then [x.sector] else []

theorem sector_ok (x : Td0Sec) (h : x.Ok) (t : MetaTrack) (tail : List Byte) :
    sector t (byteOf x.c) (byteOf x.h) (byteOf x.s) (byteOf x.n) (flagsOf x) x.check (bodyOf x ++ tail) =
      .ok ({ t with sectors := t.sectors ++ adds x }, tail) := by
  obtain ⟨f1, f2⟩ := flags_of x h
  unfold sector adds bodyOf
  rw [f1]
  cases ht : x.body.there with
  | false => simp
  | true =>
    rw [if_neg (by decide)]
    obtain ⟨f2, f3⟩ := f2 ht
    have hn := h.n
    simp only [word, if_true, List.cons_append, List.nil_append]
    rw [byteOf_toNat (show x.n < 256 by omega), nSize_six h.n, decode_ok x h ht tail]
    simp only
    rw [if_neg (by rw [check_there x ht]; simp)]
    unfold MetaTrack.addSector
    rw [if_neg (by simp)]
    simp only
    have hid : MetaTrack.newSector
        { id := ⟨(byteOf x.c).toNat, (byteOf x.h).toNat, (byteOf x.s).toNat, bytesToN x.body.contents.length⟩,
          data := x.body.contents, dataError := flagsOf x &&& 2#8 != 0#8, deletedMark := flagsOf x &&& 4#8 != 0#8 } =
        x.sector := by
      rw [byteOf_toNat h.c, byteOf_toNat h.h, byteOf_toNat h.s, h.size ht, C14_bytesToN_pow, f2, f3]
      rfl
    rw [hid]

/-- A sector whose checksum is not that of its contents. -/
theorem sector_bad (x : Td0Sec) (h : x.Ok) (ht : x.body.there = true) (ck : Byte) (hck : ck ≠ x.check) (t : MetaTrack) (tail : List Byte) :
    sector t (byteOf x.c) (byteOf x.h) (byteOf x.s) (byteOf x.n) (flagsOf x) ck (bodyOf x ++ tail) = .error .corrupt := by
  obtain ⟨f1, f2⟩ := flags_of x h
  have hn := h.n
  unfold sector bodyOf
  rw [f1, ht, if_neg (by decide)]
  simp only [word, if_true, List.cons_append, List.nil_append]
  rw [byteOf_toNat (show x.n < 256 by omega), nSize_six h.n, decode_ok x h ht tail]
  simp only
  rw [if_pos (by rw [← check_there x ht]; exact hck)]

theorem sector_cut (x : Td0Sec) (h : x.Ok) (t : MetaTrack) (k : Nat) (hk : k < (bodyOf x).length) (ck : Byte) :
    sector t (byteOf x.c) (byteOf x.h) (byteOf x.s) (byteOf x.n) (flagsOf x) ck ((bodyOf x).take k) = .error .io := by
  obtain ⟨f1, f2⟩ := flags_of x h
  have hn := h.n
  unfold sector
  rw [f1]
  unfold bodyOf at hk ⊢
  cases ht : x.body.there with
  | false => rw [ht] at hk; simp at hk
  | true =>
    rw [ht] at hk
    rw [if_neg (by decide)]
    simp only [word, if_true, List.cons_append, List.nil_append] at hk ⊢
    match k, hk with
    | 0, _ => rfl
    | 1, _ => rfl
    | 2, _ => rfl
    | k + 3, hk =>
      simp only [List.take_succ_cons]
      rw [byteOf_toNat (show x.n < 256 by omega), nSize_six h.n, decode_cut x h ht k (by simp only [List.length_cons] at hk; omega)]

/-! ### The sectors of a track -/

theorem sectors_all : ∀ (secs : List Td0Sec), (∀ x ∈ secs, x.Ok) → ∀ (t : MetaTrack) (tail : List Byte),
    sectors secs.length (secs.flatMap Td0Sec.bytes ++ tail) t =
      .ok ({ t with sectors := t.sectors ++ secs.flatMap adds }, tail)
  | [], _, t, tail => by simp [sectors]
  | x :: secs, h, t, tail => by
    rw [List.length_cons, List.flatMap_cons, List.append_assoc, Td0Sec.bytes, bytesWith_eq]
    simp only [List.cons_append]
    rw [sectors]
    rw [sector_ok x (h x (by simp)), ]
    simp only
    rw [sectors_all secs (fun y hy => h y (by simp [hy]))]
    simp

/-- Sectors after some good ones. -/
theorem sectors_after (secs : List Td0Sec) (h : ∀ x ∈ secs, x.Ok) (k : Nat) (t : MetaTrack) (tail : List Byte) :
    sectors (secs.length + k) (secs.flatMap Td0Sec.bytes ++ tail) t =
      sectors k tail { t with sectors := t.sectors ++ secs.flatMap adds } := by
  induction secs generalizing t with
  | nil => simp
  | cons x secs ih =>
    rw [List.length_cons, List.flatMap_cons, List.append_assoc, Td0Sec.bytes, bytesWith_eq]
    simp only [List.cons_append]
    rw [show secs.length + 1 + k = (secs.length + k) + 1 by omega, sectors]
    rw [sector_ok x (h x (by simp))]
    simp only
    rw [ih (fun y hy => h y (by simp [hy]))]
    simp

theorem sectors_cut : ∀ (secs : List Td0Sec), (∀ x ∈ secs, x.Ok) → ∀ (k : Nat) (t : MetaTrack),
    k < (secs.flatMap Td0Sec.bytes).length →
    sectors secs.length ((secs.flatMap Td0Sec.bytes).take k) t = .error .io
  | [], _, k, t, hk => by simp at hk
  | x :: secs, h, k, t, hk => by
    have hx := h x (by simp)
    rw [List.flatMap_cons] at hk ⊢
    rw [List.length_append] at hk
    have hl : x.bytes.length = 6 + (bodyOf x).length := by
      rw [Td0Sec.bytes, bytesWith_eq]; simp only [List.length_cons]; omega
    rw [List.length_cons]
    by_cases hlt : k < x.bytes.length
    · rw [List.take_append_of_le_length (by omega), Td0Sec.bytes, bytesWith_eq]
      match k, hlt with
      | 0, _ => rfl
      | 1, _ => rfl
      | 2, _ => rfl
      | 3, _ => rfl
      | 4, _ => rfl
      | 5, _ => rfl
      | k + 6, hlt =>
        simp only [List.take_succ_cons]
        rw [sectors]
        rw [sector_cut x hx t k (by omega)]
    · rw [List.take_append, List.take_of_length_le (by omega)]
      generalize hj : k - x.bytes.length = j
      rw [Td0Sec.bytes, bytesWith_eq]
      simp only [List.cons_append]
      rw [sectors]
      rw [sector_ok x hx]
      simp only
      exact sectors_cut secs (fun y hy => h y (by simp [hy])) _ _ (by omega)

end Td0
end Fox
