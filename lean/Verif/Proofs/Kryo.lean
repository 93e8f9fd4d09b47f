import Verif.Model.Kryo
import Verif.Spec.Kryo
import Verif.Proofs.ScpLoad
/-
Proofs about the KryoFlux stream loader.
-/
namespace Fox
open Spec Flux KryoFile
namespace Kryo

/-! ## Numbers and texts -/

theorem digit_byte {d : Nat} (h : d < 10) : (BitVec.ofNat 8 (48 + d)).toNat = 48 + d := by
  rw [BitVec.toNat_ofNat]; omega

theorem digits_text : ∀ (ds : List Nat) (r : List Byte), (∀ d ∈ ds, d < 10) → (∀ b ∈ r.head?, ¬ (48 ≤ b.toNat ∧ b.toNat ≤ 57)) →
    digits (ds.map (fun d => BitVec.ofNat 8 (48 + d)) ++ r) = (ds.map (fun d => BitVec.ofNat 8 (48 + d)), r)
  | [], [], _, _ => rfl
  | [], b :: r, _, hr => by
    show digits (b :: r) = _
    rw [digits, if_neg (hr b rfl)]; rfl
  | d :: ds, r, hd, hr => by
    have h0 := hd d List.mem_cons_self
    rw [List.map_cons, List.cons_append, digits, if_pos (by rw [digit_byte h0]; omega),
      digits_text ds r (fun x hx => hd x (List.mem_cons_of_mem _ hx)) hr]

theorem value_text (ds : List Nat) (hd : ∀ d ∈ ds, d < 10) : value (ds.map fun d => BitVec.ofNat 8 (48 + d)) = natOf ds := by
  unfold value natOf
  have : ∀ (ds : List Nat) (v : Nat), (∀ d ∈ ds, d < 10) →
      (ds.map fun d => (BitVec.ofNat 8 (48 + d) : Byte)).foldl (fun v b => 10 * v + (b.toNat - 48)) v = ds.foldl (fun v d => 10 * v + d) v := by
    intro ds
    induction ds with
    | nil => intro v _; rfl
    | cons d ds ih =>
      intro v hd
      rw [List.map_cons, List.foldl_cons, List.foldl_cons, digit_byte (hd d List.mem_cons_self), Nat.add_sub_cancel_left]
      exact ih _ (fun x hx => hd x (List.mem_cons_of_mem _ hx))
  exact this ds 0 hd

theorem number_text (x : Decimal) (hx : x.Good) (r : List Byte) (hr : ∀ b ∈ r.head?, ¬ (48 ≤ b.toNat ∧ b.toNat ≤ 57)) :
    number (x.text ++ r) = some (x.value, r) := by
  obtain ⟨h1, h2, h3, h4⟩ := hx
  unfold number Decimal.text
  have e : (x.whole.map (fun d => (BitVec.ofNat 8 (48 + d) : Byte)) ++ [46#8] ++ x.frac.map fun d => BitVec.ofNat 8 (48 + d)) ++ r =
      x.whole.map (fun d => BitVec.ofNat 8 (48 + d)) ++ (46#8 :: ((x.frac.map fun d => BitVec.ofNat 8 (48 + d)) ++ r)) := by simp
  rw [e, digits_text _ _ h3 (by intro b hb; cases hb; decide)]
  obtain ⟨w, ws, hw⟩ := List.exists_cons_of_ne_nil h1
  obtain ⟨y, ys, hy⟩ := List.exists_cons_of_ne_nil h2
  have hv := value_text _ h3
  have hv' := value_text _ h4
  have e1 : x.whole.map (fun d => (BitVec.ofNat 8 (48 + d) : Byte)) = BitVec.ofNat 8 (48 + w) :: ws.map (fun d => BitVec.ofNat 8 (48 + d)) := by
    rw [hw, List.map_cons]
  have e2 : x.frac.map (fun d => (BitVec.ofNat 8 (48 + d) : Byte)) = BitVec.ofNat 8 (48 + y) :: ys.map (fun d => BitVec.ofNat 8 (48 + d)) := by
    rw [hy, List.map_cons]
  have e3 := digits_text _ r h4 hr
  have hl : (x.frac.map (fun d => (BitVec.ofNat 8 (48 + d) : Byte))).length = x.frac.length := List.length_map _
  unfold Decimal.value
  rw [e2] at e3
  rw [← hv, ← hv', ← hl, e1, e2]
  simp only
  rw [e3]

theorem strip_append : ∀ (p l : List Byte), strip p (p ++ l) = some l
  | [], _ => rfl
  | a :: p, l => by rw [List.cons_append, strip, if_pos rfl, strip_append p l]

theorem strip_some : ∀ (p l r : List Byte), strip p l = some r → l = p ++ r
  | [], l, r, h => by cases h; rfl
  | a :: p, [], r, h => by cases h
  | a :: p, b :: l, r, h => by
    rw [strip] at h
    split at h
    · rename_i e; rw [strip_some p l r h, e]; rfl
    · cases h

theorem here_none {l : List Byte} (h : ¬ sckText <+: l) : clocksHere l = none := by
  unfold clocksHere
  cases hs : strip sckText l with
  | none => rfl
  | some r => exact absurd ⟨r, (strip_some _ _ _ hs).symm⟩ h

theorem here_text (s i : Decimal) (hs : s.Good) (hi : i.Good) (z : List Byte) (hz : ∀ b ∈ z.head?, ¬ (48 ≤ b.toNat ∧ b.toNat ≤ 57)) :
    clocksHere (sckIs ++ (s.text ++ (ickIs ++ (i.text ++ z)))) = some (s.value, i.value) := by
  unfold clocksHere
  rw [show sckText = sckIs from rfl, strip_append]
  simp only
  rw [number_text s hs _ (by intro b hb; cases hb; decide)]
  simp only
  rw [show ickText = ickIs from rfl, strip_append]
  simp only
  rw [number_text i hi z hz]

theorem clocks_skip : ∀ (a l : List Byte), (∀ k < a.length, ¬ sckText <+: (a ++ l).drop k) → clocks (a ++ l) = clocks l
  | [], _, _ => rfl
  | b :: a, l, h => by
    rw [List.cons_append, clocks, here_none (by simpa using h 0 (by simp)), clocks_skip a l]
    intro k hk
    have := h (k + 1) (by simpa using hk)
    simpa using this

/-- `sck=` does not begin before the clocks. -/
theorem no_match {a l : List Byte} (h : ¬ sckIs <:+: a ++ [115#8, 99#8, 107#8]) :
    ∀ k < a.length, ¬ sckText <+: (a ++ (sckIs ++ l)).drop k := by
  intro k hk hp
  apply h
  obtain ⟨r, hr⟩ := hp
  have hr' : sckIs ++ r = a.drop k ++ ([115#8, 99#8, 107#8] ++ (61#8 :: l)) := by
    rw [show sckIs ++ r = sckText ++ r from rfl, hr, List.drop_append_of_le_length (by omega)]
    rfl
  have hp : sckIs <+: a.drop k ++ [115#8, 99#8, 107#8] := by
    have h1 : sckIs <+: (a.drop k ++ [115#8, 99#8, 107#8]) ++ (61#8 :: l) := ⟨r, by rw [hr']; simp⟩
    refine List.prefix_of_prefix_length_le h1 (List.prefix_append _ _) ?_
    simp [sckIs]; omega
  refine List.IsInfix.trans hp.isInfix ?_
  refine ⟨a.take k, [], ?_⟩
  rw [List.append_nil, ← List.append_assoc, List.take_append_drop]

theorem clocks_text (a : List Byte) (s i : Decimal) (z : List Byte) (h : (Item.clocks a s i z).Good) :
    clocks (clockText a s i z) = some (s.value, i.value) := by
  obtain ⟨_, _, h3, h4, h5, h6⟩ := h
  unfold clockText
  rw [clocks_skip a _ (no_match h5)]
  have := here_text s i h3 h4 z h6
  rw [show sckIs ++ (s.text ++ (ickIs ++ (i.text ++ z))) = 115#8 :: ([99#8, 107#8, 61#8] ++ (s.text ++ (ickIs ++ (i.text ++ z)))) from rfl] at this ⊢
  rw [clocks, this]

theorem clocks_none : ∀ (l : List Byte), ¬ sckIs <:+: l → clocks l = none
  | [], _ => rfl
  | b :: l, h => by
    rw [clocks, here_none (fun hp => h hp.isInfix)]
    exact clocks_none l (fun hi => h (hi.trans (List.suffix_cons b l).isInfix))

theorem ascii_text : ∀ (l r : List Byte), Printable l → readAscii (l ++ 0#8 :: r) = (l, r)
  | [], r, _ => by rw [List.nil_append, readAscii, if_pos rfl]
  | b :: l, r, h => by
    have hb := h b List.mem_cons_self
    rw [List.cons_append, readAscii, if_neg (by rintro rfl; exact absurd hb.1 (by decide)), ascii_text l r (fun x hx => h x (List.mem_cons_of_mem _ hx))]
    simp only [if_pos hb]

theorem printable_digits (ds : List Nat) (h : ∀ d ∈ ds, d < 10) : Printable (ds.map fun d => BitVec.ofNat 8 (48 + d)) := by
  intro b hb
  obtain ⟨d, hd, rfl⟩ := List.mem_map.1 hb
  rw [digit_byte (h d hd)]
  have := h d hd
  omega

theorem printable_append {a b : List Byte} (ha : Printable a) (hb : Printable b) : Printable (a ++ b) := by
  intro x hx
  rcases List.mem_append.1 hx with h | h
  · exact ha x h
  · exact hb x h

theorem printable_decimal (x : Decimal) (h : x.Good) : Printable x.text := by
  unfold Decimal.text
  refine printable_append (printable_append (printable_digits _ h.2.2.1) ?_) (printable_digits _ h.2.2.2)
  intro b hb
  obtain rfl := List.mem_singleton.1 hb
  decide

theorem printable_clocks (a : List Byte) (s i : Decimal) (z : List Byte) (h : (Item.clocks a s i z).Good) :
    Printable (clockText a s i z) := by
  obtain ⟨h1, h2, h3, h4, _, _⟩ := h
  unfold clockText
  refine printable_append h1 (printable_append ?_ (printable_append (printable_decimal _ h3) (printable_append ?_
    (printable_append (printable_decimal _ h4) h2))))
  · intro b hb; revert b; decide
  · intro b hb; revert b; decide

/-! ## Reading items -/

/-- The block that is read of an item. -/
def blockOf : Item → Block
  | .flux1 n => .flux 1 n
  | .flux2 n => .flux 2 n
  | .flux3 n => .flux 3 n
  | .nop1 => .nop 1
  | .nop2 _ => .nop 2
  | .nop3 _ _ => .nop 3
  | .overflow => .ovl
  | .index p s c => .index p s c
  | .note _ => .info none
  | .clocks _ s i _ => .info (some (s.value, i.value))
  | .streamInfo _ _ => .other
  | .streamEnd _ st => .streamEnd st

theorem le4_value {n : Nat} (h : n < 2 ^ 32) : n % 256 + 256 * (n / 256 % 256) + 65536 * (n / 65536 % 256 + 256 * (n / 65536 / 256 % 256)) = n := by
  omega

theorem next_item (i : Item) (h : i.Good) (r : List Byte) : next (i.bytes ++ r) = .ok (blockOf i, r) := by
  cases i with
  | flux1 n =>
    obtain ⟨h1, h2⟩ := h
    have hb : (BitVec.ofNat 8 n).toNat = n := by rw [BitVec.toNat_ofNat]; omega
    show next (BitVec.ofNat 8 n :: r) = _
    rw [next.eq_def]
    simp only [hb]
    rw [if_neg (by omega), if_neg (by omega), if_neg (by omega), if_neg (by omega), if_neg (by omega), if_neg (by omega), if_neg (by omega)]
    rfl
  | flux2 n =>
    replace h : n < 2048 := h
    have hb : (BitVec.ofNat 8 (n / 256)).toNat = n / 256 := by rw [BitVec.toNat_ofNat]; omega
    have hb2 : (BitVec.ofNat 8 n).toNat = n % 256 := by rw [BitVec.toNat_ofNat]
    show next (BitVec.ofNat 8 (n / 256) :: BitVec.ofNat 8 n :: r) = _
    rw [next, hb, if_pos (by omega)]
    rw [hb2, show n / 256 * 256 + n % 256 = n by omega]
    rfl
  | flux3 n =>
    replace h : n < 65536 := h
    have hb : (BitVec.ofNat 8 (n / 256)).toNat = n / 256 := by rw [BitVec.toNat_ofNat]; omega
    have hb2 : (BitVec.ofNat 8 n).toNat = n % 256 := by rw [BitVec.toNat_ofNat]
    show next (12#8 :: BitVec.ofNat 8 (n / 256) :: BitVec.ofNat 8 n :: r) = _
    show Except.ok (Block.flux 3 ((BitVec.ofNat 8 (n / 256)).toNat * 256 + (BitVec.ofNat 8 n).toNat), r) = _
    rw [hb, hb2, show n / 256 * 256 + n % 256 = n by omega]
    rfl
  | nop1 => rfl
  | nop2 x => rfl
  | nop3 x y => rfl
  | overflow => rfl
  | index p s c =>
    obtain ⟨h1, h2, h3⟩ := h
    have e : le32At ([2#8, 12#8, 0#8] ++ (le4 p ++ (le4 s ++ (le4 c ++ r)))) 3 = p ∧
        le32At ([2#8, 12#8, 0#8] ++ (le4 p ++ (le4 s ++ (le4 c ++ r)))) 7 = s ∧
        le32At ([2#8, 12#8, 0#8] ++ (le4 p ++ (le4 s ++ (le4 c ++ r)))) 11 = c := by
      refine ⟨?_, ?_, ?_⟩
      all_goals
        unfold le32At le16At u8At le4 le2
        simp [BitVec.toNat_ofNat]
        omega
    show next (13#8 :: ([2#8, 12#8, 0#8] ++ le4 p ++ le4 s ++ le4 c ++ r)) = _
    rw [show ([2#8, 12#8, 0#8] ++ le4 p ++ le4 s ++ le4 c ++ r) = [2#8, 12#8, 0#8] ++ (le4 p ++ (le4 s ++ (le4 c ++ r))) by simp [List.append_assoc]]
    show oob ([2#8, 12#8, 0#8] ++ (le4 p ++ (le4 s ++ (le4 c ++ r)))) = _
    have hh : (([2#8, 12#8, 0#8] ++ (le4 p ++ (le4 s ++ (le4 c ++ r)))).headD 0#8).toNat = 2 := rfl
    unfold oob
    rw [hh]
    simp only
    rw [if_pos (by simp [le4, le2]), e.1, e.2.1, e.2.2]
    rfl
  | note t =>
    obtain ⟨h1, h2⟩ := h
    show next (13#8 :: (4#8 :: (le2 (t.length + 1) ++ t ++ [0#8] ++ r))) = _
    show oob (4#8 :: (le2 (t.length + 1) ++ t ++ [0#8] ++ r)) = _
    have e : (4#8 :: (le2 (t.length + 1) ++ t ++ [0#8] ++ r)).drop 3 = t ++ 0#8 :: r := by
      simp [le2]
    have hh : ((4#8 :: (le2 (t.length + 1) ++ t ++ [0#8] ++ r)).headD 0#8).toNat = 4 := rfl
    unfold oob
    rw [hh]
    simp only
    rw [if_pos (by simp [le2]), e, ascii_text t r h1, clocks_none t h2]
    rfl
  | clocks a s i z =>
    have h1 := printable_clocks a s i z h
    have h2 := clocks_text a s i z h
    show next (13#8 :: (4#8 :: (le2 ((clockText a s i z).length + 1) ++ clockText a s i z ++ [0#8] ++ r))) = _
    generalize clockText a s i z = t at h1 h2
    show oob (4#8 :: (le2 (t.length + 1) ++ t ++ [0#8] ++ r)) = _
    have e : (4#8 :: (le2 (t.length + 1) ++ t ++ [0#8] ++ r)).drop 3 = t ++ 0#8 :: r := by
      simp [le2]
    have hh : ((4#8 :: (le2 (t.length + 1) ++ t ++ [0#8] ++ r)).headD 0#8).toNat = 4 := rfl
    unfold oob
    rw [hh]
    simp only
    rw [if_pos (by simp [le2]), e, ascii_text t r h1, h2]
    rfl
  | streamInfo p t =>
    show next (13#8 :: ([1#8, 8#8, 0#8] ++ le4 p ++ le4 t ++ r)) = _
    show oob ([1#8, 8#8, 0#8] ++ le4 p ++ le4 t ++ r) = _
    have hh : (([1#8, 8#8, 0#8] ++ le4 p ++ le4 t ++ r).headD 0#8).toNat = 1 := rfl
    unfold oob
    rw [hh]
    simp only
    rw [if_pos (by simp [le4, le2])]
    rfl
  | streamEnd p t =>
    obtain ⟨h1, h2, h3, h4⟩ := h
    have e : le32At ([3#8, 8#8, 0#8] ++ le4 p ++ le4 t ++ r) 7 = t := by
      unfold le32At le16At u8At le4 le2
      simp [BitVec.toNat_ofNat]
      omega
    show next (13#8 :: ([3#8, 8#8, 0#8] ++ le4 p ++ le4 t ++ r)) = _
    show oob ([3#8, 8#8, 0#8] ++ le4 p ++ le4 t ++ r) = _
    have hh : (([3#8, 8#8, 0#8] ++ le4 p ++ le4 t ++ r).headD 0#8).toNat = 3 := rfl
    unfold oob
    rw [hh]
    simp only
    rw [if_pos (by simp [le4, le2]), e]
    rfl

theorem blockOf_ne (i : Item) : blockOf i ≠ .eof := by cases i <;> (intro h; cases h)

theorem bytes_pos (i : Item) : 1 ≤ i.bytes.length := by cases i <;> simp [Item.bytes]

theorem blocksFrom_items : ∀ (is : List Item) (rest : List Byte) (n : Nat), (∀ i ∈ is, i.Good) →
    (file is rest).length < n → blocksFrom n (file is rest) = .ok (is.map blockOf ++ [.eof])
  | [], rest, n, _, hn => by
    obtain ⟨m, rfl⟩ : ∃ m, n = m + 1 := ⟨n - 1, by simp [file] at hn; omega⟩
    rfl
  | i :: is, rest, n, h, hn => by
    obtain ⟨m, rfl⟩ : ∃ m, n = m + 1 := ⟨n - 1, by omega⟩
    have e : file (i :: is) rest = i.bytes ++ file is rest := by unfold file; simp
    have hl : (file (i :: is) rest).length = i.bytes.length + (file is rest).length := by rw [e, List.length_append]
    have hp := bytes_pos i
    have ih := blocksFrom_items is rest m (fun x hx => h x (List.mem_cons_of_mem _ hx)) (by omega)
    rw [e, blocksFrom, next_item i (h i List.mem_cons_self)]
    cases hb : blockOf i <;> first | exact absurd hb (blockOf_ne i) | (simp only [ih]; rw [List.map_cons, hb]; rfl)

theorem blocks_file (is : List Item) (rest : List Byte) (h : ∀ i ∈ is, i.Good) :
    blocks (file is rest) = .ok (is.map blockOf ++ [.eof]) :=
  blocksFrom_items is rest _ h (by omega)

/-! ## The passes -/

/-- The times between pulses. -/
def gaps : Option Nat → List (Nat × Nat) → List Rat
  | _, [] => []
  | none, x :: l => gaps (some x.2) l
  | some y, x :: l => (((x.2 + 2 ^ 32 - y) % 2 ^ 32 : Nat) : Rat) / usualIck :: gaps (some x.2) l

theorem indexes_items : ∀ (is : List Item) (last : Option Nat),
    indexes last (is.map blockOf ++ [.eof]) = ((pulses is).map Prod.fst, gaps last (pulses is))
  | [], last => by cases last <;> rfl
  | i :: is, last => by
    cases i with
    | index p s c =>
      show indexes last (.index p s c :: (is.map blockOf ++ [.eof])) = _
      have := indexes_items is (some c)
      rw [indexes.eq_def]
      simp only [this]
      cases last <;> rfl
    | _ => exact indexes_items is last

/-- Cutting a list of flux at positions. -/
def split : List Nat → List Rat → List (Nat × Rat) → List (List Rat)
  | [], cur, F => [cur ++ F.map Prod.snd]
  | o :: O, cur, F => (cur ++ (F.takeWhile (·.1 < o)).map Prod.snd) :: split O [] (F.dropWhile (·.1 < o))

theorem starts_ge : ∀ (is : List Item) (p : Nat), ∀ x ∈ starts p is, p ≤ x
  | [], p, x, h => by rw [List.mem_singleton.1 h]
  | i :: is, p, x, h => by
    rcases List.mem_cons.1 h with rfl | h
    · exact Nat.le_refl _
    · have := starts_ge is _ x h; omega

theorem fluxes_ge : ∀ (is : List Item) (p ovl : Nat) (clk : Rat), ∀ x ∈ fluxes p ovl clk is, p ≤ x.1
  | [], p, ovl, clk, x, h => by cases h
  | i :: is, p, ovl, clk, x, h => by
    cases i with
    | flux1 n =>
      rcases List.mem_cons.1 h with rfl | h
      · exact Nat.le_refl _
      · have := fluxes_ge is _ _ _ x h; omega
    | flux2 n =>
      rcases List.mem_cons.1 h with rfl | h
      · exact Nat.le_refl _
      · have := fluxes_ge is _ _ _ x h; omega
    | flux3 n =>
      rcases List.mem_cons.1 h with rfl | h
      · exact Nat.le_refl _
      · have := fluxes_ge is _ _ _ x h; omega
    | _ => have := fluxes_ge is _ _ _ x h; omega

theorem fluxes_sorted : ∀ (is : List Item) (p ovl : Nat) (clk : Rat), (fluxes p ovl clk is).Pairwise fun x y => x.1 < y.1
  | [], p, ovl, clk => List.Pairwise.nil
  | i :: is, p, ovl, clk => by
    cases i with
    | flux1 n =>
      refine List.pairwise_cons.2 ⟨fun x h => ?_, fluxes_sorted is _ _ _⟩
      have := fluxes_ge is _ _ _ x h; omega
    | flux2 n =>
      refine List.pairwise_cons.2 ⟨fun x h => ?_, fluxes_sorted is _ _ _⟩
      have := fluxes_ge is _ _ _ x h; omega
    | flux3 n =>
      refine List.pairwise_cons.2 ⟨fun x h => ?_, fluxes_sorted is _ _ _⟩
      have := fluxes_ge is _ _ _ x h; omega
    | _ => exact fluxes_sorted is _ _ _

/-- The head of a split takes up flux before the first cut. -/
theorem split_flux (O : List Nat) (cur : List Rat) (x : Nat × Rat) (F : List (Nat × Rat)) (h : ∀ o ∈ O, x.1 < o) :
    split O cur (x :: F) = split O (cur ++ [x.2]) F := by
  cases O with
  | nil => simp [split]
  | cons o O =>
    rw [split, split, List.takeWhile_cons_of_pos (by simpa using h o List.mem_cons_self),
      List.dropWhile_cons_of_pos (by simpa using h o List.mem_cons_self)]
    simp

theorem split_cut (p : Nat) (O : List Nat) (cur : List Rat) (F : List (Nat × Rat)) (h : ∀ x ∈ F, p ≤ x.1) :
    split (p :: O) cur F = cur :: split O [] F := by
  rw [split]
  have h1 : F.takeWhile (·.1 < p) = [] := by
    cases F with
    | nil => rfl
    | cons x F => exact List.takeWhile_cons_of_neg (by have := h x List.mem_cons_self; simp; omega)
  have h2 : F.dropWhile (·.1 < p) = F := by
    cases F with
    | nil => rfl
    | cons x F => exact List.dropWhile_cons_of_neg (by have := h x List.mem_cons_self; simp; omega)
  rw [h1, h2, List.map_nil, List.append_nil]

/-- Starting a revolution where one begins. -/
theorem start_spec (offs : List Nat) (s : State) (F : List (Nat × Rat)) (O : List Nat) (hO : offs.drop s.cut = O)
    (hge : ∀ o ∈ O, s.pos ≤ o) (hinc : O.Pairwise (· < ·)) (hF : ∀ x ∈ F, s.pos ≤ x.1) :
    ∃ O', offs.drop (s.start offs).cut = O' ∧ (∀ o ∈ O', s.pos < o ∧ o ∈ O) ∧ O'.Pairwise (· < ·) ∧
      (s.start offs).closed ++ split O' (s.start offs).cur F = s.closed ++ split O s.cur F ∧
      (s.start offs).pos = s.pos ∧ (s.start offs).ovl = s.ovl ∧ (s.start offs).sck = s.sck := by
  have hget : offs[s.cut]? = O.head? := by rw [← hO, List.head?_drop]
  unfold State.start
  rw [hget]
  cases O with
  | nil => exact ⟨[], hO, (fun o h => absurd h List.not_mem_nil), List.Pairwise.nil, rfl, rfl, rfl, rfl⟩
  | cons o O =>
    simp only [List.head?_cons]
    obtain ⟨g1, g2⟩ := List.pairwise_cons.1 hinc
    have ho := hge o List.mem_cons_self
    by_cases hle : o ≤ s.pos
    · rw [if_pos hle]
      have he : o = s.pos := by omega
      refine ⟨O, ?_, fun x hx => ⟨by have := g1 x hx; omega, List.mem_cons_of_mem _ hx⟩, g2, ?_, rfl, rfl, rfl⟩
      · show offs.drop (s.cut + 1) = O
        rw [← List.drop_drop, hO]; rfl
      · show (s.closed ++ [s.cur]) ++ split O [] F = _
        rw [he, split_cut s.pos O s.cur F hF, List.append_assoc]; rfl
    · rw [if_neg hle]
      refine ⟨o :: O, hO, fun x hx => ⟨?_, hx⟩, hinc, rfl, rfl, rfl, rfl⟩
      rcases List.mem_cons.1 hx with rfl | hx
      · omega
      · have := g1 x hx; omega

theorem run_items (debug : Bool) (offs : List Nat) : ∀ (is : List Item) (s : State) (O : List Nat), (∀ i ∈ is, i.Good) → Plain is →
    offs.drop s.cut = O → O.Pairwise (· < ·) → (∀ o ∈ O, o ∈ starts s.pos is) → s.ovl = 0 →
    ∃ s', run debug offs s (is.map blockOf ++ [.eof]) = .ok s' ∧
      s'.closed ++ [s'.cur] = s.closed ++ split O s.cur (fluxes s.pos 0 s.sck is) ∧ offs.drop s'.cut = []
  | [], s, O, _, _, hO, hinc, hst, hov => by
    obtain ⟨O', k1, k2, k3, k4, k5, k6, k7⟩ := start_spec offs s [] O hO (fun o ho => starts_ge [] _ _ (hst o ho)) hinc (fun x h => by cases h)
    have hO' : O' = [] := by
      rcases List.eq_nil_or_concat O' with h | ⟨l, b, rfl⟩
      · exact h
      · have := k2 b (by simp)
        have h2 := List.mem_singleton.1 (hst b this.2)
        omega
    subst hO'
    refine ⟨s.start offs, rfl, ?_, k1⟩
    show _ = s.closed ++ split O s.cur []
    rw [← k4]
    simp [split]
  | i :: is, s, O, hg, hp, hO, hinc, hst, hov => by
    have hgi := hg i List.mem_cons_self
    have hpi := hp i List.mem_cons_self
    have hg' : ∀ x ∈ is, x.Good := fun x hx => hg x (List.mem_cons_of_mem _ hx)
    have hp' : Plain is := fun x hx => hp x (List.mem_cons_of_mem _ hx)
    obtain ⟨O', k1, k2, k3, k4, k5, k6, k7⟩ := start_spec offs s (fluxes s.pos 0 s.sck (i :: is)) O hO
      (fun o ho => starts_ge _ _ _ (hst o ho)) hinc (fluxes_ge _ _ _ _)
    have hst' : ∀ o ∈ O', o ∈ starts (s.pos + i.size) is := by
      intro o ho
      have := hst o (k2 o ho).2
      rcases List.mem_cons.1 this with h | h
      · have := (k2 o ho).1; omega
      · exact h
    have hgt : ∀ o ∈ O', s.pos < o := fun o ho => (k2 o ho).1
    rw [← k4]
    rw [List.map_cons, List.cons_append, run]
    generalize hs1 : s.start offs = s1 at *
    have hov1 : s1.ovl = 0 := by rw [k6, hov]
    have key : ∀ (s2 : State), s1.step debug (blockOf i) = .ok s2 → s2.cut = s1.cut → s2.pos = s.pos + i.size → s2.ovl = 0 →
        s2.closed ++ split O' s2.cur (fluxes s2.pos 0 s2.sck is) = s1.closed ++ split O' s1.cur (fluxes s.pos 0 s.sck (i :: is)) →
        ∃ s', (match s1.step debug (blockOf i) with | .error e => (Except.error e : Except Err State) | .ok s => run debug offs s (is.map blockOf ++ [Block.eof])) = .ok s' ∧
          s'.closed ++ [s'.cur] = s1.closed ++ split O' s1.cur (fluxes s.pos 0 s.sck (i :: is)) ∧ offs.drop s'.cut = [] := by
      intro s2 e1 e2 e3 e4 e5
      obtain ⟨s', r1, r2, r3⟩ := run_items debug offs is s2 O' hg' hp' (by rw [e2]; exact k1) k3 (by rw [e3]; exact hst') e4
      exact ⟨s', by rw [e1]; exact r1, by rw [r2, e5], r3⟩
    cases i with
    | flux1 n =>
      obtain ⟨b1, b2⟩ := hgi
      refine key { s1 with cur := s1.cur ++ [(n : Rat) / s1.sck], ovl := 0, pos := s1.pos + 1 } ?_ rfl (by rw [← k5]; rfl) rfl ?_
      · show s1.step debug (.flux 1 n) = _
        rw [State.step, hov1, if_neg (by simp; omega), Nat.zero_add, Nat.mod_eq_of_lt (by omega)]
        rfl
      · show s1.closed ++ split O' (s1.cur ++ [(n : Rat) / s1.sck]) (fluxes (s1.pos + 1) 0 s1.sck is) = _
        rw [k5, k7, fluxes, Nat.zero_add, split_flux O' s1.cur (s.pos, (n : Rat) / s.sck) _ hgt]
    | flux2 n =>
      replace hgi : n < 2048 := hgi
      refine key { s1 with cur := s1.cur ++ [(n : Rat) / s1.sck], ovl := 0, pos := s1.pos + 2 } ?_ rfl (by rw [← k5]; rfl) rfl ?_
      · show s1.step debug (.flux 2 n) = _
        rw [State.step, hov1, if_neg (by simp; omega), Nat.zero_add, Nat.mod_eq_of_lt (by omega)]
        rfl
      · show s1.closed ++ split O' (s1.cur ++ [(n : Rat) / s1.sck]) (fluxes (s1.pos + 2) 0 s1.sck is) = _
        rw [k5, k7, fluxes, Nat.zero_add, split_flux O' s1.cur (s.pos, (n : Rat) / s.sck) _ hgt]
    | flux3 n => exact absurd hpi (fun h => h)
    | overflow => exact absurd hpi (fun h => h)
    | clocks a c d z =>
      exact key { s1 with sck := c.value } rfl rfl (by rw [← k5]; rfl) hov1 (by show s1.closed ++ split O' s1.cur (fluxes s1.pos 0 c.value is) = _; rw [k5]; rfl)
    | streamEnd p st =>
      obtain ⟨_, _, c1, c2⟩ := hgi
      refine key s1 ?_ rfl (by rw [k5]; rfl) hov1 (by rw [k5, k7]; rfl)
      show (if st = 1 ∨ st = 2 then _ else _) = _
      rw [if_neg (by omega)]
    | nop1 => exact key { s1 with pos := s1.pos + 1 } rfl rfl (by rw [← k5]; rfl) hov1 (by show s1.closed ++ split O' s1.cur (fluxes (s1.pos + 1) 0 s1.sck is) = _; rw [k5, k7]; rfl)
    | nop2 x => exact key { s1 with pos := s1.pos + 2 } rfl rfl (by rw [← k5]; rfl) hov1 (by show s1.closed ++ split O' s1.cur (fluxes (s1.pos + 2) 0 s1.sck is) = _; rw [k5, k7]; rfl)
    | nop3 x y => exact key { s1 with pos := s1.pos + 3 } rfl rfl (by rw [← k5]; rfl) hov1 (by show s1.closed ++ split O' s1.cur (fluxes (s1.pos + 3) 0 s1.sck is) = _; rw [k5, k7]; rfl)
    | index p q c => exact key s1 rfl rfl (by rw [k5]; rfl) hov1 (by rw [k5, k7]; rfl)
    | note t => exact key s1 rfl rfl (by rw [k5]; rfl) hov1 (by rw [k5, k7]; rfl)
    | streamInfo p t => exact key s1 rfl rfl (by rw [k5]; rfl) hov1 (by rw [k5, k7]; rfl)

/-! ## Cutting is filtering -/

theorem takeWhile_filter (o : Nat) : ∀ (F : List (Nat × Rat)), F.Pairwise (fun x y => x.1 < y.1) →
    F.takeWhile (·.1 < o) = F.filter (·.1 < o) ∧ F.dropWhile (·.1 < o) = F.filter (o ≤ ·.1)
  | [], _ => ⟨rfl, rfl⟩
  | x :: F, h => by
    obtain ⟨h1, h2⟩ := List.pairwise_cons.1 h
    obtain ⟨a, b⟩ := takeWhile_filter o F h2
    by_cases hx : x.1 < o
    · rw [List.takeWhile_cons_of_pos (by simpa using hx), List.dropWhile_cons_of_pos (by simpa using hx),
        List.filter_cons_of_pos (by simpa using hx), List.filter_cons_of_neg (by simpa using hx), a, b]
      exact ⟨rfl, rfl⟩
    · rw [List.takeWhile_cons_of_neg (by simpa using hx), List.dropWhile_cons_of_neg (by simpa using hx),
        List.filter_cons_of_neg (by simpa using hx), List.filter_cons_of_pos (by simp; omega)]
      constructor
      · symm; rw [List.filter_eq_nil_iff]; intro y hy; have := h1 y hy; simp; omega
      · congr 1; symm; rw [List.filter_eq_self]; intro y hy; have := h1 y hy; simp; omega

theorem filter_sorted {F : List (Nat × Rat)} (h : F.Pairwise fun x y => x.1 < y.1) (p : Nat × Rat → Bool) :
    (F.filter p).Pairwise fun x y => x.1 < y.1 := h.sublist List.filter_sublist

theorem zip_turns (F : List (Nat × Rat)) (hF : F.Pairwise fun x y => x.1 < y.1) : ∀ (l : List (Nat × Nat)) (x : Nat × Nat),
    ((x :: l).map Prod.fst).Pairwise (· < ·) →
    (split (l.map Prod.fst) [] (F.filter (x.1 ≤ ·.1))).zip (gaps (some x.2) l) = turns F usualIck (x :: l)
  | [], x, _ => by simp [gaps, turns]
  | y :: l, x, h => by
    rw [List.map_cons] at h
    obtain ⟨h1, h2⟩ := List.pairwise_cons.1 h
    have hxy := h1 y.1 (by simp)
    obtain ⟨a, b⟩ := takeWhile_filter y.1 _ (filter_sorted hF (fun z => x.1 ≤ z.1))
    rw [List.map_cons, split, gaps, turns, a, b, List.zip_cons_cons, List.filter_filter, List.filter_filter, List.nil_append]
    have e : F.filter (fun z => decide (y.1 ≤ z.1) && decide (x.1 ≤ z.1)) = F.filter (y.1 ≤ ·.1) := by
      apply List.filter_congr; intro z _; rw [← Bool.decide_and, decide_eq_decide]; omega
    rw [e, zip_turns F hF l y h2]
    congr 3
    apply List.filter_congr; intro z _; rw [Bool.and_comm, Bool.decide_and]

theorem gaps_length : ∀ (l : List (Nat × Nat)) (c : Nat), (gaps (some c) l).length = l.length
  | [], _ => rfl
  | x :: l, c => by rw [gaps, List.length_cons, gaps_length l, List.length_cons]

theorem zip_take {α β : Type} : ∀ (l : List α) (m : List β) (n : Nat), m.length ≤ n → (l.take n).zip m = l.zip m
  | [], m, n, _ => by simp
  | a :: l, [], n, _ => by simp
  | a :: l, b :: m, 0, h => by simp at h
  | a :: l, b :: m, n + 1, h => by
    rw [List.take_succ_cons, List.zip_cons_cons, List.zip_cons_cons, zip_take l m n (by simpa using h)]

/-- What is read of a stream without overflows and long flux. -/
theorem revolutions_file (debug : Bool) (is : List Item) (rest : List Byte) (h : KryoFile.Good is) (hp : Plain is) :
    revolutions debug (file is rest) = .ok (turns (fluxes 0 0 usualSck is) usualIck (pulses is)) := by
  obtain ⟨s', r1, r2, r3⟩ := run_items debug ((pulses is).map Prod.fst) is {} _ h.items hp rfl h.ordered
    (fun o ho => by
      obtain ⟨x, hx, rfl⟩ := List.mem_map.1 ho
      exact h.begins x hx) rfl
  unfold revolutions
  rw [blocks_file is rest h.items]
  simp only
  rw [indexes_items]
  simp only
  rw [r1]
  simp only
  have hcut := List.drop_eq_nil_iff.1 r3
  rw [List.length_map] at hcut
  have h2 := h.two
  have hc : s'.cut ≠ 0 := by omega
  rw [if_neg (by simp [hc]), if_neg (by rw [if_neg hc, List.length_map]; omega), if_neg hc, r2]
  have hs := fluxes_sorted is 0 0 usualSck
  have ho := h.ordered
  generalize hF : fluxes 0 0 usualSck is = F at hs
  have hF' : fluxes (({} : State).pos) 0 ({} : State).sck is = F := hF
  rw [hF']
  generalize pulses is = P at *
  match P, h2 with
  | x :: y :: l, _ =>
    rw [show (({} : State).closed ++ split (((x :: y :: l).map Prod.fst).drop ({} : State).cut) ({} : State).cur F).drop 1 =
      split ((y :: l).map Prod.fst) [] (F.dropWhile (·.1 < x.1)) from rfl, (takeWhile_filter x.1 F hs).2, gaps,
      zip_take _ _ _ (by rw [gaps_length]; simp at hcut ⊢; omega), zip_turns F hs (y :: l) x ho]

end Kryo
end Fox
