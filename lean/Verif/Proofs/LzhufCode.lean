import Verif.Proofs.LzhufCreate
import Verif.Spec.Lzhuf
/-
Bits, codes and positions of LZHUF streams.
-/
namespace Fox
namespace Lzhuf

/-- The bits still to be read. -/
def Reader.rest (r : Reader) : List Bool := r.bits.drop r.ptr ++ bitsOf r.src

theorem getBitFrom_spec : ∀ (src : List Byte) (bits : List Bool) (ptr : Nat), ptr ≤ bits.length →
    (bits.drop ptr ++ bitsOf src = [] → getBitFrom bits ptr src = .error .io) ∧
    ∀ b rest, bits.drop ptr ++ bitsOf src = b :: rest →
      ∃ r, getBitFrom bits ptr src = .ok (b, r) ∧ r.ptr ≤ r.bits.length ∧ r.rest = rest := by
  intro src
  induction src with
  | nil =>
    intro bits ptr hp
    unfold getBitFrom
    by_cases h : ptr < bits.length
    · rw [List.getElem?_eq_getElem h]
      have hd : bits.drop ptr = bits[ptr] :: bits.drop (ptr + 1) := List.drop_eq_getElem_cons h
      constructor
      · intro e; rw [hd] at e; cases e
      · intro b rest e
        rw [hd] at e
        injection e with e1 e2
        refine ⟨⟨bits, ptr + 1, []⟩, by rw [e1], by show ptr + 1 ≤ bits.length; omega, e2⟩
    · rw [List.getElem?_eq_none (by omega)]
      constructor
      · intro _; rfl
      · intro b rest e
        rw [List.drop_eq_nil_of_le (by omega)] at e
        cases e
  | cons x src ih =>
    intro bits ptr hp
    unfold getBitFrom
    by_cases h : ptr < bits.length
    · rw [List.getElem?_eq_getElem h]
      have hd : bits.drop ptr = bits[ptr] :: bits.drop (ptr + 1) := List.drop_eq_getElem_cons h
      constructor
      · intro e; rw [hd] at e; cases e
      · intro b rest e
        rw [hd] at e
        injection e with e1 e2
        refine ⟨⟨bits, ptr + 1, x :: src⟩, by rw [e1], by show ptr + 1 ≤ bits.length; omega, e2⟩
    · rw [List.getElem?_eq_none (by omega)]
      have hnil : bits.drop ptr = [] := List.drop_eq_nil_of_le (by omega)
      rw [hnil, bitsOf_cons]
      simp only []
      split
      · have := ih (bits.drop ptr ++ byteBits x) 0 (by omega)
        rw [List.drop_zero, hnil, List.append_assoc] at this
        exact this
      · have := ih (bits ++ byteBits x) ptr (by rw [List.length_append]; omega)
        rw [List.drop_append_of_le_length hp, hnil, List.append_assoc] at this
        exact this

theorem getBit_nil (r : Reader) (hp : r.ptr ≤ r.bits.length) (h : r.rest = []) : getBit r = .error .io :=
  (getBitFrom_spec r.src r.bits r.ptr hp).1 h

theorem getBit_cons (r : Reader) (hp : r.ptr ≤ r.bits.length) (b : Bool) (rest : List Bool) (h : r.rest = b :: rest) :
    ∃ r', getBit r = .ok (b, r') ∧ r'.ptr ≤ r'.bits.length ∧ r'.rest = rest :=
  (getBitFrom_spec r.src r.bits r.ptr hp).2 b rest h

/-- The number whose binary digits follow those of `acc`. -/
def natOf (acc : Nat) (bs : List Bool) : Nat := bs.foldl (fun a b => 2 * a + b.toNat) acc

theorem getBits_ok : ∀ (bs : List Bool) (acc : Nat) (r : Reader) (tail : List Bool), r.ptr ≤ r.bits.length →
    r.rest = bs ++ tail → ∃ r', getBits bs.length acc r = .ok (natOf acc bs, r') ∧ r'.ptr ≤ r'.bits.length ∧ r'.rest = tail := by
  intro bs
  induction bs with
  | nil => intro acc r tail hp h; exact ⟨r, rfl, hp, h⟩
  | cons b bs ih =>
    intro acc r tail hp h
    obtain ⟨r1, h1, h2, h3⟩ := getBit_cons r hp b (bs ++ tail) h
    rw [List.length_cons, getBits, h1]
    exact ih (2 * acc + b.toNat) r1 tail h2 h3

theorem getBits_short : ∀ (m acc : Nat) (r : Reader), r.ptr ≤ r.bits.length → r.rest.length < m →
    getBits m acc r = .error .io := by
  intro m
  induction m with
  | zero => intro acc r _ h; omega
  | succ m ih =>
    intro acc r hp h
    rw [getBits]
    cases hr : r.rest with
    | nil => rw [getBit_nil r hp hr]; rfl
    | cons b rest =>
      obtain ⟨r1, h1, h2, h3⟩ := getBit_cons r hp b rest hr
      rw [h1]
      exact ih _ r1 h2 (by rw [h3]; rw [hr, List.length_cons] at h; omega)

/-- Following `bits` down from `c` ends in the leaf of `s`. -/
def Code (t : Tree) : Nat → List Bool → Nat → Prop
  | c, [], s => c = t.count + s
  | c, b :: bs, s => c < t.count ∧ Code t (t.S (c + b.toNat)) bs s

theorem descend_code (t : Tree) (hls : t.son.length = t.count) : ∀ (bits : List Bool) (fuel c s : Nat) (r : Reader) (tail : List Bool),
    Code t c bits s → r.ptr ≤ r.bits.length → r.rest = bits ++ tail → bits.length < fuel →
    (c < t.count → c + 1 < t.count) → (∀ i, i < t.count → t.S i < t.count → t.S i + 1 < t.count) →
    ∃ r', descend t fuel c r = .ok (s, r') ∧ r'.ptr ≤ r'.bits.length ∧ r'.rest = tail := by
  intro bits
  induction bits with
  | nil =>
    intro fuel c s r tail hc hp hr hf _ _
    obtain ⟨fuel, rfl⟩ : ∃ g, fuel = g + 1 := ⟨fuel - 1, by rw [List.length_nil] at hf; omega⟩
    replace hc : c = t.count + s := hc
    rw [descend, if_neg (by omega)]
    exact ⟨r, by rw [hc]; simp, hp, hr⟩
  | cons b bits ih =>
    intro fuel c s r tail hc hp hr hf hb hbb
    obtain ⟨fuel, rfl⟩ : ∃ g, fuel = g + 1 := ⟨fuel - 1, by rw [List.length_cons] at hf; omega⟩
    obtain ⟨hc1, hc2⟩ := hc
    rw [descend, if_pos hc1]
    obtain ⟨r1, h1, h2, h3⟩ := getBit_cons r hp b (bits ++ tail) hr
    rw [h1]
    have hbn : b.toNat ≤ 1 := by cases b <;> decide
    have := hb hc1
    show ∃ r', (rd t.son (c + b.toNat) >>= _) = _ ∧ _
    rw [rd_ok _ _ (by omega)]
    exact ih fuel _ s r1 tail hc2 h2 h3 (by rw [List.length_cons] at hf; omega) (fun h => hbb _ (by omega) h) hbb

theorem Inv.son_lt {t : Tree} {d} (h : Inv t d) (i : Nat) (hi : i < t.count) (hs : t.S i < t.count) : t.S i + 1 < t.count := by
  have := h.node i hi hs; omega

/-- The descent either runs out of bits or ends in a leaf. -/
theorem descend_total (t : Tree) (h : Inv t none) : ∀ (fuel c : Nat) (r : Reader), r.ptr ≤ r.bits.length →
    (c < t.count → c + 1 < t.count ∧ c + 1 < fuel) → 0 < fuel → (t.count ≤ c → c < t.count + t.n) →
    (descend t fuel c r = .error .io ∧ ∀ bits s, Code t c bits s → ¬ bits <+: r.rest) ∨
    ∃ bits s r', Code t c bits s ∧ s < t.n ∧ descend t fuel c r = .ok (s, r') ∧ r'.ptr ≤ r'.bits.length ∧
      r.rest = bits ++ r'.rest := by
  intro fuel
  induction fuel with
  | zero => intro c r _ _ hf; omega
  | succ fuel ih =>
    intro c r hp hc hf hl
    rw [descend]
    by_cases e : c < t.count
    · rw [if_pos e]
      have hc2 := hc e
      cases hr : r.rest with
      | nil =>
        left
        rw [getBit_nil r hp hr]
        refine ⟨rfl, ?_⟩
        intro bits s hcode hpre
        cases bits with
        | nil => replace hcode : c = t.count + s := hcode; omega
        | cons b bs => obtain ⟨x, hx⟩ := hpre; cases hx
      | cons b rest =>
        obtain ⟨r1, h1, h2, h3⟩ := getBit_cons r hp b rest hr
        rw [h1]
        have hbn : b.toNat ≤ 1 := by cases b <;> decide
        have hls := h.ls
        show ((rd t.son (c + b.toNat) >>= _) = _ ∧ _) ∨ _
        rw [rd_ok _ _ (by omega)]
        have hlt : c + b.toNat < t.count := by omega
        have := ih (t.S (c + b.toNat)) r1 h2
          (fun hs => by have := h.node _ hlt hs; omega) (by omega) (fun hs => (h.leaf _ hlt hs).1)
        rcases this with h4 | ⟨bits, s, r', h4, h5, h6, h7, h8⟩
        · left
          refine ⟨h4.1, ?_⟩
          intro bits s hcode hpre
          cases bits with
          | nil => replace hcode : c = t.count + s := hcode; omega
          | cons b' bs =>
            obtain ⟨x, hx⟩ := hpre
            injection hx with e1 e2
            subst e1
            apply h4.2 bs s hcode.2
            rw [h3, ← e2]
            exact ⟨x, rfl⟩
        · right
          refine ⟨b :: bits, s, r', ⟨e, h4⟩, h5, ?_, h7, by rw [← h3, h8]; rfl⟩
          show (rd t.son (c + b.toNat) >>= _) = _
          rw [rd_ok _ _ (by omega)]
          exact h6
    · rw [if_neg e]
      right
      have := hl (by omega)
      exact ⟨[], c - t.count, r, by show c = t.count + (c - t.count); omega, by omega, rfl, hp, rfl⟩

/-- The walk up from a leaf gives a code of its symbol. -/
theorem walk_code (t : Tree) (h : Inv t none) (s : Nat) : ∀ (fuel c : Nat) (acc : List Bool), c < t.root → t.count < fuel + c →
    Code t (t.S c) acc s → ∃ bits, walk t fuel c acc = .ok bits ∧ Code t (t.S t.root) bits s ∧ bits ≠ [] ∧
      bits.length + c ≤ acc.length + t.root := by
  intro fuel
  have hroot : t.root = 2 * t.n - 2 := rfl
  have hcount : t.count = 2 * t.n - 1 := rfl
  have hn := h.n2
  induction fuel with
  | zero => intro c acc hc hf; omega
  | succ fuel ih =>
    intro c acc hc hf hcode
    have hlp := h.lp
    have hpar := h.par c hc
    have hpl := h.par_lt c hc
    rw [walk, rd_ok _ _ (by omega)]
    show ∃ bits, (if t.P c = t.root then _ else _) = _ ∧ _
    have hcode2 : Code t (t.S (t.P c)) ((c % 2 == 1) :: acc) s := by
      rw [hpar.2]
      refine ⟨by omega, ?_⟩
      have : c - c % 2 + (c % 2 == 1).toNat = c := by
        rcases Nat.mod_two_eq_zero_or_one c with e | e
        · rw [e]; show c - 0 + 0 = c; omega
        · rw [e]; show c - 1 + 1 = c; omega
      rw [this]; exact hcode
    by_cases e : t.P c = t.root
    · rw [if_pos e]
      rw [e] at hcode2
      exact ⟨_, rfl, hcode2, by simp, by rw [List.length_cons]; omega⟩
    · rw [if_neg e]
      obtain ⟨bits, a, b, c1, d⟩ := ih (t.P c) ((c % 2 == 1) :: acc) (by omega) (by omega) hcode2
      exact ⟨bits, a, b, c1, by rw [List.length_cons] at d; omega⟩

theorem encodeChar_spec (t : Tree) (h : Inv t none) (s : Nat) (hs : s < t.n) :
    ∃ bits t', encodeChar t s = .ok (bits, t') ∧ Code t (t.S t.root) bits s ∧ update t s = .ok t' ∧ Inv t' none ∧
      t'.n = t.n ∧ bits ≠ [] ∧ bits.length < t.count + 1 := by
  obtain ⟨t', h1, h2, h3⟩ := update_spec t h s hs
  have hly := h.ly
  have hy := h.symb s hs
  have hne : t.Y s ≠ t.root := by
    intro e
    have := h.root_node
    rw [← e, hy.2] at this; omega
  have hroot : t.root = 2 * t.n - 2 := rfl
  have hcount : t.count = 2 * t.n - 1 := rfl
  obtain ⟨bits, a, b, c, d⟩ := walk_code t h s (t.count + 1) (t.Y s) [] (by omega) (by omega) hy.2
  refine ⟨bits, t', ?_, b, h1, h2, h3, c, by rw [List.length_nil] at d; omega⟩
  unfold encodeChar
  rw [rd_ok _ _ (by omega)]
  show (walk t (t.count + 1) (t.Y s) [] >>= _) = _
  rw [a]
  show (update t s >>= _) = _
  rw [h1]; rfl

/-- A code of a symbol is decoded to it. -/
theorem decodeChar_code (t : Tree) (h : Inv t none) (bits : List Bool) (s : Nat) (t' : Tree) (hc : Code t (t.S t.root) bits s)
    (hl : bits.length < t.count + 1) (hu : update t s = .ok t') (r : Reader) (tail : List Bool)
    (hp : r.ptr ≤ r.bits.length) (hr : r.rest = bits ++ tail) :
    ∃ r', decodeChar t r = .ok (s, t', r') ∧ r'.ptr ≤ r'.bits.length ∧ r'.rest = tail := by
  have hls := h.ls
  have hn := h.n2
  have hroot : t.root = 2 * t.n - 2 := rfl
  have hcount : t.count = 2 * t.n - 1 := rfl
  obtain ⟨r', h1, h2, h3⟩ := descend_code t hls bits (t.count + 1) (t.S t.root) s r tail hc hp hr hl
    (fun e => h.son_lt _ (by omega) e) (fun i hi e => h.son_lt i hi e)
  refine ⟨r', ?_, h2, h3⟩
  unfold decodeChar
  rw [rd_ok _ _ (by omega)]
  show (descend t (t.count + 1) (t.S t.root) r >>= _) = _
  rw [h1]
  show (update t s >>= _) = _
  rw [hu]; rfl

/-- Following `bits` down from node `p` ends in node `x`. -/
def NodePath (t : Tree) : Nat → List Bool → Nat → Prop
  | p, [], x => x = p
  | p, b :: bs, x => t.S p < t.count ∧ NodePath t (t.S p + b.toNat) bs x

theorem Code.path (t : Tree) (h : Inv t none) (s : Nat) (hs : s < t.n) : ∀ (bits : List Bool) (p : Nat), p < t.count →
    Code t (t.S p) bits s → NodePath t p bits (t.Y s) ∧ True := by
  intro bits
  induction bits with
  | nil =>
    intro p hp hc
    replace hc : t.S p = t.count + s := hc
    have := h.leaf p hp (by omega)
    rw [hc, Nat.add_sub_cancel_left] at this
    exact ⟨this.2, trivial⟩
  | cons b bs ih =>
    intro p hp hc
    have hb : b.toNat ≤ 1 := by cases b <;> decide
    have := h.node p hp hc.1
    exact ⟨⟨hc.1, (ih _ (by omega) hc.2).1⟩, trivial⟩

theorem NodePath.snoc (t : Tree) (b : Bool) : ∀ (bs : List Bool) (p x : Nat), NodePath t p (bs ++ [b]) x →
    ∃ y, NodePath t p bs y ∧ t.S y < t.count ∧ x = t.S y + b.toNat := by
  intro bs
  induction bs with
  | nil => intro p x h; exact ⟨p, rfl, h.1, h.2⟩
  | cons c bs ih =>
    intro p x h
    obtain ⟨y, h1, h2⟩ := ih _ x h.2
    exact ⟨y, ⟨h.1, h1⟩, h2⟩

theorem NodePath.le (t : Tree) (h : Inv t none) : ∀ (bs : List Bool) (p x : Nat), p < t.count → NodePath t p bs x → x ≤ p ∧ (bs ≠ [] → x < p) := by
  intro bs
  induction bs with
  | nil => intro p x _ hx; exact ⟨Nat.le_of_eq hx, fun e => absurd rfl e⟩
  | cons b bs ih =>
    intro p x hp hx
    have hb : b.toNat ≤ 1 := by cases b <;> decide
    have h1 := h.node p hp hx.1
    have := (ih _ x (by omega) hx.2).1
    exact ⟨by omega, fun _ => by omega⟩

/-- There is only one way from a node to another. -/
theorem NodePath.unique (t : Tree) (h : Inv t none) : ∀ (k : Nat) (a b : List Bool) (p x : Nat), b.length = k → p < t.count →
    NodePath t p a x → NodePath t p b x → a = b := by
  intro k
  induction k with
  | zero =>
    intro a b p x hk hp ha hb
    have : b = [] := List.length_eq_zero_iff.mp hk
    subst this
    replace hb : x = p := hb
    by_cases e : a = []
    · exact e
    · have := (NodePath.le t h a p x hp ha).2 e; omega
  | succ k ih =>
    intro a b p x hk hp ha hb
    rcases List.eq_nil_or_concat b with e | ⟨bs, b1, e⟩
    · subst e; cases hk
    rcases List.eq_nil_or_concat a with e2 | ⟨as, a1, e2⟩
    · subst e2
      replace ha : x = p := ha
      have := (NodePath.le t h b p x hp hb).2 (by intro e3; subst e3; cases hk)
      omega
    rw [List.concat_eq_append] at e e2
    subst e e2
    rw [List.length_append] at hk
    obtain ⟨y, y1, y2, y3⟩ := NodePath.snoc t b1 bs p x hb
    obtain ⟨z, z1, z2, z3⟩ := NodePath.snoc t a1 as p x ha
    have hy := (NodePath.le t h bs p y hp y1).1
    have hz := (NodePath.le t h as p z hp z1).1
    have ny := h.node y (by omega) y2
    have nz := h.node z (by omega) z2
    have hb1 : b1.toNat ≤ 1 := by cases b1 <;> decide
    have ha1 : a1.toNat ≤ 1 := by cases a1 <;> decide
    have hbits : a1 = b1 := by
      cases a1 <;> cases b1 <;> simp only [Bool.toNat_true, Bool.toNat_false] at y3 z3 <;> first | rfl | omega
    subst hbits
    have hSS : t.S y = t.S z := by omega
    have hyz : y = z := by rw [← ny.2.2.1, hSS]; exact nz.2.2.1
    subst hyz
    rw [ih as bs p y (by simpa using hk) hp z1 y1]

theorem decodeChar_total (t : Tree) (h : Inv t none) (r : Reader) (hp : r.ptr ≤ r.bits.length) :
    (decodeChar t r = .error .io ∧ ∀ s bits t', s < t.n → encodeChar t s = .ok (bits, t') → ¬ bits <+: r.rest) ∨
    ∃ bits s t' r', encodeChar t s = .ok (bits, t') ∧ s < t.n ∧ Inv t' none ∧ t'.n = t.n ∧ decodeChar t r = .ok (s, t', r') ∧
      r'.ptr ≤ r'.bits.length ∧ r.rest = bits ++ r'.rest ∧ bits ≠ [] := by
  have hls := h.ls
  have hn := h.n2
  have hroot : t.root = 2 * t.n - 2 := rfl
  have hcount : t.count = 2 * t.n - 1 := rfl
  have hrn := h.root_node
  rcases descend_total t h (t.count + 1) (t.S t.root) r hp
    (fun e => by have := h.son_lt _ (by omega) e; omega) (by omega) (fun e => by omega) with h1 | ⟨bits, s, r', h1, h2, h3, h4, h5⟩
  · left
    refine ⟨?_, ?_⟩
    · unfold decodeChar
      rw [rd_ok _ _ (by omega)]
      show (descend t (t.count + 1) (t.S t.root) r >>= _) = _
      rw [h1.1]; rfl
    · intro s bits t' hs he
      obtain ⟨bits2, t2, e1, e2, _⟩ := encodeChar_spec t h s hs
      rw [he] at e1
      cases e1
      exact h1.2 bits s e2
  · right
    obtain ⟨bits2, t', e1, e2, e3, e4, e5, e6, e7⟩ := encodeChar_spec t h s h2
    have hsame : bits = bits2 := by
      obtain ⟨a1, a2⟩ := Code.path t h s h2 bits t.root (by omega) h1
      obtain ⟨b1, b2⟩ := Code.path t h s h2 bits2 t.root (by omega) e2
      exact NodePath.unique t h bits2.length bits bits2 t.root (t.Y s) rfl (by omega) a1 b1
    subst hsame
    refine ⟨bits, s, t', r', e1, h2, e4, e5, ?_, h4, h5, e6⟩
    unfold decodeChar
    rw [rd_ok _ _ (by omega)]
    show (descend t (t.count + 1) (t.S t.root) r >>= _) = _
    rw [h3]
    show (update t s >>= _) = _
    rw [e3]; rfl

end Lzhuf
end Fox
