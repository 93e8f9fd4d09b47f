import Verif.Model.Lzhuf
import Verif.Proofs.Bits
/-
The adaptive Huffman tree keeps its shape: the invariant and the update loop.
-/
namespace Fox
namespace Lzhuf

theorem rd_ok (l : List Nat) (i : Nat) (h : i < l.length) : rd l i = .ok (l.getD i 0) := by
  unfold rd; rw [List.getD_eq_getElem?_getD, List.getElem?_eq_getElem h]; rfl

theorem wr_ok (l : List Nat) (i x : Nat) (h : i < l.length) : wr l i x = .ok (l.set i x) := by
  unfold wr; rw [if_pos h]

theorem getD_set (l : List Nat) (i v j d : Nat) (h : i < l.length) :
    (l.set i v).getD j d = if i = j then v else l.getD j d := by
  simp only [List.getD_eq_getElem?_getD, List.getElem?_set]
  by_cases e : i = j
  · subst e; simp [h]
  · simp [e]

theorem set_self (l : List Nat) (i : Nat) (h : i < l.length) : l.set i (l.getD i 0) = l := by
  apply ext_getD _ _ 0 (by simp)
  intro j hj
  rw [getD_set _ _ _ _ _ h]
  split
  · next e => rw [e]
  · rfl

/-- Sum of the first `n` values of a function. -/
def sumTo (f : Nat → Nat) : Nat → Nat
  | 0 => 0
  | n + 1 => sumTo f n + f n

theorem sumTo_congr (f g : Nat → Nat) (n : Nat) (h : ∀ i, i < n → f i = g i) : sumTo f n = sumTo g n := by
  induction n with
  | zero => rfl
  | succ n ih => simp only [sumTo]; rw [ih (fun i hi => h i (by omega)), h n (by omega)]

theorem sumTo_bump (f g : Nat → Nat) (n s : Nat) (hs : s < n) (h : ∀ i, i < n → i ≠ s → f i = g i)
    (hg : f s = g s + 1) : sumTo f n = sumTo g n + 1 := by
  induction n with
  | zero => omega
  | succ n ih =>
    simp only [sumTo]
    by_cases e : s = n
    · subst e
      rw [sumTo_congr f g s (fun i hi => h i (by omega) (by omega)), hg]; omega
    · rw [ih (by omega) (fun i hi hn => h i (by omega) hn), h n (by omega) (by omega)]; omega

/-- The frequency, parent, son and leaf of the arrays. -/
abbrev Tree.F (t : Tree) (i : Nat) : Nat := t.freq.getD i 0
abbrev Tree.P (t : Tree) (i : Nat) : Nat := t.parent.getD i 0
abbrev Tree.S (t : Tree) (i : Nat) : Nat := t.son.getD i 0
abbrev Tree.Y (t : Tree) (i : Nat) : Nat := t.symb.getD i 0

/-- One for the node whose frequency is one behind its sons. -/
def late (d : Option Nat) (i : Nat) : Nat := if d = some i then 1 else 0

/-- The arrays are a tree with sorted frequencies; `d` is the node whose frequency is one behind. -/
structure Inv (t : Tree) (d : Option Nat) : Prop where
  n2 : 2 ≤ t.n
  small : t.n < 0x8000
  lf : t.freq.length = 2 * t.n
  lp : t.parent.length = t.count
  ls : t.son.length = t.count
  ly : t.symb.length = t.n
  top : t.F t.count = 0xffff
  mono : ∀ i, i < t.root → t.F i ≤ t.F (i + 1)
  pos : ∀ i, i < t.count → 1 ≤ t.F i
  cap : t.F t.root ≤ 0x8000
  symb : ∀ s, s < t.n → t.Y s < t.count ∧ t.S (t.Y s) = t.count + s
  leaf : ∀ i, i < t.count → t.count ≤ t.S i → t.S i < t.count + t.n ∧ t.Y (t.S i - t.count) = i
  node : ∀ i, i < t.count → t.S i < t.count → t.S i % 2 = 0 ∧ t.S i + 1 < i ∧ t.P (t.S i) = i ∧
    t.P (t.S i + 1) = i ∧ t.F (t.S i) + t.F (t.S i + 1) = t.F i + late d i
  par : ∀ i, i < t.root → t.P i < t.count ∧ t.S (t.P i) = i - i % 2
  rootp : t.P t.root = 0
  dn : ∀ c, d = some c → c < t.count ∧ t.S c < t.count
  total : sumTo (fun s => t.F (t.Y s)) t.n = t.F t.root + (if d = none then 0 else 1)

theorem Inv.le {t : Tree} {d} (h : Inv t d) : ∀ i j, i ≤ j → j ≤ t.root → t.F i ≤ t.F j := by
  intro i j hij hj
  induction j with
  | zero => have : i = 0 := by omega
            subst this; exact Nat.le_refl _
  | succ j ih =>
    by_cases e : i = j + 1
    · subst e; exact Nat.le_refl _
    · exact Nat.le_trans (ih (by omega) (by omega)) (h.mono j (by omega))

theorem Inv.lt_of {t : Tree} {d} (h : Inv t d) (i j : Nat) (hi : i < t.count) (hf : t.F i < t.F j) : i < j := by
  have hn := h.n2
  apply Classical.byContradiction
  intro hc
  have := h.le j i (by omega) (by show i ≤ 2 * t.n - 2; have : i < 2 * t.n - 1 := hi; omega)
  omega

theorem Inv.par_lt {t : Tree} {d} (h : Inv t d) (i : Nat) (hi : i < t.root) : i < t.P i ∧ t.P i < t.count := by
  have hp := h.par i hi
  have hn := h.n2
  have : t.S (t.P i) < t.count := by
    rw [hp.2]; show _ < 2 * t.n - 1; have : i < 2 * t.n - 2 := hi; omega
  have h2 := h.node (t.P i) hp.1 this
  rw [hp.2] at h2
  omega

theorem Inv.root_node {t : Tree} {d} (h : Inv t d) : t.S t.root < t.count := by
  have hn := h.n2
  have hr : t.root = 2 * t.n - 2 := rfl
  have hc : t.count = 2 * t.n - 1 := rfl
  have h1 := h.par_lt (t.root - 1) (by omega)
  have h2 := h.par (t.root - 1) (by omega)
  have : t.P (t.root - 1) = t.root := by omega
  rw [this] at h2
  rw [h2.2]; omega

/-- Raise the frequency of `c`. -/
def bump (t : Tree) (c : Nat) : Tree := { t with freq := t.freq.set c (t.F c + 1) }

theorem bump_inv (t : Tree) (d : Option Nat) (c : Nat) (h : Inv t d) (hc : c < t.count)
    (hd : (d = none ∧ t.count ≤ t.S c) ∨ d = some c) (hlt : c < t.root → t.F c < t.F (c + 1))
    (hr : t.F t.root < 0x8000) :
    Inv (bump t c) (if c = t.root then none else some (t.P c)) := by
  have hn := h.n2
  have hroot : t.root = 2 * t.n - 2 := rfl
  have hcount : t.count = 2 * t.n - 1 := rfl
  have hlf := h.lf
  have hF : ∀ i, (bump t c).F i = if c = i then t.F c + 1 else t.F i := by
    intro i
    exact getD_set _ _ _ _ _ (by omega)
  have hleafroot : t.count ≤ t.S c → c ≠ t.root := by
    intro h1 h2
    have := h.root_node
    rw [h2] at h1; omega
  refine ⟨h.n2, h.small, ?_, h.lp, h.ls, h.ly, ?_, ?_, ?_, ?_, h.symb, h.leaf, ?_, h.par, h.rootp, ?_, ?_⟩
  · show (t.freq.set c _).length = _
    rw [List.length_set]; exact h.lf
  · rw [show (bump t c).count = t.count from rfl, hF, if_neg (by omega)]; exact h.top
  · intro i hi
    replace hi : i < t.root := hi
    rw [hF, hF]
    have := h.mono i hi
    split
    · next e => subst e; rw [if_neg (by omega)]; have := hlt hi; omega
    · split
      · next e => rw [e]; omega
      · exact this
  · intro i hi
    replace hi : i < t.count := hi
    rw [hF]; split
    · omega
    · exact h.pos i hi
  · rw [show (bump t c).root = t.root from rfl, hF]
    split
    · next e => rw [e]; omega
    · exact h.cap
  · intro i hi hs
    replace hi : i < t.count := hi
    replace hs : t.S i < t.count := hs
    have h2 := h.node i hi hs
    refine ⟨h2.1, h2.2.1, h2.2.2.1, h2.2.2.2.1, ?_⟩
    rw [show (bump t c).S i = t.S i from rfl, hF, hF, hF]
    -- is c one of the sons of i?
    by_cases hci : c = t.S i ∨ c = t.S i + 1
    · have hpc : t.P c = i := by
        rcases hci with e | e
        · rw [e]; exact h2.2.2.1
        · rw [e]; exact h2.2.2.2.1
      have hne : c ≠ t.root := by omega
      have hl : late d i = 0 := by
        unfold late
        rw [if_neg]
        intro e
        rcases hd with hd | hd
        · rw [hd.1] at e; cases e
        · rw [hd] at e; cases e; omega
      rw [if_neg hne, hpc]
      have hli : late (some i) i = 1 := by unfold late; simp
      rw [hli, if_neg (show ¬ c = i by omega)]
      have h3 := h2.2.2.2.2
      rw [hl] at h3
      rcases hci with e | e
      · rw [if_pos e, if_neg (by omega), e]; omega
      · rw [if_neg (by omega), if_pos e, e]; omega
    · rw [if_neg (by omega), if_neg (by omega), h2.2.2.2.2]
      have hpc : c < t.root → t.P c ≠ i := by
        intro hcr e
        have h4 := h.par c hcr
        rw [e] at h4
        omega
      by_cases e : c = i
      · subst e
        rw [if_pos rfl]
        rcases hd with hd | hd
        · omega
        · have h5 : late d c = 1 := by unfold late; rw [hd]; simp
          rw [h5]
          split
          · unfold late; simp
          · next hne =>
            have := h.par_lt c (by omega)
            unfold late
            rw [if_neg (fun e => by have := Option.some.inj e; omega)]
      · rw [if_neg e]
        have h5 : late d i = 0 := by
          unfold late
          rcases hd with hd | hd
          · rw [hd.1]; simp
          · rw [hd]; rw [if_neg]; intro e2; cases e2; exact e rfl
        rw [h5]
        congr 1
        split
        · rfl
        · next hne =>
          have := hpc (by omega)
          unfold late
          rw [if_neg (fun e => by cases e; exact this rfl)]
  · intro p hp
    by_cases e : c = t.root
    · rw [if_pos e] at hp; cases hp
    · rw [if_neg e] at hp
      cases hp
      have h3 := h.par_lt c (by omega)
      have h4 := h.par c (by omega)
      refine ⟨h3.2, ?_⟩
      show t.S (t.P c) < t.count
      rw [h4.2]; omega
  · have htot := h.total
    show sumTo (fun s => (bump t c).F (t.Y s)) t.n = _
    rw [show (bump t c).root = t.root from rfl, hF]
    rcases hd with hd | hd
    · -- a leaf
      have hs := h.leaf c hc hd.2
      have hne := hleafroot hd.2
      rw [if_neg hne, if_neg (show ¬ (if c = t.root then none else some (t.P c)) = none by rw [if_neg hne]; simp)]
      rw [sumTo_bump _ (fun s => t.F (t.Y s)) t.n (t.S c - t.count) (by omega), htot, if_pos hd.1]
      · intro i hi hni
        show (bump t c).F (t.Y i) = t.F (t.Y i)
        rw [hF, if_neg]
        intro e
        have := (h.symb i hi).2
        rw [← e] at this
        omega
      · show (bump t c).F (t.Y _) = t.F (t.Y _) + 1
        rw [hF, hs.2, if_pos rfl]
    · have hcs := (h.dn c hd).2
      rw [sumTo_congr _ (fun s => t.F (t.Y s)), htot, hd]
      · by_cases e : c = t.root
        · subst e; simp
        · simp [e]
      · intro s hs
        show (bump t c).F (t.Y s) = _
        rw [hF, if_neg]
        intro e
        have := (h.symb s hs).2
        rw [← e] at this
        omega

/-- `link` without the checks. -/
def linkP (count : Nat) (parent symb : List Nat) (s i : Nat) : List Nat × List Nat :=
  if s ≥ count then (parent, symb.set (s - count) i) else ((parent.set s i).set (s + 1) i, symb)

theorem link_ok (count : Nat) (parent symb : List Nat) (s i : Nat) (h1 : count ≤ s → s - count < symb.length)
    (h2 : s < count → s + 1 < parent.length) : link count parent symb s i = .ok (linkP count parent symb s i) := by
  unfold link linkP
  split
  · next h => rw [wr_ok _ _ _ (h1 h)]; rfl
  · next h =>
    have := h2 (by omega)
    rw [wr_ok _ _ _ (by omega)]
    show (wr (parent.set s i) (s + 1) i >>= _) = _
    rw [wr_ok _ _ _ (by rw [List.length_set]; omega)]; rfl

theorem linkP_len (count : Nat) (parent symb : List Nat) (s i : Nat) :
    (linkP count parent symb s i).1.length = parent.length ∧ (linkP count parent symb s i).2.length = symb.length := by
  unfold linkP; split <;> simp

theorem linkP_parent (count : Nat) (parent symb : List Nat) (s i x : Nat) (h2 : s < count → s + 1 < parent.length) :
    (linkP count parent symb s i).1.getD x 0 =
      if s < count ∧ (x = s ∨ x = s + 1) then i else parent.getD x 0 := by
  unfold linkP
  split
  · rw [if_neg (by omega)]
  · next h =>
    have := h2 (by omega)
    show ((parent.set s i).set (s + 1) i).getD x 0 = _
    rw [getD_set _ _ _ _ _ (by rw [List.length_set]; omega), getD_set _ _ _ _ _ (by omega)]
    by_cases e1 : s + 1 = x
    · rw [if_pos e1, if_pos (by omega)]
    · rw [if_neg e1]
      by_cases e2 : s = x
      · rw [if_pos e2, if_pos (by omega)]
      · rw [if_neg e2, if_neg (by omega)]

theorem linkP_symb (count : Nat) (parent symb : List Nat) (s i x : Nat) (h1 : count ≤ s → s - count < symb.length) :
    (linkP count parent symb s i).2.getD x 0 = if count ≤ s ∧ x = s - count then i else symb.getD x 0 := by
  unfold linkP
  split
  · next h =>
    show (symb.set (s - count) i).getD x 0 = _
    rw [getD_set _ _ _ _ _ (h1 h)]
    by_cases e : s - count = x
    · rw [if_pos e, if_pos (by omega)]
    · rw [if_neg e, if_neg (by omega)]
  · rw [if_neg (by omega)]

/-- Exchange what hangs below the nodes `c` and `l`. -/
def swap (t : Tree) (c l : Nat) : Tree :=
  let ps := linkP t.count t.parent t.symb (t.S c) l
  let ps := linkP t.count ps.1 ps.2 (t.S l) c
  { t with son := (t.son.set l (t.S c)).set c (t.S l), parent := ps.1, symb := ps.2 }

theorem swap_inv (t : Tree) (d : Option Nat) (c l : Nat) (h : Inv t d) (hcl : c < l) (hl : l < t.count)
    (hf : t.F c = t.F l) (hd : d = none ∨ d = some c) :
    Inv (swap t c l) (d.map (fun _ => l)) ∧ (t.count ≤ t.S c → t.count ≤ (swap t c l).S l) := by
  have hn := h.n2
  have hroot : t.root = 2 * t.n - 2 := rfl
  have hcount : t.count = 2 * t.n - 1 := rfl
  have hls := h.ls
  have hlp := h.lp
  have hly := h.ly
  have hc : c < t.count := by omega
  have sc1 : t.count ≤ t.S c → t.S c - t.count < t.symb.length := fun e => by have := h.leaf c hc e; omega
  have sc2 : t.S c < t.count → t.S c + 1 < t.parent.length := fun e => by have := h.node c hc e; omega
  have sl1 : t.count ≤ t.S l → t.S l - t.count < t.symb.length := fun e => by have := h.leaf l hl e; omega
  have sl2 : t.S l < t.count → t.S l + 1 < t.parent.length := fun e => by have := h.node l hl e; omega
  have hS : ∀ i, (swap t c l).S i = if i = c then t.S l else if i = l then t.S c else t.S i := by
    intro i
    show ((t.son.set l (t.S c)).set c (t.S l)).getD i 0 = _
    rw [getD_set _ _ _ _ _ (by rw [List.length_set]; omega), getD_set _ _ _ _ _ (by omega)]
    by_cases e1 : c = i
    · rw [if_pos e1, if_pos e1.symm]
    · rw [if_neg e1]
      conv => rhs; rw [if_neg (fun e : i = c => e1 e.symm)]
      by_cases e2 : l = i
      · rw [if_pos e2, if_pos e2.symm]
      · rw [if_neg e2, if_neg (fun e : i = l => e2 e.symm)]
  have hlen := linkP_len t.count t.parent t.symb (t.S c) l
  have hP : ∀ x, (swap t c l).P x = if t.S l < t.count ∧ (x = t.S l ∨ x = t.S l + 1) then c
      else if t.S c < t.count ∧ (x = t.S c ∨ x = t.S c + 1) then l else t.P x := by
    intro x
    show (linkP t.count _ _ (t.S l) c).1.getD x 0 = _
    rw [linkP_parent _ _ _ _ _ _ (by rw [hlen.1]; exact sl2), linkP_parent _ _ _ _ _ _ sc2]
  have hY : ∀ x, (swap t c l).Y x = if t.count ≤ t.S l ∧ x = t.S l - t.count then c
      else if t.count ≤ t.S c ∧ x = t.S c - t.count then l else t.Y x := by
    intro x
    show (linkP t.count _ _ (t.S l) c).2.getD x 0 = _
    rw [linkP_symb _ _ _ _ _ _ (by rw [hlen.2]; exact sl1), linkP_symb _ _ _ _ _ _ sc1]
  have hF : ∀ x, (swap t c l).F x = t.F x := fun _ => rfl
  have hlate : ∀ i, i ≠ c → late d i = 0 := by
    intro i hi
    unfold late
    rcases hd with e | e
    · rw [e]; simp
    · rw [e, if_neg (fun e => hi (Option.some.inj e).symm)]
  have hmap : late (d.map (fun _ => l)) l = late d c := by
    rcases hd with e | e
    · rw [e]; rfl
    · rw [e]; unfold late; simp
  have hmap2 : ∀ i, i ≠ l → late (d.map (fun _ => l)) i = 0 := by
    intro i hi
    unfold late
    rcases hd with e | e
    · rw [e]; simp
    · rw [e, if_neg]; intro e2; exact hi (Option.some.inj e2).symm
  -- the sons of `l` lie below `c`
  have hlow : t.S l < t.count → t.S l + 1 < c := by
    intro e
    have h2 := h.node l hl e
    have h3 := h2.2.2.2.2
    rw [hlate l (by omega)] at h3
    have h4 := h.pos (t.S l) (by omega)
    exact h.lt_of _ _ (by omega) (by omega)
  -- two nodes never share their sons
  have hinj : ∀ i j, i < t.count → j < t.count → t.S i = t.S j → i = j := by
    intro i j hi hj e
    by_cases hk : t.S i < t.count
    · have a := (h.node i hi hk).2.2.1
      have b := (h.node j hj (by omega)).2.2.1
      rw [e] at a; omega
    · have a := (h.leaf i hi (by omega)).2
      have b := (h.leaf j hj (by omega)).2
      rw [e] at a; omega
  have hYF : ∀ s, s < t.n → t.F ((swap t c l).Y s) = t.F (t.Y s) := by
    intro s hs
    rw [hY]
    have h1 := h.symb s hs
    split
    · next e =>
      have h2 := h.leaf l hl e.1
      rw [e.2, h2.2]; exact hf
    · split
      · next e =>
        have h2 := h.leaf c hc e.1
        rw [e.2, h2.2]; exact hf.symm
      · rfl
  refine ⟨⟨h.n2, h.small, h.lf, ?_, ?_, ?_, h.top, h.mono, h.pos, h.cap, ?_, ?_, ?_, ?_, ?_, ?_, ?_⟩, ?_⟩
  · show (linkP t.count _ _ (t.S l) c).1.length = _
    rw [(linkP_len _ _ _ _ _).1, hlen.1]; exact hlp
  · show ((t.son.set l _).set c _).length = _
    rw [List.length_set, List.length_set]; exact hls
  · show (linkP t.count _ _ (t.S l) c).2.length = _
    rw [(linkP_len _ _ _ _ _).2, hlen.2]; exact hly
  · intro s hs
    replace hs : s < t.n := hs
    have h1 := h.symb s hs
    show (swap t c l).Y s < t.count ∧ (swap t c l).S ((swap t c l).Y s) = t.count + s
    rw [hY, hS]
    by_cases e1 : t.count ≤ t.S l ∧ s = t.S l - t.count
    · rw [if_pos e1, if_pos rfl]; omega
    · rw [if_neg e1]
      by_cases e2 : t.count ≤ t.S c ∧ s = t.S c - t.count
      · rw [if_pos e2, if_neg (by omega), if_pos rfl]; omega
      · rw [if_neg e2]
        have n1 : t.Y s ≠ c := by intro e; rw [e] at h1; omega
        have n2 : t.Y s ≠ l := by intro e; rw [e] at h1; omega
        rw [if_neg n1, if_neg n2]
        exact h1
  · intro i hi hs
    replace hi : i < t.count := hi
    replace hs : t.count ≤ (swap t c l).S i := hs
    show (swap t c l).S i < t.count + t.n ∧ (swap t c l).Y ((swap t c l).S i - t.count) = i
    rw [hS] at hs ⊢
    rw [hY]
    by_cases e1 : i = c
    · rw [if_pos e1] at hs ⊢
      have := h.leaf l hl hs
      rw [if_pos ⟨hs, rfl⟩]; omega
    · rw [if_neg e1] at hs ⊢
      by_cases e2 : i = l
      · rw [if_pos e2] at hs ⊢
        have := h.leaf c hc hs
        rw [if_neg, if_pos ⟨hs, rfl⟩]
        · omega
        · intro e3
          have := hinj c l hc hl (by omega)
          omega
      · rw [if_neg e2] at hs ⊢
        have h1 := h.leaf i hi hs
        rw [if_neg, if_neg]
        · exact h1
        · intro e3; exact e1 (hinj i c hi hc (by omega))
        · intro e3; exact e2 (hinj i l hi hl (by omega))
  · intro i hi hs
    replace hi : i < t.count := hi
    replace hs : (swap t c l).S i < t.count := hs
    show (swap t c l).S i % 2 = 0 ∧ (swap t c l).S i + 1 < i ∧ (swap t c l).P ((swap t c l).S i) = i ∧
      (swap t c l).P ((swap t c l).S i + 1) = i ∧
      t.F ((swap t c l).S i) + t.F ((swap t c l).S i + 1) = t.F i + late (d.map (fun _ => l)) i
    rw [hS] at hs ⊢
    rw [hP, hP]
    by_cases e1 : i = c
    · rw [if_pos e1] at hs ⊢
      have h1 := h.node l hl hs
      have h2 := hlow hs
      have h3 := h1.2.2.2.2
      rw [if_pos ⟨hs, Or.inl rfl⟩, if_pos ⟨hs, Or.inr rfl⟩, hmap2 i (by omega)]
      rw [hlate l (by omega)] at h3
      subst e1
      exact ⟨h1.1, h2, rfl, rfl, by omega⟩
    · rw [if_neg e1] at hs ⊢
      by_cases e2 : i = l
      · subst e2
        rw [if_pos rfl] at hs ⊢
        have h1 := h.node c hc hs
        have hx : t.S i < t.count → t.S i ≠ t.S c := fun _ e => by have := hinj c i hc hl e.symm; omega
        have hx2 : t.S i < t.count → t.S i % 2 = 0 := fun e => (h.node i hl e).1
        rw [hmap, if_neg (by omega), if_pos ⟨hs, Or.inl rfl⟩, if_neg (by omega), if_pos ⟨hs, Or.inr rfl⟩]
        exact ⟨h1.1, by omega, rfl, rfl, by omega⟩
      · rw [if_neg e2] at hs ⊢
        have h1 := h.node i hi hs
        have hx : t.S l < t.count → t.S l ≠ t.S i := fun _ e => by have := hinj l i hl hi e; omega
        have hx2 : t.S l < t.count → t.S l % 2 = 0 := fun e => (h.node l hl e).1
        have hy : t.S c < t.count → t.S c ≠ t.S i := fun _ e => by have := hinj c i hc hi e; omega
        have hy2 : t.S c < t.count → t.S c % 2 = 0 := fun e => (h.node c hc e).1
        rw [if_neg (by omega), if_neg (by omega), if_neg (by omega), if_neg (by omega), hmap2 i e2]
        rw [hlate i e1] at h1
        exact h1
  · intro i hi
    replace hi : i < t.root := hi
    have h1 := h.par i hi
    show (swap t c l).P i < t.count ∧ (swap t c l).S ((swap t c l).P i) = i - i % 2
    rw [hP, hS]
    by_cases e1 : t.S l < t.count ∧ (i = t.S l ∨ i = t.S l + 1)
    · have := (h.node l hl e1.1).1
      rw [if_pos e1, if_pos rfl]; omega
    · rw [if_neg e1]
      by_cases e2 : t.S c < t.count ∧ (i = t.S c ∨ i = t.S c + 1)
      · have := (h.node c hc e2.1).1
        rw [if_pos e2, if_neg (by omega), if_pos rfl]; omega
      · rw [if_neg e2]
        have n1 : t.P i ≠ c := by intro e; rw [e] at h1; omega
        have n2 : t.P i ≠ l := by intro e; rw [e] at h1; omega
        rw [if_neg n1, if_neg n2]
        exact h1
  · show (swap t c l).P t.root = 0
    rw [hP, if_neg, if_neg]
    · exact h.rootp
    · intro e; have := h.node c hc e.1; omega
    · intro e; have := h.node l hl e.1; omega
  · intro x hx
    rcases hd with e | e
    · rw [e] at hx; cases hx
    · rw [e] at hx
      have : l = x := Option.some.inj hx
      subst this
      refine ⟨hl, ?_⟩
      show (swap t c l).S l < t.count
      rw [hS, if_neg (by omega), if_pos rfl]
      exact (h.dn c e).2
  · show sumTo (fun s => t.F ((swap t c l).Y s)) t.n = t.F t.root + _
    rw [sumTo_congr _ (fun s => t.F (t.Y s)) _ (fun s hs => hYF s hs), h.total]
    congr 1
    cases d <;> rfl
  · intro e
    rw [hS, if_neg (by omega), if_pos rfl]
    exact e

/-- Where the loop that looks for the last node of the same frequency stops. -/
theorem scanUp_spec (t : Tree) (d : Option Nat) (h : Inv t d) (c : Nat) (hr : t.F t.root < 0x8000)
    (freq : List Nat) (hlen : freq.length = 2 * t.n) (hfr : ∀ x, c < x → freq.getD x 0 = t.F x) :
    ∀ fuel l, c < l → l ≤ t.count → 2 * t.n < fuel + l → (l < t.count → t.F c ≤ t.F l) →
      (c < l - 1 → t.F (l - 1) = t.F c) →
      ∃ m, scanUp freq (t.F c + 1) fuel l = .ok m ∧ c < m ∧ m ≤ t.count ∧ (c < m - 1 → t.F (m - 1) = t.F c) ∧
        t.F c < t.F m := by
  have hn := h.n2
  have hroot : t.root = 2 * t.n - 2 := rfl
  have hcount : t.count = 2 * t.n - 1 := rfl
  intro fuel
  induction fuel with
  | zero => intro l _ _ hf; omega
  | succ fuel ih =>
    intro l hcl hlc hf hle heq
    unfold scanUp
    rw [rd_ok _ _ (by omega), hfr l hcl]
    show ∃ m, (if t.F c + 1 > t.F l then _ else _) = _ ∧ _
    by_cases hg : t.F c + 1 > t.F l
    · rw [if_pos hg]
      have hlt : l < t.count := by
        apply Classical.byContradiction
        intro hcon
        have : l = t.count := by omega
        rw [this, h.top] at hg
        have := h.le c t.root (by omega) (Nat.le_refl _)
        omega
      have e := hle hlt
      apply ih (l + 1) (by omega) (by omega) (by omega)
      · intro h2
        have := h.mono l (by omega)
        omega
      · intro _
        show t.F (l + 1 - 1) = _
        rw [Nat.add_sub_cancel]; omega
    · rw [if_neg hg]
      exact ⟨l, rfl, hcl, hlc, heq, by omega⟩

theorem raise_spec (t : Tree) (d : Option Nat) (h : Inv t d) (c : Nat) (hc : c < t.count)
    (hd : (d = none ∧ t.count ≤ t.S c) ∨ d = some c) (hr : t.F t.root < 0x8000) :
    ∃ t' l, raise t c = .ok (t', l) ∧ c ≤ l ∧ l < t.count ∧ t'.n = t.n ∧
      Inv t' (if l = t.root then none else some (t'.P l)) ∧ (l ≠ t.root → t'.F t.root = t.F t.root) := by
  have hn := h.n2
  have hroot : t.root = 2 * t.n - 2 := rfl
  have hcount : t.count = 2 * t.n - 1 := rfl
  have hlf := h.lf
  have hls := h.ls
  have hlp := h.lp
  have hly := h.ly
  unfold raise
  rw [rd_ok _ _ (by omega)]
  show ∃ t' l, (wr t.freq c (t.F c + 1) >>= fun freq => rd freq (c + 1) >>= fun next =>
    if t.F c + 1 > next then _ else _) = _ ∧ _
  rw [wr_ok _ _ _ (by omega)]
  show ∃ t' l, (rd (t.freq.set c (t.F c + 1)) (c + 1) >>= fun next =>
    if t.F c + 1 > next then _ else _) = _ ∧ _
  rw [rd_ok _ _ (by rw [List.length_set]; omega), getD_set _ _ _ _ _ (by omega), if_neg (by omega)]
  show ∃ t' l, (if t.F c + 1 > t.F (c + 1) then _ else _) = _ ∧ _
  have hfr : ∀ x, c < x → (t.freq.set c (t.F c + 1)).getD x 0 = t.F x := by
    intro x hx
    rw [getD_set _ _ _ _ _ (by omega), if_neg (by omega)]
  by_cases hg : t.F c + 1 > t.F (c + 1)
  · rw [if_pos hg]
    have hcr : c < t.root := by
      apply Classical.byContradiction
      intro hcon
      have e : c + 1 = t.count := by omega
      have e2 : c = t.root := by omega
      rw [e, h.top, e2] at hg
      omega
    obtain ⟨m, hm, hcm, hmc, hme, hmf⟩ := scanUp_spec t d h c hr (t.freq.set c (t.F c + 1))
      (by rw [List.length_set]; exact hlf) hfr ((t.freq.set c (t.F c + 1)).length + 1) (c + 1) (by omega) (by omega)
      (by rw [List.length_set]; omega) (fun _ => h.mono c hcr) (fun hx => by omega)
    rw [hm]
    have hm1 : c < m - 1 := by
      apply Classical.byContradiction
      intro hcon
      have : m = c + 1 := by omega
      rw [this] at hmf; omega
    have hFl := hme hm1
    generalize hl : m - 1 = l at *
    have hml : m = l + 1 := by omega
    subst hml
    have hlc : l < t.count := by omega
    show ∃ t' l', (rd (t.freq.set c (t.F c + 1)) l >>= _) = _ ∧ _
    rw [rd_ok _ _ (by rw [List.length_set]; omega), hfr l hm1, hFl]
    show ∃ t' l', (wr (t.freq.set c (t.F c + 1)) c (t.F c) >>= _) = _ ∧ _
    rw [wr_ok _ _ _ (by rw [List.length_set]; omega), List.set_set, set_self _ _ (by omega)]
    show ∃ t' l', (wr t.freq l (t.F c + 1) >>= _) = _ ∧ _
    rw [wr_ok _ _ _ (by omega)]
    show ∃ t' l', (rd t.son c >>= _) = _ ∧ _
    rw [rd_ok _ _ (by omega)]
    show ∃ t' l', (link t.count t.parent t.symb (t.S c) l >>= _) = _ ∧ _
    rw [link_ok _ _ _ _ _ (fun e => by have := h.leaf c hc e; omega) (fun e => by have := h.node c hc e; omega)]
    show ∃ t' l', (rd t.son l >>= _) = _ ∧ _
    rw [rd_ok _ _ (by omega)]
    show ∃ t' l', (wr t.son l (t.S c) >>= _) = _ ∧ _
    rw [wr_ok _ _ _ (by omega)]
    show ∃ t' l', (link t.count (linkP t.count t.parent t.symb (t.S c) l).1
      (linkP t.count t.parent t.symb (t.S c) l).2 (t.S l) c >>= _) = _ ∧ _
    have hlen := linkP_len t.count t.parent t.symb (t.S c) l
    rw [link_ok _ _ _ _ _ (fun e => by have := h.leaf l hlc e; rw [hlen.2]; omega)
      (fun e => by have := h.node l hlc e; rw [hlen.1]; omega)]
    show ∃ t' l', (wr (t.son.set l (t.S c)) c (t.S l) >>= _) = _ ∧ _
    rw [wr_ok _ _ _ (by rw [List.length_set]; omega)]
    obtain ⟨hsw, hleaf⟩ := swap_inv t d c l h hm1 hlc hFl.symm
      (by rcases hd with e | e; · exact Or.inl e.1
          · exact Or.inr e)
    have hb := bump_inv (swap t c l) _ l hsw hlc (by
      rcases hd with e | e
      · left; rw [e.1]; exact ⟨rfl, hleaf e.2⟩
      · right; rw [e]; rfl) (fun _ => by
        show t.F l < t.F (l + 1)
        rw [hFl]; exact hmf) hr
    refine ⟨bump (swap t c l) l, l, ?_, by omega, hlc, rfl, hb, ?_⟩
    · show Except.ok _ = Except.ok _
      congr 1
      unfold bump swap
      show (({ t with freq := _, son := _, parent := _, symb := _ } : Tree), l) = _
      congr 2
      show _ = t.freq.set l (t.F l + 1)
      rw [hFl]
    · intro hne
      show (t.freq.set l (t.F l + 1)).getD t.root 0 = _
      rw [getD_set _ _ _ _ _ (by omega), if_neg hne]
  · rw [if_neg hg]
    have hb := bump_inv t d c h hc hd (fun _ => by omega) hr
    refine ⟨bump t c, c, rfl, Nat.le_refl _, hc, rfl, hb, ?_⟩
    intro hne
    show (t.freq.set c (t.F c + 1)).getD t.root 0 = _
    rw [getD_set _ _ _ _ _ (by omega), if_neg hne]

theorem climb_spec : ∀ fuel (t : Tree) d c, Inv t d → c < t.count → ((d = none ∧ t.count ≤ t.S c) ∨ d = some c) →
    t.F t.root < 0x8000 → t.count < fuel + c → ∃ t', climb fuel t c = .ok t' ∧ Inv t' none ∧ t'.n = t.n := by
  intro fuel
  induction fuel with
  | zero => intro t d c _ hc _ _ hf; omega
  | succ fuel ih =>
    intro t d c h hc hd hr hf
    have hn := h.n2
    have hroot : t.root = 2 * t.n - 2 := rfl
    have hcount : t.count = 2 * t.n - 1 := rfl
    obtain ⟨t', l, he, hcl, hlc, hnn, hi, hk⟩ := raise_spec t d h c hc hd hr
    unfold climb
    rw [he]
    show ∃ t'', (rd t'.parent l >>= _) = _ ∧ _
    have hlp := hi.lp
    have hcount' : t'.count = 2 * t'.n - 1 := rfl
    have hroot' : t'.root = 2 * t'.n - 2 := rfl
    rw [rd_ok _ _ (by omega)]
    show ∃ t'', (if t'.P l = 0 then _ else _) = _ ∧ _
    by_cases e : l = t.root
    · have hp : t'.P l = 0 := by rw [e, ← show t'.root = t.root by omega]; exact hi.rootp
      rw [if_pos hp]
      rw [if_pos e] at hi
      exact ⟨t', rfl, hi, hnn⟩
    · have hp := hi.par_lt l (by omega)
      rw [if_neg (by omega)]
      rw [if_neg e] at hi
      obtain ⟨t'', h1, h2, h3⟩ := ih t' _ (t'.P l) hi hp.2 (Or.inr rfl)
        (by rw [show t'.root = t.root by omega, hk e]; exact hr) (by omega)
      exact ⟨t'', h1, h2, by omega⟩

end Lzhuf
end Fox
