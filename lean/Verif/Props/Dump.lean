import Verif.Model.Dump
import Verif.Spec.Dump
import Verif.Props.Deleted
/-
C122: dumps of bytes.  C123: dumps of sectors.
-/
namespace Fox
open Spec Dump S34

/-! ## Digits -/

theorem hexDigit_val : ∀ n, n < 16 → hexVal (hexDigit n) = some n ∧ hexDigit n ≠ '|' ∧ hexDigit n ≠ ' ' ∧ hexDigit n ≠ '\n' := by
  decide

theorem numberOf_append (a : List Char) (c : Char) : numberOf (a ++ [c]) = 16 * numberOf a + (hexVal c).getD 0 := by
  unfold numberOf; rw [List.foldl_append]; rfl

theorem hexNat_digit : ∀ (n : Nat) (c : Char), c ∈ hexNat n → ∃ k, k < 16 ∧ c = hexDigit k := by
  intro n
  induction n using Nat.strongRecOn with
  | _ n ih =>
    intro c hc
    rw [hexNat] at hc
    split at hc
    · next h => exact ⟨n, h, by simpa using hc⟩
    · next h =>
      rcases List.mem_append.1 hc with hc | hc
      · exact ih (n / 16) (by omega) c hc
      · exact ⟨n % 16, Nat.mod_lt _ (by decide), by simpa using hc⟩

theorem hexNat_val : ∀ n, numberOf (hexNat n) = n := by
  intro n
  induction n using Nat.strongRecOn with
  | _ n ih =>
    rw [hexNat]
    split
    · next h =>
      show 16 * 0 + (hexVal (hexDigit n)).getD 0 = n
      rw [(hexDigit_val n h).1]; simp
    · next h =>
      rw [numberOf_append, ih (n / 16) (by omega), (hexDigit_val (n % 16) (Nat.mod_lt _ (by decide))).1]
      simp only [Option.getD_some]; omega

theorem hexPad_digit (w n : Nat) (c : Char) (h : c ∈ hexPad w n) : ∃ k, k < 16 ∧ c = hexDigit k := by
  unfold hexPad at h
  rcases List.mem_append.1 h with h | h
  · exact ⟨0, by decide, (List.mem_replicate.1 h).2⟩
  · exact hexNat_digit n c h

theorem hexPad_val (w n : Nat) : numberOf (hexPad w n) = n := by
  have key : ∀ k (l : List Char), numberOf (List.replicate k '0' ++ l) = numberOf l := by
    intro k l
    induction k with
    | zero => rfl
    | succ k ih => rw [List.replicate_succ]; exact ih
  unfold hexPad
  rw [key, hexNat_val]

theorem hexNat_two (n : Nat) (h : 16 ≤ n) (h2 : n < 256) : hexNat n = [hexDigit (n / 16), hexDigit (n % 16)] := by
  rw [hexNat, if_neg (by omega), hexNat, if_pos (by omega)]; rfl

theorem hexPad_two (n : Nat) (h : n < 256) : hexPad 2 n = [hexDigit (n / 16), hexDigit (n % 16)] := by
  unfold hexPad
  by_cases g : n < 16
  · have : hexNat n = [hexDigit n] := by rw [hexNat, if_pos g]
    rw [this, Nat.div_eq_of_lt g, Nat.mod_eq_of_lt g]; rfl
  · rw [hexNat_two n (by omega) h]; rfl

/-! ## A row -/

theorem shown_ne (b : Byte) : shown b ≠ '\n' := by
  unfold shown
  split
  · next h =>
    intro hc
    have := congrArg Char.toNat hc
    have h2 : (Char.ofNat b.toNat).toNat = b.toNat := by
      unfold Char.ofNat
      rw [dif_pos (by left; omega)]
      rfl
    rw [h2] at this
    have : b.toNat = 10 := this
    omega
  · decide

/-- A row without its line feed. -/
def rowBody (address perRow : Nat) (bytes : List Byte) : List Char :=
  hexPad 5 address ++ [' ', '|', ' '] ++
    bytes.flatMap (fun b => hexPad 2 b.toNat ++ [' ']) ++ (List.replicate (perRow - bytes.length) [' ', ' ', ' ']).flatten ++
    ['|', ' '] ++ bytes.map shown ++ List.replicate (perRow - bytes.length) ' '

theorem row_eq (a p : Nat) (bs : List Byte) : row a p bs = rowBody a p bs ++ ['\n'] := rfl

/-- The column of the bytes. -/
def hexCol (p : Nat) (bs : List Byte) : List Char :=
  bs.flatMap (fun b => hexPad 2 b.toNat ++ [' ']) ++ (List.replicate (p - bs.length) [' ', ' ', ' ']).flatten

theorem hexCol_ne (p : Nat) (bs : List Byte) : ∀ c ∈ hexCol p bs, c ≠ '|' ∧ c ≠ '\n' := by
  intro c hc
  unfold hexCol at hc
  rcases List.mem_append.1 hc with hc | hc
  · obtain ⟨b, _, hc⟩ := List.mem_flatMap.1 hc
    rcases List.mem_append.1 hc with hc | hc
    · obtain ⟨k, hk, rfl⟩ := hexPad_digit _ _ _ hc
      exact ⟨(hexDigit_val k hk).2.1, (hexDigit_val k hk).2.2.2⟩
    · rw [List.mem_singleton.1 hc]; decide
  · obtain ⟨l, hl, hc⟩ := List.mem_flatten.1 hc
    rw [(List.mem_replicate.1 hl).2] at hc
    have : c = ' ' := by simpa using hc
    rw [this]; decide

theorem rowBody_eq (a p : Nat) (bs : List Byte) : rowBody a p bs =
    (hexPad 5 a ++ [' ']) ++ '|' :: ' ' :: (hexCol p bs ++ '|' :: ' ' :: (bs.map shown ++ List.replicate (p - bs.length) ' ')) := by
  unfold rowBody hexCol; simp only [List.append_assoc, List.cons_append, List.nil_append]

theorem rowBody_ne (a p : Nat) (bs : List Byte) : ∀ c ∈ rowBody a p bs, c ≠ '\n' := by
  intro c hc
  rw [rowBody_eq] at hc
  simp only [List.mem_append, List.mem_cons, List.not_mem_nil, or_false] at hc
  rcases hc with (hc | hc) | hc | hc | hc | hc | hc | hc | hc
  · obtain ⟨k, hk, rfl⟩ := hexPad_digit _ _ _ hc
    exact (hexDigit_val k hk).2.2.2
  · rw [hc]; decide
  · rw [hc]; decide
  · rw [hc]; decide
  · exact (hexCol_ne p bs c hc).2
  · rw [hc]; decide
  · rw [hc]; decide
  · obtain ⟨b, _, rfl⟩ := List.mem_map.1 hc; exact shown_ne b
  · rw [(List.mem_replicate.1 hc).2]; decide

theorem dropWhile_to (p : Char → Bool) (a b : List Char) (x : Char) (ha : ∀ c ∈ a, p c = true) (hx : p x = false) :
    (a ++ x :: b).dropWhile p = x :: b := by
  induction a with
  | nil => rw [List.nil_append, List.dropWhile_cons, if_neg (by simp [hx])]
  | cons c a ih =>
    rw [List.cons_append, List.dropWhile_cons, if_pos (ha c (by simp))]
    exact ih fun c hc => ha c (by simp [hc])

theorem takeWhile_to (p : Char → Bool) (a b : List Char) (x : Char) (ha : ∀ c ∈ a, p c = true) (hx : p x = false) :
    (a ++ x :: b).takeWhile p = a := by
  induction a with
  | nil => rw [List.nil_append, List.takeWhile_cons, if_neg (by simp [hx])]
  | cons c a ih =>
    rw [List.cons_append, List.takeWhile_cons, if_pos (ha c (by simp)), ih fun c hc => ha c (by simp [hc])]

theorem pad_no_bar (a : Nat) : ∀ c ∈ hexPad 5 a ++ [' '], decide (c ≠ '|') = true := by
  intro c hc
  rcases List.mem_append.1 hc with hc | hc
  · obtain ⟨k, hk, rfl⟩ := hexPad_digit _ _ _ hc
    simpa using (hexDigit_val k hk).2.1
  · rw [List.mem_singleton.1 hc]; decide

theorem row_columns (a p : Nat) (bs : List Byte) :
    addressOf (rowBody a p bs) = a ∧ bytesColumn (rowBody a p bs) = hexCol p bs ∧
      textColumn (rowBody a p bs) = bs.map shown ++ List.replicate (p - bs.length) ' ' := by
  have hd : (rowBody a p bs).dropWhile (· ≠ '|') =
      '|' :: ' ' :: (hexCol p bs ++ '|' :: ' ' :: (bs.map shown ++ List.replicate (p - bs.length) ' ')) := by
    rw [rowBody_eq]
    exact dropWhile_to _ _ _ _ (pad_no_bar a) (by decide)
  have hcol : ∀ c ∈ hexCol p bs, decide (c ≠ '|') = true := by
    intro c hc; simpa using (hexCol_ne p bs c hc).1
  refine ⟨?_, ?_, ?_⟩
  · unfold addressOf
    rw [rowBody_eq, List.append_assoc, List.singleton_append, takeWhile_to _ _ _ _ ?_ (by decide), hexPad_val]
    intro c hc
    obtain ⟨k, hk, rfl⟩ := hexPad_digit _ _ _ hc
    simpa using (hexDigit_val k hk).2.2.1
  · unfold bytesColumn
    rw [hd]
    exact takeWhile_to _ _ _ _ hcol (by decide)
  · unfold textColumn
    rw [hd]
    show ((hexCol p bs ++ '|' :: ' ' :: _).dropWhile _).drop 2 = _
    rw [dropWhile_to _ _ _ _ hcol (by decide)]
    rfl

theorem bytesOfHex_blank (k : Nat) : bytesOfHex (List.replicate k [' ', ' ', ' ']).flatten = [] := by
  induction k with
  | zero => rfl
  | succ k ih => rw [List.replicate_succ, List.flatten_cons]; exact ih

theorem bytesOfHex_col (bs : List Byte) (rest : List Char) (h : bytesOfHex rest = []) :
    bytesOfHex (bs.flatMap (fun b => hexPad 2 b.toNat ++ [' ']) ++ rest) = bs := by
  induction bs with
  | nil => exact h
  | cons b bs ih =>
    rw [List.flatMap_cons, hexPad_two _ b.isLt]
    show bytesOfHex (hexDigit (b.toNat / 16) :: hexDigit (b.toNat % 16) :: ' ' :: (_ ++ rest)) = _
    rw [bytesOfHex, (hexDigit_val _ (show b.toNat / 16 < 16 by have := b.isLt; omega)).1,
      (hexDigit_val _ (show b.toNat % 16 < 16 by omega)).1]
    show BitVec.ofNat 8 _ :: bytesOfHex (bs.flatMap (fun b => hexPad 2 b.toNat ++ [' ']) ++ rest) = _
    rw [ih]
    congr 1
    rw [show 16 * (b.toNat / 16) + b.toNat % 16 = b.toNat by omega]
    exact BitVec.ofNat_toNat ..

theorem row_reads (a p : Nat) (bs : List Byte) : bytesOfHex (bytesColumn (rowBody a p bs)) = bs := by
  rw [(row_columns a p bs).2.1]
  exact bytesOfHex_col _ _ (bytesOfHex_blank _)

/-! ## Lines -/

theorem linesOf_go (s l rest : List Char) (h : ∀ c ∈ l, c ≠ '\n') :
    linesOf.go s (l ++ '\n' :: rest) = (s ++ l) :: linesOf.go [] rest := by
  induction l generalizing s with
  | nil => rw [List.nil_append, linesOf.go, if_pos rfl, List.append_nil]
  | cons c l ih =>
    rw [List.cons_append, linesOf.go, if_neg (h c (by simp)), ih _ fun c hc => h c (by simp [hc])]
    rw [List.append_assoc]; rfl

theorem linesOf_eq (cs : List Char) : linesOf cs = linesOf.go [] cs := by
  cases cs with
  | nil => rfl
  | cons c cs => rfl

theorem linesOf_rows {α : Type} (l : List α) (f : α → List Char) (rest : List Char) (h : ∀ x ∈ l, ∀ c ∈ f x, c ≠ '\n') :
    linesOf (l.flatMap (fun x => f x ++ ['\n']) ++ rest) = l.map f ++ linesOf rest := by
  induction l with
  | nil => rfl
  | cons x l ih =>
    rw [List.flatMap_cons, linesOf_eq]
    have e : (f x ++ ['\n'] ++ l.flatMap (fun x => f x ++ ['\n'])) ++ rest = f x ++ '\n' :: (l.flatMap (fun x => f x ++ ['\n']) ++ rest) := by
      simp only [List.append_assoc, List.cons_append, List.nil_append]
    rw [e, linesOf_go _ _ _ (h x (by simp)), ← linesOf_eq, ih fun y hy => h y (by simp [hy])]
    rfl

/-! ## Whole dumps -/

/-- The bytes of row `r`: from `r * p` on, at most `p`. -/
def rowOf (data : List Byte) (p r : Nat) : List Byte := (data.drop (r * p)).take p

/-- How many rows. -/
def rowCt (data : List Byte) (p : Nat) : Nat := (data.length + p - 1) / p

theorem dumpSlice_lines (data : List Byte) (start p es : Nat) (hp : p ≠ 0) :
    ∃ text, dumpSlice data start p es = .ok text ∧
      linesOf text = (List.range (rowCt data p)).map fun r => rowBody (r * p * es + start) p (rowOf data p r) := by
  unfold dumpSlice
  rw [if_neg hp]
  simp only
  have hdm := Nat.div_add_mod data.length p
  have hml := Nat.mod_lt data.length (Nat.pos_of_ne_zero hp)
  split
  · next hl =>
    refine ⟨_, rfl, ?_⟩
    have hn : rowCt data p = data.length / p + 1 := by
      unfold rowCt
      have : data.length + p - 1 = (data.length % p - 1) + p * (data.length / p + 1) := by
        rw [Nat.mul_add, Nat.mul_one]; omega
      rw [this, Nat.add_mul_div_left _ _ (Nat.pos_of_ne_zero hp), Nat.div_eq_of_lt (by omega)]; omega
    have hlast : data.drop (data.length / p * p) = rowOf data p (data.length / p) := by
      unfold rowOf
      rw [List.take_of_length_le]
      rw [List.length_drop, Nat.mul_comm]; omega
    rw [hlast, hn, List.range_succ, List.map_append]
    have := linesOf_rows (List.range (data.length / p)) (fun r => rowBody (r * p * es + start) p (rowOf data p r))
      (rowBody (data.length / p * p * es + start) p (rowOf data p (data.length / p)) ++ ['\n'])
      (fun x _ => rowBody_ne _ _ _)
    refine Eq.trans this ?_
    congr 1
    have := linesOf_rows [data.length / p] (fun r => rowBody (r * p * es + start) p (rowOf data p r)) []
      (fun x _ => rowBody_ne _ _ _)
    simpa [show linesOf [] = [] from rfl] using this
  · next hl =>
    refine ⟨_, rfl, ?_⟩
    have hn : rowCt data p = data.length / p := by
      unfold rowCt
      have : data.length + p - 1 = (p - 1) + p * (data.length / p) := by omega
      rw [this, Nat.add_mul_div_left _ _ (Nat.pos_of_ne_zero hp), Nat.div_eq_of_lt (by omega)]; omega
    rw [hn]
    have := linesOf_rows (List.range (data.length / p)) (fun r => rowBody (r * p * es + start) p (rowOf data p r)) []
      (fun x _ => rowBody_ne _ _ _)
    rw [List.append_nil] at this
    refine Eq.trans this ?_
    rw [show linesOf [] = [] from rfl, List.append_nil]

theorem rows_data (data : List Byte) (p : Nat) : ∀ n, (List.range n).flatMap (rowOf data p) = data.take (n * p)
  | 0 => by simp
  | n + 1 => by
    rw [List.range_succ, List.flatMap_append, rows_data data p n, List.flatMap_singleton, Nat.succ_mul, List.take_add]
    rfl

/-- **C122 (partial).** A dump of bytes, of every length, with every positive number of bytes to a row, can be read: its hexadecimal column is the
bytes; line `r` begins with the address `r * bytes_per_row * element_size + start`; there are as few rows as hold the bytes; and the
characters at its end stand for the bytes of the row, in their order, with a dot for those that are not shown.  Missing: that every
printable character is shown, and rows of no bytes (refuted below). -/
theorem C122_dump_partial (data : List Byte) (start p es : Nat) (hp : 0 < p) :
    ∃ text, dumpSlice data start p es = .ok text ∧ readDump text = data ∧
      (linesOf text).length = (data.length + p - 1) / p ∧
      ∀ r line, (linesOf text)[r]? = some line →
        addressOf line = r * p * es + start ∧
        bytesOfHex (bytesColumn line) = (data.drop (r * p)).take p ∧
        textColumn line = ((data.drop (r * p)).take p).map shown ++ List.replicate (p - ((data.drop (r * p)).take p).length) ' ' := by
  obtain ⟨text, h, hl⟩ := dumpSlice_lines data start p es (by omega)
  refine ⟨text, h, ?_, ?_, ?_⟩
  · unfold readDump
    rw [hl, List.flatMap_map]
    have : (fun r => bytesOfHex (bytesColumn (rowBody (r * p * es + start) p (rowOf data p r)))) = rowOf data p := by
      funext r; exact row_reads _ _ _
    rw [this, rows_data, List.take_of_length_le]
    unfold rowCt
    have h1 := Nat.div_add_mod (data.length + p - 1) p
    have h2 := Nat.mod_lt (data.length + p - 1) hp
    rw [Nat.mul_comm]; omega
  · rw [hl, List.length_map, List.length_range]; rfl
  · intro r line hr
    rw [hl, List.getElem?_map] at hr
    obtain ⟨k, hk, rfl⟩ := Option.map_eq_some_iff.1 hr
    have hk' : k = r := by
      rw [List.getElem?_eq_some_iff] at hk
      obtain ⟨_, hk⟩ := hk
      rw [List.getElem_range] at hk
      exact hk.symm
    subst hk'
    exact ⟨(row_columns _ _ _).1, row_reads _ _ _, (row_columns _ _ _).2.2⟩

/-- A dump of two rows, the second short. -/
example : (dumpSlice [0x41#8, 0x7C#8, 0x0A#8] 0x1F 2 1).toOption =
    some ("0001F | 41 7C | A|\n00021 | 0A    | . \n").toList := by decide +kernel

/-- What the character column tells of a byte: itself if it is from `(` to `~`. -/
theorem C122_shown (b : Byte) (h : 40 ≤ b.toNat) (h2 : b.toNat ≤ 126) : (shown b).toNat = b.toNat := by
  unfold shown
  rw [if_pos ⟨h, h2⟩]
  unfold Char.ofNat
  rw [dif_pos (by left; omega)]
  rfl

/-- **C122 fails** for the characters from the blank to the apostrophe: they are printable, and shown as dots. -/
theorem C122_false_blank (b : Byte) (_ : 32 ≤ b.toNat) (h2 : b.toNat < 40) : shown b = '.' := by
  unfold shown; rw [if_neg (by omega)]

example : (32 : Nat) ≤ (0x20#8).toNat ∧ (0x20#8).toNat < 40 := by decide

/-- **C122 fails** for rows of no bytes: the dump panics. -/
theorem C122_false_rows (data : List Byte) (start es : Nat) : dumpSlice data start 0 es = .error .panic := rfl

/-! ## C123 -/

/-- **C123 (partial).** The hexadecimal dump of a sector's data can be read, and gives exactly the bytes a read of that sector gives; a read that fails is reported.
Missing: the dump as a string, which shows more than the data (refuted below). -/
theorem C123_hex_partial (d : Disk) (nz : Noise) (ch : Ch) (q : Query) (n off : Option Nat) (p : Nat) (hp : 0 < p) :
    (∀ e, d.readSector nz ch q n off .dataOnly true = .error e → d.dumpHex nz ch q n off .dataOnly p = .error e) ∧
    (∀ r, d.readSector nz ch q n off .dataOnly true = .ok r → r.dataRange.2 ≤ r.readBuf.length →
      ∃ text, d.dumpHex nz ch q n off .dataOnly p = .ok text ∧ readDump text = r.bytes) := by
  refine ⟨?_, ?_⟩
  · intro e h; unfold Disk.dumpHex; rw [h]
  · intro r h hr
    obtain ⟨text, h1, h2, _⟩ := C122_dump_partial r.bytes 0 p 1 hp
    refine ⟨text, ?_, h2⟩
    unfold Disk.dumpHex
    rw [h]
    simp only
    rw [if_neg (by omega), h1]

/-- **C123 fails** for the dump as a string of a sector of cells: a sector of 128 bytes is shown as 134 characters, its mark and checksum with it. -/
theorem C123_false_string : ∃ (d : Disk) (q : Query), ∀ nz, ∃ r text, d.readSector nz ⟨0, 0⟩ q none none .dataOnly true = .ok r ∧
    r.dataRange.2 ≤ r.readBuf.length ∧ r.bytes.length = 128 ∧ d.dumpText nz ⟨0, 0⟩ q none none = .ok text ∧ text.length = 134 := by
  obtain ⟨t, ht, hd, hq, hl⟩ := exDeleted_ok
  refine ⟨{ pool := [.bit ⟨0, 0⟩ t], map0 := [0] }, .ofChsn ⟨0, 0, 1, 0⟩, ?_⟩
  intro nz
  have hr := ht.readSector nz.bit (.ofChsn ⟨0, 0, 1, 0⟩) none (a := []) (by intro y hy; cases hy)
    (x := exDeleted) ((hit_none _ _).2 hq) true
  have hread : Disk.readSector { pool := [.bit ⟨0, 0⟩ t], map0 := [0] } nz ⟨0, 0⟩ (.ofChsn ⟨0, 0, 1, 0⟩) none none .dataOnly true =
      .ok (readOk exDeleted) := by
    unfold Disk.readSector
    have hseek : (({ pool := [.bit ⟨0, 0⟩ t], map0 := [0] } : Disk).seek ⟨0, 0⟩) = .ok (0, .bit ⟨0, 0⟩ t) := rfl
    simp only [hseek]
    exact hr
  have hlen : (readOk exDeleted).readBuf.length = 134 := by
    show (markBytes _ ++ exDeleted.data ++ be16 exDeleted.crc).length = 134
    rw [List.length_append, List.length_append, markBytes_length, hl]
    rfl
  refine ⟨_, (readOk exDeleted).readBuf.map shown, hread, ?_, ?_, ?_, ?_⟩
  · rw [hlen]
    show 4 + exDeleted.data.length ≤ 134
    omega
  · rw [readOk_bytes, hl]
  · unfold Disk.dumpText; rw [hread]; rfl
  · rw [List.length_map, hlen]

/-- A sector of a list is shown in full by either. -/
theorem C123_list (d : Disk) (nz : Noise) (ch : Ch) (q : Query) (n off : Option Nat) (i : Nat) (m : MetaTrack) (r : ReadResult)
    (hs : d.seek ch = .ok (i, .sect m)) (h : d.readSector nz ch q n off .dataOnly true = .ok r) (hl : r.readBuf.length = r.dataRange.2) :
    d.dumpText nz ch q n off = .ok (r.bytes.map shown) := by
  unfold Disk.dumpText
  rw [h]
  simp only
  have h0 : r.dataRange.1 = 0 := by
    unfold Disk.readSector at h
    simp only [hs] at h
    have h' : m.readSector nz.byte q .dataOnly = .ok r := h
    unfold MetaTrack.readSector at h'
    simp only at h'
    split at h'
    · injection h' with h'; rw [← h']
    · split at h'
      · cases h'
      · injection h' with h'; rw [← h']
  unfold ReadResult.bytes Dump.dumpString
  rw [h0, List.drop_zero, List.take_of_length_le (by omega)]

end Fox
