import Verif.Proofs.LzwRun
/-
C54: what the LZW expander of TeleDisk images does with any data, and that it undoes the compressor.
-/
namespace Fox
open Lzw Spec.Lzw

theorem decodeAll_ok : ∀ (css : List (List Nat)) (outs : List (List Byte)), css.map decodeChunk = outs.map some →
    decodeAll css = .ok outs.flatten := by
  intro css
  induction css with
  | nil => intro outs h; cases outs with
    | nil => rfl
    | cons o os => cases h
  | cons c css ih =>
    intro outs h
    cases outs with
    | nil => cases h
    | cons o os =>
      rw [List.map_cons, List.map_cons] at h
      injection h with h1 h2
      rw [decodeAll, h1]
      simp only
      rw [ih os h2]; rfl

theorem decodeAll_bad : ∀ (pre : List (List Nat)) (c : List Nat) (post : List (List Nat)), (∀ p ∈ pre, decodeChunk p ≠ none) →
    decodeChunk c = none → decodeAll (pre ++ c :: post) = .error (badChunk c) := by
  intro pre
  induction pre with
  | nil => intro c post _ hc; rw [List.nil_append, decodeAll, hc]
  | cons p pre ih =>
    intro c post hp hc
    rw [List.cons_append, decodeAll]
    cases hd : decodeChunk p with
    | none => exact absurd hd (hp p (List.mem_cons_self ..))
    | some s =>
      simp only
      rw [ih c post (fun q hq => hp q (List.mem_cons_of_mem _ hq)) hc]

/-- Data whose chunks can all be decoded expands to the bytes they stand for. -/
theorem C54_expand_ok (data : List Byte) (h : data.length ≤ 3000000) (outs : List (List Byte))
    (hc : (chunks (bits data)).map decodeChunk = outs.map some) : expand data = .ok outs.flatten := by
  rw [expand_spec data h]
  exact decodeAll_ok _ outs hc

/-- Otherwise the first chunk that cannot be decoded is reported, but a chunk that starts with the code of a
string panics: the property that bad data is an error is false there. -/
theorem C54_expand_bad_partial (data : List Byte) (h : data.length ≤ 3000000) (pre : List (List Nat)) (c : List Nat) (post : List (List Nat))
    (hs : chunks (bits data) = pre ++ c :: post) (hp : ∀ p ∈ pre, decodeChunk p ≠ none) (hc : decodeChunk c = none) :
    expand data = .error (if 256 ≤ c.headD 0 then .panic else .formatParse) := by
  rw [expand_spec data h, hs]
  exact decodeAll_bad pre c post hp hc

/-- Those are the only cases. -/
theorem C54_cases (data : List Byte) : (∃ outs : List (List Byte), (chunks (bits data)).map decodeChunk = outs.map some) ∨
    ∃ pre c post, chunks (bits data) = pre ++ c :: post ∧ (∀ p ∈ pre, decodeChunk p ≠ none) ∧ decodeChunk c = none := by
  generalize chunks (bits data) = css
  induction css with
  | nil => exact Or.inl ⟨[], rfl⟩
  | cons c css ih =>
    cases hd : decodeChunk c with
    | none => exact Or.inr ⟨[], c, css, rfl, (fun p hp => by cases hp), hd⟩
    | some s =>
      rcases ih with ⟨outs, h⟩ | ⟨pre, c', post, h1, h2, h3⟩
      · exact Or.inl ⟨s :: outs, by rw [List.map_cons, List.map_cons, hd, h]⟩
      · refine Or.inr ⟨c :: pre, c', post, by rw [h1]; rfl, ?_, h3⟩
        intro p hp
        rcases List.mem_cons.mp hp with rfl | hp
        · rw [hd]; exact fun e => by cases e
        · exact h2 p hp

/-- Files over three million bytes are refused. -/
theorem C54_too_large (data : List Byte) (h : 3000000 < data.length) : expand data = .error .unsupported := by
  unfold expand
  exact if_pos h

/-- Four bytes that panic: one chunk of one code, 256. -/
theorem C54_false_no_panic : expand [3#8, 0#8, 0#8, 1#8] = .error .panic := by
  have hs : chunks (bits [3#8, 0#8, 0#8, 1#8]) = [[256]] := by
    rw [chunks, dif_neg (by decide)]
    have hv : value ((bits [3#8, 0#8, 0#8, 1#8]).take 16) = 3 := by decide
    simp only [hv]
    rw [if_neg (by decide), chunks, dif_pos (by decide)]
    decide
  have := C54_expand_bad_partial [3#8, 0#8, 0#8, 1#8] (by decide) [] [256] [] hs (fun p hp => by cases hp) (by decide)
  exact this

theorem packLsb_length (bs : List Bool) : (packLsb bs).length = (bs.length + 7) / 8 := by
  obtain ⟨pad, h1, h2⟩ := packLsb_bits bs.length bs (Nat.le_refl _)
  have := congrArg List.length h1
  rw [bits_length, List.length_append] at this
  omega

theorem cut_bits (css : List (List Nat)) : (css.flatMap chunkBits).length = 16 * css.length + 12 * (css.map List.length).sum := by
  induction css with
  | nil => rfl
  | cons c css ih =>
    rw [List.flatMap_cons, List.length_append, ih, List.map_cons, List.sum_cons, List.length_cons]
    unfold chunkBits
    rw [List.length_append, lsb_length, flat_length]
    omega

/-- What `compress` makes of any data of up to three million bytes expands to the data, unless it has grown over
three million bytes itself. -/
theorem C54_compress_any (data : List Byte) (h : data.length ≤ 3000000) : ∃ z, compress data = .ok z ∧
    (z.length ≤ 3000000 → expand z = .ok data) ∧ 8 * z.length ≤ 12 * data.length + 16 * (data.length / 4096 + 1) + 7 := by
  obtain ⟨css, h1, h2, h3, h4, h5⟩ := compressLoop_spec (data.length + 1) data (Nat.lt_succ_self _)
  refine ⟨packLsb (css.flatMap chunkBits), ?_, ?_, ?_⟩
  · unfold compress
    rw [if_neg (by show ¬ data.length > 3000000; omega), h1]
  · intro hz
    rw [expand_spec _ hz]
    obtain ⟨pad, p1, p2⟩ := packLsb_bits _ (css.flatMap chunkBits) (Nat.le_refl _)
    rw [p1, chunks_cut css h2 pad (by omega), h3]
  · rw [packLsb_length, cut_bits]
    omega

/-- Expanding undoes compressing for data of up to 1,998,000 bytes. -/
theorem C54_round_trip (data : List Byte) (h : data.length ≤ 1998000) : ∃ z, compress data = .ok z ∧ expand z = .ok data := by
  obtain ⟨z, h1, h2, h3⟩ := C54_compress_any data (by omega)
  exact ⟨z, h1, h2 (by omega)⟩

/-- Compressed data determines the original. -/
theorem C54_injective (x y : List Byte) (hx : x.length ≤ 1998000) (hy : y.length ≤ 1998000) (h : compress x = compress y) : x = y := by
  obtain ⟨z, h1, h2⟩ := C54_round_trip x hx
  obtain ⟨w, h3, h4⟩ := C54_round_trip y hy
  rw [h1, h3] at h
  cases h
  rw [h2] at h4
  cases h4
  rfl

/-- A concrete chunk that uses a string before the decoder has it: A, AA, AAA. -/
example : decodeChunk [0x41, 256, 257, 0x42] = some [0x41#8, 0x41#8, 0x41#8, 0x41#8, 0x41#8, 0x41#8, 0x42#8] := by decide

/-- A concrete bad chunk. -/
example : decodeChunk [0x41, 257] = none := by decide

/-- The compressor makes that chunk. -/
example : (compressChunk 4096 startEDict none [0x41#8, 0x41#8, 0x41#8, 0x41#8, 0x41#8, 0x41#8, 0x42#8]).toOption =
    some ([0x41, 256, 257, 0x42], none) := by decide +kernel

end Fox
