import Verif.Props.Ipf
import Verif.Props.Scp
/-
C100-C102: concrete cases, damaged files and panics of the IPF loader.
-/
namespace Fox
open Spec IpfFile

attribute [local irreducible] number Ipf.be32At

/-! ### C100: a track with an Amiga sector -/

theorem bytes_exist : ∀ (n : Nat) (l : List Bool), l.length = 8 * n → ∃ b : List Byte, b.length = n ∧ bitsOf b = l
  | 0, l, h => ⟨[], rfl, (List.length_eq_zero_iff.1 (by simpa using h)).symm⟩
  | n + 1, l, h => by
    obtain ⟨b, h1, h2⟩ := bytes_exist n (l.drop 8) (by rw [List.length_drop]; omega)
    refine ⟨byteOfBits ((List.range 8).map fun i => l.getD i false) :: b, by rw [List.length_cons, h1], ?_⟩
    rw [bitsOf_cons, h2]
    have : byteBits (byteOfBits ((List.range 8).map fun i => l.getD i false)) = l.take 8 := by
      match l, h with
      | a0 :: a1 :: a2 :: a3 :: a4 :: a5 :: a6 :: a7 :: l, _ =>
        have hb := fun k hk => byteOfBits_getMsbD (fun i => (a0 :: a1 :: a2 :: a3 :: a4 :: a5 :: a6 :: a7 :: l).getD i false) k hk
        unfold byteBits
        rw [hb 0 (by omega), hb 1 (by omega), hb 2 (by omega), hb 3 (by omega), hb 4 (by omega), hb 5 (by omega), hb 6 (by omega),
          hb 7 (by omega)]
        rfl
      | [], h | [_], h | [_, _], h | [_, _, _], h | [_, _, _, _], h | [_, _, _, _, _], h | [_, _, _, _, _, _], h
      | [_, _, _, _, _, _, _], h => exfalso; simp only [List.length_cons, List.length_nil] at h; omega
    rw [this, List.take_append_drop]

/-- A track recorded as a single sync element. -/
theorem shows_whole {n : Nat} {bits : List Bool} {b : List Byte} (hb : bitsOf b = bits) (hn : bits.length = n) (L : List Bool)
    (h : (⟨⟨0, 0⟩, n, 0, [⟨[⟨.sync, b⟩], 0⟩]⟩ : IpfFile.Track).Shows L) : L = bits := by
  obtain ⟨h1, h2⟩ := h
  replace h1 : L.length = n := h1
  apply List.ext_getElem (by omega)
  intro i a1 a2
  have := h2 i (by show i < n; omega)
  replace this : L.getD ((0 / 16 * 16 + i) % n) false = (((IpfFile.Track.laid ⟨⟨0, 0⟩, n, 0, [⟨[⟨.sync, b⟩], 0⟩]⟩)[i]?).join).getD
    ((0 / 16 * 16 + i) % n % 2 == 1) := this
  rw [show 0 / 16 * 16 + i = i by omega, Nat.mod_eq_of_lt (by omega)] at this
  have e : IpfFile.Track.laid ⟨⟨0, 0⟩, n, 0, [⟨[⟨.sync, b⟩], 0⟩]⟩ = bits.map some := by
    unfold IpfFile.Track.laid IpfFile.Block.cells Elem.cells
    simp [hb]
  rw [e, List.getElem?_map, List.getElem?_eq_getElem a2, List.getD_eq_getElem?_getD, List.getElem?_eq_getElem a1] at this
  exact this

/-- `C100_false_amiga` applies to a track with an Amiga sector: cylinder 0, head 0, sector 5. -/
theorem C100_false_example (v2 : Bool) (rnd : Nat → Bool) : ∃ (room : Nat) (f : List Byte) (d : Disk) (l : List (Ch × List Chsn)),
    Ipf.load room rnd {} f = .ok (d, l) ∧ (⟨0, 0⟩, [⟨0, 0, 5, 2⟩]) ∈ l ∧
      ∃ t, at? d 0 0 = some t ∧ ∀ nz q n offset scope debug,
        ∃ r, t.readSector nz q n offset scope debug = .ok r ∧ r.notFound = true ∧ r.bytes = [] := by
  have hlen : (0xDEADBEEF#32 :: List.replicate 127 0x12345678#32).length = 128 := by
    rw [List.length_cons, List.length_replicate]
  generalize (0xDEADBEEF#32 :: List.replicate 127 0x12345678#32) = body at hlen
  have htr := example_track ⟨0, 0, 5, 2⟩ 6 0 body hlen ⟨by decide, by decide, by decide, rfl⟩
  have hbl : (exampleBits (amigaInfo ⟨0, 0, 5, 2⟩ 6) 0 body).length = 8832 := by
    rw [exampleBits, List.length_map, List.length_range]
  generalize exampleBits (amigaInfo ⟨0, 0, 5, 2⟩ 6) 0 body = bits at htr hbl
  obtain ⟨b, b1, b2⟩ := bytes_exist 1104 bits hbl
  have hedb : (Ipf.oneEdb ⟨[⟨.sync, b⟩], 0⟩).length = 32 + (1 + (3 + (1104 + 1))) := by
    unfold Ipf.oneEdb
    have e : (Ipf.makeStream [⟨.sync, b⟩]).length = 1 + (3 + (1104 + 1)) := by
      rw [Ipf.makeStream, List.length_cons, List.length_append, List.length_append]
      show 3 + (b.length + 1) + 1 = _
      rw [b1]
    rw [List.length_append, Ipf.words_length, e]
    rfl
  have hsays : ∀ room, (Ipf.oneEntry ⟨⟨0, 0⟩, 8832, 0, []⟩ ⟨[⟨.sync, b⟩], 0⟩ 7).Says room v2 := fun room =>
    Ipf.one_says v2 ⟨by decide, by decide, by decide, by decide, by show 0 < 2 ^ 32; decide, by decide⟩ (by rw [hedb]; decide)
      (fun e he => by rw [List.mem_singleton.1 he]; show b.length < _; rw [b1]; decide)
      (fun e he _ => by rw [List.mem_singleton.1 he]; show b.length % 2 = 0; rw [b1])
  have htrk : (Ipf.oneEntry ⟨⟨0, 0⟩, 8832, 0, []⟩ ⟨[⟨.sync, b⟩], 0⟩ 7).track = ⟨⟨0, 0⟩, 8832, 0, [⟨[⟨.sync, b⟩], 0⟩]⟩ := rfl
  have him : (Ipf.oneEntry ⟨⟨0, 0⟩, 8832, 0, []⟩ ⟨[⟨.sync, b⟩], 0⟩ 7).image.length ≤ 1000 := by
    show (Ipf.words _).length ≤ _
    rw [Ipf.words_length]; decide
  have hre : (Ipf.oneEntry ⟨⟨0, 0⟩, 8832, 0, []⟩ ⟨[⟨.sync, b⟩], 0⟩ 7).record.length ≤ 1000 := by
    show (Ipf.words _).length ≤ _
    rw [Ipf.words_length]; show 4 * 4 ≤ 1000; decide
  generalize Ipf.oneEntry ⟨⟨0, 0⟩, 8832, 0, []⟩ ⟨[⟨.sync, b⟩], 0⟩ 7 = x at hsays htrk him hre
  have hf : IsFile (Ipf.fileOf v2 0 0 [x] [x]).length v2 [x] [x] (Ipf.oneInfo v2 0 0) (Ipf.fileOf v2 0 0 [x] [x]) :=
    Ipf.isFile_of v2 (by decide) (fun y hy => by rw [List.mem_singleton.1 hy]; exact hsays _) (by simp)
      (fun y hy => by rw [List.mem_singleton.1 hy]; exact him) (fun y hy => by rw [List.mem_singleton.1 hy]; exact hre)
  have hlaid : x.track.laid.length = 8832 := by
    rw [htrk]
    unfold IpfFile.Track.laid IpfFile.Block.cells Elem.cells
    simp [b2, hbl]
  obtain ⟨d, l, l1, l2, t, l3, l4⟩ := C100_false_amiga _ rnd v2 [x] _ _ hf (Nat.le_refl _) (single_complete x (by rw [htrk]))
    (fun y hy => by rw [List.mem_singleton.1 hy]; exact ⟨by rw [htrk]; show 0 < 8832; decide, by rw [hlaid, htrk]⟩)
    (fun _ y hy c hc => by rw [List.mem_singleton.1 hy, htrk] at hc; simp at hc) x (List.mem_singleton.2 rfl)
    [⟨64, ⟨0, 0, 5, 2⟩, 6, [0, 0, 0, 0], body⟩] (by simp) (fun y hy => by rw [List.mem_singleton.1 hy])
    (fun L hL => by
      rw [htrk] at hL
      rw [shows_whole b2 hbl L hL]
      exact htr)
  rw [htrk] at l2 l3
  exact ⟨_, _, d, l, l1, l2, t, l3, l4⟩

/-! ### C101: damaged files -/

theorem Ipf.load_error {room : Nat} {rnd : Nat → Bool} {d : Disk} {f : List Byte} {c : Ipf.Chunk} {p : Nat} {st : Ipf.Store}
    {i : Ipf.Info} {e : Err} (h1 : Ipf.readChunk f 0 = .ok (c, p)) (h2 : c.id = Ipf.idCaps)
    (h3 : Ipf.records f f.length p {} = .ok st) (h4 : st.info = some i)
    (h5 : Ipf.tracks room rnd f st i (Ipf.sorted st.images) d = .error e) : Ipf.load room rnd d f = .error e := by
  unfold Ipf.load
  rw [h1]
  dsimp only
  rw [if_neg (by rw [h2]; simp), h3]
  dsimp only
  rw [h4]
  dsimp only
  rw [h5]

/-- What the loop over the chunks knows of the INFO chunk. -/
theorem Ipf.records_info (f : List Byte) : ∀ (n p : Nat) (s st : Ipf.Store) (ps : List Piece), Reads ps (f.drop p) →
    Ipf.records f n p s = .ok st → st.info ≠ none → s.info = none → ∃ x ∈ ps, x.id = IpfFile.info
  | 0, p, s, st, ps, _, h, h1, h2 => by
    rw [Ipf.records] at h
    cases h
    exact absurd h2 h1
  | n + 1, p, s, st, ps, hp, h, h1, h2 => by
    rw [Ipf.records] at h
    cases hr : Ipf.readChunk f p with
    | error e =>
      rw [hr] at h
      cases h
      exact absurd h2 h1
    | ok r =>
      obtain ⟨ck, q⟩ := r
      rw [hr] at h
      simp only at h
      cases hu : Ipf.useChunk f s ck q with
      | error e => rw [hu] at h; cases h
      | ok r =>
        obtain ⟨s1, q1⟩ := r
        rw [hu] at h
        simp only at h
        cases ps with
        | nil =>
          obtain ⟨b, rest, c1, c2, _⟩ := Ipf.readChunk_inv hr
          exact absurd ⟨_, _, _, _, c1, c2⟩ hp
        | cons x ps =>
          obtain ⟨b, rest, c1, c2, c3, c4⟩ := hp
          have hr' := Ipf.readChunk_lax c1 c4
          rw [hr] at hr'
          injection hr' with hr'
          injection hr' with e1 e2
          subst e1
          have ha := Ipf.useChunk_inv hu
          by_cases hi : x.id = IpfFile.info
          · exact ⟨x, by simp, hi⟩
          · have hs : s1.info = none := by
              unfold Ipf.useChunk at hu
              rw [if_neg (show ¬ x.id = Ipf.idInfo from hi)] at hu
              split at hu
              · split at hu
                · cases hu
                · injection hu with hu; injection hu with e3 e4; rw [← e3]; exact h2
              · split at hu
                · unfold Ipf.dataChunk at hu
                  split at hu
                  · cases hu
                  · split at hu
                    · cases hu
                    · split at hu
                      · cases hu
                      · split at hu
                        · cases hu
                        · injection hu with hu; injection hu with e3 e4; rw [← e3]; exact h2
                · injection hu with hu; injection hu with e3 e4; rw [← e3]; exact h2
            obtain ⟨y, hy, hyi⟩ := Ipf.records_info f n q1 s1 st ps (by
              rw [ha.next, e2, Ipf.be32At_eq]
              have hl : x.extra.length = if x.id = IpfFile.data then number x.data 0 else 0 := c2
              rw [← hl]
              have hd1 : f.drop (p + b.length) = x.extra ++ rest := Ipf.drop_more c4
              rw [Ipf.drop_more hd1]
              exact c3) h h1 hs
            exact ⟨y, List.mem_cons_of_mem _ hy, hyi⟩

/-- A file that does not begin with a valid CAPS chunk is refused; and so is one among whose readable chunks is no INFO chunk. -/
theorem C101_refused_partial (room : Nat) (rnd : Nat → Bool) (d : Disk) (f : List Byte) (ps : List Piece) (h : Reads ps f)
    (hb : (∀ x, ps.head? = some x → x.id ≠ caps) ∨ ∀ x ∈ ps, x.id ≠ info) : ∃ e, Ipf.load room rnd d f = .error e := by
  unfold Ipf.load
  cases hc : Ipf.readChunk f 0 with
  | error e => exact ⟨e, rfl⟩
  | ok r =>
    obtain ⟨c, p⟩ := r
    simp only
    by_cases hid : c.id = Ipf.idCaps
    swap
    · rw [if_pos hid]; exact ⟨_, rfl⟩
    rw [if_neg (fun h => h hid)]
    cases hs : Ipf.records f f.length p {} with
    | error e => exact ⟨e, rfl⟩
    | ok st =>
      simp only
      cases hi : st.info with
      | none => exact ⟨_, rfl⟩
      | some i =>
        exfalso
        cases ps with
        | nil =>
          obtain ⟨b, rest, c1, c2, _⟩ := Ipf.readChunk_inv hc
          rw [List.drop_zero] at c2
          exact h ⟨_, _, _, _, c1, c2⟩
        | cons x ps =>
          obtain ⟨b, rest, c1, c2, c3, c4⟩ := h
          have hr' := Ipf.readChunk_lax (f := f) (p := 0) c1 (by rw [List.drop_zero]; exact c4)
          rw [hc] at hr'
          injection hr' with hr'
          injection hr' with e1 e2
          subst e1
          replace hid : x.id = Ipf.idCaps := hid
          have hx0 : x.extra = [] := by
            have hl : x.extra.length = if x.id = IpfFile.data then number x.data 0 else 0 := c2
            rw [if_neg (by rw [hid]; decide)] at hl
            exact List.length_eq_zero_iff.1 hl
          rw [hx0, List.nil_append] at c4
          rcases hb with hb | hb
          · exact hb x rfl hid
          · obtain ⟨y, hy, hyi⟩ := Ipf.records_info f f.length p {} st ps (by
              rw [e2, c4, Nat.zero_add, List.drop_left]; exact c3) hs (by rw [hi]; simp) rfl
            exact hb y (List.mem_cons_of_mem _ hy) hyi

/-- A CAPS chunk alone is such a file. -/
example (rnd : Nat → Bool) : ∃ e, Ipf.load 1000 rnd {} (Ipf.makeChunk caps [1#8, 2#8]) = .error e := by
  refine C101_refused_partial 1000 rnd {} _ [⟨caps, [1#8, 2#8], []⟩] ⟨_, [], Ipf.lax_of (Ipf.isChunk_make rfl (by decide)), rfl, ?_,
    (List.append_nil _).symm⟩ (.inr (by decide))
  rintro ⟨id, data, b, rest, hc, hb⟩
  have := Ipf.isChunkLax_length hc
  have := congrArg List.length hb
  simp at this
  omega

/-- The loop over the chunks ends at what is not a chunk, and nothing is told of it. -/
theorem ipf_load_cut (room : Nat) (rnd : Nat → Bool) (v2 : Bool) (rest : List Byte)
    (hr : ¬ ∃ id data b r, IsChunkLax id data b ∧ rest = b ++ r) :
    ∃ d, Ipf.load room rnd {} (Ipf.makeChunk caps [] ++ (Ipf.makeChunk info (Ipf.oneInfo v2 0 1) ++ rest)) = .ok (d, []) ∧
      ∀ h c, at? d h c = none := by
  have hl : (Ipf.oneInfo v2 0 1).length = 84 := by unfold Ipf.oneInfo; rw [Ipf.words_length]; rfl
  have k1 : IsChunk caps [] (Ipf.makeChunk caps []) := Ipf.isChunk_make rfl (by decide)
  have k2 : IsChunk info (Ipf.oneInfo v2 0 1) (Ipf.makeChunk info (Ipf.oneInfo v2 0 1)) := Ipf.isChunk_make rfl (by rw [hl]; decide)
  have b1 := Ipf.isChunk_length k1
  have b2 := Ipf.isChunk_length k2
  rw [hl] at b2
  generalize Ipf.makeChunk caps [] = c1 at k1 b1
  generalize Ipf.makeChunk info (Ipf.oneInfo v2 0 1) = c2 at k2 b2
  generalize hf : c1 ++ (c2 ++ rest) = f
  have d0 : f.drop 0 = c1 ++ (c2 ++ rest) := hf.symm
  have d1 : f.drop (0 + c1.length) = c2 ++ rest := Ipf.drop_more d0
  have d2 : f.drop (0 + c1.length + c2.length) = rest := Ipf.drop_more d1
  have r1 := Ipf.readChunk_at k1 d0
  have r2 := Ipf.readChunk_at k2 d1
  have r3 : ∃ e, Ipf.readChunk f (0 + c1.length + c2.length) = .error e := by
    cases h : Ipf.readChunk f (0 + c1.length + c2.length) with
    | error e => exact ⟨e, rfl⟩
    | ok r =>
      obtain ⟨ck, q⟩ := r
      obtain ⟨b, r, x1, x2, _⟩ := Ipf.readChunk_inv h
      rw [d2] at x2
      exact absurd ⟨_, _, _, _, x1, x2⟩ hr
  obtain ⟨e, r3⟩ := r3
  obtain ⟨m, hm⟩ : ∃ m, f.length = m + 1 + 1 := ⟨f.length - 2, by
    rw [← hf, List.length_append, List.length_append]; omega⟩
  obtain ⟨i, hi⟩ : ∃ i, Ipf.infoOf (Ipf.oneInfo v2 0 1) = .ok i := by
    unfold Ipf.infoOf
    rw [if_neg (by rw [hl]; decide)]
    exact ⟨_, rfl⟩
  have hu : Ipf.useChunk f {} ⟨info, Ipf.oneInfo v2 0 1⟩ (0 + c1.length + c2.length) =
      .ok ({ enc := i.encoder, info := some i }, 0 + c1.length + c2.length) := by
    unfold Ipf.useChunk
    rw [if_pos (show IpfFile.info = Ipf.idInfo from rfl)]
    simp only [hi]
  have hrec : Ipf.records f f.length (0 + c1.length) {} = .ok { enc := i.encoder, info := some i } := by
    rw [hm, Ipf.records, r2]
    simp only
    rw [hu]
    simp only
    rw [Ipf.records, r3]
  refine ⟨_, Ipf.load_stages (d := {}) (d' := {}) (l := []) r1 rfl hrec rfl ?_, ?_⟩
  · have : Ipf.sorted [] = [] := by
      have := (Ipf.sorted_spec []).1
      exact List.Perm.eq_nil this
    show Ipf.tracks _ _ _ _ _ (Ipf.sorted []) _ = _
    rw [this]
    rfl
  · intro h c
    unfold at? Disk.headMap
    split <;> rfl

/-- A chunk whose first byte is changed is none. -/
theorem damaged_chunk {dat c2 : List Byte} (k2 : IsChunk imge dat c2) (rest : List Byte) :
    ¬ ∃ id data b r, IsChunkLax id data b ∧ (c2 ++ rest).set 0 0x4A#8 = b ++ r := by
  rintro ⟨id, dat', b, r, hc, hb⟩
  have hread := Ipf.readChunk_lax (f := b ++ r) (p := 0) hc rfl
  rw [← hb] at hread
  have hgood := Ipf.readChunk_at (f := c2 ++ rest) (p := 0) k2 rfl
  have h0 : ∃ l, c2 ++ rest = 0x49#8 :: l := by
    obtain ⟨_, _, s, c, _, _, _, _, h⟩ := k2
    rw [h]
    exact ⟨_, rfl⟩
  obtain ⟨l, h0⟩ := h0
  rw [h0] at hread hgood
  obtain ⟨e, he⟩ := C97_damage _ ((0x49#8 :: l).set 0 0x4A#8) 0 _ _ hgood (by simp) (0, 4) (by simp) 0
    (fun i hi => by
      rw [Ipf.lsbBits_getD, Ipf.lsbBits_getD, List.getD_eq_getElem?_getD, List.getD_eq_getElem?_getD] at hi
      by_cases h8 : 0 = i / 8
      · simp only; omega
      · rw [List.getElem?_set_ne h8] at hi; exact absurd rfl hi)
    (fun h => by
      have := congrArg (fun x => x[0]?) h
      simp at this)
  rw [he] at hread
  cases hread

theorem ipfA_image_length : ipfA.image.length = 68 := by
  show (Ipf.words _).length = _
  rw [Ipf.words_length]
  rfl

theorem fileOf_split (v2 : Bool) (x y : Entry) : ∃ rest, Ipf.fileOf v2 0 1 [x, y] [x, y] =
    Ipf.makeChunk caps [] ++ (Ipf.makeChunk info (Ipf.oneInfo v2 0 1) ++ (Ipf.makeChunk imge x.image ++ rest)) := by
  unfold Ipf.fileOf Ipf.makeFile
  simp only [List.flatMap_cons, List.map_cons, List.cons_append, List.append_assoc, List.nil_append]
  exact ⟨_, rfl⟩

theorem set_split {c0 c1 c2 rest : List Byte} (b0 : c0.length = 12) (b1 : c1.length = 96) :
    (c0 ++ (c1 ++ (c2 ++ rest))).set 108 0x4A#8 = c0 ++ (c1 ++ (c2 ++ rest).set 0 0x4A#8) := by
  rw [List.set_append_right (h := by omega), b0, List.set_append_right (h := by omega), b1]

theorem ipf_damaged (room : Nat) (v2 : Bool) (rnd : Nat → Bool) (x y : Entry) (hx : x.image.length = 68) :
    ∃ d, Ipf.load room rnd {} ((Ipf.fileOf v2 0 1 [x, y] [x, y]).set 108 0x4A#8) = .ok (d, []) ∧ ∀ h c, at? d h c = none := by
  have hl : (Ipf.oneInfo v2 0 1).length = 84 := by unfold Ipf.oneInfo; rw [Ipf.words_length]; rfl
  have k0 : IsChunk caps [] (Ipf.makeChunk caps []) := Ipf.isChunk_make rfl (by decide)
  have k1 : IsChunk info (Ipf.oneInfo v2 0 1) (Ipf.makeChunk info (Ipf.oneInfo v2 0 1)) := Ipf.isChunk_make rfl (by rw [hl]; decide)
  have k2 : IsChunk imge x.image (Ipf.makeChunk imge x.image) := Ipf.isChunk_make rfl (by rw [hx]; decide)
  have b0 := Ipf.isChunk_length k0
  have b1 := Ipf.isChunk_length k1
  rw [hl] at b1
  obtain ⟨rest, hs⟩ := fileOf_split v2 x y
  rw [hs, set_split b0 b1]
  exact ipf_load_cut room rnd v2 _ (damaged_chunk k2 rest)

/-- **C101 fails**: a single damaged byte in the file of two tracks — in the first IMGE chunk — makes it load without any error
and without any track. -/
theorem C101_false_silent (v2 : Bool) (rnd : Nat → Bool) : ∃ (room : Nat) (f g : List Byte) (k : Nat) (b : Byte), g = f.set k b ∧
    (∃ inf, IsFile room v2 [ipfA, ipfB] [ipfA, ipfB] inf f) ∧ (∃ d l, Ipf.load room rnd {} f = .ok (d, l) ∧ at? d 0 0 ≠ none ∧ at? d 1 0 ≠ none) ∧
    ∃ d, Ipf.load room rnd {} g = .ok (d, []) ∧ ∀ h c, at? d h c = none := by
  have hfile := ipfPair (Ipf.fileOf v2 0 1 [ipfA, ipfB] [ipfA, ipfB]).length v2 [ipfA, ipfB] fun x hx => hx
  obtain ⟨d, l, l1, l2⟩ := C99_cells_partial _ rnd v2 [ipfA, ipfB] _ _ hfile (Nat.le_refl _) ipfPair_complete ipfPair_fits
    (fun _ => ipfPair_gaps)
  refine ⟨_, _, _, 108, 0x4A#8, rfl, ⟨_, hfile⟩, ⟨d, l, l1, ?_, ?_⟩, ipf_damaged _ v2 rnd ipfA ipfB ipfA_image_length⟩
  · obtain ⟨t, t1, _⟩ := l2 ipfA (by simp)
    have t2 : at? d 0 0 = some (.bit ipfA.track.ch t) := t1
    rw [t2]; simp
  · obtain ⟨t, t1, _⟩ := l2 ipfB (by simp)
    have t2 : at? d 1 0 = some (.bit ipfB.track.ch t) := t1
    rw [t2]; simp

/-- **C101 fails** for the extra data: their CRC is not looked at, so that they load whatever it is. -/
theorem C101_false_extra (v2 : Bool) (rnd : Nat → Bool) : ∃ (room : Nat) (xs : List Entry) (inf f : List Byte),
    IsFile room v2 xs xs inf f ∧ (∃ x ∈ xs, ¬ IsCrc32 x.edb (BitVec.ofNat 32 (number x.record 8))) ∧
    ∃ d l, Ipf.load room rnd {} f = .ok (d, l) ∧ ∀ x ∈ xs, ∃ t, at? d x.track.ch.h x.track.ch.c = some (.bit x.track.ch t) ∧
      x.track.Shows t.data.bits.bits := by
  have hfile := ipfPair (Ipf.fileOf v2 0 1 [ipfA, ipfB] [ipfA, ipfB]).length v2 [ipfA, ipfB] fun x hx => hx
  obtain ⟨d, l, l1, l2⟩ := C99_cells_partial _ rnd v2 [ipfA, ipfB] _ _ hfile (Nat.le_refl _) ipfPair_complete ipfPair_fits
    (fun _ => ipfPair_gaps)
  refine ⟨_, _, _, _, hfile, ⟨ipfA, by simp, ?_⟩, d, l, l1, l2⟩
  rw [C97_is_crc32]
  have : number ipfA.record 8 = 0 := by decide +kernel
  rw [this]
  decide +kernel

/-! ### C102: no panic -/

/-- With memory without limit, loading does not panic unless a file has more IMGE than DATA chunks or a track without cells. -/
theorem C102_no_panic_partial (room : Nat) (hr : 2 ^ 61 ≤ room) (rnd : Nat → Bool) (d : Disk) (f : List Byte)
    (h : ∀ ps, Reads ps f → (ps.filter fun x => x.id = imge).length ≤ (ps.filter fun x => x.id = IpfFile.data).length ∧
      ∀ x ∈ ps, x.id = imge → number x.data 36 ≠ 0) : Ipf.load room rnd d f ≠ .error .panic :=
  Ipf.load_safe hr rnd d f h

/-- What a file reads as is unique. -/
theorem reads_unique : ∀ (ps qs : List Piece) (f : List Byte), Reads ps f → Reads qs f → ps = qs
  | [], [], _, _, _ => rfl
  | [], q :: qs, f, h, ⟨b, rest, c1, c2, c3, c4⟩ => absurd ⟨_, _, _, _, c1, c4⟩ h
  | p :: ps, [], f, ⟨b, rest, c1, c2, c3, c4⟩, h => absurd ⟨_, _, _, _, c1, c4⟩ h
  | p :: ps, q :: qs, f, ⟨b, rest, c1, c2, c3, c4⟩, ⟨b', rest', c1', c2', c3', c4'⟩ => by
    have h1 := Ipf.readChunk_lax (f := f) (p := 0) c1 (by rw [List.drop_zero]; exact c4)
    have h2 := Ipf.readChunk_lax (f := f) (p := 0) c1' (by rw [List.drop_zero]; exact c4')
    rw [h1] at h2
    injection h2 with h2
    injection h2 with e1 e2
    injection e1 with e1 e3
    have hb : b = b' := (List.append_inj (c4.symm.trans c4') (by omega)).1
    subst hb
    have h3 := List.append_cancel_left (c4.symm.trans c4')
    have hel : p.extra.length = q.extra.length := by
      have x1 : p.extra.length = if p.id = IpfFile.data then number p.data 0 else 0 := c2
      have x2 : q.extra.length = if q.id = IpfFile.data then number q.data 0 else 0 := c2'
      rw [x1, x2, e1, e3]
    obtain ⟨h4, h5⟩ := List.append_inj h3 hel
    subst h5
    have h6 := reads_unique ps qs rest c3 c3'
    rw [h6]
    congr 1
    obtain ⟨i, dd, e⟩ := p
    obtain ⟨i', dd', e'⟩ := q
    simp only at e1 e3 h4
    rw [e1, e3, h4]

theorem reads_of_consists : ∀ (ps : List Piece) (f : List Byte),
    (∀ x ∈ ps, x.extra.length = if x.id = IpfFile.data then number x.data 0 else 0) → Consists ps f → Reads ps f
  | [], f, _, h => by
    rintro ⟨id, data, b, rest, hc, hb⟩
    have := Ipf.isChunkLax_length hc
    have h1 := congrArg List.length hb
    rw [show f = [] from h, List.length_append, List.length_nil] at h1
    omega
  | p :: ps, f, he, ⟨b, rest, h1, h2, h3⟩ =>
    ⟨b, rest, Ipf.lax_of h1, he p (by simp), reads_of_consists ps rest (fun x hx => he x (by simp [hx])) h2, h3⟩

/-- It applies to the file of two tracks. -/
example (v2 : Bool) (rnd : Nat → Bool) : Ipf.load (2 ^ 61) rnd {} (Ipf.fileOf v2 0 1 [ipfA, ipfB] [ipfA, ipfB]) ≠ .error .panic := by
  apply C102_no_panic_partial _ (Nat.le_refl _)
  intro ps hps
  obtain ⟨c, hc⟩ := (ipfPair 0 v2 [ipfA, ipfB] fun x hx => hx).chunks
  have n1 : number ipfA.record 0 = ipfA.edb.length := by decide +kernel
  have n2 : number ipfB.record 0 = ipfB.edb.length := by decide +kernel
  have n3 : number ipfA.image 36 = 64 := by decide +kernel
  have n4 : number ipfB.image 36 = 64 := by decide +kernel
  have := reads_unique _ _ _ hps (reads_of_consists _ _ (by
    intro x hx
    simp only [List.map_cons, List.map_nil, List.cons_append, List.nil_append, List.mem_cons, List.not_mem_nil, or_false] at hx
    rcases hx with rfl | rfl | rfl | rfl | rfl | rfl
    · rfl
    · rfl
    · rfl
    · rfl
    · exact n1.symm
    · exact n2.symm) hc)
  subst this
  refine ⟨Nat.le_refl 2, ?_⟩
  intro x hx hxi
  simp only [List.map_cons, List.map_nil, List.cons_append, List.nil_append, List.mem_cons, List.not_mem_nil, or_false] at hx
  rcases hx with rfl | rfl | rfl | rfl | rfl | rfl
  · exact absurd (show caps = imge from hxi) (by decide)
  · exact absurd (show info = imge from hxi) (by decide)
  · show number ipfA.image 36 ≠ 0; rw [n3]; decide
  · show number ipfB.image 36 ≠ 0; rw [n4]; decide
  · exact absurd hxi (by decide)
  · exact absurd hxi (by decide)

/-- **C102 fails**: a file whose DATA chunks are missing makes the loader panic. -/
theorem C102_false_missing (v2 : Bool) (room : Nat) (rnd : Nat → Bool) (xs : List Entry) (inf f : List Byte) (hne : xs ≠ [])
    (h : IsFile room v2 xs [] inf f) : Ipf.load room rnd {} f = .error .panic := by
  obtain ⟨c, p, ds, r1, r2, r3, r4, r5⟩ := Ipf.records_file h (by simp)
  have hds : ds = [] := List.length_eq_zero_iff.1 r4
  subst hds
  refine Ipf.load_error r1 r2 r3 rfl ?_
  obtain ⟨s1, _⟩ := Ipf.sorted_spec (xs.map Ipf.imageOfEntry)
  have hsl := s1.length_eq
  rw [List.length_range, List.length_map] at hsl
  dsimp only
  generalize Ipf.sorted (xs.map Ipf.imageOfEntry) = ks at hsl
  cases ks with
  | nil =>
    rw [List.length_nil] at hsl
    exact absurd (List.length_eq_zero_iff.1 hsl.symm) hne
  | cons k ks =>
    rw [Ipf.tracks]
    cases (xs.map Ipf.imageOfEntry)[k]? <;> rfl

/-- There are such files. -/
example (room : Nat) (v2 : Bool) : ∃ (xs : List Entry) (inf f : List Byte), xs ≠ [] ∧ IsFile room v2 xs [] inf f :=
  ⟨_, _, _, by simp, ipfPair room v2 [] (by simp)⟩

end Fox
