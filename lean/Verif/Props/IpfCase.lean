import Verif.Proofs.IpfPanic
/-
Making IPF files: used to show that the properties of the IPF loader are not empty, and for the counterexamples.
-/
namespace Fox
namespace Ipf
open Spec IpfFile

attribute [local irreducible] number be32At

def put32 (n : Nat) : List Byte :=
  [BitVec.ofNat 8 (n / 2 ^ 24), BitVec.ofNat 8 (n / 2 ^ 16), BitVec.ofNat 8 (n / 2 ^ 8), BitVec.ofNat 8 n]

theorem put32_length (n : Nat) : (put32 n).length = 4 := rfl

theorem number_put32 (n : Nat) (h : n < 2 ^ 32) (r : List Byte) : number (put32 n ++ r) 0 = n := by
  unfold number put32
  simp only [List.cons_append, List.nil_append, List.getD_cons_zero, List.getD_cons_succ, BitVec.toNat_ofNat]
  omega

def words (l : List Nat) : List Byte := l.flatMap put32

theorem words_length (l : List Nat) : (words l).length = 4 * l.length := by
  induction l with
  | nil => rfl
  | cons a l ih =>
    show (put32 a ++ words l).length = _
    rw [List.length_append, ih, put32_length, List.length_cons]; omega

theorem number_words (l : List Nat) (h : ∀ a ∈ l, a < 2 ^ 32) (r : List Byte) (k : Nat) (hk : k < l.length) :
    number (words l ++ r) (4 * k) = l.getD k 0 := by
  induction l generalizing k with
  | nil => simp at hk
  | cons a l ih =>
    have e : words (a :: l) ++ r = put32 a ++ (words l ++ r) := by
      show (put32 a ++ words l) ++ r = _
      rw [List.append_assoc]
    rw [e]
    cases k with
    | zero => exact number_put32 a (h a (by simp)) _
    | succ k =>
      have : 4 * (k + 1) = (put32 a).length + 4 * k := by rw [put32_length]; omega
      rw [this, number_right]
      exact ih (fun b hb => h b (by simp [hb])) k (by simpa using hk)

def makeChunk (id data : List Byte) : List Byte :=
  id ++ (put32 (12 + data.length) ++
    (put32 (crc (id ++ (put32 (12 + data.length) ++ ([0#8, 0#8, 0#8, 0#8] ++ data)))).toNat ++ data))

theorem isChunk_make {id data : List Byte} (h1 : id.length = 4) (h2 : 12 + data.length ≤ 0x100000) :
    IsChunk id data (makeChunk id data) := by
  have hs : number (put32 (12 + data.length)) 0 = 12 + data.length := by
    have := number_put32 (12 + data.length) (by omega) []
    rwa [List.append_nil] at this
  refine ⟨h1, h2, put32 (12 + data.length), _, rfl, put32_length _, hs, ?_, rfl⟩
  rw [isCrc32_iff]
  generalize crc (id ++ (put32 (12 + data.length) ++ ([0#8, 0#8, 0#8, 0#8] ++ data))) = c
  have := number_put32 c.toNat c.isLt []
  rw [List.append_nil] at this
  rw [this, BitVec.ofNat_toNat, BitVec.setWidth_eq]

def makeFile (l : List Piece) : List Byte := l.flatMap fun p => makeChunk p.id p.data ++ p.extra

theorem consists_make : ∀ (l : List Piece), (∀ p ∈ l, p.id.length = 4 ∧ 12 + p.data.length ≤ 0x100000) → Consists l (makeFile l)
  | [], _ => rfl
  | p :: l, h => ⟨makeChunk p.id p.data, makeFile l, isChunk_make (h p (by simp)).1 (h p (by simp)).2,
      consists_make l fun q hq => h q (by simp [hq]), by
        show (makeChunk p.id p.data ++ p.extra) ++ makeFile l = _
        rw [List.append_assoc]⟩

/-- A stream of elements, each length in three bytes. -/
def makeStream : List Elem → List Byte
  | [] => [0#8]
  | e :: es => BitVec.ofNat 8 (96 + e.kind.code) :: ((put32 e.bytes.length).drop 1 ++ (e.bytes ++ makeStream es))

theorem stream_make : ∀ (es : List Elem) (r : List Byte), (∀ e ∈ es, e.bytes.length < 2 ^ 24) → Stream es (makeStream es ++ r)
  | [], r, _ => ⟨r, rfl⟩
  | e :: es, r, h => by
    refine ⟨BitVec.ofNat 8 (96 + e.kind.code), (put32 e.bytes.length).drop 1, makeStream es ++ r, ?_, ?_, ?_,
      stream_make es r fun x hx => h x (by simp [hx]), ?_⟩
    · cases e.kind <;> rfl
    · show _ = 3
      cases e.kind <;> rfl
    · have hl := h e (by simp)
      unfold put32
      simp only [List.drop_succ_cons, List.drop_zero, value, List.length_cons, List.length_nil, BitVec.toNat_ofNat]
      omega
    · rw [makeStream, List.cons_append, List.append_assoc, List.append_assoc]

/-- The extra data of a track of one block. -/
def oneEdb (b : IpfFile.Block) : List Byte := words [0, b.gap, 32, 0, 2, 0, 0, 32] ++ makeStream b.elems

/-- An entry of one block. -/
def oneEntry (t : IpfFile.Track) (b : IpfFile.Block) (key : Nat) : Entry where
  track := { t with blocks := [b] }
  key := key
  image := words [t.ch.c, t.ch.h, 2, 1, 0, 0, t.start, 0, 0, t.cells, 1, 0, 0, key, 0, 0, 0]
  record := words [(oneEdb b).length, 0, 0, key]
  edb := oneEdb b

theorem one_says {room : Nat} (v2 : Bool) {t : IpfFile.Track} {b : IpfFile.Block} {key : Nat}
    (h : t.ch.c < 2 ^ 32 ∧ t.ch.h < 2 ^ 32 ∧ t.start < 2 ^ 32 ∧ t.cells < 2 ^ 32 ∧ b.gap < 2 ^ 32 ∧ key < 2 ^ 32)
    (hb : (oneEdb b).length < 2 ^ 32) (he : ∀ e ∈ b.elems, e.bytes.length < 2 ^ 24)
    (hev : ∀ e ∈ b.elems, e.kind = .sync → e.bytes.length % 2 = 0) : (oneEntry t b key).Says room v2 := by
  obtain ⟨h1, h2, h3, h4, h5, h6⟩ := h
  have hi : ∀ k < 17, number (oneEntry t b key).image (4 * k) =
      [t.ch.c, t.ch.h, 2, 1, 0, 0, t.start, 0, 0, t.cells, 1, 0, 0, key, 0, 0, 0].getD k 0 := by
    intro k hk
    have := number_words [t.ch.c, t.ch.h, 2, 1, 0, 0, t.start, 0, 0, t.cells, 1, 0, 0, key, 0, 0, 0] (by simp; omega) [] k hk
    rwa [List.append_nil] at this
  have hr : ∀ k < 4, number (oneEntry t b key).record (4 * k) = [(oneEdb b).length, 0, 0, key].getD k 0 := by
    intro k hk
    have := number_words [(oneEdb b).length, 0, 0, key] (by simp; omega) [] k hk
    rwa [List.append_nil] at this
  have hd : ∀ k < 8, number (oneEntry t b key).edb (4 * k) = [0, b.gap, 32, 0, 2, 0, 0, 32].getD k 0 := by
    intro k hk
    exact number_words [0, b.gap, 32, 0, 2, 0, 0, 32] (by simp; omega) _ k hk
  refine ⟨?_, hi 0 (by omega), hi 1 (by omega), hi 6 (by omega), hi 9 (by omega), hi 10 (by omega), hi 13 (by omega), ?_,
    hr 0 (by omega), hr 3 (by omega), ?_, ?_⟩
  · show 68 ≤ (words _).length
    rw [words_length]; simp
  · show 16 ≤ (words _).length
    rw [words_length]; simp
  · show 32 * [b].length ≤ (words _ ++ _).length
    rw [List.length_append, words_length]; simp
  · intro i b' hib
    have hi0 : i = 0 ∧ b = b' := by
      cases i with
      | zero => exact ⟨rfl, by simpa [oneEntry] using hib⟩
      | succ i => simp [oneEntry] at hib
    obtain ⟨rfl, rfl⟩ := hi0
    have d1 : number (oneEntry t b key).edb (4 * 1) = b.gap := hd 1 (by omega)
    have d5 : number (oneEntry t b key).edb (4 * 5) = 0 := hd 5 (by omega)
    have d7 : number (oneEntry t b key).edb (4 * 7) = 32 := hd 7 (by omega)
    refine ⟨d1, ?_, hev, ?_, ?_⟩
    · rw [show 32 * 0 + 28 = 4 * 7 from rfl, d7]
      show Stream b.elems ((words _ ++ makeStream b.elems).drop 32)
      rw [List.drop_left' (by rw [words_length]; rfl)]
      have := stream_make b.elems [] he
      rwa [List.append_nil] at this
    · intro _
      rw [show 32 * 0 + 20 = 4 * 5 from rfl, d5]
    · intro _ _
      rw [show 32 * 0 + 20 = 4 * 5 from rfl, d5]
      exact ⟨_, _, by rw [if_neg (by decide)], by rw [if_neg (by decide)]⟩

/-- An INFO chunk. -/
def oneInfo (v2 : Bool) (maxTrack maxSide : Nat) : List Byte :=
  words [1, if v2 then 2 else 1, 1, 0, 0, 0, 0, maxTrack, 0, maxSide, 0, 0, 0, 0, 0, 0, 0, 0, 0, 0, 0]

/-- The file of such entries. -/
def fileOf (v2 : Bool) (maxTrack maxSide : Nat) (xs zs : List Entry) : List Byte :=
  makeFile (⟨caps, [], []⟩ :: ⟨info, oneInfo v2 maxTrack maxSide, []⟩ ::
    (xs.map (fun x => ⟨imge, x.image, []⟩) ++ zs.map fun x => ⟨IpfFile.data, x.record, x.edb⟩))

theorem isFile_of {room : Nat} (v2 : Bool) {maxTrack maxSide : Nat} {xs zs : List Entry} (h : maxTrack < 2 ^ 32 ∧ maxSide < 2 ^ 32)
    (hs : ∀ x ∈ xs, x.Says room v2) (hk : (xs.map Entry.key).Nodup) (hx : ∀ x ∈ xs, x.image.length ≤ 1000)
    (hz : ∀ x ∈ zs, x.record.length ≤ 1000) : IsFile room v2 xs zs (oneInfo v2 maxTrack maxSide) (fileOf v2 maxTrack maxSide xs zs) := by
  have hl : (oneInfo v2 maxTrack maxSide).length = 84 := by unfold oneInfo; rw [words_length]; rfl
  refine ⟨⟨[], consists_make _ ?_⟩, by rw [hl], ?_, hs, hk⟩
  · intro p hp
    simp only [List.mem_cons, List.mem_append, List.mem_map] at hp
    rcases hp with rfl | rfl | ⟨x, hx', rfl⟩ | ⟨x, hx', rfl⟩
    · exact ⟨rfl, by simp⟩
    · exact ⟨rfl, by simp [hl]⟩
    · have := hx x hx'; exact ⟨rfl, by show 12 + x.image.length ≤ _; omega⟩
    · have := hz x hx'; exact ⟨rfl, by show 12 + x.record.length ≤ _; omega⟩
  · have := number_words [1, if v2 then 2 else 1, 1, 0, 0, 0, 0, maxTrack, 0, maxSide, 0, 0, 0, 0, 0, 0, 0, 0, 0, 0, 0]
      (by cases v2 <;> simp <;> omega) [] 1 (by simp)
    rw [List.append_nil] at this
    exact this

end Ipf
end Fox
