import Verif.Model.Mfm
import Verif.Model.Chs
/-
Specification of the AmigaDOS track layout on a stream of cells (the trackdisk format the module cites).
Every second cell carries data; the cells in between are clock and may be anything, except in sync marks.
-/
namespace Fox.Spec

/-- The data cells of 32 cells from `p` are those of the long word `v`. -/
def HasLong (cell : Nat → Bool) (p : Nat) (v : BitVec 32) : Prop :=
  ∀ k, k < 16 → cell (p + 2 * k + 1) = v.getMsbD (2 * k + 1)

/-- A long word stored odd bits first: the odd bits (shifted right) at `p`, the even bits at `q`. -/
def TwoHalves (cell : Nat → Bool) (p q : Nat) (v : BitVec 32) : Prop :=
  HasLong cell p (v >>> 1) ∧ HasLong cell q v

/-- The exclusive or of the two encoded halves of a long word, data bits only. -/
def fold55 (v : BitVec 32) : BitVec 32 := ((v >>> 1) &&& 0x55555555#32) ^^^ (v &&& 0x55555555#32)

/-- The AmigaDOS checksum of long words: the exclusive or of all encoded longs, data bits only. -/
def amigaSum : List (BitVec 32) → BitVec 32
  | [] => 0
  | v :: vs => fold55 v ^^^ amigaSum vs

/-- Big-endian bytes of long words. -/
def longBytes (vs : List (BitVec 32)) : List Byte :=
  vs.flatMap fun v => [v.extractLsb' 24 8, v.extractLsb' 16 8, v.extractLsb' 8 8, v.extractLsb' 0 8]

/-- The data part of a sector at cell `p`: checksum, then 128 long words, all odd halves before all even
halves. -/
structure AmigaData (cell : Nat → Bool) (p : Nat) (vs : List (BitVec 32)) : Prop where
  len : vs.length = 128
  sum : TwoHalves cell p (p + 32) (amigaSum vs)
  body : ∀ i, i < 128 → TwoHalves cell (p + 64 + 32 * i) (p + 64 + 4096 + 32 * i) (vs.getD i 0)

/-- The header of a sector whose sync words start at cell `p`: an info long, a label of four longs (odd halves
first), and the checksum of the five. -/
structure AmigaHeader (cell : Nat → Bool) (p : Nat) (info : BitVec 32) (label : List (BitVec 32)) : Prop where
  labelLen : label.length = 4
  infoAt : TwoHalves cell (p + 32) (p + 64) info
  labelAt : ∀ i, i < 4 → TwoHalves cell (p + 96 + 32 * i) (p + 224 + 32 * i) (label.getD i 0)
  sumAt : TwoHalves cell (p + 352) (p + 384) (amigaSum (info :: label))

/-- The info long `FF tt ss gg` of a sector. -/
def amigaInfo (x : Chsn) (toGap : Byte) : BitVec 32 :=
  (0xFF#8 : BitVec 8) ++ BitVec.ofNat 8 (2 * x.c + x.h) ++ BitVec.ofNat 8 x.s ++ toGap

/-- The two sync words `4489 4489` stand at cell `p` of a track of `len` cells, after 31 cells of two zero
bytes. -/
def SyncAt (cell : Nat → Bool) (len p : Nat) : Prop :=
  32 ≤ p ∧ p + 32 ≤ len ∧ ∀ k, 1 ≤ k → k < 64 → cell (p - 32 + k) = (0x2AAAAAAA44894489#64).getMsbD k

/-- One sector of a track. -/
structure AmigaSector where
  /-- The cell of its sync words. -/
  pos : Nat
  id : Chsn
  toGap : Byte
  label : List (BitVec 32)
  body : List (BitVec 32)

/-- A track of `len` cells that holds exactly the sectors `secs`, in track order, not overlapping (a sector is
542 bytes of 16 cells, counted from its sync words; the last one may run over the end of the track). -/
structure AmigaTrack (cell : Nat → Bool) (len : Nat) (secs : List AmigaSector) : Prop where
  sync : ∀ p, SyncAt cell len p ↔ ∃ x ∈ secs, x.pos = p
  order : secs.Pairwise fun a b => a.pos + 8672 ≤ b.pos
  header : ∀ x ∈ secs, AmigaHeader cell x.pos (amigaInfo x.id x.toGap) x.label
  data : ∀ x ∈ secs, AmigaData cell (x.pos + 416) x.body
  ids : ∀ x ∈ secs, x.id.c < 128 ∧ x.id.h < 2 ∧ x.id.s < 256 ∧ x.id.n = 2

end Fox.Spec
