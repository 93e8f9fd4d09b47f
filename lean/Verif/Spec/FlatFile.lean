import Verif.Model.SectorView
import Verif.Spec.Raw
import Verif.Spec.Chs
/-
Specification: a file of fixed size with a position, and the histories for which the sector view is claimed
to behave like one.
-/
namespace Fox.Spec

/-- A file of fixed size and a position in it. -/
structure FlatFile where
  data : List Byte
  pos : Nat

/-- A call on a byte stream.  `nz` is the randomness the disk may use meanwhile. -/
inductive IoOp where
  | seek (nz : Chs → Noise) (s : SeekFrom)
  | read (nz : Chs → Noise) (n : Nat)
  | write (nz : Chs → Noise) (buf : List Byte)
  | flush

/-- What a call shows. -/
inductive IoSeen where
  | pos (n : Nat)
  | bytes (l : List Byte)
  | count (n : Nat)
  | done
  | failed
  deriving DecidableEq

/-- Overwrite the bytes from `off` on. -/
def overwrite (l : List Byte) (off : Nat) (buf : List Byte) : List Byte :=
  l.take off ++ buf ++ l.drop (off + buf.length)

namespace FlatFile

/-- Where a seek goes. -/
def target (F : FlatFile) : SeekFrom → Int
  | .start n => n
  | .fin i => F.data.length + i
  | .cur i => F.pos + i

/-- One call on the file: seeks go anywhere from zero on, reads and writes stop at the end. -/
def step (F : FlatFile) : IoOp → FlatFile × IoSeen
  | .seek _ s => if F.target s < 0 then (F, .failed) else (⟨F.data, (F.target s).toNat⟩, .pos (F.target s).toNat)
  | .read _ n => (⟨F.data, F.pos + (slice F.data F.pos n).length⟩, .bytes (slice F.data F.pos n))
  | .write _ buf =>
    let got := buf.take (F.data.length - F.pos)
    (⟨overwrite F.data F.pos got, F.pos + got.length⟩, .count got.length)
  | .flush => (F, .done)

/-- A history on the file. -/
def run : FlatFile → List IoOp → FlatFile × List IoSeen
  | F, [] => (F, [])
  | F, op :: ops => let r := run (F.step op).1 ops; (r.1, (F.step op).2 :: r.2)

end FlatFile

/-- Bookkeeping about a history: the sector written since it was last flushed or left, and whether a transfer
has run into the end since the last seek. -/
structure Book where
  dirty : Option Nat
  ended : Bool

/-- How the bookkeeping goes on; sectors have `sz` bytes. -/
def Book.step (sz : Nat) (F : FlatFile) (b : Book) : IoOp → Book
  | .seek _ s => ⟨if b.dirty = some ((F.target s).toNat / sz) then b.dirty else none, false⟩
  | .read _ n => ⟨b.dirty, b.ended || decide (F.data.length < F.pos + n)⟩
  | .write _ buf =>
    if buf = [] then b else if F.data.length ≤ F.pos then ⟨b.dirty, true⟩ else ⟨some (F.pos / sz), b.ended⟩
  | .flush => ⟨none, b.ended⟩

/-- The calls covered, for `spt` sectors of `sz` bytes per track:
* seeks go to a byte of the file; after running into the end they are absolute and do not go to the first
  sector of the last track; with unflushed bytes they stay on the track;
* reads do not leave a sector with unflushed bytes;
* writes stay within one sector (or are at the end of the file), and do not leave a sector with unflushed
  bytes. -/
def Calm (sz spt : Nat) (F : FlatFile) (b : Book) : IoOp → Prop
  | .seek _ s =>
    0 ≤ F.target s ∧ F.target s < F.data.length ∧
    (∀ k, b.dirty = some k → (F.target s).toNat / sz / spt = k / spt) ∧
    (b.ended = true → (∀ i, s ≠ .cur i) ∧ (F.target s).toNat / sz + spt ≠ F.data.length / sz)
  | .read _ n => ∀ k, b.dirty = some k → F.pos + n ≤ (k + 1) * sz
  | .write _ buf => buf ≠ [] →
    (∀ k, b.dirty = some k → F.pos + buf.length ≤ (k + 1) * sz) ∧
    (F.pos = F.data.length ∨ F.pos + buf.length ≤ (F.pos / sz + 1) * sz)
  | .flush => True

/-- Every call of the history is covered. -/
def CalmRun (sz spt : Nat) : FlatFile → Book → List IoOp → Prop
  | _, _, [] => True
  | F, b, op :: ops => Calm sz spt F b op ∧ CalmRun sz spt (F.step op).1 (b.step sz F op) ops

/-- The bookkeeping at the end of a history. -/
def Book.run (sz : Nat) : FlatFile → Book → List IoOp → Book
  | _, b, [] => b
  | F, b, op :: ops => Book.run sz (F.step op).1 (b.step sz F op) ops

/-- One call on the modelled view. -/
def viewStep (v : View) : IoOp → View × IoSeen
  | .seek nz s => let r := v.seek nz s; (r.1, match r.2 with | .ok n => .pos n | .error _ => .failed)
  | .read nz n => let r := v.read nz n; (r.1, match r.2 with | .ok l => .bytes l | .error _ => .failed)
  | .write nz buf => let r := v.write nz buf; (r.1, match r.2 with | .ok n => .count n | .error _ => .failed)
  | .flush => let r := v.flush; (r.1, match r.2 with | .ok () => .done | .error _ => .failed)

/-- A history on the modelled view. -/
def viewRun : View → List IoOp → View × List IoSeen
  | v, [] => (v, [])
  | v, op :: ops => let r := viewRun (viewStep v op).1 ops; (r.1, (viewStep v op).2 :: r.2)

/-- Every sector of the layout reads as the bytes of the file at its place. -/
def SectorsAre (g : Layout) (d : Disk) (file : List Byte) : Prop :=
  ∀ x nz, InLayout g x → d.readBasic nz ⟨x.c, x.h⟩ (.ofChsn ⟨x.c, x.h, x.s, g.n⟩) none =
    .ok (fileSector file g.size (lbaOf g x))

end Fox.Spec
