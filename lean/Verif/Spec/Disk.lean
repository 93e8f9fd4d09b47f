import Verif.Model.Disk
/-
Specification vocabulary for a disk image: histories of operations, consistency of the track tables,
one resolution per disk.
-/
namespace Fox.Spec

/-- Operations on a disk image.  For the additions, `made` is what constructing the track from the
caller's data gives. -/
inductive DiskOp where
  | addBit (ch : Ch) (made : Except Err Track)
  | addMeta (ch : Ch)
  | addFlux (ch : Ch) (made : Except Err (Option Track))
  | addEmpty (ch : Ch) (enc : Encoding) (res : Option Resolution) (cells : Nat) (clock : Option Bool)
  | write (ch : Ch) (q : Query) (offset : Option Nat) (buf : List Byte) (deleted debug : Bool)
  | format (nz : Noise) (ch : Ch) (ids : List Chsn) (pat : List Byte) (gap3 : Nat)
  | normalize (H : List Byte → Nat) (nz : Noise)
  | removeEmpty
  | reset

/-- The disk after one operation. -/
def diskStep (d : Disk) : DiskOp → Disk
  | .addBit ch made => (d.addBit ch made).1
  | .addMeta ch => (d.addMeta ch).1
  | .addFlux ch made => (d.addFlux ch made).1
  | .addEmpty ch enc res cells clock => (d.addEmpty ch enc res cells clock).1
  | .write ch q off buf del dbg => (d.writeSector ch q off buf del dbg).1
  | .format nz ch ids pat gap3 => (d.formatTrack nz ch ids pat gap3).1
  | .normalize H nz => d.normalize H nz
  | .removeEmpty => d.removeEmpty
  | .reset => d.reset

/-- The error an operation reports, if any. -/
def diskErr (d : Disk) : DiskOp → Option Err
  | .addBit ch made => errOf (d.addBit ch made).2
  | .addMeta ch => errOf (d.addMeta ch).2
  | .addFlux ch made => errOf (d.addFlux ch made).2
  | .addEmpty ch enc res cells clock => errOf (d.addEmpty ch enc res cells clock).2
  | .write ch q off buf del dbg => errOf (d.writeSector ch q off buf del dbg).2
  | .format nz ch ids pat gap3 => errOf (d.formatTrack nz ch ids pat gap3).2
  | _ => none
where
  /-- The error of a result. -/
  errOf {α : Type} : Except Err α → Option Err
    | .ok _ => none
    | .error e => some e

/-- The disk after a history. -/
def diskAfter : Disk → List DiskOp → Disk
  | d, [] => d
  | d, op :: ops => diskAfter (diskStep d op) ops

/-- The operation adds a track. -/
def DiskOp.Adds : DiskOp → Prop
  | .addBit .. | .addMeta .. | .addFlux .. | .addEmpty .. => True
  | _ => False

/-- The operation takes tracks off the disk. -/
def DiskOp.Removes : DiskOp → Prop
  | .normalize .. | .removeEmpty => True
  | _ => False

/-- Every table entry points to a live track recorded under that head, and no track is listed twice. -/
structure Live (d : Disk) : Prop where
  live : ∀ h, h < 2 → ∀ i ∈ d.headMap h, ∃ t : DiskTrack, d.pool[i]? = some t ∧ t.ch.h = h
  once : (d.map0 ++ d.map1).Nodup

/-- Every track of the pool is listed. -/
def AllListed (d : Disk) : Prop := ∀ i, i < d.pool.length → i ∈ d.map0 ++ d.map1

/-- Every listed track records its own position. -/
def InPlace (d : Disk) : Prop :=
  ∀ h c i, h < 2 → (d.headMap h)[c]? = some i → ∃ t : DiskTrack, d.pool[i]? = some t ∧ t.ch = ⟨c, h⟩

/-- The operation, if it adds a track, adds it at the next free cylinder of its head. -/
def DiskOp.AtNext (d : Disk) : DiskOp → Prop
  | .addBit ch _ => ch.c = (d.headMap ch.h).length
  | .addMeta ch => ch.c = (d.headMap ch.h).length
  | .addFlux ch _ => ch.c = (d.headMap ch.h).length
  | _ => True

/-- Every addition of the history is made at the next free cylinder. -/
def AllAtNext : Disk → List DiskOp → Prop
  | _, [] => True
  | d, op :: ops => op.AtNext d ∧ AllAtNext (diskStep d op) ops

/-- The resolution an addition asks for. -/
def DiskOp.asks : DiskOp → Option Resolution
  | .addBit .. => some .bitStream
  | .addMeta .. => some .metaSector
  | .addFlux .. => some .fluxStream
  | .addEmpty _ _ r _ _ => r
  | _ => none

/-- The track is on the disk. -/
def Listed (d : Disk) (t : DiskTrack) : Prop := ∃ i ∈ d.map0 ++ d.map1, d.pool[i]? = some t

/-- `spt` is what the disk's tracks say about the number of sectors per track: the common number of those that
have sectors, 0 if none has, nothing if two differ. -/
def CountsAs (d : Disk) (spt : Option Nat) : Prop :=
  match spt with
  | some 0 => ∀ t n, Listed d t → t.analysisCt = some n → n = 0
  | some n => (∃ t, Listed d t ∧ t.analysisCt = some n) ∧
      ∀ t m, Listed d t → t.analysisCt = some m → m = 0 ∨ m = n
  | none => ∃ t t' m n, Listed d t ∧ Listed d t' ∧ t.analysisCt = some m ∧ t'.analysisCt = some n ∧
      0 < m ∧ 0 < n ∧ m ≠ n

/-- The format whose geometry (cylinders rounded to 40 or 80, heads, sectors per track) the disk has. -/
def geometryFormat (d : Disk) (spt : Nat) : Option StdFormat :=
  match StdFormat.normalizedTrackCt d.map0.length with
  | none => none
  | some c => StdFormat.ofChs ⟨c, d.geometry.h, spt % 256⟩

end Fox.Spec
