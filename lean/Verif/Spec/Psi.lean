import Verif.Model.Psi
/-
Specification of PSI files: what a list of described sectors looks like as a file, and which sectors a disk
should then have.
-/
namespace Fox.Spec
open Pce OddEven

/-- Each track stands at the next free cylinder of its side. -/
def InOrder {α : Type} (ts : List (Ch × α)) : Prop :=
  ∀ (i : Nat) ch x, ts[i]? = some (ch, x) →
    ch.h < 2 ∧ ch.c = ((ts.take i).filter fun y => y.1.h == ch.h).length

/-- The disk's tracks are exactly these, each a list of sectors. -/
structure HasTracks (d : Disk) (ts : List (Ch × List MetaSector)) : Prop where
  there : ∀ ch secs, (ch, secs) ∈ ts → d.track ch = .ok (some (.sect { ch := ch, sectors := secs }))
  only : ∀ ch t, d.track ch = .ok (some t) → ∃ secs, (ch, secs) ∈ ts

/-- The contents of a sector: one repeated byte; its bytes; its bytes under an explicit IBM header. -/
inductive PsiBody where
  | fill (b : Byte)
  | data (d : List Byte)
  | ibm (id : Chsn) (addressError dataError deleted noDam : Bool) (d : List Byte)

/-- A sector: its number, its size code, the CRC flag of its header, its contents. -/
structure PsiSec where
  s : Nat
  n : Nat
  crcError : Bool
  body : PsiBody

/-- A byte. -/
def byteOf (x : Nat) : Byte := BitVec.ofNat 8 x

/-- A flag at a bit. -/
def flag (b : Bool) (v : Byte) : Byte := if b then v else 0#8

/-- The data of the SECT chunk: cylinder, head, sector, size, flags, fill byte. -/
def sectBytes (ch : Ch) (x : PsiSec) (flags fill : Byte) : List Byte :=
  [byteOf (ch.c / 256), byteOf ch.c, byteOf ch.h, byteOf x.s, byteOf (128 * 2 ^ x.n / 256),
   byteOf (128 * 2 ^ x.n), flags, fill]

/-- The data of the IBMM chunk. -/
def ibmBytes (id : Chsn) (ae de del nd : Bool) : List Byte :=
  [byteOf id.c, byteOf id.h, byteOf id.s, byteOf id.n,
   flag ae 1#8 ||| flag de 2#8 ||| flag del 4#8 ||| flag nd 8#8, 0#8]

/-- The chunks of a sector. -/
def PsiSec.chunks (ch : Ch) (x : PsiSec) : List Chunk :=
  match x.body with
  | .fill b => [⟨idSect, sectBytes ch x (1#8 ||| flag x.crcError 4#8) b⟩]
  | .data d => [⟨idSect, sectBytes ch x (flag x.crcError 4#8) 0#8⟩, ⟨idData, d⟩]
  | .ibm id ae de del nd d =>
    [⟨idSect, sectBytes ch x (flag x.crcError 4#8) 0#8⟩, ⟨idIbmm, ibmBytes id ae de del nd⟩, ⟨idData, d⟩]

/-- The sector it describes, without weak bits or holes. -/
def PsiSec.sector (ch : Ch) (x : PsiSec) : MetaSector :=
  match x.body with
  | .fill b => { id := ⟨ch.c, ch.h, x.s, x.n⟩, dataError := x.crcError, data := List.replicate (128 * 2 ^ x.n) b,
                 weak := .empty (128 * 2 ^ x.n), hole := .empty (128 * 2 ^ x.n) }
  | .data d => { id := ⟨ch.c, ch.h, x.s, x.n⟩, dataError := x.crcError, data := d,
                 weak := .empty d.length, hole := .empty d.length }
  | .ibm id ae de del nd d =>
    { id := id, addressError := ae, dataError := de, deletedMark := del, noDam := nd, data := d,
      weak := .empty d.length, hole := .empty d.length }

/-- The fields fit the format. -/
def PsiSec.Ok (x : PsiSec) : Prop := x.s < 256 ∧ x.n ≤ 8 ∧
  match x.body with
  | .fill _ => True
  | .data d => d.length ≤ maxChunk
  | .ibm id _ _ _ _ d => id.c < 256 ∧ id.h < 256 ∧ id.s < 256 ∧ id.n < 256 ∧ d.length ≤ maxChunk

/-- A PSI file with these chunks after its header. -/
def psiFile (a b : Byte) (cs : List Chunk) : List Byte :=
  (⟨idPsi, [0#8, 0#8, a, b]⟩ :: cs).flatMap writeChunk ++ footer

/-- The chunks of a list of tracks. -/
def psiChunks (ts : List (Ch × List PsiSec)) : List Chunk := ts.flatMap fun t => t.2.flatMap (PsiSec.chunks t.1)

/-- The tracks they describe. -/
def psiTracks (ts : List (Ch × List PsiSec)) : List (Ch × List MetaSector) :=
  ts.map fun t => (t.1, t.2.map (PsiSec.sector t.1))

/-- A chunk the loader takes no notice of: any but SECT, DATA, IBMM, END, and OFFS if it is too short. -/
def PsiIgnored (c : Chunk) : Prop :=
  c.id ≠ idSect ∧ c.id ≠ idData ∧ c.id ≠ idIbmm ∧ c.id ≠ idEnd ∧ (c.id = idOffs → 4 ≤ c.data.length)

instance : DecidablePred PsiIgnored := fun c => by unfold PsiIgnored; infer_instance

end Fox.Spec
