import Verif.Model.Imd
import Verif.Spec.Psi
/-
Specification of IMD files: what a described track looks like in a file and which sectors it stands for.
-/
namespace Fox.Spec

/-- The contents of a sector record: not available; its bytes; one byte repeated; the latter two may be
deleted data or data read with an error. -/
inductive ImdBody where
  | missing
  | data (d : List Byte) (deleted error : Bool)
  | fill (b : Byte) (deleted error : Bool)

/-- A sector: its number, the cylinder and head of its id (used if the track has the maps), its contents. -/
structure ImdSec where
  s : Nat
  c : Nat
  h : Nat
  body : ImdBody

/-- A track: mode, size code, whether it has a cylinder map and a head map, its sectors. -/
structure ImdTrk where
  mode : Nat
  n : Nat
  cylMap : Bool
  headMap : Bool
  secs : List ImdSec

/-- The type byte of a sector record: 1 for data, plus 2 for deleted data, plus 4 for an error, plus 1 if
compressed. -/
def ImdBody.bytes : ImdBody → List Byte
  | .missing => [0#8]
  | .data d del err => byteOf (1 + (if del then 2 else 0) + (if err then 4 else 0)) :: d
  | .fill b del err => [byteOf (2 + (if del then 2 else 0) + (if err then 4 else 0)), b]

/-- A track of the file: header, sector numbering map, optional maps, sector records. -/
def ImdTrk.bytes (ch : Ch) (t : ImdTrk) : List Byte :=
  [byteOf t.mode, byteOf ch.c, byteOf (ch.h + (if t.cylMap then 0x80 else 0) + (if t.headMap then 0x40 else 0)),
    byteOf t.secs.length, byteOf t.n] ++
  t.secs.map (fun x => byteOf x.s) ++
  (if t.cylMap then t.secs.map (fun x => byteOf x.c) else []) ++
  (if t.headMap then t.secs.map (fun x => byteOf x.h) else []) ++
  t.secs.flatMap fun x => x.body.bytes

/-- The contents it stands for. -/
def ImdBody.contents (n : Nat) : ImdBody → List Byte
  | .missing => []
  | .data d _ _ => d
  | .fill b _ _ => List.replicate (128 * 2 ^ n) b

/-- Deleted data. -/
def ImdBody.deleted : ImdBody → Bool
  | .missing => false
  | .data _ del _ => del
  | .fill _ del _ => del

/-- Data read with an error. -/
def ImdBody.error : ImdBody → Bool
  | .missing => false
  | .data _ _ err => err
  | .fill _ _ err => err

/-- The sector a record stands for. -/
def ImdTrk.sector (ch : Ch) (t : ImdTrk) (x : ImdSec) : MetaSector :=
  { id := ⟨if t.cylMap then x.c else ch.c, if t.headMap then x.h else ch.h, x.s, t.n⟩,
    dataError := x.body.error, deletedMark := x.body.deleted, data := x.body.contents t.n,
    weak := .empty (x.body.contents t.n).length, hole := .empty (x.body.contents t.n).length }

/-- The fields fit the format, except that deleted data with an error (types 7 and 8) is left out. -/
structure ImdTrk.Ok (t : ImdTrk) : Prop where
  mode : t.mode < 6
  n : t.n < 7
  count : t.secs.length < 256
  secs : ∀ x ∈ t.secs, x.s < 256 ∧ x.c < 256 ∧ x.h < 256 ∧ (x.body.deleted && x.body.error) = false ∧
    ∀ d del err, x.body = .data d del err → d.length = 128 * 2 ^ t.n

/-- The file: a text, the terminator, the tracks. -/
def imdFile (text : List Byte) (ts : List (Ch × ImdTrk)) : List Byte :=
  text ++ 0x1A#8 :: ts.flatMap fun t => t.2.bytes t.1

/-- The tracks it describes. -/
def imdTracks (ts : List (Ch × ImdTrk)) : List (Ch × List MetaSector) :=
  ts.map fun t => (t.1, t.2.secs.map (t.2.sector t.1))

/-- A header text: no byte ends it. -/
def ImdText (text : List Byte) : Prop := ∀ b ∈ text, b ≠ 0x1A#8 ∧ b ≠ 0#8

end Fox.Spec
