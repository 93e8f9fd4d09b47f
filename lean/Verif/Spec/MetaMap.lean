import Verif.Model.MetaSector
import Verif.Spec.TrackMap
/-
Specification of a sector-list track as a list of (id, contents, flags), with what a user sees.
-/
namespace Fox.Spec

/-- A sector as the user knows it. -/
structure MSec where
  id : Chsn
  data : List Byte
  deleted : Bool := false
  badData : Bool := false
  badHeader : Bool := false
  deriving DecidableEq

/-- Operations on a sector-list track. -/
inductive MetaOp where
  | add (s : MSec)
  | write (q : Query) (buf : List Byte) (deleted : Bool)
  | read (rnd : Nat → Byte) (q : Query)

/-- What the user sees. -/
inductive MetaOutcome where
  | done
  | found (data : List Byte) (deleted badData badHeader : Bool)
  | notFound
  | refused
  | ambiguous
  | unwritable
  | other
  deriving DecidableEq

/-- One operation on the specification: a read returns the first sector that agrees with the query; a
write changes the contents of the only sector that agrees with the query, if the buffer has that sector's
size and its header is good, and changes nothing otherwise. -/
def metaMapStep (m : List MSec) : MetaOp → List MSec × MetaOutcome
  | .add s => (m ++ [s], .done)
  | .read _ q => match m.find? (fun s => agrees q s.id) with
    | none => (m, .notFound)
    | some s => (m, .found s.data s.deleted s.badData s.badHeader)
  | .write q buf deleted => match m.filter (fun s => agrees q s.id) with
    | [] => (m, .notFound)
    | [s] =>
      if buf.length ≠ s.data.length then (m, .refused)
      else if s.badHeader then (m, .unwritable)
      else (m.map (fun x => if agrees q x.id then { x with data := buf, deleted := deleted } else x), .done)
    | _ => (m, .ambiguous)

/-- Outcomes of a history on the specification. -/
def metaMapRun : List MSec → List MetaOp → List MetaOutcome
  | _, [] => []
  | m, op :: ops => (metaMapStep m op).2 :: metaMapRun (metaMapStep m op).1 ops

/-- The specification state after a history. -/
def metaMapAfter : List MSec → List MetaOp → List MSec
  | m, [] => m
  | m, op :: ops => metaMapAfter (metaMapStep m op).1 ops

/-- What a `read_sector` call shows. -/
def seenMetaRead : Except Err ReadResult → MetaOutcome
  | .ok r => if r.notFound then .notFound else if r.noDam then .other
    else .found r.bytes r.deletedMark r.dataCrcError r.addressCrcError
  | .error _ => .other

/-- What a `write_sector` call shows. -/
def seenMetaWrite : Except Err (WriteResult × MetaTrack) → MetaOutcome
  | .ok (r, _) => if r.notFound then .notFound else if r.noDam then .other
    else if r.addressCrcError then .unwritable else .done
  | .error .parameter => .refused
  | .error .uniqueId => .ambiguous
  | .error _ => .other

/-- One operation on the modelled track. -/
def metaStep (t : MetaTrack) : MetaOp → MetaTrack × MetaOutcome
  | .add s => match t.addSector { id := s.id, data := s.data, addressError := s.badHeader,
                                  dataError := s.badData, deletedMark := s.deleted } with
    | .ok t' => (t', .done)
    | .error _ => (t, .other)
  | .read rnd q => (t, seenMetaRead (t.readSector rnd q .dataOnly))
  | .write q buf deleted =>
    let r := t.writeSector q buf deleted
    ((match r with | .ok (_, t') => t' | .error _ => t), seenMetaWrite r)

/-- Outcomes of a history on the modelled track. -/
def metaRun : MetaTrack → List MetaOp → List MetaOutcome
  | _, [] => []
  | t, op :: ops => (metaStep t op).2 :: metaRun (metaStep t op).1 ops

/-- The modelled track after a history. -/
def metaAfter : MetaTrack → List MetaOp → MetaTrack
  | t, [] => t
  | t, op :: ops => metaAfter (metaStep t op).1 ops

/-- Sectors are added with as many bytes as their size code says. -/
def MetaOp.Ok : MetaOp → Prop
  | .add s => s.data.length = s.id.size
  | _ => True

/-- The observed outcomes are the specified ones, except that a write to a missing sector may be seen as
done. -/
def SeenAs : List MetaOp → List MetaOutcome → List MetaOutcome → Prop
  | [], [], [] => True
  | op :: ops, e :: es, r :: rs =>
    (r = e ∨ (∃ q buf d, op = .write q buf d) ∧ e = .notFound ∧ r = .done) ∧ SeenAs ops es rs
  | _, _, _ => False

/-- Byte `b'` agrees with `b` on every bit not set in `mask`. -/
def SameOutside (mask b b' : Byte) : Prop := ∀ k, k < 8 → mask.getLsbD k = false → b'.getLsbD k = b.getLsbD k

end Fox.Spec
