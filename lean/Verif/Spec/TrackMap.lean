import Verif.Spec.Format
/-
Specification of a track as a map from sector ids to contents, with the operations a user performs and
what the user observes.
-/
namespace Fox.Spec
open Fox.S34

/-- The id agrees with every field the query fixes (the sector number is always fixed). -/
def agrees (q : Query) (x : Chsn) : Bool :=
  q.s == x.s && q.c.all (· == x.c) && q.h.all (· == x.h) && q.n.all (· == x.n)

/-- The sectors of a track in track order: id and contents. -/
abbrev SectorMap := List (Chsn × List Byte)

/-- Contents of the first sector that agrees with the query. -/
def SectorMap.lookup (q : Query) : SectorMap → Option (List Byte)
  | [] => none
  | e :: m => if agrees q e.1 then some e.2 else SectorMap.lookup q m

/-- Replace the contents of the first sector that agrees with the query. -/
def SectorMap.update (q : Query) (buf : List Byte) : SectorMap → SectorMap
  | [] => []
  | e :: m => if agrees q e.1 then (e.1, buf) :: m else e :: SectorMap.update q buf m

/-- The sectors of a freshly formatted track; the pattern goes on from one sector to the next. -/
def SectorMap.fresh (pat : List Byte) : Nat → List Chsn → SectorMap
  | _, [] => []
  | off, x :: xs => (onDisk x, fillBytes pat off x.size) :: SectorMap.fresh pat (off + x.size) xs

/-- Operations on a track. -/
inductive TrackOp where
  | format (rnd : Nat → Bool) (std : Standard) (ids : List Chsn) (pat : List Byte) (gap3 : Nat)
  | write (q : Query) (buf : List Byte) (deleted debug : Bool)
  | read (rnd : Nat → Bool) (q : Query) (debug : Bool)
  | rescan (rnd : Nat → Bool)

/-- What the user sees: success, clean sector contents, sector not found, request refused, or anything
else (a flagged read, a partial result, a panic). -/
inductive Outcome where
  | done
  | bytes (l : List Byte)
  | notFound
  | refused
  | other
  deriving DecidableEq

/-- One operation on the map. -/
def mapStep (m : SectorMap) : TrackOp → SectorMap × Outcome
  | .format _ _ ids pat _ => if pat = [] then (m, .refused) else (.fresh pat 0 ids, .done)
  | .write q buf deleted _ => match m.lookup q with
    | none => (m, .notFound)
    | some old => if deleted = true ∨ buf.length ≠ old.length then (m, .refused) else (m.update q buf, .done)
  | .read _ q _ => match m.lookup q with
    | none => (m, .notFound)
    | some d => (m, .bytes d)
  | .rescan _ => (m, .done)

/-- The outcomes of a history on the map. -/
def mapRun : SectorMap → List TrackOp → List Outcome
  | _, [] => []
  | m, op :: ops => (mapStep m op).2 :: mapRun (mapStep m op).1 ops

/-- A read result with no flag raised and equal recorded and computed checksums. -/
def cleanRead (r : ReadResult) : Bool :=
  !r.noDam && !r.deletedMark && !r.addressCrcError && !r.dataCrcError && !r.wrongCylinder &&
    !r.badCylinder && !r.wrongHead && (match r.dataCrc with | some (a, b) => a == b | none => false)

/-- What a `read_sector` call shows the user. -/
def seenRead : Except Err ReadResult → Outcome
  | .ok r => if r.notFound then .notFound else if cleanRead r then .bytes r.bytes else .other
  | .error .parameter => .refused
  | .error _ => .other

/-- What a `write_sector` call shows the user. -/
def seenWrite : Except Err (WriteResult × Track) → Outcome
  | .ok (r, _) => if r.notFound then .notFound else if r = {} then .done else .other
  | .error .parameter => .refused
  | .error _ => .other

/-- What a `format` or `rescan` call shows the user. -/
def seenTrack : Except Err Track → Outcome
  | .ok _ => .done
  | .error .parameter => .refused
  | .error _ => .other

/-- One operation on the modelled track (a failed call leaves the track as it was). -/
def trackStep (t : Track) : TrackOp → Track × Outcome
  | .format rnd std ids pat gap3 =>
    let r := t.format rnd std ids pat gap3
    ((match r with | .ok t' => t' | .error _ => t), seenTrack r)
  | .write q buf deleted debug =>
    let r := t.writeSector q none buf deleted debug
    ((match r with | .ok (_, t') => t' | .error _ => t), seenWrite r)
  | .read rnd q debug => (t, seenRead (t.readSector rnd q none none .dataOnly debug))
  | .rescan rnd =>
    let r := t.rescan34 rnd
    ((match r with | .ok t' => t' | .error _ => t), seenTrack r)

/-- The outcomes of a history on the modelled track. -/
def trackRun : Track → List TrackOp → List Outcome
  | _, [] => []
  | t, op :: ops => (trackStep t op).2 :: trackRun (trackStep t op).1 ops

/-- The track after a history. -/
def trackAfter : Track → List TrackOp → Track
  | t, [] => t
  | t, op :: ops => trackAfter (trackStep t op).1 ops

/-- The operation is meaningful on a track of `cells` cells: a format request has well-formed ids and
fits. -/
def TrackOp.Ok (cells : Nat) : TrackOp → Prop
  | .format _ std ids _ gap3 => (∀ x ∈ ids, x.WF) ∧ Fits std gap3 ids cells
  | _ => True

/-- Not a format request. -/
def TrackOp.KeepsLayout : TrackOp → Prop
  | .format .. => False
  | _ => True

end Fox.Spec
