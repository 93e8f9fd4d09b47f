import Verif.Model.Chs
import Verif.Model.BitTrack
/-
Model of src/track/metasector.rs (`MetaSectorTrack`): a track stored as a list of sectors.
Encoding, schema, data rate and the shared write counter are not modelled (no modelled function reads
them).
-/
namespace Fox

/-- `MetaMask` (src/track/metasector.rs:98-150). -/
structure MetaMask where
  hasBits : Bool
  mask : List Byte
  deriving DecidableEq, Repr

namespace MetaMask

/-- `MetaMask::empty` (src/track/metasector.rs:104-109). -/
def empty (len : Nat) : MetaMask := ⟨false, List.replicate len 0#8⟩

/-- `MetaMask::from` / `set_mask` (src/track/metasector.rs:110-118). -/
def ofMask (m : List Byte) : MetaMask := ⟨m.any (· != 0#8), m⟩

/-- `MetaMask::or_slice` (src/track/metasector.rs:126-131): indexing past the end panics. -/
def orSlice (m : MetaMask) (src : List Byte) : Except Err MetaMask :=
  if src.length > m.mask.length then .error .panic
  else
    let v := (m.mask.zip (src ++ List.replicate (m.mask.length - src.length) 0#8)).map
      fun p => p.1 ||| p.2
    .ok ⟨v.any (· != 0#8), v⟩

end MetaMask

/-- `MetaSector` (src/track/metasector.rs:152-163). -/
structure MetaSector where
  id : Chsn
  addressError : Bool := false
  dataError : Bool := false
  deletedMark : Bool := false
  noDam : Bool := false
  data : List Byte
  weak : MetaMask
  hole : MetaMask
  deriving DecidableEq, Repr

/-- The loop of `MetaSector::read_data` (src/track/metasector.rs:171-179): `rnd` gives the random byte
drawn at each position; a non-zero mask byte beyond the data panics. -/
def applyMasks (rnd : Nat → Byte) : Nat → List Byte → List Byte → List Byte → Except Err (List Byte)
  | i, d, w :: ws, h :: hs =>
    match d with
    | [] => if w ||| h = 0#8 then applyMasks rnd (i + 1) [] ws hs else .error .panic
    | b :: ds =>
      match applyMasks rnd (i + 1) ds ws hs with
      | .error e => .error e
      | .ok r =>
        if w ||| h = 0#8 then .ok (b :: r)
        else .ok (((b &&& ~~~(w ||| h)) ||| (rnd i &&& (w ||| h))) :: r)
  | _, d, _, _ => .ok d

/-- `MetaSector::read_data` (src/track/metasector.rs:166-181). -/
def MetaSector.readData (s : MetaSector) (rnd : Nat → Byte) : Except Err (List Byte) :=
  if s.noDam then .ok [] else applyMasks rnd 0 s.data s.weak.mask s.hole.mask

/-- `AddSectorParams` (src/types/structs.rs:57-65); `bit_index` is not used by metasector tracks. -/
structure AddSector where
  id : Chsn
  data : List Byte
  weakMask : Option (List Byte) := none
  holeMask : Option (List Byte) := none
  addressError : Bool := false
  dataError : Bool := false
  deletedMark : Bool := false
  noDam : Bool := false
  alternate : Bool := false

/-- `MetaSectorTrack` (src/track/metasector.rs:184-194). -/
structure MetaTrack where
  ch : Ch
  sectors : List MetaSector := []
  deriving DecidableEq, Repr

namespace MetaTrack

/-- The sector built by `add_sector` (src/track/metasector.rs:285-305). -/
def newSector (p : AddSector) : MetaSector :=
  { id := p.id, addressError := p.addressError, dataError := p.dataError,
    deletedMark := p.deletedMark, noDam := p.noDam, data := p.data,
    weak := (match p.weakMask with | some m => .ofMask m | none => .empty p.data.length),
    hole := (match p.holeMask with | some m => .ofMask m | none => .empty p.data.length) }

/-- Update of the first element satisfying `p` (`iter_mut().find`). -/
def updateFirst (p : MetaSector → Bool) (f : MetaSector → Except Err MetaSector) :
    List MetaSector → Except Err (List MetaSector)
  | [] => .ok []
  | s :: rest =>
    if p s then (f s).map (· :: rest) else (updateFirst p f rest).map (s :: ·)

/-- `add_sector` (src/track/metasector.rs:284-331).  For an alternate copy of an existing sector
`xor_vec[i] = …` indexes an empty vector, which panics as soon as both sectors have a byte. -/
def addSector (t : MetaTrack) (p : AddSector) : Except Err MetaTrack :=
  if p.alternate && t.sectors.any (fun s => s.id == p.id) then
    (updateFirst (fun s => s.id == p.id)
      (fun es =>
        if p.data = [] ∨ es.data = [] then (es.weak.orSlice []).map fun w => { es with weak := w }
        else .error .panic) t.sectors).map fun l => { t with sectors := l }
  else .ok { t with sectors := t.sectors ++ [newSector p] }

/-- The sectors selected by `match_sectors` (src/track/metasector.rs:667-700). -/
def matching (t : MetaTrack) (q : Query) : List MetaSector :=
  t.sectors.filter fun s => q.matchesB s.id

/-- `wrong_cylinder` of `match_sectors` (src/track/metasector.rs:677-679): over all sectors. -/
def wrongCylinder (t : MetaTrack) (q : Query) : Bool :=
  t.sectors.any fun s => match q.c with | some c => s.id.c != c | none => false

/-- `bad_cylinder` of `match_sectors` (src/track/metasector.rs:680-682). -/
def badCylinder (t : MetaTrack) : Bool := t.sectors.any fun s => s.id.c == 0xFF

/-- `wrong_head` of `match_sectors` (src/track/metasector.rs:683-685). -/
def wrongHead (t : MetaTrack) (q : Query) : Bool :=
  t.sectors.any fun s => match q.h with | some h => s.id.h != h | none => false

/-- `read_sector` (src/track/metasector.rs:339-390).  The size and offset arguments are ignored. -/
def readSector (t : MetaTrack) (rnd : Nat → Byte) (q : Query) (scope : S34.Scope) :
    Except Err ReadResult :=
  match scope with
  | .entire => .error .panic
  | .dataOnly =>
    match t.matching q with
    | [] => .ok { notFound := true, wrongCylinder := t.wrongCylinder q, badCylinder := t.badCylinder,
                  wrongHead := t.wrongHead q }
    | s :: _ =>
      match s.readData rnd with
      | .error e => .error e
      | .ok buf =>
        .ok { idChsn := some s.id, dataRange := (0, s.data.length), readBuf := buf,
              deletedMark := s.deletedMark, addressCrcError := s.addressError,
              dataCrcError := s.dataError, wrongCylinder := t.wrongCylinder q,
              badCylinder := t.badCylinder, wrongHead := t.wrongHead q }
  | _ => .error .parameter

/-- `write_sector` (src/track/metasector.rs:431-491); the scope and offset are ignored.
`copy_from_slice` panics if the stored sector has another length. -/
def writeSector (t : MetaTrack) (q : Query) (buf : List Byte) (writeDeleted : Bool) :
    Except Err (WriteResult × MetaTrack) :=
  match t.matching q with
  | [] => .ok ({ wrongCylinder := t.wrongCylinder q, badCylinder := t.badCylinder,
                 wrongHead := t.wrongHead q }, t)
  | [s] =>
    if s.id.size ≠ buf.length then .error .parameter
    else
      let r : WriteResult :=
        { noDam := s.noDam, addressCrcError := s.addressError, wrongCylinder := t.wrongCylinder q,
          badCylinder := t.badCylinder, wrongHead := t.wrongHead q }
      if s.noDam || s.addressError then .ok (r, t)
      else if s.data.length ≠ buf.length then .error .panic
      else
        let upd (x : MetaSector) : MetaSector :=
          if q.matchesB x.id then { x with data := buf, deletedMark := writeDeleted } else x
        .ok (r, { t with sectors := t.sectors.map upd })
  | _ => .error .uniqueId

/-- `recalculate_sector_crc` (src/track/metasector.rs:493-501). -/
def recalculateSectorCrc (t : MetaTrack) (rnd : Nat → Byte) (q : Query) : Except Err MetaTrack :=
  match t.readSector rnd q .dataOnly with
  | .error e => .error e
  | .ok r => (t.writeSector q r.readBuf r.deletedMark).map (·.2)

/-- The loop of `read_all_sectors` (src/track/metasector.rs:530-562).  Reads of sectors share one
random source; the model gives each sector its own. -/
def readAllLoop (rnd : Nat → Nat → Byte) (trackLen : Nat) :
    Nat → List MetaSector → Track.ReadTrack → Except Err Track.ReadTrack
  | _, [], acc => .ok acc
  | i, s :: rest, acc =>
    if acc.sectorsRead ≥ trackLen then .ok { acc with notFound := false }
    else match s.readData (rnd i) with
      | .error e => .error e
      | .ok buf =>
        readAllLoop rnd trackLen (i + 1) rest
          { notFound := false, sectorsRead := min 65535 (acc.sectorsRead + 1),
            readBuf := acc.readBuf ++ buf, deletedMark := acc.deletedMark || s.deletedMark,
            addressCrcError := acc.addressCrcError || s.addressError,
            dataCrcError := acc.dataCrcError || s.dataError }

/-- `read_all_sectors` (src/track/metasector.rs:519-570); `n` only sizes a buffer's capacity. -/
def readAllSectors (t : MetaTrack) (rnd : Nat → Nat → Byte) (trackLen : Nat) :
    Except Err Track.ReadTrack :=
  readAllLoop rnd trackLen 0 t.sectors {}

/-- `next_id` (src/track/metasector.rs:572-598): cylinder and head are those of the argument. -/
def nextId (t : MetaTrack) (x : Chs) : Option Chsn :=
  match t.sectors.map (·.id) with
  | [] => none
  | first :: rest =>
    (Track.nextIdLoop x.s first false (first :: rest)).map fun y => ⟨x.c, x.h, y.s, y.n⟩

/-- `has_sector_id` (src/track/metasector.rs:255-268). -/
def hasSectorId (t : MetaTrack) (sid : Nat) (id : Option Chsn) : Bool :=
  t.sectors.any fun s => match id with
    | none => s.id.s == sid
    | some x => s.id == x

/-- `sector_list` (src/track/metasector.rs:270-282): (id, address error, data error, deleted, no DAM);
the last is always reported as false. -/
def sectorList (t : MetaTrack) : List (Chsn × Bool × Bool × Bool × Bool) :=
  t.sectors.map fun s => (s.id, s.addressError, s.dataError, s.deletedMark, false)

end MetaTrack
end Fox
