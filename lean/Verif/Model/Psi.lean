import Verif.Model.Pce
/-
Model of the PSI loader (src/file_parsers/pce/psi.rs).  The chunk layer is that of `Pce`.
-/
namespace Fox
namespace Psi
open Pce

/-- `decode_psi_sector_format` (src/file_parsers/pce/psi.rs:180-193): encoding and density
(0 standard, 1 double, 2 high, 3 extended). -/
def decodeFormat (a b : Byte) : Option (Encoding × Nat) :=
  if a = 0#8 ∧ b = 0#8 then some (.fm, 0)
  else if a = 1#8 ∧ b = 0#8 then some (.fm, 1)
  else if a = 2#8 ∧ b = 0#8 then some (.fm, 2)
  else if a = 2#8 ∧ b = 1#8 then some (.fm, 2)
  else if a = 2#8 ∧ b = 2#8 then some (.mfm, 3)
  else if a = 3#8 ∧ b = 0#8 then some (.gcr, 1)
  else none

/-- `SectorContext` (src/file_parsers/pce/psi.rs:77-88) without `bit_offset`, which only becomes the
`bit_index` that metasector tracks do not use. -/
structure Ctx where
  phys : Option Chs := none
  size : Nat := 0
  ibm : Option Chsn := none
  dataError : Bool := false
  addressError : Bool := false
  deleted : Bool := false
  noDam : Bool := false
  alternate : Bool := false

/-- `SectorContext::sid` (src/file_parsers/pce/psi.rs:103-110), called with a physical address. -/
def Ctx.sid (x : Ctx) (p : Chs) : Chsn := x.ibm.getD ⟨p.c, p.h, p.s, bytesToN x.size⟩

/-- The state of `load_image` (src/file_parsers/pce/psi.rs:309-317).  `current` is the pool index of
`current_track`; the sector counts and the comment are only logged. -/
structure State where
  disk : Disk
  ctx : Ctx := {}
  tracks : List Ch := []
  heads : List Nat := []
  current : Option Nat := none

/-- `current_track.add_sector` (src/file_parsers/pce/psi.rs:372-396, 423-444). -/
def addSector (st : State) (p : AddSector) : Except Err State :=
  match st.current with
  | none => .error .formatParse
  | some i => match st.disk.pool[i]? with
    | some (.sect t) => match t.addSector p with
      | .error e => .error e
      | .ok t => .ok { st with disk := { st.disk with pool := st.disk.pool.set i (.sect t) }, ctx := {} }
    | _ => .error .panic

/-- The SECT branch (src/file_parsers/pce/psi.rs:323-405): the fields of the chunk are `cylinder` (two bytes),
`head`, `sector`, `size` (two bytes), `flags`, `compressed_data` (137-146). -/
def sect (st : State) (c1 c0 hd s z1 z0 fl v : Byte) : Except Err State :=
  let c := c1.toNat * 256 + c0.toNat
  let size := z1.toNat * 256 + z0.toNat
  let ch : Ch := ⟨c, hd.toNat⟩
  let st := { st with heads := Pri.insertNat st.heads hd.toNat }
  let r : Except Err State :=
    if st.tracks.contains ch then .ok st
    else match st.disk.addMeta ch with
      | (_, .error e) => .error e
      | (d, .ok i) => .ok { st with disk := d, current := some i, tracks := st.tracks ++ [ch] }
  match r with
  | .error e => .error e
  | .ok st =>
    let st := { st with ctx := { st.ctx with
      alternate := fl &&& 2#8 != 0#8, phys := some ⟨c, hd.toNat, s.toNat⟩, size := size,
      dataError := fl &&& 4#8 != 0#8 } }
    if fl &&& 1#8 != 0#8 then
      addSector st { id := ⟨c, hd.toNat, s.toNat, bytesToN size⟩, data := List.replicate size v,
                     dataError := st.ctx.dataError, alternate := st.ctx.alternate }
    else .ok st

/-- The body of the loop of `load_image` (src/file_parsers/pce/psi.rs:319-487). -/
def step (st : State) (c : Chunk) : Except Err State :=
  if c.id = idSect then
    match c.data with
    | c1 :: c0 :: hd :: s :: z1 :: z0 :: fl :: v :: _ => sect st c1 c0 hd s z1 z0 fl v
    | _ => .error .io
  else if c.id = idData then
    match st.ctx.phys with
    | none => .error .formatParse
    | some p => addSector st
        { id := st.ctx.sid p, data := c.data, addressError := st.ctx.addressError,
          dataError := st.ctx.dataError, deletedMark := st.ctx.deleted, noDam := st.ctx.noDam,
          alternate := st.ctx.alternate }
  else if c.id = idOffs then
    match u32At c.data 0 with
    | none => .error .panic
    | some _ => .ok st
  else if c.id = idIbmm then
    match c.data with
    | cy :: hd :: s :: n :: fl :: _ :: _ =>
      .ok { st with ctx := { st.ctx with
        ibm := some ⟨cy.toNat, hd.toNat, s.toNat, n.toNat⟩,
        dataError := fl &&& 2#8 != 0#8, addressError := fl &&& 1#8 != 0#8,
        deleted := fl &&& 4#8 != 0#8, noDam := fl &&& 8#8 != 0#8 } }
    | _ => .error .io
  else .ok st

/-- The `while` loop of `load_image` (src/file_parsers/pce/psi.rs:319-487): the fuel bounds the number of
chunks, each of which is at least 12 bytes long. -/
def loop : Nat → List Byte → State → Chunk → Except Err State
  | 0, _, st, _ => .ok st
  | f + 1, bs, st, c =>
    if c.id = idEnd then .ok st
    else match step st c with
      | .error e => .error e
      | .ok st => match readChunk maxChunk bs with
        | .error e => .error e
        | .ok (c, bs) => loop f bs st c

/-- `PsiFormat::load_image` (src/file_parsers/pce/psi.rs:286-505) into an image; the second component is the
default encoding and the density given to the image and to its tracks.  With no sector header the number of
heads is 0 and the division of the track count panics. -/
def load (d : Disk) (bs : List Byte) : Except Err (Disk × Encoding × Nat) :=
  match readChunk maxChunk bs with
  | .error e => .error e
  | .ok (c, rest) =>
    if c.id ≠ idPsi then .error .unknownFormat
    else match c.data with
      | _ :: _ :: a :: b :: _ => match decodeFormat a b with
        | none => .error .formatParse
        | some f => match loop (bs.length + 1) rest { disk := d } c with
          | .error e => .error e
          | .ok st =>
            let heads := st.heads.length % 256
            if heads = 0 then .error .panic
            else .ok ({ st.disk with geometry := ⟨st.tracks.length % 65536 / heads, heads⟩ }, f)
      | _ => .error .formatParse

end Psi
end Fox
