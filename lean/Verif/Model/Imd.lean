import Verif.Model.Disk
import Verif.Model.Pce
/-
Model of the IMD loader (src/file_parsers/imd.rs) and of `read_ascii` (src/util.rs:48-85).
The comment and the regular expression of the header (which only decide about metadata and log output) and
the trace log, which slices the first 16 bytes of the sector, are not modelled.
-/
namespace Fox
namespace Imd

/-- What `read_ascii` leaves of its source (src/util.rs:48-85): it stops after the terminator or a zero byte.
With no maximum length the counter never stops it. -/
def skipAscii (term : Byte) : List Byte → List Byte
  | [] => []
  | b :: bs => if b = term ∨ b = 0#8 then bs else skipAscii term bs

/-- `ImdTrack` (src/file_parsers/imd.rs:54-63). -/
structure Header where
  mode : Byte
  c : Byte
  h : Byte
  count : Byte
  size : Byte
  deriving DecidableEq, Repr

/-- `ImdTrack::is_valid` (src/file_parsers/imd.rs:72-74). -/
def Header.valid (x : Header) : Bool := x.mode.toNat < 6 && (x.h &&& 0x3F#8).toNat < 2 && x.size.toNat < 7

/-- `ImdTrack::h` (src/file_parsers/imd.rs:69-71). -/
def Header.head (x : Header) : Nat := (x.h &&& 0x0F#8).toNat

/-- `imd_sector_size_to_usize` (src/file_parsers/imd.rs:103-114) of a valid header. -/
def Header.bytes (x : Header) : Nat := 128 * 2 ^ x.size.toNat

/-- `read_exact` of `n` bytes. -/
def take (n : Nat) (bs : List Byte) : Except Err (List Byte × List Byte) :=
  if bs.length < n then .error .io else .ok (bs.take n, bs.drop n)

/-- `read_data` (src/file_parsers/imd.rs:352-433): the data, deleted flag, error flag, and the rest of the
file. -/
def readData (marker : Byte) (size : Nat) (bs : List Byte) :
    Except Err ((List Byte × Bool × Bool) × List Byte) :=
  let plain (del err : Bool) : Except Err ((List Byte × Bool × Bool) × List Byte) :=
    match take size bs with
    | .error e => .error e
    | .ok (d, rest) => .ok ((d, del, err), rest)
  let packed (del err : Bool) : Except Err ((List Byte × Bool × Bool) × List Byte) :=
    match bs with
    | [] => .error .io
    | b :: rest => .ok ((List.replicate size b, del, err), rest)
  match marker.toNat with
  | 0 => .ok (([], false, false), bs)
  | 1 => plain false false
  | 2 => packed false false
  | 3 => plain true false
  | 4 => packed true false
  | 5 => plain false true
  | 6 => packed false true
  | _ => .error .formatParse

/-- The loop over the sectors of a track (src/file_parsers/imd.rs:281-327); the maps are zipped. -/
def sectors (size : Nat) : List (Byte × Byte × Byte) → List Byte → MetaTrack →
    Except Err (MetaTrack × List Byte)
  | [], bs, t => .ok (t, bs)
  | (s, c, h) :: ids, bs, t =>
    match bs with
    | [] => .error .io
    | marker :: bs =>
      if marker.toNat > 8 then .error .formatParse
      else match readData marker size bs with
        | .error e => .error e
        | .ok ((d, del, err), bs) =>
          match t.addSector { id := ⟨c.toNat, h.toNat, s.toNat, bytesToN size⟩, data := d, dataError := err,
                              deletedMark := del } with
          | .error e => .error e
          | .ok t => sectors size ids bs t

/-- The state of `load_image`: the image, `heads_seen`, `track_ct`. -/
structure State where
  disk : Disk
  heads : List Nat := []
  tracks : Nat := 0

/-- The body of the loop of `load_image` (src/file_parsers/imd.rs:205-335) after a track header was read.
`debug` turns on overflow checks: the size of the sector size map is computed as a `u8`.  The sector size map
itself is read only if `h` is 0xFF, which is never valid. -/
def track (debug : Bool) (st : State) (x : Header) (bs : List Byte) : Except Err (State × List Byte) :=
  if !x.valid then .error .formatParse
  else if debug && decide (128 ≤ x.count.toNat) then .error .panic
  else
    let heads := Pri.insertNat st.heads x.head
    match take x.count.toNat bs with
    | .error e => .error e
    | .ok (nums, bs) =>
      let cyl : Except Err (List Byte × List Byte) :=
        if x.h &&& 0x80#8 != 0#8 then take x.count.toNat bs else .ok (List.replicate x.count.toNat x.c, bs)
      match cyl with
      | .error e => .error e
      | .ok (cyls, bs) =>
        let hd : Except Err (List Byte × List Byte) :=
          if x.h &&& 0x40#8 != 0#8 then take x.count.toNat bs
          else .ok (List.replicate x.count.toNat (x.h &&& 0x0F#8), bs)
        match hd with
        | .error e => .error e
        | .ok (hds, bs) =>
          match st.disk.addMeta ⟨x.c.toNat, x.head⟩ with
          | (_, .error e) => .error e
          | (d, .ok i) =>
            match sectors x.bytes (nums.zip (cyls.zip hds)) bs { ch := ⟨x.c.toNat, x.head⟩ } with
            | .error e => .error e
            | .ok (t, bs) =>
              .ok ({ disk := { d with pool := d.pool.set i (.sect t) }, heads := heads,
                     tracks := if x.count = 0#8 then st.tracks else st.tracks + 1 }, bs)

/-- The `while` loop of `load_image` (src/file_parsers/imd.rs:205-335): it ends at the first header that
cannot be read in full.  The fuel bounds the number of tracks. -/
def loop (debug : Bool) : Nat → State → List Byte → Except Err State
  | 0, st, _ => .ok st
  | f + 1, st, m :: c :: h :: n :: z :: bs =>
    match track debug st ⟨m, c, h, n, z⟩ bs with
    | .error e => .error e
    | .ok (st, bs) => loop debug f st bs
  | _ + 1, st, _ => .ok st

/-- `ImdFormat::load_image` (src/file_parsers/imd.rs:160-349).  Without tracks the division by the number of
heads panics. -/
def load (debug : Bool) (d : Disk) (bs : List Byte) : Except Err Disk :=
  match loop debug (bs.length + 1) { disk := d } (skipAscii 0x1A#8 bs) with
  | .error e => .error e
  | .ok st =>
    let heads := st.heads.length % 256
    if heads = 0 then .error .panic
    else .ok { st.disk with geometry := ⟨st.tracks % 65536 / heads, heads⟩ }

end Imd
end Fox
