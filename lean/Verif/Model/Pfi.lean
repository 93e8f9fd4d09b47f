import Verif.Model.Pce
import Verif.Model.Chs
/-
Model of the PFI loader (src/file_parsers/pce/pfi.rs).  Times are counted in clocks of the track: the code
multiplies each by the clock period in f64 seconds.  The decoding of the flux by
`add_track_fluxstream` (src/diskimage.rs:772-817) is not modelled: the image is the list of tracks handed to
it with their addresses, and its result is taken to be `Ok`.
-/
namespace Fox
namespace Pfi
open Pce

/-- `PfiRevolution` (src/file_parsers/pce/pfi.rs:115-119) in clocks. -/
structure Rev where
  transitions : List Nat
  indexTime : Nat
  deriving DecidableEq, Repr

/-- The length of one transition (src/file_parsers/pce/pfi.rs:447-493): the byte read and what follows it. -/
def time (b : Byte) (bs : List Byte) : Except Err (Nat × List Byte) :=
  if b = 0#8 then .error .formatParse
  else if b = 1#8 then
    match bs with
    | x :: y :: bs => .ok (x.toNat * 256 + y.toNat, bs)
    | _ => .error .io
  else if b = 2#8 then
    match bs with
    | x :: y :: z :: bs => .ok ((x.toNat * 256 + y.toNat) * 256 + z.toNat, bs)
    | _ => .error .io
  else if b = 3#8 then
    match bs with
    | x :: y :: z :: w :: bs => .ok (((x.toNat * 256 + y.toNat) * 256 + z.toNat) * 256 + w.toNat, bs)
    | _ => .error .io
  else if b.toNat < 8 then
    match bs with
    | x :: bs => .ok ((b.toNat - 4) * 256 + x.toNat, bs)
    | _ => .error .io
  else .ok (b.toNat, bs)

/-- `current_rev.transitions.push`: the first `current_rev` is not in the list and is dropped. -/
def push (revs : List Rev) (t : Nat) : List Rev :=
  match revs.getLast? with
  | none => []
  | some r => revs.dropLast ++ [{ r with transitions := r.transitions ++ [t] }]

/-- `current_rev.index_time = (clocks - last_index_clock)`. -/
def close (revs : List Rev) (d : Nat) : List Rev :=
  match revs.getLast? with
  | none => []
  | some r => revs.dropLast ++ [{ r with indexTime := d }]

/-- The loop of `read_track_data` (src/file_parsers/pce/pfi.rs:426-503); `i :: is` are the index times not yet
reached.  `clocks` is a `u32`: `debug` turns on overflow checks.  The fuel bounds the bytes. -/
def run (debug : Bool) : Nat → List Byte → Nat → List Nat → List Rev → Nat → Nat → Except Err (List Rev)
  | 0, _, _, _, revs, _, _ => .ok revs
  | f + 1, bs, i, is, revs, clocks, last =>
    let stop : Except Err (List Rev) := .ok (close revs ((clocks + 2 ^ 32 - last) % 2 ^ 32))
    let cont (i : Nat) (is : List Nat) (revs : List Rev) (last : Nat) (b : Byte) (bs : List Byte) :
        Except Err (List Rev) :=
      match time b bs with
      | .error e => .error e
      | .ok (t, bs) =>
        if debug && decide (2 ^ 32 ≤ clocks + t) then .error .panic
        else run debug f bs i is (push revs t) ((clocks + t) % 2 ^ 32) last
    match bs with
    | [] => stop
    | b :: bs =>
      if i ≤ clocks then
        match is with
        | [] => stop
        | j :: js => cont j js (close revs ((clocks + 2 ^ 32 - last) % 2 ^ 32) ++ [⟨[], 0⟩]) clocks b bs
      else cont i is revs last b bs

/-- `read_track_data` (src/file_parsers/pce/pfi.rs:404-504). -/
def readTrackData (debug : Bool) (data : List Byte) (index : List Nat) : Except Err (List Rev) :=
  match index with
  | [] => .error .formatParse
  | i :: is => run debug (data.length + 1) data i is [] 0 0

/-- The entries of an INDX chunk (src/file_parsers/pce/pfi.rs:263-284): `size / 4` big-endian words. -/
def words : List Byte → List Nat
  | a :: b :: c :: d :: bs => (((a.toNat * 256 + b.toNat) * 256 + c.toNat) * 256 + d.toNat) :: words bs
  | _ => []

/-- The image as far as it matters for placing the next track: the tracks of each head in the order they were
added (`track_map`), with their addresses and contents. -/
structure Image where
  map0 : List (Ch × List Rev) := []
  map1 : List (Ch × List Rev) := []

/-- `track_ch_iter` (src/diskimage.rs:220-234). -/
def Image.chs (d : Image) : List Ch :=
  ((List.range (max d.map0.length d.map1.length)).flatMap fun c =>
    d.map0[c]?.toList ++ d.map1[c]?.toList).map (·.1)

/-- `track` (src/diskimage.rs:236-240). -/
def Image.track (d : Image) (ch : Ch) : Option (Ch × List Rev) :=
  if ch.h = 0 then d.map0[ch.c]? else if ch.h = 1 then d.map1[ch.c]? else none

/-- `add_track_fluxstream` (src/diskimage.rs:772-817) as far as it places the track. -/
def Image.add (d : Image) (ch : Ch) (revs : List Rev) : Except Err Image :=
  if ch.h ≥ 2 then .error .seek
  else if ch.h = 0 then .ok { d with map0 := d.map0 ++ [(ch, revs)] }
  else .ok { d with map1 := d.map1 ++ [(ch, revs)] }

/-- The state of `load_image` (src/file_parsers/pce/pfi.rs:232-238); of the track context only the index times
matter, the address is only logged. -/
structure State where
  image : Image := {}
  heads : List Nat := []
  cyls : List Nat := []
  index : List Nat := []

/-- The address given to the next track (src/file_parsers/pce/pfi.rs:301-313). -/
def nextCh (st : State) : Ch :=
  match st.image.chs.getLast? with
  | none => ⟨0, 0⟩
  | some ch => ch.nextTrackUnchecked (st.heads.length % 256)

/-- One chunk (src/file_parsers/pce/pfi.rs:240-372).  The comment is only logged. -/
def step (debug : Bool) (st : State) (c : Chunk) : Except Err State :=
  if c.id = idTrak then
    match c.data with
    | c3 :: c2 :: c1 :: c0 :: h3 :: h2 :: h1 :: h0 :: _ :: _ :: _ :: _ :: _ =>
      let cyl := (((c3.toNat * 256 + c2.toNat) * 256 + c1.toNat) * 256 + c0.toNat) % 65536
      let head := (((h3.toNat * 256 + h2.toNat) * 256 + h1.toNat) * 256 + h0.toNat) % 256
      .ok { st with heads := Pri.insertNat st.heads head, cyls := Pri.insertNat st.cyls cyl }
    | _ => .error .formatParse
  else if c.id = idIndx then .ok { st with index := words c.data }
  else if c.id = idData then
    match readTrackData debug c.data st.index with
    | .error e => .error e
    | .ok revs => match st.image.add (nextCh st) revs with
      | .error e => .error e
      | .ok d => .ok { st with image := d }
  else .ok st

/-- The chunk loop (src/file_parsers/pce/pfi.rs:240-375). -/
def loop (debug : Bool) : Nat → List Byte → State → Chunk → Except Err State
  | 0, _, st, _ => .ok st
  | f + 1, bs, st, c =>
    if c.id = idEnd then .ok st
    else match step debug st c with
      | .error e => .error e
      | .ok st => match readChunk maxChunkPfi bs with
        | .error e => .error e
        | .ok (c, bs) => loop debug f bs st c

/-- `PfiFormat::load_image` (src/file_parsers/pce/pfi.rs:210-394) into an empty image: the tracks and the
geometry. -/
def load (debug : Bool) (bs : List Byte) : Except Err (Image × Ch) :=
  match readChunk maxChunkPfi bs with
  | .error e => .error e
  | .ok (c, rest) =>
    if c.id ≠ idPfi then .error .unknownFormat
    else if c.data.length < 4 then .error .formatParse
    else match loop debug (bs.length + 1) rest {} c with
      | .error e => .error e
      | .ok st => .ok (st.image, ⟨st.cyls.length % 65536, st.heads.length % 256⟩)

end Pfi
end Fox
