import Verif.Model.BitLoad
/-
Model of the TransCopy loader (src/file_parsers/tc.rs).  The file is a list of bytes.  Not modelled: logging, except that
the arguments of two messages are evaluated when trace messages are on; the comments (they are only logged); of the
descriptor the geometry, the data rate and the speed (their variants) are.
-/
namespace Fox
namespace Tc

/-- A big-endian `u16` of a file. -/
def be16At (f : List Byte) (o : Nat) : Nat := 256 * u8At f o + u8At f (o + 1)

/-- The arrays of `TCDiskInfo` (src/file_parsers/tc.rs:111-128), which lies behind a header of 256 bytes. -/
def skews (f : List Byte) : List Nat := (List.range 256).map fun i => le16At f (261 + 2 * i)
def offsets (f : List Byte) : List Nat := (List.range 256).map fun i => be16At f (773 + 2 * i)
def sizes (f : List Byte) : List Nat := (List.range 256).map fun i => le16At f (1285 + 2 * i)
def flags (f : List Byte) : List Nat := (List.range 256).map fun i => le16At f (1797 + 2 * i)

/-- `iter().take_while(|&v| *v != stop).count()` (src/file_parsers/tc.rs:287-302). -/
def count (stop : Nat) (l : List Nat) : Nat := (l.takeWhile fun v => v ≠ stop).length

/-- `DiskRpm`, the variant. -/
inductive Rpm where
  | rpm300 | rpm360
  deriving DecidableEq, Repr

/-- What the loader says about the disk besides its tracks. -/
structure Info where
  rate : F86.Rate
  rpm : Rpm
  deriving DecidableEq, Repr

/-- The check of the disk type and `tc_parse_disk_type` (src/file_parsers/tc.rs:137-164, 242-257). -/
def parseType (t : Nat) : Option Info :=
  if t = 0xFF then some ⟨.r250, .rpm300⟩
  else if t = 2 then some ⟨.r500, .rpm300⟩
  else if t = 3 then some ⟨.r500, .rpm360⟩
  else if t = 7 then some ⟨.r250, .rpm300⟩
  else none

/-- The checks of the tracks (src/file_parsers/tc.rs:325-364).  Entries are offset (in units of 256 bytes) and size. -/
def check (f : List Byte) : List (Nat × Nat) → Except Err Unit
  | [] => .ok ()
  | (o, n) :: rest =>
    if 256 * o = 0 ∨ n = 0 then .error .incompatible
    else if 256 * o + n > f.length then .error .incompatible
    else check f rest

/-- The loop over the tracks (src/file_parsers/tc.rs:400-435): `i` counts the tracks, `head` the sides. -/
def tracks (debug : Bool) (rnd : Nat → Bool) (shift sides : Nat) (f : List Byte) :
    List (Nat × Nat) → Nat → Nat → Disk → Except Err Disk
  | [], _, _, d => .ok d
  | (o, n) :: rest, i, head, d =>
    match readAt f (256 * o) n with
    | .error e => .error e
    | .ok data =>
      match d.addBit ⟨i >>> shift, head⟩ (Track.ofBytes debug rnd data none true) with
      | (_, .error e) => .error e
      | (d, .ok _) => tracks debug rnd shift sides f rest (i + 1) (if head + 1 = sides then 0 else head + 1) d

/-- `TCFormat::load_image` from the checked tables on (src/file_parsers/tc.rs:322-452), `n` entries.  With trace messages
on, no tracks mean a division by zero in the arguments of a message. -/
def loadTracks (debug trace : Bool) (rnd : Nat → Bool) (d : Disk) (f : List Byte) (n : Nat) (info : Info) :
    Except Err (Disk × Info) :=
  let es := ((offsets f).zip (sizes f)).take n
  match check f es with
  | .error e => .error e
  | .ok _ =>
    if trace ∧ n = 0 then .error .panic
    else
      let sides := u8At f 259
      if sides = 1 ∨ sides = 2 then
        match tracks debug rnd (if sides = 1 then 0 else 1) sides f es 0 0 d with
        | .error e => .error e
        | .ok d => .ok ({ d with geometry := ⟨n / sides, sides⟩ }, info)
      else .error .incompatible

/-- `TCFormat::load_image` (src/file_parsers/tc.rs:200-452). -/
def load (debug trace : Bool) (rnd : Nat → Bool) (d : Disk) (f : List Byte) : Except Err (Disk × Info) :=
  if f.length < 256 then .error .unsupported
  else if u8At f 0 ≠ 0x5A ∨ u8At f 1 ≠ 0xA5 then .error .unsupported
  else if f.length < 2309 then .error .formatParse
  else
    match parseType (u8At f 256) with
    | none => .error .incompatible
    | some info =>
      if u8At f 257 ≠ 0 then .error .incompatible
      else if u8At f 260 ≠ 1 then .error .incompatible
      else
        let n := count 0x3333 (sizes f)
        if count 0x1111 (skews f) ≠ n ∨ count 0 (offsets f) ≠ n ∨ count 0x4444 (flags f) ≠ n then .error .incompatible
        else loadTracks debug trace rnd d f (n / 2 * 2) info

end Tc
end Fox
