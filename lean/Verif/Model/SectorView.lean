import Verif.Model.Raw
/-
Model of src/sector_view.rs (`StandardSectorView`): a standard disk as a byte stream.

The view owns its disk: other holders of the disk lock are not modelled.  `nz` gives the random numbers a
sector read may use, one source per sector address.  Saturation at `usize::MAX` is not modelled.
-/
namespace Fox

/-- An I/O error of the view: `InvalidInput`, or `Other` wrapping a disk error. -/
inductive IoErr where
  | invalidInput
  | disk (e : Err)
  deriving DecidableEq, Repr

/-- `io::SeekFrom`. -/
inductive SeekFrom where
  | start (n : Nat)
  | fin (i : Int)
  | cur (i : Int)
  deriving DecidableEq, Repr

/-- `StandardSectorView` (src/sector_view.rs:48-59). -/
structure View where
  disk : Disk
  fmt : StdFormat
  cur : Ch
  sid : Nat
  spt : Nat
  buf : List Byte
  size : Nat
  dirty : Bool
  pos : Nat
  eod : Bool

namespace View

/-- `chsn` (src/sector_view.rs:89-94). -/
def chsn (v : View) : Chsn := ⟨v.cur.c, v.cur.h, v.sid, v.fmt.layout.n⟩

/-- `read_sector` (src/sector_view.rs:149-179): a short sector is padded with zeros, a long one cut. -/
def readSector (nz : Chs → Noise) (v : View) (sid : Nat) : View × Except Err Unit :=
  let v := { v with sid := sid, pos := 0 }
  match v.disk.readBasic (nz ⟨v.cur.c, v.cur.h, sid⟩) v.cur (.ofChsn v.chsn) none with
  | .error e => (v, .error e)
  | .ok data => ({ v with buf := Raw.fit v.size data, eod := false, dirty := false }, .ok ())

/-- `commit_sector` (src/sector_view.rs:183-194). -/
def commit (v : View) : View × Except Err Unit :=
  if v.dirty then
    match v.disk.writeBasic v.cur (.ofChsn v.chsn) none v.buf with
    | (d, .error e) => ({ v with disk := d }, .error e)
    | (d, .ok ()) => ({ v with disk := d, dirty := false }, .ok ())
  else (v, .ok ())

/-- `new` (src/sector_view.rs:62-83). -/
def new (nz : Chs → Noise) (d : Disk) (f : StdFormat) : Except Err View :=
  match readSector nz ⟨d, f, ⟨0, 0⟩, 1, f.layout.s, List.replicate f.layout.size 0, f.layout.size, false, 0,
    false⟩ 1 with
  | (_, .error e) => .error e
  | (v, .ok ()) => .ok v

/-- `next_sector` (src/sector_view.rs:196-213).  The cursor moves before the old sector is committed.
`u8` overflow of the sector number is not modelled (standard formats have at most 36 sectors). -/
def nextSector (nz : Chs → Noise) (v : View) : View × Except Err Unit :=
  let v :=
    if v.sid + 1 > v.spt then
      let r := v.cur.seekNextTrack v.fmt.layout.ch
      { v with sid := 1, cur := r.1, eod := !r.2 }
    else { v with sid := v.sid + 1 }
  match v.commit with
  | (v, .error e) => (v, .error e)
  | (v, .ok ()) => if v.eod then (v, .ok ()) else v.readSector nz v.sid

/-- `seek_to_offset` (src/sector_view.rs:106-142).  The track cursor moves before the old sector is
committed. -/
def seekOffset (nz : Chs → Noise) (v : View) (off : Nat) : View × Except IoErr Nat :=
  match v.fmt.layout.fromRawOffset off with
  | none => (v, .error .invalidInput)
  | some (x, r) =>
    if (⟨v.cur.c, v.cur.h, v.sid⟩ : Chs) = x then ({ v with pos := r }, .ok off)
    else
      match { v with cur := ⟨x.c, x.h⟩ }.commit with
      | (v, .error e) => (v, .error (.disk e))
      | (v, .ok ()) =>
        match { v with sid := x.s }.readSector nz x.s with
        | (v, .error e) => (v, .error (.disk e))
        | (v, .ok ()) => ({ v with pos := r }, .ok off)

/-- `seek_to_chs` (src/sector_view.rs:97-104). -/
def seekChs (nz : Chs → Noise) (v : View) (x : Chs) : View × Except IoErr Nat :=
  match v.fmt.layout.toRawOffset x with
  | none => (v, .error .invalidInput)
  | some off => v.seekOffset nz off

/-- `offset` (src/sector_view.rs:144-147). -/
def offset (v : View) : Nat := (v.fmt.layout.toRawOffset ⟨v.cur.c, v.cur.h, v.sid⟩).getD 0 + v.pos

/-- `Seek::seek` (src/sector_view.rs:275-298); `saturating_add_signed` stops at zero. -/
def seek (nz : Chs → Noise) (v : View) (s : SeekFrom) : View × Except IoErr Nat :=
  v.seekOffset nz (match s with
    | .start n => n
    | .fin i => (v.fmt.diskSize + i).toNat
    | .cur i => (v.offset + i).toNat)

/-- Move on when the buffer is used up: the `else` branch of the loops in `read` and `write`
(src/sector_view.rs:232-236, 259-263). -/
def fill (nz : Chs → Noise) (v : View) : View × Except Err Unit :=
  if v.pos < v.buf.length then (v, .ok ()) else v.nextSector nz

/-- The loop of `Read::read` (src/sector_view.rs:225-237), one turn per byte.  An empty buffer after a sector
change (sector size zero, which no format has) would loop for ever; that is `panic` here. -/
def read (nz : Chs → Noise) : Nat → View → View × Except Err (List Byte)
  | 0, v => (v, .ok [])
  | n + 1, v =>
    if v.eod then (v, .ok [])
    else match v.fill nz with
      | (v, .error e) => (v, .error e)
      | (v, .ok ()) =>
        if v.eod then (v, .ok [])
        else match v.buf[v.pos]? with
          | none => (v, .error .panic)
          | some b => match read nz n { v with pos := v.pos + 1 } with
            | (v, .error e) => (v, .error e)
            | (v, .ok l) => (v, .ok (b :: l))

/-- The loop of `Write::write` (src/sector_view.rs:251-264); yields the number of bytes taken. -/
def write (nz : Chs → Noise) : List Byte → View → View × Except Err Nat
  | [], v => (v, .ok 0)
  | b :: l, v =>
    if v.eod then (v, .ok 0)
    else match v.fill nz with
      | (v, .error e) => (v, .error e)
      | (v, .ok ()) =>
        if v.eod then (v, .ok 0)
        else if v.pos < v.buf.length then
          match write nz l { v with buf := v.buf.set v.pos b, pos := v.pos + 1, dirty := true } with
          | (v, .error e) => (v, .error e)
          | (v, .ok n) => (v, .ok (n + 1))
        else (v, .error .panic)

/-- `Write::flush` (src/sector_view.rs:268-272). -/
def flush (v : View) : View × Except Err Unit := v.commit

end View
end Fox
