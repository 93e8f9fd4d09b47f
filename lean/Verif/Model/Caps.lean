import Verif.Model.Disk
import Verif.Model.Raw
import Verif.Model.Pce
import Verif.Model.F86
import Verif.Model.Detect
/-
Model of the analysis of a disk image (`TrackAnalysis`, `DiskAnalysis`, `analyze`), the capability flags, the choice of file formats
(`formats_from_caps`, `can_write`, `filter_writable`, `compatible_formats`, `format_from_ext`) and `ImageWriter`.

Not modelled: logging, the type parameter of the writer, building without some of the formats.
-/
namespace Fox

/-- `FormatCaps` (src/file_parsers/mod.rs:105-128): a set of bit flags. -/
abbrev Caps := BitVec 32

namespace Caps

/-- `CAP_VARIABLE_SPT` -/
def variableSpt : Caps := 0x1#32
/-- `CAP_VARIABLE_SSPT` -/
def variableSspt : Caps := 0x2#32
/-- `CAP_ADDRESS_CRC` -/
def addressCrc : Caps := 0x4#32
/-- `CAP_DATA_CRC` -/
def dataCrc : Caps := 0x8#32
/-- `CAP_DATA_DELETED` -/
def dataDeleted : Caps := 0x10#32
/-- `CAP_SID_OVERRIDE` -/
def sidOverride : Caps := 0x20#32
/-- `CAP_COMMENT` -/
def comment : Caps := 0x40#32
/-- `CAP_TRACK_ENCODING` -/
def trackEncoding : Caps := 0x80#32
/-- `CAP_WEAK_BITS` -/
def weakBits : Caps := 0x200#32
/-- `CAP_ENCODING_FM` -/
def encodingFm : Caps := 0x800#32
/-- `CAP_ENCODING_MFM` -/
def encodingMfm : Caps := 0x1000#32
/-- `CAP_NO_DAM` -/
def noDam : Caps := 0x4000#32

/-- `contains` of the crate `bitflags`. -/
def contains (a b : Caps) : Bool := a &&& b == b

/-- `set` of the crate `bitflags`. -/
def set (a flag : Caps) (on : Bool) : Caps := if on then a ||| flag else a &&& ~~~flag

/-- `bitstream_flags` (src/file_parsers/mod.rs:131-139). -/
def bitstream : Caps :=
  variableSpt ||| variableSspt ||| addressCrc ||| dataCrc ||| dataDeleted ||| sidOverride ||| noDam

end Caps

/-! ## Analysis -/

/-- `TrackAnalysis` (src/track/mod.rs:166-186).  The overlap and index-crossing flags, which nothing sets, are left out. -/
structure TrackAnalysis where
  dataError : Bool := false
  addressError : Bool := false
  deletedData : Bool := false
  noDam : Bool := false
  sectorSize : Option Nat := none
  nonconsecutive : Bool := false
  sectorCt : Nat := 0
  deriving DecidableEq, Repr

/-- `TrackAnalysis::join` (src/track/mod.rs:190-202). -/
def TrackAnalysis.join (a b : TrackAnalysis) : TrackAnalysis :=
  { a with dataError := a.dataError || b.dataError, addressError := a.addressError || b.addressError,
           deletedData := a.deletedData || b.deletedData, noDam := a.noDam || b.noDam,
           nonconsecutive := a.nonconsecutive || b.nonconsecutive,
           sectorSize := if b.sectorSize.isNone then none else a.sectorSize }

/-- The set of the sizes of a track and its last one (src/track_schema/system34.rs:502-522, src/track/metasector.rs:629-652): the common
size code, 0 if there is no sector, nothing if two differ. -/
def commonSize (ns : List Nat) : Option Nat :=
  if ns.eraseDups.length > 1 then none else some (ns.getLast?.getD 0)

/-- The check that sector `i` has number `i + 1` (src/track_schema/system34.rs:508-511, src/track/metasector.rs:632-634): `si as u8 + 1`
overflows at index 255, which panics in builds with overflow checks. -/
def misnumbered (debug : Bool) : Nat → List Nat → Except Err Bool
  | _, [] => .ok false
  | i, s :: rest =>
    if debug ∧ i % 256 = 255 then .error .panic
    else (misnumbered debug (i + 1) rest).map fun b => b || s != (i + 1) % 256

/-- `analyze_elements` (src/track_schema/system34.rs:500-561; src/track_schema/amiga.rs:451-512 differs only in having no deleted data
and in matching Amiga elements, of which the model of a disk keeps none: there the analysis of an Amiga track is that of an empty one). -/
def Track.analysis (debug : Bool) (t : Track) : Except Err TrackAnalysis :=
  (misnumbered debug 0 (t.sectorIds.map (·.s))).map fun nc =>
    { nonconsecutive := nc
      sectorSize := commonSize (t.sectorIds.map (·.n))
      addressError := t.items.any fun x => match x.elem with
        | .data _ ae _ _ => ae
        | .header _ ae _ => ae
        | _ => false
      dataError := t.items.any fun x => match x.elem with | .data _ _ de _ => de | _ => false
      deletedData := t.items.any fun x => match x.elem with | .data _ _ _ del => del | _ => false
      noDam := t.items.any fun x => match x.elem with | .header _ _ missing => missing | _ => false
      sectorCt := t.sectorIds.length }

/-- `MetaSectorTrack::analysis` (src/track/metasector.rs:625-656). -/
def MetaTrack.analysis (debug : Bool) (t : MetaTrack) : Except Err TrackAnalysis :=
  (misnumbered debug 0 (t.sectors.map (·.id.s))).map fun nc =>
    { nonconsecutive := nc
      sectorSize := commonSize (t.sectors.map (·.id.n))
      addressError := t.sectors.any (·.addressError)
      dataError := t.sectors.any (·.dataError)
      deletedData := t.sectors.any (·.deletedMark)
      sectorCt := t.sectors.length }

/-- `Track::analysis` (src/track/bitstream.rs:870-873, src/track/metasector.rs:625-656, src/track/fluxstream.rs:375-380).  A track
without schema has none, nor has an unresolved flux track. -/
def DiskTrack.analysis (debug : Bool) : DiskTrack → Except Err TrackAnalysis
  | .bit _ t => match t.schema with | none => .error .schema | some _ => t.analysis debug
  | .sect t => t.analysis debug
  | .flux _ (some t) => match t.schema with | none => .error .schema | some _ => t.analysis debug
  | .flux _ none => .error .schema
  | .other _ => .ok { sectorSize := some 0 }

/-- `DiskAnalysis` (src/types/structs.rs:88-109), without the two flags nothing sets. -/
structure DiskAnalysis where
  caps : Caps := 0#32
  deletedData : Bool := false
  noDam : Bool := false
  addressError : Bool := false
  dataError : Bool := false
  sectorSize : Option Nat := none
  trackLength : Option Nat := none
  deriving DecidableEq, Repr

namespace Disk

/-- The variables of `analyze` (src/diskimage.rs:1547-1554). -/
structure Tally where
  spt : List Nat := []
  all : TrackAnalysis := {}
  mixed : Bool := false
  sizes : List Nat := []
  last : Nat := 0

/-- One track of `analyze` (src/diskimage.rs:1560-1579). -/
def tally (a : Tally) (x : TrackAnalysis) : Tally :=
  let a := match x.sectorSize with
    | none => { a with mixed := true }
    | some n => if n > 0 then { a with last := n, sizes := n :: a.sizes } else a
  if x.sectorCt > 0 then
    { a with spt := x.sectorCt :: a.spt, all := { a.all with sectorCt := x.sectorCt }.join x }
  else a

/-- The loop of `analyze` (src/diskimage.rs:1557-1585): a track without analysis is skipped. -/
def tallyAll (debug : Bool) (pool : List DiskTrack) : List Nat → Tally → Except Err Tally
  | [], a => .ok a
  | i :: rest, a => match pool[i]? with
    | none => .error .panic
    | some t => match t.analysis debug with
      | .error .panic => .error .panic
      | .error _ => tallyAll debug pool rest a
      | .ok x => tallyAll debug pool rest (tally a x)

/-- The end of `analyze` (src/diskimage.rs:1587-1627).  The size found inconsistent between tracks is overwritten. -/
def conclude (prior : DiskAnalysis) (a : Tally) : DiskAnalysis :=
  let size := if a.sizes.eraseDups.length > 1 then none else prior.sectorSize
  let length := if a.spt.eraseDups.length > 1 then none else some a.all.sectorCt
  let size := if a.mixed then none else some a.last
  { caps := ((((((prior.caps.set .variableSpt length.isNone).set .variableSspt size.isNone).set .dataCrc a.all.dataError).set
      .addressCrc a.all.addressError).set .dataDeleted a.all.deletedData).set .noDam a.all.noDam)
    deletedData := a.all.deletedData, noDam := a.all.noDam, addressError := a.all.addressError, dataError := a.all.dataError
    sectorSize := size, trackLength := length }

/-- `analyze` (src/diskimage.rs:1546-1628): the new analysis of an image. -/
def analysis (debug : Bool) (prior : DiskAnalysis) (d : Disk) : Except Err DiskAnalysis :=
  (tallyAll debug d.pool d.trackIdx {}).map (conclude prior)

end Disk

/-- A `DiskImage` with its stored analysis (src/diskimage.rs:108-146). -/
structure Image where
  disk : Disk := {}
  found : DiskAnalysis := {}

namespace Image

/-- `post_load_process` (src/diskimage.rs:1422-1472): the analysis comes after the normalisation. -/
def postLoad (debug : Bool) (H : List Byte → Nat) (nz : Noise) (m : Image) : Except Err Image :=
  match (m.disk.normalize H nz).analysis debug m.found with
  | .error e => .error e
  | .ok a => match m.disk.postLoad H nz with
    | .error e => .error e
    | .ok d => .ok { disk := d, found := a }

/-- `write_sector` (src/diskimage.rs:1008-1025): the analysis is not renewed. -/
def writeSector (m : Image) (ch : Ch) (q : Query) (offset : Option Nat) (buf : List Byte) (deleted debug : Bool) :
    Image × Except Err WriteResult :=
  let r := m.disk.writeSector ch q offset buf deleted debug
  ({ m with disk := r.1 }, r.2)

/-- `format_track` (src/diskimage.rs:1251-1272). -/
def formatTrack (debug : Bool) (m : Image) (nz : Noise) (ch : Ch) (ids : List Chsn) (pat : List Byte) (gap3 : Nat) :
    Except Err (Image × Except Err Unit) :=
  match m.disk.formatTrack nz ch ids pat gap3 with
  | (d, .error e) => .ok ({ m with disk := d }, .error e)
  | (d, .ok ()) => (d.analysis debug m.found).map fun a => ({ disk := d, found := a }, .ok ())

end Image

/-! ## The choice of a format -/

namespace Detect.Format

/-- `capabilities` (src/file_parsers/mod.rs:254-280 and the parsers). -/
def caps : Format → Caps
  | .raw | .imd | .psi | .mfm | .td0 | .hfe => 0#32
  | .f86 | .scp | .kryo => .bitstream
  | .tc => .bitstream ||| .trackEncoding ||| .encodingFm ||| .encodingMfm
  | .pri | .pfi | .mfi | .ipf | .moof | .woz => .bitstream ||| .comment ||| .weakBits

/-- `extensions` (src/file_parsers/mod.rs:332-356 and the parsers), with all features. -/
def extensions : Format → List (List Char)
  | .raw => [['i', 'm', 'g'], ['i', 'm', 'a'], ['d', 's', 'k'], ['b', 'i', 'n'], ['a', 'd', 'f'], ['s', 't']]
  | .imd => [['i', 'm', 'd']]
  | .psi => [['p', 's', 'i']]
  | .pri => [['p', 'r', 'i']]
  | .pfi => [['p', 'f', 'i']]
  | .mfm => [['m', 'f', 'm']]
  | .td0 => [['t', 'd', '0']]
  | .kryo => [['r', 'a', 'w']]
  | .hfe => [['h', 'f', 'e']]
  | .f86 => [['8', '6', 'f']]
  | .tc => [['t', 'c']]
  | .scp => [['s', 'c', 'p']]
  | .mfi => [['m', 'f', 'i']]
  | .ipf => [['i', 'p', 'f']]
  | .moof => [['m', 'o', 'o', 'f']]
  | .woz => [['w', 'o', 'z']]

/-- `priority` (src/types/enums.rs:370-399). -/
def priority : Format → Nat
  | .raw | .psi => 1
  | .pri => 7
  | .f86 => 8
  | _ => 0

/-- The order of `str` on its characters (Unicode scalar values order like their UTF-8 encodings). -/
def extLe : List Char → List Char → Bool
  | [], _ => true
  | _ :: _, [] => false
  | a :: as, b :: bs => if a.toNat < b.toNat then true else if a.toNat = b.toNat then extLe as bs else false

/-- Insertion into a sorted list. -/
def extInsert (e : List Char) : List (List Char) → List (List Char)
  | [] => [e]
  | x :: rest => if extLe e x then e :: x :: rest else x :: extInsert e rest

/-- `dedup`: of equal neighbours one stays. -/
def extDedup : List (List Char) → List (List Char)
  | a :: b :: rest => if a = b then extDedup (b :: rest) else a :: extDedup (b :: rest)
  | l => l

/-- `supported_extensions` (src/file_parsers/mod.rs:160-165). -/
def supported : List (List Char) := extDedup ((Format.all.flatMap extensions).foldr extInsert [])

/-- `format_from_ext` (src/file_parsers/mod.rs:168-175); `lower` is `str::to_lowercase`. -/
def ofExt (lower : List Char → List Char) (ext : List Char) : Option Format :=
  Format.all.find? fun f => f.extensions.contains (lower ext)

/-- `formats_from_caps` (src/file_parsers/mod.rs:179-189). -/
def ofCaps (c : Caps) : List (Format × List (List Char)) :=
  (Format.all.filter fun f => c == 0#32 || f.caps.contains c).map fun f => (f, f.extensions)

/-- `ParserWriteCompatibility` (src/file_parsers/mod.rs:148-154). -/
inductive Compat where
  | ok | dataLoss | incompatible | unsupported
  deriving DecidableEq, Repr

/-- `can_write` (src/file_parsers/mod.rs:430-454 and the parsers: raw.rs:90-103, pri.rs:185-201, f86.rs:398-411, …). -/
def canWrite (f : Format) (image : Option Image) : Compat :=
  match f with
  | .raw => match image with
    | none => .ok
    | some m => if m.found.caps ≠ 0#32 then .dataLoss else .ok
  | .pri => match image with
    | none => .ok
    | some m =>
      if m.disk.res ≠ { bit := true } then .incompatible
      else if Format.pri.caps.contains m.found.caps then .ok else .dataLoss
  | .f86 => match image with
    | none => .ok
    | some m => if m.disk.res ≠ { bit := true } then .incompatible else .ok
  | .ipf | .moof | .woz => .incompatible
  | _ => .unsupported

/-- `filter_writable` (src/file_parsers/mod.rs:191-196). -/
def filterWritable (m : Image) (fs : List Format) : List Format := fs.filter fun f => f.canWrite (some m) == .ok

/-- Insertion into a list sorted by decreasing priority, before those of equal priority. -/
def insertBy (x : Format × List (List Char)) : List (Format × List (List Char)) → List (Format × List (List Char))
  | [] => [x]
  | y :: rest => if y.1.priority ≤ x.1.priority then x :: y :: rest else y :: insertBy x rest

/-- The stable `sort_by` of `compatible_formats` (src/diskimage.rs:2009). -/
def sortBy (l : List (Format × List (List Char))) : List (Format × List (List Char)) := l.foldr insertBy []

/-- `compatible_formats` (src/diskimage.rs:1995-2012). -/
def compatible (m : Image) (writable : Bool) : List (Format × List (List Char)) :=
  let fs := ofCaps m.found.caps
  let fs := if writable then
      let ok := filterWritable m (fs.map (·.1))
      fs.filter fun f => ok.contains f.1
    else fs
  sortBy fs

/-- What saving depends on beyond the tracks: the random numbers of a read, the data rates, the comment and the description. -/
structure Extras where
  nz : Noise
  rate : DiskTrack → BitVec 32
  comment : Option (List Byte) := none
  desc : F86.Meta := {}

/-- `save_image` (src/file_parsers/mod.rs:456-486): all parsers but three refuse. -/
def save (e : Extras) (f : Format) (m : Image) : Except Err (List Byte) :=
  match f with
  | .raw => Raw.save e.nz m.disk
  | .pri => Pri.save e.rate e.comment m.disk
  | .f86 => F86.save e.desc m.disk
  | _ => .error .unsupported

end Detect.Format

open Detect

/-! ## `ImageWriter` -/

/-- `ImageWriter` (src/image_writer.rs:44-50): whether a writer was given, the path, the format. -/
structure Writer (Path : Type) where
  writer : Bool := false
  path : Option Path := none
  format : Option Format := none

namespace Writer

/-- `with_format` (src/image_writer.rs:62-65). -/
def withFormat {Path : Type} (w : Writer Path) (f : Format) : Writer Path := { w with format := some f }

/-- `with_writer` (src/image_writer.rs:67-74). -/
def withWriter {Path : Type} (w : Writer Path) : Writer Path := { w with writer := true }

/-- `with_path` (src/image_writer.rs:76-81). -/
def withPath {Path : Type} (w : Writer Path) (p : Path) : Writer Path := { w with path := some p }

/-- What `write` leaves behind: the files, and what the writer received if saving succeeded. -/
structure Left (Path : Type) where
  files : Path → Option (List Byte)
  received : Option (List Byte) := none

/-- `write` (src/image_writer.rs:83-116).  `store` is what `std::fs::write` does to the files; a failing one may leave anything at the path.
What a writer receives before saving fails is not modelled. -/
def write {Path : Type} (w : Writer Path) (e : Format.Extras) (m : Image)
    (store : Path → List Byte → (Path → Option (List Byte)) → (Path → Option (List Byte)) × Except Err Unit)
    (files : Path → Option (List Byte)) : Left Path × Except Err Unit :=
  if w.path.isNone && !w.writer then ({ files }, .error .parameter)
  else match w.format with
    | none => ({ files }, .error .parameter)
    | some f =>
      if w.writer then
        match Format.save e f m with
        | .error x => ({ files }, .error x)
        | .ok bs => ({ files, received := some bs }, .ok ())
      else match w.path with
        | none => ({ files }, .ok ())
        | some p => match Format.save e f m with
          | .error x => ({ files }, .error x)
          | .ok bs =>
            let r := store p bs files
            ({ files := r.1 }, r.2)

end Writer
end Fox
