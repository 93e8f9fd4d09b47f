import Verif.Model.Disk
/-
Model of src/file_parsers/raw.rs (IMG/IMA/ADF sector images) together with the part of
`DiskImage::load` that surrounds it (src/diskimage.rs:304-311).  The file is a byte list; a short read
(`read_exact`) is an error.
-/
namespace Fox
namespace Raw

/-- The sector ids of a track (src/file_parsers/raw.rs:206-213, 267-274). -/
def trackIds (g : Layout) (ch : Ch) : List Chsn :=
  (List.range g.s).map fun s => ⟨ch.c, ch.h, s + g.sOff, g.n⟩

/-- The tracks in the order of `layout.ch().iter()` / `ch_iter()`. -/
def trackOrder (g : Layout) : List Ch := (Ch.iterTake g.ch (g.c * g.h + 1) none).1

/-- One turn of the loop of `load_as_bitstream` (src/file_parsers/raw.rs:191-222): an empty track is added and
formatted with the next sectors of the file as fill pattern. -/
def bitStep (f : StdFormat) (nz : Noise) (ch : Ch) (file : List Byte) (d : Disk) : Except Err Disk :=
  let g := f.layout
  match d.addEmpty ch .mfm (some .bitStream) f.bitcellCt (some false) with
  | (_, .error e) => .error e
  | (d, .ok i) =>
    if file.length < g.s * g.size then .error .dataError
    else match d.pool[i]? with
      | none => .error .dataError
      | some t =>
        match t.format nz .ibm (trackIds g ch) (file.take (g.s * g.size)) f.gap3 with
        | .error e => .error e
        | .ok t' => .ok { d with pool := d.pool.set i t' }

/-- The loop of `load_as_bitstream` (src/file_parsers/raw.rs:191-222). -/
def bitLoop (f : StdFormat) (nz : Noise) : List Ch → List Byte → Disk → Except Err Disk
  | [], _, d => .ok d
  | ch :: rest, file, d =>
    match bitStep f nz ch file d with
    | .error e => .error e
    | .ok d => bitLoop f nz rest (file.drop (f.layout.s * f.layout.size)) d

/-- `load_as_bitstream` (src/file_parsers/raw.rs:169-236). -/
def loadBit (f : StdFormat) (nz : Noise) (file : List Byte) (d : Disk) : Except Err Disk :=
  match bitLoop f nz (trackOrder f.layout) file (d.setResolution .bitStream) with
  | .error e => .error e
  | .ok d => .ok { d with geometry := f.layout.ch }

/-- The sectors added to one metasector track (src/file_parsers/raw.rs:265-284). -/
def addSectors (size : Nat) : List Chsn → List Byte → MetaTrack → Except Err MetaTrack
  | [], _, t => .ok t
  | x :: xs, file, t =>
    if file.length < size then .error .dataError
    else match t.addSector { id := x, data := file.take size } with
      | .error e => .error e
      | .ok t => addSectors size xs (file.drop size) t

/-- One turn of the loop of `load_as_metasector` (src/file_parsers/raw.rs:255-285). -/
def metaStep (f : StdFormat) (ch : Ch) (file : List Byte) (d : Disk) : Except Err Disk :=
  match d.addMeta ch with
  | (_, .error e) => .error e
  | (d, .ok i) =>
    match d.pool[i]? with
    | some (.sect t) =>
      match addSectors f.layout.size (trackIds f.layout ch) file t with
      | .error e => .error e
      | .ok t' => .ok { d with pool := d.pool.set i (.sect t') }
    | _ => .error .panic

/-- The loop of `load_as_metasector` (src/file_parsers/raw.rs:255-285). -/
def metaLoop (f : StdFormat) : List Ch → List Byte → Disk → Except Err Disk
  | [], _, d => .ok d
  | ch :: rest, file, d =>
    match metaStep f ch file d with
    | .error e => .error e
    | .ok d => metaLoop f rest (file.drop (f.layout.s * f.layout.size)) d

/-- `load_as_metasector` (src/file_parsers/raw.rs:238-299). -/
def loadMeta (f : StdFormat) (file : List Byte) (d : Disk) : Except Err Disk :=
  match metaLoop f (trackOrder f.layout) file (d.setResolution .metaSector) with
  | .error e => .error e
  | .ok d => .ok { d with geometry := f.layout.ch }

/-- `load_image` (src/file_parsers/raw.rs:105-167) on a fresh image.  The file size selects the format; the
track-count checks compare it with the format's own geometry. -/
def loadImage (nz : Noise) (file : List Byte) : Except Err Disk :=
  match StdFormat.ofSize file.length with
  | none => .error .unknownFormat
  | some f =>
    let g := f.layout
    if g.c * g.h ≠ file.length / (g.s * g.size) then .error .unknownFormat
    else if file.length % (g.s * g.size) ≠ 0 then .error .unknownFormat
    else if f.isPc then loadBit f nz file {} else loadMeta f file {}

/-- `DiskImage::load` for a raw image file: parse, then `post_load_process`
(src/diskimage.rs:304-311). -/
def load (H : List Byte → Nat) (nz : Noise) (file : List Byte) : Except Err Disk :=
  match loadImage nz file with
  | .error e => .error e
  | .ok d => d.postLoad H nz

/-- The sector sizes adjusted by `save_image` (src/file_parsers/raw.rs:326-347): cut or padded with zeros. -/
def fit (n : Nat) (l : List Byte) : List Byte := l.take n ++ List.replicate (n - l.length) 0

/-- The loop of `save_image` (src/file_parsers/raw.rs:319-358); any read error is a `DataError`. -/
def saveLoop (nz : Noise) (n : Nat) (d : Disk) : List Chs → Except Err (List Byte)
  | [] => .ok []
  | x :: rest =>
    match d.readBasic nz ⟨x.c, x.h⟩ (.ofChsn ⟨x.c, x.h, x.s, n⟩) none with
    | .error .panic => .error .panic
    | .error _ => .error .dataError
    | .ok buf => match saveLoop nz n d rest with
      | .error e => .error e
      | .ok out => .ok (fit (nSize n) buf ++ out)

/-- `save_image` (src/file_parsers/raw.rs:301-361). -/
def save (nz : Noise) (d : Disk) : Except Err (List Byte) :=
  match d.closestFormat true with
  | none => .error .unsupported
  | some f =>
    match f.layout.iterTake (f.layout.totalSectors + 1) none with
    | .error e => .error e
    | .ok (xs, _) => saveLoop nz f.layout.n d xs

end Raw
end Fox
