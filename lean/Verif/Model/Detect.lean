import Verif.Model.StandardFormat
import Verif.Model.Kryo
/-
Model of finding out what a file is: src/detect.rs, the `detect` functions of the parsers (src/file_parsers), the archives
(src/containers/{archive,zip,gzip}.rs), and `DiskImage::load` (src/diskimage.rs:292-480) as far as it chooses a parser.  All the
features are on (`zip`, `gzip`, `td0`, `mfi`, `ipf`, `moof`, `woz`).
-/
namespace Fox
namespace Detect

/-- `DiskImageFileFormat` (src/types/enums.rs:326-364). -/
inductive Format where
  | raw | imd | psi | pri | pfi | mfm | td0 | kryo | hfe | f86 | tc | scp | mfi | ipf | moof | woz
  deriving DecidableEq, Repr

/-- `DiskImageFileFormat::iter()`: the order of the declaration (src/types/enums.rs:324-364). -/
def Format.all : List Format :=
  [.raw, .imd, .psi, .pri, .pfi, .mfm, .td0, .kryo, .hfe, .f86, .tc, .scp, .mfi, .ipf, .moof, .woz]

/-! ## The header of an ImageDisk file -/

/-- `read_ascii` with the terminator 0x1A (src/util.rs:49-83): the text, without control characters and bytes from 128 on, up to
a 0 or 0x1A or the end. -/
def asciiText : List Byte → List Byte
  | [] => []
  | b :: r =>
    if b = 0x1A#8 ∨ b = 0#8 then [] else if 32 ≤ b.toNat ∧ b.toNat < 128 then b :: asciiText r else asciiText r

/-- A digit (`\d`; the text is ASCII). -/
def digit : List Byte → Option (List Byte)
  | b :: r => if 48 ≤ b.toNat ∧ b.toNat ≤ 57 then some r else none
  | [] => none

/-- `\d{1,2}`, greedy.  What follows it in the pattern is never a digit, so trying one digit after two succeeded never helps. -/
def digit12 (l : List Byte) : Option (List Byte) :=
  match digit l with
  | none => none
  | some r => match digit r with
    | none => some r
    | some r' => some r'

/-- A given character. -/
def char (c : Byte) : List Byte → Option (List Byte)
  | b :: r => if b = c then some r else none
  | [] => none

/-- `\s*`; the only white space in the text is the blank. -/
def blanks : List Byte → List Byte
  | b :: r => if b = 0x20#8 then blanks r else b :: r
  | [] => []

/-- `\s+`, greedy.  What follows it in the pattern is never a blank. -/
def blanks1 (l : List Byte) : Option (List Byte) :=
  match char 0x20#8 l with
  | none => none
  | some r => some (blanks r)

/-- `IMD \d\.\d{2}:\s+\d{1,2}/\d{2}/\d{4}\s+\d{1,2}:\d{2}:\d{2}` at the beginning of the text
(src/file_parsers/imd.rs:52). -/
def imdHere (l : List Byte) : Option (List Byte) := do
  let l ← char 0x49#8 l
  let l ← char 0x4D#8 l
  let l ← char 0x44#8 l
  let l ← char 0x20#8 l
  let l ← digit l
  let l ← char 0x2E#8 l
  let l ← digit l
  let l ← digit l
  let l ← char 0x3A#8 l
  let l ← blanks1 l
  let l ← digit12 l
  let l ← char 0x2F#8 l
  let l ← digit l
  let l ← digit l
  let l ← char 0x2F#8 l
  let l ← digit l
  let l ← digit l
  let l ← digit l
  let l ← digit l
  let l ← blanks1 l
  let l ← digit12 l
  let l ← char 0x3A#8 l
  let l ← digit l
  let l ← digit l
  let l ← char 0x3A#8 l
  let l ← digit l
  digit l

/-- The pattern is not anchored: it may match anywhere (src/file_parsers/imd.rs:147). -/
def imdAnywhere : List Byte → Bool
  | [] => false
  | b :: r => (imdHere (b :: r)).isSome || imdAnywhere r

/-! ## The parsers' `detect` -/

/-- A header of `n` bytes can be read and the file begins with `sig`. -/
def starts (n : Nat) (sig f : List Byte) : Bool := decide (n ≤ f.length) && f.take sig.length == sig

/-- `detect` of each parser: src/file_parsers/raw.rs:85-88, imd.rs:140-154, pce/psi.rs:212-223, pce/pri.rs:171-182,
pce/pfi.rs:143-154, mfm.rs:104-115, td0.rs:215-226, kryoflux.rs:165-174, hfe.rs:291-302, f86.rs:384-396, tc.rs:184-196,
scp.rs:189-201, mfi.rs:253-264, ipf/ipf.rs:97-110 (and ipf/chunk.rs:40-61), as/moof.rs:298-309, as/woz.rs:323-334. -/
def detects (f : List Byte) : Format → Bool
  | .raw => (StdFormat.ofSize f.length).isSome
  | .imd => imdAnywhere (asciiText f)
  | .psi => starts 8 [0x50#8, 0x53#8, 0x49#8, 0x20#8] f
  | .pri => starts 8 [0x50#8, 0x52#8, 0x49#8, 0x20#8] f
  | .pfi => starts 8 [0x50#8, 0x46#8, 0x49#8, 0x20#8] f
  | .mfm => starts 19 [0x48#8, 0x58#8, 0x43#8, 0x4D#8, 0x46#8, 0x4D#8] f
  | .td0 => starts 12 [0x54#8, 0x44#8] f || starts 12 [0x74#8, 0x64#8] f
  | .kryo => starts 1 [0x0D#8] f
  | .hfe => starts 26 [0x48#8, 0x58#8, 0x43#8, 0x50#8, 0x49#8, 0x43#8, 0x46#8, 0x45#8] f
  | .f86 => starts 8 [0x38#8, 0x36#8, 0x42#8, 0x46#8, 0x0C#8, 0x02#8] f
  | .tc => starts 256 [0x5A#8, 0xA5#8] f
  | .scp => starts 16 [0x53#8, 0x43#8, 0x50#8] f
  | .mfi =>
    starts 32 [0x4D#8, 0x45#8, 0x53#8, 0x53#8, 0x46#8, 0x4C#8, 0x4F#8, 0x50#8, 0x50#8, 0x59#8, 0x49#8, 0x4D#8, 0x41#8, 0x47#8, 0x45#8] f ||
      starts 32 [0x4D#8, 0x41#8, 0x4D#8, 0x45#8, 0x46#8, 0x4C#8, 0x4F#8, 0x50#8, 0x50#8, 0x59#8, 0x49#8, 0x4D#8, 0x41#8, 0x47#8, 0x45#8] f
  | .ipf => starts 12 [0x43#8, 0x41#8, 0x50#8, 0x53#8] f
  | .moof => starts 12 [0x4D#8, 0x4F#8, 0x4F#8, 0x46#8] f
  | .woz => starts 12 [0x57#8, 0x4F#8, 0x5A#8, 0x32#8] f

/-- The first format that says yes (src/detect.rs:107-118, 176-186). -/
def detect (f : List Byte) : Option Format := Format.all.find? fun F => detects f F

/-! ## Archives -/

/-- A path in an archive: the directory and the name of the file. -/
structure Path where
  dir : List Byte
  name : List Byte
  deriving DecidableEq, Repr

/-- What the `zip` crate tells about a zip file: the entries in order with their contents, and the sum of the sizes if it knows
it (else 0).  Entries with unsafe names are not modelled. -/
structure Zip where
  entries : List (Path × List Byte)
  total : Nat

/-- The two libraries that unpack; `none` is an error. -/
structure Unpack where
  unzip : List Byte → Option Zip
  gunzip : List Byte → Option (List Byte)

/-- `KryoFluxSet` (src/detect.rs:146-150). -/
structure KfSet where
  dir : List Byte
  files : List (List Byte)
  geometry : Ch
  deriving DecidableEq

/-- `DiskImageContainer`, without the paths that only name the file itself. -/
inductive Container where
  | file (F : Format)
  | resolved (F : Format) (data : List Byte)
  | kryo
  | zipped (sets : List KfSet)

/-- `MAX_FILE_SIZE` (src/containers/zip.rs:41, gzip.rs:41). -/
def maxFile : Nat := 100000000

/-- `00.0.raw` -/
def firstName : List Byte := [48#8, 48#8, 46#8, 48#8, 46#8, 114#8, 97#8, 119#8]

/-- `str::ends_with`. -/
def endsWith (suffix l : List Byte) : Bool := suffix.length ≤ l.length && l.drop (l.length - suffix.length) == suffix

/-- The end of `detect_container_format` (src/detect.rs:176-188): the file itself. -/
def plain (f : List Byte) : Except Err Container :=
  match detect f with
  | none => .error .unknownFormat
  | some .kryo => .ok .kryo
  | some F => .ok (.file F)

/-- A single file out of an archive (src/detect.rs:101-119). -/
def single (x : List Byte) : Except Err Container :=
  match detect x with
  | none => .error .unknownFormat
  | some F => .ok (.resolved F x)

/-- The KryoFlux sets of an archive (src/detect.rs:124-152); `sort` is the natural sort of the paths. -/
def setsOf (sort : List Path → List Path) (paths : List Path) : List KfSet :=
  (sort (paths.filter fun p => endsWith firstName p.name)).map fun p =>
    let r := Kryo.expand p.name (paths.map Path.name)
    ⟨p.dir, r.1, r.2⟩

/-- `detect_container_format` (src/detect.rs:71-188).  Zip is asked before gzip (src/containers/archive.rs:79-83); `.io` stands
for `ArchiveError`. -/
def container (u : Unpack) (sort : List Path → List Path) (f : List Byte) : Except Err Container :=
  if starts 4 [0x50#8, 0x4B#8, 0x03#8, 0x04#8] f then
    match u.unzip f with
    | none => .error .io
    | some z =>
      match z.entries with
      | [x] => if x.2.length > maxFile then .error .io else single x.2
      | xs =>
        if z.total > 5000000 then
          match setsOf sort (xs.map Prod.fst) with
          | [] => plain f
          | sets => .ok (.zipped sets)
        else plain f
  else if starts 3 [0x1F#8, 0x8B#8, 0x08#8] f then
    match u.gunzip f with
    | none => .error .io
    | some x => if x.length > maxFile then .error .io else single x
  else plain f

/-! ## Loading -/

/-- `DiskSelection` (src/types/enums.rs:306-311). -/
inductive Selection where
  | index (n : Nat)
  | path (p : List Byte)

/-- The choice among the disks of an archive (src/diskimage.rs:339-355, 407-415); `.dataError` stands for `MultiDiskError`. -/
def choose (sets : List KfSet) : Option Selection → Except Err KfSet
  | some (.index n) => match sets[n]? with
    | some s => .ok s
    | none => .error .dataError
  | some (.path p) => match sets.find? fun s => s.dir == p with
    | some s => .ok s
    | none => .error .dataError
  | none => match sets with
    | [s] => .ok s
    | _ => .error .dataError

/-- The KryoFlux set chosen from an archive (src/diskimage.rs:357-405), up to `post_load_process`: each file of the set is
extracted by its path. -/
def loadSet (debug : Bool) (rnd : Nat → Bool) (fm : Flux.FmCodec) (entries : List (Path × List Byte)) (s : KfSet) : Except Err Disk :=
  Kryo.loadFiles debug rnd fm { geometry := s.geometry } {}
    (s.files.map fun n => (entries.find? fun x => x.1 == ⟨s.dir, n⟩).map Prod.snd)

/-- What loading needs besides the file: the parsers, and how the set of a KryoFlux stream outside of archives is loaded. -/
structure Loaders where
  parse : Format → List Byte → Except Err Disk
  set : Except Err Disk
  zipped : List (Path × List Byte) → KfSet → Except Err Disk

/-- `DiskImage::load` (src/diskimage.rs:292-480): parsers include `post_load_process`. -/
def load (u : Unpack) (sort : List Path → List Path) (L : Loaders) (sel : Option Selection) (f : List Byte) : Except Err Disk :=
  match container u sort f with
  | .error e => .error e
  | .ok (.file F) => L.parse F f
  | .ok (.resolved F x) => L.parse F x
  | .ok .kryo => L.set
  | .ok (.zipped sets) =>
    match choose sets sel with
    | .error e => .error e
    | .ok s => match u.unzip f with
      | none => .error .io
      | some z => L.zipped z.entries s

end Detect
end Fox
