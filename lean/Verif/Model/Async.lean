import Verif.Model.Detect
/-
Model of `DiskImage::load_async` (src/diskimage.rs:489-673, feature `tokio-async`, not wasm) and of `load_image_async`
(src/file_parsers/mod.rs:391-428).
-/
namespace Fox
namespace Async

/-- `load_image_async` for a KryoFlux stream (src/file_parsers/mod.rs:391-428): the parser runs as a task of its own.  A panic in the
task comes back as an `IoError`.  The lock is not contended: the caller waits for each task before it starts another. -/
def loadImage (debug : Bool) (rnd : Nat → Bool) (fm : Flux.FmCodec) (d : Disk) (q : Kryo.Desc) (f : List Byte) :
    (Disk × Kryo.Desc) × Except Err Unit :=
  match Kryo.load debug rnd fm d q f with
  | (x, .error .panic) => (x, .error .io)
  | r => r

/-- The loop over the streams of a set in an archive (src/diskimage.rs:557-577). -/
def loadFiles (debug : Bool) (rnd : Nat → Bool) (fm : Flux.FmCodec) : Disk → Kryo.Desc → List (Option (List Byte)) → Except Err Disk
  | d, _, [] => .ok d
  | _, _, none :: _ => .error .io
  | d, q, some f :: fs =>
    match loadImage debug rnd fm d q f with
    | (_, .error e) => .error e
    | ((d, q), .ok _) => loadFiles debug rnd fm d q fs

/-- The set chosen from an archive (src/diskimage.rs:545-591), up to `post_load_process`.  When all the tasks have ended nobody else
holds the image, so that taking it out of the `Arc` and of the lock cannot fail. -/
def loadSet (debug : Bool) (rnd : Nat → Bool) (fm : Flux.FmCodec) (entries : List (Detect.Path × List Byte)) (s : Detect.KfSet) :
    Except Err Disk :=
  loadFiles debug rnd fm { geometry := s.geometry } {}
    (s.files.map fun n => (entries.find? fun x => x.1 == ⟨s.dir, n⟩).map Prod.snd)

/-- `DiskImage::load_async` (src/diskimage.rs:489-673).  The parser of a single file is called directly (lines 499-511), and so is
that of the streams of a set in a directory, with the loop of `load` (lines 612-668). -/
def load (debug : Bool) (rnd : Nat → Bool) (fm : Flux.FmCodec) (u : Detect.Unpack) (sort : List Detect.Path → List Detect.Path)
    (L : Detect.Loaders) (sel : Option Detect.Selection) (f : List Byte) : Except Err Disk :=
  match Detect.container u sort f with
  | .error e => .error e
  | .ok (.file F) => L.parse F f
  | .ok (.resolved F x) => L.parse F x
  | .ok .kryo => L.set
  | .ok (.zipped sets) =>
    match Detect.choose sets sel with
    | .error e => .error e
    | .ok s => match u.unzip f with
      | none => .error .io
      | some z => loadSet debug rnd fm z.entries s

end Async
end Fox
