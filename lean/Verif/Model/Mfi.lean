import Verif.Model.Scp
import Verif.Model.Kryo
/-
Model of the MAME floppy image loader (src/file_parsers/mfi.rs).  The file is a list of bytes; the deflate decompressor
(`flate2`) is a parameter: what it makes of compressed bytes and a buffer of a given size, or `none` for an error.  Not
modelled: logging, the source map, progress callbacks, the disk variant and the zones (both are only logged).  As in
Verif.Model.FluxTrack, times are exact and the FM codec is a parameter.
-/
namespace Fox
namespace Mfi
open Flux

/-- What `Decompress::decompress` leaves in a zeroed buffer of the given size (src/file_parsers/mfi.rs:424-448). -/
abbrev Inflate := List Byte → Nat → Option (List Byte)

/-- `NEW_SIGNATURE`: `MAMEFLOPPYIMAGE` (src/file_parsers/mfi.rs:86). -/
def signature : List Byte :=
  [0x4D#8, 0x41#8, 0x4D#8, 0x45#8, 0x46#8, 0x4C#8, 0x4F#8, 0x50#8, 0x50#8, 0x59#8, 0x49#8, 0x4D#8, 0x41#8, 0x47#8, 0x45#8]

/-- `DiskPhysicalDimensions::try_from` (src/file_parsers/mfi.rs:88-108): `35  `, `525 ` and `8   `. -/
def knownForm (b : List Byte) : Bool :=
  b == [0x33#8, 0x35#8, 0x20#8, 0x20#8] || b == [0x35#8, 0x32#8, 0x35#8, 0x20#8] || b == [0x38#8, 0x20#8, 0x20#8, 0x20#8]

/-- Reading and checking the header (src/file_parsers/mfi.rs:283-347): the geometry. -/
def header (f : List Byte) : Except Err Ch :=
  if f.length < 32 then .error .io
  else if f.take 15 ≠ signature then .error .unsupported
  else if knownForm ((f.drop 24).take 4) = false then .error .unsupported
  else if le32At f 16 % 2 ^ 30 % 65536 = 0 ∨ le32At f 20 % 256 = 0 then .error .corrupt
  else .ok ⟨le32At f 16 % 2 ^ 30 % 65536, le32At f 20 % 256⟩

/-- What is used of `MfiTrackHeader` (src/file_parsers/mfi.rs:186-200), 16 bytes. -/
structure Entry where
  offset : Nat
  compressed : Nat
  uncompressed : Nat
  deriving DecidableEq, Repr

/-- The table of tracks (src/file_parsers/mfi.rs:349-395): `n` entries from byte `o` on. -/
def table (f : List Byte) : Nat → Nat → Nat → Except Err (List Entry)
  | 0, _, _ => .ok []
  | n + 1, o, last =>
    if f.length < o + 16 then .error .io
    else if 0 < le32At f (o + 4) ∧ le32At f o < last then .error .corrupt
    else if f.length < le32At f o then .error .corrupt
    else
      match table f n (o + 16) (if le32At f o ≠ 0 then le32At f o else last) with
      | .error e => .error e
      | .ok l => .ok (⟨le32At f o, le32At f (o + 4), le32At f (o + 8)⟩ :: l)

/-- The data of one track (src/file_parsers/mfi.rs:402-456): none if any of the three is zero. -/
def dataOf (inflate : Inflate) (f : List Byte) (e : Entry) : Except Err (List Byte) :=
  if e.offset = 0 ∨ e.compressed = 0 ∨ e.uncompressed = 0 then .ok []
  else if f.length < e.offset + e.compressed then .error .io
  else
    match inflate ((f.drop e.offset).take e.compressed) e.uncompressed with
    | none => .error .corrupt
    | some d => .ok d

/-- The data of all tracks with their places (src/file_parsers/mfi.rs:399-459). -/
def readAll (inflate : Inflate) (f : List Byte) (geom : Ch) : Ch → List Entry → Except Err (List (Ch × List Byte))
  | _, [] => .ok []
  | ch, e :: es =>
    match dataOf inflate f e with
    | .error x => .error x
    | .ok d =>
      match readAll inflate f geom (ch.seekNextTrack geom).1 es with
      | .error x => .error x
      | .ok l => .ok ((ch, d) :: l)

/-- The flux times among the entries of a track (src/file_parsers/mfi.rs:551-629, 745-755): words of four bytes, of which the
type is the upper four bits.  A type of 4 or more is taken to be impossible; the others stand for zones and are left out. -/
def fluxes : List Byte → Except Err (List Rat)
  | a :: b :: c :: d :: l =>
    let w := a.toNat + 256 * b.toNat + 65536 * c.toNat + 16777216 * d.toNat
    if w / 2 ^ 28 ≥ 4 then .error .panic
    else
      match fluxes l with
      | .error e => .error e
      | .ok fs => .ok (if w / 2 ^ 28 = 0 then (((w % 2 ^ 30 : Nat) : Rat) / 1000000000) :: fs else fs)
  | _ => .ok []

/-- `normalize_flux_times` with no speed known (src/file_parsers/mfi.rs:679-733): the times, and the speed in rpm if it is
found to be 360. -/
def normalize (fs : List Rat) : List Rat × Option Rat :=
  match baseTransitionTime (histogram fs (2 / 100)) with
  | none => (fs, none)
  | some base =>
    let rpm := base / 2 * 1000000 * 300
    if 340 ≤ rpm ∧ rpm < 380 then (fs.map (· * (300 / 360)), some rpm) else (fs, none)

/-- `process_track_data_new` (src/file_parsers/mfi.rs:551-677): one revolution, which takes a turn at 300 rpm or the speed
found.  No speed is ever known before: it would be that of the first track's `info()`, whose bit stream has none
(src/track/bitstream.rs:1106-1115).  So no track is ever empty of revolutions (src/file_parsers/mfi.rs:472-496). -/
def process (ch : Ch) (data : List Byte) : Except Err Rev :=
  match fluxes data with
  | .error e => .error e
  | .ok fs => .ok (Rev.ofDeltas ch (normalize fs).1 (60 / (normalize fs).2.getD 300))

/-- The loop that adds the tracks (src/file_parsers/mfi.rs:461-533); besides the disk the density of the first track. -/
def tracks (debug : Bool) (rnd : Nat → Bool) (fm : FmCodec) :
    List (Ch × List Byte) → Disk → Option F86.Density → Except Err (Disk × Option F86.Density)
  | [], d, q => .ok (d, q)
  | t :: ts, d, q =>
    match process t.1 t.2 with
    | .error e => .error e
    | .ok r =>
      let made := make debug rnd fm none none [r]
      match d.addFlux t.1 (match made with | .ok m => .ok m.bitstream | .error e => .error e) with
      | (_, .error e) => .error e
      | (d, .ok _) =>
        tracks debug rnd fm ts d
          (match q with
           | some q => some q
           | none => match made with | .ok m => some (Kryo.densityOf (Scp.rateOfMade m)) | .error _ => none)

/-- `MfiFormat::load_image` (src/file_parsers/mfi.rs:270-549): the disk and its density. -/
def load (inflate : Inflate) (debug : Bool) (rnd : Nat → Bool) (fm : FmCodec) (d : Disk) (f : List Byte) :
    Except Err (Disk × F86.Density) :=
  match header f with
  | .error e => .error e
  | .ok g =>
    match table f (Ch.iterTake g (g.c * g.h + 1) none).1.length 32 0 with
    | .error e => .error e
    | .ok es =>
      match readAll inflate f g ⟨0, 0⟩ es with
      | .error e => .error e
      | .ok ts =>
        match tracks debug rnd fm ts d none with
        | .error e => .error e
        | .ok (d, q) => .ok ({ d with geometry := g }, q.getD .double)

end Mfi
end Fox
