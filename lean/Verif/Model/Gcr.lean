import Verif.Model.BitTrack
import Verif.Model.Disk
/-
Model of what a GCR track does (src/bitstream_codec/gcr.rs): cells only, most of the codec is empty.  The record is that of MFM: the two
have the same fields (src/bitstream_codec/gcr.rs:48-62).
-/
namespace Fox
namespace Gcr
open S34

/-- `write_raw_u8` (src/bitstream_codec/gcr.rs:156-160). -/
def writeRawU8 (s : Mfm) (index : Nat) (byte : Byte) : Mfm := { s with bits := s.bits.setMany index (byteBits byte) }

/-- `write_raw_buf` (src/bitstream_codec/gcr.rs:184-186): nothing is written, and 0 returned. -/
def writeRawBuf (s : Mfm) (_buf : List Byte) (_offset : Nat) : Mfm × Nat := (s, 0)

/-- `read_decoded_buf` (src/bitstream_codec/gcr.rs:176-178): the buffer stays as it is, and 0 is returned. -/
def readDecodedBuf (_s : Mfm) (buf : List Byte) (_offset : Nat) : List Byte × Nat := (buf, 0)

/-- `encode` (src/bitstream_codec/gcr.rs:188-190): no cells. -/
def encode (_data : List Byte) (_prev : Bool) : List Bool := []

/-- `System34Schema::scan_markers` (src/track_schema/system34.rs:841-881): the IAM is looked for with `find_marker`, which is empty
(src/bitstream_codec/gcr.rs:192-195), and the others not at all (src/track_schema/system34.rs:593-600). -/
def scanMarkers (_s : Mfm) : List MarkerItem := []

/-- `format` of a bit stream track (src/track/bitstream.rs:823-868) with this codec.  Without markers there are no elements
(src/track_schema/system34.rs:883-1114).  `set_data_ranges` is not modelled. -/
def format (t : Track) (std : Standard) (ids : List Chsn) (pat : List Byte) (gap3 : Nat) : Except Err Track :=
  match formatTrackAsBytes std t.data.len ids pat gap3 with
  | .error e => .error e
  | .ok (bytes, ms) =>
    let s := ms.foldl (fun s m => (writeRawBuf s (be64 m.1.code) (m.2 * 16)).1) (t.data.replace (encode bytes false))
    match createClockMap ((scanMarkers s).map (·.start)) s.clockMap.bits with
    | .error e => .error e
    | .ok cm => .ok { t with data := { s with clockMap := { s.clockMap with bits := cm } }, items := [] }

/-- `read` of a bit stream track (src/track/bitstream.rs:757-797) with this codec: the bytes, their number as stated, and the number of cells. -/
def read (t : Track) (offset : Option Int) (overdump : Option Nat) : Except Err (List Byte × Nat × Nat) :=
  let size := t.data.len / 16 + if t.data.len % 16 > 0 then 1 else 0
  let buf : List Byte := List.replicate (size + overdump.getD 0) 0
  let index : Option Nat := match offset with
    | none => some 0
    | some o =>
      if o < 0 then if (t.data.len : Int) + o < 0 then none else some ((t.data.len : Int) + o).toNat
      else if o.toNat ≥ t.data.len then none else some o.toNat
  match index with
  | none => .error .parameter
  | some i => .ok ((readDecodedBuf t.data buf i).1, size, t.data.len)

end Gcr
end Fox
