import Verif.Model.F86
/-
`BitStreamTrack::new` for the formats that hand over plain MFM bytes: HFE, HxC MFM and TransCopy
(src/track/bitstream.rs:896-1116, src/bitstream_codec/mfm.rs), and the pieces these loaders share.
-/
namespace Fox

/-- `set_track_padding` (src/bitstream_codec/mfm.rs:171-213): no padding is ever found (`found_pad` is not
assigned), so the only effect is where the cursor ends.  The subtraction of 16 from the number of data bits
overflows for fewer than 32 cells; without overflow checks it wraps (there the cursor of the model is the
unwrapped one).  The fifteen passes seek to the same place, so the last one decides. -/
def Mfm.setPadding (debug : Bool) (rnd : Nat → Bool) (s : Mfm) : Except Err Mfm :=
  if s.len % 8 = 0 then
    match F86.subU debug 64 (s.len / 2) 16 with
    | .error e => .error e
    | .ok p => .ok ((s.seekStart p).readBytes rnd 4).2
  else .ok s

/-- The part of `BitStreamTrack::new` after the codec is made (src/track/bitstream.rs:1018-1095): markers,
clock map, padding if no cell count was given, elements. -/
def Track.ofMfm (debug : Bool) (rnd : Nat → Bool) (pad : Bool) (s : Mfm) : Except Err Track :=
  let ms := S34.scanMarkers s
  if ms ≠ [] then
    match S34.createClockMap (ms.map (·.start)) s.clockMap.bits with
    | .error e => .error e
    | .ok cm =>
      match (if pad then Mfm.setPadding debug rnd { s with clockMap := { s.clockMap with bits := cm } }
             else .ok { s with clockMap := { s.clockMap with bits := cm } }) with
      | .error e => .error e
      | .ok s =>
        let r := S34.scanMetadata s rnd ms
        .ok { data := r.2, items := r.1, schema := some .system34 }
  else
    let as := Amiga.scanMarkers s
    if as ≠ [] then
      match S34.createClockMap as s.clockMap.bits with
      | .error e => .error e
      | .ok cm =>
        match (if pad then Mfm.setPadding debug rnd { s with clockMap := { s.clockMap with bits := cm } }
               else .ok { s with clockMap := { s.clockMap with bits := cm } }) with
        | .error e => .error e
        | .ok s => .ok { data := s, schema := some .amiga }
    else
      match (if pad then Mfm.setPadding debug rnd s else .ok s) with
      | .error e => .error e
      | .ok s => .ok { data := s }

/-- `BitStreamTrack::new` for MFM data without a weak mask or a schema (src/track/bitstream.rs:896-1116), with an
optional cell count and optional detection of weak bits (`WEAK_BIT_RUN` is 6). -/
def Track.ofBytes (debug : Bool) (rnd : Nat → Bool) (data : List Byte) (cells : Option Nat) (detect : Bool) :
    Except Err Track :=
  let bits : Except Err (List Bool) :=
    if data = [] then
      match cells with
      | some n => .ok ((List.range n).map fun i => i % 2 == 0)
      | none => .error .parameter
    else .ok (bitsOf data)
  match bits with
  | .error e => .error e
  | .ok bits =>
    match Mfm.new bits cells none with
    | .error e => .error e
    | .ok s =>
      Track.ofMfm debug rnd cells.isNone
        (if detect then { s with weakMask := BitRing.ofBits (s.createWeakBitMask 6) } else s)

/-- `seek(SeekFrom::Start(o))` and `read_exact` of `n` bytes. -/
def readAt (f : List Byte) (o n : Nat) : Except Err (List Byte) :=
  if n = 0 ∨ o + n ≤ f.length then .ok ((f.drop o).take n) else .error .io

/-- `From<u32> for TrackDataRate` (src/types/enums.rs:266-279), the variant. -/
def rateOf (r : Nat) : F86.Rate :=
  if 93750 ≤ r ∧ r < 143750 then .r125
  else if 212000 ≤ r ∧ r < 271000 then .r250
  else if 271000 ≤ r ∧ r < 345000 then .r300
  else if 425000 ≤ r ∧ r < 575000 then .r500
  else if 850000 ≤ r ∧ r < 1150000 then .r1000
  else .nonstandard

/-- A byte of a file as a number. -/
def u8At (f : List Byte) (o : Nat) : Nat := (f.getD o 0#8).toNat

/-- A little-endian `u16` of a file. -/
def le16At (f : List Byte) (o : Nat) : Nat := u8At f o + 256 * u8At f (o + 1)

/-- A little-endian `u32` of a file. -/
def le32At (f : List Byte) (o : Nat) : Nat := le16At f o + 65536 * le16At f (o + 2)

end Fox
