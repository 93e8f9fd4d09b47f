import Verif.Model.Pce
/-
Model of the 86F loader and writer (src/file_parsers/f86.rs).  Not modelled: the source map, logging, the
`f64` adjustments inside rates and speeds (a rate or speed is its variant only).
-/
namespace Fox

/-- `BitStreamTrack::new` for MFM data with a cell count, an optional weak mask and the System34 schema as a
hint (src/track/bitstream.rs:896-1116). -/
def Track.ofStream (rnd : Nat → Bool) (data : List Byte) (cells : Nat) (weak : Option (List Byte)) :
    Except Err Track :=
  if (weak.map List.length).getD data.length ≠ data.length then .error .parameter
  else
  let bits := if data = [] then (List.range cells).map (fun i => i % 2 == 0) else bitsOf data
  match Mfm.new bits (some cells) (weak.map bitsOf) with
  | .error e => .error e
  | .ok s =>
    let ms := S34.scanMarkers s
    if ms ≠ [] then
      match S34.createClockMap (ms.map (·.start)) s.clockMap.bits with
      | .error e => .error e
      | .ok cm =>
        let r := S34.scanMetadata { s with clockMap := { s.clockMap with bits := cm } } rnd ms
        .ok { data := r.2, items := r.1, schema := some .system34 }
    else
      let as := Amiga.scanMarkers s
      if as ≠ [] then
        match S34.createClockMap as s.clockMap.bits with
        | .error e => .error e
        | .ok cm => .ok { data := { s with clockMap := { s.clockMap with bits := cm } }, schema := some .amiga }
      else .ok { data := s }

/-- `has_weak_bits` (src/bitstream_codec/mfm.rs:163-165): `!` is the bitwise complement of the number of
regions, a `usize`. -/
def Mfm.hasWeakBits (s : Mfm) : Bool := decide (2 ^ 64 - 1 - (Mfm.detectWeakLoop 6 0 0 0 s.bits.bits).1 % 2 ^ 64 > 0)

/-- `DiskImage::has_weak_bits` (src/diskimage.rs:1977-1984), for MFM bitstream tracks. -/
def Disk.hasWeakBits (d : Disk) : Bool :=
  d.trackList.any fun x => match x with | .bit _ t => t.data.hasWeakBits | _ => false

namespace F86

/-- `TrackDensity` (src/types/enums.rs:137-143). -/
inductive Density where
  | standard | double | high | extended
  deriving DecidableEq, Repr

/-- `TrackDataRate` (src/types/enums.rs:232-239). -/
inductive Rate where
  | nonstandard | r125 | r250 | r300 | r500 | r1000
  deriving DecidableEq, Repr

/-- `DiskRpm` (src/types/rpm.rs:61-72). -/
inductive Rpm where
  | r150 | r300 | r360 | r600 | zoned
  deriving DecidableEq, Repr

/-- What the format uses of `DiskDescriptor` (src/types/structs.rs) besides the geometry, and the PROLOK flag. -/
structure Meta where
  density : Density := .double
  rate : Rate := .r250
  encoding : Encoding := .mfm
  rpm : Option Rpm := none
  writeProtect : Option Bool := none
  prolok : Bool := false
  deriving DecidableEq, Repr

/-- A little-endian `u16`. -/
def le2 (n : Nat) : List Byte := [BitVec.ofNat 8 n, BitVec.ofNat 8 (n / 256)]

/-- A little-endian `u32`. -/
def le4 (n : Nat) : List Byte :=
  [BitVec.ofNat 8 n, BitVec.ofNat 8 (n / 256), BitVec.ofNat 8 (n / 65536), BitVec.ofNat 8 (n / 16777216)]

/-- Reading a little-endian `u32`. -/
def ofLe4 (a b c d : Byte) : Nat := a.toNat + 256 * (b.toNat + 256 * (c.toNat + 256 * d.toNat))

/-- `f86_weak_to_weak` (src/file_parsers/f86.rs:334-338). -/
def orBytes : List Byte → List Byte → List Byte
  | a :: as, b :: bs => (a ||| b) :: orBytes as bs
  | as, _ => as

/-- `f86_weak_to_holes` (src/file_parsers/f86.rs:340-344). -/
def clearBytes : List Byte → List Byte → List Byte
  | a :: as, b :: bs => (a &&& ~~~b) :: clearBytes as bs
  | as, _ => as

/-- One track entry of `save_image` (src/file_parsers/f86.rs:970-1055). -/
def trackBytes (m : Meta) (surface : Bool) (tflags c h : Nat) : DiskTrack → Except Err (List Byte)
  | .bit _ t =>
    let bits := DiskTrack.packed t.data.bits.bits
    let weak := DiskTrack.packed t.data.weakMask.bits
    if surface = true ∧ bits.length ≠ weak.length then .error .unsupported
    else
      let pad := if bits.length % 2 ≠ 0 then [0#8] else []
      let weak := weak ++ pad
      let bits := if m.prolok = true ∧ c = 39 ∧ h = 0 then clearBytes (bits ++ pad) weak else orBytes (bits ++ pad) weak
      .ok (le2 tflags ++ le4 t.data.len ++ le4 0 ++ bits ++ if surface then weak else [])
  | .other _ => .error .panic
  | _ => .error .unsupported

/-- The loop over the track entries (src/file_parsers/f86.rs:963-1062): the offsets, and the bytes written
after the table. -/
def saveLoop (m : Meta) (surface dbl : Bool) (tflags : Nat) (d : Disk) :
    Nat → Nat → Nat → Nat → Nat → Except Err (List Nat × List Byte)
  | 0, _, _, _, _ => .ok ([], [])
  | k + 1, c, h, copy, pos =>
    match (if h < 2 then (d.headMap h)[c]?.bind fun i => d.pool[i]? else none) with
    | none => .error .panic
    | some x => match trackBytes m surface tflags c h x with
      | .error e => .error e
      | .ok bytes =>
        let next :=
          if h + 1 = d.geometry.h then
            if dbl then
              if copy + 1 = 2 then saveLoop m surface dbl tflags d k (c + 1) 0 0 (pos + bytes.length)
              else saveLoop m surface dbl tflags d k c 0 (copy + 1) (pos + bytes.length)
            else saveLoop m surface dbl tflags d k (c + 1) 0 copy (pos + bytes.length)
          else saveLoop m surface dbl tflags d k c (h + 1) copy (pos + bytes.length)
        match next with
        | .error e => .error e
        | .ok (os, bs) => .ok (pos % 2 ^ 32 :: os, bytes ++ bs)

/-- The density bits of the disk flags (src/file_parsers/f86.rs:863-871). -/
def densityFlag : Density → Option Nat
  | .double => some 0
  | .high => some 2
  | .extended => some 4
  | .standard => none

/-- The rate bits of the track flags (src/file_parsers/f86.rs:936-945). -/
def rateFlag : Rate → Option Nat
  | .r500 => some 0
  | .r300 => some 1
  | .r250 => some 2
  | .r1000 => some 3
  | _ => none

/-- The encoding bits (src/file_parsers/f86.rs:948-952). -/
def encFlag : Encoding → Nat
  | .fm => 0
  | .mfm => 8
  | .gcr => 24

/-- The speed bits (src/file_parsers/f86.rs:955-959). -/
def rpmFlag : Option Rpm → Nat
  | some .r360 => 32
  | _ => 0

/-- `F86Format::save_image` (src/file_parsers/f86.rs:837-1082): the file.  The table has 256 entries per head. -/
def save (m : Meta) (d : Disk) : Except Err (List Byte) :=
  if d.res ≠ { bit := true } then .error .unsupported
  else
  let surface := d.hasWeakBits
  match densityFlag m.density with
  | none => .error .unsupported
  | some den =>
    if d.geometry.h ≠ 1 ∧ d.geometry.h ≠ 2 then .error .unsupported
    else if d.map0.length < d.geometry.c ∨ d.map1.length < d.geometry.c then .error .unsupported
    else match rateFlag m.rate with
      | none => .error .unsupported
      | some rate =>
        let flags := (if surface then 1 else 0) + den + (if d.geometry.h = 2 then 8 else 0) +
          (if m.writeProtect = some true then 16 else 0) + 0x80 + 0x1000
        let dbl := decide (d.geometry.c < 80)
        let slots := 256 * d.geometry.h
        let entries := min slots ((if dbl then d.geometry.c * 2 else d.geometry.c) * d.geometry.h)
        match saveLoop m surface dbl (rate + encFlag m.encoding + rpmFlag m.rpm) d entries 0 0 0 (8 + 4 * slots) with
        | .error e => .error e
        | .ok (os, bytes) =>
          .ok ([0x38#8, 0x36#8, 0x42#8, 0x46#8, 0x0C#8, 0x02#8] ++ le2 flags ++
            (os ++ List.replicate (slots - os.length) 0).flatMap le4 ++ bytes)

/-- Subtraction of unsigned numbers of `w` bits: with overflow checks it panics, without it wraps. -/
def subU (debug : Bool) (w a b : Nat) : Except Err Nat :=
  if b ≤ a then .ok (a - b) else if debug then .error .panic else .ok (a + 2 ^ w - b)

/-- The offsets after the first with the sizes of the entries (src/file_parsers/f86.rs:508-536); `len` is the
length of the stream. -/
def offsets (debug : Bool) (len : Nat) : Nat → List Byte → Nat → Except Err (List (Nat × Nat))
  | 0, _, prev => match subU debug 64 len prev with
    | .error e => .error e
    | .ok n => .ok [(prev, n)]
  | k + 1, bs, prev => match bs with
    | b0 :: b1 :: b2 :: b3 :: bs =>
      let o := ofLe4 b0 b1 b2 b3
      if o = 0 then match subU debug 64 len prev with
        | .error e => .error e
        | .ok n => .ok [(prev, n)]
      else match subU debug 32 o prev with
        | .error e => .error e
        | .ok n => match offsets debug len k bs o with
          | .error e => .error e
          | .ok l => .ok ((prev, n) :: l)
    | _ => .error .io

/-- `f86_disk_time_shift` (src/file_parsers/f86.rs:284-295): the slowdown bits, and whether it is a speedup. -/
def timeShift (flags : Nat) : Nat × Bool :=
  if flags / 32 % 4 = 0 then (0, false) else (flags / 32 % 4, flags / 4096 % 2 = 1)

/-- `track_length_words` for double and high density (src/file_parsers/f86.rs:251-262). -/
def lengthWords : Nat × Bool → Nat
  | (1, false) => 12625
  | (2, false) => 12687
  | (3, false) => 12750
  | (1, true) => 12376
  | (2, true) => 12315
  | (3, true) => 12254
  | _ => 12500

/-- `f86_track_rpm` (src/file_parsers/f86.rs:326-332). -/
def trackRpm (tf : Nat) : Option Rpm :=
  if tf / 32 % 8 = 0 then some .r300 else if tf / 32 % 8 = 1 then some .r360 else none

/-- `f86_track_encoding` (src/file_parsers/f86.rs:317-324). -/
def trackEnc (tf : Nat) : Option Encoding :=
  if tf / 8 % 4 = 0 then some .fm else if tf / 8 % 4 = 1 then some .mfm else if tf / 8 % 4 = 3 then some .gcr else none

/-- `f86_track_data_rate` (src/file_parsers/f86.rs:307-315). -/
def trackRate (tf : Nat) : Option Rate :=
  if tf % 8 = 0 then some .r500 else if tf % 8 = 1 then some .r300 else if tf % 8 = 2 then some .r250
  else if tf % 8 = 3 then some .r1000 else none

/-- A `u32` read as an `i32`. -/
def toI32 (n : Nat) : Int := if n < 2 ^ 31 then n else (n : Int) - 2 ^ 32

/-- `as usize` of a signed number. -/
def toUsize (i : Int) : Nat := (i % 2 ^ 64).toNat

/-- `saturating_add_signed`. -/
def satAdd (n : Nat) (i : Int) : Nat := min ((n : Int) + i).toNat (2 ^ 64 - 1)

/-- How many bytes of a track are read, and its cell count (src/file_parsers/f86.rs:617-716).  `bitLen` is the
floating-point formula for the cell count, `f86_track_bit_length`. -/
def trackLength (bitLen : Encoding → Rate → Rpm → Nat × Bool → Int → Nat) (shift : Nat × Bool) (absolute : Bool)
    (extra : Option Int) (enc : Encoding) (rate : Rate) (rpm : Rpm) (raw : Nat) : Except Err (Nat × Nat) :=
  if absolute then
    let count := extra.getD 0
    let need := toUsize (count.tdiv 8 + if count.tmod 8 ≠ 0 then 1 else 0)
    if raw < need then .error .corrupt else .ok (need, toUsize count)
  else
    let words := match extra with
      | some x => let b := satAdd (lengthWords shift * 16) x; if b % 16 ≠ 0 then b / 16 + 1 else b / 16
      | none => lengthWords shift
    if raw < words * 2 then .error .corrupt
    else .ok (words * 2, bitLen enc rate rpm shift (extra.getD 0))

/-- The state of the loader's loop (src/file_parsers/f86.rs:540-543). -/
structure State where
  disk : Disk
  head : Nat := 0
  cyl : Nat := 0
  rpm : Option Rpm := none

/-- Adding the track (src/file_parsers/f86.rs:760-786).  A track with another encoding than MFM is only
placed. -/
def addTrack (rnd : Nat → Bool) (d : Disk) (ch : Ch) (enc : Encoding) (data : List Byte) (cells : Nat)
    (weak : Option (List Byte)) : Except Err Disk :=
  if enc = .mfm then
    match d.addBit ch (Track.ofStream rnd data cells weak) with
    | (_, .error e) => .error e
    | (d, .ok _) => .ok d
  else if ch.h ≥ 2 then .error .seek
  else if d.rejects .bitStream then .error .incompatible
  else .ok ({ d with res := d.res.insert .bitStream }.pushTrack ch.h (.other ch))

/-- One track (src/file_parsers/f86.rs:545-795).  Bytes that are missing are an IO error; a length no memory
holds panics.  Hole masks are handed over but ignored by `BitStreamTrack::new`. -/
def step (debug : Bool) (bitLen : Encoding → Rate → Rpm → Nat × Bool → Int → Nat) (rnd : Nat → Bool) (flags : Nat)
    (bs : List Byte) (st : State) (entry : Nat × Nat) : Except Err State :=
  let surface := flags % 2 = 1
  let extraMode := flags / 128 % 2 = 1
  let shift := timeShift flags
  let absolute := decide (shift = (0, false) ∧ flags / 4096 % 2 = 1 ∧ extraMode)
  let body := bs.drop entry.1
  let header : Option (Nat × Option Int × List Byte) := match body with
    | f0 :: f1 :: b0 :: b1 :: b2 :: b3 :: rest =>
      if extraMode then match rest with
        | _ :: _ :: _ :: _ :: rest => some (f0.toNat + 256 * f1.toNat, some (toI32 (ofLe4 b0 b1 b2 b3)), rest)
        | _ => none
      else some (f0.toNat + 256 * f1.toNat, none, rest)
    | _ => none
  match header with
  | none => .error .io
  | some (tf, extra, rest) => match trackRpm tf with
    | none => .error .unsupported
    | some rpm =>
      if st.rpm ≠ none ∧ st.rpm ≠ some rpm then .error .unsupported
      else match trackEnc tf with
        | none => .error .unsupported
        | some enc => match trackRate tf with
          | none => .error .unsupported
          | some rate => match subU debug 64 entry.2 (if extraMode then 10 else 6) with
            | .error e => .error e
            | .ok raw =>
              if raw % 2 ≠ 0 then .error .corrupt
              else match trackLength bitLen shift absolute extra enc rate rpm (if surface then raw / 2 else raw) with
                | .error e => .error e
                | .ok (n, cells) =>
                  if 2 ^ 63 ≤ n then .error .panic
                  else if rest.length < (if surface then 2 * n else n) then .error .io
                  else
                    let data := rest.take n
                    let weak := if surface then List.zipWith (· &&& ·) ((rest.drop n).take n) data else []
                    match addTrack rnd st.disk ⟨st.cyl, st.head⟩ enc data cells
                        (if weak.any (· ≠ 0#8) then some weak else none) with
                    | .error e => .error e
                    | .ok d =>
                      let last := st.head + 1 = (if flags / 8 % 2 = 1 then 2 else 1)
                      .ok { disk := d, rpm := some rpm, head := if last then 0 else st.head + 1,
                            cyl := if last then (st.cyl + 1) % 65536 else st.cyl }

/-- The loop over the tracks. -/
def steps (debug : Bool) (bitLen : Encoding → Rate → Rpm → Nat × Bool → Int → Nat) (rnd : Nat → Bool) (flags : Nat)
    (bs : List Byte) : State → List (Nat × Nat) → Except Err State
  | st, [] => .ok st
  | st, x :: xs => match step debug bitLen rnd flags bs st x with
    | .error e => .error e
    | .ok st => steps debug bitLen rnd flags bs st xs

/-- `F86Format::load_image` (src/file_parsers/f86.rs:413-826): the image and its descriptor.  Name and version
in the header are not looked at; unknown flags are dropped. -/
def load (debug : Bool) (bitLen : Encoding → Rate → Rpm → Nat × Bool → Int → Nat) (rnd : Nat → Bool) (d : Disk)
    (bs : List Byte) : Except Err (Disk × Meta) :=
  match bs with
  | _ :: _ :: _ :: _ :: _ :: _ :: f0 :: f1 :: rest =>
    let flags := f0.toNat + 256 * f1.toNat
    if flags / 4 % 2 = 1 then .error .unsupported
    else if flags / 256 % 2 = 1 then .error .unsupported
    else if flags / 2048 % 2 = 1 then .error .unsupported
    else match rest with
      | b0 :: b1 :: b2 :: b3 :: rest =>
        let first := ofLe4 b0 b1 b2 b3
        match subU debug 64 first 8 with
        | .error e => .error e
        | .ok n => match offsets debug bs.length (n / 4 - 1) rest first with
          | .error e => .error e
          | .ok os => match steps debug bitLen rnd flags bs { disk := d } os with
            | .error e => .error e
            | .ok st =>
              .ok ({ st.disk with geometry := ⟨st.cyl, if flags / 8 % 2 = 1 then 2 else 1⟩ },
                { density := if flags / 2 % 2 = 1 then .high else .double, rate := .r250, encoding := .mfm,
                  rpm := st.rpm, writeProtect := some (decide (flags / 16 % 2 = 1)) })
      | _ => .error .io
  | _ => .error .io

end F86
end Fox
