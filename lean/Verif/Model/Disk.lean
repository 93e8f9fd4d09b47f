import Verif.Model.MetaSector
import Verif.Model.StandardFormat
/-
Model of src/diskimage.rs (`DiskImage`): the track pool and the two head tables, adding tracks, sector
access, formatting, normalisation, analysis (sectors per track only) and the format guess.

Not modelled: flags, metadata, volume name, shared write counter, source map, logging.
Random numbers (weak bits) are a parameter of every read.
-/
namespace Fox

/-- `TrackDataResolution` (src/types/enums.rs:53-61), ordered as listed. -/
inductive Resolution where
  | metaSector | bitStream | fluxStream
  deriving DecidableEq, Repr

/-- `TrackDataEncoding` (src/types/enums.rs). -/
inductive Encoding where
  | fm | mfm | gcr
  deriving DecidableEq, Repr

/-- The set of resolutions of a disk, `FoxHashSet<TrackDataResolution>` (src/diskimage.rs:122). -/
structure ResSet where
  sect : Bool := false
  bit : Bool := false
  flux : Bool := false
  deriving DecidableEq, Repr

namespace ResSet

/-- `contains`. -/
def has (s : ResSet) : Resolution → Bool
  | .metaSector => s.sect
  | .bitStream => s.bit
  | .fluxStream => s.flux

/-- `insert`. -/
def insert (s : ResSet) : Resolution → ResSet
  | .metaSector => { s with sect := true }
  | .bitStream => { s with bit := true }
  | .fluxStream => { s with flux := true }

/-- `is_empty`. -/
def isEmpty (s : ResSet) : Bool := !s.sect && !s.bit && !s.flux

/-- `iter().min()`. -/
def min (s : ResSet) : Option Resolution :=
  if s.sect then some .metaSector else if s.bit then some .bitStream
  else if s.flux then some .fluxStream else none

end ResSet

/-- `DiskTrack` (src/track/mod.rs): a boxed track of one of the three kinds.  `flux` carries the
bitstream track `get_bitstream` resolves to, if any (src/track/fluxstream.rs:751-766).  `other` is a
bitstream track with an FM or GCR codec, whose contents are not modelled. -/
inductive DiskTrack where
  | bit (ch : Ch) (t : Track)
  | sect (t : MetaTrack)
  | flux (ch : Ch) (t : Option Track)
  | other (ch : Ch)

/-- The random numbers a read may use: bits for bitstreams, bytes for sector lists. -/
structure Noise where
  bit : Nat → Bool
  byte : Nat → Byte

namespace DiskTrack

/-- `Track::ch` (src/track/bitstream.rs, metasector.rs, fluxstream.rs). -/
def ch : DiskTrack → Ch
  | .bit c _ => c
  | .sect t => t.ch
  | .flux c _ => c
  | .other c => c

/-- `Track::set_ch`. -/
def setCh (x : DiskTrack) (c : Ch) : DiskTrack :=
  match x with
  | .bit _ t => .bit c t
  | .sect t => .sect { t with ch := c }
  | .flux _ t => .flux c t
  | .other _ => .other c

/-- `Track::resolution`. -/
def resolution : DiskTrack → Resolution
  | .bit _ _ => .bitStream
  | .sect _ => .metaSector
  | .flux _ _ => .fluxStream
  | .other _ => .bitStream

/-- `Track::sector_ct` (src/track/bitstream.rs:142-150, metasector.rs:250-252, fluxstream.rs:232-237). -/
def sectorCt : DiskTrack → Nat
  | .bit _ t => t.sectorIds.length
  | .sect t => t.sectors.length
  | .flux _ (some t) => t.sectorIds.length
  | .flux _ none => 0
  | .other _ => 0

/-- `analysis().sector_ct` (src/track_schema/system34.rs:500-561, src/track/metasector.rs:625-656);
`none` when the track has no analysis. -/
def analysisCt : DiskTrack → Option Nat
  | .bit _ t => t.schema.map fun _ => t.sectorIds.length
  | .sect t => some t.sectors.length
  | .flux _ (some t) => t.schema.map fun _ => t.sectorIds.length
  | .flux _ none => none
  | .other _ => some 0

/-- `BitRing::to_bytes` / `data_copied` (src/bitstream_codec/mfm.rs:124-126): the cells packed into bytes,
most significant bit first, the last byte padded with zeros. -/
def packed (bits : List Bool) : List Byte :=
  (List.range ((bits.length + 7) / 8)).map fun i => byteOfBits ((List.range 8).map fun k => bits.getD (8 * i + k) false)

/-- `Track::hash` (src/track/bitstream.rs:641-645, metasector.rs:506-511, fluxstream.rs:309-315).  The
SHA-1 digest is an arbitrary function `H` of the hashed bytes. -/
def hash (H : List Byte → Nat) (nz : Noise) : DiskTrack → Nat
  | .bit _ t => H (packed t.data.bits.bits)
  | .sect t => match t.readAllSectors (fun _ => nz.byte) 0xFF with
    | .ok r => H r.readBuf
    | .error _ => 0
  | .flux _ (some t) => H (packed t.data.bits.bits)
  | .flux _ none => 0
  | .other _ => 0

/-- `Track::read_sector` dispatch; an unresolved flux track gives `ResolveError`
(src/track/fluxstream.rs:263-275). -/
def readSector (x : DiskTrack) (nz : Noise) (q : Query) (n : Option Nat) (offset : Option Nat)
    (scope : S34.Scope) (debug : Bool) : Except Err ReadResult :=
  match x with
  | .bit _ t => t.readSector nz.bit q n offset scope debug
  | .sect t => t.readSector nz.byte q scope
  | .flux _ (some t) => t.readSector nz.bit q n offset scope debug
  | .flux _ none => .error .schema
  | .other _ => .error .unsupported

/-- `Track::write_sector` dispatch (src/track/fluxstream.rs:284-300). -/
def writeSector (x : DiskTrack) (q : Query) (offset : Option Nat) (buf : List Byte)
    (deleted debug : Bool) : Except Err (WriteResult × DiskTrack) :=
  match x with
  | .bit c t => (t.writeSector q offset buf deleted debug).map fun r => (r.1, .bit c r.2)
  | .sect t => (t.writeSector q buf deleted).map fun r => (r.1, .sect r.2)
  | .flux c (some t) => (t.writeSector q offset buf deleted debug).map fun r => (r.1, .flux c (some r.2))
  | .flux _ none => .error .schema
  | .other _ => .error .unsupported

/-- `Track::format` dispatch: sector lists do not support it (src/track/metasector.rs:614-623). -/
def format (x : DiskTrack) (nz : Noise) (std : S34.Standard) (ids : List Chsn) (pat : List Byte)
    (gap3 : Nat) : Except Err DiskTrack :=
  match x with
  | .bit c t => (t.format nz.bit std ids pat gap3).map fun r => .bit c r
  | .sect _ => .error .unsupported
  | .flux c (some t) => (t.format nz.bit std ids pat gap3).map fun r => .flux c (some r)
  | .flux _ none => .error .schema
  | .other _ => .error .unsupported

/-- `Track::next_id` dispatch (src/track/fluxstream.rs:331-336). -/
def nextId (x : DiskTrack) (p : Chs) : Option Chsn :=
  match x with
  | .bit _ t => t.nextId p
  | .sect t => t.nextId p
  | .flux _ (some t) => t.nextId p
  | .flux _ none => none
  | .other _ => none

end DiskTrack

/-- `DiskImage` (src/diskimage.rs:108-146).  `geometry` is `descriptor.geometry`, `spt` is
`analysis.consistent_track_length`. -/
structure Disk where
  multires : Bool := false
  res : ResSet := {}
  pool : List DiskTrack := []
  map0 : List Nat := []
  map1 : List Nat := []
  geometry : Ch := ⟨0, 0⟩
  spt : Option Nat := none
  boot : Option BootSector := none
  standardFormat : Option StdFormat := none

namespace Disk

/-- `track_map[h]`, for `h < 2`. -/
def headMap (d : Disk) (h : Nat) : List Nat := if h = 0 then d.map0 else d.map1

/-- `track_map[h].push(i)`. -/
def pushMap (d : Disk) (h i : Nat) : Disk :=
  if h = 0 then { d with map0 := d.map0 ++ [i] } else { d with map1 := d.map1 ++ [i] }

/-- `track_pool.push(t); track_map[h].push(track_pool.len() - 1)` (src/diskimage.rs:810-811). -/
def pushTrack (d : Disk) (h : Nat) (t : DiskTrack) : Disk :=
  { d with pool := d.pool ++ [t] }.pushMap h d.pool.length

/-- The resolution check shared by the `add_track_*` functions (src/diskimage.rs:782-797, 838-849,
893-905): `true` = rejected. -/
def rejects (d : Disk) (r : Resolution) : Bool := !d.multires && !d.res.isEmpty && !d.res.has r

/-- `add_track_fluxstream` (src/diskimage.rs:772-817); `made` is the result of decoding the track's
revolutions.  Yields the index of the new track. -/
def addFlux (d : Disk) (ch : Ch) (made : Except Err (Option Track)) : Disk × Except Err Nat :=
  if ch.h ≥ 2 then (d, .error .seek)
  else if d.rejects .fluxStream then (d, .error .incompatible)
  else
    let d := { d with res := d.res.insert .fluxStream }
    match made with
    | .error e => (d, .error e)
    | .ok t => (d.pushTrack ch.h (.flux ch t), .ok d.pool.length)

/-- `add_track_bitstream` (src/diskimage.rs:833-871); `made` is the result of `BitStreamTrack::new`. -/
def addBit (d : Disk) (ch : Ch) (made : Except Err Track) : Disk × Except Err Nat :=
  if ch.h ≥ 2 then (d, .error .seek)
  else if d.rejects .bitStream then (d, .error .incompatible)
  else
    let d := { d with res := d.res.insert .bitStream }
    match made with
    | .error e => (d, .error e)
    | .ok t => (d.pushTrack ch.h (.bit ch t), .ok d.pool.length)

/-- `add_track_metasector` (src/diskimage.rs:888-926). -/
def addMeta (d : Disk) (ch : Ch) : Disk × Except Err Nat :=
  if ch.h ≥ 2 then (d, .error .seek)
  else if d.rejects .metaSector then (d, .error .incompatible)
  else
    let d := { d with res := d.res.insert .metaSector }
    (d.pushTrack ch.h (.sect { ch := ch }), .ok d.pool.length)

/-- The empty bitstream track of `add_empty_track` (src/diskimage.rs:1173-1205): clock cells set if a
start clock is given (`i % 2 == start_clock`), else all clear; the schema is set at once. -/
def emptyBit (ch : Ch) (enc : Encoding) (cells : Nat) (clock : Option Bool) : Except Err DiskTrack :=
  match clock, enc with
  | some b, .mfm => do
    let data ← Mfm.new ((List.range cells).map fun i => i % 2 == b.toNat) none none
    return .bit ch { data, schema := some .system34 }
  | none, .mfm => do
    let data ← Mfm.new (List.replicate cells false) none none
    return .bit ch { data, schema := some .system34 }
  | some _, .gcr => .error .unsupported
  | _, _ => .ok (.other ch)

/-- `add_empty_track` (src/diskimage.rs:1115-1249).  Whatever resolution is specified, the track gets the
lowest resolution present. -/
def addEmpty (d : Disk) (ch : Ch) (enc : Encoding) (resolution : Option Resolution) (cells : Nat)
    (clock : Option Bool) : Disk × Except Err Nat :=
  if ch.h ≥ 2 then (d, .error .seek)
  else
    let rejected := match resolution with | some r => d.rejects r | none => d.res.isEmpty
    if rejected then (d, .error .incompatible)
    else
      let d := match resolution with | some r => { d with res := d.res.insert r } | none => d
      match d.res.min with
      | some .bitStream =>
        if (d.headMap ch.h).length ≠ ch.c then (d, .error .parameter)
        else match emptyBit ch enc cells clock with
          | .error e => (d, .error e)
          | .ok t => (d.pushTrack ch.h t, .ok d.pool.length)
      | some .metaSector =>
        if (d.headMap ch.h).length ≠ ch.c then (d, .error .parameter)
        else (d.pushTrack ch.h (.sect { ch := ch }), .ok d.pool.length)
      | _ => (d, .error .incompatible)

/-- `set_resolution` (src/diskimage.rs:744-747). -/
def setResolution (d : Disk) (r : Resolution) : Disk := { d with res := ResSet.insert {} r }

/-- `set_multires` (src/diskimage.rs:258-260). -/
def setMultires (d : Disk) (b : Bool) : Disk := { d with multires := b }

/-- `track` (src/diskimage.rs:236-240): indexing `track_map` with a head above 1 panics. -/
def track (d : Disk) (ch : Ch) : Except Err (Option DiskTrack) :=
  if ch.h ≥ 2 then .error .panic
  else .ok ((d.headMap ch.h)[ch.c]?.bind fun i => d.pool[i]?)

/-- `track_idx_iter` (src/diskimage.rs:220-230): cylinder by cylinder, head 0 before head 1. -/
def trackIdx (d : Disk) : List Nat :=
  (List.range (max d.map0.length d.map1.length)).flatMap fun c =>
    d.map0[c]?.toList ++ d.map1[c]?.toList

/-- `track_iter` (src/diskimage.rs:207-218). -/
def trackList (d : Disk) : List DiskTrack := d.trackIdx.filterMap fun i => d.pool[i]?

/-- The lookup shared by the sector functions (src/diskimage.rs:978-984, 996-1001, 1018-1023): a head above
1 or a cylinder beyond the table is a seek error; a table entry outside the pool panics. -/
def seek (d : Disk) (ch : Ch) : Except Err (Nat × DiskTrack) :=
  if ch.h > 1 then .error .seek
  else match (d.headMap ch.h)[ch.c]? with
    | none => .error .seek
    | some i => match d.pool[i]? with
      | none => .error .panic
      | some t => .ok (i, t)

/-- `read_sector` (src/diskimage.rs:968-985). -/
def readSector (d : Disk) (nz : Noise) (ch : Ch) (q : Query) (n : Option Nat) (offset : Option Nat)
    (scope : S34.Scope) (debug : Bool) : Except Err ReadResult :=
  match d.seek ch with
  | .error e => .error e
  | .ok (_, t) => t.readSector nz q n offset scope debug

/-- `read_sector_basic` (src/diskimage.rs:988-1006).  Slicing beyond the buffer panics. -/
def readBasic (d : Disk) (nz : Noise) (ch : Ch) (q : Query) (offset : Option Nat) :
    Except Err (List Byte) :=
  match d.seek ch with
  | .error e => .error e
  | .ok (_, t) =>
    match t.readSector nz q q.n offset .dataOnly false with
    | .error e => .error e
    | .ok r =>
      if r.notFound || r.addressCrcError || r.noDam then .error .idError
      else if r.readBuf.length < r.dataRange.2 then .error .panic
      else .ok r.bytes

/-- `write_sector` (src/diskimage.rs:1008-1025). -/
def writeSector (d : Disk) (ch : Ch) (q : Query) (offset : Option Nat) (buf : List Byte)
    (deleted debug : Bool) : Disk × Except Err WriteResult :=
  match d.seek ch with
  | .error e => (d, .error e)
  | .ok (i, t) =>
    match t.writeSector q offset buf deleted debug with
    | .error e => (d, .error e)
    | .ok (r, t') => ({ d with pool := d.pool.set i t' }, .ok r)

/-- `write_sector_basic` (src/diskimage.rs:1027-1052).  The debug log of a seek error, which indexes the
head table with the bad head, is not modelled. -/
def writeBasic (d : Disk) (ch : Ch) (q : Query) (offset : Option Nat) (buf : List Byte) :
    Disk × Except Err Unit :=
  match d.writeSector ch q offset buf false false with
  | (d', .error e) => (d', .error e)
  | (d', .ok r) =>
    if r.notFound || r.addressCrcError || r.noDam then (d', .error .idError) else (d', .ok ())

/-- `get_next_id` (src/diskimage.rs:1360-1369). -/
def nextId (d : Disk) (p : Chs) : Option Chsn :=
  match d.seek ⟨p.c, p.h⟩ with
  | .error _ => none
  | .ok (_, t) => t.nextId p

/-- The distinct sector counts and the last one seen by `analyze` (src/diskimage.rs:1546-1590); tracks
without sectors or without analysis are skipped. -/
def sptList (d : Disk) : List Nat :=
  d.trackIdx.filterMap fun i => match d.pool[i]? with
    | none => none
    | some t => match t.analysisCt with
      | some n => if n > 0 then some n else none
      | none => none

/-- `analyze` (src/diskimage.rs:1546-1630), sectors per track only: `Some` of the common count (0 if there is
no sector at all), `None` if two tracks differ. -/
def analyze (d : Disk) : Disk :=
  let spt := match d.sptList with
    | [] => some 0
    | n :: rest => if rest.all (· == n) then some n else none
  { d with spt := spt }

/-- `format_track` (src/diskimage.rs:1251-1272). -/
def formatTrack (d : Disk) (nz : Noise) (ch : Ch) (ids : List Chsn) (pat : List Byte) (gap3 : Nat) :
    Disk × Except Err Unit :=
  match d.seek ch with
  | .error e => (d, .error e)
  | .ok (i, t) =>
    match t.format nz .iso ids pat gap3 with
    | .error e => (d, .error e)
    | .ok t' => ({ d with pool := d.pool.set i t' }.analyze, .ok ())

/-- `reset_image` (src/diskimage.rs:1275-1289): geometry, format and resolutions are kept, the rest goes
back to the default. -/
def reset (d : Disk) : Disk :=
  { geometry := d.geometry, standardFormat := d.standardFormat, res := d.res }

/-- Pairs of consecutive tracks of a head (`chunks_exact(2)`). -/
def pairs : List Nat → List (Nat × Nat)
  | a :: b :: rest => (a, b) :: pairs rest
  | _ => []

/-- `detect_empty_odd_tracks` (src/diskimage.rs:1659-1676). -/
def emptyOdd (d : Disk) (h : Nat) : Nat :=
  ((pairs (d.headMap h)).filter fun p =>
    match d.pool[p.1]?, d.pool[p.2]? with
    | some a, some b => decide (a.sectorCt > 0) && b.sectorCt == 0
    | _, _ => false).length

/-- `detect_duplicate_odd_tracks` (src/diskimage.rs:1635-1652). -/
def duplicateOdd (H : List Byte → Nat) (nz : Noise) (d : Disk) (h : Nat) : Nat :=
  ((pairs (d.headMap h)).filter fun p =>
    match d.pool[p.1]?, d.pool[p.2]? with
    | some a, some b => decide (a.sectorCt > 0) && a.hash H nz == b.hash H nz
    | _, _ => false).length

/-- The entries at even positions: `remove_odd_tracks` (src/diskimage.rs:1678-1697) for one head. -/
def evens : List Nat → List Nat
  | [] => []
  | [a] => [a]
  | a :: _ :: rest => a :: evens rest

/-- `remove_odd_tracks` (src/diskimage.rs:1678-1697). -/
def removeOdd (d : Disk) : Disk := { d with map0 := evens d.map0, map1 := evens d.map1 }

/-- The loop of `remap_tracks` (src/diskimage.rs:1772-1796) over one head: cylinders are renumbered in
table order; the head is left alone.  A `u16` counter, not modelled as wrapping. -/
def remapHead : Nat → List Nat → List DiskTrack → List DiskTrack
  | _, [], pool => pool
  | c, i :: rest, pool =>
    remapHead (c + 1) rest (match pool[i]? with
      | some t => pool.set i (t.setCh ⟨c, t.ch.h⟩)
      | none => pool)

/-- `remap_tracks` (src/diskimage.rs:1772-1796). -/
def remap (d : Disk) : Disk := { d with pool := remapHead 0 d.map1 (remapHead 0 d.map0 d.pool) }

/-- `normalize_cylinders` (src/diskimage.rs:1493-1503). -/
def normCyl (c : Nat) : Nat := if c > 79 then 80 else if c > 39 then 40 else c

/-- `normalize` (src/diskimage.rs:1488-1542). -/
def normalize (H : List Byte → Nat) (nz : Noise) (d : Disk) : Disk :=
  let trackCt := d.trackIdx.length
  if trackCt > 50 ∧ d.emptyOdd 0 ≥ normCyl trackCt / 2 then
    let d := d.removeOdd
    { d with geometry := ⟨d.map0.length % 65536, d.geometry.h⟩ }.remap
  else if d.map0.length > 50 ∧ d.duplicateOdd H nz 0 ≥ normCyl d.map0.length / 2 then
    let d := d.removeOdd
    { d with geometry := ⟨d.map0.length % 65536, d.geometry.h⟩ }.remap
  else d

/-- `remove_empty_tracks` (src/diskimage.rs:1744-1770). -/
def removeEmpty (d : Disk) : Disk :=
  let keep (i : Nat) : Bool := match d.pool[i]? with | some t => t.sectorCt != 0 | none => true
  { d with map0 := d.map0.filter keep, map1 := d.map1.filter keep }

/-- `read_boot_sector` (src/diskimage.rs:1370-1382). -/
def readBoot (d : Disk) (nz : Noise) : Except Err (List Byte) :=
  match d.map0 with
  | [] => .error .incompatible
  | i :: _ => match d.pool[i]? with
    | none => .error .panic
    | some t =>
      match t.readSector nz ⟨some 0, some 0, 1, some 2⟩ none none .dataOnly true with
      | .error e => .error e
      | .ok r => if r.readBuf.length < r.dataRange.2 then .error .panic else .ok r.bytes

/-- The boot-sector part of `post_load_process` (src/diskimage.rs:1435-1471); a panic is not recovered. -/
def examineBoot (d : Disk) (nz : Noise) : Except Err Disk :=
  match d.readBoot nz with
  | .error .panic => .error .panic
  | .error _ => .ok (finish d)
  | .ok buf => match BootSector.new buf with
    | none => .ok (finish d)
    | some b => .ok (finish { d with boot := some b })
where
  /-- Take the format named by the boot sector unless one is known (src/diskimage.rs:1453-1471). -/
  finish (d : Disk) : Disk :=
    match d.boot.bind (·.standardFormat), d.standardFormat with
    | some f, none => { d with standardFormat := some f }
    | _, _ => d

/-- `post_load_process` (src/diskimage.rs:1422-1472). -/
def postLoad (H : List Byte → Nat) (nz : Noise) (d : Disk) : Except Err Disk :=
  (d.normalize H nz).analyze.examineBoot nz

/-- `closest_format` (src/diskimage.rs:2039-2094). -/
def closestFormat (d : Disk) (trustBpb : Bool) : Option StdFormat :=
  let bpb := d.boot.bind (·.standardFormat)
  let cons := d.spt.bind fun spt =>
    (StdFormat.normalizedTrackCt d.map0.length).bind fun c => StdFormat.ofChs ⟨c, d.geometry.h, spt % 256⟩
  if (bpb.isSome || cons.isSome) && bpb != cons then
    if trustBpb && bpb.isSome then bpb
    else if cons.isSome then cons
    else bpb.or cons
  else bpb.or cons

end Disk
end Fox
