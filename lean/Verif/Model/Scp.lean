import Verif.Model.FluxTrack
import Verif.Model.Tc
/-
Model of the SuperCard Pro loader (src/file_parsers/scp.rs).  The file is a list of bytes.  Not modelled: logging, the
memory a flux track would take, the density and the exact rate in the descriptor (the rate's variant is).  As in
Verif.Model.FluxTrack, times are exact and the FM codec is a parameter.
-/
namespace Fox
namespace Scp
open Flux

/-- `SCP` and `TRK`. -/
def signature : List Byte := [0x53#8, 0x43#8, 0x50#8]
def trackSignature : List Byte := [0x54#8, 0x52#8, 0x4B#8]

/-- Whether `scp_disk_type` (src/file_parsers/scp.rs:128-168) knows the manufacturer. -/
def knownType (b : Nat) : Bool := b / 16 ≤ 8 || b / 16 = 14 || b / 16 = 15

/-- What is used of `ScpFileHeader` (src/file_parsers/scp.rs:86-100), 16 bytes. -/
structure Header where
  revolutions : Nat
  heads : Nat
  resolution : Nat
  writeProtect : Bool
  deriving DecidableEq, Repr

/-- Reading and checking the header (src/file_parsers/scp.rs:217-364).  `heads` is the number of sides, `resolution` the
sample time in ns. -/
def header (f : List Byte) : Except Err Header :=
  if f.length < 16 then .error .io
  else if f.take 3 ≠ signature then .error .unsupported
  else if knownType (u8At f 4) = false then .error .incompatible
  else if u8At f 8 / 64 % 2 ≠ 0 then .error .incompatible
  else if u8At f 9 ≠ 0 then .error .incompatible
  else if u8At f 10 ≥ 2 then .error .incompatible
  else .ok { revolutions := u8At f 5, heads := if u8At f 10 = 0 then 2 else 1, resolution := 25 + u8At f 11 * 25,
             writeProtect := u8At f 8 / 16 % 2 == 0 }

/-- The rest of the table of track offsets (src/file_parsers/scp.rs:391-412): `n` entries at most, from byte `o` on; a
zero ends it. -/
def tableLoop (f : List Byte) : Nat → Nat → Nat → Except Err (List Nat)
  | 0, _, _ => .ok []
  | n + 1, o, last =>
    if o + 4 ≤ f.length then
      if le32At f o = 0 then .ok []
      else if le32At f o ≤ last ∨ f.length ≤ le32At f o then .error .formatParse
      else
        match tableLoop f n (o + 4) (le32At f o) with
        | .error e => .error e
        | .ok l => .ok (le32At f o :: l)
    else .error .io

/-- The table of track offsets (src/file_parsers/scp.rs:366-413): the first entry tells its size. -/
def table (debug : Bool) (f : List Byte) : Except Err (List Nat) :=
  if f.length < 20 then .error .io
  else if le32At f 16 < 16 then .error .corrupt
  else
    match F86.subU debug 64 ((le32At f 16 - 16) / 4) 1 with
    | .error e => .error e
    | .ok n =>
      match tableLoop f n 20 (le32At f 16) with
      | .error e => .error e
      | .ok l => .ok (le32At f 16 :: l)

/-- `ScpTrackRevolution` (src/file_parsers/scp.rs:118-125). -/
structure RevHeader where
  indexTime : Nat
  length : Nat
  offset : Nat
  deriving DecidableEq, Repr

/-- The headers of the revolutions (src/file_parsers/scp.rs:443-448). -/
def revHeaders (f : List Byte) : Nat → Nat → Except Err (List RevHeader)
  | 0, _ => .ok []
  | n + 1, o =>
    if o + 12 ≤ f.length then
      match revHeaders f n (o + 12) with
      | .error e => .error e
      | .ok l => .ok (⟨le32At f o, le32At f (o + 4), le32At f (o + 8)⟩ :: l)
    else .error .io

/-- `ScpFormat::convert_flux_data` (src/file_parsers/scp.rs:527-547): the accumulator and the samples left. -/
def convert (res : Nat) : Nat → List Nat → List Rat
  | _, [] => []
  | acc, d :: ds =>
    if d = 0 then convert res (acc + 65535) ds
    else ((d + acc : Nat) : Rat) * ((res : Rat) / 1000000000) :: convert res 0 ds

/-- The samples of a revolution (src/file_parsers/scp.rs:470-476): big-endian words. -/
def samples (f : List Byte) (o n : Nat) : Except Err (List Nat) :=
  if n = 0 ∨ o + 2 * n ≤ f.length then .ok ((List.range n).map fun i => Tc.be16At f (o + 2 * i)) else .error .io

/-- The revolutions of the track at `off` (src/file_parsers/scp.rs:452-490); `index_time * 25` is a `u32`. -/
def revs (debug : Bool) (f : List Byte) (res off : Nat) (ch : Ch) : List RevHeader → Except Err (List Rev)
  | [] => .ok []
  | h :: hs =>
    if debug && decide (2 ^ 32 ≤ h.indexTime * 25) then .error .panic
    else
      match samples f (off + h.offset) h.length with
      | .error e => .error e
      | .ok ws =>
        match revs debug f res off ch hs with
        | .error e => .error e
        | .ok l => .ok (Rev.ofDeltas ch (convert res 0 ws) (((h.indexTime * 25 % 2 ^ 32 : Nat) : Rat) / 1000000000) :: l)

/-- The revolutions of a track from its header on (src/file_parsers/scp.rs:423-490). -/
def readTrack (debug : Bool) (f : List Byte) (h : Header) (off : Nat) (ch : Ch) : Except Err (List Rev) :=
  if f.length < off + 4 then .error .io
  else if (f.drop off).take 3 ≠ trackSignature then .error .corrupt
  else
    match revHeaders f h.revolutions (off + 4) with
    | .error e => .error e
    | .ok hs => revs debug f h.resolution off ch hs

/-- The data rate that a flux track's `info()` tells (src/track/fluxstream.rs:193-223, 639): that of the best
revolution, or the default. -/
def rateOfMade (m : Made) : F86.Rate :=
  match m.revs[m.best]? with
  | some r => rateOf ((r.1.dataRate.getD 0).floor.toNat)
  | none => .r250

/-- The loop over the tracks (src/file_parsers/scp.rs:415-505); `at` is the state of the track iterator.  Yields the last
place and the rate of the first track besides the disk. -/
def tracks (debug : Bool) (rnd : Nat → Bool) (fm : FmCodec) (f : List Byte) (h : Header) :
    List Nat → Option Ch → Disk → Option F86.Rate → Except Err (Disk × Ch × Option F86.Rate)
  | [], place, d, rate => .ok (d, place.getD ⟨0, 0⟩, rate)
  | off :: offs, place, d, rate =>
    match Ch.iterNext ⟨84, h.heads⟩ place with
    | none => .error .panic
    | some ch =>
      match readTrack debug f h off ch with
      | .error e => .error e
      | .ok rs =>
        let made := make debug rnd fm none none rs
        match d.addFlux ch (match made with | .ok m => .ok m.bitstream | .error e => .error e) with
        | (_, .error e) => .error e
        | (d, .ok _) =>
          tracks debug rnd fm f h offs (some ch) d
            (match rate with
             | some r => some r
             | none => match made with | .ok m => some (rateOfMade m) | .error _ => none)

/-- What the loader says about the disk besides its tracks and geometry. -/
structure Info where
  rate : F86.Rate
  writeProtect : Bool
  deriving DecidableEq, Repr

/-- `ScpFormat::load_image` (src/file_parsers/scp.rs:205-525). -/
def load (debug : Bool) (rnd : Nat → Bool) (fm : FmCodec) (d : Disk) (f : List Byte) : Except Err (Disk × Info) :=
  match header f with
  | .error e => .error e
  | .ok h =>
    match table debug f with
    | .error e => .error e
    | .ok offs =>
      match tracks debug rnd fm f h offs none d none with
      | .error e => .error e
      | .ok (_, _, none) => .error .incompatible
      | .ok (d, ch, some r) =>
        .ok ({ d with geometry := ⟨ch.c + 1, h.heads⟩ }, { rate := r, writeProtect := h.writeProtect })

end Scp
end Fox
