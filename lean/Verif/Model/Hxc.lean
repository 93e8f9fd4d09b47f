import Verif.Model.BitLoad
/-
Model of the HxC MFM loader (src/file_parsers/mfm.rs).  The file is a list of bytes.  Not modelled: logging; of the
descriptor the geometry and the data rate (its variant) are.
-/
namespace Fox
namespace Hxc

/-- `HXCMFM`. -/
def signature : List Byte := [0x48#8, 0x58#8, 0x43#8, 0x4D#8, 0x46#8, 0x4D#8]

/-- `MfmFileHeader` (src/file_parsers/mfm.rs:47-60), without the fields that are only logged. -/
structure Header where
  tracks : Nat := 0
  heads : Nat := 0
  bitRate : Nat := 0
  ifType : Nat := 0
  list : Nat := 0
  deriving DecidableEq, Repr

/-- Reading the header (src/file_parsers/mfm.rs:129-138): a header that cannot be read leaves the default one. -/
def header (f : List Byte) : Except Err Header :=
  if 19 ≤ f.length then
    if f.take 6 = signature then
      .ok { tracks := le16At f 7, heads := u8At f 9, bitRate := le16At f 12, ifType := u8At f 14, list := le32At f 15 }
    else .error .unsupported
  else .ok {}

/-- `MfmTrackHeader` and `MfmAdvancedTrackHeader` (src/file_parsers/mfm.rs:61-80): the rate is only in the latter. -/
structure Entry where
  track : Nat
  side : Nat
  bitRate : Nat
  size : Nat
  offset : Nat
  deriving DecidableEq, Repr

/-- The size of an entry of the table. -/
def entrySize (adv : Bool) : Nat := if adv then 15 else 11

/-- An entry of the table. -/
def entryAt (adv : Bool) (rate : Nat) (f : List Byte) (o : Nat) : Entry :=
  if adv then ⟨le16At f o, u8At f (o + 2), le16At f (o + 5), le32At f (o + 7), le32At f (o + 11)⟩
  else ⟨le16At f o, u8At f (o + 2), rate, le32At f (o + 3), le32At f (o + 7)⟩

/-- The table of tracks (src/file_parsers/mfm.rs:160-217). -/
def table (adv : Bool) (rate : Nat) (f : List Byte) : Nat → Nat → Except Err (List Entry)
  | 0, _ => .ok []
  | k + 1, o =>
    match readAt f o (entrySize adv) with
    | .error _ => .error .formatParse
    | .ok _ =>
      match table adv rate f k (o + entrySize adv) with
      | .error e => .error e
      | .ok l => .ok (entryAt adv rate f o :: l)

/-- The loop over the tracks (src/file_parsers/mfm.rs:221-269).  The cylinder is a `u8`; in an advanced table the size
is in cells. -/
def tracks (debug : Bool) (rnd : Nat → Bool) (adv : Bool) (f : List Byte) : List Entry → Disk → Except Err Disk
  | [], d => .ok d
  | e :: rest, d =>
    match readAt f e.offset (if adv then (e.size + 7) / 8 else e.size) with
    | .error e => .error e
    | .ok data =>
      match d.addBit ⟨e.track % 256, e.side⟩
          (Track.ofBytes debug rnd data (if adv then some e.size else none) false) with
      | (_, .error e) => .error e
      | (d, .ok _) => tracks debug rnd adv f rest d

/-- What the loader says about the disk besides its tracks: the data rate of each track in the order of the table, that of
the disk. -/
structure Info where
  trackRates : List F86.Rate
  rate : F86.Rate
  deriving DecidableEq, Repr

/-- `MfmFormat::load_image` (src/file_parsers/mfm.rs:121-282). -/
def load (debug : Bool) (rnd : Nat → Bool) (d : Disk) (f : List Byte) : Except Err (Disk × Info) :=
  match header f with
  | .error e => .error e
  | .ok h =>
    let adv := 128 ≤ h.ifType
    match table adv h.bitRate f (h.tracks * h.heads) h.list with
    | .error e => .error e
    | .ok l =>
      match tracks debug rnd adv f l d with
      | .error e => .error e
      | .ok d => .ok ({ d with geometry := ⟨h.tracks, h.heads⟩ },
          { trackRates := l.map fun e => rateOf (e.bitRate * 100), rate := rateOf (h.bitRate * 1000) })

end Hxc
end Fox
