import Verif.Model.Basic
/-
Model of src/types/chs.rs and src/types/sector_layout.rs.

`u16`/`u8` fields are `Nat`s; the functions below reproduce the overflow behaviour where
the Rust code can overflow (explicit `none` for an arithmetic panic).
-/
namespace Fox

/-- `DiskCh` (src/types/chs.rs:587-590). -/
structure Ch where
  c : Nat
  h : Nat
  deriving DecidableEq, Repr

/-- `DiskChs` (src/types/chs.rs:332-336). -/
structure Chs where
  c : Nat
  h : Nat
  s : Nat
  deriving DecidableEq, Repr

/-- `DiskChsn` (src/types/chs.rs:148-151). -/
structure Chsn where
  c : Nat
  h : Nat
  s : Nat
  n : Nat
  deriving DecidableEq, Repr

/-- The field widths `c : u16`, `h s n : u8`. -/
def Chsn.WF (x : Chsn) : Prop := x.c < 65536 ∧ x.h < 256 ∧ x.s < 256 ∧ x.n < 256

/-- `DiskChsnQuery` (src/types/chs.rs:43-48). -/
structure Query where
  c : Option Nat
  h : Option Nat
  s : Nat
  n : Option Nat
  deriving DecidableEq, Repr

/-- `MAXIMUM_SECTOR_SIZE` (src/lib.rs). -/
def maxSectorSize : Nat := 8192

/-- `n_size` / `n_to_bytes` / `SectorId::sector_size_in_bytes`
(src/types/chs.rs:229-237, src/track_schema/system34.rs:300-302):
`min(MAXIMUM_SECTOR_SIZE, 128usize.overflowing_shl(n).0)` with a 64-bit `usize`;
`overflowing_shl` masks the shift count to 6 bits and drops bits shifted out. -/
def nSize (n : Nat) : Nat := min maxSectorSize ((128 * 2 ^ (n % 64)) % 2 ^ 64)

/-- `DiskChsn::n_size` (src/types/chs.rs:229). -/
def Chsn.size (x : Chsn) : Nat := nSize x.n

/-- `bytes_to_n` (src/types/chs.rs:241-249): halve while above 128.  The counter is a `u8`;
it cannot overflow for a 64-bit size. -/
def bytesToN (size : Nat) : Nat :=
  if 128 < size then bytesToN (size / 2) + 1 else 0
termination_by size
decreasing_by omega

/-- `DiskChsnQuery::matches` (src/types/chs.rs:94-114). -/
def Query.matchesB (q : Query) (x : Chsn) : Bool :=
  if q.s != x.s then false
  else if (match q.c with | some c => c != x.c | none => false) then false
  else if (match q.h with | some h => h != x.h | none => false) then false
  else if (match q.n with | some n => n != x.n | none => false) then false
  else true

/-- `From<DiskChsn> for DiskChsnQuery` (src/types/chs.rs:117-126). -/
def Query.ofChsn (x : Chsn) : Query := ⟨some x.c, some x.h, x.s, some x.n⟩

/-- `From<DiskChs> for DiskChsnQuery` (src/types/chs.rs:128-137). -/
def Query.ofChs (x : Chs) : Query := ⟨some x.c, some x.h, x.s, none⟩

/-- `SectorLayout` (src/types/sector_layout.rs:72-78): cylinders (`u16`), heads (`u8`), sectors per
track (`u8`), number of the first sector (`u8`), bytes per sector (`usize`). -/
structure Layout where
  c : Nat
  h : Nat
  s : Nat
  sOff : Nat
  size : Nat
  deriving DecidableEq, Repr

namespace Layout

/-- `SectorLayout::total_sectors` (src/types/sector_layout.rs:193-195). -/
def totalSectors (g : Layout) : Nat := g.c * g.h * g.s

/-- `SectorLayout::ch` (src/types/sector_layout.rs:159-161). -/
def ch (g : Layout) : Ch := ⟨g.c, g.h⟩

/-- `SectorLayout::n` (src/types/sector_layout.rs:154-156). -/
def n (g : Layout) : Nat := bytesToN g.size

/-- `SectorLayout::contains` (src/types/sector_layout.rs:198-201); `saturating_sub` is `Nat`
subtraction. -/
def contains (g : Layout) (x : Chs) : Bool :=
  decide (g.c > x.c) && decide (g.h > x.h) && decide (g.s > x.s - g.sOff)

/-- `DiskChs::to_lba` (src/types/chs.rs:469-473). -/
def toLba (g : Layout) (x : Chs) : Nat := (x.c * g.h + x.h) * g.s + (x.s - g.sOff)

/-- `DiskChs::from_lba` (src/types/chs.rs:484-495).  Only meaningful when `g.h * g.s > 0`:
the Rust code divides by it and panics otherwise (see `fromLbaChecked`).  The `as u16`/`as u8`
casts are lossless after the range checks for layouts whose fields fit their types. -/
def fromLba (g : Layout) (lba : Nat) : Option Chs :=
  let c := lba / (g.h * g.s)
  let h := (lba / g.s) % g.h
  let s := lba % g.s + g.sOff
  if c ≥ g.c ∨ h ≥ g.h ∨ s > g.s then none else some ⟨c, h, s⟩

/-- `from_lba` with its division panics made explicit. -/
def fromLbaChecked (g : Layout) (lba : Nat) : Except Err (Option Chs) :=
  if g.h * g.s = 0 then .error .panic else .ok (g.fromLba lba)

/-- `DiskChs::from_raw_offset` (src/types/chs.rs:506-509), for `g.size > 0`. -/
def fromRawOffset (g : Layout) (off : Nat) : Option (Chs × Nat) :=
  (g.fromLba (off / g.size)).map fun x => (x, off % g.size)

/-- `DiskChs::to_raw_offset` (src/types/chs.rs:519-521). -/
def toRawOffset (g : Layout) (x : Chs) : Option Nat :=
  if g.contains x then some (g.toLba x * g.size) else none

/-- `DiskChs::next_sector` (src/types/chs.rs:530-556).  `geom.s() - 1 + geom.s_off` is `u8`
arithmetic: it panics when `s = 0` or when the sum exceeds 255. -/
def nextSector (g : Layout) (x : Chs) : Except Err (Option Chs) :=
  if g.s = 0 ∨ g.s - 1 + g.sOff > 255 then .error .panic
  else if x.s < g.s - 1 + g.sOff then .ok (some ⟨x.c, x.h, x.s + 1⟩)
  else if x.h < g.h - 1 then .ok (some ⟨x.c, x.h + 1, g.sOff⟩)
  else if x.c < g.c - 1 then .ok (some ⟨x.c + 1, 0, g.sOff⟩)
  else .ok none

/-- `DiskChs::offset_sectors` (src/types/chs.rs:563-569). -/
def offsetSectors (g : Layout) : Nat → Chs → Except Err (Option Chs)
  | 0, x => .ok (some x)
  | k + 1, x =>
    match g.nextSector x with
    | .error e => .error e
    | .ok none => .ok none
    | .ok (some y) => offsetSectors g k y

/-- `DiskChsIterator::next` (src/types/chs.rs:754-766): `none` is the state before the first call;
the iterator state and the yielded item are the same value.  The outer `Option` of the result is
the yielded item. -/
def iterNext (g : Layout) : Option Chs → Except Err (Option Chs)
  | none => .ok (some ⟨0, 0, g.sOff⟩)
  | some x => g.nextSector x

/-- The first items (at most `fuel`) yielded by the iterator from state `st`, and whether it has
ended within them.  This is what a `for` loop over `chs_iter()` sees
(src/types/sector_layout.rs:207-209, src/types/chs.rs:749-785). -/
def iterTake (g : Layout) : Nat → Option Chs → Except Err (List Chs × Bool)
  | 0, _ => .ok ([], false)
  | k + 1, st =>
    match g.iterNext st with
    | .error e => .error e
    | .ok none => .ok ([], true)
    | .ok (some x) =>
      match iterTake g k (some x) with
      | .error e => .error e
      | .ok (xs, fin) => .ok (x :: xs, fin)

end Layout

namespace Ch

/-- `DiskCh::next_track` (src/types/chs.rs:661-675). -/
def nextTrack (x geom : Ch) : Option Ch :=
  if x.h < geom.h - 1 then some ⟨x.c, x.h + 1⟩
  else if x.c < geom.c - 1 then some ⟨x.c + 1, 0⟩
  else none

/-- `DiskCh::seek_next_track` (src/types/chs.rs:701-708). -/
def seekNextTrack (x geom : Ch) : Ch × Bool :=
  if x.c = geom.c - 1 ∧ x.h ≥ geom.h - 1 then (x, false)
  else ((x.nextTrack geom).getD x, true)

/-- `DiskCh::next_track_unchecked` (src/types/chs.rs:682-691); `c + 1` overflow not modelled. -/
def nextTrackUnchecked (x : Ch) (heads : Nat) : Ch :=
  if x.h < heads - 1 then ⟨x.c, x.h + 1⟩ else ⟨x.c + 1, 0⟩

/-- `DiskChIterator::next` (src/types/chs.rs:735-747). -/
def iterNext (geom : Ch) : Option Ch → Option Ch
  | none => some ⟨0, 0⟩
  | some x => x.nextTrack geom

/-- The first items (at most `fuel`) yielded by `DiskCh::iter` and whether it has ended. -/
def iterTake (geom : Ch) : Nat → Option Ch → List Ch × Bool
  | 0, _ => ([], false)
  | k + 1, st =>
    match iterNext geom st with
    | none => ([], true)
    | some x => let r := iterTake geom k (some x); (x :: r.1, r.2)

end Ch
end Fox
