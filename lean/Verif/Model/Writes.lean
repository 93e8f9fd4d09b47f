import Verif.Model.Disk
/-
Model of the write counter that an image shares with its tracks (`SharedDiskContext`, `write_ct`).

Simplification: the counter is a `u64`; that it could overflow is left out.
-/
namespace Fox

/-- A disk image with the counter of `SharedDiskContext` (src/types/structs.rs:431-436, src/diskimage.rs:141, 162).  Its tracks hold the
same counter (src/diskimage.rs:799, 862, 915, 1208, 1226). -/
structure Counted where
  disk : Disk
  /-- `write_ct` (src/diskimage.rs:719-726). -/
  writes : Nat := 0

namespace Counted

/-- `incr_writes` (src/diskimage.rs:2096-2100) after a result: an error returns before it. -/
def bump {α : Type} (writes : Nat) : Except Err α → Nat
  | .ok _ => writes + 1
  | .error _ => writes

/-- `add_track_fluxstream` (src/diskimage.rs:772-817). -/
def addFlux (c : Counted) (ch : Ch) (made : Except Err (Option Track)) : Counted × Except Err Nat :=
  let r := c.disk.addFlux ch made
  (⟨r.1, bump c.writes r.2⟩, r.2)

/-- `add_track_bitstream` (src/diskimage.rs:833-871). -/
def addBit (c : Counted) (ch : Ch) (made : Except Err Track) : Counted × Except Err Nat :=
  let r := c.disk.addBit ch made
  (⟨r.1, bump c.writes r.2⟩, r.2)

/-- `add_track_metasector` (src/diskimage.rs:888-926). -/
def addMeta (c : Counted) (ch : Ch) : Counted × Except Err Nat :=
  let r := c.disk.addMeta ch
  (⟨r.1, bump c.writes r.2⟩, r.2)

/-- `add_empty_track` (src/diskimage.rs:1115-1249): not counted. -/
def addEmpty (c : Counted) (ch : Ch) (enc : Encoding) (res : Option Resolution) (cells : Nat) (clock : Option Bool) :
    Counted × Except Err Nat :=
  let r := c.disk.addEmpty ch enc res cells clock
  (⟨r.1, c.writes⟩, r.2)

/-- Whether `write_sector` of a list of sectors gets to its count (src/track/metasector.rs:440-484): one sector matches and the data have
its size. -/
def reaches (t : MetaTrack) (q : Query) (buf : List Byte) : Bool :=
  match t.matching q with
  | [s] => s.id.size == buf.length
  | _ => false

/-- `write_sector` (src/diskimage.rs:1008-1025): a list of sectors counts (src/track/metasector.rs:484), tracks of cells do not (their call
of `add_write` is commented out, src/track/bitstream.rs:584), nor do flux tracks, which pass on to them
(src/track/fluxstream.rs:284-300). -/
def writeSector (c : Counted) (ch : Ch) (q : Query) (offset : Option Nat) (buf : List Byte) (deleted debug : Bool) :
    Counted × Except Err WriteResult :=
  let r := c.disk.writeSector ch q offset buf deleted debug
  let counts := match c.disk.seek ch with
    | .ok (_, .sect t) => reaches t q buf
    | _ => false
  (⟨r.1, if counts then bump c.writes r.2 else c.writes⟩, r.2)

/-- `format_track` (src/diskimage.rs:1251-1272): not counted. -/
def formatTrack (c : Counted) (nz : Noise) (ch : Ch) (ids : List Chsn) (pat : List Byte) (gap3 : Nat) : Counted × Except Err Unit :=
  let r := c.disk.formatTrack nz ch ids pat gap3
  (⟨r.1, c.writes⟩, r.2)

/-- `normalize` (src/diskimage.rs:1488-1542): not counted. -/
def normalize (c : Counted) (H : List Byte → Nat) (nz : Noise) : Counted := ⟨c.disk.normalize H nz, c.writes⟩

/-- `remove_empty_tracks` (src/diskimage.rs:1744-1770): not counted. -/
def removeEmpty (c : Counted) : Counted := ⟨c.disk.removeEmpty, c.writes⟩

/-- `reset_image` (src/diskimage.rs:1275-1289): a new image has a new counter. -/
def reset (c : Counted) : Counted := ⟨c.disk.reset, 0⟩

/-- `post_load_process` (src/diskimage.rs:1422-1472): the counter is set to 1. -/
def postLoad (c : Counted) (H : List Byte → Nat) (nz : Noise) : Except Err Counted :=
  (c.disk.postLoad H nz).map fun d => ⟨d, 1⟩

end Counted
end Fox
