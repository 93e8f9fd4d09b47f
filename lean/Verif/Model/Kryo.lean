import Verif.Model.FluxTrack
/-
Model of the KryoFlux stream loader (src/file_parsers/kryoflux.rs) and of the loading of a set of streams
(src/diskimage.rs).  A file is a list of bytes.  Not modelled: logging, the source map, the density and the rate in the
descriptor.  Times are exact, as in Verif.Model.FluxTrack; a clock of 0 in a file, which in the code makes all times
infinite, makes them 0 here.
-/
namespace Fox
namespace Kryo
open Flux

/-- `KFX_DEFAULT_SCK` and `KFX_DEFAULT_ICK` (src/file_parsers/kryoflux.rs:58-60). -/
def defaultSck : Rat := 18432000 * 73 / 14 / 2 / 2
def defaultIck : Rat := 18432000 * 73 / 14 / 2 / 16

/-! ## The clocks in an info string -/

/-- The longest run of decimal digits. -/
def digits : List Byte → List Byte × List Byte
  | [] => ([], [])
  | b :: r => if 48 ≤ b.toNat ∧ b.toNat ≤ 57 then let x := digits r; (b :: x.1, x.2) else ([], b :: r)

/-- The value of decimal digits. -/
def value (l : List Byte) : Nat := l.foldl (fun v b => 10 * v + (b.toNat - 48)) 0

/-- `\d+\.\d+`: digits, a dot, digits. -/
def number (l : List Byte) : Option (Rat × List Byte) :=
  match digits l with
  | ([], _) => none
  | (a, 46#8 :: r) =>
    match digits r with
    | ([], _) => none
    | (b, r) => some ((value a : Rat) + (value b : Rat) / ((10 ^ b.length : Nat) : Rat), r)
  | _ => none

/-- Strips a given prefix. -/
def strip : List Byte → List Byte → Option (List Byte)
  | [], l => some l
  | _ :: _, [] => none
  | a :: p, b :: l => if a = b then strip p l else none

/-- `sck=` and `, ick=`. -/
def sckText : List Byte := [115#8, 99#8, 107#8, 61#8]
def ickText : List Byte := [44#8, 32#8, 105#8, 99#8, 107#8, 61#8]

/-- The pattern at the start of a text. -/
def clocksHere (l : List Byte) : Option (Rat × Rat) :=
  match strip sckText l with
  | none => none
  | some l =>
    match number l with
    | none => none
    | some (s, l) =>
      match strip ickText l with
      | none => none
      | some l =>
        match number l with
        | none => none
        | some (i, _) => some (s, i)

/-- `kfx_parse_clk_str` (src/file_parsers/kryoflux.rs:935-950): the first match of the pattern. -/
def clocks : List Byte → Option (Rat × Rat)
  | [] => none
  | b :: r => match clocksHere (b :: r) with | some x => some x | none => clocks r

/-- `read_ascii` (src/util.rs:49-83) with its defaults: up to a zero byte or the end; control characters and bytes over
127 are dropped. -/
def readAscii : List Byte → List Byte × List Byte
  | [] => ([], [])
  | b :: r => if b = 0#8 then ([], r) else let x := readAscii r; (if 32 ≤ b.toNat ∧ b.toNat < 128 then b :: x.1 else x.1, x.2)

/-! ## Blocks -/

/-- The blocks of a stream. -/
inductive Block where
  /-- A flux time of so many ticks; the block has `len` bytes. -/
  | flux (len ticks : Nat)
  | nop (len : Nat)
  | ovl
  | index (pos sample counter : Nat)
  | info (clocks : Option (Rat × Rat))
  | streamEnd (status : Nat)
  /-- Stream information, and out-of-band blocks of an unknown type. -/
  | other
  | eof
  deriving DecidableEq

/-- An out-of-band block (src/file_parsers/kryoflux.rs:71-84, 86-127, 540-605, 684-835). -/
def oob (r : List Byte) : Except Err (Block × List Byte) :=
  match (r.headD 0#8).toNat with
  | 1 => if 11 ≤ r.length then .ok (.other, r.drop 11) else .error .io
  | 2 => if 15 ≤ r.length then .ok (.index (le32At r 3) (le32At r 7) (le32At r 11), r.drop 15) else .error .io
  | 3 => if 11 ≤ r.length then .ok (.streamEnd (le32At r 7), r.drop 11) else .error .io
  | 4 => if 3 ≤ r.length then .ok (.info (clocks (readAscii (r.drop 3)).1), (readAscii (r.drop 3)).2) else .error .io
  | 13 => .ok (.eof, r.drop 1)
  | _ => .ok (.other, r.drop 1)

/-- Reading one block, in either pass (src/file_parsers/kryoflux.rs:506-614, 622-846).  A flux block cut off by the end of
the file is an error here at once; in the first pass of the code, with the next read. -/
def next : List Byte → Except Err (Block × List Byte)
  | [] => .error .io
  | b :: r =>
    if b.toNat ≤ 7 then
      match r with
      | x :: r => .ok (.flux 2 (b.toNat * 256 + x.toNat), r)
      | [] => .error .io
    else if b.toNat = 8 then .ok (.nop 1, r)
    else if b.toNat = 9 then .ok (.nop 2, r.drop 1)
    else if b.toNat = 10 then .ok (.nop 3, r.drop 2)
    else if b.toNat = 11 then .ok (.ovl, r)
    else if b.toNat = 12 then
      match r with
      | x :: y :: r => .ok (.flux 3 (x.toNat * 256 + y.toNat), r)
      | _ => .error .io
    else if b.toNat = 13 then oob r
    else .ok (.flux 1 b.toNat, r)

/-- All blocks up to the end-of-file block.  Every block has a byte at least, so that the length of the file bounds the
number of steps. -/
def blocksFrom : Nat → List Byte → Except Err (List Block)
  | 0, _ => .error .io
  | n + 1, l =>
    match next l with
    | .error e => .error e
    | .ok (.eof, _) => .ok [.eof]
    | .ok (b, r) =>
      match blocksFrom n r with
      | .error e => .error e
      | .ok bs => .ok (b :: bs)

/-- The blocks of a file. -/
def blocks (f : List Byte) : Except Err (List Block) := blocksFrom (f.length + 1) f

/-! ## The two passes -/

/-- The first pass (src/file_parsers/kryoflux.rs:186-197, 544-594): the positions of the index pulses and the times between
them.  The clock is the default one, since this pass does not look into info strings. -/
def indexes : Option Nat → List Block → List Nat × List Rat
  | _, [] => ([], [])
  | last, .index pos _ counter :: bs =>
    let r := indexes (some counter) bs
    (pos :: r.1,
      match last with
      | some l => (((counter + 2 ^ 32 - l) % 2 ^ 32 : Nat) : Rat) / defaultIck :: r.2
      | none => r.2)
  | last, _ :: bs => indexes last bs

/-- The state of the second pass. -/
structure State where
  cut : Nat := 0
  pos : Nat := 0
  ovl : Nat := 0
  sck : Rat := defaultSck
  closed : List (List Rat) := []
  cur : List Rat := []

/-- Starting a new revolution (src/file_parsers/kryoflux.rs:630-643). -/
def State.start (offs : List Nat) (s : State) : State :=
  match offs[s.cut]? with
  | some o => if o ≤ s.pos then { s with cut := s.cut + 1, closed := s.closed ++ [s.cur], cur := [] } else s
  | none => s

/-- One block of the second pass (src/file_parsers/kryoflux.rs:645-842).  The position is not moved by `Ovl16` and
`Flux3` blocks. -/
def State.step (debug : Bool) (s : State) : Block → Except Err State
  | .flux len n =>
    if debug && decide (2 ^ 32 ≤ s.ovl + n) then .error .panic
    else .ok { s with cur := s.cur ++ [(((s.ovl + n) % 2 ^ 32 : Nat) : Rat) / s.sck], ovl := 0,
                      pos := if len = 3 then s.pos else s.pos + len }
  | .nop len => .ok { s with pos := s.pos + len }
  | .ovl => .ok { s with ovl := min (s.ovl + 65536) (2 ^ 32 - 1) }
  | .info (some (c, _)) => .ok { s with sck := c }
  | .streamEnd st => if st = 1 ∨ st = 2 then .error .corrupt else .ok s
  | _ => .ok s

/-- The second pass (src/file_parsers/kryoflux.rs:199-208). -/
def run (debug : Bool) (offs : List Nat) : State → List Block → Except Err State
  | s, [] => .ok s
  | s, b :: bs =>
    match (s.start offs).step debug b with
    | .error e => .error e
    | .ok s => run debug offs s bs

/-- What a file holds: the revolutions with their times (src/file_parsers/kryoflux.rs:166-250). -/
def revolutions (debug : Bool) (f : List Byte) : Except Err (List (List Rat × Rat)) :=
  match blocks f with
  | .error e => .error e
  | .ok bs =>
    match run debug (indexes none bs).1 {} bs with
    | .error e => .error e
    | .ok s =>
      if debug && s.cut == 0 then .error .panic
      else
        let n := if s.cut = 0 then 2 ^ 32 - 1 else s.cut - 1
        if n < 1 ∨ (indexes none bs).1.length < 2 then .error .incompatible
        else .ok ((((s.closed ++ [s.cur]).drop 1).take n).zip (indexes none bs).2)

/-- Where the next track goes (src/file_parsers/kryoflux.rs:229-242). -/
def nextCh (d : Disk) : Ch :=
  match d.trackIdx.getLast? with
  | none => ⟨0, 0⟩
  | some i => (((d.pool[i]?).elim ⟨0, 0⟩ DiskTrack.ch).seekNextTrack d.geometry).1

/-- What the descriptor keeps from track to track: the density and the speed. -/
structure Desc where
  density : F86.Density := .double
  rpm : Option Rpm := none

/-- `From<TrackDataRate> for TrackDensity` (src/types/enums.rs:145-157). -/
def densityOf : F86.Rate → F86.Density
  | .r125 => .standard | .r250 => .double | .r300 => .double | .r500 => .high | .r1000 => .extended | .nonstandard => .double

/-- `TrackDensity::base_clock` (src/types/enums.rs:204-213). -/
def baseClockOf (d : F86.Density) (rpm : Option Rpm) : Rat :=
  match d, rpm with
  | .standard, _ => 4 / 1000000
  | .double, some (.r360 _) => 1666 / 1000000000
  | .double, _ => 2 / 1000000
  | .high, _ => 1 / 1000000
  | .extended, _ => 5 / 10000000

/-- The clock and the speed that a track is decoded with: none for the first one (src/file_parsers/kryoflux.rs:440-449). -/
def hints (d : Disk) (q : Desc) : Option Rat × Option Rpm :=
  if d.pool = [] then (none, none) else (some (baseClockOf q.density q.rpm), q.rpm)

/-- The descriptor after a track: that of the best revolution, if any sector was found (src/file_parsers/kryoflux.rs:461-485,
src/track/fluxstream.rs:193-237, 633-641, src/track/bitstream.rs:124-150).  The speed that a revolution was decoded with is not
kept by the bit stream made of it (src/track/bitstream.rs:1106-1115), so none is told. -/
def describe (q : Desc) (m : Made) : Desc :=
  match m.revs[m.best]? with
  | some r =>
    if r.2.sectorIds = [] then q
    else { density := densityOf (rateOf ((r.1.dataRate.getD 0).floor.toNat)), rpm := none }
  | none => q

/-- `KfxFormat::load_image` (src/file_parsers/kryoflux.rs:166-482); `q` is what the descriptor says before. -/
def load (debug : Bool) (rnd : Nat → Bool) (fm : FmCodec) (d : Disk) (q : Desc) (f : List Byte) :
    (Disk × Desc) × Except Err Unit :=
  let d := { d with res := { flux := true } }
  match revolutions debug f with
  | .error e => ((d, q), .error e)
  | .ok L =>
    let made := make debug rnd fm (hints d q).1 (hints d q).2 (L.map fun x => Rev.ofDeltas (nextCh d) x.1 x.2)
    match d.addFlux (nextCh d) (match made with | .ok m => .ok m.bitstream | .error e => .error e) with
    | (d', .error e) => ((d', q), .error e)
    | (d', .ok _) => ((d', match made with | .ok m => describe q m | .error _ => q), .ok ())

/-- Loading streams one after another (src/diskimage.rs:444-475): one track each, until one cannot be loaded, which is not an
error; a file that cannot be read (`none`) is one, and a panic is not caught. -/
def loadFiles (debug : Bool) (rnd : Nat → Bool) (fm : FmCodec) : Disk → Desc → List (Option (List Byte)) → Except Err Disk
  | d, _, [] => .ok d
  | _, _, none :: _ => .error .io
  | d, q, some f :: fs =>
    match load debug rnd fm d q f with
    | (_, .error .panic) => .error .panic
    | ((d, _), .error _) => .ok d
    | ((d, q), .ok _) => loadFiles debug rnd fm d q fs

/-! ## Finding the files of a set -/

/-- A decimal digit. -/
def isDigit (b : Byte) : Bool := decide (48 ≤ b.toNat ∧ b.toNat ≤ 57)

/-- Whether a name goes on with `dd.d.raw` (src/file_parsers/kryoflux.rs:866); of the digits of Unicode only ASCII ones are
modelled. -/
def tailMatches : List Byte → Bool
  | a :: b :: 46#8 :: c :: 46#8 :: 114#8 :: 97#8 :: 119#8 :: _ => isDigit a && isDigit b && isDigit c
  | _ => false

/-- The first group of the pattern, which is greedy: the part before the last such place (src/file_parsers/kryoflux.rs:866-868).
Line feeds, which `.` does not match, are not modelled. -/
def stem : List Byte → Option (List Byte)
  | [] => none
  | b :: r =>
    match stem r with
    | some s => some (b :: s)
    | none => if tailMatches (b :: r) then some [] else none

/-- `to_ascii_lowercase`. -/
def lower (l : List Byte) : List Byte :=
  l.map fun b => if 65 ≤ b.toNat ∧ b.toNat ≤ 90 then BitVec.ofNat 8 (b.toNat + 32) else b

/-- Decimal digits of a number; `fuel` bounds their count. -/
def decimal : Nat → Nat → List Byte
  | 0, _ => []
  | fuel + 1, n => if n < 10 then [BitVec.ofNat 8 (48 + n)] else decimal fuel (n / 10) ++ [BitVec.ofNat 8 (48 + n % 10)]

/-- `format!("{:02}", c)` of a `u16`. -/
def twoDigits (c : Nat) : List Byte := if c < 10 then 48#8 :: decimal 5 c else decimal 5 c

/-- The name that is looked for (src/file_parsers/kryoflux.rs:895). -/
def testName (base : List Byte) (c h : Nat) : List Byte :=
  lower base ++ twoDigits c ++ [46#8] ++ decimal 5 h ++ [46#8, 114#8, 97#8, 119#8]

/-- The loop (src/file_parsers/kryoflux.rs:885-934): the names in order with their places, and the cylinders and heads seen.
The cylinder is a `u16`, which panics on overflow with overflow checks and wraps without; neither is reached unless there are
65456 files, and the model ends there. -/
def searchLoop (names : List (List Byte)) (base : List Byte) : Nat → Nat → Nat →
    List (List Byte) × List Nat × List Nat → List (List Byte) × List Nat × List Nat
  | 0, _, _, acc => acc
  | fuel + 1, c, h, (set, cs, hs) =>
    let found := names.any fun f => lower f == testName base c h
    let h' := if found && decide (0 < h) then h + 1 else h
    let acc := if found then (set ++ [testName base c h], if c ∈ cs then cs else cs ++ [c], if h' ∈ hs then hs else hs ++ [h'])
      else (set, cs, hs)
    if !found && h == 0 && decide (79 < c) then acc
    else if 1 < h' + 1 then searchLoop names base fuel (c + 1) 0 acc
    else searchLoop names base fuel c (h' + 1) acc

/-- `KfxFormat::expand_kryoflux_set` (src/file_parsers/kryoflux.rs:850-930) for a file name and the names in its directory:
the names of the set, in order, and its geometry. -/
def expand (file : List Byte) (names : List (List Byte)) : List (List Byte) × Ch :=
  match stem file with
  | none => ([], ⟨0, 0⟩)
  | some base =>
    let r := searchLoop names base (2 * 65536) 0 0 ([], [], [])
    (r.1, ⟨r.2.1.length, r.2.2.length⟩)

/-- Loading a KryoFlux set from a directory, given the name of one of its files (src/diskimage.rs:424-481), up to
`post_load_process`.  Names are compared exactly when a file is opened. -/
def loadDir (debug : Bool) (rnd : Nat → Bool) (fm : FmCodec) (dir : List (List Byte × List Byte)) (file : List Byte) :
    Except Err Disk :=
  let r := expand file (dir.map Prod.fst)
  loadFiles debug rnd fm { geometry := r.2 } {} (r.1.map fun n => (dir.find? fun x => x.1 == n).map Prod.snd)

end Kryo
end Fox
