# Formal model of fluxfox in Lean 4 — design

## Technique and trusted base

What a reader has to trust:

* **Lean 4.33.0's kernel.** Every theorem is accepted by it; no `native_decide`, no `bv_decide`, no incomplete proofs. Closed
  computations use `decide` or `decide +kernel`, which the kernel evaluates itself.
* **Three axioms of Lean's library**: `propext`, `Quot.sound`, `Classical.choice`. No axioms of our own. The list for each theorem is at
  the end of this file. From Mathlib only `Tactic.Linarith`, `Algebra.Order.Field.Rat` and `Algebra.Order.Field.Basic` are imported
  (rational arithmetic for flux times); their proofs are checked by the kernel like all others.
* **That the model is the code.** The theorems are about `lean/Verif/Model/*.lean`, a translation of the Rust code by hand, function by
  function; each definition cites the file and the lines it models and tells what it leaves out. The Rust code has never been run here.
* **That the specifications say what the English properties say**: `lean/Verif/Spec/*.lean`, written without reference to the model's
  loops, and the statements in `lean/Verif/Props/*.lean`.

Layout: `Verif/Model/` – executable model; `Verif/Spec/` – small independent specifications; `Verif/Proofs/` – lemmas;
`Verif/Props/` – the theorems (named `Cnn_…` after the property), each with examples that meet its hypotheses. A property that turned
out false of the code has `Cnn_false_…` theorems, which prove the failure (in general where possible, otherwise for a concrete input),
and `Cnn_…_partial` theorems, which prove what is left of it. `seeded/LOG.jsonl` lists the wrong programs tried against the theorems.

### Conventions of the model, which are part of the trusted base

* `u8`/`u16`/`u32`/`u64` values whose bit patterns matter are `BitVec n`; sizes, offsets and indices (`usize`) are `Nat`. 64-bit overflow is
  not modelled; 8-, 16- and 32-bit overflow is where code can reach it.
* A parameter `debug` tells whether arithmetic overflow is checked (debug builds panic, release builds wrap); theorems hold for both
  values unless they name one.
* `&mut self` methods return the new value; `Result`/`Option` stay data; a panic is the error value `Err.panic`. Running out of memory is
  not modelled, but for the IPF loader's parameter `room`.
* A `BitVec` of the bit_vec crate is a `List Bool`. Files are lists of bytes; reading a file never fails but at its end.
* `rand::random()` is a parameter `rnd`; hashes (`hash_file`) are a function `H` with the hypothesis that what is compared does not collide.
* `f64` arithmetic is exact rational arithmetic (`Rat`); rounding errors are not modelled. The histogram crate is modelled by its documented
  bucket layout. The PLL, the flux statistics and the flux loaders rest on this.
* Libraries are parameters: inflate (MFI), the unpacking of archives (gzip, zip, tar), the sort of the standard library (any stable
  permutation in order), the FM decoding of flux streams (`FmCodec`, an arbitrary function; connected to the FM codec model in C91).
* Concurrency (C38–C42): interleavings of atomic steps over the contracts of the standard library's `RwLock` and `Mutex`.
* Logging, progress callbacks and the source map's text are dropped.


## Which parts of the code are modelled

| code | model | not modelled of it |
|------|-------|--------------------|
| `src/bit_ring/mod.rs` | `Model/BitRing.lean` | iterators, formatting |
| `src/bitstream_codec/mfm.rs`, `mod.rs` | `Model/Mfm.lean` | `debug_*`, Display; `io::Seek` beyond positions |
| `src/bitstream_codec/fm.rs` | `Model/Fm.lean`, `Model/FmFormat.lean` | `debug_*` |
| `src/bitstream_codec/gcr.rs` | `Model/Gcr.lean`, `Model/Sauce.lean` (`gcrTrack`) | weak bits and error map as for MFM; text for debugging left out |
| `src/track_schema/system34.rs`, `mod.rs`, `dispatch.rs` | `Model/System34.lean`, `Model/BitTrack.lean` | element offsets for display |
| `src/track_schema/amiga.rs`, `meta_encoding/odd_even.rs` | `Model/Amiga.lean`, `Model/OddEven.lean` | `format_track_as_bytes` (a stub) |
| `src/track/bitstream.rs` | `Model/BitTrack.lean`, `Model/BitLoad.lean`, `Model/Caps.lean` (analysis) | `calc_quality_score`, hashing |
| `src/track/metasector.rs` | `Model/MetaSector.lean` | display |
| `src/track/fluxstream.rs`, `src/flux/*.rs` | `Model/FluxTrack.lean`, `Model/Pll.lean` | per-flux statistics for display; rounding of `f64` |
| `src/diskimage.rs`, `src/image_builder.rs` | `Model/Disk.lean`, `Model/Format.lean`, `Model/Raw.lean`, `Model/Detect.lean`, `Model/Caps.lean` (analysis, capabilities, `image_writer.rs`), `Model/Writes.lean` (write counter), `Model/Dump.lean`, `Model/Resolution.lean` (`resolution`, `can_visualize`), `Model/NativeTree.lean` (files put in an image), `Model/Async.lean` (`load_async`: its scheduling is sequential, a panic of the task is an error) | `get_*` for display, the threads |
| `src/copy_protection.rs`, catalogue queries of `track_schema/mod.rs`, `scan_sector`, sector maps | `Model/Catalog.lean` | Display |
| `src/sector_view.rs` | `Model/SectorView.lean` | – |
| `src/boot_sector/*.rs` | `Model/Format.lean`, `Model/Disk.lean` | Display |
| `src/types/chs.rs`, `sector_layout.rs`, `standard_format.rs`, `rpm.rs`, parts of `enums.rs`, `structs.rs` | `Model/Chs.lean`, `Model/StandardFormat.lean`, `Model/RawLayout.lean` (layouts from sizes), … | serde, clap and Display implementations |
| densities, data rates, rotation rates of `src/types/enums.rs`, `rpm.rs` | `Model/Rates.lean` | rates and factors of `TrackDataRate` with `f64` rounding (normal range), rotation rates and clocks in exact arithmetic |
| `DiskImageFileFormat::resolution` of `src/types/enums.rs` | `Model/FormatResolution.lean` | |
| the 32-bit reads of `src/bitstream_codec/mfm.rs` | `Model/WordRead.lean` | the FM ones are `todo!()` |
| element maps of `src/track_schema/*.rs` | `Model/ElementMap.lean` | colors, comments |
| `src/range_check.rs`, `src/util.rs`, `src/tree_map.rs` | `Model/RangeCheck.lean`, `Model/Crc.lean`, `Model/NaturalSort.lean`, `Model/TreeMap.lean`, `Model/Dump.lean` | |
| `src/file_parsers/raw.rs`, `imd.rs`, `td0.rs`, `hfe.rs`, `mfm.rs`, `tc.rs`, `f86.rs`, `scp.rs`, `kryoflux.rs`, `mfi.rs`, `pce/*.rs`, `ipf/*.rs`, `as/*.rs`, `mod.rs` | the model file of that name (`Hxc.lean` for `mfm.rs`, `F86Length.lean` for the cell counts of 86F, `Pce/Psi/Pfi.lean`, `Ipf.lean`, `Sauce.lean`, `Detect.lean`) | source maps; metadata that is only displayed |
| `src/file_parsers/compression/*` | `Model/Lzhuf.lean`, `Model/Lzw.lean` | – |
| `src/detect.rs`, `src/containers/*.rs` | `Model/Detect.lean` | the archive libraries (parameters) |
| `src/file_system/file_tree.rs`, `date_time.rs`, `native.rs`, parts of `fat/fat_fs.rs` | `Model/FileTree.lean`, `Model/NativeTree.lean`, `Model/DateTime.lean` | the fatfs crate |
| `crates/ff_egui_lib/src/tracking_lock.rs` | `Model/Lock.lean` | the reports of who holds the lock |
| `src/visualization/mod.rs` (rings), `types/shapes.rs` (rectangles), `types/display_list.rs`, `data_segmenter.rs`, `vectorize_disk.rs` | `Model/VizBase.lean`, `Model/Viz.lean` | rounding of `f32`; points on curves (shapes are given by radii and angles), rotation, colors, `vectorize_disk_elements` (superseded), rasterization |
| `src/visualization/rasterize_disk.rs` (`rasterize_track_data`) | `Model/Raster.lean` | the resolution in bytes; rounding of `f32`; distance and direction of a pixel are a parameter |
| `src/visualization/pixmap_to_disk.rs` | `Model/Picture.lean` | the trigonometry: which pixel falls on which bit is a parameter |
| `src/source_map.rs` (values as text), `dump_sector_map` | `Model/Text.lean` | the trees of source maps are `Model/TreeMap.lean`; tips and comments |

Not modelled at all: the graphical and command line programs (`crates/*` but the lock), `examples/`,
`src/scripting`, `src/ffi`, `src/disk_lock.rs` (superseded by the lock of
`ff_egui_lib`), serialization, and performance.


## Properties: what is modelled and how it is proved

| id | modelled | proof |
|----|----------|------------|
| C01 | `MfmCodec::encode`, `read_decoded_u8/buf`, `BitRing` | induction over the byte list; data bits at odd cells |
| C02 | `encode` | induction with the previous data bit as invariant |
| C03 | `encode`, sync constants | a sync word contains a missing clock; encoded data has none at any phase |
| C04 | `find_marker` | loop invariant: shift register = last 64 cells |
| C05 | `format_track_as_bytes`, `set_track_markers`, `scan_markers`, `create_clock_map`, `scan_metadata` | cell-level description of the formatted stream + C03/C04 |
| C06 | C05 + `find_sector_element`, `read_sector` | C05 element list, C01 at the data element |
| C07,C08 | `write_sector`, `encode_element`, `write_encoded_buf` | invariant over write histories; disjoint cell ranges |
| C09 | `encode_element` on deleted marks | expected false: CRC is seeded with the IDAM bytes; negation + `_partial` |
| C10,C11 | `crc_ibm_3740` | linear algebra over BitVec 16: one shift step is injective; XOR-linearity |
| C12-C15 | `types/chs.rs`, `types/sector_layout.rs` | arithmetic; C12 expected false for sector offset >= 2 |
| C16 | `file_parsers/raw.rs` over the disk model | corollary of C06, C13 and C32 |
| C17,C18 | `sector_view.rs` (`StandardSectorView`, `DiskView`): seek, read, write, flush over the disk model | refinement to a flat byte array with a cursor; C18 refuted (what is written at the end of the disk) |
| C19 | `bit_ring/mod.rs` | direct |
| C20 | `range_check.rs` | counting; expected false at `v = end`; exact characterisation proved |
| C21 | `find_sector_element` | induction over the element list; expected partially false (bad header short circuit) |
| C22 | `track/metasector.rs` | refinement to a map |
| C23,C24 | `diskimage.rs` track tables (`Model/Disk.lean`) | invariant over histories; C23 positions false for out-of-order adds |
| C25 | `odd_even.rs` | expected false for the encoders (bits lost); decode proved against bit spec |
| C26,C27 | `track_schema/amiga.rs`: scan, `find_sector_element`, decode of header and data, write | C26 bit-level decode of tracks laid out as `Spec/Amiga`; C27 refuted (`encode_element` is a stub) |
| C28 | `read_decoded_*` | congruence in the random source |
| C29 | `create_clock_map` | induction over markers |
| C30 | `create_weak_bit_mask` | induction over the stream |
| C31,C32 | `standard_format.rs` tables | finite tables, whole-table decide |
| C33 | C05 generalised to streams with boundary clock errors | missing clocks only at listed cells |
| C34 | `next_id` | list induction |
| C36 | `read_all_sectors` of both track kinds | loop invariant over the remaining sectors; C08 relation |
| C37 | `read_sector_basic`, `write_sector_basic` over the loaded disk | refinement of the disk tables to a map, built on the C08 relation |
| C38-C42 | `tracking_lock.rs` as an interleaving transition system over the std `RwLock`/`Mutex` contracts (`Model/Lock.lean`) | invariant over all schedules (counts of calls at each program point); C40 false (guard un-registered before it is released), cause of every panic and sequential refinement proved |
| C43 | `load_as_metasector`, `post_load_process`, `save_image` on 880K Amiga images (`Model/Raw.lean`, `Model/Disk.lean`) | loop invariant over the tracks, refinement to the sector map; exact condition for the round trip; false for blank, doubled and PC-lookalike images |
| C44 | `analyze` (sectors per track), `post_load_process`, `closest_format`, `format_track` (`Model/Disk.lean`) | case analysis against an independent relation on listed tracks |
| C45 | `normalize`, `remove_odd_tracks`, `remap_tracks` (`Model/Disk.lean`) | counting of pairs; false (only side 0 is examined), two families of disks proved untouched |
| C35 | `boot_sector/bpb.rs`, `bootsector.rs` | byte-level patch lemmas; whole-table decide for the format table |
| C46 | `read_chunk`, `write_chunk`, `write_chunk_raw`, CRC (`Model/Pce.lean`) | CRC linearity against a bit-serial register (`Spec/Pce.lean`), framing lemmas |
| C47 | `PriFormat::load_image`, `save_image`, `BitStreamTrack::new` on MFM data, `write_weak_mask_u32` (`Model/Pce.lean`); the alternate-clock float computation is a parameter; track data rates are a parameter of save and a list returned by load; file metadata other than the comment is not modelled | per-track simulation of the chunk loop, then the tables; sector contents via the rescan theorem of C13 and the disk map of C37; refuted parts shown on concrete disks |
| C48 | Model/Psi.lean: chunk loop of psi.rs over the disk and metasector models; sector_counts and comment text (only logged) and bit_offset (unused by metasector tracks) dropped | Spec/Psi.lean gives chunk encodings of described sectors; invariant PInv between sectors, induction over sectors and tracks; BuiltSect/InOrder place the tracks |
| C49 | Model/Imd.lean: header text skip, track headers, maps, record types and geometry of imd.rs over the disk and metasector models; header regex and comment dropped | Spec/Imd.lean gives the bytes of described tracks; invariant IInv between tracks, induction over sectors and tracks, separately for cut files |
| C50 | Model/NaturalSort.lean: natural_sort on ASCII names | the order is shown to be the lexicographic order of a sort key (natural_key); Spec/NaturalSort.lean says what the numbers of a name are without the run splitting |
| C51 | Model/Pfi.lean: chunk loop, index words, read_track_data in clocks, placement by next_track_unchecked; PLL decoding not modelled | run_walk replaces bytes by times, walk_in/walk_before induct over transitions against a filter by start clock; Placed invariant for addresses |
| C52 | Model/F86.lean: header, offset table, flags, track entries with weak masks and padding, the doubling of 40-track images, BitStreamTrack::new with a mask; f64 cell count abstract | record-level lemmas on bits (cells86, weakBit86), table reading by induction over the records (offsets86), loop invariants for writer and loader, DiskRel transported along the loaded tracks; cut files by the last table entry alone |
| C53 | Model/Lzhuf.lean: AdaptiveHuffmanTree (create, rebuild, update with checked indices and fuelled loops), bit reader with its 512-bit buffer, decode_char, decode_position with the four tables, ring buffer, expand; Spec/Lzhuf.lean: tokens and what they stand for | tree invariant (sibling property: sorted frequencies, sums, parent/son/symb inverse) preserved by create, rebuild and every step of update; codes as paths; loop invariant relating the ring to the history; totality by fuel = bits left |
| C54 | Model/Lzw.lean: bit reader, get_code, dictionary as a finite map with get_string as a fuelled walk, advance_code, expand over chunks; check_match/compress with the chunk headers and lsb packing; Spec/Lzw.lean: growing table of strings | dictionary invariant (each entry links to a smaller code whose string it extends); the decoder follows the compressor's table by one entry (follow); bit-level parsing of chunks by induction |
| C55 | Model/Td0.lean: checksum, comment, track and sector loops, the three encodings, both expanders of C53 and C54; Spec/Td0.lean: described disks as bytes and as sectors | linearity of the checksum register; per-encoding induction over entries; loader invariant over tracks (BuiltSect) as for IMD; composition with C53/C54 |
| C56 | Model/BitLoad.lean (BitStreamTrack::new for plain bytes), Model/Hfe.lean (whole loader); Spec/BitLoad.lean, Spec/Hfe.lean: cells by position arithmetic, independent of the loader's loops | block loop by induction against position arithmetic; pushAll/OrderedChs for placement; ofBytes_holds for sectors; an explicit file builder for existence |
| C57 | Model/Hxc.lean (whole loader); Spec/Hxc.lean: table and cells by position arithmetic | table and track loops by induction; cells_by_order for arbitrary tables; ofBytes_holds for sectors; an explicit file builder for existence |
| C58 | Model/Tc.lean (whole loader, with and without trace messages); Spec/Tc.lean: tables, cells and weak cells by position arithmetic | take_while counts against an unbounded characterisation; track loop by induction; CellsOk implies no run of seven zeros; an explicit file builder for existence |
| C59 | Model/Format.lean (format, format_track, add_empty_track loops, boot sector building, builder); Spec/FormatDisk.lean: the fresh disk as a sector map | grid invariant over the add and format loops, track formatting by the C13 theorem, DiskRel to the map |
| C60 | same model, image after the error | symbolic evaluation of the failing paths |
| C61 | same model with Raw.save | save_spec on the fresh disk; counterexample by the closest-format computation |
| C62 | Disk.updateBoot on loaded images after any history | DiskRel for reads and writes; shape invariant of the map |
| C63 | Model/DateTime.lean; Spec/DateTime.lean: closed-form day count | loop invariant over years and months, strict monotonicity of the day count |
| C64 | Model/TreeMap.lean: array of nodes, cursor, recursive walk with visited set; Spec/TreeMap.lean: list of parents | representation invariant by induction on the history; disjointness of subtrees by strong induction |
| C65 | Model/FileTree.lean; Spec/FileTree.lean: DirAt, filesOf | mutual induction over the nested tree; split and join of paths |
| C66 | same | evaluation; resolve_spec |
| C67 | `Pll.setClock`, `decodeMfm` over `Rat` | invariant polytopes `Tight` and `Drift` over (phase, period, last error, gate), preserved by every interval of 2-4 cells |
| C68 | `Output.mfm`, shift register | invariant: the register holds the last 64 bits; the marks are the places where they match |
| C69 | `tick`, `clamp`, counters | totality from positive period and ordered limits, kept by every operation; invariant for the counts |
| C70 | `decodeMfm`/`decodeFm` limits | clamp; refuted by a two-step history |
| C71 | `decodeFm` | the loop is a three-state machine on one- and two-cell intervals; refuted for zeros of any length |
| C72 | `Output.mfm` | invariant: marks lie before the end of the bits; refuted by a glitch |
| C73 | `histogram`, `maxima`, `baseTransitionTime`, `guessClock`, `guessRpm`, `clockOf`, `Rev.decode` | first peak is the bucket of the two-cell interval (bucket arithmetic); its middle is within the lock range of C67 |
| C74 | same | lower bound on the bits the decoder can make at twice the cell length |
| C75 | `fromAdjacentPair`, `synthesize`, `rawNext`, `best`, `score` | induction on the lists |
| C76 | `decodeAll`, `make`, `Made.bitstream`, `Track.ofBytes` | C73 for each revolution, `ofBytes_cells` |
| C77 | `Scp.header`, `table`, `readTrack`, `tracks`, `load`; spec `ScpFile.WellFormed` | inversion of the parser; `make_total`: a flux track is always made; `pushAll_at` for the places |
| C78 | same | `takeWhile` against `filter` |
| C79 | `Scp.convert`; spec `ScpFile.times` | induction on the samples |
| C80 | all of the above and C76 | C76_measured for each track |
| C81 | same | case analysis of every failing branch |
| C82 | `Kryo.next`, `blocks`, `indexes`, `run`, `revolutions`; spec `KryoFile` tells a stream by how it is written | induction on the items, with the position in the stream as invariant |
| C83 | `Kryo.load` and the flux model | C76_measured; `hints`/`describe` keep the double density descriptor (C73_hinted) |
| C84 | `Kryo.stem`, `testName`, `searchLoop`, `expand`; spec `KryoSet` | induction on the search loop |
| C85 | `Kryo.loadFiles`, `loadDir` | `InTurn` invariant: tracks are put in turn; C83_later for each |
| C86 | same | case analysis of every failing branch |
| C87 | `Detect.detects`, `detect`, `container`; spec `FileKind` lists the marks | the ImageDisk pattern as a language (`imdAnywhere_iff`); marks pairwise no prefixes of each other |
| C88 | the savers of C16, C22 and C42 with `Detect.container` | what a saved file begins with; a zero byte ends the text |
| C89 | `Detect.load`, libraries as parameters | case analysis |
| C90 | `setsOf`, `choose`, `loadSet` | `Kryo.expand` depends only on the set of lower-cased names |
| C91 | `Fm.load`, `FmTrack.readSector`; spec `FmDisk` is IBM 3740 recording | window characterisation of the mark search; invariant of the metadata scan; the CRC is injective in its start value; tracks of whole bytes (`Recorded`) |
| C92 | `Fm.writeRawBuf`, `writeEncodedBuf`, `encode`, `readDecodedBuf` | induction over the cells |
| C93 | `Mfi.load` (inflate a parameter); spec `MfiFile.WellFormed` | inversion of each stage of the loader; `Scp.pushFlux` |
| C94 | `Mfi.normalize`, `Mfi.process`; spec `MfiFile.At300`, `At360` | the histogram's peak (HistCluster) decides whether times are scaled; then as C76_measured |
| C95 | the same | stage by stage |
| C96 | `Mfi.fluxes` | tracks with the same flux times are made alike |
| C97 | `Ipf.crc`, `Ipf.readChunk`; spec `IsCrc32` (polynomial remainder), `IsChunkLax` | linearity of the CRC; a burst of up to 32 bits has a remainder other than 0 |
| C98 | `Ipf.load` (INFO, IMGE, DATA, sort by cylinder and head); spec `IpfFile.IsFile`, `Complete` | induction over chunks and over the sorted tracks |
| C99 | `Ipf.decodeTrack`, V1 and V2 blocks, stream elements, gap lists; spec `IpfFile.Track.Shows` | cells written round the track against `laid` |
| C100 | `Ipf.rescan`, `Track.readSector` | the schema is not changed by rescan; Amiga scan as in C26 |
| C101 | `Ipf.load` | inversion over what the file reads as (`Reads`) |
| C102 | the same | stage by stage |
| C103 | `Sauce.load`, `Sauce.crc32` (the table); spec `IsCrc32` | the table CRC equals the bitwise CRC of C97; bursts as there |
| C104 | `Sauce.load`, `Sauce.chunks`, `Sauce.tracks`, `Sauce.addSlot`; spec `SauceFile.Moof`, `SauceTracks` | induction over chunks and over the entries of the map; gaps by counting the tracks pushed |
| C105 | the same for WOZ; spec `SauceFile.Woz` | the same |
| C106 | `Sauce.fluxTicks`, `Sauce.decodeFlux`, `Flux.make`; spec `SauceFile.Spells`, `Captures` | induction over the spelled times; C76 for the cells |
| C107 | the same | stage by stage; what the chunks kept point at |
| C108 | `Sauce.bitTrack`, `Track.ofBytes`, `Disk` operations | refinement to the sector map as in C52; GCR tracks have no schema |
| C109 | `Disk.analysis`, `Track.analysis`, `MetaTrack.analysis`, `Image`; spec `OnDisk`, `CountsDiffer`, `SizesDiffer` | the loop is a fold; each flag as an `any` over the tracks; bits of the flag set |
| C110 | `Format.compatible`, `Format.canWrite`, `Format.sortBy`; spec `Covers`, `Before` | insertion sort keeps a strict order |
| C111 | `Format.save` over the three savers | C110 and the theorems of C16, C47, C52; instances computed by the kernel |
| C112 | `Format.ofExt`, `Format.supported` | the advertised extensions are disjoint |
| C113 | `Writer.write` | cases |
| C114 | `S34.hitTest`, `S34.itemAt`, `S34.sectorIndex`; spec `Touches`, `Covers`, `Ordered`, `Smallest` | invariant of the running minimum in both loops; stable sort |
| C115 | `Track.scanSector`, `MetaTrack.scanSector`, `Amiga.Track.scanSector`, `DiskTrack.scanSector` | cases on the search; what it reports about data comes from an element of data |
| C116 | `DiskTrack.protection`, `Disk.protection`; spec `FirstSeen`, `Detected` | C21 and the soundness of the search on paired catalogues |
| C117 | `Disk.sectorMap`, `DiskTrack.sectorList` | the traversals succeed |
| C118 | `DiskTrack.hasSectorId`, `S34.dataMarkerCt` | induction over paired catalogues; the elements of a well-formed track |
| C119 | `Disk.readTrackRaw` | bits of packed bytes |
| C120 | `DiskTrack.hasWeakBits`, `Disk.anyWeak` | bound on the count; invariant of masks |
| C121 | `Counted`: a disk with its counter, one step per operation; spec `countStep`, `SameTracks`, `AllTracked` | induction over histories |
| C122 | `dumpSlice`; spec `readDump`, `linesOf`, `addressOf` | lines of concatenated rows; digits read back |
| C123 | `Disk.dumpHex`, `Disk.dumpText` | C122 and what reads return |
| C124 | `Rect`; spec `Inside`, `Proper` | arithmetic of rationals |
| C125 | `DisplayList`, its iterator as a state machine; spec `Yields`, `pushedTo` | induction over pushes and over what is left |
| C126 | `Segmenter`; spec `Yields` | invariant of the accumulator |
| C127 | `Params.trackParams`, `TrackParams.radii`; spec `OnRing` | arithmetic of rationals |
| C128 | `dataSlices` | C125, C126, sums of sizes |
| C129 | `dataSlices`, `trackParams`; spec `AllStreams` | the middle radius lies in the ring |
| C130 | `elements`; spec `InShape`, `angleAt` | the quadrants cover a turn; pieces are clipped |
| C131 | `Viz.hitTest`, `hitCylinder`; spec `InShape`, `angleAt`, `Smallest` | floors of quotients against the radii of C127; C114 for the element |
| C132 | `selection`; spec `InShape`, `angleAt` | induction over the elements with the count of data |
| C133 | `Async.load`, `Async.loadSet`; spec `AllLoad` | induction over the streams, with a panic as release of the task |
| C134 | `Rates.fl` (rounding to 53 bits), `Rate.ofU32`, `toU32` | error bound of two roundings, floor |
| C135 | `Density.cells`, `clock`, `ofCells`, `ofClock` | cases over the densities; exact rational arithmetic |
| C136 | `Rpm.indexTime`, `ofIndexTime`, `text` | field arithmetic over the rationals |
| C137 | `EMap.build`, `buildAmiga`, `EMap.ofTrack`; spec `SectorLines` | induction over the elements with the list of nodes so far |
| C138 | `F86.bitLength` (with `Rates.fl`), `trackLength`, `Track.ofStream`; spec `TurnCells`, `StatedShift` | the finitely many flags by the kernel, extra counts by arithmetic, the cut to the data by the loader's lemmas |
| C139 | `Picture.render`, `paintMono`, `paintGray`; spec `OnData`, `SameButBits` | induction over the samples; C20 for the ranges |
| C140 | `Picture.ramp`, `genRamp`; spec `ValidMfm` | each word begins with a one and ends with a zero: induction over the sequence |
| C141 | `Text.number`, `Value.show`; spec `readNumber`, a reader of numbers | `Nat.toDigits` by strong induction; zeros in front do not change what is read |
| C142 | `Text.dumpMap` on `Disk.sectorMap`; spec `Learnt`, `LineOf` | lines without line feeds can be split; lines of heads, tracks and sectors differ in their first characters; ids by digits between letters |
| C143 | `Disk.resolutions`, `Disk.canVisualize` on the histories of `Spec/Disk` | invariants of each step: pools and sets grow together |
| C144 | `RawLayout.deriveMatches`, `ofSize`, `ofRawSize`; spec `Usual`, bytes of a layout | what a candidate is, both ways, by division; stable sort keeps the members and its head is the least |
| C145 | `Native.buildRoot`, `buildFat`, `inject` on trees of host entries; spec `hostFiles`, `Volume` that runs the calls | mutual induction over trees: from any volume where no file is below the places, exactly the files are added |
| C146 | `Native.listRelative`, `trimStart`; spec `hostFiles`, `hostOthers` | mutual induction with the path as parameter; trimming by well-founded recursion |
| C147 | `Disk.boot` with `postLoad`, `updateBoot`, `format`, all `DiskOp`s; spec `readFirst`, `TellsBoot` | case analysis of loading; induction over histories; the disk-as-map refinement of C16 for what is read |
| C148 | `Viz.Raster.rasterize`, `pixel`, `bitIndex`, `streamIndex`, `paint`; spec `OnRasterRing`, `InGap`, `angleAt` | floors and fractional parts of rationals; induction over the pixels painted, with an injective map of places |
| C149 | `Format.resolution` and the loaders of all formats; spec `Parsed`, `HoldsOnly` | invariant of the `add_track` functions, carried through each loader by induction over its tracks or chunks |
| C150 | `Mfm.readDecodedU32Le/Be`; spec `leNumber`, `beNumber`, `InStep` | bit by bit, over arbitrary cells; C01 for what is written |
| C151 | `Gcr` (the GCR codec), `Gcr.format`, `Gcr.read` | the empty codec functions substituted in the track's methods; the ring lemmas of C30 for single bytes |
| C152 | `Fm.FmTrack.format`, `Fm.setTrackMarkers` | the marks of the FM track followed beside those of the MFM one; the first 16 cells are before every mark; the last mark of a layout lies at least 50 bytes per sector in |

## What was found

Properties of which the code falls short; each failure is a theorem (`_false_`), its conditions are in the statement.

* **C05** Formatting a track makes exactly the requested sectors discoverable. Proved at full strength for cylinder numbers below 256. Refuted for larger ones (C05_false_large_cylinder): the header stores only the low byte of the u16 cylinder, so the requested id is never found.
* **C09** Deleted sectors keep a valid CRC when rewritten. Refuted: C09_false_deleted_crc proves that for every deleted sector and every buffer the CRC recorded by write_sector is wrong (encode_element seeds it with the IDAM bytes). C09_partial: normal marks are fine, and the data bytes always read back.
* **C12** LBA and CHS addresses are inverse bijections. Holds when first sector number + sectors per track fits u8 (all shipped layouts). C12_false_high_offset: u8 addition overflows otherwise. C12_empty_layout_panics: a layout with h=0 or s=0 divides by zero. C12_false_contains: contains() accepts sector number s+1 when numbering starts at 0 (off by one); C12_contains_iff says exactly what it accepts.
* **C14** Sector size code round trip. Holds for codes 0..63; C14_false_large_codes: codes >= 64 wrap (shift count is masked), C14_false_holds: bytes_to_n(257) = 1, a code too small to hold the size.
* **C15** Raw offsets and CHS agree. Holds for sector numbers >= 1; C15_false_sector_zero: to_raw_offset underflows for sector number 0 of layouts numbered from 1.
* **C16** Raw image load/save is the identity. REFUTED in general. Proved for every PC format and every file of its size: the image loads, every sector reads back as the file's bytes, and save returns the file exactly when the boot sector names no format or the image's own format. Hypothesis: the track hash (SHA-1, an arbitrary function in the model) has no collision among this image's own tracks, else post-load normalisation may drop tracks. C16_false_other_boot_sector: an erased (all FF) 1.44M image is saved as 327,680 bytes or not at all.
* **C17** The sector view reads like a flat file. Partial and REFUTED in corners. C17_reads_like_file_partial: for every disk (any track kind) whose sectors read as a file's, every history of seeks and reads inside the file equals the flat file. C17_false_stuck_at_end: after a read ran into the end, seeking into the first sector of the last track succeeds but reads stay empty. C17_false_seek_end: seeking to the end is an error. C17_false_seek_before_start: negative targets clamp to 0.
* **C18** The sector view writes like a flat file. REFUTED as stated: C18_false_crossing_write (a write over a sector boundary leaves the first sector unwritten) and C18_false_seek_after_write (dirty sector committed to the wrong track), both for every PC image. C18_writes_like_file_partial: histories that never leave unflushed bytes across a sector/track move behave like a flat file and the disk ends with the file's sectors.
* **C19** The track ring is a ring. All of the ring: indexing, update histories, sequential bit and byte reads, one revolution. The iterator documented as infinite panics (C19_false_iter_infinite): that clause of the property is REFUTED.
* **C20** Range checker decides half-open membership. REFUTED as stated: the checker is end-inclusive. C20_contains_partial gives the exact (closed range) behaviour for all lists of ordinary ranges; C20_false_half_open refutes half-open membership for every list.
* **C21** Sector search returns a sector that matches the query. Soundness and completeness of the search on the catalogue of any stream; exact characterisation on intact tracks (C21_wellformed). C21_false_damaged_header: a damaged header stops the search at a sector that contradicts the query.
* **C22** Metasector tracks behave as a map. Refinement to a list of (id, contents, flags) for every history of adds, writes and reads, exact when every write addresses an existing sector (C22_track_is_map). Findings: a write to a missing sector is reported as success (C22_false_missing_write), a data-error flag survives a rewrite (C22_false_error_sticks), adding an alternate copy panics (C22_false_alternate_panics), no-DAM sectors are not flagged (C22_false_no_dam).
* **C23** The track map stays consistent. REFUTED as to positions. Proved over every history of track operations: both head tables only hold pool indices (C23_tables_live), every pool track is listed while nothing is removed (C23_all_listed), and a history whose add operations name the next free cylinder of the head keeps each track at the position of its own cylinder/head (C23_positions, C23_added_track). C23_false_positions / C23_false_removal: an add at another cylinder is placed at the end of the table, and remove_empty/normalize leave stale pool tracks whose own ch no longer matches.
* **C25** Odd/even codec round trip. Decoders are exact odd/even decoders for every input. The encoders are REFUTED (C25_false_*): bits 4j+1 are lost; the _partial theorems say exactly for which values a round trip holds (bits 4j+1 = bits 4j+3).
* **C26** Amiga sectors decode to their contents. C26_element_decodes: for every 512-byte content and every clock-cell content the element decodes exactly, with equal checksums. C26_track_reads_partial: scanning a whole track (any number of sectors, wrap-around allowed) and reading by any query returns the first agreeing sector; needs zero labels. REFUTED in general: C26_false_label (header checksum covers 10 of 20 bytes, so a correct sector with a label is unreadable), C26_false_size_override (read with size override 0/1 panics). Missing: weak bits, reads with EntireElement/CrcOnly scope.
* **C27** Writing an Amiga sector stores the data. REFUTED by C27_false_write_lost: for every content, a write of a sector reports success and changes nothing (encode_element is a stub). C27_write_changes_nothing_partial: no write ever changes the track.
* **C29** The clock map is aligned at every marker. Proved for non-empty ascending marker lists with the first marker after cell 0. C29_false_marker_at_zero: a marker at cell 0 leaves the first segment unfilled; C29_empty_panics: an empty clock map underflows.
* **C31** Format detection by size is unambiguous. REFUTED for the Amiga 1760K format (C31_false_amiga1760: its raw size is never recognised) and for the parameter-string list (C31_false_param_list); proved for all other formats.
* **C34** Next-sector-id follows the track ring. Exact for sector numbers that are distinct on the track; C34_false_same_number: next_id compares the sector number only. C34_metasector_partial: the same for metasector tracks.
* **C35** Boot sector parameters match the format. C35_false_fat_size_2880: the 2.88M parameter block has a FAT too small for its clusters (REFUTED for that format); C35_false_media_180: the 180K media descriptor is FE instead of FC.
* **C40** Asking for the disk lock answers, it does not panic. REFUTED: a guard un-registers itself before its inner guard is released (fields drop after Drop::drop); a call in between panics, poisons the tracking mutex and every later call panics. Also a client panic while holding the write guard. Proved: exact cause of any panic under every schedule; sequential use refines the ideal readers/writer lock.
* **C43** Amiga sector images load and save unchanged. REFUTED as stated: blank or doubled images lose half their cylinders and cannot be saved (C43_false_blank), images whose second sector looks like a PC boot sector are saved as that format (C43_false_pc_lookalike). Proved: exact characterisation of the files that survive, and the map semantics of every history on them (writes to missing sectors excluded: reported as done, C22).
* **C45** Post-load normalisation drops no data. REFUTED: only side 0 is examined (C45_false_second_side). Proved: 80-cylinder disks with one distinguishing odd cylinder on side 0, and all disks of at most 40 cylinders, are left alone.
* **C47** PRI images keep bitstream disks. REFUTED in three respects, each exactly characterised: weak cells come back moved up by one (C47_weak_shifted, C47_false_weak), data rates become 0 (C47_false_rates), an image without tracks saves as a file whose loading panics (C47_false_empty); comments over 1000 bytes panic on save, a WEAK chunk on head 2 panics on load. Proved: cells, addresses, geometry preserved for every savable image; any PC sector image converted to PRI after any write history keeps all sectors (C47_sectors_survive); every cut file refused.
* **C48** PSI images load as the sectors they describe. REFUTED in part, hence partial. Proved: a file of in-order tracks loads as exactly its sectors (C48_load_partial), reads show them (C48_reads), ignored chunks make no difference (C48_ignored), every truncation is refused (C48_truncated). False of the code, proved: WEAK chunks are dropped (C48_false_weak), a sector of an earlier track is put on the last track added (C48_false_revisit), a file without sectors panics (C48_false_empty), a short OFFS chunk panics, alternate copies panic (C48_false_alternate), an IBMM chunk after a compressed sector applies to the next sector (C48_false_leak), formats 02 00 and 02 01 are taken for FM (C48_false_mfm).
* **C49** IMD images load as the sectors they describe. REFUTED in part, hence partial. Proved: a file loads as exactly its tracks (C49_load_partial), reads show them (C49_reads), a cut after a track header is refused (C49_truncated), invalid headers are refused (C49_refuses). False of the code, proved: a cut between tracks or inside a header loads silently (C49_false_truncated), a file without tracks and a file without terminator panic (C49_false_empty, C49_false_not_imd), 128 or more sectors panic in a debug build (C49_false_many), record types 7 and 8 are refused (C49_false_deleted_error).
* **C50** Natural order of directory names is a total order by numbers. REFUTED in part, hence partial. Proved for all names: antisymmetry, equality up to case, case-insensitivity; numbers are ordered by value (C50_numbers); transitive for names with numbers below 2^32 without leading zeros (C50_transitive_partial). False of the code, proved: leading zeros and large numbers give cycles (C50_false_zeros, C50_false_big). ASCII names only.
* **C51** PFI images load as the flux revolutions they describe. REFUTED in part, hence partial. Proved: the revolutions of track data (C51_track_data), refusals (C51_no_index, C51_invalid, C51_cut_transition, C51_truncated), files of tracks in order (C51_load_partial). False of the code, proved: the cylinder of a track header is ignored (C51_false_position), 2^32 clocks panic in a debug build (C51_false_overflow), a transition that passes two index times shifts the following ones (C51_false_skipped). Times are in clocks (the code multiplies by the f64 period); the PLL decoding inside add_track_fluxstream is not modelled.
* **C52** 86F images survive saving and loading. REFUTED in part, hence partial. Proved: the round trip of two-sided images of 80 to 256 cylinders (C52_round_trip_partial), sectors of every two-sided PC format through 86F for all histories (C52_sectors_survive), no proper prefix of a file whose last track has an even byte count loads (C52_truncated). False of the code, proved: fewer than 80 cylinders come back doubled (C52_doubled), weak cells of odd-length tracks move by eight (C52_weak_odd), the data rate is lost (C52_false_rate), one-sided images cannot be saved (C52_false_one_sided, C52_false_pc_one_sided), extended density and empty images save but do not load (C52_false_extended, C52_false_empty), cylinders past 256 are dropped silently (C52_false_large), name and version are not checked (C52_name_ignored). The floating-point cell count of files without an absolute count is an arbitrary function.
* **C54** LZW expansion of TeleDisk data is exact, and never panics. REFUTED in part, hence partial: a chunk whose first code is not a byte panics on prev_str[0] of an empty Vec (C54_false_no_panic, four bytes). Everything else is proved: exact output or error for every data up to three million bytes (C54_expand_ok, C54_expand_bad_partial, C54_cases), refusal above (C54_too_large), round trip (C54_round_trip, C54_compress_any). The rewinding writer of the compressor is modelled by its net effect.
* **C55** TeleDisk images load as the disk they describe. REFUTED in part, hence partial. Proved: loading of all described disks uncompressed, LZW and LZHUF compressed (C55_load_partial, _lzw_partial, _lzw_own_partial, _lzhuf_partial, C55_expressible), reading them (C55_reads), refusal of cut tracks (C55_truncated), wrong sector checksums (C55_bad_sector) and changed header bytes (C55_header_changed). False of the code: pairs are expanded with their bytes exchanged so good files with unequal pairs are refused (C55_false_pairs, C55_false_pair_refused), run-length overruns and bad LZW data panic (C55_false_rle_panics, _rle_pattern_panics, _panics, _lzw_panics), skipped sectors are dropped (C55_false_dropped), FM tracks and comments that are not UTF-8 are refused (C55_false_fm, C55_false_comment), a file cut between tracks loads silently (C55_false_truncated), the one-byte checksum misses single byte errors (C55_false_detect).
* **C56** HFE images load as the cells they describe. REFUTED in part, hence partial. Proved: exactly which files load (C56_accepts), what every one becomes (C56_found), agreement with the format for one-sided files and whole blocks (C56_load_partial) and up to the last whole block otherwise (C56_prefix), survival of sectors under any histories (C56_sectors) and existence of such files for every PC format but 2.88M (C56_describable). False of the code: side 1 of a partial last block is read from the wrong place (C56_false_tail), tracks out of order overflow with checks (C56_false_order), empty tracks refuse the whole file (C56_false_empty), the encoding byte is ignored (C56_false_encoding), the track data rate is ten times too low (C56_false_rate).
* **C57** HxC MFM images load as the cells they describe. REFUTED in part, hence partial. Proved: exactly which files load (C57_accepts), what every well-formed one becomes whatever its order (C57_by_order), agreement with the table when it is in order (C57_load_partial), survival of sectors under any histories (C57_sectors) and existence of such files for every PC format (C57_describable). False of the code: any file below 19 bytes loads as an empty disk (C57_false_short), the order of the table and not its cylinder numbers decides the place (C57_false_order), cylinders above 255 are cut (C57_false_cylinder), the track data rate is ten times too low (C57_false_rate).
* **C58** TransCopy images load as the cells they describe. REFUTED in part, hence partial. Proved: exactly which files load (C58_accepts), what every one becomes (C58_found), agreement with the tables for an even number of tracks (C58_load_partial), survival of sectors under any histories, no cell of a formatted track being taken for weak (C58_sectors), and existence of such files for every PC format (C58_describable). False of the code: the last of an odd number of tracks is lost (C58_false_odd), a track of 13107 bytes refuses the file (C58_false_size), with trace logging an image without tracks panics (C58_false_trace), disk type 3 gets 500 kbit/s (C58_false_rate).
* **C60** A refused format leaves the image as it was. REFUTED. Only the refusal of an unsupported file system leaves the image alone (C60_other_fs_partial). A template under 512 bytes, a non-PC format, or a creator's name for a template that is not the library's own empties the image of all tracks and then fails (C60_false_erased); so does formatting a flux image (C60_false_flux).
* **C61** A formatted image is saved in its new format. REFUTED in part. Proved when the new format has the cylinders and heads the image was created with (C61_saves_partial). False otherwise: format does not change the geometry the image describes itself with, and a 160K image formatted as 320K is saved as 163,840 bytes (C61_false_geometry).
* **C66** Any directory can be listed. REFUTED in part. Proved: the root can be listed and directories two or more levels down report their path (C66_partial). False: dir finds nothing at any path naming a directory (C66_false_dir), non-recursive listings and archives of a directory are always empty (C66_false_flat), directories in the root report the path of the root (C66_false_path).
* **C70** The decoder's clock stays near the rate that was set. REFUTED (C70_false_history): the limits are taken from the working period before it is reset, so decoding FM and then MFM with the same decoder misreads perfect flux. Proved: the limits hold and history does not matter right after the clock is set (C70_limits_partial, C70_after_set_partial).
* **C71** The FM clock recovery locks on to the disk. REFUTED (C71_false_zeros): the change of the period is a dimensionless number added to seconds, so the period jumps between its limits and every two-cell interval in a row of FM zeros is read as three, for ever. C71_what_fm_reads_partial states exactly what is read of every sequence of one- and two-cell intervals; C71_ones_partial: rows of ones are right but for a zero put before them.
* **C72** Each sync mark is reported once. REFUTED (C72_false_glitch): a second transition within the same tick right after a mark makes it come twice. Proved if no flux was too short (C72_marks_once_partial).
* **C74** Extra density flux is found without a hint. REFUTED (C74_false_no_hint): every extra density track of 50000 transitions or more is misread without a hint, since the transition count is taken to mean 1 us cells and the clock in the flux is then rejected as being too far off. Proved: read exactly with a hint (C74_with_hint_partial).
* **C78** Every track of a SuperCard Pro file is loaded. REFUTED (C78_false_gap): the first zero entry ends the table, so images with gaps, such as single-sided ones that leave every other entry empty, lose all later tracks without any error. Proved if the table has no gaps (C78_all_partial, with C77_tracks).
* **C79** The flux times of a SuperCard Pro file are what its samples say. REFUTED (C79_false_overflow): an overflow sample counts 65535 ticks instead of 65536. Proved if no flux time exceeds 65535 ticks (C79_flux_partial), and as it is (C79_flux_as_is).
* **C81** No SuperCard Pro file makes the loader panic. REFUTED: more than 84 tracks on a side (C81_false_tracks, every build), flux that is taken for FM and has an id mark cut off by the index (C81_false_fm, every build, with the FM codec as modelled), a first offset inside the table (C81_false_offset) and a revolution of over 4.29 s (C81_false_time), both with overflow checks. Proved for builds without overflow checks and up to 84 tracks a side, if the FM decoder does not fail (C81_no_panic_partial).
* **C82** The revolutions of a KryoFlux stream. REFUTED: after a three-byte flux time or an overflow the stream position is not advanced, so revolutions are cut too late (C82_false_long, C82_false_overflow); the index clock told by the stream is ignored (C82_false_index_clock). Proved for streams without these, times by the usual index clock (C82_revolutions_partial, C82_flux_partial); for all streams, the flux times themselves (C82_times).
* **C84** The files of a KryoFlux set are found. REFUTED (C84_false_case): names are looked up in lower case but then opened under the lower-cased name, so a set with capitals fails to load on a case-sensitive file system. Proved: the names and the geometry (C84_expand), and that they exist if all names are in lower case (C84_exist_partial).
* **C85** A KryoFlux set is loaded with every track in its place. REFUTED: a missing stream shifts all later tracks (C85_false_gap), and a stream that cannot be read ends the set without an error (C85_false_drop). Proved for complete sets of double density tracks (C85_set_partial, C85_files), with a concrete set in Props/KryoCase.lean.
* **C86** No KryoFlux stream or set makes the loader panic. REFUTED: with overflow checks a stream without an index pulse (C86_false_no_index); in every build flux that is taken for FM and has an id mark cut off by the index (C86_false_fm). Proved for builds without overflow checks, for every stream and every directory on whose revolutions the FM decoder does not fail (C86_no_panic_partial).
* **C87** A file is taken for the format whose mark it bears. REFUTED: the sizes of raw images are asked before any mark (C87_false_size, for every format), and the ImageDisk pattern is not anchored (C87_false_text). Proved: marks are exclusive (C87_one_mark), exactly which files are taken for what (C87_told_apart_partial), and that the modelled loaders accept no file without their mark (C87_accepted).
* **C88** A saved image is known again. REFUTED: a PRI file of the size of a raw image is taken for one (C88_false_size), and a raw image may begin like a gzip file (C88_false_archive). Proved otherwise for each of the three formats (C88_raw_partial, C88_pri_partial, C88_f86_partial).
* **C89** An image packed into an archive loads like the image. REFUTED: a KryoFlux stream loads its set, but alone out of an archive (C89_false_kryo); archives of several files may be taken for raw images (C89_false_several). Proved otherwise (C89_packed_partial), and what happens to nested archives (C89_nested) and to files of more than 100,000,000 bytes (C89_too_long). The libraries that unpack are parameters.
* **C90** A KryoFlux set is loaded from an archive as from its directory. REFUTED (C90_false_names): names are looked for in all directories of the archive, so a set may fail to load because of another one. Proved if all directories have the same names, and only in archives with over 5,000,000 bytes (C90_zipped_partial, C90_alone_partial); selections (C90_selection). The sort is any permutation.
* **C91** A single density track is loaded with all its sectors. REFUTED: the program panics if a data mark lies in the second half of the track (C91_false_half; exactly when is C91_loads_partial); no standard sector has a good address CRC (C91_false_crc), so that none is ever read (C91_false_read); deleted data marks end the scan (C91_false_deleted), and so do the data bytes FF FF FF FF C7 (C91_false_data). Proved: the marks that are reported (C91_marks), those of a standard track (C91_standard), the numbers of the ids (C91_ids).
* **C92** What is written to an FM stream is read back. REFUTED: the encoder encodes MFM (C92_false_encoding), several bytes are not read back (C92_false_several), single raw bytes panic or are rotated (C92_false_raw_byte). Proved: raw buffers (C92_raw), one byte at a clock cell (C92_byte_partial).
* **C95** MAME floppy images: no file makes the loader panic. REFUTED: any word with a type of 4 or more panics, in every build (C95_false_type). Proved: no other file does (C95_no_panic_partial), if the FM decoder copes.
* **C96** MAME floppy images: zones are kept. REFUTED: zones are ignored and the interval that contains one is cut short (C96_false_zone). Proved: only the flux times count (C96_only_flux_partial).
* **C98** IPF files: every track of the file is there, with the right data. REFUTED: the loader pairs the k-th IMGE chunk with the k-th DATA chunk, whatever their keys: a file whose DATA chunks come in another order loads with the data of the tracks exchanged (C98_false_order). Proved: with the DATA chunks in the order of the IMGE chunks — which themselves may come in any order — exactly the tracks of the file are there (C98_tracks_partial).
* **C99** IPF files: the cells of a loaded track. REFUTED: with encoder 1 the gap behind a block is not skipped (C99_false_gap); each element is encoded as if it followed a clear bit, so that the clock rule fails behind a sync (C99_false_clock: two set cells in a row). Proved: all cells otherwise, for both encoders (C99_cells_partial); the contents of gaps is a fixed pattern, not what the file tells.
* **C100** IPF files: the sectors of an Amiga disk can be read. REFUTED: no sector of an Amiga track loaded from an IPF file can be read, although the loader lists their ids: the track keeps the System 34 schema with which the empty track was made (C100_false_amiga, C100_false_example). Proved: a track without Amiga syncs is that of the System 34 scan (C100_other_partial).
* **C101** IPF files: damage is reported. REFUTED: reading ends silently at a damaged chunk: with one damaged byte a file of two tracks loads without error and without tracks (C101_false_silent); the CRC of the extra data is never checked (C101_false_extra). Proved: a file without CAPS or INFO chunk is refused (C101_refused_partial).
* **C102** IPF files: no file makes the loader panic. REFUTED: a file with fewer DATA than IMGE chunks panics by an index out of range (C102_false_missing). Proved: with memory without limit no file panics but those with too few DATA chunks or a track of zero cells (C102_no_panic_partial).
* **C103** MOOF and WOZ images: damage is noticed. REFUTED for bytes 4 to 7 of the header: they are never looked at (C103_false_check), so that a file damaged as a text may load. Proved: what is accepted has magic number and CRC (C103_accepts); damage to the magic number, the CRC or the rest is noticed (C103_damage_partial). A CRC of 0, which by the format means that there is none, is not honoured.
* **C104** MOOF images: each place has the track that the map gives it. REFUTED for maps with gaps: without a FLUX chunk a place without a track gets no track, and all later cylinders of that side move up (C104_false_hole, general; C104_gaps_partial tells what is loaded). Proved: files without gaps or with a FLUX chunk (C104_tracks_partial).
* **C105** WOZ images: each place has the track that the map gives it. REFUTED for 3.5 inch disks with gaps, as C104 (C105_false_hole). Proved: 5.25 inch disks of any map, 3.5 inch disks without gaps or with a FLUX chunk (C105_tracks_partial).
* **C106** MOOF and WOZ images: flux tracks. REFUTED for times that are multiples of 255 ticks: such a flux is lost and its time added to the next (C106_false_multiple). Proved: all other times (C106_times_partial), and the cells of MFM captures (C106_cells_partial).
* **C107** MOOF and WOZ images: no file makes the loader panic. REFUTED: a flux track of zero blocks panics (C107_false_blocks). Proved: all other files, for an FM codec that does not fail (C107_no_panic_partial).
* **C108** MOOF and WOZ images: sectors can be read and written. REFUTED for GCR, that is for every WOZ and for MOOFs of GCR disks: no sector can be read (C108_false_gcr). Proved: MOOFs of MFM disks (C108_sectors_partial), which exist for every image of 80 cylinders and two sides (C108_describable).
* **C109** An image knows which capabilities a file format needs to hold it. REFUTED four ways: sizes that differ between tracks but not on a track are not noticed, since the finding is overwritten (C109_false_sizes); sectors without data on tracks that are lists of sectors are not noticed (C109_false_missing); weak bits never are (C109_false_weak); writing a sector as deleted leaves the old finding (C109_false_stale); and a track of 256 sectors panics if overflow is checked (C109_false_many). Proved: what each flag says after loading or formatting, exactly, for every disk (C109_caps_partial, C109_findings, C109_after_load, C109_after_format), the common sector size (C109_size), and success otherwise (C109_total_partial).
* **C111** An image can be saved in the formats it is offered for saving. REFUTED: the raw format is offered for images without a standard format, which it then cannot save (C111_false_raw), and for images with more cylinders than the format, the rest of which it silently drops (C111_false_lost, C111_false_cylinders); 86F is offered for one-sided images, which it cannot save (C111_false_f86). Proved: PRI, except for long comments (C111_pri_partial); raw for images loaded from raw (C111_raw_partial); refusal by the others (C111_refused).
* **C113** ImageWriter: all or nothing. REFUTED if both a writer and a path are given: the path is ignored (C113_false_both). Proved otherwise (C113_write_partial), for every file system in which a successful std::fs::write stores the bytes and touches no other file.
* **C114** What is at a position of a track. REFUTED at ends: an element is taken to contain the bit behind it, so the first bit of the data of every sector is said to be in the mark before it (C114_false_end); item_at gives the last of those that start last, so the header instead of the mark inside it (C114_false_innermost). Proved: exactly what both give, for every catalogue in order — the binary search may answer anything — (C114_hit_partial, C114_item_partial), that every catalogue the library makes is in order (C114_ordered), and the index of a sector (C114_sector_index).
* **C116** Copy protections. REFUTED for CopyLock 2 on tracks of cells or flux: a damaged address hides the damaged data from the scan, so version 2 is never reported (C116_false_v2). Proved: exactly as described on lists of sectors (C116_sectors) and on well-formed tracks of cells or flux (C116_cells); never without the sign on any catalogue the library makes (C116_sound_partial); the disk (C116_disk).
* **C117** The sector map. REFUTED: a geometry of more than two heads, which several file formats can state, panics (C117_false_heads); tracks on heads the geometry does not count are missing, so an image built track by track has an empty map (C117_false_unlisted). Proved otherwise, for every disk (C117_map_partial, C117_rows). Sectors without data are not listed (C118_list). Not modelled: the text of dump_sector_map, which prints the attribute no_dam under the name deleted.
* **C118** Sector counts and ids of a track agree. REFUTED: on tracks of cells a full id is ignored instead of the number (C118_false_full, C118_false_there); TrackMetadata::sector_ct leaves out deleted sectors and wraps at 256 (C118_false_deleted). Proved: the sector list has exactly the headers with data, the count all headers, on every catalogue the library makes (C118_list); has_sector_id otherwise (C118_has_partial).
* **C119** Raw reads of tracks. REFUTED for reads past the end: the argument is ignored (C119_false_overdump). Proved otherwise, for every disk (C119_raw_partial).
* **C120** Whether there are weak bits. REFUTED for tracks of cells: every one is said to have weak bits, as a count is negated bit by bit instead of logically (C120_false_always). Proved for lists of sectors, with the invariant of their masks (C120_sectors_partial), and for disks in terms of their tracks (C120_disk).
* **C121** The write counter tells of every change. REFUTED four ways: writing to tracks of cells is not counted (C121_false_cells), nor is formatting (C121_false_format), nor are new empty tracks, and a reset takes the counter back (C121_false_reset); a write that changes nothing as the sector has no data is counted (C121_false_refused). Proved: equal counters mean equal tracks over every history of track additions and writes to lists of sectors; without a reset the counter never falls; every track addition that succeeds is counted once (C121_partial); 1 after loading (C121_loaded).
* **C122** A hexadecimal dump can be read back. REFUTED for the characters from the blank to the apostrophe, shown as dots (C122_false_blank), and for rows of no bytes, which panic (C122_false_rows). Proved for everything else, the reader of the dump being a separate specification (C122_dump_partial, C122_shown).
* **C123** Dumps of sectors show the data of sectors. REFUTED for dump_sector_string: it shows mark and checksum with the data (C123_false_string). Proved for dump_sector_hex on every disk (C123_hex_partial), and for dump_sector_string on lists of sectors (C123_list).
* **C124** Rectangles have the geometry of rectangles. REFUTED for growing: the height becomes that times one more than the factor (C124_false_grow); proved for the corner and the width (C124_grow_partial) and everything else.
* **C127** Tracks are drawn as separate rings. REFUTED: with another outer radius than the whole, rings lie outside it (C127_false_outer); without a gap, rings overlap (C127_false_overlap); 160 tracks, pinned, get negative radii (C127_false_negative). Proved for the whole radius with a gap (C127_rings_partial), the errors (C127_errors), the pinned geometry (C127_pinned), the directions (C127_turning).
* **C129** Data and elements are drawn on the same rings. REFUTED with a limit on the tracks (C129_false_limit) and for disks with tracks that have no cells (C129_false_mixed). Proved otherwise (C129_layers_partial).
* **C130** Drawn elements lie where the elements are. REFUTED: turning against the clock, the default, what an element has behind the index is never drawn (C130_false_behind); with an index angle, what passes the end of the turn is not drawn (C130_false_index); of an element longer than 1030 bytes that ends where the track does, a whole quarter behind the index is drawn too (C130_false_long). Proved: every position before the index is drawn (C130_drawn), nothing else is (C130_only), with the clock also what is behind it (C130_behind_partial).
* **C131** A hit test finds what is drawn under the point. REFUTED: the cylinder is counted in widths without gaps, so at the middle of the ring of most cylinders (75 of 80 by default) another is answered (C131_false_cylinder), and with a limit on the tracks at every point of every ring but the first (C131_false_limit); against the clock at angle 0 the bit behind the last is answered (C131_false_index); the index angle is ignored (C131_false_angle); lists of sectors panic (C131_false_sectors). Proved: exactly where the cylinder is right (C131_cylinder_partial); given the cylinder, with the index at angle 0, bit, element, its places and a shape with the point (C131_element_partial); nothing outside (C131_outside).
* **C132** A selection draws the selected sector or track. REFUTED: sector 0 selects the first sector (C132_false_zero); whole tracks are not selected (C132_false_track); everything is put under the first track of the list (C132_false_place); cylinders beyond the disk and lists of sectors panic (C132_false_cylinder, C132_false_sectors). Proved: the sector counted from 1 is drawn, alone, over all its positions, and none for numbers beyond (C132_selected_partial); the index of a hit test, plus one, selects the same element (C132_hit).
* **C133** The asynchronous loader loads what the loader loads. REFUTED: in a set of streams in an archive, a damaged stream ends load with the tracks before it and load_async with an error (C133_false_damaged). Proved: what load_async loads load loads (C133_same_partial); without a set in an archive both do the same (C133_single); load_async loads a set exactly if all streams are there and load (C133_all), and never panics where load may (C133_no_panic).
* **C134** A data rate keeps its number. REFUTED: by rounding of f64 the number may come back one less (C134_false_one_less). Proved: never anything but the same or one less, for all numbers (C134_back_partial, with f64 rounding to nearest modelled); the class is kept for factors within 8 % (C134_class); densities (C134_density).
* **C135** Cell counts and clocks of a density agree. REFUTED: the base clock of standard density is not recognised (C135_false_standard); at 360 RPM for standard and extended density, and at 150 and 600 RPM for all, cells times clock is not a turn (C135_false_turn); the clock of double density at 360 RPM is adjusted twice (C135_false_twice). Proved: the rest (C135_cells, C135_clock_partial, C135_rate, C135_turn_partial).
* **C136** A rotation rate is read back from its index time. REFUTED: 150 and 600 RPM are never read from an index time (C136_false_rates); a zoned rate is that of cylinder 0 and is read as 360 RPM (C136_false_zoned); the documentation says milliseconds and the code takes seconds (C136_false_ms); deviations are displayed with two signs and 100 times too small (C136_false_text). Proved: 300 and 360 RPM with any factor in range come back, and every answer has the time asked (C136_time_partial, C136_range, C136_text).
* **C137** The element map of a track lists its elements. REFUTED: the map of an Amiga track is always empty (C137_false_amiga); the map of a track without schema has not even a root and panics when walked (C137_false_unformatted). Proved: System 34 tracks (C137_listed_partial).
* **C138** A track of an 86F file has the length the file states. REFUTED: a disk slower by 1.5 percent is taken as slower by 1 percent (C138_false_slow); the words read for faster disks do not hold the cells of a turn at 500 kbps, 300 RPM (C138_false_fast), and those for high density half of one at 1000 kbps (C138_false_rate). Proved: everywhere else, with f64 rounding, the whole cells of a turn plus the extra ones (C138_turn_partial, C138_nominal).
* **C139** A picture on a disk keeps what it is told to keep. REFUTED: only the place of a pixel is tested, not the bits written: they reach behind the data (C139_false_after, C139_false_gray) and into the mark before it (C139_false_before); short tracks panic (C139_false_short). Proved: nothing else changes, and how far the bits may reach (C139_near_partial); what a pixel writes (C139_pixel). The geometry of rings is a parameter: the theorems hold for any samples.
* **C140** Pixels are valid MFM, brighter ones denser. REFUTED: the default byte for white, documented as 0b1010_1010, is 0x66 with two ones side by side (C140_false_white); gen_ramp_64 is not a ramp (C140_false_gen). Proved: the patterns of the grayscale function (C140_gray_partial, C140_brighter), and validity of gen_ramp_64 (C140_gen_valid).
* **C141** A value of a source map can be read back from its text. REFUTED: 254 or 255 digits panic, or give no zeros where arithmetic is not checked (C141_false_wide); bad texts are not marked (C141_false_text). Proved: everything else (C141_reads_partial, C141_marked).
* **C142** The dump of the sector map tells all of the sector map. REFUTED: what is printed as deleted is the flag of missing data, which the sector map never sets: every line says deleted: false (C142_false_deleted). Proved: places, ids and checksums are told, and two different maps have different dumps (C142_dump_partial).
* **C143** An image lists the resolutions of its tracks. REFUTED: a track that could not be made is listed (C143_false_refused), a reset image lists what it listed before and refuses other tracks (C143_false_reset), an image of flux that was not resolved says it can be visualized (C143_false_flux). Proved: every track is listed after any history, and an image that cannot be visualized has nothing to draw (C143_listed_partial); exactly the tracks are listed when none was refused (C143_exact).
* **C144** A layout guessed from the size of an image has that size. REFUTED: no layout is told for the 160K and 180K disks, nor for any of one side with 40, 42 or 44 cylinders (C144_false_single, C144_found); the conversions refuse the sizes of all standard formats, and the layout they give never has the size of the image (C144_false_convert). Proved: each guess has exactly the size, the first is the nearest (C144_guessed_partial); exactly which usual layouts are found (C144_found).
* **C145** An image built from a directory has the files of the directory. REFUTED: files are read by their path in the directory, from the directory where the program runs: no image can be built from elsewhere (C145_false_place), or with data of other files (C145_false_other); the settings make no difference and archives are never read (C145_false_asked); what does not fit is an error (C145_false_fit). Proved: the tree (C145_tree); from the directory itself all directories and files are made, with their data (C145_made_partial, C145_here).
* **C146** A directory is listed with the paths of its files. REFUTED: the path of the directory is taken away as often as it is there: files of a directory of the same name are listed at wrong paths (C146_false_twice), and names that begin like the path lose their beginning (C146_false_cut). Proved: exact for all paths that do not start at the root, and for the others where the path does not come again (C146_listed_partial).
* **C147** The boot sector an image tells of is the one on it. REFUTED: writing the boot sector with the sector functions leaves the image telling of the old one, and the format guessed with trust in the boot sector stays the old one (C147_false_write); after DiskImage::format the image tells of none (C147_false_format). Proved: exact after loading, on every disk (C147_loaded), and after update_standard_boot_sector (C147_updated); nothing else ever changes it, emptying forgets it (C147_kept); right through all histories that do not write the sector (C147_others_partial).
* **C148** The raster picture shows the cell under each pixel. REFUTED: indexing a stream gives one cell of the pair of that number, so the picture shows half of the cells, each twice in a turn (C148_false_cell, C148_pair); against the clock it is turned by twice the index against the picture of elements (C148_false_index); with the clock and an index more than half a turn on, a wedge shows the bit at 0 only (C148_false_wedge). Proved: for an index at 0, or no more than half a turn on with the clock, the bit shown is the one of the position in that direction, as the stream counts (C148_position_partial); background (C148_outside), gaps (C148_gap), the rectangle and all around it (C148_rectangle). Rationals for f32; the resolution in bytes is not modelled.
* **C149** An image has the resolution its file format states. REFUTED: raw images of PC disks are loaded as bit streams though the format states lists of sectors (C149_false_raw); a MOOF or WOZ with flux tracks is loaded with those though the format states bit streams (C149_false_moof). Proved: exact for the twelve other formats whose loading is modelled onto disks (C149_stated_partial; PFI's images are modelled with flux tracks only), kept by what is done after parsing (C149_after_load); what raw images hold (C149_raw); MOOF and WOZ without a flux map (C149_no_flux).
* **C150** A 32-bit number read from a track is the number its four bytes stand for. REFUTED where the clock map marks neither the cell nor the next: the 32-bit reads then start one cell after the byte reads (C150_false_unsynchronised). Proved: equal to the bytes wherever the reader is in step with the clock (C150_number_partial), what is written is read as its number (C150_written), and the two byte orders read the same four bytes everywhere (C150_orders). The FM codec has these reads as `todo!()`: they always panic.
* **C151** A GCR track can be formatted, written and read, or the call fails. REFUTED: formatting a GCR track is reported as done and leaves a track without cells, whatever was on it and whatever was asked (C151_false_format); bytes written are dropped (C151_false_write, the number 0 is returned); a track is read as zeros (C151_false_zeros). Proved: what is refused (C151_refused, C151_outside), the cells are read as they are (C151_raw_partial), a single byte written is read and nothing else changes (C151_byte), and what the byte stream gives (C151_stream: every other cell).
* **C152** Formatting a single density track records it in single density. REFUTED: a formatted single density track holds the very cells of a double density one (C152_false_cells), already its first byte is not recorded in FM whatever the byte (C152_false_density), and a layout that does not fit panics instead of failing (C152_false_room). Proved: an empty fill pattern is refused (C152_refused_partial). Not stated in general: that no sector is found on any formatted FM track.

## Axioms of each theorem of MANIFEST.json

As printed by `#print axioms`:

* **no axioms** (15 theorems): `C12_empty_layout_panics`, `C12_false_contains`, `C12_false_high_offset`, `C15_false_sector_zero`, `C21_false_damaged_header`, `C29_empty_panics`, `C29_false_marker_at_zero`, `C31_false_amiga1760`, `C31_sizes`, `C35_false_fat_size_2880`, `C35_false_media_180`, `C48_false_mfm`, `C49_false_deleted_error`, `C66_false_flat`, `C145_false_asked`
* **propext** (21 theorems): `C28_cell_value`, `C31_false_param_list`, `C31_lookup_partial`, `C34_false_same_number`, `C35_bpb_geometry`, `C35_fat_size_partial`, `Lock.C40_false_write_panics`, `C50_false_big`, `C50_false_zeros`, `C51_false_skipped`, `C51_no_index`, `C54_too_large`, `C55_false_rle_panics`, `C66_false_dir`, `C112_sorted`, `C118_false_full`, `C134_double`, `C135_cells`, `C137_false_amiga`, `C141_false_text`, `C145_false_fit`
* **propext, Quot.sound** (159 theorems): `C01_encode_decode`, `C02_cell_rules`, `C03_no_sync_in_data`, `C10_bytewise`, `C10_incremental`, `C10_is_crc16_3740`, `C14_false_large_codes`, `C14_n_size_partial`, `C19_false_iter_infinite`, `C19_index`, `C19_read_bytes`, `C19_revolution`, `C19_sequential`, `C19_set_history`, `C19_set_wrap`, `C22_false_alternate_panics`, `C22_false_error_sticks`, `C22_false_no_dam`, `C23_added_track`, `C23_false_positions`, `C23_false_removal`, `C24_empty_track_ignores_request`, `C24_failed_add_locks`, `C25_decode_u32`, `C25_encode_u32_partial`, `C25_false_U32_pair`, `C25_false_U8_pair`, `C25_false_u32`, `C25_fm_u32`, `C25_mfm_u32`, `C26_element_decodes`, `C27_write_changes_nothing_partial`, `C28_disabled_deterministic`, `C28_read_depends_on_weak_cells`, `C30_weak_mask`, `C32_fits`, `C35_creator`, `C36_metasector`, `C37_bad_header_refused`, `C37_basic_read_checked`, `Lock.C40_false_after_client_panic`, `Lock.C40_false_read_panics`, `Lock.C42_step_uses_work`, `C44_closest_format`, `C46_false_large`, `C46_footer`, `C46_is_castagnoli`, `C46_round_trip`, `C47_false_comment`, `C47_refused`, `C48_false_alternate`, `C48_headerless_data`, `C48_not_psi`, `C49_false_empty`, `C49_false_many`, `C49_false_not_imd`, `C50_antisymmetric`, `C50_equal_iff`, `C50_ignores_case`, `C50_numbers`, `C52_false_empty`, `C52_false_extended`, `C52_false_one_sided`, `C52_name_ignored`, `C52_refused`, `C52_refused_sectors`, `C54_cases`, `C55_checksum`, `C55_false_detect`, `C55_false_fm`, `C55_false_pairs`, `C55_false_rle_pattern_panics`, `C60_false_erased`, `C60_other_fs_partial`, `C65_ext`, `C66_false_path`, `C66_partial`, `C75_best`, `C75_kept`, `C75_no_shift`, `C75_raw`, `C87_one_mark`, `Fm.C91_false_debug`, `Fm.C92_beyond`, `Fm.C92_false_encoding`, `Fm.C92_false_several`, `Fm.C92_marker`, `C109_after_format`, `C109_after_load`, `C109_false_many`, `C109_false_stale`, `C109_total_partial`, `C111_refused`, `C112_by_extension`, `C112_supported`, `C113_builder`, `C113_false_both`, `C113_write_partial`, `C114_hit_partial`, `C114_item_partial`, `C114_ordered`, `C114_ranges`, `C114_sector_index`, `C115_amiga`, `C115_false_missing`, `C115_unresolved`, `C116_disk`, `C117_false_heads`, `C117_false_unlisted`, `C117_map_partial`, `C117_rows`, `C118_false_deleted`, `C118_list`, `C119_false_overdump`, `C119_raw_partial`, `C120_disk`, `C120_false_always`, `C120_sectors_partial`, `C121_false_again`, `C121_false_format`, `C121_false_refused`, `C121_false_reset`, `C121_loaded`, `C122_false_blank`, `C122_false_rows`, `C122_shown`, `C123_list`, `C126_segments`, `C128_drawn`, `C137_false_unformatted`, `C140_brighter`, `C140_false_gen`, `C140_gen_valid`, `C140_gray_partial`, `C141_false_wide`, `C143_false_refused`, `C143_false_reset`, `C144_convert`, `C144_false_convert`, `C144_false_single`, `C145_false_other`, `C145_false_place`, `C145_here`, `C145_made_partial`, `C145_tree`, `C146_false_cut`, `C146_false_twice`, `C146_listed_partial`, `C148_pair`, `C149_after_load`, `C149_raw`, `C150_false_unsynchronised`, `C151_false_write`, `C151_false_zeros`, `C151_outside`, `C151_raw_partial`, `C151_refused`, `C151_stream`, `Fm.C152_refused_partial`
* **propext, Classical.choice, Quot.sound** (504 theorems): `C01_write_read`, `C04_debug_panic_at_origin`, `C04_find_marker`, `C05_false_large_cylinder`, `C05_format_discoverable`, `C06_fresh_read`, `C07_read_after_write`, `C08_track_is_map`, `C09_false_deleted_crc`, `C09_partial`, `C10_residue`, `C11_burst_detected`, `C11_odd_errors_detected`, `C12_contains_iff`, `C12_lba_chs_bijection_partial`, `C13_ch_iter`, `C13_chs_iter`, `C13_offset_sectors`, `C14_bytesToN_least`, `C14_bytesToN_pow`, `C14_false_holds`, `C14_round_trip`, `C15_raw_offset_partial`, `C16_blank_boot_sector_partial`, `C16_false_other_boot_sector`, `C16_round_trip_partial`, `C16_saved_sectors`, `C16_sectors`, `C17_false_seek_before_start`, `C17_false_seek_end`, `C17_false_stuck_at_end`, `C17_reads_like_file_partial`, `C18_false_crossing_write`, `C18_false_seek_after_write`, `C18_writes_like_file_partial`, `C20_contains_partial`, `C20_false_half_open`, `C21_search_partial`, `C21_wellformed`, `C22_false_missing_write`, `C22_read_after_write`, `C22_track_is_map`, `C22_track_is_map_partial`, `C23_all_listed_partial`, `C23_positions_partial`, `C23_tables_live_partial`, `C24_one_resolution`, `C24_rejected_unchanged`, `C25_decode_U32_pair`, `C25_decode_U8_pair`, `C25_decode_u32_buf`, `C25_decode_u8_buf`, `C25_encode_U32_pair_partial`, `C25_encode_U8_pair_partial`, `C26_false_label`, `C26_false_size_override`, `C26_track_reads_partial`, `C27_false_write_lost`, `C28_metasector_masks`, `C29_clock_map`, `C31_params`, `C32_format_standard`, `C33_rescan_stable`, `C34_formatted`, `C34_metasector_partial`, `C34_next_id_partial`, `C35_boot_sector_round_trip`, `C35_bpb_bytes`, `C36_read_all_sectors`, `C37_loaded_disk_is_map`, `Lock.C38_held_exclusive`, `Lock.C38_writer_excludes`, `Lock.C39_read_refusal_truthful`, `Lock.C39_write_refusal_truthful`, `Lock.C40_panic_cause_partial`, `Lock.C40_sequential_partial`, `Lock.C41_no_leak`, `Lock.C42_no_deadlock`, `C43_false_blank`, `C43_false_pc_lookalike`, `C43_loaded_disk_is_map_partial`, `C43_round_trip_partial`, `C44_after_format`, `C44_after_load`, `C45_eighty_partial`, `C45_empty_even_partial`, `C45_false_second_side`, `C45_forty_partial`, `C46_accepts_only_written`, `C46_burst_detected`, `C46_odd_errors_detected`, `C46_truncated`, `C47_false_empty`, `C47_false_head`, `C47_false_rates`, `C47_false_weak`, `C47_round_trip_partial`, `C47_sectors_survive`, `C47_truncated`, `C47_weak_shifted`, `C48_false_empty`, `C48_false_leak`, `C48_false_offset`, `C48_false_revisit`, `C48_false_weak`, `C48_ignored`, `C48_load_partial`, `C48_reads`, `C48_truncated`, `C49_false_truncated`, `C49_load_partial`, `C49_reads`, `C49_refuses`, `C49_truncated`, `C50_transitive_partial`, `C51_cut_transition`, `C51_false_overflow`, `C51_false_position`, `C51_invalid`, `C51_load_partial`, `C51_track_data`, `C51_truncated`, `C52_doubled`, `C52_false_large`, `C52_false_pc_one_sided`, `C52_false_rate`, `C52_round_trip_partial`, `C52_sectors_survive`, `C52_truncated`, `C52_weak_odd`, `C53_encode_total`, `C53_expand_any`, `C53_expressible`, `C53_injective`, `C53_prefix_free`, `C53_round_trip`, `C53_round_trip_exact`, `C54_compress_any`, `C54_expand_bad_partial`, `C54_expand_ok`, `C54_false_no_panic`, `C54_injective`, `C54_round_trip`, `C55_bad_sector`, `C55_expressible`, `C55_false_comment`, `C55_false_dropped`, `C55_false_lzw_panics`, `C55_false_pair_refused`, `C55_false_panics`, `C55_false_truncated`, `C55_header_changed`, `C55_load_lzhuf_partial`, `C55_load_lzw_own_partial`, `C55_load_lzw_partial`, `C55_load_partial`, `C55_not_expandable`, `C55_reads`, `C55_truncated`, `C56_accepts`, `C56_describable`, `C56_false_empty`, `C56_false_encoding`, `C56_false_order`, `C56_false_rate`, `C56_false_tail`, `C56_found`, `C56_info`, `C56_load_partial`, `C56_prefix`, `C56_sectors`, `C57_accepts`, `C57_by_order`, `C57_describable`, `C57_false_cylinder`, `C57_false_order`, `C57_false_rate`, `C57_false_short`, `C57_info`, `C57_load_partial`, `C57_sectors`, `C58_accepts`, `C58_describable`, `C58_false_odd`, `C58_false_rate`, `C58_false_size`, `C58_false_trace`, `C58_found`, `C58_info`, `C58_load_partial`, `C58_sectors`, `C59_build`, `C59_build_blank`, `C59_default_boot`, `C59_format`, `C59_signature`, `C60_false_flux`, `C61_false_geometry`, `C61_saves_partial`, `C62_update_boot`, `C63_date`, `C63_order`, `C63_refused`, `C63_text`, `C64_cursor_safe`, `C64_history`, `C64_once`, `C65_archive`, `C65_files`, `C65_names`, `C65_node`, `C65_path_archive`, `C65_paths`, `C67_exact`, `C67_speed`, `C67_tolerant`, `C68_fm_marks_are_there`, `C68_marks_are_found`, `C68_marks_are_there`, `C69_account`, `C69_account_fm`, `C69_always_ends`, `C69_average`, `C69_class_bits`, `C69_classes`, `C69_classify`, `C69_density`, `C69_extremes`, `C69_no_classes`, `C70_after_set_partial`, `C70_false_history`, `C70_limits_partial`, `C71_false_zeros`, `C71_ones_partial`, `C71_what_fm_reads_partial`, `C72_false_glitch`, `C72_marks_once_partial`, `C73_double_density`, `C73_high_density`, `C73_hint`, `C73_hinted`, `C73_measured`, `C73_no_hints`, `C74_false_no_hint`, `C74_with_hint_partial`, `C75_clean`, `C75_shift`, `C76_cells`, `C76_measured`, `C77_accepts`, `C77_rate`, `C77_tracks`, `C78_all_partial`, `C78_false_gap`, `C79_false_overflow`, `C79_flux_as_is`, `C79_flux_partial`, `C80_cells`, `C81_false_fm`, `C81_false_offset`, `C81_false_time`, `C81_false_tracks`, `C81_no_panic_partial`, `C82_false_index_clock`, `C82_false_long`, `C82_false_overflow`, `C82_flux_partial`, `C82_revolutions_partial`, `C82_times`, `C83_cells`, `C83_later`, `C84_exist_partial`, `C84_expand`, `C84_false_case`, `C85_false_drop`, `C85_false_gap`, `C85_files`, `C85_set_partial`, `C86_false_fm`, `C86_false_no_index`, `C86_no_panic_partial`, `C87_accepted`, `C87_false_size`, `C87_false_text`, `C87_told_apart_partial`, `C88_f86_partial`, `C88_false_archive`, `C88_false_size`, `C88_pri_partial`, `C88_raw_partial`, `C89_false_kryo`, `C89_false_several`, `C89_nested`, `C89_packed_partial`, `C89_too_long`, `C90_alone_partial`, `C90_false_names`, `C90_selection`, `C90_zipped_partial`, `Fm.C91_false_crc`, `Fm.C91_false_data`, `Fm.C91_false_deleted`, `Fm.C91_false_half`, `Fm.C91_false_read`, `Fm.C91_ids`, `Fm.C91_loads_partial`, `Fm.C91_marks`, `Fm.C91_no_marks`, `Fm.C91_standard`, `Fm.C92_byte_partial`, `Fm.C92_cut`, `Fm.C92_false_raw_byte`, `Fm.C92_raw`, `Fm.C92_raw_byte_end`, `C93_accepts`, `C93_tracks`, `C93_unformatted`, `C94_cells`, `C94_density`, `C95_false_type`, `C95_no_panic_partial`, `C96_false_zone`, `C96_only_flux_partial`, `C97_accepts`, `C97_damage`, `C97_is_crc32`, `C98_false_order`, `C98_tracks_partial`, `C99_cells_partial`, `C99_false_clock`, `C99_false_gap`, `C100_false_amiga`, `C100_false_example`, `C100_other_partial`, `C101_false_extra`, `C101_false_silent`, `C101_refused_partial`, `C102_false_missing`, `C102_no_panic_partial`, `C103_accepts`, `C103_damage_partial`, `C103_false_check`, `C104_false_hole`, `C104_gaps_partial`, `C104_tracks_partial`, `C105_false_hole`, `C105_tracks_partial`, `C106_cells_partial`, `C106_false_multiple`, `C106_times_partial`, `C107_false_blocks`, `C107_no_panic_partial`, `C108_describable`, `C108_false_gcr`, `C108_sectors_partial`, `C109_caps_partial`, `C109_false_missing`, `C109_false_sizes`, `C109_false_weak`, `C109_findings`, `C109_size`, `C110_false_weak`, `C110_listed`, `C110_which`, `C110_writable`, `C111_false_cylinders`, `C111_false_f86`, `C111_false_lost`, `C111_false_raw`, `C111_pri_partial`, `C111_raw_partial`, `C114_false_end`, `C114_false_innermost`, `C115_scan`, `C116_cells`, `C116_false_v2`, `C116_sectors`, `C116_sound_partial`, `C118_false_there`, `C118_has_partial`, `C121_false_cells`, `C121_partial`, `C121_writes`, `C122_dump_partial`, `C123_false_string`, `C123_hex_partial`, `C124_bounding`, `C124_center`, `C124_contains`, `C124_false_grow`, `C124_grow_partial`, `C124_intersection`, `C124_normalize`, `C125_lists`, `C127_errors`, `C127_false_negative`, `C127_false_outer`, `C127_false_overlap`, `C127_pinned`, `C127_rings_partial`, `C127_turning`, `C128_defined`, `C128_false_density`, `C128_slices`, `C129_false_limit`, `C129_false_mixed`, `C129_layers_partial`, `C130_behind_partial`, `C130_drawn`, `C130_false_behind`, `C130_false_index`, `C130_false_long`, `C130_only`, `C131_cylinder_partial`, `C131_element_partial`, `C131_false_angle`, `C131_false_cylinder`, `C131_false_index`, `C131_false_limit`, `C131_false_sectors`, `C131_outside`, `C132_false_cylinder`, `C132_false_place`, `C132_false_sectors`, `C132_false_track`, `C132_false_zero`, `C132_hit`, `C132_limit`, `C132_selected_partial`, `C133_all`, `C133_false_damaged`, `C133_no_panic`, `C133_same_partial`, `C133_single`, `C134_back_partial`, `C134_class`, `C134_density`, `C134_false_one_less`, `C134_ranges`, `C135_clock_partial`, `C135_false_standard`, `C135_false_turn`, `C135_false_twice`, `C135_rate`, `C135_turn_partial`, `C136_false_ms`, `C136_false_rates`, `C136_false_text`, `C136_false_zoned`, `C136_none`, `C136_range`, `C136_text`, `C136_time_partial`, `C137_listed_partial`, `C138_false_fast`, `C138_false_rate`, `C138_false_slow`, `C138_nominal`, `C138_turn_partial`, `C139_false_after`, `C139_false_before`, `C139_false_gray`, `C139_false_short`, `C139_near_partial`, `C139_pixel`, `C139_resolution`, `C140_false_white`, `C141_marked`, `C141_reads_partial`, `C142_dump_partial`, `C142_false_deleted`, `C143_exact`, `C143_false_flux`, `C143_listed_partial`, `C144_found`, `C144_guessed_partial`, `C145_listed`, `C146_flat`, `C146_unlisted`, `C147_false_format`, `C147_false_write`, `C147_kept`, `C147_loaded`, `C147_others_partial`, `C147_updated`, `C148_false_cell`, `C148_false_index`, `C148_false_wedge`, `C148_gap`, `C148_outside`, `C148_position_partial`, `C148_rectangle`, `C149_false_moof`, `C149_false_raw`, `C149_no_flux`, `C149_stated_partial`, `C150_number_partial`, `C150_orders`, `C150_written`, `C151_byte`, `C151_false_format`, `Fm.C152_false_cells`, `Fm.C152_false_density`, `Fm.C152_false_room`
