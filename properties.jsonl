{"id": "C01", "title": "MFM encode/decode round trip", "statement": "Encoding any byte string as MFM data (either value of the preceding bit) and reading it back through the decoded-byte reader at a clock-aligned position of a track with no weak bits returns exactly the original bytes.", "quantifier": "every byte string of every length, every preceding-bit value, every random source", "why_tests_cant": "256^n byte strings; the unit tests decode a handful of images", "anchors": ["src/bitstream_codec/mfm.rs: MfmCodec::encode, read_decoded_u8, read_decoded_buf"]}
{"id": "C02", "title": "MFM output obeys the cell rules", "statement": "The MFM encoding of any byte string has exactly 16 cells per byte, never contains two adjacent 1 cells, and never contains four consecutive 0 cells.", "quantifier": "every byte string", "why_tests_cant": "universal over unbounded strings and all byte boundaries", "anchors": ["src/bitstream_codec/mfm.rs: MfmCodec::encode"]}
{"id": "C03", "title": "Sync patterns are unambiguous", "statement": "Ordinary MFM-encoded data never contains the A1 sync word 0x4489 nor the triple C2 sync mark 0x5224_5224 at any bit phase (aligned or not), so no sector contents can imitate an address mark.", "quantifier": "every byte string, every bit offset", "why_tests_cant": "needs all byte strings and all 16 phases; a counterexample would be one unlucky data pattern", "anchors": ["src/bitstream_codec/mfm.rs: encode, find_marker", "src/track_schema/system34.rs: ANY_MARKER, IAM_MARKER"]}
{"id": "C04", "title": "Marker search returns the first match and misses none", "statement": "find_marker returns the smallest position at or after the start at which the 64-bit window lies inside the search limit and equals the pattern under its mask, together with the last 16 bits of that window; it returns None only if there is no such position.", "quantifier": "every bitstream, pattern, mask, start and limit", "why_tests_cant": "unbounded streams", "anchors": ["src/bitstream_codec/mfm.rs: MfmCodec::find_marker"]}
{"id": "C05", "title": "Formatting a track makes exactly the requested sectors discoverable", "statement": "After format() of an MFM track with any IBM/ISO/perpendicular standard, any list of sector ids and sizes, any non-empty fill pattern and any gap3 such that the layout fits the track, a scan of the bitstream yields exactly one IDAM and one DAM per requested sector, in order, at the layout positions (plus the IAM for the IBM standards), with the requested ids, valid header CRCs and valid data CRCs.", "quantifier": "every standard, sector list, fill pattern, gap3 and track length that fits; every prior content of the track and clock map", "why_tests_cant": "the space of sector lists and fill patterns is unbounded and false sync matches depend on data", "anchors": ["src/track_schema/system34.rs: format_track_as_bytes, set_track_markers, scan_markers, scan_metadata, create_clock_map", "src/track/bitstream.rs: BitStreamTrack::format"]}
{"id": "C06", "title": "A freshly formatted sector reads back the fill pattern", "statement": "After format() as in C05 with distinct sector ids, read_sector of each requested id (data scope) returns exactly the n_size bytes of the cyclic fill pattern that continue where the previous sector stopped, with no address, data, deleted or missing-DAM flag.", "quantifier": "every standard, list of distinct ids, fill pattern, gap3, track length that fits, and random source", "why_tests_cant": "unbounded inputs", "anchors": ["src/track/bitstream.rs: format, read_sector", "src/track_schema/system34.rs: find_sector_element, decode_element"]}
{"id": "C07", "title": "Read after write", "statement": "write_sector with a buffer of the sector's size followed by read_sector of the same id returns exactly the written bytes with a valid data CRC (normal data mark).", "quantifier": "every formatted track, every sector on it, every buffer", "why_tests_cant": "unbounded inputs", "anchors": ["src/track/bitstream.rs: write_sector, read_sector", "src/track_schema/system34.rs: encode_element"]}
{"id": "C08", "title": "Writes do not disturb other sectors", "statement": "Under any sequence of sector writes to a formatted track, every read returns the value last written to that sector, or the formatted value if none was: the track behaves as a map from sector id to bytes.", "quantifier": "every formatted track and every finite history of writes and reads", "why_tests_cant": "needs all histories", "anchors": ["src/track/bitstream.rs: write_sector, read_sector", "src/bitstream_codec/mfm.rs: write_encoded_buf"]}
{"id": "C09", "title": "Deleted sectors keep a valid CRC when rewritten", "statement": "After a successful write to a sector recorded under a deleted data mark, re-reading that sector reports a valid data CRC.", "quantifier": "every deleted-mark sector and every buffer", "why_tests_cant": "universal over contents", "anchors": ["src/track_schema/system34.rs: encode_element"]}
{"id": "C10", "title": "CRC is incremental", "statement": "crc(a ++ b) equals crc(b) seeded with crc(a), the byte-at-a-time routine folds to the same value, and the CRC of data followed by its own big-endian CRC is zero.", "quantifier": "all byte strings and all seeds", "why_tests_cant": "unbounded strings", "anchors": ["src/util.rs: crc_ibm_3740, crc_ibm_3740_byte"]}
{"id": "C11", "title": "Every short burst error in a sector is detected", "statement": "If two sector bodies of equal length, each followed by its CRC, differ only within a window of at most 16 consecutive bits, then their CRC check results differ: a valid sector corrupted by a burst of at most 16 bits is always reported as a CRC error.", "quantifier": "all sector lengths, contents, burst positions and burst shapes", "why_tests_cant": "2^(8n) contents and all bursts", "anchors": ["src/util.rs: crc_ibm_3740"]}
{"id": "C12", "title": "LBA and CHS addresses are inverse bijections", "statement": "For a non-empty layout, converting an LBA below the sector count to CHS succeeds with an address the layout contains, converting back gives the same LBA, every address in the layout is reached exactly once, and LBAs at or above the sector count give None.", "quantifier": "every layout with c,h,s >= 1 and every LBA", "why_tests_cant": "all geometries and all addresses", "anchors": ["src/types/chs.rs: DiskChs::to_lba, from_lba", "src/types/sector_layout.rs: SectorLayout::contains"]}
{"id": "C13", "title": "CHS iteration visits every sector exactly once in LBA order", "statement": "The sector iterator of a layout yields exactly the total number of sectors, the k-th address yielded has LBA k, and the iterator then ends; the track iterator likewise yields each track once in order.", "quantifier": "every layout with at least one sector and sector numbers that fit a byte", "why_tests_cant": "all geometries", "anchors": ["src/types/chs.rs: DiskChsIterator, DiskChsnIterator, DiskChIterator, next_sector, next_track"]}
{"id": "C14", "title": "Sector size code round trip", "statement": "Converting a size code to bytes and back is the identity for the legal codes 0..6; the byte size is 128*2^n capped at 8192 for every code; a size converts to the smallest code that holds it.", "quantifier": "every size code (0..255) and every size", "why_tests_cant": "all codes and sizes including large out-of-range codes", "anchors": ["src/types/chs.rs: n_size, n_to_bytes, bytes_to_n"]}
{"id": "C15", "title": "Raw offsets and CHS agree", "statement": "For a layout, every byte offset below the disk size converts to a sector address plus an in-sector offset that converts back to the original offset; addresses outside the layout have no raw offset.", "quantifier": "every layout and offset", "why_tests_cant": "all geometries and offsets", "anchors": ["src/types/chs.rs: from_raw_offset, to_raw_offset"]}
{"id": "C16", "title": "Raw image load/save is the identity", "statement": "Loading a raw sector image of any supported PC standard format as a bitstream disk and saving it again produces the same bytes.", "quantifier": "every PC standard format and every file content of that format's size", "why_tests_cant": "2^(8*1474560) contents", "anchors": ["src/file_parsers/raw.rs: load_as_bitstream, save_image", "src/track/bitstream.rs"]}
{"id": "C17", "title": "The sector view reads like a flat file", "statement": "Through the standard sector view, any sequence of seeks and reads returns the same bytes as the same sequence on the flat concatenation of the disk's sectors in LBA order.", "quantifier": "every disk, every history of seek and read calls with any buffer sizes", "why_tests_cant": "all histories", "anchors": ["src/sector_view.rs: StandardSectorView read, seek, next_sector, seek_to_offset"]}
{"id": "C18", "title": "The sector view writes like a flat file", "statement": "Through the standard sector view, writing bytes at an offset and then flushing changes exactly those bytes of the flat concatenation of the sectors.", "quantifier": "every disk, offset and buffer", "why_tests_cant": "all histories; boundary-crossing writes are the interesting case", "anchors": ["src/sector_view.rs: write, commit_sector, next_sector, seek_to_offset"]}
{"id": "C19", "title": "The track ring is a ring", "statement": "Indexing a bit ring past its wrap point gives the bit at the index modulo the wrap length (or the configured wrap value), set then index at the same position returns the stored bit and changes no other position modulo the wrap, and sequential reading continues from the start after the last bit.", "quantifier": "every ring, wrap length, index and history of sets", "why_tests_cant": "all indices", "anchors": ["src/bit_ring/mod.rs: BitRing::set, index, set_wrap, Read"]}
{"id": "C20", "title": "Range checker decides half-open membership", "statement": "contains(v) is true exactly when v lies in one of the half-open ranges start..end given at construction.", "quantifier": "every list of ranges and every value", "why_tests_cant": "all lists including overlaps and ties", "anchors": ["src/range_check.rs: RangeChecker"]}
{"id": "C21", "title": "Sector search returns a sector that matches the query", "statement": "When a sector search with a query succeeds, the sector returned agrees with the query on sector number and on every other field the query fixes; when the track holds a readable matching sector the search does not report not-found.", "quantifier": "every element list and every query", "why_tests_cant": "all tracks", "anchors": ["src/track_schema/system34.rs: find_sector_element", "src/types/chs.rs: DiskChsnQuery::matches"]}
{"id": "C22", "title": "Metasector tracks behave as a map", "statement": "On a metasector track with distinct ids and no weak data, any history of successful writes and reads returns, for each sector, the value last written to it; a write to a missing id or with the wrong length changes nothing.", "quantifier": "every track and history", "why_tests_cant": "all histories", "anchors": ["src/track/metasector.rs: write_sector, read_sector, add_sector"]}
{"id": "C23", "title": "The track map stays consistent", "statement": "Under any sequence of track additions, every entry of the two head tables points to a live track of the pool whose recorded cylinder and head are its position in the table, no track is referenced twice, and every track is referenced.", "quantifier": "every history of track additions and removals", "why_tests_cant": "all histories", "anchors": ["src/diskimage.rs: add_track_bitstream, add_track_metasector, add_empty_track, remove_track"]}
{"id": "C24", "title": "Single-resolution discipline", "statement": "Unless multi-resolution tracks were enabled, all tracks ever added to one disk image have the same data resolution, and an attempt to add a different one is rejected without changing the disk.", "quantifier": "every history of track additions", "why_tests_cant": "all histories", "anchors": ["src/diskimage.rs: add_track_*"]}
{"id": "C25", "title": "Odd/even codec round trip", "statement": "Encoding any value with the Amiga odd/even encoder and decoding it gives the value back; decoding then encoding likewise.", "quantifier": "every 32-bit value and byte pair, every buffer", "why_tests_cant": "2^32 values and unbounded buffers", "anchors": ["src/track_schema/meta_encoding/odd_even.rs"]}
{"id": "C26", "title": "Amiga sectors decode to their contents", "statement": "If the bitstream at a sector data element holds the Amiga encoding (odd bits block, then even bits block, with the XOR checksum) of 512 bytes, then reading the element returns exactly those bytes and a valid checksum, whatever the clock bits.", "quantifier": "every 512-byte sector content, every clock-bit content", "why_tests_cant": "2^4096 contents", "anchors": ["src/track_schema/amiga.rs: decode_element, checksum_u32"]}
{"id": "C27", "title": "Writing an Amiga sector stores the data", "statement": "A sector write on an Amiga track that reports success makes subsequent reads return the written bytes.", "quantifier": "every Amiga track, sector and buffer", "why_tests_cant": "universal", "anchors": ["src/track_schema/amiga.rs: encode_element", "src/track/bitstream.rs: write_sector"]}
{"id": "C28", "title": "Weak bits are the only nondeterminism", "statement": "A decoded read depends on the random source only at positions whose weak-mask bit is set (and only while weak bits are enabled); reads of sectors with no weak bit are reproducible.", "quantifier": "every bitstream, weak mask, position and pair of random sources", "why_tests_cant": "all random streams", "anchors": ["src/bitstream_codec/mfm.rs: read_decoded_u8"]}
{"id": "C29", "title": "The clock map is aligned at every marker", "statement": "After the clock map is rebuilt from an ascending list of markers, the cell at each marker start is a clock cell, clock and data cells alternate from it up to the next marker, and no position before a marker can be mistaken for its first clock cell.", "quantifier": "every ascending marker list and every prior clock map", "why_tests_cant": "all lists", "anchors": ["src/track_schema/system34.rs: create_clock_map"]}
{"id": "C30", "title": "Weak-bit mask marks exactly the long zero runs", "statement": "The weak mask derived from a bitstream has the bitstream's length and is set exactly at cells that are at least the (run+1)-th zero of a run of zeros.", "quantifier": "every bitstream and run length", "why_tests_cant": "unbounded streams", "anchors": ["src/bitstream_codec/mfm.rs: create_weak_bit_mask"]}
{"id": "C31", "title": "Format detection by size is unambiguous", "statement": "Each standard format's layout has a total size equal to its declared disk size, distinct formats have distinct sizes, and looking a format up by the size or geometry of a standard format returns that format.", "quantifier": "every standard format", "why_tests_cant": "finite, but relates several tables that drift apart", "anchors": ["src/types/standard_format.rs"]}
{"id": "C32", "title": "Every standard format fits its track", "statement": "For each standard PC format the formatted layout (gaps, marks, sectors) of every track is not longer than the track's bitcell count, so formatting never truncates.", "quantifier": "every PC standard format, every track id list the library generates", "why_tests_cant": "relates gap, sector and bitcell tables", "anchors": ["src/types/standard_format.rs", "src/track_schema/system34.rs: format_track_as_bytes"]}
{"id": "C33", "title": "Rescan after writes finds the same sectors", "statement": "After any history of sector writes on a freshly formatted track, rescanning the bitstream from scratch finds the same marks at the same positions: written data cannot create or destroy address marks.", "quantifier": "every formatted track and write history", "why_tests_cant": "boundary clock bits depend on adjacent data", "anchors": ["src/bitstream_codec/mfm.rs: write_encoded_buf", "src/track_schema/system34.rs: scan_markers"]}
{"id": "C34", "title": "Next-sector-id follows the track ring", "statement": "next_id of a sector on a track returns the id of the following sector in track order, wrapping from the last to the first, so iterating it visits every distinct sector once per revolution.", "quantifier": "every track with distinct sector ids", "why_tests_cant": "all sector lists", "anchors": ["src/track/bitstream.rs: next_id", "src/track/metasector.rs: next_id"]}
{"id": "C35", "title": "Boot sector parameters match the format", "statement": "Patching a boot sector for a standard format makes it read back as that format, changes only the 21 parameter-block bytes, and records a geometry equal to the format's geometry with a file allocation table large enough for its clusters; setting the creator string changes only its 8 bytes.", "quantifier": "every boot sector and every standard PC format", "why_tests_cant": "all 512-byte sectors and all formats", "anchors": ["src/boot_sector/bpb.rs: BiosParameterBlock2, BiosParameterBlock3", "src/boot_sector/bootsector.rs: BootSector::update_bpb_from_format, set_creator"]}
{"id": "C36", "title": "Reading a whole track returns its sectors in order", "statement": "On a track whose sectors all have the requested size, the read-track operation returns the concatenation of the current contents of the sectors in track order, up to and including the first sector with the end-of-track number (bitstream) or the first N sectors (metasector), counts them, raises no error flag on an intact track and reports not-found exactly when the track has no sector.", "quantifier": "every formatted track, write history, size code and end-of-track number", "why_tests_cant": "all sector lists, contents and histories", "anchors": ["src/track/bitstream.rs: read_all_sectors, next_sector", "src/track/metasector.rs: read_all_sectors"]}
{"id": "C37", "title": "A disk is a map from positions and sector ids to contents", "statement": "On a loaded disk, any history of basic sector reads and writes through the image (any cylinder, head, query and buffer) behaves as a map from (cylinder, head, sector id) to contents: a read returns the last bytes successfully written to that sector or else the image's bytes, a missing track or sector and a wrong-sized buffer are reported and change nothing, and no write affects any other sector.", "quantifier": "every PC standard format, every file content, every history of read_sector_basic and write_sector_basic calls", "why_tests_cant": "all histories over 2^(8*size) disks", "anchors": ["src/diskimage.rs: read_sector_basic, write_sector_basic", "src/file_parsers/raw.rs: load_as_bitstream", "src/track/bitstream.rs"]}
{"id": "C38", "title": "A write guard on the tracked disk lock excludes every other guard", "statement": "While any caller of the tracked disk lock has a write guard that is not released yet, no other caller has an unreleased read or write guard; readers may share.", "quantifier": "every schedule of read and write calls, drops and thread panics on any number of threads and contexts", "why_tests_cant": "interleavings of calls on several threads cannot be enumerated by tests", "anchors": ["crates/ff_egui_lib/src/tracking_lock.rs: TrackingLock::read, TrackingLock::write, Drop of the guards"]}
{"id": "C39", "title": "Lock refusals name the real holders", "statement": "When read is refused it names a context that holds the write lock at that moment; when write is refused it names a non-empty list of contexts which hold a guard, and every holder's context is named.", "quantifier": "every schedule", "why_tests_cant": "interleavings; depends on bookkeeping being exact after every history", "anchors": ["crates/ff_egui_lib/src/tracking_lock.rs: TrackingLock::read, TrackingLock::write", "src/disk_lock.rs: DiskLock (documentation of read and write)"]}
{"id": "C40", "title": "Asking for the disk lock answers, it does not panic", "statement": "Every call to read or write returns a guard or a refusal: it grants exactly when the lock is free for that mode, refuses otherwise, and never panics.", "quantifier": "every schedule", "why_tests_cant": "the failing window is between two instructions of another thread's guard drop", "anchors": ["crates/ff_egui_lib/src/tracking_lock.rs: TrackingLock::read, TrackingLock::write, Drop for TrackingReadGuard, Drop for TrackingWriteGuard"]}
{"id": "C41", "title": "Dropped guards leave no trace", "statement": "After any history in which every granted guard was dropped and nobody panicked, the lock is in its initial state, so the next read or write is granted.", "quantifier": "every schedule", "why_tests_cant": "all histories of overlapping calls and drops", "anchors": ["crates/ff_egui_lib/src/tracking_lock.rs"]}
{"id": "C42", "title": "The disk lock never deadlocks", "statement": "From every reachable state, as long as some call has not returned or some drop has not finished, some pending call can take a step, and every step uses up a bounded amount of work: no call waits forever.", "quantifier": "every schedule", "why_tests_cant": "liveness over all interleavings", "anchors": ["crates/ff_egui_lib/src/tracking_lock.rs"]}
{"id": "C43", "title": "Amiga sector images load and save unchanged", "statement": "Every 901,120-byte ADF file loads; sector s (0-10) of cylinder c, head h then reads as the file's bytes at that place, basic writes replace exactly those bytes, and saving an unmodified disk writes the same file.", "quantifier": "every file of 901,120 bytes, every history of reads and writes", "why_tests_cant": "all contents and all histories; the post-load heuristics depend on the contents", "anchors": ["src/file_parsers/raw.rs load_as_metasector, save_image", "src/diskimage.rs post_load_process"]}
{"id": "C44", "title": "A disk's own account of its format is right", "statement": "After loading or after formatting a track, the sectors-per-track figure is the common number of sectors of the tracks that have any (none if two differ); a format known from the file is kept, an unknown one is taken from the boot sector; the guessed closest format is the one named by boot sector or geometry, the boot sector winning a conflict exactly if the caller trusts it.", "quantifier": "every disk, every format call, every boot sector", "why_tests_cant": "all disks", "anchors": ["src/diskimage.rs analyze, post_load_process, closest_format, format_track"]}
{"id": "C45", "title": "Post-load normalisation drops no data", "statement": "Loading an image never makes a sector that its tracks contain unreadable: odd cylinders are dropped only if they are empty or repeat the even ones.", "quantifier": "every disk a parser can produce", "why_tests_cant": "all disks; the heuristic samples only the first side", "anchors": ["src/diskimage.rs normalize, detect_empty_odd_tracks, detect_duplicate_odd_tracks, remove_odd_tracks"]}
{"id": "C46", "title": "PCE chunks carry their data and detect damage", "statement": "A chunk written by the PRI/PSI/PFI writer is read back unchanged, whatever follows it; the reader accepts only byte sequences the writer could have produced; damage by a burst of up to 32 bits or by an odd number of flipped bits anywhere but in the size field, and truncation anywhere, is reported as an error.", "quantifier": "every chunk id, data of any length up to the limit, every damage of the described kinds", "why_tests_cant": "all data, all error patterns", "anchors": ["src/file_parsers/pce/pri.rs read_chunk, write_chunk, write_chunk_raw", "src/file_parsers/pce/crc.rs"]}
{"id": "C47", "title": "PRI images keep bitstream disks", "statement": "Saving a bitstream image as PRI and loading the file gives the same tracks at the same positions: same cells, same weak cells, same data rate, same comment; every sector readable before is readable afterwards with the same contents; a file cut short is refused.", "quantifier": "every bitstream image of valid size, every history of sector writes before saving and of reads and writes after loading, every cut", "why_tests_cant": "all track contents, all weak masks, all histories", "anchors": ["src/file_parsers/pce/pri.rs load_image, save_image", "src/track/bitstream.rs new_optional_ctx, write_weak_mask_u32"]}
{"id": "C48", "title": "PSI images load as the sectors they describe", "statement": "A PSI file whose chunks describe sectors (SECT, optionally IBMM, then DATA; or a compressed SECT) grouped by track loads as exactly those tracks with exactly those sectors in order: ids, contents, CRC-error, deleted and no-DAM flags; chunks of unknown type change nothing; a file cut anywhere, a file without PSI header and data without a sector header are refused with an error; no input makes the loader panic.", "quantifier": "all lists of tracks and sectors, all sector contents and flags, all interleavings with ignored chunks, all truncation points", "why_tests_cant": "Tests load a handful of sample images; the property covers every chunk sequence and every cut position.", "anchors": ["src/file_parsers/pce/psi.rs:load_image", "src/file_parsers/pce/psi.rs:read_chunk", "src/file_parsers/pce/psi.rs:SectorContext", "src/track/metasector.rs:add_sector"]}
{"id": "C49", "title": "IMD images load as the sectors they describe", "statement": "An IMD file loads as exactly the tracks it describes, each with exactly its sectors in order: ids (taken from the cylinder and head maps if present), contents (stored, or one byte repeated to the sector size), deleted-data and data-error flags for all record types; the geometry counts the tracks with sectors over the sides used; a file cut anywhere, a bad track header and an unknown record type are refused with an error; no input makes the loader panic.", "quantifier": "all header texts, all lists of tracks, maps and sector records, all truncation points, debug and release builds", "why_tests_cant": "Tests load a few sample images; the property covers every combination of maps, record types and sizes, and every cut position.", "anchors": ["src/file_parsers/imd.rs:load_image", "src/file_parsers/imd.rs:read_data", "src/file_parsers/imd.rs:ImdTrack", "src/util.rs:read_ascii"]}
{"id": "C50", "title": "Natural order of directory names is a total order by numbers", "statement": "natural_sort is a total preorder: swapping the names swaps the answer, equality means equal up to letter case, and the order is transitive, so that sorting with it is well defined (Rust's sort may panic otherwise); names that agree before a number are ordered by the value of that number.", "quantifier": "all pairs and triples of ASCII names", "why_tests_cant": "Tests sort two fixed lists; transitivity ranges over all triples of names.", "anchors": ["src/util.rs:natural_sort"]}
{"id": "C51", "title": "PFI images load as the flux revolutions they describe", "statement": "A PFI file loads as exactly its tracks at the addresses their headers give; each track has one revolution per pair of neighbouring index times, made of the transitions that start between them, with every encoding of a time giving that time; data without index times, invalid codes, transitions cut short and files cut anywhere are refused with an error; no input panics.", "quantifier": "all lists of tracks, index times and transitions in all encodings, all truncation points, debug and release builds", "why_tests_cant": "Tests load one or two sample files; the property covers every transition stream and index list.", "anchors": ["src/file_parsers/pce/pfi.rs:load_image", "src/file_parsers/pce/pfi.rs:read_track_data", "src/types/chs.rs:next_track_unchecked", "src/diskimage.rs:track_ch_iter"]}
{"id": "C52", "title": "86F images survive saving and loading", "statement": "Saving an image as 86F and loading the file gives back the image: every track at its address with its cells, weak cells, density, encoding, speed, data rate and write protection; its sectors read and write as before; a file cut anywhere is refused with an error.", "quantifier": "all images of MFM bitstream tracks, all cell contents and weak masks, all descriptors, all truncation points, all histories of sector reads and writes before and after, debug and release builds", "why_tests_cant": "Tests save and load one or two sample images; the property covers every image, mask and cut.", "anchors": ["src/file_parsers/f86.rs:load_image", "src/file_parsers/f86.rs:save_image", "src/file_parsers/f86.rs:f86_weak_to_weak", "src/diskimage.rs:add_track_bitstream", "src/diskimage.rs:has_weak_bits"]}
{"id": "C53", "title": "LZHUF expansion of TeleDisk data is total and exact", "statement": "The LZHUF expander used for compressed TeleDisk 2.x images accepts any data: it never fails, panics or loops. What it writes is exactly what the longest sequence of codes that starts the data stands for (bytes, and copies of 3 to 60 bytes from the last 4096, the history starting as zeros and spaces). Data made by coding any sequence of bytes and copies expands to exactly those bytes, followed by at most one spurious token per padding bit, and by nothing when there is no padding; different sequences have different codes.", "quantifier": "all byte strings, all token sequences of any length (including those long enough to rebuild the adaptive tree any number of times), output up to 4 GiB", "why_tests_cant": "The adaptive Huffman tree reaches a new state after every symbol and is rebuilt after 32768 of them; tests expand one or two sample files.", "anchors": ["src/file_parsers/compression/lzhuf/lzhuf.rs:expand", "src/file_parsers/compression/lzhuf/adaptive_huff.rs:AdaptiveHuffmanTree", "src/file_parsers/compression/lzhuf/adaptive_huff.rs:AdaptiveHuffmanDecoder", "src/file_parsers/compression/lzhuf/ring_buffer.rs:RingBuffer"]}
{"id": "C54", "title": "LZW expansion of TeleDisk data is exact, and never panics", "statement": "The LZW expander used for compressed TeleDisk 1.x images writes exactly the bytes its chunks of 12-bit codes stand for (a code is a byte or an earlier string extended by one byte), reports data that cannot be decoded as an error, refuses files over three million bytes, never panics or loops, and undoes the LZW compressor.", "quantifier": "all byte strings as compressed data; all byte strings of up to 1,998,000 bytes as data to compress", "why_tests_cant": "Tests invert one or two short strings that never fill the dictionary or start a second chunk; corrupt data is not tested at all.", "anchors": ["src/file_parsers/compression/lzw/mod.rs:expand", "src/file_parsers/compression/lzw/mod.rs:compress", "src/file_parsers/compression/lzw/mod.rs:LZW", "src/file_parsers/compression/lzw/mod.rs:LZWDecoder", "src/file_parsers/compression/lzw/mod.rs:LZWCoder"]}
{"id": "C55", "title": "TeleDisk images load as the disk they describe", "statement": "Loading a TD0 image, uncompressed or compressed by TeleDisk 1 (LZW) or 2 (LZHUF), gives exactly the tracks and sectors the file describes with their ids, contents (raw, repeated pairs, run-length coded) and deleted and error flags; what follows the end mark is ignored; a file cut short, with a changed header byte or a wrong checksum is refused with an error; loading never panics.", "quantifier": "all described disks (any number of tracks and sectors, every mixture of encodings, with or without a comment), all LZW and LZHUF encodings of them, all cut points, all single byte changes of the header, all wrong sector checksums", "why_tests_cant": "The tests load a handful of sample images; encodings, cut points and damage are not enumerated.", "anchors": ["src/file_parsers/td0.rs:Td0Format::load_image", "src/file_parsers/td0.rs:Td0Format::td0_decompress_repeated_data", "src/file_parsers/td0.rs:Td0Format::td0_decompress_rle_data", "src/file_parsers/td0.rs:td0_crc"]}
{"id": "C56", "title": "HFE images load as the cells they describe", "statement": "Loading an HFE image gives exactly the tracks of its table, each at its cylinder and side with exactly the cells the block layout gives it (first 256 bytes of a block for side 0, last 256 for side 1, lowest bit first), none of them weak, with the header's geometry and data rate; files whose table or data lie outside the file are refused with an error; loading never panics; a disk written as HFE answers every later sector read and write as the original would.", "quantifier": "all files, all table contents and track lengths, all histories of sector operations before and after", "why_tests_cant": "The tests load a handful of sample images; track lengths, table orders and histories are not enumerated.", "anchors": ["src/file_parsers/hfe.rs:HfeFormat::load_image", "src/file_parsers/hfe.rs:reverse_bits", "src/diskimage.rs:DiskImage::add_track_bitstream", "src/bitstream_codec/mfm.rs:MfmCodec::set_track_padding"]}
{"id": "C57", "title": "HxC MFM images load as the cells they describe", "statement": "Loading an HxC MFM image gives exactly the tracks of its table, plain or advanced, each at the cylinder and side the table says with exactly the cells it says, none of them weak, with the header's geometry and data rates; files that are no such image, or whose table or data lie outside the file, are refused with an error; loading never panics; a disk written as HxC MFM answers every later sector read and write as the original would.", "quantifier": "all files, all table contents and orders, all histories of sector operations before and after", "why_tests_cant": "The tests load a sample image; tables, lengths and histories are not enumerated.", "anchors": ["src/file_parsers/mfm.rs:MfmFormat::load_image", "src/file_parsers/mfm.rs:MfmFormat::read_track_data", "src/diskimage.rs:DiskImage::add_track_bitstream"]}
{"id": "C58", "title": "TransCopy images load as the cells they describe", "statement": "Loading a TransCopy image gives exactly the tracks of its tables, sides alternating, each with exactly the cells of its bytes, those cells weak that lie in a run of zeros no valid recording has, with the geometry and the data rate of the disk type; files that are no such image, or whose tracks lie outside the file, are refused with an error; loading never panics; a disk written as TransCopy answers every later sector read and write as the original would, none of its cells mistaken for a weak one.", "quantifier": "all files, all tables and track lengths, all histories of sector operations before and after, with and without logging", "why_tests_cant": "The tests load a few sample images; tables, lengths, log levels and histories are not enumerated.", "anchors": ["src/file_parsers/tc.rs:TCFormat::load_image", "src/file_parsers/tc.rs:tc_parse_disk_type", "src/bitstream_codec/mfm.rs:MfmCodec::create_weak_bit_mask", "src/diskimage.rs:DiskImage::add_track_bitstream"]}
{"id": "C59", "title": "Formatting gives a fresh disk", "statement": "Formatting an image for a PC format, with the library's boot sector or any template of at least 512 bytes, and with any creator's name, makes it the fresh disk of the format: every sector of the format and no other is there, all zero except the boot sector, which is the template with a parameter block that describes the format (and the creator's name); every later history of sector reads and writes shows exactly what that disk shows. The image builder gives the same disk, and saved as a sector image it is the boot sector followed by zeros.", "quantifier": "all PC formats, all images of whatever contents, all templates, all creator names of any length, all later histories of sector operations", "why_tests_cant": "Tests format one or two images and look at a few sectors; contents before and histories after cannot be enumerated.", "anchors": ["src/diskimage.rs:DiskImage::format", "src/diskimage.rs:DiskImage::format_track", "src/diskimage.rs:DiskImage::add_empty_track", "src/image_builder.rs:ImageBuilder::build", "src/boot_sector/mod.rs:BootSector::update_bpb_from_format"]}
{"id": "C60", "title": "A refused format leaves the image as it was", "statement": "When formatting an image is refused with an error, the image still has the tracks and sectors it had.", "quantifier": "all images, all formats, resolutions, boot sector templates, creator names and file systems", "why_tests_cant": "Tests do not exercise refused formats at all, let alone all reasons for refusal on all images.", "anchors": ["src/diskimage.rs:DiskImage::format", "src/diskimage.rs:DiskImage::reset_image"]}
{"id": "C61", "title": "A formatted image is saved in its new format", "statement": "After an image has been formatted for a PC format, saving it as a sector image gives the boot sector followed by zeros, of the size of that format.", "quantifier": "all images, whatever format they were created for, all PC formats, all templates", "why_tests_cant": "Each pair of old and new format would need its own test, and the contents before are arbitrary.", "anchors": ["src/diskimage.rs:DiskImage::format", "src/file_parsers/raw.rs:RawFormat::save_image", "src/diskimage.rs:DiskImage::closest_format"]}
{"id": "C62", "title": "Updating the boot sector changes its parameter block and nothing else", "statement": "Updating the standard boot sector of a loaded PC image for a PC format is the same as reading the boot sector, changing bytes 11 to 31 so that they describe the format, and writing it back; no other byte of the disk changes.", "quantifier": "all sector images of all PC formats, all earlier and later histories of sector reads and writes, all target formats", "why_tests_cant": "Contents and histories are unbounded.", "anchors": ["src/diskimage.rs:DiskImage::update_standard_boot_sector", "src/diskimage.rs:DiskImage::read_boot_sector", "src/diskimage.rs:DiskImage::write_boot_sector", "src/boot_sector/mod.rs:BootSector::write_bpb_to_buffer"]}
{"id": "C63", "title": "File dates are the calendar dates of their times", "statement": "A system time is converted to the Gregorian date and time of day that lie as many milliseconds after the beginning of 1970 as it does; only times before 1970 or after the year 65535 are refused, each with its own error; dates are ordered as the times are; two dates have the same text exactly when they agree to the second.", "quantifier": "all system times, all dates", "why_tests_cant": "Leap years, centuries and month ends interact over 63,000 years; no list of examples covers them.", "anchors": ["src/file_system/date_time.rs:FsDateTime::try_from", "src/file_system/date_time.rs:days_to_ymd", "src/file_system/date_time.rs:day_of_year_to_month_day", "src/file_system/date_time.rs:is_leap_year", "src/file_system/date_time.rs:FsDateTime::fmt"]}
{"id": "C64", "title": "A source map holds exactly what was added", "statement": "Whatever a parser does with a source map and its cursors, every node added is there once, under its number, with its name, value, parent and children in the order of addition; a walk and the debug text visit every node exactly once, parents before children, children in order, indented by depth; only adding under a number that is no node's panics.", "quantifier": "all histories of map and cursor operations of any length, all values", "why_tests_cant": "Histories are unbounded; tests build a handful of nodes.", "anchors": ["src/tree_map.rs:FoxTreeMap", "src/tree_map.rs:FoxTreeCursor", "src/source_map.rs:SourceMap"]}
{"id": "C65", "title": "A file tree has every file under the path that leads to it", "statement": "The tree built from a FAT file system lists each file once, in order, with its long name, size and a path whose components are the directories and the name that lead to it; looking up a path finds exactly the directory it leads to, if there is one; an archive has every file once with its path and contents; a file's extension is what follows the last dot of its name.", "quantifier": "all directory trees of any depth and size with names that are non-empty and contain no slash, all paths", "why_tests_cant": "Trees and paths are unbounded.", "anchors": ["src/file_system/fat/fat_fs.rs:build_file_tree_recursive", "src/file_system/file_tree.rs:FileTreeNode::for_each_file", "src/file_system/file_tree.rs:FileTreeNode::node", "src/file_system/file_tree.rs:FileEntry::ext", "src/file_system/fat/fat_fs.rs:node_as_tar"]}
{"id": "C66", "title": "Any directory can be listed", "statement": "Asking a tree for the directory at a path lists that directory's entries; listing or archiving without recursion gives the files of the directory itself; the path a directory reports leads to it.", "quantifier": "all directory trees, all paths", "why_tests_cant": "Trees and paths are unbounded; the tests never list a subdirectory.", "anchors": ["src/file_system/file_tree.rs:FileTreeNode::dir", "src/file_system/file_tree.rs:FileTreeNode::for_each_file", "src/file_system/file_tree.rs:FileTreeNode::path", "src/file_system/fat/fat_fs.rs:path_as_archive"]}
{"id": "C67", "title": "The MFM clock recovery locks on to the disk", "statement": "MFM flux whose intervals are two, three or four cells is decoded to exactly those cells, and counted so, if the disk's speed is within 3.5 % of the decoder's clock and every interval is measured to within 3.5 % of a cell; without measuring errors the speed may be off by -5.8 % to +6.25 %.", "quantifier": "all clock rates, all speeds and measuring errors within the limits, all interval sequences of any length", "why_tests_cant": "The loop's error can build up over any number of intervals; only an invariant of phase, period and sign counter excludes loss of lock after any number of them.", "anchors": ["src/flux/pll.rs:Pll::decode_mfm", "src/flux/pll.rs:Pll::set_clock"]}
{"id": "C68", "title": "Flux decoding reports exactly the sync marks that are there", "statement": "Every mark that MFM decoding reports stands on the sync words in the decoded bits, and every place where a row of sync bytes ends in the two sync words is reported.", "quantifier": "all flux sequences, all decoder states", "why_tests_cant": "Ranges over all flux sequences, decodable or not.", "anchors": ["src/flux/pll.rs:Pll::decode_mfm"]}
{"id": "C69", "title": "Flux decoding always ends and accounts for every flux", "statement": "Whatever flux it is given, and however it has been used before, decoding ends without a failed assertion; each flux is counted under exactly one heading, and the headings account for every decoded bit and every set bit.", "quantifier": "all histories of setting, adjusting, resetting the clock and decoding, all flux sequences including negative and zero times", "why_tests_cant": "A clock that drifts to zero or limits that cross would hang or panic only on particular flux after a particular history.", "anchors": ["src/flux/pll.rs:Pll::decode_mfm", "src/flux/pll.rs:Pll::decode_fm", "src/flux/mod.rs:BasicFluxStats"]}
{"id": "C70", "title": "The decoder's clock stays near the rate that was set", "statement": "Decoding keeps the working period within the decoder's limit of the nominal one, and what has been decoded before does not change how flux is read.", "quantifier": "all histories of use, all flux sequences", "why_tests_cant": "Ranges over histories.", "anchors": ["src/flux/pll.rs:Pll::decode_mfm", "src/flux/pll.rs:Pll::set_clock", "src/flux/pll.rs:Pll::decode_fm"]}
{"id": "C71", "title": "The FM clock recovery locks on to the disk", "statement": "Perfectly timed FM flux at the decoder's own clock rate, of intervals of one and two cells, is decoded to exactly those cells.", "quantifier": "all clock rates, all sequences of one- and two-cell intervals of any length", "why_tests_cant": "The loop's error can build up over any number of intervals.", "anchors": ["src/flux/pll.rs:Pll::decode_fm"]}
{"id": "C72", "title": "Each sync mark is reported once", "statement": "MFM decoding reports the sync marks in the order of their places, none of them twice.", "quantifier": "all flux sequences", "why_tests_cant": "Ranges over all flux sequences, glitches included.", "anchors": ["src/flux/pll.rs:Pll::decode_mfm"]}
{"id": "C73", "title": "The clock of double and high density flux is found without a hint", "statement": "A revolution of MFM flux of a double or high density track, taken with no hint of clock or speed by a drive within -20 % and +17 % of its rate, is decoded to exactly its cells, if short and other intervals stand in its first two percent (and, where the number of transitions does not tell the density, in the whole); the same with a hint that is about right.", "quantifier": "all cell lengths in the ranges, all interval sequences of any length, all index times that go with them", "why_tests_cant": "The clock is picked from a histogram's peaks, whose buckets cut differently for every cell length and mixture of intervals.", "anchors": ["src/track/fluxstream.rs:FluxStreamTrack::decode_revolutions", "src/flux/histogram.rs:FluxHistogram::base_transition_time", "src/flux/flux_revolution.rs:FluxRevolution::decode_direct"]}
{"id": "C74", "title": "Extra density flux is found without a hint", "statement": "A revolution of perfectly timed MFM flux with half microsecond cells (2.88 MB disks) is decoded to exactly its cells without any hint.", "quantifier": "all interval sequences of 50000 transitions and more", "why_tests_cant": "Ranges over all track contents.", "anchors": ["src/track/fluxstream.rs:FluxStreamTrack::decode_revolutions", "src/flux/histogram.rs:FluxHistogram::base_transition_time"]}
{"id": "C75", "title": "The revolutions of a flux track are kept, and the best one is used", "statement": "The captured revolutions keep their order and flux and are read back unchanged; two that differ by two transitions give two more in which one transition has moved over the index, together holding the same flux; the revolution used is the first of those with the best score, and one whose sectors are all good is not passed over for one with as many or fewer sectors and errors among them.", "quantifier": "all lists of revolutions, all flux, all scores", "why_tests_cant": "Ranges over all captures of any number of revolutions.", "anchors": ["src/track/fluxstream.rs:FluxStreamTrack::synthesize_revolutions", "src/track/fluxstream.rs:FluxStreamTrack::analyze_revolutions", "src/track/fluxstream.rs:RawFluxIterator", "src/flux/flux_revolution.rs:FluxRevolution::from_adjacent_pair", "src/track/bitstream.rs:BitStreamTrack::calc_quality_score"]}
{"id": "C76", "title": "A track captured as flux holds exactly its cells", "statement": "A track captured in any number of revolutions, each at a drive speed of its own, each of which can be read, becomes a track that holds exactly the cells that were on the disk, whichever revolution is chosen.", "quantifier": "all interval sequences, all numbers of revolutions, all speeds in the ranges of C73", "why_tests_cant": "Ranges over all contents and captures.", "anchors": ["src/diskimage.rs:DiskImage::add_track_fluxstream", "src/track/fluxstream.rs:FluxStreamTrack::decode_revolutions", "src/flux/histogram.rs:FluxHistogram::base_transition_time"]}
{"id": "C77", "title": "SuperCard Pro files: what is accepted and where the tracks go", "statement": "A SuperCard Pro file is accepted exactly if its header, its table and every track before the first gap are well-formed; then the disk has exactly one flux track for each of these, track i on side i mod sides of cylinder i div sides, the geometry they make up, the write protection told by the header, and the data rate of the revolution its first track is read from.", "quantifier": "all files, all builds, all random sources", "why_tests_cant": "Ranges over all files, well-formed and malformed.", "anchors": ["src/file_parsers/scp.rs:ScpFormat::load_image", "src/diskimage.rs:DiskImage::add_track_fluxstream"]}
{"id": "C78", "title": "Every track of a SuperCard Pro file is loaded", "statement": "Loading a SuperCard Pro file loads every track whose table entry is not zero.", "quantifier": "all well-formed files", "why_tests_cant": "Ranges over all tables.", "anchors": ["src/file_parsers/scp.rs:ScpFormat::load_image", "src/diskimage.rs:DiskImage::add_track_fluxstream"]}
{"id": "C79", "title": "The flux times of a SuperCard Pro file are what its samples say", "statement": "Each loaded track is made of exactly the revolutions that the file describes: each flux time is the sum of its sample and of 65536 ticks for every overflow sample before it, times the resolution.", "quantifier": "all well-formed files, all samples", "why_tests_cant": "Ranges over all sequences of samples.", "anchors": ["src/file_parsers/scp.rs:ScpFormat::convert_flux_data", "src/file_parsers/scp.rs:ScpFormat::load_image", "src/diskimage.rs:DiskImage::add_track_fluxstream"]}
{"id": "C80", "title": "A disk captured into a SuperCard Pro file is loaded cell by cell", "statement": "If every revolution of a track in a SuperCard Pro file was captured from a double or high density MFM track at a usual drive speed, every interval right to within 3.5 % of a cell, then the loaded disk has at that track's place a track with exactly the cells that were on the disk.", "quantifier": "all files, all track contents, all measurement errors within the bound, any number of tracks and revolutions", "why_tests_cant": "Ranges over all contents and all measurement errors; goes through file parsing, histogram, phase-locked loop and track building.", "anchors": ["src/file_parsers/scp.rs:ScpFormat::load_image", "src/diskimage.rs:DiskImage::add_track_fluxstream", "src/flux/pll.rs:Pll::decode", "src/track/fluxstream.rs:FluxStreamTrack::decode_revolutions"]}
{"id": "C81", "title": "No SuperCard Pro file makes the loader panic", "statement": "Loading any sequence of bytes as a SuperCard Pro image yields a disk or an error, never a panic.", "quantifier": "all files, builds with and without overflow checks", "why_tests_cant": "Ranges over all files.", "anchors": ["src/file_parsers/scp.rs:ScpFormat::load_image", "src/diskimage.rs:DiskImage::add_track_fluxstream"]}
{"id": "C82", "title": "The revolutions of a KryoFlux stream", "statement": "Reading a KryoFlux stream yields, for each two successive index pulses, exactly the flux times that lie between their stream positions, by the clocks the stream tells, and the time between them.", "quantifier": "all streams made of flux, no-ops, overflows, index pulses and information blocks, in any order", "why_tests_cant": "Ranges over all sequences of blocks.", "anchors": ["src/file_parsers/kryoflux.rs:KfxFormat::load_image", "src/file_parsers/kryoflux.rs:read_index_block", "src/file_parsers/kryoflux.rs:read_block"]}
{"id": "C83", "title": "A track captured into a KryoFlux stream is loaded cell by cell", "statement": "If every revolution of a stream was captured from a double or high density MFM track at a usual speed, every interval right to within 3.5 % of a cell, then loading it gives one track at cylinder 0, head 0 with exactly the cells that were on the disk, and no other track.", "quantifier": "all streams, all track contents, all measurement errors within the bound", "why_tests_cant": "Ranges over all contents and errors; goes through the stream parser, histogram, phase-locked loop and track building.", "anchors": ["src/file_parsers/kryoflux.rs:KfxFormat::load_image", "src/file_parsers/kryoflux.rs:read_index_block", "src/file_parsers/kryoflux.rs:read_block", "src/track/fluxstream.rs:FluxStreamTrack::decode_revolutions"]}
{"id": "C84", "title": "The files of a KryoFlux set are found", "statement": "Given the name of any stream of a set, the loader finds the names of all its streams in the directory, in the order of the tracks, whatever the case of the letters in them, and the geometry is the number of cylinders and sides there are.", "quantifier": "all directories, all set names, any stream of the set", "why_tests_cant": "Ranges over all directories.", "anchors": ["src/file_parsers/kryoflux.rs:KfxFormat::expand_kryoflux_set", "src/diskimage.rs:DiskImage::load (KryofluxSet)"]}
{"id": "C85", "title": "A KryoFlux set is loaded with every track in its place", "statement": "Loading a set from the name of any one of its streams gives a disk with, at every cylinder and head for which there is a stream, the cells of the track captured in that stream, and nothing elsewhere.", "quantifier": "all directories and sets, all contents of the tracks, all measurement errors within the bound", "why_tests_cant": "Ranges over all directories, contents and errors, with state kept from track to track.", "anchors": ["src/file_parsers/kryoflux.rs:KfxFormat::expand_kryoflux_set", "src/diskimage.rs:DiskImage::load (KryofluxSet)", "src/file_parsers/kryoflux.rs:KfxFormat::load_image", "src/file_parsers/kryoflux.rs:read_index_block", "src/file_parsers/kryoflux.rs:read_block"]}
{"id": "C86", "title": "No KryoFlux stream or set makes the loader panic", "statement": "Loading any sequence of bytes as a KryoFlux stream, and any directory as a set, yields a disk or an error, never a panic.", "quantifier": "all files and directories, builds with and without overflow checks", "why_tests_cant": "Ranges over all files.", "anchors": ["src/file_parsers/kryoflux.rs:KfxFormat::load_image", "src/file_parsers/kryoflux.rs:read_index_block", "src/file_parsers/kryoflux.rs:read_block", "src/file_parsers/kryoflux.rs:KfxFormat::expand_kryoflux_set", "src/diskimage.rs:DiskImage::load (KryofluxSet)"]}
{"id": "C87", "title": "A file is taken for the format whose mark it bears", "statement": "No file bears the marks of two formats, and a file that bears the mark of a format and is as long as its header is taken for a file of that format; a file without any mark is taken for a raw image if it has the size of one and is unknown otherwise.", "quantifier": "all files, all 16 formats", "why_tests_cant": "Ranges over all files; depends on the order in which formats are asked.", "anchors": ["src/detect.rs:detect_image_format", "src/detect.rs:detect_container_format"]}
{"id": "C88", "title": "A saved image is known again", "statement": "Whatever image is saved (as a raw image, a PRI or an 86F file), the file that results is taken for a file of the format it was saved in.", "quantifier": "all disks, comments and descriptors, the three writable formats", "why_tests_cant": "Ranges over all disks.", "anchors": ["src/detect.rs:detect_image_format", "src/detect.rs:detect_container_format", "src/file_parsers/raw.rs:RawFormat::save_image", "src/file_parsers/pce/pri.rs:PriFormat::save_image", "src/file_parsers/f86.rs:F86Format::save_image"]}
{"id": "C89", "title": "An image packed into an archive loads like the image", "statement": "Loading a zip file with one file in it, or a gzip file, gives exactly what loading that file gives, be it a disk or an error.", "quantifier": "all files, all archives of one file, all parsers", "why_tests_cant": "Ranges over all files and archives.", "anchors": ["src/detect.rs:detect_image_format", "src/detect.rs:detect_container_format", "src/containers/archive.rs", "src/containers/zip.rs", "src/containers/gzip.rs", "src/diskimage.rs:DiskImage::load"]}
{"id": "C90", "title": "A KryoFlux set is loaded from an archive as from its directory", "statement": "From a zip file with KryoFlux sets in its directories, selecting a directory loads exactly what loading the set from that directory loads; a single set needs no selection; a selection that names no set, or none among several sets, is an error.", "quantifier": "all archives, all directories and selections", "why_tests_cant": "Ranges over all archives and contents.", "anchors": ["src/detect.rs:detect_image_format", "src/detect.rs:detect_container_format", "src/containers/archive.rs", "src/containers/zip.rs", "src/containers/gzip.rs", "src/diskimage.rs:DiskImage::load", "src/file_parsers/kryoflux.rs:KfxFormat::expand_kryoflux_set"]}
{"id": "C91", "title": "A single density track is loaded with all its sectors", "statement": "A track recorded in FM in the standard way (IBM 3740) loads; every id and data mark on it is reported where it is, every sector with the four numbers of its id field, with CRC errors exactly if it has some, and its data can be read.", "quantifier": "all FM tracks, all sectors and contents, deleted or not", "why_tests_cant": "Ranges over all tracks.", "anchors": ["src/bitstream_codec/fm.rs:FmCodec", "src/track_schema/system34.rs:scan_markers", "src/track_schema/system34.rs:scan_metadata", "src/track/bitstream.rs:BitStreamTrack::new", "src/track/bitstream.rs:BitStreamTrack::read_sector"]}
{"id": "C92", "title": "What is written to an FM stream is read back", "statement": "Bytes written to an FM stream, raw or encoded, are recorded as FM at the place given, change nothing else and are read back from there; writing beyond the end is an error.", "quantifier": "all streams, bytes and positions", "why_tests_cant": "Ranges over all contents and positions.", "anchors": ["src/bitstream_codec/fm.rs:FmCodec::write_encoded_buf", "src/bitstream_codec/fm.rs:FmCodec::read_decoded_buf", "src/bitstream_codec/fm.rs:FmCodec::write_raw_buf", "src/bitstream_codec/fm.rs:FmCodec::encode"]}
{"id": "C93", "title": "MAME floppy images: which load and what tracks they have", "statement": "Exactly the files with the signature, a known form factor, a sound table and data that inflate to words of known types are loaded; the image has the header's geometry and exactly one flux track on each side of each cylinder; a track that is not formatted is an empty one, with no cells.", "quantifier": "all files and all inflating functions", "why_tests_cant": "Ranges over all files.", "anchors": ["src/file_parsers/mfi.rs:MfiFormat::load_image", "src/file_parsers/mfi.rs:process_track_data_new", "src/file_parsers/mfi.rs:normalize_flux_times"]}
{"id": "C94", "title": "MAME floppy images: the cells on the disk are those of the loaded tracks", "statement": "A track whose flux times in the file are those of a track captured at 300 rpm, or at 360 rpm with high density, is loaded with exactly its cells; the image's density is that of its first track.", "quantifier": "all files, tracks, cells and measuring errors within 3.5 % of a cell", "why_tests_cant": "Ranges over all tracks and all measuring errors.", "anchors": ["src/file_parsers/mfi.rs:MfiFormat::load_image", "src/file_parsers/mfi.rs:process_track_data_new", "src/file_parsers/mfi.rs:normalize_flux_times", "src/track/fluxstream.rs:decode_revolutions", "src/util.rs"]}
{"id": "C95", "title": "MAME floppy images: no file makes the loader panic", "statement": "Whatever the bytes of the file and whatever they inflate to, loading succeeds or returns an error.", "quantifier": "all byte strings", "why_tests_cant": "Ranges over all inputs.", "anchors": ["src/file_parsers/mfi.rs:MfiFormat::load_image", "src/file_parsers/mfi.rs:process_track_data_new", "src/file_parsers/mfi.rs:normalize_flux_times"]}
{"id": "C96", "title": "MAME floppy images: zones are kept", "statement": "Zones without flux and damaged zones that the data of a track tell of are kept in the loaded track, and do not change the intervals that contain them.", "quantifier": "all tracks and zones", "why_tests_cant": "Ranges over all tracks.", "anchors": ["src/file_parsers/mfi.rs:MfiFormat::load_image", "src/file_parsers/mfi.rs:process_track_data_new", "src/file_parsers/mfi.rs:normalize_flux_times"]}
{"id": "C97", "title": "IPF chunks are accepted just if their CRC-32 is right", "statement": "The checksum of a chunk is the usual CRC-32 of its header (with the checksum cleared) and its data; a chunk is accepted if and only if its size is in place and its checksum is right; so damage within 32 consecutive bits to its name, its checksum or its data is always noticed.", "quantifier": "all chunks, all damage", "why_tests_cant": "Ranges over all byte strings and all damage.", "anchors": ["src/file_parsers/ipf/crc.rs", "src/file_parsers/ipf/chunk.rs:read_chunk"]}
{"id": "C98", "title": "IPF files: every track of the file is there, with the right data", "statement": "A well formed IPF file loads, with exactly its tracks at their places, each with as many cells as the file says, and each with the data the file's keys assign to it, in whatever order the chunks come.", "quantifier": "all well formed files", "why_tests_cant": "Ranges over all files and all orders of chunks.", "anchors": ["src/file_parsers/ipf/ipf.rs:IpfFormat::load_image", "src/file_parsers/ipf/ipf.rs:process_track", "src/file_parsers/ipf/chunk.rs:read_chunk"]}
{"id": "C99", "title": "IPF files: the cells of a loaded track", "statement": "On each track there is, from its start on and round its end, what its blocks say: syncs as raw cells, data and gap elements in MFM, each block followed by its gap; and the MFM clock rule holds between elements.", "quantifier": "all well formed files, all blocks and elements, both encoders", "why_tests_cant": "Ranges over all files.", "anchors": ["src/file_parsers/ipf/ipf.rs:IpfFormat::load_image", "src/file_parsers/ipf/ipf.rs:process_track", "src/file_parsers/ipf/chunk.rs:read_chunk", "src/file_parsers/ipf/v1_track.rs", "src/file_parsers/ipf/v2_track.rs", "src/file_parsers/ipf/stream_element.rs"]}
{"id": "C100", "title": "IPF files: the sectors of an Amiga disk can be read", "statement": "A track of an IPF file that holds Amiga sectors can be read sector by sector once it is loaded.", "quantifier": "all files and all tracks with Amiga sectors", "why_tests_cant": "Ranges over all tracks.", "anchors": ["src/file_parsers/ipf/ipf.rs:IpfFormat::load_image", "src/file_parsers/ipf/ipf.rs:process_track", "src/file_parsers/ipf/chunk.rs:read_chunk", "src/track/bitstream.rs:rescan", "src/track/bitstream.rs:scan_sector_element"]}
{"id": "C101", "title": "IPF files: damage is reported", "statement": "A file that is not an IPF file, that lacks its INFO chunk or one of whose chunks or extra data blocks is damaged is refused with an error.", "quantifier": "all byte strings and all damage", "why_tests_cant": "Ranges over all byte strings.", "anchors": ["src/file_parsers/ipf/ipf.rs:IpfFormat::load_image", "src/file_parsers/ipf/ipf.rs:process_track", "src/file_parsers/ipf/chunk.rs:read_chunk"]}
{"id": "C102", "title": "IPF files: no file makes the loader panic", "statement": "Whatever the bytes of the file, loading succeeds or returns an error.", "quantifier": "all byte strings", "why_tests_cant": "Ranges over all inputs.", "anchors": ["src/file_parsers/ipf/ipf.rs:IpfFormat::load_image", "src/file_parsers/ipf/ipf.rs:process_track", "src/file_parsers/ipf/chunk.rs:read_chunk", "src/file_parsers/ipf/v1_track.rs", "src/file_parsers/ipf/v2_track.rs", "src/file_parsers/ipf/stream_element.rs"]}
{"id": "C103", "title": "MOOF and WOZ images: damage is noticed", "statement": "A file is accepted only if it has the magic number of its format and the CRC-32 of what follows the header; damage to a file that is accepted, within 32 consecutive bits, makes it refused.", "quantifier": "all files, all damage", "why_tests_cant": "Ranges over all byte strings and all damage.", "anchors": ["src/file_parsers/as/moof.rs:MoofFormat::load_image", "src/file_parsers/as/moof.rs:read_chunk", "src/file_parsers/as/woz.rs:WozFormat::load_image", "src/file_parsers/as/woz.rs:read_chunk", "src/file_parsers/as/crc.rs:applesauce_crc32"]}
{"id": "C104", "title": "MOOF images: each place has the track that the map gives it", "statement": "A well-formed MOOF loads as a disk of 80 cylinders and one or two sides, each place with the cells of its track, or its flux track, or an empty track where the map has none.", "quantifier": "all well-formed MOOF files", "why_tests_cant": "Ranges over all files and maps.", "anchors": ["src/file_parsers/as/moof.rs:MoofFormat::load_image", "src/file_parsers/as/moof.rs:read_chunk"]}
{"id": "C105", "title": "WOZ images: each place has the track that the map gives it", "statement": "A well-formed WOZ 2 loads as a disk of 160 quarter tracks (5.25 inch) or of 80 cylinders (3.5 inch), each place with the cells of its track, or its flux track, or an empty track.", "quantifier": "all well-formed WOZ files", "why_tests_cant": "Ranges over all files and maps.", "anchors": ["src/file_parsers/as/woz.rs:WozFormat::load_image", "src/file_parsers/as/woz.rs:read_chunk"]}
{"id": "C106", "title": "MOOF and WOZ images: flux tracks", "statement": "The flux times of a track are those the file spells (ticks of 125 ns, 255 being carried on), and a capture of MFM intervals is decoded to exactly their cells.", "quantifier": "all lists of flux times, all captures within the tolerance", "why_tests_cant": "Ranges over all captures.", "anchors": ["src/file_parsers/as/flux.rs:decode_as_flux", "src/file_parsers/as/moof.rs:MoofFormat::load_image", "src/file_parsers/as/moof.rs:read_chunk", "src/file_parsers/as/woz.rs:WozFormat::load_image", "src/file_parsers/as/woz.rs:read_chunk"]}
{"id": "C107", "title": "MOOF and WOZ images: no file makes the loader panic", "statement": "Whatever the bytes of the file, loading succeeds or returns an error.", "quantifier": "all byte strings", "why_tests_cant": "Ranges over all inputs.", "anchors": ["src/file_parsers/as/moof.rs:MoofFormat::load_image", "src/file_parsers/as/moof.rs:read_chunk", "src/file_parsers/as/woz.rs:WozFormat::load_image", "src/file_parsers/as/woz.rs:read_chunk", "src/file_parsers/as/flux.rs:decode_as_flux"]}
{"id": "C108", "title": "MOOF and WOZ images: sectors can be read and written", "statement": "A file that describes the cells of a disk answers, loaded, every history of sector reads and writes as that disk would.", "quantifier": "all images, all histories", "why_tests_cant": "Ranges over all images and histories.", "anchors": ["src/file_parsers/as/moof.rs:MoofFormat::load_image", "src/file_parsers/as/moof.rs:read_chunk", "src/file_parsers/as/woz.rs:WozFormat::load_image", "src/file_parsers/as/woz.rs:read_chunk", "src/bitstream_codec/gcr.rs"]}
{"id": "C109", "title": "An image knows which capabilities a file format needs to hold it", "statement": "The required capabilities of an image say of every disk whether it has deleted sectors, sectors with bad data or address CRC, sectors without data, tracks with different numbers of sectors, sectors of different sizes, weak bits; finding out never fails.", "quantifier": "all disks, all histories", "why_tests_cant": "Ranges over all disks.", "anchors": ["src/diskimage.rs:analyze", "src/diskimage.rs:required_caps", "src/types/structs.rs:DiskAnalysis", "src/track/mod.rs:TrackAnalysis::join", "src/track_schema/system34.rs:analyze_elements", "src/track/metasector.rs:analysis"]}
{"id": "C110", "title": "The formats an image is offered", "statement": "compatible_formats gives exactly the formats whose capabilities cover those required (and, if asked, that can be written), each once, best priority first.", "quantifier": "all images, all sets of capabilities", "why_tests_cant": "Ranges over all sets of capabilities.", "anchors": ["src/diskimage.rs:compatible_formats", "src/file_parsers/mod.rs:formats_from_caps", "src/file_parsers/mod.rs:filter_writable", "src/file_parsers/mod.rs:can_write", "src/types/enums.rs:priority"]}
{"id": "C111", "title": "An image can be saved in the formats it is offered for saving", "statement": "Saving in a format given by compatible_formats(true) succeeds and loses nothing that can be read; saving in a format without writer is refused.", "quantifier": "all images", "why_tests_cant": "Ranges over all images.", "anchors": ["src/diskimage.rs:compatible_formats", "src/file_parsers/mod.rs:save_image", "src/file_parsers/raw.rs:can_write", "src/file_parsers/pce/pri.rs:can_write", "src/file_parsers/f86.rs:can_write"]}
{"id": "C112", "title": "Formats by file extension", "statement": "A file extension in any case names the one format that advertises it, one that none advertises names none; the supported extensions are exactly those advertised, each once.", "quantifier": "all ASCII extensions", "why_tests_cant": "Ranges over all texts.", "anchors": ["src/file_parsers/mod.rs:format_from_ext", "src/file_parsers/mod.rs:supported_extensions"]}
{"id": "C113", "title": "ImageWriter: all or nothing", "statement": "Writing an image to a path either replaces the file by the saved image, or fails; if saving the image fails, no file changes. Every destination given is served.", "quantifier": "all images, formats, paths and file systems", "why_tests_cant": "Ranges over all images and file systems.", "anchors": ["src/image_writer.rs:ImageWriter::write"]}
{"id": "C114", "title": "What is at a position of a track", "statement": "Of every catalogue of a track and every bit position, hit_test gives the smallest element the position belongs to, item_at the innermost, nothing exactly if there is none; the elements are in track order; sector_index_from_element_index gives the place of a sector in the sector list.", "quantifier": "all tracks, all positions, every answer of the binary search", "why_tests_cant": "Ranges over all catalogues and positions.", "anchors": ["src/track_schema/mod.rs:hit_test", "src/track_schema/mod.rs:item_at", "src/track_schema/mod.rs:sector_index_from_element_index", "src/track_schema/mod.rs:contains"]}
{"id": "C115", "title": "Scanning for a sector agrees with reading it", "statement": "scan_sector reports of every track and query the same flags as read_sector, without reading.", "quantifier": "all tracks, queries, positions, scopes", "why_tests_cant": "Ranges over all tracks and queries.", "anchors": ["src/track/bitstream.rs:scan_sector", "src/track/metasector.rs:scan_sector", "src/track/fluxstream.rs:scan_sector", "src/track/mod.rs:TrackSectorScanResult"]}
{"id": "C116", "title": "Copy protections", "statement": "detect_copy_protection reports the protection of the first track with the described signs: sector 1 of 256 bytes with bad data (CopyLock, version 2 if the address is bad too), sector 1 of 8192 bytes with bad data beyond cylinder 1 (Superlok), 96 sectors (Interlock).", "quantifier": "all disks", "why_tests_cant": "Ranges over all disks.", "anchors": ["src/copy_protection.rs:detect_copy_protection"]}
{"id": "C117", "title": "The sector map", "statement": "sector_map gives for every head and cylinder the list of the sectors of the track there, with their marks.", "quantifier": "all disks", "why_tests_cant": "Ranges over all disks.", "anchors": ["src/diskimage.rs:sector_map", "src/track_schema/mod.rs:sector_list", "src/track/metasector.rs:sector_list"]}
{"id": "C118", "title": "Sector counts and ids of a track agree", "statement": "sector_ct, sector_list and has_sector_id of a track tell of the same sectors; has_sector_id with a full id tells whether that id is there.", "quantifier": "all tracks, all ids", "why_tests_cant": "Ranges over all tracks and ids.", "anchors": ["src/track/mod.rs:has_sector_id", "src/track/bitstream.rs:has_sector_id", "src/track/metasector.rs:has_sector_id", "src/track_schema/mod.rs:TrackMetadata::sector_ct", "src/track_schema/mod.rs:sector_list"]}
{"id": "C119", "title": "Raw reads of tracks", "statement": "read_track_raw gives exactly the cells of a track with their number, and as many bytes past its end as asked for; lists of sectors and places beyond the disk are refused.", "quantifier": "all disks, places and tracks", "why_tests_cant": "Ranges over all tracks.", "anchors": ["src/diskimage.rs:read_track_raw", "src/track/bitstream.rs:read_raw", "src/track/fluxstream.rs:read_raw"]}
{"id": "C120", "title": "Whether there are weak bits", "statement": "has_weak_bits of a track says whether bits are set in its mask of weak bits, and of a disk whether it does of some track.", "quantifier": "all disks and tracks", "why_tests_cant": "Ranges over all masks.", "anchors": ["src/diskimage.rs:has_weak_bits", "src/track/mod.rs:has_weak_bits", "src/bitstream_codec/mfm.rs:has_weak_bits", "src/track/metasector.rs:has_weak_bits"]}
{"id": "C121", "title": "The write counter tells of every change", "statement": "If the write counter of an image (write_ct) is the same at two times, the tracks of the image are the same; operations that are refused are not counted.", "quantifier": "all histories of operations on all images", "why_tests_cant": "Ranges over all histories.", "anchors": ["src/diskimage.rs:write_ct", "src/diskimage.rs:SharedDiskContext", "src/track/metasector.rs:add_write", "src/track/bitstream.rs:write_sector"]}
{"id": "C122", "title": "A hexadecimal dump can be read back", "statement": "dump_slice shows every byte of its data in order, in rows of the given length, each with its address and its printable characters.", "quantifier": "all data, addresses, row lengths, element sizes", "why_tests_cant": "Ranges over all data and row lengths.", "anchors": ["src/util.rs:dump_slice", "src/util.rs:dump_string"]}
{"id": "C123", "title": "Dumps of sectors show the data of sectors", "statement": "dump_sector_hex and dump_sector_string show exactly the bytes read_sector gives.", "quantifier": "all disks, places, queries, row lengths", "why_tests_cant": "Ranges over all disks and queries.", "anchors": ["src/diskimage.rs:dump_sector_hex", "src/diskimage.rs:dump_sector_string"]}
{"id": "C124", "title": "Rectangles have the geometry of rectangles", "statement": "The intersection, containment, bounding box, normal form and center of VizRects are those of the sets of points they stand for, and growing one from its top left corner scales its width and height.", "quantifier": "all rectangles, points, factors", "why_tests_cant": "Ranges over all rectangles.", "anchors": ["src/visualization/types/shapes.rs:VizRect"]}
{"id": "C125", "title": "Display lists give what was put in", "statement": "A display list holds for each track what was pushed to it, in order; its length and its iterators agree with it; what is pushed beyond its tracks is dropped.", "quantifier": "all lists, all sequences of pushes", "why_tests_cant": "Ranges over all sequences of pushes.", "anchors": ["src/visualization/types/display_list.rs:VizElementDisplayList", "src/visualization/types/display_list.rs:VizElementDisplayListIter"]}
{"id": "C126", "title": "Data are divided evenly", "statement": "The data segmenter divides any number of bits in the given number of segments that add up to it and differ by at most one, and then ends.", "quantifier": "all totals and divisors", "why_tests_cant": "Ranges over all numbers.", "anchors": ["src/visualization/data_segmenter.rs:DataSegmenter"]}
{"id": "C127", "title": "Tracks are drawn as separate rings", "statement": "The rings of the tracks of a side lie in order from the outer to the inner radius, do not overlap, and fill the space between the radii asked for.", "quantifier": "all parameters and numbers of tracks", "why_tests_cant": "Ranges over all parameters.", "anchors": ["src/visualization/mod.rs:track_params", "src/visualization/mod.rs:radii", "src/visualization/mod.rs:TurningDirection"]}
{"id": "C128", "title": "Drawn data show the density of the bits", "statement": "vectorize_disk_data gives for each track the asked number of slices; each lies at the angles of its bits and has their density, and the list states the least and greatest density.", "quantifier": "all disks, parameters, numbers of slices", "why_tests_cant": "Ranges over all bit patterns.", "anchors": ["src/visualization/vectorize_disk.rs:vectorize_disk_data"]}
{"id": "C129", "title": "Data and elements are drawn on the same rings", "statement": "With the same parameters the data of a track are drawn within the ring on which the elements of that track are drawn.", "quantifier": "all disks and parameters", "why_tests_cant": "Ranges over all disks and parameters.", "anchors": ["src/visualization/vectorize_disk.rs:vectorize_disk_data", "src/visualization/vectorize_disk.rs:vectorize_disk_elements_by_quadrants", "src/visualization/mod.rs:track_params"]}
{"id": "C130", "title": "Drawn elements lie where the elements are", "statement": "Everything drawn for an element lies on the ring of its track and at angles of positions of the element, and every position of every element is drawn.", "quantifier": "all disks, tracks, elements, parameters, points", "why_tests_cant": "Ranges over all elements and points.", "anchors": ["src/visualization/vectorize_disk.rs:vectorize_disk_elements_by_quadrants"]}
{"id": "C131", "title": "A hit test finds what is drawn under the point", "statement": "vectorize_disk_hit_test answers, for a point on the drawn ring of a cylinder at the angle of a position of its track, that cylinder, that bit and the smallest element there, with a shape that contains the point; outside the rings it answers nothing.", "quantifier": "all disks, parameters, points", "why_tests_cant": "Ranges over all points, disks and parameters.", "anchors": ["src/visualization/vectorize_disk.rs:vectorize_disk_hit_test", "src/track_schema/mod.rs:hit_test"]}
{"id": "C132", "title": "A selection draws the selected sector or track", "statement": "vectorize_disk_selection draws exactly the selected sector or track, where it lies, under its cylinder; what does not exist is refused.", "quantifier": "all disks, parameters, selections", "why_tests_cant": "Ranges over all disks and selections.", "anchors": ["src/visualization/vectorize_disk.rs:vectorize_disk_selection"]}
{"id": "C133", "title": "The asynchronous loader loads what the loader loads", "statement": "load_async yields the same disk image as load for every file, whatever the container, and an error exactly where load yields one.", "quantifier": "all files, archives, selections", "why_tests_cant": "Ranges over all files, archives and places where they are damaged.", "anchors": ["src/diskimage.rs:load_async", "src/diskimage.rs:load"]}
{"id": "C134", "title": "A data rate keeps its number", "statement": "A number of bits per second turned into a track data rate and back is the same number; a rate within tolerance of a standard rate is read as that rate with the factor of the deviation; the rate of a density has that density.", "quantifier": "all 32 bit numbers, all factors within tolerance, all densities", "why_tests_cant": "The conversion goes through a rounded floating point quotient and product; whether it comes back depends on every single number.", "anchors": ["src/types/enums.rs:TrackDataRate", "src/types/enums.rs:TrackDensity"]}
{"id": "C135", "title": "Cell counts and clocks of a density agree", "statement": "The number of cells of a density is read back as that density, and so is its base clock; and that many cells of the base clock take the time of one turn at the rotation rate asked for.", "quantifier": "all densities, rotation rates, factors", "why_tests_cant": "Ranges over all rates with real factors, and over the composition of four functions.", "anchors": ["src/types/enums.rs:TrackDensity", "src/types/rpm.rs:DiskRpm"]}
{"id": "C136", "title": "A rotation rate is read back from its index time", "statement": "The index time of a rotation rate, read as a rate, gives that rate and its factor, in the unit the documentation states, and the rate is displayed as its deviation in percent.", "quantifier": "all rates, factors and index times", "why_tests_cant": "Ranges over real times and factors.", "anchors": ["src/types/rpm.rs:DiskRpm"]}
{"id": "C137", "title": "The element map of a track lists its elements", "statement": "element_map of a track gives a tree with a root, under which every marker, header and data element of the track stands in order, with its state and its range as children, each node once.", "quantifier": "all tracks and metadata", "why_tests_cant": "Ranges over all track contents and lists of elements.", "anchors": ["src/track/bitstream.rs:element_map", "src/track_schema/dispatch.rs:build_element_map", "src/track_schema/system34.rs:build_element_map"]}
{"id": "C138", "title": "A track of an 86F file has the length the file states", "statement": "Loading an 86F file without absolute counts gives each track as many cells as one turn takes at the stated data rate, rotation rate, encoding and shift of speed, plus the extra cells stated.", "quantifier": "all encodings, rates, speeds, shifts, extra counts, track data", "why_tests_cant": "The count is a chain of rounded floating point operations over every combination of flags and any extra count, cut to data whose length comes from another table.", "anchors": ["src/file_parsers/f86.rs:f86_track_bit_length", "src/file_parsers/f86.rs:F86TimeShift::adjust", "src/file_parsers/f86.rs:track_length_words"]}
{"id": "C139", "title": "A picture on a disk keeps what it is told to keep", "statement": "render_pixmap_to_disk and its grayscale version change only bits of tracks of the chosen side that are not skipped; with a sector mask only bits of sector data change; each opaque pixel is written where it lies, and none else; and neither panics.", "quantifier": "all disks, pictures, parameters, sequences of samples", "why_tests_cant": "Ranges over all pictures and tracks; the writes reach beyond the place tested.", "anchors": ["src/visualization/pixmap_to_disk.rs:render_pixmap_to_disk", "src/visualization/pixmap_to_disk.rs:render_pixmap_to_disk_grayscale", "src/bitstream_codec/mfm.rs:is_data"]}
{"id": "C140", "title": "Pixels are valid MFM, brighter ones denser", "statement": "The patterns written for pixels, side by side in any order, are valid MFM (no two transitions side by side, no four empty cells in a row), and a brighter pixel has more transitions.", "quantifier": "all sequences of pixel values", "why_tests_cant": "Ranges over all sequences; validity must hold across the borders of patterns.", "anchors": ["src/visualization/pixmap_to_disk.rs:MFM_GRAYSCALE_RAMP", "src/visualization/pixmap_to_disk.rs:gen_ramp_64", "src/visualization/mod.rs:PixmapToDiskParams"]}
{"id": "C141", "title": "A value of a source map can be read back from its text", "statement": "Shown in base 10, 16 or 2 with a number of digits, an integer of a source map has the prefix of its base, at least that many digits and no more than it needs, and reading the text gives the integer back; a bad value is marked, a good one is not.", "quantifier": "all integers, bases, digit counts, states", "why_tests_cant": "Ranges over all integers and digit counts; the width of the prefix is added in a byte.", "anchors": ["src/source_map.rs:Repr::fmt", "src/source_map.rs:SourceValue"]}
{"id": "C142", "title": "The dump of the sector map tells all of the sector map", "statement": "dump_sector_map writes a text from which the sector map can be told: two images have the same dump exactly if their maps have the same sectors at the same places with the same id, states of checksums and deleted marks.", "quantifier": "all pairs of disk images", "why_tests_cant": "Injectivity of a text over all pairs of images.", "anchors": ["src/diskimage.rs:dump_sector_map", "src/diskimage.rs:sector_map", "src/types/chs.rs:Display for DiskChsn"]}
{"id": "C143", "title": "An image lists the resolutions of its tracks", "statement": "resolution lists exactly the resolutions of the tracks of an image, and can_visualize says if there is something to draw: an image with a track of cells can be visualized, one that says it cannot has no data to draw.", "quantifier": "all histories of operations on an image that starts empty", "why_tests_cant": "Ranges over all histories, including refused tracks and resets.", "anchors": ["src/diskimage.rs:resolution", "src/diskimage.rs:can_visualize", "src/diskimage.rs:reset_image"]}
{"id": "C144", "title": "A layout guessed from the size of an image has that size", "statement": "A layout that is told from the number of bytes of a raw image describes exactly that many bytes; the layouts of usual disks are among those told, the nearest to 40 or 80 cylinders first.", "quantifier": "all sizes of images and sectors, all layouts", "why_tests_cant": "The tests check a list of 33 sizes; the search must be right for all sizes.", "anchors": ["src/types/sector_layout.rs:derive_matches", "src/types/sector_layout.rs:equivalents", "src/types/sector_layout.rs:TryFrom<usize>", "src/types/sector_layout.rs:try_from_raw_size"]}
{"id": "C145", "title": "An image built from a directory has the files of the directory", "statement": "with_filesystem_from_path puts each file of the directory, with its data, at its path in the volume, those of the directories in it only if asked, and leaves out what does not fit if that is allowed; with_filesystem_from_archive does so for the files of an archive. The tree of files that is made of a directory has each of its files once.", "quantifier": "all directories, places where the program runs, volumes and settings", "why_tests_cant": "The tests never build from a directory; it ranges over all trees and all places.", "anchors": ["src/image_builder.rs:build_fat", "src/image_builder.rs:inject_files_from_path_fat", "src/image_builder.rs:with_filesystem_from_archive", "src/file_system/native.rs:build_file_tree_recursive"]}
{"id": "C146", "title": "A directory is listed with the paths of its files", "statement": "list_files_relative gives each file of a directory once, at its path from the directory; without the directories in it, the names of its files.", "quantifier": "all directories and paths to them", "why_tests_cant": "Ranges over all names; it depends on how the path of the directory and the names agree.", "anchors": ["src/file_system/native.rs:list_files_relative", "src/file_system/native.rs:list_files", "src/file_system/native.rs:list_files_recursive"]}
{"id": "C147", "title": "The boot sector an image tells of is the one on it", "statement": "boot_sector() gives the boot sector that is read from the disk: after loading, after the parameter block has been updated, and after any history of operations; it gives none if the disk has none.", "quantifier": "all disks a parser produces, all PC sector images, all boot sectors and all histories of operations", "why_tests_cant": "The boot sector is kept twice, as an object and on the track; whether the two agree depends on every operation in between.", "anchors": ["src/diskimage.rs:boot_sector", "src/diskimage.rs:post_load_process", "src/diskimage.rs:read_boot_sector", "src/diskimage.rs:update_standard_boot_sector", "src/diskimage.rs:format", "src/diskimage.rs:closest_format", "src/boot_sector/bootsector.rs:BootSector::new"]}
{"id": "C148", "title": "The raster picture shows the cell under each pixel", "statement": "In the picture of the data of a disk each pixel on the ring of a track shows the cell of that track that lies in its direction, where the picture of elements has it; the gaps are left alone, the rest is background, and nothing outside the picture's rectangle is touched.", "quantifier": "all disks, picture sizes and offsets, indexes, turning directions, radii and gaps, and all pixels", "why_tests_cant": "A wrong cell or a turned picture looks as plausible as the right one; it must hold for every pixel, track length and index.", "anchors": ["src/visualization/rasterize_disk.rs:rasterize_track_data", "src/bitstream_codec/mfm.rs:ref_bit_at", "src/bitstream_codec/mfm.rs:Index for MfmCodec"]}
{"id": "C149", "title": "An image has the resolution its file format states", "statement": "An image loaded from a file holds tracks of the resolution that its file format states, and of no other, and lists no other among its resolutions.", "quantifier": "all file formats that can be loaded, all files, all random values, with and without overflow checks", "why_tests_cant": "A tool chooses what it can do with a format by the resolution stated; the statement is about every file a parser accepts, including damaged and unusual ones.", "anchors": ["src/types/enums.rs:DiskImageFileFormat::resolution", "src/file_parsers/mod.rs:load_image", "src/diskimage.rs:add_track_fluxstream", "src/diskimage.rs:add_track_bitstream", "src/diskimage.rs:add_track_metasector"]}
{"id": "C150", "title": "A 32-bit number read from a track is the number its four bytes stand for", "statement": "Reading a 32-bit number from an MFM track at a place gives the number the four bytes that are read from that place one by one stand for, in either byte order; four bytes written there are read as the number they stand for.", "quantifier": "all tracks, clock maps, weak masks, random values, places and bytes", "why_tests_cant": "Ranges over all cells and all clock maps; the two readers look for the clock in different ways, and agree on every well formed track.", "anchors": ["src/bitstream_codec/mfm.rs:read_decoded_u32_le", "src/bitstream_codec/mfm.rs:read_decoded_u32_be", "src/bitstream_codec/mfm.rs:read_decoded_u8"]}
{"id": "C151", "title": "A GCR track can be formatted, written and read, or the call fails", "statement": "Formatting a GCR track, writing bytes to its cells, and reading it, each does so or fails and leaves the track as it was; the cells of the track are read as they are.", "quantifier": "all tracks, places, bytes, sector ids, fill patterns and gaps, all random values", "why_tests_cant": "Ranges over all tracks and all data; the calls report success for each of them.", "anchors": ["src/bitstream_codec/gcr.rs:encode", "src/bitstream_codec/gcr.rs:write_raw_buf", "src/bitstream_codec/gcr.rs:read_decoded_buf", "src/bitstream_codec/gcr.rs:write_raw_u8", "src/track/bitstream.rs:format", "src/track/bitstream.rs:read"]}
{"id": "C152", "title": "Formatting a single density track records it in single density", "statement": "Formatting a track of an FM disk records its bytes in FM with FM address marks, so that the sectors asked for are on it afterwards; a layout that does not fit is refused with an error.", "quantifier": "all tracks, standards, sector lists, fill patterns and gaps, all random values", "why_tests_cant": "Ranges over all tracks and layouts; the call reports success and only the cells show what was recorded.", "anchors": ["src/track/bitstream.rs:format", "src/bitstream_codec/fm.rs:encode", "src/bitstream_codec/fm.rs:write_raw_buf", "src/track_schema/system34.rs:set_track_markers", "src/track_schema/system34.rs:format_track_as_bytes"]}
