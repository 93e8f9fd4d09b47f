{
 "claims": [
  {
   "property": "C01",
   "status": "proved",
   "theorems": [
    "Fox.C01_encode_decode",
    "Fox.C01_write_read"
   ],
   "note": "All byte strings, both preceding-bit values; read back through the decoded reader at any aligned position, and after write_encoded_buf."
  },
  {
   "property": "C02",
   "status": "proved",
   "theorems": [
    "Fox.C02_cell_rules"
   ],
   "note": ""
  },
  {
   "property": "C03",
   "status": "proved",
   "theorems": [
    "Fox.C03_no_sync_in_data"
   ],
   "note": "0x4489 and 0x52245224 at no bit phase."
  },
  {
   "property": "C04",
   "status": "proved",
   "theorems": [
    "Fox.C04_find_marker",
    "Fox.C04_debug_panic_at_origin"
   ],
   "note": "Iff characterisation of find_marker; C04_debug_panic_at_origin records that a match at bit 0 underflows when overflow checks are on."
  },
  {
   "property": "C05",
   "status": "partial",
   "theorems": [
    "Fox.C05_format_discoverable",
    "Fox.C05_false_large_cylinder"
   ],
   "note": "Proved at full strength for cylinder numbers below 256. Refuted for larger ones (C05_false_large_cylinder): the header stores only the low byte of the u16 cylinder, so the requested id is never found."
  },
  {
   "property": "C06",
   "status": "proved",
   "theorems": [
    "Fox.C06_fresh_read"
   ],
   "note": "Same id range as C05 (cylinder < 256)."
  },
  {
   "property": "C07",
   "status": "proved",
   "theorems": [
    "Fox.C07_read_after_write"
   ],
   "note": "After any history of formats, reads, writes and rescans."
  },
  {
   "property": "C08",
   "status": "proved",
   "theorems": [
    "Fox.C08_track_is_map"
   ],
   "note": "Refinement to a map from sector id to bytes, for every history of formats, reads, writes and rescans starting with a format."
  },
  {
   "property": "C09",
   "status": "partial",
   "theorems": [
    "Fox.C09_false_deleted_crc",
    "Fox.C09_partial"
   ],
   "note": "Refuted: C09_false_deleted_crc proves that for every deleted sector and every buffer the CRC recorded by write_sector is wrong (encode_element seeds it with the IDAM bytes). C09_partial: normal marks are fine, and the data bytes always read back."
  },
  {
   "property": "C10",
   "status": "proved",
   "theorems": [
    "Fox.C10_is_crc16_3740",
    "Fox.C10_incremental",
    "Fox.C10_bytewise",
    "Fox.C10_residue"
   ],
   "note": "Also equality with an independent bit-serial CRC-16/IBM-3740."
  },
  {
   "property": "C11",
   "status": "proved",
   "theorems": [
    "Fox.C11_burst_detected",
    "Fox.C11_odd_errors_detected"
   ],
   "note": "Plus detection of every odd number of bit errors."
  },
  {
   "property": "C12",
   "status": "partial",
   "theorems": [
    "Fox.C12_lba_chs_bijection_partial",
    "Fox.C12_false_high_offset",
    "Fox.C12_empty_layout_panics",
    "Fox.C12_contains_iff",
    "Fox.C12_false_contains"
   ],
   "note": "Holds when first sector number + sectors per track fits u8 (all shipped layouts). C12_false_high_offset: u8 addition overflows otherwise. C12_empty_layout_panics: a layout with h=0 or s=0 divides by zero. C12_false_contains: contains() accepts sector number s+1 when numbering starts at 0 (off by one); C12_contains_iff says exactly what it accepts."
  },
  {
   "property": "C13",
   "status": "proved",
   "theorems": [
    "Fox.C13_chs_iter",
    "Fox.C13_ch_iter",
    "Fox.C13_offset_sectors"
   ],
   "note": ""
  },
  {
   "property": "C14",
   "status": "partial",
   "theorems": [
    "Fox.C14_n_size_partial",
    "Fox.C14_false_large_codes",
    "Fox.C14_bytesToN_least",
    "Fox.C14_round_trip",
    "Fox.C14_bytesToN_pow",
    "Fox.C14_false_holds"
   ],
   "note": "Holds for codes 0..63; C14_false_large_codes: codes >= 64 wrap (shift count is masked), C14_false_holds: bytes_to_n(257) = 1, a code too small to hold the size."
  },
  {
   "property": "C15",
   "status": "partial",
   "theorems": [
    "Fox.C15_raw_offset_partial",
    "Fox.C15_false_sector_zero"
   ],
   "note": "Holds for sector numbers >= 1; C15_false_sector_zero: to_raw_offset underflows for sector number 0 of layouts numbered from 1."
  },
  {
   "property": "C16",
   "status": "partial",
   "theorems": [
    "Fox.C16_saved_sectors",
    "Fox.C16_round_trip_partial",
    "Fox.C16_sectors",
    "Fox.C16_blank_boot_sector_partial",
    "Fox.C16_false_other_boot_sector"
   ],
   "note": "REFUTED in general. Proved for every PC format and every file of its size: the image loads, every sector reads back as the file's bytes, and save returns the file exactly when the boot sector names no format or the image's own format. Hypothesis: the track hash (SHA-1, an arbitrary function in the model) has no collision among this image's own tracks, else post-load normalisation may drop tracks. C16_false_other_boot_sector: an erased (all FF) 1.44M image is saved as 327,680 bytes or not at all."
  },
  {
   "property": "C17",
   "status": "partial",
   "theorems": [
    "Fox.C17_reads_like_file_partial",
    "Fox.C17_false_stuck_at_end",
    "Fox.C17_false_seek_end",
    "Fox.C17_false_seek_before_start"
   ],
   "note": "Partial and REFUTED in corners. C17_reads_like_file_partial: for every disk (any track kind) whose sectors read as a file's, every history of seeks and reads inside the file equals the flat file. C17_false_stuck_at_end: after a read ran into the end, seeking into the first sector of the last track succeeds but reads stay empty. C17_false_seek_end: seeking to the end is an error. C17_false_seek_before_start: negative targets clamp to 0."
  },
  {
   "property": "C18",
   "status": "partial",
   "theorems": [
    "Fox.C18_writes_like_file_partial",
    "Fox.C18_false_seek_after_write",
    "Fox.C18_false_crossing_write"
   ],
   "note": "REFUTED as stated: C18_false_crossing_write (a write over a sector boundary leaves the first sector unwritten) and C18_false_seek_after_write (dirty sector committed to the wrong track), both for every PC image. C18_writes_like_file_partial: histories that never leave unflushed bytes across a sector/track move behave like a flat file and the disk ends with the file's sectors."
  },
  {
   "property": "C19",
   "status": "partial",
   "theorems": [
    "Fox.C19_index",
    "Fox.C19_set_history",
    "Fox.C19_sequential",
    "Fox.C19_read_bytes",
    "Fox.C19_revolution",
    "Fox.C19_false_iter_infinite",
    "Fox.C19_set_wrap"
   ],
   "note": "All of the ring: indexing, update histories, sequential bit and byte reads, one revolution. The iterator documented as infinite panics (C19_false_iter_infinite): that clause of the property is REFUTED."
  },
  {
   "property": "C20",
   "status": "partial",
   "theorems": [
    "Fox.C20_contains_partial",
    "Fox.C20_false_half_open"
   ],
   "note": "REFUTED as stated: the checker is end-inclusive. C20_contains_partial gives the exact (closed range) behaviour for all lists of ordinary ranges; C20_false_half_open refutes half-open membership for every list."
  },
  {
   "property": "C21",
   "status": "partial",
   "theorems": [
    "Fox.C21_search_partial",
    "Fox.C21_false_damaged_header",
    "Fox.C21_wellformed"
   ],
   "note": "Soundness and completeness of the search on the catalogue of any stream; exact characterisation on intact tracks (C21_wellformed). C21_false_damaged_header: a damaged header stops the search at a sector that contradicts the query."
  },
  {
   "property": "C22",
   "status": "partial",
   "theorems": [
    "Fox.C22_track_is_map_partial",
    "Fox.C22_track_is_map",
    "Fox.C22_read_after_write",
    "Fox.C22_false_missing_write",
    "Fox.C22_false_error_sticks",
    "Fox.C22_false_alternate_panics",
    "Fox.C22_false_no_dam"
   ],
   "note": "Refinement to a list of (id, contents, flags) for every history of adds, writes and reads, exact when every write addresses an existing sector (C22_track_is_map). Findings: a write to a missing sector is reported as success (C22_false_missing_write), a data-error flag survives a rewrite (C22_false_error_sticks), adding an alternate copy panics (C22_false_alternate_panics), no-DAM sectors are not flagged (C22_false_no_dam)."
  },
  {
   "property": "C23",
   "status": "partial",
   "theorems": [
    "Fox.C23_tables_live_partial",
    "Fox.C23_all_listed_partial",
    "Fox.C23_positions_partial",
    "Fox.C23_added_track",
    "Fox.C23_false_positions",
    "Fox.C23_false_removal"
   ],
   "note": "REFUTED as to positions. Proved over every history of track operations: both head tables only hold pool indices (C23_tables_live), every pool track is listed while nothing is removed (C23_all_listed), and a history whose add operations name the next free cylinder of the head keeps each track at the position of its own cylinder/head (C23_positions, C23_added_track). C23_false_positions / C23_false_removal: an add at another cylinder is placed at the end of the table, and remove_empty/normalize leave stale pool tracks whose own ch no longer matches."
  },
  {
   "property": "C24",
   "status": "proved",
   "theorems": [
    "Fox.C24_one_resolution",
    "Fox.C24_rejected_unchanged",
    "Fox.C24_failed_add_locks",
    "Fox.C24_empty_track_ignores_request"
   ],
   "note": "Over every history of adds, writes, formats, normalisations, resets (no direct set_resolution/set_multires): a non-multires image keeps one resolution and a rejected add leaves the tracks unchanged. Counterpoints proved: a failed add still locks in the resolution (C24_failed_add_locks), add_empty_track ignores the requested resolution (C24_empty_track_ignores_request)."
  },
  {
   "property": "C25",
   "status": "partial",
   "theorems": [
    "Fox.C25_decode_U8_pair",
    "Fox.C25_encode_U8_pair_partial",
    "Fox.C25_false_U8_pair",
    "Fox.C25_decode_U32_pair",
    "Fox.C25_encode_U32_pair_partial",
    "Fox.C25_false_U32_pair",
    "Fox.C25_decode_u32",
    "Fox.C25_encode_u32_partial",
    "Fox.C25_false_u32",
    "Fox.C25_mfm_u32",
    "Fox.C25_fm_u32",
    "Fox.C25_decode_u8_buf",
    "Fox.C25_decode_u32_buf"
   ],
   "note": "Decoders are exact odd/even decoders for every input. The encoders are REFUTED (C25_false_*): bits 4j+1 are lost; the _partial theorems say exactly for which values a round trip holds (bits 4j+1 = bits 4j+3)."
  },
  {
   "property": "C26",
   "status": "partial",
   "theorems": [
    "Fox.C26_element_decodes",
    "Fox.C26_track_reads_partial",
    "Fox.C26_false_label",
    "Fox.C26_false_size_override"
   ],
   "note": "C26_element_decodes: for every 512-byte content and every clock-cell content the element decodes exactly, with equal checksums. C26_track_reads_partial: scanning a whole track (any number of sectors, wrap-around allowed) and reading by any query returns the first agreeing sector; needs zero labels. REFUTED in general: C26_false_label (header checksum covers 10 of 20 bytes, so a correct sector with a label is unreadable), C26_false_size_override (read with size override 0/1 panics). Missing: weak bits, reads with EntireElement/CrcOnly scope."
  },
  {
   "property": "C27",
   "status": "partial",
   "theorems": [
    "Fox.C27_write_changes_nothing_partial",
    "Fox.C27_false_write_lost"
   ],
   "note": "REFUTED by C27_false_write_lost: for every content, a write of a sector reports success and changes nothing (encode_element is a stub). C27_write_changes_nothing_partial: no write ever changes the track."
  },
  {
   "property": "C28",
   "status": "proved",
   "theorems": [
    "Fox.C28_metasector_masks",
    "Fox.C28_read_depends_on_weak_cells",
    "Fox.C28_cell_value",
    "Fox.C28_disabled_deterministic"
   ],
   "note": ""
  },
  {
   "property": "C29",
   "status": "partial",
   "theorems": [
    "Fox.C29_clock_map",
    "Fox.C29_false_marker_at_zero",
    "Fox.C29_empty_panics"
   ],
   "note": "Proved for non-empty ascending marker lists with the first marker after cell 0. C29_false_marker_at_zero: a marker at cell 0 leaves the first segment unfilled; C29_empty_panics: an empty clock map underflows."
  },
  {
   "property": "C30",
   "status": "proved",
   "theorems": [
    "Fox.C30_weak_mask"
   ],
   "note": ""
  },
  {
   "property": "C31",
   "status": "partial",
   "theorems": [
    "Fox.C31_sizes",
    "Fox.C31_lookup_partial",
    "Fox.C31_false_amiga1760",
    "Fox.C31_params",
    "Fox.C31_false_param_list"
   ],
   "note": "REFUTED for the Amiga 1760K format (C31_false_amiga1760: its raw size is never recognised) and for the parameter-string list (C31_false_param_list); proved for all other formats."
  },
  {
   "property": "C32",
   "status": "proved",
   "theorems": [
    "Fox.C32_fits",
    "Fox.C32_format_standard"
   ],
   "note": ""
  },
  {
   "property": "C33",
   "status": "proved",
   "theorems": [
    "Fox.C33_rescan_stable"
   ],
   "note": ""
  },
  {
   "property": "C34",
   "status": "partial",
   "theorems": [
    "Fox.C34_metasector_partial",
    "Fox.C34_next_id_partial",
    "Fox.C34_formatted",
    "Fox.C34_false_same_number"
   ],
   "note": "Exact for sector numbers that are distinct on the track; C34_false_same_number: next_id compares the sector number only. C34_metasector_partial: the same for metasector tracks."
  },
  {
   "property": "C35",
   "status": "partial",
   "theorems": [
    "Fox.C35_bpb_bytes",
    "Fox.C35_boot_sector_round_trip",
    "Fox.C35_bpb_geometry",
    "Fox.C35_fat_size_partial",
    "Fox.C35_false_fat_size_2880",
    "Fox.C35_false_media_180",
    "Fox.C35_creator"
   ],
   "note": "C35_false_fat_size_2880: the 2.88M parameter block has a FAT too small for its clusters (REFUTED for that format); C35_false_media_180: the 180K media descriptor is FE instead of FC."
  },
  {
   "property": "C36",
   "status": "proved",
   "theorems": [
    "Fox.C36_read_all_sectors",
    "Fox.C36_metasector"
   ],
   "note": ""
  },
  {
   "property": "C37",
   "status": "proved",
   "theorems": [
    "Fox.C37_basic_read_checked",
    "Fox.C37_bad_header_refused",
    "Fox.C37_loaded_disk_is_map"
   ],
   "note": "For every loaded PC image and every history of read_sector_basic/write_sector_basic calls with offset None; random source arbitrary at every read. Hypothesis as in C16: no hash collision among the image's own tracks. Histories that also format tracks are covered at track level by C08."
  },
  {
   "property": "C38",
   "status": "proved",
   "theorems": [
    "Fox.Lock.C38_writer_excludes",
    "Fox.Lock.C38_held_exclusive"
   ],
   "note": "All schedules; std RwLock/Mutex by contract. Mutual exclusion stated for unreleased guards and for held guards."
  },
  {
   "property": "C39",
   "status": "proved",
   "theorems": [
    "Fox.Lock.C39_read_refusal_truthful",
    "Fox.Lock.C39_write_refusal_truthful"
   ],
   "note": "Both refusals characterised at the step that returns the error, for all schedules."
  },
  {
   "property": "C40",
   "status": "partial",
   "theorems": [
    "Fox.Lock.C40_false_read_panics",
    "Fox.Lock.C40_false_write_panics",
    "Fox.Lock.C40_false_after_client_panic",
    "Fox.Lock.C40_panic_cause_partial",
    "Fox.Lock.C40_sequential_partial"
   ],
   "note": "REFUTED: a guard un-registers itself before its inner guard is released (fields drop after Drop::drop); a call in between panics, poisons the tracking mutex and every later call panics. Also a client panic while holding the write guard. Proved: exact cause of any panic under every schedule; sequential use refines the ideal readers/writer lock."
  },
  {
   "property": "C41",
   "status": "proved",
   "theorems": [
    "Fox.Lock.C41_no_leak"
   ],
   "note": "All schedules; the shared state equals the new lock's state."
  },
  {
   "property": "C42",
   "status": "proved",
   "theorems": [
    "Fox.Lock.C42_step_uses_work",
    "Fox.Lock.C42_no_deadlock"
   ],
   "note": "No deadlock and a decreasing work measure, all schedules; an abort (panic while panicking) ends the process."
  },
  {
   "property": "C43",
   "status": "partial",
   "theorems": [
    "Fox.C43_round_trip_partial",
    "Fox.C43_loaded_disk_is_map_partial",
    "Fox.C43_false_blank",
    "Fox.C43_false_pc_lookalike"
   ],
   "note": "REFUTED as stated: blank or doubled images lose half their cylinders and cannot be saved (C43_false_blank), images whose second sector looks like a PC boot sector are saved as that format (C43_false_pc_lookalike). Proved: exact characterisation of the files that survive, and the map semantics of every history on them (writes to missing sectors excluded: reported as done, C22)."
  },
  {
   "property": "C44",
   "status": "proved",
   "theorems": [
    "Fox.C44_after_format",
    "Fox.C44_after_load",
    "Fox.C44_closest_format"
   ],
   "note": "Closest format, analysis after load and after format_track, format bookkeeping. Data rate, encoding, image density parts of the analysis are not modelled."
  },
  {
   "property": "C45",
   "status": "partial",
   "theorems": [
    "Fox.C45_eighty_partial",
    "Fox.C45_empty_even_partial",
    "Fox.C45_forty_partial",
    "Fox.C45_false_second_side"
   ],
   "note": "REFUTED: only side 0 is examined (C45_false_second_side). Proved: 80-cylinder disks with one distinguishing odd cylinder on side 0, and all disks of at most 40 cylinders, are left alone."
  },
  {
   "property": "C46",
   "status": "proved",
   "theorems": [
    "Fox.C46_is_castagnoli",
    "Fox.C46_round_trip",
    "Fox.C46_accepts_only_written",
    "Fox.C46_burst_detected",
    "Fox.C46_odd_errors_detected",
    "Fox.C46_footer",
    "Fox.C46_truncated",
    "Fox.C46_false_large"
   ],
   "note": "Chunk layer of the three PCE formats: round trip, only written chunks are accepted, CRC is the Castagnoli CRC fed MSB first, burst and odd-weight errors detected, truncation detected. Chunks above the reader's limit are written but refused (C46_false_large)."
  },
  {
   "property": "C47",
   "status": "partial",
   "theorems": [
    "Fox.C47_round_trip_partial",
    "Fox.C47_weak_shifted",
    "Fox.C47_false_rates",
    "Fox.C47_sectors_survive",
    "Fox.C47_false_empty",
    "Fox.C47_false_comment",
    "Fox.C47_refused",
    "Fox.C47_truncated",
    "Fox.C47_false_weak",
    "Fox.C47_false_head"
   ],
   "note": "REFUTED in three respects, each exactly characterised: weak cells come back moved up by one (C47_weak_shifted, C47_false_weak), data rates become 0 (C47_false_rates), an image without tracks saves as a file whose loading panics (C47_false_empty); comments over 1000 bytes panic on save, a WEAK chunk on head 2 panics on load. Proved: cells, addresses, geometry preserved for every savable image; any PC sector image converted to PRI after any write history keeps all sectors (C47_sectors_survive); every cut file refused."
  },
  {
   "property": "C48",
   "status": "partial",
   "theorems": [
    "Fox.C48_load_partial",
    "Fox.C48_reads",
    "Fox.C48_ignored",
    "Fox.C48_false_weak",
    "Fox.C48_false_revisit",
    "Fox.C48_false_empty",
    "Fox.C48_false_offset",
    "Fox.C48_false_alternate",
    "Fox.C48_false_leak",
    "Fox.C48_false_mfm",
    "Fox.C48_headerless_data",
    "Fox.C48_not_psi",
    "Fox.C48_truncated"
   ],
   "note": "REFUTED in part, hence partial. Proved: a file of in-order tracks loads as exactly its sectors (C48_load_partial), reads show them (C48_reads), ignored chunks make no difference (C48_ignored), every truncation is refused (C48_truncated). False of the code, proved: WEAK chunks are dropped (C48_false_weak), a sector of an earlier track is put on the last track added (C48_false_revisit), a file without sectors panics (C48_false_empty), a short OFFS chunk panics, alternate copies panic (C48_false_alternate), an IBMM chunk after a compressed sector applies to the next sector (C48_false_leak), formats 02 00 and 02 01 are taken for FM (C48_false_mfm)."
  },
  {
   "property": "C49",
   "status": "partial",
   "theorems": [
    "Fox.C49_load_partial",
    "Fox.C49_reads",
    "Fox.C49_truncated",
    "Fox.C49_false_truncated",
    "Fox.C49_false_empty",
    "Fox.C49_false_not_imd",
    "Fox.C49_false_many",
    "Fox.C49_false_deleted_error",
    "Fox.C49_refuses"
   ],
   "note": "REFUTED in part, hence partial. Proved: a file loads as exactly its tracks (C49_load_partial), reads show them (C49_reads), a cut after a track header is refused (C49_truncated), invalid headers are refused (C49_refuses). False of the code, proved: a cut between tracks or inside a header loads silently (C49_false_truncated), a file without tracks and a file without terminator panic (C49_false_empty, C49_false_not_imd), 128 or more sectors panic in a debug build (C49_false_many), record types 7 and 8 are refused (C49_false_deleted_error)."
  },
  {
   "property": "C50",
   "status": "partial",
   "theorems": [
    "Fox.C50_antisymmetric",
    "Fox.C50_ignores_case",
    "Fox.C50_equal_iff",
    "Fox.C50_transitive_partial",
    "Fox.C50_numbers",
    "Fox.C50_false_zeros",
    "Fox.C50_false_big"
   ],
   "note": "REFUTED in part, hence partial. Proved for all names: antisymmetry, equality up to case, case-insensitivity; numbers are ordered by value (C50_numbers); transitive for names with numbers below 2^32 without leading zeros (C50_transitive_partial). False of the code, proved: leading zeros and large numbers give cycles (C50_false_zeros, C50_false_big). ASCII names only."
  },
  {
   "property": "C51",
   "status": "partial",
   "theorems": [
    "Fox.C51_track_data",
    "Fox.C51_no_index",
    "Fox.C51_invalid",
    "Fox.C51_cut_transition",
    "Fox.C51_false_overflow",
    "Fox.C51_false_skipped",
    "Fox.C51_false_position",
    "Fox.C51_load_partial",
    "Fox.C51_truncated"
   ],
   "note": "REFUTED in part, hence partial. Proved: the revolutions of track data (C51_track_data), refusals (C51_no_index, C51_invalid, C51_cut_transition, C51_truncated), files of tracks in order (C51_load_partial). False of the code, proved: the cylinder of a track header is ignored (C51_false_position), 2^32 clocks panic in a debug build (C51_false_overflow), a transition that passes two index times shifts the following ones (C51_false_skipped). Times are in clocks (the code multiplies by the f64 period); the PLL decoding inside add_track_fluxstream is not modelled."
  },
  {
   "property": "C52",
   "status": "partial",
   "theorems": [
    "Fox.C52_round_trip_partial",
    "Fox.C52_doubled",
    "Fox.C52_weak_odd",
    "Fox.C52_false_rate",
    "Fox.C52_false_one_sided",
    "Fox.C52_refused",
    "Fox.C52_refused_sectors",
    "Fox.C52_false_extended",
    "Fox.C52_false_empty",
    "Fox.C52_name_ignored",
    "Fox.C52_truncated",
    "Fox.C52_sectors_survive",
    "Fox.C52_false_pc_one_sided",
    "Fox.C52_false_large"
   ],
   "note": "REFUTED in part, hence partial. Proved: the round trip of two-sided images of 80 to 256 cylinders (C52_round_trip_partial), sectors of every two-sided PC format through 86F for all histories (C52_sectors_survive), no proper prefix of a file whose last track has an even byte count loads (C52_truncated). False of the code, proved: fewer than 80 cylinders come back doubled (C52_doubled), weak cells of odd-length tracks move by eight (C52_weak_odd), the data rate is lost (C52_false_rate), one-sided images cannot be saved (C52_false_one_sided, C52_false_pc_one_sided), extended density and empty images save but do not load (C52_false_extended, C52_false_empty), cylinders past 256 are dropped silently (C52_false_large), name and version are not checked (C52_name_ignored). The floating-point cell count of files without an absolute count is an arbitrary function."
  },
  {
   "property": "C53",
   "status": "proved",
   "theorems": [
    "Fox.C53_encode_total",
    "Fox.C53_prefix_free",
    "Fox.C53_injective",
    "Fox.C53_expand_any",
    "Fox.C53_round_trip",
    "Fox.C53_round_trip_exact",
    "Fox.C53_expressible"
   ],
   "note": "Proved of the model of expand with TD0_READ_OPTIONS. The encoder side of the round trip (encode) is the coder of compress with the code word kept as a list of bits; the u16 of the crate loses bits of codes longer than 16, but compress is dead code. Reads and writes of the underlying buffers are assumed not to fail except at the end of the data."
  },
  {
   "property": "C54",
   "status": "partial",
   "theorems": [
    "Fox.C54_expand_ok",
    "Fox.C54_expand_bad_partial",
    "Fox.C54_cases",
    "Fox.C54_too_large",
    "Fox.C54_false_no_panic",
    "Fox.C54_compress_any",
    "Fox.C54_round_trip",
    "Fox.C54_injective"
   ],
   "note": "REFUTED in part, hence partial: a chunk whose first code is not a byte panics on prev_str[0] of an empty Vec (C54_false_no_panic, four bytes). Everything else is proved: exact output or error for every data up to three million bytes (C54_expand_ok, C54_expand_bad_partial, C54_cases), refusal above (C54_too_large), round trip (C54_round_trip, C54_compress_any). The rewinding writer of the compressor is modelled by its net effect."
  },
  {
   "property": "C55",
   "status": "partial",
   "theorems": [
    "Fox.C55_load_partial",
    "Fox.C55_load_lzw_partial",
    "Fox.C55_load_lzw_own_partial",
    "Fox.C55_load_lzhuf_partial",
    "Fox.C55_expressible",
    "Fox.C55_reads",
    "Fox.C55_truncated",
    "Fox.C55_false_truncated",
    "Fox.C55_bad_sector",
    "Fox.C55_not_expandable",
    "Fox.C55_header_changed",
    "Fox.C55_false_pairs",
    "Fox.C55_false_pair_refused",
    "Fox.C55_false_rle_panics",
    "Fox.C55_false_rle_pattern_panics",
    "Fox.C55_false_panics",
    "Fox.C55_false_lzw_panics",
    "Fox.C55_false_dropped",
    "Fox.C55_false_fm",
    "Fox.C55_false_comment",
    "Fox.C55_false_detect",
    "Fox.C55_checksum"
   ],
   "note": "REFUTED in part, hence partial. Proved: loading of all described disks uncompressed, LZW and LZHUF compressed (C55_load_partial, _lzw_partial, _lzw_own_partial, _lzhuf_partial, C55_expressible), reading them (C55_reads), refusal of cut tracks (C55_truncated), wrong sector checksums (C55_bad_sector) and changed header bytes (C55_header_changed). False of the code: pairs are expanded with their bytes exchanged so good files with unequal pairs are refused (C55_false_pairs, C55_false_pair_refused), run-length overruns and bad LZW data panic (C55_false_rle_panics, _rle_pattern_panics, _panics, _lzw_panics), skipped sectors are dropped (C55_false_dropped), FM tracks and comments that are not UTF-8 are refused (C55_false_fm, C55_false_comment), a file cut between tracks loads silently (C55_false_truncated), the one-byte checksum misses single byte errors (C55_false_detect)."
  },
  {
   "property": "C56",
   "status": "partial",
   "theorems": [
    "Fox.C56_accepts",
    "Fox.C56_found",
    "Fox.C56_load_partial",
    "Fox.C56_prefix",
    "Fox.C56_sectors",
    "Fox.C56_describable",
    "Fox.C56_false_tail",
    "Fox.C56_false_order",
    "Fox.C56_false_empty",
    "Fox.C56_false_encoding",
    "Fox.C56_false_rate",
    "Fox.C56_info"
   ],
   "note": "REFUTED in part, hence partial. Proved: exactly which files load (C56_accepts), what every one becomes (C56_found), agreement with the format for one-sided files and whole blocks (C56_load_partial) and up to the last whole block otherwise (C56_prefix), survival of sectors under any histories (C56_sectors) and existence of such files for every PC format but 2.88M (C56_describable). False of the code: side 1 of a partial last block is read from the wrong place (C56_false_tail), tracks out of order overflow with checks (C56_false_order), empty tracks refuse the whole file (C56_false_empty), the encoding byte is ignored (C56_false_encoding), the track data rate is ten times too low (C56_false_rate)."
  },
  {
   "property": "C57",
   "status": "partial",
   "theorems": [
    "Fox.C57_accepts",
    "Fox.C57_by_order",
    "Fox.C57_load_partial",
    "Fox.C57_sectors",
    "Fox.C57_describable",
    "Fox.C57_false_short",
    "Fox.C57_false_order",
    "Fox.C57_false_cylinder",
    "Fox.C57_false_rate",
    "Fox.C57_info"
   ],
   "note": "REFUTED in part, hence partial. Proved: exactly which files load (C57_accepts), what every well-formed one becomes whatever its order (C57_by_order), agreement with the table when it is in order (C57_load_partial), survival of sectors under any histories (C57_sectors) and existence of such files for every PC format (C57_describable). False of the code: any file below 19 bytes loads as an empty disk (C57_false_short), the order of the table and not its cylinder numbers decides the place (C57_false_order), cylinders above 255 are cut (C57_false_cylinder), the track data rate is ten times too low (C57_false_rate)."
  },
  {
   "property": "C58",
   "status": "partial",
   "theorems": [
    "Fox.C58_accepts",
    "Fox.C58_found",
    "Fox.C58_load_partial",
    "Fox.C58_sectors",
    "Fox.C58_describable",
    "Fox.C58_false_odd",
    "Fox.C58_false_size",
    "Fox.C58_false_trace",
    "Fox.C58_false_rate",
    "Fox.C58_info"
   ],
   "note": "REFUTED in part, hence partial. Proved: exactly which files load (C58_accepts), what every one becomes (C58_found), agreement with the tables for an even number of tracks (C58_load_partial), survival of sectors under any histories, no cell of a formatted track being taken for weak (C58_sectors), and existence of such files for every PC format (C58_describable). False of the code: the last of an odd number of tracks is lost (C58_false_odd), a track of 13107 bytes refuses the file (C58_false_size), with trace logging an image without tracks panics (C58_false_trace), disk type 3 gets 500 kbit/s (C58_false_rate)."
  },
  {
   "property": "C59",
   "status": "proved",
   "theorems": [
    "Fox.C59_format",
    "Fox.C59_default_boot",
    "Fox.C59_signature",
    "Fox.C59_build",
    "Fox.C59_build_blank"
   ],
   "note": "Proved for any previous contents of an image that holds bitstream tracks or none (C59_format, C59_default_boot), through the builder (C59_build, under absence of track hash collisions, met in the example), and without a file system (C59_build_blank)."
  },
  {
   "property": "C60",
   "status": "partial",
   "theorems": [
    "Fox.C60_other_fs_partial",
    "Fox.C60_false_erased",
    "Fox.C60_false_flux"
   ],
   "note": "REFUTED. Only the refusal of an unsupported file system leaves the image alone (C60_other_fs_partial). A template under 512 bytes, a non-PC format, or a creator's name for a template that is not the library's own empties the image of all tracks and then fails (C60_false_erased); so does formatting a flux image (C60_false_flux)."
  },
  {
   "property": "C61",
   "status": "partial",
   "theorems": [
    "Fox.C61_saves_partial",
    "Fox.C61_false_geometry"
   ],
   "note": "REFUTED in part. Proved when the new format has the cylinders and heads the image was created with (C61_saves_partial). False otherwise: format does not change the geometry the image describes itself with, and a 160K image formatted as 320K is saved as 163,840 bytes (C61_false_geometry)."
  },
  {
   "property": "C62",
   "status": "proved",
   "theorems": [
    "Fox.C62_update_boot"
   ],
   "note": "Proved for all files, histories and formats (C62_update_boot)."
  },
  {
   "property": "C63",
   "status": "proved",
   "theorems": [
    "Fox.C63_date",
    "Fox.C63_refused",
    "Fox.C63_order",
    "Fox.C63_text"
   ],
   "note": "Proved for all times and dates against a loop-free calendar (C63_date, C63_refused, C63_order, C63_text)."
  },
  {
   "property": "C64",
   "status": "proved",
   "theorems": [
    "Fox.C64_history",
    "Fox.C64_once",
    "Fox.C64_cursor_safe"
   ],
   "note": "Proved for all histories (C64_history, C64_once, C64_cursor_safe)."
  },
  {
   "property": "C65",
   "status": "proved",
   "theorems": [
    "Fox.C65_files",
    "Fox.C65_names",
    "Fox.C65_paths",
    "Fox.C65_node",
    "Fox.C65_archive",
    "Fox.C65_path_archive",
    "Fox.C65_ext"
   ],
   "note": "Proved for all trees; the FAT library is outside the repository and modelled as the tree of entries it iterates (C65_files, C65_paths, C65_node, C65_archive, C65_ext)."
  },
  {
   "property": "C66",
   "status": "partial",
   "theorems": [
    "Fox.C66_partial",
    "Fox.C66_false_dir",
    "Fox.C66_false_flat",
    "Fox.C66_false_path"
   ],
   "note": "REFUTED in part. Proved: the root can be listed and directories two or more levels down report their path (C66_partial). False: dir finds nothing at any path naming a directory (C66_false_dir), non-recursive listings and archives of a directory are always empty (C66_false_flat), directories in the root report the path of the root (C66_false_path)."
  },
  {
   "property": "C67",
   "status": "proved",
   "theorems": [
    "Fox.C67_tolerant",
    "Fox.C67_speed",
    "Fox.C67_exact"
   ],
   "note": "Proved by two polytope invariants of the loop (phase, period, previous error, sign counter), found by computer and checked by the kernel through linear arithmetic: C67_tolerant, C67_speed, C67_exact. An example shows that 6.7 % is too much. f64 is modelled by exact rationals."
  },
  {
   "property": "C68",
   "status": "proved",
   "theorems": [
    "Fox.C68_fm_marks_are_there",
    "Fox.C68_marks_are_there",
    "Fox.C68_marks_are_found"
   ],
   "note": "Proved for all flux and all decoder states (C68_marks_are_there, C68_marks_are_found)."
  },
  {
   "property": "C69",
   "status": "proved",
   "theorems": [
    "Fox.C69_account_fm",
    "Fox.C69_extremes",
    "Fox.C69_average",
    "Fox.C69_classes",
    "Fox.C69_no_classes",
    "Fox.C69_class_bits",
    "Fox.C69_classify",
    "Fox.C69_density",
    "Fox.C69_always_ends",
    "Fox.C69_account"
   ],
   "note": "Proved for all histories and all flux (C69_always_ends, C69_account)."
  },
  {
   "property": "C70",
   "status": "partial",
   "theorems": [
    "Fox.C70_limits_partial",
    "Fox.C70_after_set_partial",
    "Fox.C70_false_history"
   ],
   "note": "REFUTED (C70_false_history): the limits are taken from the working period before it is reset, so decoding FM and then MFM with the same decoder misreads perfect flux. Proved: the limits hold and history does not matter right after the clock is set (C70_limits_partial, C70_after_set_partial)."
  },
  {
   "property": "C71",
   "status": "partial",
   "theorems": [
    "Fox.C71_what_fm_reads_partial",
    "Fox.C71_false_zeros",
    "Fox.C71_ones_partial"
   ],
   "note": "REFUTED (C71_false_zeros): the change of the period is a dimensionless number added to seconds, so the period jumps between its limits and every two-cell interval in a row of FM zeros is read as three, for ever. C71_what_fm_reads_partial states exactly what is read of every sequence of one- and two-cell intervals; C71_ones_partial: rows of ones are right but for a zero put before them."
  },
  {
   "property": "C72",
   "status": "partial",
   "theorems": [
    "Fox.C72_marks_once_partial",
    "Fox.C72_false_glitch"
   ],
   "note": "REFUTED (C72_false_glitch): a second transition within the same tick right after a mark makes it come twice. Proved if no flux was too short (C72_marks_once_partial)."
  },
  {
   "property": "C73",
   "status": "proved",
   "theorems": [
    "Fox.C73_no_hints",
    "Fox.C73_hint",
    "Fox.C73_double_density",
    "Fox.C73_high_density",
    "Fox.C73_hinted",
    "Fox.C73_measured"
   ],
   "note": "Proved for every cell length between 256 ns and 3.8 us that goes with the transition count (C73_no_hints), in plain words for DD and HD disks (C73_double_density, C73_high_density), with a hint (C73_hint), and for flux measured with errors of up to 3.5 % of a cell (C73_measured). The histogram crate's bucket layout is modelled from its documentation; f64 by exact rationals."
  },
  {
   "property": "C74",
   "status": "partial",
   "theorems": [
    "Fox.C74_false_no_hint",
    "Fox.C74_with_hint_partial"
   ],
   "note": "REFUTED (C74_false_no_hint): every extra density track of 50000 transitions or more is misread without a hint, since the transition count is taken to mean 1 us cells and the clock in the flux is then rejected as being too far off. Proved: read exactly with a hint (C74_with_hint_partial)."
  },
  {
   "property": "C75",
   "status": "proved",
   "theorems": [
    "Fox.C75_shift",
    "Fox.C75_no_shift",
    "Fox.C75_kept",
    "Fox.C75_raw",
    "Fox.C75_best",
    "Fox.C75_clean"
   ],
   "note": "Proved for all lists of revolutions (C75_shift, C75_no_shift, C75_kept, C75_raw, C75_best, C75_clean)."
  },
  {
   "property": "C76",
   "status": "proved",
   "theorems": [
    "Fox.C76_measured",
    "Fox.C76_cells"
   ],
   "note": "Proved through histogram, phase-locked loop, packing and track building, for perfectly timed flux at any speed (C76_cells) and for measured flux with errors of up to 3.5 % of a cell (C76_measured)."
  },
  {
   "property": "C77",
   "status": "proved",
   "theorems": [
    "Fox.C77_accepts",
    "Fox.C77_tracks",
    "Fox.C77_rate"
   ],
   "note": "Proved (C77_accepts, C77_tracks, C77_rate). The FM codec is a parameter; accepted are exactly the well-formed files on whose FM-looking revolutions it does not fail (it panics on some: C81_false_fm). The checksum of the file is not verified by the code and plays no part. Memory use is not modelled."
  },
  {
   "property": "C78",
   "status": "partial",
   "theorems": [
    "Fox.C78_all_partial",
    "Fox.C78_false_gap"
   ],
   "note": "REFUTED (C78_false_gap): the first zero entry ends the table, so images with gaps, such as single-sided ones that leave every other entry empty, lose all later tracks without any error. Proved if the table has no gaps (C78_all_partial, with C77_tracks)."
  },
  {
   "property": "C79",
   "status": "partial",
   "theorems": [
    "Fox.C79_flux_partial",
    "Fox.C79_flux_as_is",
    "Fox.C79_false_overflow"
   ],
   "note": "REFUTED (C79_false_overflow): an overflow sample counts 65535 ticks instead of 65536. Proved if no flux time exceeds 65535 ticks (C79_flux_partial), and as it is (C79_flux_as_is)."
  },
  {
   "property": "C80",
   "status": "proved",
   "theorems": [
    "Fox.C80_cells"
   ],
   "note": "Proved (C80_cells), with a concrete file beside it."
  },
  {
   "property": "C81",
   "status": "partial",
   "theorems": [
    "Fox.C81_false_fm",
    "Fox.C81_no_panic_partial",
    "Fox.C81_false_tracks",
    "Fox.C81_false_offset",
    "Fox.C81_false_time"
   ],
   "note": "REFUTED: more than 84 tracks on a side (C81_false_tracks, every build), flux that is taken for FM and has an id mark cut off by the index (C81_false_fm, every build, with the FM codec as modelled), a first offset inside the table (C81_false_offset) and a revolution of over 4.29 s (C81_false_time), both with overflow checks. Proved for builds without overflow checks and up to 84 tracks a side, if the FM decoder does not fail (C81_no_panic_partial)."
  },
  {
   "property": "C82",
   "status": "partial",
   "theorems": [
    "Fox.C82_revolutions_partial",
    "Fox.C82_flux_partial",
    "Fox.C82_times",
    "Fox.C82_false_index_clock",
    "Fox.C82_false_long",
    "Fox.C82_false_overflow"
   ],
   "note": "REFUTED: after a three-byte flux time or an overflow the stream position is not advanced, so revolutions are cut too late (C82_false_long, C82_false_overflow); the index clock told by the stream is ignored (C82_false_index_clock). Proved for streams without these, times by the usual index clock (C82_revolutions_partial, C82_flux_partial); for all streams, the flux times themselves (C82_times)."
  },
  {
   "property": "C83",
   "status": "proved",
   "theorems": [
    "Fox.C83_cells",
    "Fox.C83_later"
   ],
   "note": "Proved for a first track (C83_cells) and for later ones of a double density set (C83_later), for streams without overflows and three-byte flux times (the hypothesis Plain; such intervals do not occur in MFM tracks at the 24 MHz sample clock); a concrete whole track is in Props/KryoCase.lean."
  },
  {
   "property": "C84",
   "status": "partial",
   "theorems": [
    "Fox.C84_expand",
    "Fox.C84_exist_partial",
    "Fox.C84_false_case"
   ],
   "note": "REFUTED (C84_false_case): names are looked up in lower case but then opened under the lower-cased name, so a set with capitals fails to load on a case-sensitive file system. Proved: the names and the geometry (C84_expand), and that they exist if all names are in lower case (C84_exist_partial)."
  },
  {
   "property": "C85",
   "status": "partial",
   "theorems": [
    "Fox.C85_files",
    "Fox.C85_set_partial",
    "Fox.C85_false_gap",
    "Fox.C85_false_drop"
   ],
   "note": "REFUTED: a missing stream shifts all later tracks (C85_false_gap), and a stream that cannot be read ends the set without an error (C85_false_drop). Proved for complete sets of double density tracks (C85_set_partial, C85_files), with a concrete set in Props/KryoCase.lean."
  },
  {
   "property": "C86",
   "status": "partial",
   "theorems": [
    "Fox.C86_false_fm",
    "Fox.C86_no_panic_partial",
    "Fox.C86_false_no_index"
   ],
   "note": "REFUTED: with overflow checks a stream without an index pulse (C86_false_no_index); in every build flux that is taken for FM and has an id mark cut off by the index (C86_false_fm). Proved for builds without overflow checks, for every stream and every directory on whose revolutions the FM decoder does not fail (C86_no_panic_partial)."
  },
  {
   "property": "C87",
   "status": "partial",
   "theorems": [
    "Fox.C87_one_mark",
    "Fox.C87_told_apart_partial",
    "Fox.C87_false_size",
    "Fox.C87_false_text",
    "Fox.C87_accepted"
   ],
   "note": "REFUTED: the sizes of raw images are asked before any mark (C87_false_size, for every format), and the ImageDisk pattern is not anchored (C87_false_text). Proved: marks are exclusive (C87_one_mark), exactly which files are taken for what (C87_told_apart_partial), and that the modelled loaders accept no file without their mark (C87_accepted)."
  },
  {
   "property": "C88",
   "status": "partial",
   "theorems": [
    "Fox.C88_pri_partial",
    "Fox.C88_f86_partial",
    "Fox.C88_raw_partial",
    "Fox.C88_false_size",
    "Fox.C88_false_archive"
   ],
   "note": "REFUTED: a PRI file of the size of a raw image is taken for one (C88_false_size), and a raw image may begin like a gzip file (C88_false_archive). Proved otherwise for each of the three formats (C88_raw_partial, C88_pri_partial, C88_f86_partial)."
  },
  {
   "property": "C89",
   "status": "partial",
   "theorems": [
    "Fox.C89_packed_partial",
    "Fox.C89_nested",
    "Fox.C89_too_long",
    "Fox.C89_false_kryo",
    "Fox.C89_false_several"
   ],
   "note": "REFUTED: a KryoFlux stream loads its set, but alone out of an archive (C89_false_kryo); archives of several files may be taken for raw images (C89_false_several). Proved otherwise (C89_packed_partial), and what happens to nested archives (C89_nested) and to files of more than 100,000,000 bytes (C89_too_long). The libraries that unpack are parameters."
  },
  {
   "property": "C90",
   "status": "partial",
   "theorems": [
    "Fox.C90_zipped_partial",
    "Fox.C90_alone_partial",
    "Fox.C90_selection",
    "Fox.C90_false_names"
   ],
   "note": "REFUTED (C90_false_names): names are looked for in all directories of the archive, so a set may fail to load because of another one. Proved if all directories have the same names, and only in archives with over 5,000,000 bytes (C90_zipped_partial, C90_alone_partial); selections (C90_selection). The sort is any permutation."
  },
  {
   "property": "C91",
   "status": "partial",
   "theorems": [
    "Fox.Fm.C91_loads_partial",
    "Fox.Fm.C91_marks",
    "Fox.Fm.C91_ids",
    "Fox.Fm.C91_false_crc",
    "Fox.Fm.C91_false_read",
    "Fox.Fm.C91_false_debug",
    "Fox.Fm.C91_standard",
    "Fox.Fm.C91_false_deleted",
    "Fox.Fm.C91_false_data",
    "Fox.Fm.C91_no_marks",
    "Fox.Fm.C91_false_half"
   ],
   "note": "REFUTED: the program panics if a data mark lies in the second half of the track (C91_false_half; exactly when is C91_loads_partial); no standard sector has a good address CRC (C91_false_crc), so that none is ever read (C91_false_read); deleted data marks end the scan (C91_false_deleted), and so do the data bytes FF FF FF FF C7 (C91_false_data). Proved: the marks that are reported (C91_marks), those of a standard track (C91_standard), the numbers of the ids (C91_ids)."
  },
  {
   "property": "C92",
   "status": "partial",
   "theorems": [
    "Fox.Fm.C92_raw",
    "Fox.Fm.C92_byte_partial",
    "Fox.Fm.C92_false_encoding",
    "Fox.Fm.C92_false_several",
    "Fox.Fm.C92_false_raw_byte",
    "Fox.Fm.C92_beyond",
    "Fox.Fm.C92_cut",
    "Fox.Fm.C92_raw_byte_end",
    "Fox.Fm.C92_marker"
   ],
   "note": "REFUTED: the encoder encodes MFM (C92_false_encoding), several bytes are not read back (C92_false_several), single raw bytes panic or are rotated (C92_false_raw_byte). Proved: raw buffers (C92_raw), one byte at a clock cell (C92_byte_partial)."
  },
  {
   "property": "C93",
   "status": "proved",
   "theorems": [
    "Fox.C93_accepts",
    "Fox.C93_tracks",
    "Fox.C93_unformatted"
   ],
   "note": "Proved for every inflating function; the FM decoder (C91) has to cope with the tracks that are taken for FM (Mfi.FmFine). The code's branch for empty tracks (src/file_parsers/mfi.rs:472-496, which would make them as long as the others, or refuse the file) is dead: one revolution is always added (C93_unformatted)."
  },
  {
   "property": "C94",
   "status": "proved",
   "theorems": [
    "Fox.C94_cells",
    "Fox.C94_density"
   ],
   "note": "Proved: the cells (C94_cells), the density (C94_density). A double density disk recorded at 360 rpm has cells of the usual length in the file's units, so it is one of At300."
  },
  {
   "property": "C95",
   "status": "partial",
   "theorems": [
    "Fox.C95_no_panic_partial",
    "Fox.C95_false_type"
   ],
   "note": "REFUTED: any word with a type of 4 or more panics, in every build (C95_false_type). Proved: no other file does (C95_no_panic_partial), if the FM decoder copes."
  },
  {
   "property": "C96",
   "status": "partial",
   "theorems": [
    "Fox.C96_only_flux_partial",
    "Fox.C96_false_zone"
   ],
   "note": "REFUTED: zones are ignored and the interval that contains one is cut short (C96_false_zone). Proved: only the flux times count (C96_only_flux_partial)."
  },
  {
   "property": "C97",
   "status": "proved",
   "theorems": [
    "Fox.C97_is_crc32",
    "Fox.C97_accepts",
    "Fox.C97_damage"
   ],
   "note": "Proved, with the CRC of the specification the polynomial remainder (Spec/Crc32). A size below 12 counts as 12 (IsChunkLax). Damage to the size field itself moves the end of the chunk and is not covered by the burst guarantee."
  },
  {
   "property": "C98",
   "status": "partial",
   "theorems": [
    "Fox.C98_tracks_partial",
    "Fox.C98_false_order"
   ],
   "note": "REFUTED: the loader pairs the k-th IMGE chunk with the k-th DATA chunk, whatever their keys: a file whose DATA chunks come in another order loads with the data of the tracks exchanged (C98_false_order). Proved: with the DATA chunks in the order of the IMGE chunks — which themselves may come in any order — exactly the tracks of the file are there (C98_tracks_partial)."
  },
  {
   "property": "C99",
   "status": "partial",
   "theorems": [
    "Fox.C99_cells_partial",
    "Fox.C99_false_gap",
    "Fox.C99_false_clock"
   ],
   "note": "REFUTED: with encoder 1 the gap behind a block is not skipped (C99_false_gap); each element is encoded as if it followed a clear bit, so that the clock rule fails behind a sync (C99_false_clock: two set cells in a row). Proved: all cells otherwise, for both encoders (C99_cells_partial); the contents of gaps is a fixed pattern, not what the file tells."
  },
  {
   "property": "C100",
   "status": "partial",
   "theorems": [
    "Fox.C100_false_amiga",
    "Fox.C100_other_partial",
    "Fox.C100_false_example"
   ],
   "note": "REFUTED: no sector of an Amiga track loaded from an IPF file can be read, although the loader lists their ids: the track keeps the System 34 schema with which the empty track was made (C100_false_amiga, C100_false_example). Proved: a track without Amiga syncs is that of the System 34 scan (C100_other_partial)."
  },
  {
   "property": "C101",
   "status": "partial",
   "theorems": [
    "Fox.C101_refused_partial",
    "Fox.C101_false_silent",
    "Fox.C101_false_extra"
   ],
   "note": "REFUTED: reading ends silently at a damaged chunk: with one damaged byte a file of two tracks loads without error and without tracks (C101_false_silent); the CRC of the extra data is never checked (C101_false_extra). Proved: a file without CAPS or INFO chunk is refused (C101_refused_partial)."
  },
  {
   "property": "C102",
   "status": "partial",
   "theorems": [
    "Fox.C102_no_panic_partial",
    "Fox.C102_false_missing"
   ],
   "note": "REFUTED: a file with fewer DATA than IMGE chunks panics by an index out of range (C102_false_missing). Proved: with memory without limit no file panics but those with too few DATA chunks or a track of zero cells (C102_no_panic_partial)."
  },
  {
   "property": "C103",
   "status": "partial",
   "theorems": [
    "Fox.C103_accepts",
    "Fox.C103_damage_partial",
    "Fox.C103_false_check"
   ],
   "note": "REFUTED for bytes 4 to 7 of the header: they are never looked at (C103_false_check), so that a file damaged as a text may load. Proved: what is accepted has magic number and CRC (C103_accepts); damage to the magic number, the CRC or the rest is noticed (C103_damage_partial). A CRC of 0, which by the format means that there is none, is not honoured."
  },
  {
   "property": "C104",
   "status": "partial",
   "theorems": [
    "Fox.C104_tracks_partial",
    "Fox.C104_gaps_partial",
    "Fox.C104_false_hole"
   ],
   "note": "REFUTED for maps with gaps: without a FLUX chunk a place without a track gets no track, and all later cylinders of that side move up (C104_false_hole, general; C104_gaps_partial tells what is loaded). Proved: files without gaps or with a FLUX chunk (C104_tracks_partial)."
  },
  {
   "property": "C105",
   "status": "partial",
   "theorems": [
    "Fox.C105_tracks_partial",
    "Fox.C105_false_hole"
   ],
   "note": "REFUTED for 3.5 inch disks with gaps, as C104 (C105_false_hole). Proved: 5.25 inch disks of any map, 3.5 inch disks without gaps or with a FLUX chunk (C105_tracks_partial)."
  },
  {
   "property": "C106",
   "status": "partial",
   "theorems": [
    "Fox.C106_times_partial",
    "Fox.C106_cells_partial",
    "Fox.C106_false_multiple"
   ],
   "note": "REFUTED for times that are multiples of 255 ticks: such a flux is lost and its time added to the next (C106_false_multiple). Proved: all other times (C106_times_partial), and the cells of MFM captures (C106_cells_partial)."
  },
  {
   "property": "C107",
   "status": "partial",
   "theorems": [
    "Fox.C107_no_panic_partial",
    "Fox.C107_false_blocks"
   ],
   "note": "REFUTED: a flux track of zero blocks panics (C107_false_blocks). Proved: all other files, for an FM codec that does not fail (C107_no_panic_partial)."
  },
  {
   "property": "C108",
   "status": "partial",
   "theorems": [
    "Fox.C108_false_gcr",
    "Fox.C108_sectors_partial",
    "Fox.C108_describable"
   ],
   "note": "REFUTED for GCR, that is for every WOZ and for MOOFs of GCR disks: no sector can be read (C108_false_gcr). Proved: MOOFs of MFM disks (C108_sectors_partial), which exist for every image of 80 cylinders and two sides (C108_describable)."
  },
  {
   "property": "C109",
   "status": "partial",
   "theorems": [
    "Fox.C109_caps_partial",
    "Fox.C109_findings",
    "Fox.C109_false_sizes",
    "Fox.C109_false_missing",
    "Fox.C109_false_weak",
    "Fox.C109_false_stale",
    "Fox.C109_total_partial",
    "Fox.C109_false_many",
    "Fox.C109_after_load",
    "Fox.C109_after_format",
    "Fox.C109_size"
   ],
   "note": "REFUTED four ways: sizes that differ between tracks but not on a track are not noticed, since the finding is overwritten (C109_false_sizes); sectors without data on tracks that are lists of sectors are not noticed (C109_false_missing); weak bits never are (C109_false_weak); writing a sector as deleted leaves the old finding (C109_false_stale); and a track of 256 sectors panics if overflow is checked (C109_false_many). Proved: what each flag says after loading or formatting, exactly, for every disk (C109_caps_partial, C109_findings, C109_after_load, C109_after_format), the common sector size (C109_size), and success otherwise (C109_total_partial)."
  },
  {
   "property": "C110",
   "status": "proved",
   "theorems": [
    "Fox.C110_listed",
    "Fox.C110_writable",
    "Fox.C110_which",
    "Fox.C110_false_weak"
   ],
   "note": "Proved for every image, both ways of asking (C110_listed, C110_writable), and which formats that is (C110_which). As a finding: of weak bits and comments it is told which formats claim them, 86F (weak bits), IMD and TeleDisk (comments) not among them (C110_false_weak)."
  },
  {
   "property": "C111",
   "status": "partial",
   "theorems": [
    "Fox.C111_false_cylinders",
    "Fox.C111_refused",
    "Fox.C111_pri_partial",
    "Fox.C111_raw_partial",
    "Fox.C111_false_raw",
    "Fox.C111_false_f86",
    "Fox.C111_false_lost"
   ],
   "note": "REFUTED: the raw format is offered for images without a standard format, which it then cannot save (C111_false_raw), and for images with more cylinders than the format, the rest of which it silently drops (C111_false_lost, C111_false_cylinders); 86F is offered for one-sided images, which it cannot save (C111_false_f86). Proved: PRI, except for long comments (C111_pri_partial); raw for images loaded from raw (C111_raw_partial); refusal by the others (C111_refused)."
  },
  {
   "property": "C112",
   "status": "proved",
   "theorems": [
    "Fox.C112_by_extension",
    "Fox.C112_supported",
    "Fox.C112_sorted"
   ],
   "note": "Proved for ASCII; `str::to_lowercase` enters by what it does to ASCII."
  },
  {
   "property": "C113",
   "status": "partial",
   "theorems": [
    "Fox.C113_write_partial",
    "Fox.C113_false_both",
    "Fox.C113_builder"
   ],
   "note": "REFUTED if both a writer and a path are given: the path is ignored (C113_false_both). Proved otherwise (C113_write_partial), for every file system in which a successful std::fs::write stores the bytes and touches no other file."
  },
  {
   "property": "C114",
   "status": "partial",
   "theorems": [
    "Fox.C114_sector_index",
    "Fox.C114_hit_partial",
    "Fox.C114_item_partial",
    "Fox.C114_ordered",
    "Fox.C114_ranges",
    "Fox.C114_false_end",
    "Fox.C114_false_innermost"
   ],
   "note": "REFUTED at ends: an element is taken to contain the bit behind it, so the first bit of the data of every sector is said to be in the mark before it (C114_false_end); item_at gives the last of those that start last, so the header instead of the mark inside it (C114_false_innermost). Proved: exactly what both give, for every catalogue in order — the binary search may answer anything — (C114_hit_partial, C114_item_partial), that every catalogue the library makes is in order (C114_ordered), and the index of a sector (C114_sector_index)."
  },
  {
   "property": "C115",
   "status": "proved",
   "theorems": [
    "Fox.C115_scan",
    "Fox.C115_unresolved",
    "Fox.C115_amiga",
    "Fox.C115_false_missing"
   ],
   "note": "Proved for every kind of track (C115_scan, C115_amiga). As a finding: neither a scan nor a read of a list of sectors ever reports missing data (C115_false_missing)."
  },
  {
   "property": "C116",
   "status": "partial",
   "theorems": [
    "Fox.C116_sectors",
    "Fox.C116_cells",
    "Fox.C116_sound_partial",
    "Fox.C116_false_v2",
    "Fox.C116_disk"
   ],
   "note": "REFUTED for CopyLock 2 on tracks of cells or flux: a damaged address hides the damaged data from the scan, so version 2 is never reported (C116_false_v2). Proved: exactly as described on lists of sectors (C116_sectors) and on well-formed tracks of cells or flux (C116_cells); never without the sign on any catalogue the library makes (C116_sound_partial); the disk (C116_disk)."
  },
  {
   "property": "C117",
   "status": "partial",
   "theorems": [
    "Fox.C117_map_partial",
    "Fox.C117_rows",
    "Fox.C117_false_heads",
    "Fox.C117_false_unlisted"
   ],
   "note": "REFUTED: a geometry of more than two heads, which several file formats can state, panics (C117_false_heads); tracks on heads the geometry does not count are missing, so an image built track by track has an empty map (C117_false_unlisted). Proved otherwise, for every disk (C117_map_partial, C117_rows). Sectors without data are not listed (C118_list). Not modelled: the text of dump_sector_map, which prints the attribute no_dam under the name deleted."
  },
  {
   "property": "C118",
   "status": "partial",
   "theorems": [
    "Fox.C118_list",
    "Fox.C118_has_partial",
    "Fox.C118_false_full",
    "Fox.C118_false_there",
    "Fox.C118_false_deleted"
   ],
   "note": "REFUTED: on tracks of cells a full id is ignored instead of the number (C118_false_full, C118_false_there); TrackMetadata::sector_ct leaves out deleted sectors and wraps at 256 (C118_false_deleted). Proved: the sector list has exactly the headers with data, the count all headers, on every catalogue the library makes (C118_list); has_sector_id otherwise (C118_has_partial)."
  },
  {
   "property": "C119",
   "status": "partial",
   "theorems": [
    "Fox.C119_raw_partial",
    "Fox.C119_false_overdump"
   ],
   "note": "REFUTED for reads past the end: the argument is ignored (C119_false_overdump). Proved otherwise, for every disk (C119_raw_partial)."
  },
  {
   "property": "C120",
   "status": "partial",
   "theorems": [
    "Fox.C120_sectors_partial",
    "Fox.C120_false_always",
    "Fox.C120_disk"
   ],
   "note": "REFUTED for tracks of cells: every one is said to have weak bits, as a count is negated bit by bit instead of logically (C120_false_always). Proved for lists of sectors, with the invariant of their masks (C120_sectors_partial), and for disks in terms of their tracks (C120_disk)."
  },
  {
   "property": "C121",
   "status": "partial",
   "theorems": [
    "Fox.C121_partial",
    "Fox.C121_false_refused",
    "Fox.C121_false_cells",
    "Fox.C121_false_format",
    "Fox.C121_writes",
    "Fox.C121_false_again",
    "Fox.C121_false_reset",
    "Fox.C121_loaded"
   ],
   "note": "REFUTED four ways: writing to tracks of cells is not counted (C121_false_cells), nor is formatting (C121_false_format), nor are new empty tracks, and a reset takes the counter back (C121_false_reset); a write that changes nothing as the sector has no data is counted (C121_false_refused). Proved: equal counters mean equal tracks over every history of track additions and writes to lists of sectors; without a reset the counter never falls; every track addition that succeeds is counted once (C121_partial); 1 after loading (C121_loaded)."
  },
  {
   "property": "C122",
   "status": "partial",
   "theorems": [
    "Fox.C122_dump_partial",
    "Fox.C122_shown",
    "Fox.C122_false_blank",
    "Fox.C122_false_rows"
   ],
   "note": "REFUTED for the characters from the blank to the apostrophe, shown as dots (C122_false_blank), and for rows of no bytes, which panic (C122_false_rows). Proved for everything else, the reader of the dump being a separate specification (C122_dump_partial, C122_shown)."
  },
  {
   "property": "C123",
   "status": "partial",
   "theorems": [
    "Fox.C123_hex_partial",
    "Fox.C123_false_string",
    "Fox.C123_list"
   ],
   "note": "REFUTED for dump_sector_string: it shows mark and checksum with the data (C123_false_string). Proved for dump_sector_hex on every disk (C123_hex_partial), and for dump_sector_string on lists of sectors (C123_list)."
  },
  {
   "property": "C124",
   "status": "partial",
   "theorems": [
    "Fox.C124_intersection",
    "Fox.C124_contains",
    "Fox.C124_bounding",
    "Fox.C124_normalize",
    "Fox.C124_grow_partial",
    "Fox.C124_false_grow",
    "Fox.C124_center"
   ],
   "note": "REFUTED for growing: the height becomes that times one more than the factor (C124_false_grow); proved for the corner and the width (C124_grow_partial) and everything else."
  },
  {
   "property": "C125",
   "status": "proved",
   "theorems": [
    "Fox.C125_lists"
   ],
   "note": "Proved."
  },
  {
   "property": "C126",
   "status": "proved",
   "theorems": [
    "Fox.C126_segments"
   ],
   "note": "Proved: the order of the segments and termination too."
  },
  {
   "property": "C127",
   "status": "partial",
   "theorems": [
    "Fox.C127_errors",
    "Fox.C127_rings_partial",
    "Fox.C127_pinned",
    "Fox.C127_false_outer",
    "Fox.C127_false_overlap",
    "Fox.C127_false_negative",
    "Fox.C127_turning"
   ],
   "note": "REFUTED: with another outer radius than the whole, rings lie outside it (C127_false_outer); without a gap, rings overlap (C127_false_overlap); 160 tracks, pinned, get negative radii (C127_false_negative). Proved for the whole radius with a gap (C127_rings_partial), the errors (C127_errors), the pinned geometry (C127_pinned), the directions (C127_turning)."
  },
  {
   "property": "C128",
   "status": "proved",
   "theorems": [
    "Fox.C128_slices",
    "Fox.C128_defined",
    "Fox.C128_false_density",
    "Fox.C128_drawn"
   ],
   "note": "REFUTED for the least and greatest densities, always 0 and 1 (C128_false_density). Proved for the slices (C128_slices)."
  },
  {
   "property": "C129",
   "status": "partial",
   "theorems": [
    "Fox.C129_layers_partial",
    "Fox.C129_false_limit",
    "Fox.C129_false_mixed"
   ],
   "note": "REFUTED with a limit on the tracks (C129_false_limit) and for disks with tracks that have no cells (C129_false_mixed). Proved otherwise (C129_layers_partial)."
  },
  {
   "property": "C130",
   "status": "partial",
   "theorems": [
    "Fox.C130_drawn",
    "Fox.C130_only",
    "Fox.C130_behind_partial",
    "Fox.C130_false_behind",
    "Fox.C130_false_index",
    "Fox.C130_false_long"
   ],
   "note": "REFUTED: turning against the clock, the default, what an element has behind the index is never drawn (C130_false_behind); with an index angle, what passes the end of the turn is not drawn (C130_false_index); of an element longer than 1030 bytes that ends where the track does, a whole quarter behind the index is drawn too (C130_false_long). Proved: every position before the index is drawn (C130_drawn), nothing else is (C130_only), with the clock also what is behind it (C130_behind_partial)."
  },
  {
   "property": "C131",
   "status": "partial",
   "theorems": [
    "Fox.C131_cylinder_partial",
    "Fox.C131_false_cylinder",
    "Fox.C131_false_limit",
    "Fox.C131_element_partial",
    "Fox.C131_false_index",
    "Fox.C131_false_angle",
    "Fox.C131_false_sectors",
    "Fox.C131_outside"
   ],
   "note": "REFUTED: the cylinder is counted in widths without gaps, so at the middle of the ring of most cylinders (75 of 80 by default) another is answered (C131_false_cylinder), and with a limit on the tracks at every point of every ring but the first (C131_false_limit); against the clock at angle 0 the bit behind the last is answered (C131_false_index); the index angle is ignored (C131_false_angle); lists of sectors panic (C131_false_sectors). Proved: exactly where the cylinder is right (C131_cylinder_partial); given the cylinder, with the index at angle 0, bit, element, its places and a shape with the point (C131_element_partial); nothing outside (C131_outside)."
  },
  {
   "property": "C132",
   "status": "partial",
   "theorems": [
    "Fox.C132_selected_partial",
    "Fox.C132_hit",
    "Fox.C132_false_zero",
    "Fox.C132_false_track",
    "Fox.C132_false_place",
    "Fox.C132_false_cylinder",
    "Fox.C132_limit",
    "Fox.C132_false_sectors"
   ],
   "note": "REFUTED: sector 0 selects the first sector (C132_false_zero); whole tracks are not selected (C132_false_track); everything is put under the first track of the list (C132_false_place); cylinders beyond the disk and lists of sectors panic (C132_false_cylinder, C132_false_sectors). Proved: the sector counted from 1 is drawn, alone, over all its positions, and none for numbers beyond (C132_selected_partial); the index of a hit test, plus one, selects the same element (C132_hit)."
  },
  {
   "property": "C133",
   "status": "partial",
   "theorems": [
    "Fox.C133_same_partial",
    "Fox.C133_single",
    "Fox.C133_all",
    "Fox.C133_no_panic",
    "Fox.C133_false_damaged"
   ],
   "note": "REFUTED: in a set of streams in an archive, a damaged stream ends load with the tracks before it and load_async with an error (C133_false_damaged). Proved: what load_async loads load loads (C133_same_partial); without a set in an archive both do the same (C133_single); load_async loads a set exactly if all streams are there and load (C133_all), and never panics where load may (C133_no_panic)."
  },
  {
   "property": "C134",
   "status": "partial",
   "theorems": [
    "Fox.C134_back_partial",
    "Fox.C134_false_one_less",
    "Fox.C134_class",
    "Fox.C134_ranges",
    "Fox.C134_double",
    "Fox.C134_density"
   ],
   "note": "REFUTED: by rounding of f64 the number may come back one less (C134_false_one_less). Proved: never anything but the same or one less, for all numbers (C134_back_partial, with f64 rounding to nearest modelled); the class is kept for factors within 8 % (C134_class); densities (C134_density)."
  },
  {
   "property": "C135",
   "status": "partial",
   "theorems": [
    "Fox.C135_cells",
    "Fox.C135_clock_partial",
    "Fox.C135_false_standard",
    "Fox.C135_rate",
    "Fox.C135_turn_partial",
    "Fox.C135_false_turn",
    "Fox.C135_false_twice"
   ],
   "note": "REFUTED: the base clock of standard density is not recognised (C135_false_standard); at 360 RPM for standard and extended density, and at 150 and 600 RPM for all, cells times clock is not a turn (C135_false_turn); the clock of double density at 360 RPM is adjusted twice (C135_false_twice). Proved: the rest (C135_cells, C135_clock_partial, C135_rate, C135_turn_partial)."
  },
  {
   "property": "C136",
   "status": "partial",
   "theorems": [
    "Fox.C136_time_partial",
    "Fox.C136_range",
    "Fox.C136_none",
    "Fox.C136_false_rates",
    "Fox.C136_false_zoned",
    "Fox.C136_false_ms",
    "Fox.C136_text",
    "Fox.C136_false_text"
   ],
   "note": "REFUTED: 150 and 600 RPM are never read from an index time (C136_false_rates); a zoned rate is that of cylinder 0 and is read as 360 RPM (C136_false_zoned); the documentation says milliseconds and the code takes seconds (C136_false_ms); deviations are displayed with two signs and 100 times too small (C136_false_text). Proved: 300 and 360 RPM with any factor in range come back, and every answer has the time asked (C136_time_partial, C136_range, C136_text)."
  },
  {
   "property": "C137",
   "status": "partial",
   "theorems": [
    "Fox.C137_listed_partial",
    "Fox.C137_false_amiga",
    "Fox.C137_false_unformatted"
   ],
   "note": "REFUTED: the map of an Amiga track is always empty (C137_false_amiga); the map of a track without schema has not even a root and panics when walked (C137_false_unformatted). Proved: System 34 tracks (C137_listed_partial)."
  },
  {
   "property": "C138",
   "status": "partial",
   "theorems": [
    "Fox.C138_turn_partial",
    "Fox.C138_nominal",
    "Fox.C138_false_slow",
    "Fox.C138_false_fast",
    "Fox.C138_false_rate"
   ],
   "note": "REFUTED: a disk slower by 1.5 percent is taken as slower by 1 percent (C138_false_slow); the words read for faster disks do not hold the cells of a turn at 500 kbps, 300 RPM (C138_false_fast), and those for high density half of one at 1000 kbps (C138_false_rate). Proved: everywhere else, with f64 rounding, the whole cells of a turn plus the extra ones (C138_turn_partial, C138_nominal)."
  },
  {
   "property": "C139",
   "status": "partial",
   "theorems": [
    "Fox.C139_near_partial",
    "Fox.C139_pixel",
    "Fox.C139_false_after",
    "Fox.C139_false_before",
    "Fox.C139_false_gray",
    "Fox.C139_false_short",
    "Fox.C139_resolution"
   ],
   "note": "REFUTED: only the place of a pixel is tested, not the bits written: they reach behind the data (C139_false_after, C139_false_gray) and into the mark before it (C139_false_before); short tracks panic (C139_false_short). Proved: nothing else changes, and how far the bits may reach (C139_near_partial); what a pixel writes (C139_pixel). The geometry of rings is a parameter: the theorems hold for any samples."
  },
  {
   "property": "C140",
   "status": "partial",
   "theorems": [
    "Fox.C140_gray_partial",
    "Fox.C140_brighter",
    "Fox.C140_gen_valid",
    "Fox.C140_false_gen",
    "Fox.C140_false_white"
   ],
   "note": "REFUTED: the default byte for white, documented as 0b1010_1010, is 0x66 with two ones side by side (C140_false_white); gen_ramp_64 is not a ramp (C140_false_gen). Proved: the patterns of the grayscale function (C140_gray_partial, C140_brighter), and validity of gen_ramp_64 (C140_gen_valid)."
  },
  {
   "property": "C141",
   "status": "partial",
   "theorems": [
    "Fox.C141_reads_partial",
    "Fox.C141_false_wide",
    "Fox.C141_marked",
    "Fox.C141_false_text"
   ],
   "note": "REFUTED: 254 or 255 digits panic, or give no zeros where arithmetic is not checked (C141_false_wide); bad texts are not marked (C141_false_text). Proved: everything else (C141_reads_partial, C141_marked)."
  },
  {
   "property": "C142",
   "status": "partial",
   "theorems": [
    "Fox.C142_dump_partial",
    "Fox.C142_false_deleted"
   ],
   "note": "REFUTED: what is printed as deleted is the flag of missing data, which the sector map never sets: every line says deleted: false (C142_false_deleted). Proved: places, ids and checksums are told, and two different maps have different dumps (C142_dump_partial)."
  },
  {
   "property": "C143",
   "status": "partial",
   "theorems": [
    "Fox.C143_listed_partial",
    "Fox.C143_exact",
    "Fox.C143_false_refused",
    "Fox.C143_false_reset",
    "Fox.C143_false_flux"
   ],
   "note": "REFUTED: a track that could not be made is listed (C143_false_refused), a reset image lists what it listed before and refuses other tracks (C143_false_reset), an image of flux that was not resolved says it can be visualized (C143_false_flux). Proved: every track is listed after any history, and an image that cannot be visualized has nothing to draw (C143_listed_partial); exactly the tracks are listed when none was refused (C143_exact)."
  },
  {
   "property": "C144",
   "status": "partial",
   "theorems": [
    "Fox.C144_guessed_partial",
    "Fox.C144_found",
    "Fox.C144_false_single",
    "Fox.C144_false_convert",
    "Fox.C144_convert"
   ],
   "note": "REFUTED: no layout is told for the 160K and 180K disks, nor for any of one side with 40, 42 or 44 cylinders (C144_false_single, C144_found); the conversions refuse the sizes of all standard formats, and the layout they give never has the size of the image (C144_false_convert). Proved: each guess has exactly the size, the first is the nearest (C144_guessed_partial); exactly which usual layouts are found (C144_found)."
  },
  {
   "property": "C145",
   "status": "partial",
   "theorems": [
    "Fox.C145_made_partial",
    "Fox.C145_here",
    "Fox.C145_tree",
    "Fox.C145_false_place",
    "Fox.C145_false_other",
    "Fox.C145_false_asked",
    "Fox.C145_false_fit",
    "Fox.C145_listed"
   ],
   "note": "REFUTED: files are read by their path in the directory, from the directory where the program runs: no image can be built from elsewhere (C145_false_place), or with data of other files (C145_false_other); the settings make no difference and archives are never read (C145_false_asked); what does not fit is an error (C145_false_fit). Proved: the tree (C145_tree); from the directory itself all directories and files are made, with their data (C145_made_partial, C145_here)."
  },
  {
   "property": "C146",
   "status": "partial",
   "theorems": [
    "Fox.C146_listed_partial",
    "Fox.C146_false_twice",
    "Fox.C146_false_cut",
    "Fox.C146_unlisted",
    "Fox.C146_flat"
   ],
   "note": "REFUTED: the path of the directory is taken away as often as it is there: files of a directory of the same name are listed at wrong paths (C146_false_twice), and names that begin like the path lose their beginning (C146_false_cut). Proved: exact for all paths that do not start at the root, and for the others where the path does not come again (C146_listed_partial)."
  },
  {
   "property": "C147",
   "status": "partial",
   "theorems": [
    "Fox.C147_loaded",
    "Fox.C147_kept",
    "Fox.C147_others_partial",
    "Fox.C147_updated",
    "Fox.C147_false_write",
    "Fox.C147_false_format"
   ],
   "note": "REFUTED: writing the boot sector with the sector functions leaves the image telling of the old one, and the format guessed with trust in the boot sector stays the old one (C147_false_write); after DiskImage::format the image tells of none (C147_false_format). Proved: exact after loading, on every disk (C147_loaded), and after update_standard_boot_sector (C147_updated); nothing else ever changes it, emptying forgets it (C147_kept); right through all histories that do not write the sector (C147_others_partial)."
  },
  {
   "property": "C148",
   "status": "partial",
   "theorems": [
    "Fox.C148_position_partial",
    "Fox.C148_pair",
    "Fox.C148_outside",
    "Fox.C148_gap",
    "Fox.C148_rectangle",
    "Fox.C148_false_cell",
    "Fox.C148_false_index",
    "Fox.C148_false_wedge"
   ],
   "note": "REFUTED: indexing a stream gives one cell of the pair of that number, so the picture shows half of the cells, each twice in a turn (C148_false_cell, C148_pair); against the clock it is turned by twice the index against the picture of elements (C148_false_index); with the clock and an index more than half a turn on, a wedge shows the bit at 0 only (C148_false_wedge). Proved: for an index at 0, or no more than half a turn on with the clock, the bit shown is the one of the position in that direction, as the stream counts (C148_position_partial); background (C148_outside), gaps (C148_gap), the rectangle and all around it (C148_rectangle). Rationals for f32; the resolution in bytes is not modelled."
  },
  {
   "property": "C149",
   "status": "partial",
   "theorems": [
    "Fox.C149_stated_partial",
    "Fox.C149_after_load",
    "Fox.C149_raw",
    "Fox.C149_no_flux",
    "Fox.C149_false_raw",
    "Fox.C149_false_moof"
   ],
   "note": "REFUTED: raw images of PC disks are loaded as bit streams though the format states lists of sectors (C149_false_raw); a MOOF or WOZ with flux tracks is loaded with those though the format states bit streams (C149_false_moof). Proved: exact for the twelve other formats whose loading is modelled onto disks (C149_stated_partial; PFI's images are modelled with flux tracks only), kept by what is done after parsing (C149_after_load); what raw images hold (C149_raw); MOOF and WOZ without a flux map (C149_no_flux)."
  },
  {
   "property": "C150",
   "status": "partial",
   "theorems": [
    "Fox.C150_number_partial",
    "Fox.C150_written",
    "Fox.C150_orders",
    "Fox.C150_false_unsynchronised"
   ],
   "note": "REFUTED where the clock map marks neither the cell nor the next: the 32-bit reads then start one cell after the byte reads (C150_false_unsynchronised). Proved: equal to the bytes wherever the reader is in step with the clock (C150_number_partial), what is written is read as its number (C150_written), and the two byte orders read the same four bytes everywhere (C150_orders). The FM codec has these reads as `todo!()`: they always panic."
  },
  {
   "property": "C151",
   "status": "partial",
   "theorems": [
    "Fox.C151_false_format",
    "Fox.C151_refused",
    "Fox.C151_false_write",
    "Fox.C151_false_zeros",
    "Fox.C151_outside",
    "Fox.C151_raw_partial",
    "Fox.C151_byte",
    "Fox.C151_stream"
   ],
   "note": "REFUTED: formatting a GCR track is reported as done and leaves a track without cells, whatever was on it and whatever was asked (C151_false_format); bytes written are dropped (C151_false_write, the number 0 is returned); a track is read as zeros (C151_false_zeros). Proved: what is refused (C151_refused, C151_outside), the cells are read as they are (C151_raw_partial), a single byte written is read and nothing else changes (C151_byte), and what the byte stream gives (C151_stream: every other cell)."
  },
  {
   "property": "C152",
   "status": "partial",
   "theorems": [
    "Fox.Fm.C152_false_cells",
    "Fox.Fm.C152_false_density",
    "Fox.Fm.C152_refused_partial",
    "Fox.Fm.C152_false_room"
   ],
   "note": "REFUTED: a formatted single density track holds the very cells of a double density one (C152_false_cells), already its first byte is not recorded in FM whatever the byte (C152_false_density), and a layout that does not fit panics instead of failing (C152_false_room). Proved: an empty fill pattern is refused (C152_refused_partial). Not stated in general: that no sector is found on any formatted FM track."
  }
 ]
}