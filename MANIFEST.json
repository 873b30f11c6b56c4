{
 "claims": [
  {
   "property": "C01",
   "status": "proved",
   "theorems": [
    "Dupi.Props.C01_split_make",
    "Dupi.Props.C01_make_split",
    "Dupi.Props.C01_order"
   ],
   "note": "all 32-bit values"
  },
  {
   "property": "C02",
   "status": "proved",
   "theorems": [
    "Dupi.Props.C02_join_split",
    "Dupi.Props.C02_split_join",
    "Dupi.Props.C02_route",
    "Dupi.Props.C02_fill",
    "Dupi.Props.C02_overflow"
   ],
   "note": "all blots and shard counts below 65536; C02_overflow shows the bound is needed"
  },
  {
   "property": "C03",
   "status": "proved",
   "theorems": [
    "Dupi.Props.C03_abs"
   ],
   "note": "any sequence of adds, any later adds; fewer than 2^32 nodes"
  },
  {
   "property": "C04",
   "status": "proved",
   "theorems": [
    "Dupi.Props.C04_ids",
    "Dupi.Props.C04_noGrowth"
   ],
   "note": "same id iff the paths lead to the same place; no growth"
  },
  {
   "property": "C05",
   "status": "proved",
   "theorems": [
    "Dupi.Props.C05_roundtrip",
    "Dupi.Props.C05_sessions"
   ],
   "note": "round trip and any number of write/read cycles"
  },
  {
   "property": "C06",
   "status": "proved",
   "theorems": [
    "Dupi.Props.C06_ids",
    "Dupi.Props.C06_flushRate_zero"
   ],
   "note": "any history of sessions, any positive flush rates, fewer than 2^32-1 documents"
  },
  {
   "property": "C07",
   "status": "proved",
   "theorems": [
    "Dupi.Props.C07_lookup"
   ],
   "note": "any history of sessions; ids never assigned are rejected"
  },
  {
   "property": "C08",
   "status": "partial",
   "theorems": [
    "Dupi.Props.C08_false",
    "Dupi.Props.C08_cover_partial",
    "Dupi.Props.C08_lost"
   ],
   "note": "false as stated (C08_false, C08_lost): the last character is dropped; the rest is covered"
  },
  {
   "property": "C09",
   "status": "proved",
   "theorems": [
    "Dupi.Props.C09_tokens"
   ],
   "note": "complete characterisation as maximal runs of all characters but the last"
  },
  {
   "property": "C10",
   "status": "proved",
   "theorems": [
    "Dupi.Props.C10_never_found",
    "Dupi.Props.C10_invalid"
   ],
   "note": "tokenizer gives nothing, and no query ever finds such a document"
  },
  {
   "property": "C11",
   "status": "proved",
   "theorems": [
    "Dupi.Props.C11_hash",
    "Dupi.Props.C11_blot_bytes",
    "Dupi.Props.C11_blot",
    "Dupi.Props.C11_selected_one"
   ],
   "note": "any configuration with positive lengths, any words; hash is FNV-1 (C11_hash)"
  },
  {
   "property": "C12",
   "status": "proved",
   "theorems": [
    "Dupi.Props.C12_case",
    "Dupi.Props.C12_case_unicode",
    "Dupi.Props.C12_perm"
   ],
   "note": "case: any blotter state; permutation up to case of the selected window"
  },
  {
   "property": "C13",
   "status": "proved",
   "theorems": [
    "Dupi.Props.C13_posts",
    "Dupi.Props.C13_blots",
    "Dupi.Props.C13_rejoin",
    "Dupi.Props.C13_nonvacuous"
   ],
   "note": "any previously processed documents, any consistent configuration"
  },
  {
   "property": "C14",
   "status": "proved",
   "theorems": [
    "Dupi.Props.C14_postings"
   ],
   "note": "any number of buckets, any history of sessions, whole file bytes; fewer than 2^32 docids per bucket and 2^58 posts"
  },
  {
   "property": "C15",
   "status": "proved",
   "theorems": [
    "Dupi.Props.C15_sessions"
   ],
   "note": "any split into sessions; lists and counts"
  },
  {
   "property": "C16",
   "status": "proved",
   "theorems": [
    "Dupi.Props.C16_counts"
   ],
   "note": "counts and NumPosts of any history"
  },
  {
   "property": "C17",
   "status": "proved",
   "theorems": [
    "Dupi.Props.C17_fits"
   ],
   "note": "every reachable indexer state; with C14 no panic while reading"
  },
  {
   "property": "C18",
   "status": "proved",
   "theorems": [
    "Dupi.Props.C18_order",
    "Dupi.Props.C18_batch_docid",
    "Dupi.Props.C18_monotone",
    "Dupi.Props.C18_nonvacuous"
   ],
   "note": "for every schedule of the goroutines, every prefix of it"
  },
  {
   "property": "C19",
   "status": "proved",
   "theorems": [
    "Dupi.Props.C19_live",
    "Dupi.Props.C19_needs_shatterer"
   ],
   "note": "every schedule finishes within a bound and none gets stuck; liveness needs at least one shatterer"
  },
  {
   "property": "C20",
   "status": "proved",
   "theorems": [
    "Dupi.Props.C20_sequential",
    "Dupi.Props.C20_schedule",
    "Dupi.Props.C20_history"
   ],
   "note": "any session and history equals the sequential one; the number of shatterers does not change the data files"
  },
  {
   "property": "C21",
   "status": "proved",
   "theorems": [
    "Dupi.Props.C21_get"
   ],
   "note": "any history, any blot, any state of the query; sizes as in Fits"
  },
  {
   "property": "C22",
   "status": "proved",
   "theorems": [
    "Dupi.Props.C22_get_limited"
   ],
   "note": "exact result, including capacity"
  },
  {
   "property": "C23",
   "status": "proved",
   "theorems": [
    "Dupi.Props.C23_enumerates",
    "Dupi.Props.C23_until_eof"
   ],
   "note": "any sequence of calls with any slices"
  },
  {
   "property": "C24",
   "status": "proved",
   "theorems": [
    "Dupi.Props.C24_order"
   ],
   "note": "any sequence of calls"
  },
  {
   "property": "C25",
   "status": "partial",
   "theorems": [
    "Dupi.Props.C25_first_end_partial",
    "Dupi.Props.C25_false_spins"
   ],
   "note": "first end prompt and EOF repeatable (C23_enumerates); false that later calls are prompt: C25_false_spins (2^32 passes)"
  },
  {
   "property": "C26",
   "status": "partial",
   "theorems": [
    "Dupi.Props.C26_partial",
    "Dupi.Props.C26_until_eof_partial",
    "Dupi.Props.C26_false_last",
    "Dupi.Props.C26_false_skips"
   ],
   "note": "The claim is false of the code. Proved: with one shard, or when no number of documents of a blot is 0 or 1 modulo the capacity, the calls deliver exactly the pieces (all documents, except the last of a blot with a number of documents 1 modulo the capacity); false in general: C26_false_last (a last single document is dropped), C26_false_skips (a blot of another shard is passed over)."
  },
  {
   "property": "C27",
   "status": "proved",
   "theorems": [
    "Dupi.Props.C27_find",
    "Dupi.Props.C27_iff",
    "Dupi.Props.C27_range"
   ],
   "note": "any document at any offset with data loaded; exact first range; shard counts below 65536"
  },
  {
   "property": "C28",
   "status": "partial",
   "theorems": [
    "Dupi.Props.C28_texts_partial",
    "Dupi.Props.C28_false_panics"
   ],
   "note": "false as stated for a start other than 0 (C28_false_panics); full statement proved for start 0"
  },
  {
   "property": "C29",
   "status": "partial",
   "theorems": [
    "Dupi.Props.C29_numDocs_off_by_one",
    "Dupi.Props.C29_stats_partial",
    "Dupi.Props.C29_paths",
    "Dupi.Props.C29_paths_nonvacuous"
   ],
   "note": "NumPosts, NumBlots and NumPaths proved; NumDocs is one too large"
  },
  {
   "property": "C30",
   "status": "proved",
   "theorems": [
    "Dupi.Props.C30_finished",
    "Dupi.Props.C30_all_or_nothing",
    "Dupi.Props.C30_opened",
    "Dupi.Props.C30_nonvacuous",
    "Dupi.Props.C30_created"
   ],
   "note": "For every configuration, list of documents, schedule and crash point: either every file operation of the session was done (and then the directory is the one of a whole session) or OpenIndex returns an error. Process death is modelled (prefix of each goroutine's writes, the last one perhaps partial), not loss of unsynced pages."
  },
  {
   "property": "C31",
   "status": "partial",
   "theorems": [
    "Dupi.Props.C31_adding_partial",
    "Dupi.Props.C31_closing_partial",
    "Dupi.Props.C31_shards_partial",
    "Dupi.Props.C31_partial",
    "Dupi.Props.C31_false_fnm",
    "Dupi.Props.C31_false_iix",
    "Dupi.Props.C31_false_link",
    "Dupi.Props.C31_finished",
    "Dupi.Props.C31_nonvacuous"
   ],
   "note": "False of the code as stated (see the C31_false theorems). Proved: at every crash point OpenIndex returns an error or every blot no new document has is answered exactly as before the session (C31_partial); while documents are added the index opens and the same holds of blots at most 102 new documents have (C31_adding_partial); likewise while Close writes the common files (C31_closing_partial) and, shard by shard, while the shards are closed (C31_shards_partial). Process death, not power loss."
  },
  {
   "property": "C32",
   "status": "partial",
   "theorems": [
    "Dupi.Props.C32_creating_partial",
    "Dupi.Props.C32_not_while_used_partial",
    "Dupi.Props.C32_release",
    "Dupi.Props.C32_close",
    "Dupi.Props.C32_false_appending",
    "Dupi.Props.C32_false_unlock",
    "Dupi.Props.C32_false_failed",
    "Dupi.Props.C32_same_file_partial",
    "Dupi.Props.C32_false_slash"
   ],
   "note": "Proved for creating indexers in every reachable state of any number of processes, and that closing releases the lock. False of the code for appending indexers (C32_false_appending), for Unlock without Close (C32_false_unlock), after a failed creation (C32_false_failed), and for readers given a root with a trailing slash (C32_false_slash); roots ending in a plain name lock the same file (C32_same_file_partial)."
  },
  {
   "property": "C33",
   "status": "partial",
   "theorems": [
    "Dupi.Props.C33_accepts_partial",
    "Dupi.Props.C33_refuses_partial",
    "Dupi.Props.C33_usable",
    "Dupi.Props.C33_opened",
    "Dupi.Props.C33_false_opened"
   ],
   "note": "false as stated: only 10 is accepted (C33_accepts_partial); the second half holds"
  },
  {
   "property": "C34",
   "status": "partial",
   "theorems": [
    "Dupi.Props.C34_load_partial",
    "Dupi.Props.C34_false_empty",
    "Dupi.Props.C34_short"
   ],
   "note": "false as stated for an empty sub-range at 0 (C34_false_empty: 0:0 means the whole file); proved otherwise, short files covered (C34_short)"
  },
  {
   "property": "C35",
   "status": "proved",
   "theorems": [
    "Dupi.Props.C35_no_false_negatives",
    "Dupi.Props.C35_intersect",
    "Dupi.Props.C35_full",
    "Dupi.Props.C35_false_readd",
    "Dupi.Props.C35_zero_size",
    "Dupi.Props.C35_ones"
   ],
   "note": "For filters whose size in bits is nonzero as uint32 (else every use panics, C35_zero_size). C35_false_readd: an integer removed by an intersection and added again as the very next add is not stored."
  },
  {
   "property": "C36",
   "status": "proved",
   "theorems": [
    "Dupi.Props.C36_letter",
    "Dupi.Props.C36_shift",
    "Dupi.Props.C36_shift_any",
    "Dupi.Props.C36_injective"
   ],
   "note": "Range, decoding to the last three letters, injectivity, and Letter as folding of any rune."
  },
  {
   "property": "C37",
   "status": "proved",
   "theorems": [
    "Dupi.Props.C37_duplicates"
   ],
   "note": "any two documents, any history"
  },
  {
   "property": "C38",
   "status": "partial",
   "theorems": [
    "Dupi.Props.C38_undisturbed_partial",
    "Dupi.Props.C38_false_seek",
    "Dupi.Props.C38_false_read"
   ],
   "note": "A lookup whose seek and read are not separated by another goroutine is correct, in every schedule. False of the code in general: C38_false_seek, C38_false_read."
  },
  {
   "property": "C39",
   "status": "proved",
   "theorems": [
    "Dupi.Props.C39_extract"
   ],
   "note": "any threshold; the threshold itself is computed with floating point numbers, not modelled"
  },
  {
   "property": "C40",
   "status": "proved",
   "theorems": [
    "Dupi.Props.C40_unblot",
    "Dupi.Props.C40_false_large"
   ],
   "note": "any history, fewer than 65536 shards; C40_false_large for blots out of range"
  },
  {
   "property": "C41",
   "status": "proved",
   "theorems": [
    "Dupi.Props.C41_like"
   ],
   "note": "documents with start 0, unchanged files; text compared byte for byte"
  },
  {
   "property": "C42",
   "status": "partial",
   "theorems": [
    "Dupi.Props.C42_only_visible",
    "Dupi.Props.C42_all_visible",
    "Dupi.Props.C42_complete_partial",
    "Dupi.Props.C42_false_open",
    "Dupi.Props.C42_false_dotdot"
   ],
   "note": "second half false as stated (C42_false_open, C42_false_dotdot); first half and the rest of the second proved for all trees"
  },
  {
   "property": "C43",
   "status": "partial",
   "theorems": [
    "Dupi.Props.C43_blots_partial",
    "Dupi.Props.C43_false_every"
   ],
   "note": "false of every blot of every file (C43_false_every); the blots themselves are right (C43_blots_partial)"
  },
  {
   "property": "C44",
   "status": "partial",
   "theorems": [
    "Dupi.Props.C44_read_panics",
    "Dupi.Props.C44_abs_diverges",
    "Dupi.Props.C44_empty_table",
    "Dupi.Props.C44_abs_partial",
    "Dupi.Props.C44_truncated"
   ],
   "note": "false as stated: panic, divergence and empty-table witnesses; holds when parents precede children"
  },
  {
   "property": "C45",
   "status": "partial",
   "theorems": [
    "Dupi.Props.C45_false_stale_data",
    "Dupi.Props.C45_no_data_partial"
   ],
   "note": "false as stated (C45_false_stale_data); holds for slices without old data"
  },
  {
   "property": "C46",
   "status": "partial",
   "theorems": [
    "Dupi.Props.C46_shorter_partial",
    "Dupi.Props.C46_false_longer",
    "Dupi.Props.C46_false_config"
   ],
   "note": "Proved when the old file is not longer or has only white space beyond the new length; in all other cases reading fails (C46_false_longer, C46_false_config)."
  },
  {
   "property": "C47",
   "status": "proved",
   "theorems": [
    "Dupi.Props.C47_fromTokens",
    "Dupi.Props.C47_false_dst",
    "Dupi.Props.C47_eod",
    "Dupi.Props.C47_visit"
   ],
   "note": "FromTokens on an empty buffer; C47_false_dst and C47_eod state what happens on a nonempty buffer and on an end of document."
  },
  {
   "property": "C48",
   "status": "proved",
   "theorems": [
    "Dupi.Props.C48_roundtrip",
    "Dupi.Props.C48_false_utf8",
    "Dupi.Props.C48_created"
   ],
   "note": "With encoding/json written down as a model (reader and writer). C48_false_utf8: a root that is not valid UTF-8 never reads back as itself."
  },
  {
   "property": "C49",
   "status": "partial",
   "theorems": [
    "Dupi.Props.C49_blots_partial",
    "Dupi.Props.C49_panics_partial",
    "Dupi.Props.C49_iff_partial",
    "Dupi.Props.C49_opens",
    "Dupi.Props.C49_false",
    "Dupi.Props.C49_nonvacuous",
    "Dupi.Props.C49_false_shards"
   ],
   "note": "false as stated; the configurations with which BlotDoc returns for every text are characterised (C49_iff_partial), with an accepted file of each bad kind"
  },
  {
   "property": "C50",
   "status": "partial",
   "theorems": [
    "Dupi.Props.C50_order_partial",
    "Dupi.Props.C50_result_partial",
    "Dupi.Props.C50_progress_partial",
    "Dupi.Props.C50_locked_partial",
    "Dupi.Props.C50_locked_ends",
    "Dupi.Props.C50_false_deadlock"
   ],
   "note": "False of the code: C50_false_deadlock reaches, with two callers and any number of shatterers, a state without a next step in which a document was never handed over. Proved instead, for any number of callers and every schedule: shards receive the documents in id order and nothing panics; a session that ends leaves the index of a single caller adding an interleaving; a state without a next step is the end or that deadlock; if callers hold a mutex of their own around Add the session always ends. doc2Id is taken as atomic (the code does not ensure that either)."
  },
  {
   "property": "C51",
   "status": "partial",
   "theorems": [
    "Dupi.Props.C51_unlogged_partial",
    "Dupi.Props.C51_get_partial",
    "Dupi.Props.C51_false_nil",
    "Dupi.Props.C51_false_retry",
    "Dupi.Props.C51_false_nil_nonvacuous",
    "Dupi.Props.C51_false_retry_nonvacuous"
   ],
   "note": "False as stated (C51_false_nil: a failed write of a posting list is only logged, Adds and Close return nil and Get fails; C51_false_retry: a caller that carries on after an error of Add gets documents shown as others). Proved: if all Adds and Close return nil, all files but those of shards for which a line was logged are as without failures, and every Get that succeeds is right."
  },
  {
   "property": "C52",
   "status": "proved",
   "theorems": [
    "Dupi.Props.C52_open",
    "Dupi.Props.C52_get",
    "Dupi.Props.C52_apart",
    "Dupi.Props.C52_created",
    "Dupi.Props.C52_possible",
    "Dupi.Props.C52_nonvacuous"
   ],
   "note": "The disk refines a catalogue from places to configurations and sessions (C52_open, C52_get, C52_apart); everything the catalogue allows can happen (C52_possible); C52_created ties it to CreateIndexer. Programs run one after the other (locks: C32); no symbolic links."
  },
  {
   "property": "C53",
   "status": "partial",
   "theorems": [
    "Dupi.Props.C53_partial",
    "Dupi.Props.C53_false_moved",
    "Dupi.Props.C53_false_copied",
    "Dupi.Props.C53_false_relative",
    "Dupi.Props.C53_false_utf8"
   ],
   "note": "False as stated, for every index: C53_false_moved, C53_false_copied (a copy opens, appends to and removes the original), C53_false_relative, C53_false_utf8. Proved: where the recorded root leads to the directory itself (always, as long as nothing is moved: C52), the index opened is the one in the directory."
  },
  {
   "property": "C54",
   "status": "partial",
   "theorems": [
    "Dupi.Props.C54_constant",
    "Dupi.Props.C54_quiet_partial",
    "Dupi.Props.C54_few_partial",
    "Dupi.Props.C54_sound_partial",
    "Dupi.Props.C54_absent_partial",
    "Dupi.Props.C54_false_new",
    "Dupi.Props.C54_false_panic",
    "Dupi.Props.C54_limited_partial",
    "Dupi.Props.C54_end",
    "Dupi.Props.C54_false_link",
    "Dupi.Props.C54_nonvacuous"
   ],
   "note": "False of the code as stated (C54_false_new, C54_false_panic, C54_false_link). Proved: for every choice of moments, also with torn writes, Get of a blot no new document has returns exactly the old documents (C54_quiet_partial), the same for blots at most 102 new documents have until the shards are closed (C54_few_partial); a blot no old document has is answered empty whatever happens to the files (C54_absent_partial); for all blots Get returns the old documents followed by the first few new ones, or an error, or panics, the latter only for a path not in the old table (C54_sound_partial, C54_limited_partial). Next: C76."
  },
  {
   "property": "C55",
   "status": "proved",
   "theorems": [
    "Dupi.Props.C55_mean",
    "Dupi.Props.C55_sigma",
    "Dupi.Props.C55_flat"
   ],
   "note": "for every index after any history, with or without fused multiply-add; float64 arithmetic is modelled as IEEE 754 binary64 rounding of real numbers"
  },
  {
   "property": "C56",
   "status": "proved",
   "theorems": [
    "Dupi.Props.C56_sigma"
   ],
   "note": "threshold within the stated error of mean + sigma * deviation; the blots printed are exactly those of C39 for it; for |sigma| <= 2^20"
  },
  {
   "property": "C57",
   "status": "partial",
   "theorems": [
    "Dupi.Props.C57_runs_partial",
    "Dupi.Props.C57_false_root_named_as_verb",
    "Dupi.Props.C57_false_stray"
   ],
   "note": "false as stated (C57_false_root_named_as_verb, C57_false_stray); true of all command lines in which no -r ROOT has the name of a verb for ROOT"
  },
  {
   "property": "C58",
   "status": "partial",
   "theorems": [
    "Dupi.Props.C58_index_partial",
    "Dupi.Props.C58_false_t",
    "Dupi.Props.C58_add_partial",
    "Dupi.Props.C58_config_partial",
    "Dupi.Props.C58_like_partial",
    "Dupi.Props.C58_false_like"
   ],
   "note": "false as stated (C58_false_t, C58_false_like); everything else holds for all options in all ways of writing"
  },
  {
   "property": "C59",
   "status": "partial",
   "theorems": [
    "Dupi.Props.C59_printed_partial",
    "Dupi.Props.C59_hex_partial",
    "Dupi.Props.C59_false_0x",
    "Dupi.Props.C59_false_junk"
   ],
   "note": "false as stated (C59_false_0x, C59_false_junk); numbers are read as what they are"
  },
  {
   "property": "C60",
   "status": "partial",
   "theorems": [
    "Dupi.Props.C60_extract_partial",
    "Dupi.Props.C60_line_partial",
    "Dupi.Props.C60_doc_partial",
    "Dupi.Props.C60_false_space",
    "Dupi.Props.C60_false_newline"
   ],
   "note": "false as stated (C60_false_space, C60_false_newline); true of paths without space and newline"
  },
  {
   "property": "C61",
   "status": "partial",
   "theorems": [
    "Dupi.Props.C61_open_partial",
    "Dupi.Props.C61_append_partial",
    "Dupi.Props.C61_false_append",
    "Dupi.Props.C61_get_partial",
    "Dupi.Props.C61_next_partial"
   ],
   "note": "false as stated for opening to append (C61_false_append); OpenIndex, Get and Next have it for all failures, opening to append if reads go on failing"
  },
  {
   "property": "C62",
   "status": "partial",
   "theorems": [
    "Dupi.Props.C62_next_partial",
    "Dupi.Props.C62_false_next",
    "Dupi.Props.C62_false_get",
    "Dupi.Props.C62_nonvacuous"
   ],
   "note": "false as stated (C62_false_next, C62_false_get); C62_next_partial says exactly what comes after an error of Next"
  },
  {
   "property": "C63",
   "status": "proved",
   "theorems": [
    "Dupi.Props.C63_index",
    "Dupi.Props.C63_add",
    "Dupi.Props.C63_extract",
    "Dupi.Props.C63_index_extract",
    "Dupi.Props.C63_shared",
    "Dupi.Props.C63_nonvacuous"
   ],
   "note": "Whole runs: both commands from the command line to the disk and the printed text. Adding a document is taken to succeed (true within Fits); -sigma between -2^20 and 2^20; the trees do not change while they are walked."
  },
  {
   "property": "C64",
   "status": "partial",
   "theorems": [
    "Dupi.Props.C64_inspect_partial",
    "Dupi.Props.C64_false_docs",
    "Dupi.Props.C64_no_index",
    "Dupi.Props.C64_nonvacuous"
   ],
   "note": "the number of documents printed is one too large; all else proved"
  },
  {
   "property": "C65",
   "status": "proved",
   "theorems": [
    "Dupi.Props.C65_blot",
    "Dupi.Props.C65_nonvacuous"
   ],
   "note": "without -offsets"
  },
  {
   "property": "C66",
   "status": "proved",
   "theorems": [
    "Dupi.Props.C66_unblot",
    "Dupi.Props.C66_unblot_stops",
    "Dupi.Props.C66_blot_unblot",
    "Dupi.Props.C66_nonvacuous"
   ],
   "note": "fewer than 65536 shards, files unchanged"
  },
  {
   "property": "C67",
   "status": "proved",
   "theorems": [
    "Dupi.Props.C67_like",
    "Dupi.Props.C67_like_stops",
    "Dupi.Props.C67_nonvacuous"
   ],
   "note": "documents starting at 0, as index creates them; fewer than 65536 shards, files unchanged"
  },
  {
   "property": "C68",
   "status": "partial",
   "theorems": [
    "Dupi.Props.C68_index_partial",
    "Dupi.Props.C68_false_load",
    "Dupi.Props.C68_extract_partial",
    "Dupi.Props.C68_false_close",
    "Dupi.Props.C68_false_unclosed",
    "Dupi.Props.C68_nonvacuous"
   ],
   "note": "False as stated: no document can be loaded again (C68_false_load), after a faulty record the index is not closed and cannot be opened (C68_false_close, C68_false_unclosed). Proved: documents and texts of every csv file, and what extract prints of them."
  },
  {
   "property": "C69",
   "status": "partial",
   "theorems": [
    "Dupi.Props.C69_copy_partial",
    "Dupi.Props.C69_false_end",
    "Dupi.Props.C69_false_short",
    "Dupi.Props.C69_nonvacuous"
   ],
   "note": "False as stated: the writer is not flushed (C69_false_end, C69_false_short). Proved: what is printed is the csv text of the first records except for at most 4096 bytes at the end."
  },
  {
   "property": "C70",
   "status": "partial",
   "theorems": [
    "Dupi.Props.C70_told",
    "Dupi.Props.C70_json_partial",
    "Dupi.Props.C70_false_told",
    "Dupi.Props.C70_false_json"
   ],
   "note": "False of the code as stated (C70_false_json, C70_false_told). Proved: the output of a whole run is one JSON array per blot found, with exactly its documents, in order; it is a JSON text iff there is exactly one; it determines blots and documents if the paths are UTF-8."
  },
  {
   "property": "C71",
   "status": "partial",
   "theorems": [
    "Dupi.Props.C71_inspect_partial",
    "Dupi.Props.C71_false_docs",
    "Dupi.Props.C71_nonvacuous"
   ],
   "note": "False of the code as stated (C71_false_docs: NumDocs is one too large). Everything else is proved for whole runs, under the assumption that encoding/json writes float64s so that they are read back."
  },
  {
   "property": "C72",
   "status": "partial",
   "theorems": [
    "Dupi.Props.C72_read",
    "Dupi.Props.C72_index_partial",
    "Dupi.Props.C72_false_add",
    "Dupi.Props.C72_index_extract_partial",
    "Dupi.Props.C72_shared_partial",
    "Dupi.Props.C72_false_relative",
    "Dupi.Props.C72_nonvacuous",
    "Dupi.Props.C72_false_relative_ex"
   ],
   "note": "False of the code as stated (C72_false_add: -a is not overridden and FILE not read; C72_false_relative: with a relative IndexRoot the index is not found from other directories). Without -a and with an absolute IndexRoot proved for whole runs, all JSON texts of the configuration, all schedules."
  },
  {
   "property": "C73",
   "status": "partial",
   "theorems": [
    "Dupi.Props.C73_no_verb",
    "Dupi.Props.C73_unknown",
    "Dupi.Props.C73_no_index",
    "Dupi.Props.C73_extract",
    "Dupi.Props.C73_inspect",
    "Dupi.Props.C73_blot",
    "Dupi.Props.C73_false_blot",
    "Dupi.Props.C73_unblot",
    "Dupi.Props.C73_unblot_stops",
    "Dupi.Props.C73_like",
    "Dupi.Props.C73_index_there",
    "Dupi.Props.C73_add_none",
    "Dupi.Props.C73_index_partial",
    "Dupi.Props.C73_add_partial",
    "Dupi.Props.C73_index_possible",
    "Dupi.Props.C73_false_index",
    "Dupi.Props.C73_false_index_ex",
    "Dupi.Props.C73_nonvacuous",
    "Dupi.Props.C73_misused",
    "Dupi.Props.C73_global",
    "Dupi.Props.C73_lines"
   ],
   "note": "False of the code as stated (C73_false_index: a file that cannot be opened in a directory: status 0, nothing after it is indexed; C73_false_blot: status 0 if no file can be read). Proved for all command lines that are not as the usage messages want them (C73_lines shows the classification to be complete), for all verbs without an index, for extract, inspect, blot, unblot, like, and for index (new and -a) if no visible file fails to be opened (exactly if everything visible can be read)."
  },
  {
   "property": "C74",
   "status": "proved",
   "theorems": [
    "Dupi.Props.C74_readers",
    "Dupi.Props.C74_changes",
    "Dupi.Props.C74_sequence",
    "Dupi.Props.C74_extract",
    "Dupi.Props.C74_nonvacuous"
   ],
   "note": "Sequences of arbitrary runs, by induction; needs room (Fits) for the documents in the end and usable configurations with absolute roots for indexes that are made."
  },
  {
   "property": "C75",
   "status": "partial",
   "theorems": [
    "Dupi.Props.C75_exclusive_partial",
    "Dupi.Props.C75_release_partial",
    "Dupi.Props.C75_false_readers",
    "Dupi.Props.C75_false_shared",
    "Dupi.Props.C75_nonvacuous"
   ],
   "note": "False as stated: readers do not share (C75_false_readers, C75_false_shared). Proved: exclusion of all handles in use, release by Unlock. LockFileEx is written down from its documentation."
  },
  {
   "property": "C76",
   "status": "partial",
   "theorems": [
    "Dupi.Props.C76_constant",
    "Dupi.Props.C76_sound_partial",
    "Dupi.Props.C76_quiet_partial",
    "Dupi.Props.C76_false_extra",
    "Dupi.Props.C76_nonvacuous"
   ],
   "note": "False as stated: after a session a reader that would have returned io.EOF delivers blots with one old document (C76_false_extra); new documents appear in the lists, and errors and panics are possible as in C54. Proved: exact when no new document has a blot an old one has, also with torn writes (C76_quiet_partial); for all sessions and moments the old enumeration is delivered in order with all old documents, then at most one extra blot for each shard, or an error or a panic under stated conditions (C76_sound_partial). Calls with a bounded slice (limited extraction) on a changing index are modelled (C76_constant) but nothing else is proved of them."
  },
  {
   "property": "C77",
   "status": "partial",
   "theorems": [
    "Dupi.Props.C77_index",
    "Dupi.Props.C77_session",
    "Dupi.Props.C77_close_partial",
    "Dupi.Props.C77_open_partial",
    "Dupi.Props.C77_false_open",
    "Dupi.Props.C77_false_exists",
    "Dupi.Props.C77_false_shard",
    "Dupi.Props.C77_false_close",
    "Dupi.Props.C77_false_unreported",
    "Dupi.Props.C77_false_lock_error",
    "Dupi.Props.C77_nonvacuous"
   ],
   "note": "after a successful OpenIndex, Close gives up everything whatever fails (C77_index); a session whose Close returns nil holds nothing (C77_session); files opened for one part are closed on every path (C77_open_partial, C77_close_partial). False for failed openings, for a failing Close of an indexer, and for errors of closing (C77_false_*)"
  },
  {
   "property": "C78",
   "status": "proved",
   "theorems": [
    "Dupi.Props.C78_values",
    "Dupi.Props.C78_one",
    "Dupi.Props.C78_read",
    "Dupi.Props.C78_refused",
    "Dupi.Props.C78_run",
    "Dupi.Props.C78_open",
    "Dupi.Props.C78_opened",
    "Dupi.Props.C78_again",
    "Dupi.Props.C78_json",
    "Dupi.Props.C78_unknown",
    "Dupi.Props.C78_lenient",
    "Dupi.Props.C78_nonvacuous"
   ],
   "note": "an equivalence for every file of bytes (C78_read), errors for all others (C78_refused, C78_open, C78_run), what the values are (C78_values, C78_again, C78_one), and how the specification treats JSON texts, unknown names and texts that are not UTF-8 (C78_json, C78_unknown, C78_lenient)"
  },
  {
   "property": "C79",
   "status": "partial",
   "theorems": [
    "Dupi.Props.C79_always",
    "Dupi.Props.C79_same",
    "Dupi.Props.C79_ordered_partial",
    "Dupi.Props.C79_arm64_partial",
    "Dupi.Props.C79_amd64",
    "Dupi.Props.C79_false_amd64",
    "Dupi.Props.C79_run_always",
    "Dupi.Props.C79_run_ordered_partial",
    "Dupi.Props.C79_run_arm64_partial",
    "Dupi.Props.C79_run_amd64",
    "Dupi.Props.C79_false_ex"
   ],
   "note": "Proved on every processor for values between -2^20 and 2^20, and on arm64 for any two numbers; every run with any value prints precisely the blots above some threshold. False on amd64 (C79_amd64, C79_false_amd64): NaN, infinities and values of either sign whose product with the deviation is 2^65 or more make the conversion to int give the least int, and every shared blot is printed."
  },
  {
   "property": "C80",
   "status": "proved",
   "theorems": [
    "Dupi.Props.C80_exact",
    "Dupi.Props.C80_decimal",
    "Dupi.Props.C80_range",
    "Dupi.Props.C80_octal",
    "Dupi.Props.C80_octal_refused",
    "Dupi.Props.C80_refused",
    "Dupi.Props.C80_value",
    "Dupi.Props.C80_index",
    "Dupi.Props.C80_octal_ex"
   ],
   "note": "What is read is exactly the signed integer literals of the Go specification in the range of int64 (C80_exact); C80_decimal, C80_range, C80_octal and C80_octal_refused say what that means for numbers in decimal digits; everything else ends with status 2 and no effect (C80_refused); the numbers arrive in the configuration (C80_index)."
  },
  {
   "property": "C81",
   "status": "proved",
   "theorems": [
    "Dupi.Props.C81_race",
    "Dupi.Props.C81_kept",
    "Dupi.Props.C81_any",
    "Dupi.Props.C81_late",
    "Dupi.Props.C81_false"
   ],
   "note": "No write meets a reader (C81_race) and the index is the one of the documents at their Add (C81_kept) if buffers are kept for NumShatters further Adds; C81_any for arbitrary programs; C81_late and C81_false show that fewer are not enough, for every number of shatterers. One document is read in one step (Model/Reuse)."
  },
  {
   "property": "C82",
   "status": "proved",
   "theorems": [
    "Dupi.Props.C82_posts",
    "Dupi.Props.C82_entries",
    "Dupi.Props.C82_heads",
    "Dupi.Props.C82_documents",
    "Dupi.Props.C82_paths",
    "Dupi.Props.C82_only",
    "Dupi.Props.C82_texts",
    "Dupi.Props.C82_single",
    "Dupi.Props.C82_nonvacuous"
   ],
   "note": "C82_posts (both bounds), C82_entries, C82_single, C82_texts, C82_heads, C82_documents, C82_paths, C82_only."
  },
  {
   "property": "C83",
   "status": "proved",
   "theorems": [
    "Dupi.Props.C83_config",
    "Dupi.Props.C83_posts",
    "Dupi.Props.C83_shard",
    "Dupi.Props.C83_documents",
    "Dupi.Props.C83_paths",
    "Dupi.Props.C83_nothing",
    "Dupi.Props.C83_idle",
    "Dupi.Props.C83_nonvacuous"
   ],
   "note": "C83_config, C83_documents, C83_paths, C83_shard, C83_posts, C83_nothing, C83_idle."
  },
  {
   "property": "C84",
   "status": "partial",
   "theorems": [
    "Dupi.Props.C84_iff_partial",
    "Dupi.Props.C84_false_shatters",
    "Dupi.Props.C84_false_shards",
    "Dupi.Props.C84_false_seq",
    "Dupi.Props.C84_false_check",
    "Dupi.Props.C84_create",
    "Dupi.Props.C84_nonvacuous"
   ],
   "note": "false as stated; exactly which configurations work (C84_iff_partial), when an indexer is returned (C84_create), and what happens with the others (C84_false_*)"
  },
  {
   "property": "C85",
   "status": "partial",
   "theorems": [
    "Dupi.Props.C85_false",
    "Dupi.Props.C85_dmd_partial",
    "Dupi.Props.C85_false_dmd",
    "Dupi.Props.C85_nonvacuous"
   ],
   "note": "false as stated (C85_false, C85_false_dmd); where every call after Close ends and what is written of dmd is proved"
  },
  {
   "property": "C86",
   "status": "partial",
   "theorems": [
    "Dupi.Props.C86_added",
    "Dupi.Props.C86_fresh_partial",
    "Dupi.Props.C86_false",
    "Dupi.Props.C86_false_path",
    "Dupi.Props.C86_nonvacuous"
   ],
   "note": "false as stated (C86_false); exactly what is added is C86_added, and C86_fresh_partial says when that is what was meant"
  },
  {
   "property": "C87",
   "status": "proved",
   "theorems": [
    "Dupi.Props.C87_every",
    "Dupi.Props.C87_replaced",
    "Dupi.Props.C87_sharp",
    "Dupi.Props.C87_inserted",
    "Dupi.Props.C87_nonvacuous"
   ],
   "note": "for replaced words; C87_sharp and C87_inserted say what interleaving does not help with"
  },
  {
   "property": "C88",
   "status": "partial",
   "theorems": [
    "Dupi.Props.C88_letter",
    "Dupi.Props.C88_last",
    "Dupi.Props.C88_parity",
    "Dupi.Props.C88_false",
    "Dupi.Props.C88_nonvacuous"
   ],
   "note": "false as stated (C88_false); which windows are confused for certain is C88_parity, and C88_letter, C88_last say which never are"
  },
  {
   "property": "C89",
   "status": "proved",
   "theorems": [
    "Dupi.Props.C89_posts",
    "Dupi.Props.C89_lists",
    "Dupi.Props.C89_records",
    "Dupi.Props.C89_nonvacuous"
   ],
   "note": "posts held by the goroutines, posting lists in memory, records in memory"
  },
  {
   "property": "C90",
   "status": "partial",
   "theorems": [
    "Dupi.Props.C90_left",
    "Dupi.Props.C90_made",
    "Dupi.Props.C90_config",
    "Dupi.Props.C90_stuck",
    "Dupi.Props.C90_refused",
    "Dupi.Props.C90_unopened",
    "Dupi.Props.C90_again_partial",
    "Dupi.Props.C90_nonvacuous",
    "Dupi.Props.C90_nonvacuous_open"
   ],
   "note": "false as stated: an attempt that failed after os.Mkdir cannot be repeated; what is left, and when, is proved"
  },
  {
   "property": "C91",
   "status": "partial",
   "theorems": [
    "Dupi.Props.C91_pipe",
    "Dupi.Props.C91_texts",
    "Dupi.Props.C91_sound",
    "Dupi.Props.C91_false",
    "Dupi.Props.C91_nonvacuous"
   ],
   "note": "false as stated (C91_false): of passages of one document with the same blot only the first is considered; C91_pipe, C91_sound and C91_texts say exactly what is printed"
  },
  {
   "property": "C92",
   "status": "partial",
   "theorems": [
    "Dupi.Props.C92_any_partial",
    "Dupi.Props.C92_ends",
    "Dupi.Props.C92_false",
    "Dupi.Props.C92_nonvacuous"
   ],
   "note": "false as stated (C92_false: with two shards a blot can be delivered twice); proved: every loop of calls ends, whatever the capacities (C92_ends), and what is returned is right (C92_any_partial)"
  },
  {
   "property": "C93",
   "status": "proved",
   "theorems": [
    "Dupi.Props.C93_config",
    "Dupi.Props.C93_cut",
    "Dupi.Props.C93_answers",
    "Dupi.Props.C93_noticed",
    "Dupi.Props.C93_nonvacuous"
   ],
   "note": "reading only; the figures Stats prints are not covered, a shorter dmd file changes the number of documents"
  },
  {
   "property": "C94",
   "status": "partial",
   "theorems": [
    "Dupi.Props.C94_next_partial",
    "Dupi.Props.C94_walk",
    "Dupi.Props.C94_ends_partial",
    "Dupi.Props.C94_false_hang",
    "Dupi.Props.C94_false_panic",
    "Dupi.Props.C94_false_append",
    "Dupi.Props.C94_nonvacuous"
   ],
   "note": "False as stated: for every index with a document that has some blot, ten bytes written into a posting file make opening it to append and a Get run for ever, one byte makes every Get of a blot panic, and ten bytes make opening to append panic. Proved: opening for reading always works; opening to append, Get and Next end with a result or an error unless the links from a head are endless or lead to a length dupi does not write (for going to the last link, an equivalence)."
  },
  {
   "property": "C95",
   "status": "partial",
   "theorems": [
    "Dupi.Props.C95_refused",
    "Dupi.Props.C95_unharmed",
    "Dupi.Props.C95_false",
    "Dupi.Props.C95_nonvacuous",
    "Dupi.Props.C95_refused_nonvacuous"
   ],
   "note": "False of the document records: when the dmd file is gone or ends early, the index is opened for adding, the ids of the lost documents are given to the new ones, and Get returns new documents for blots they do not have (C95_false gives the exact answers for whole records lost; C117_false: cut inside a record, the path of the old document is found for the new one). Proved: loss in any other file is refused with an error, and if the records are intact and opening succeeds, sessions leave what they would have left without the loss."
  },
  {
   "property": "C96",
   "status": "partial",
   "theorems": [
    "Dupi.Props.C96_rest",
    "Dupi.Props.C96_separate_partial",
    "Dupi.Props.C96_whole_partial",
    "Dupi.Props.C96_false",
    "Dupi.Props.C96_nonvacuous",
    "Dupi.Props.C96_nonvacuous_separate"
   ],
   "note": "False when two of the slices overlap up to their capacities, for example docs[0:0] and docs[1:1]: Next extends a slice up to its capacity, so the second blot overwrites what the first one shows (C96_false, element by element). Proved: with slices no element of which belongs to two, every call returns what it would return with an array for each (C96_separate_partial, C96_whole_partial), and changes nothing else in memory (C96_rest)."
  },
  {
   "property": "C97",
   "status": "partial",
   "theorems": [
    "Dupi.Props.C97_open",
    "Dupi.Props.C97_path",
    "Dupi.Props.C97_get_partial",
    "Dupi.Props.C97_next_partial",
    "Dupi.Props.C97_append_partial",
    "Dupi.Props.C97_false_table",
    "Dupi.Props.C97_false_get",
    "Dupi.Props.C97_false_endless",
    "Dupi.Props.C97_sessions"
   ],
   "note": "False as stated (C97_false_table, C97_false_get, C97_false_endless: a few bytes in the path table make opening, or every Get of a blot with documents, panic or run for ever). Proved for all directories: exactly when opening for reading succeeds, panics or reports an error; exactly when the path of a document is an error, a panic or endless; and conditions under which Get, Next and opening to append end with a result or an error. The exact conditions are C114 for Get, C115 for Next (up to a list that has fewer documents than its head says), C116 for opening to append, C117 for adding and closing then. Memory is taken to be unlimited."
  },
  {
   "property": "C98",
   "status": "partial",
   "theorems": [
    "Dupi.Props.C98_later_partial",
    "Dupi.Props.C98_config_partial",
    "Dupi.Props.C98_open_partial",
    "Dupi.Props.C98_get_partial",
    "Dupi.Props.C98_false_paths",
    "Dupi.Props.C98_false_records",
    "Dupi.Props.C98_false_heads",
    "Dupi.Props.C98_posts_partial"
   ],
   "note": "False as stated, with three kinds of loss that make Get of every index panic or answer wrongly (and C118_false_link: a lost last link). Proved: the configuration is read as it was or refused; a list that begins in a lost page gives an error; after any loss in posting files Get of a blot returns what it returned, or an error, or the first page of the list that lost a byte is across two pages of the disk and then what is before it is still returned (C98_later_partial); Next returns what it did up to the first list that lost a byte (C115)."
  },
  {
   "property": "C99",
   "status": "partial",
   "theorems": [
    "Dupi.Props.C99_runs",
    "Dupi.Props.C99_false_lost",
    "Dupi.Props.C99_old_partial",
    "Dupi.Props.C99_get_partial",
    "Dupi.Props.C99_false_mixed",
    "Dupi.Props.C99_idle_partial",
    "Dupi.Props.C99_nonvacuous",
    "Dupi.Props.C99_false_panics"
   ],
   "note": "false as stated (C99_false_lost, C99_false_mixed, C99_false_panics); proved: what Get returns for blots no new document has, for every blot if the first indexer added no new paths, and for every blot if the second one adds nothing"
  },
  {
   "property": "C100",
   "status": "partial",
   "theorems": [
    "Dupi.Props.C100_close_partial",
    "Dupi.Props.C100_false_lock",
    "Dupi.Props.C100_calls_partial",
    "Dupi.Props.C100_false_get",
    "Dupi.Props.C100_fresh_partial",
    "Dupi.Props.C100_false_next",
    "Dupi.Props.C100_nonvacuous"
   ],
   "note": "false as stated (C100_false_lock, C100_false_get, C100_false_next); proved: what Close does, what every call after it gives whatever was called before and after, and that the first Next is not taken for the end"
  },
  {
   "property": "C101",
   "status": "proved",
   "theorems": [
    "Dupi.Props.C101_get",
    "Dupi.Props.C101_next",
    "Dupi.Props.C101_shards_get",
    "Dupi.Props.C101_shards_next",
    "Dupi.Props.C101_nonvacuous"
   ],
   "note": ""
  },
  {
   "property": "C102",
   "status": "proved",
   "theorems": [
    "Dupi.Props.C102_get",
    "Dupi.Props.C102_next"
   ],
   "note": ""
  },
  {
   "property": "C103",
   "status": "proved",
   "theorems": [
    "Dupi.Props.C103_get",
    "Dupi.Props.C103_next"
   ],
   "note": ""
  },
  {
   "property": "C104",
   "status": "partial",
   "theorems": [
    "Dupi.Props.C104_get_partial",
    "Dupi.Props.C104_next_partial",
    "Dupi.Props.C104_cut",
    "Dupi.Props.C104_false"
   ],
   "note": "false as stated (C104_false): the last character of a text is dropped; proved for texts after whose last word something comes, and C104_cut says exactly what the others count as"
  },
  {
   "property": "C105",
   "status": "partial",
   "theorems": [
    "Dupi.Props.C105_created_partial",
    "Dupi.Props.C105_appended_partial",
    "Dupi.Props.C105_below_partial",
    "Dupi.Props.C105_false",
    "Dupi.Props.C105_reopened_partial",
    "Dupi.Props.C105_nonvacuous",
    "Dupi.Props.C105_found_partial",
    "Dupi.Props.C105_found_appended_partial",
    "Dupi.Props.C105_found_false",
    "Dupi.Props.C105_found_nonvacuous",
    "Dupi.Props.C105_limited_partial",
    "Dupi.Props.C105_limited_nonvacuous",
    "Dupi.Props.C105_next_partial",
    "Dupi.Props.C105_next_appended_partial",
    "Dupi.Props.C105_next_false",
    "Dupi.Props.C105_next_nonvacuous",
    "Dupi.Props.C105_sessions_partial",
    "Dupi.Props.C105_sessions_exist_partial",
    "Dupi.Props.C105_sessions_false",
    "Dupi.Props.C105_sessions_nonvacuous"
   ],
   "note": "false as stated (C105_false): ids are 32 bit numbers that wrap around unnoticed; what happens for any number of documents is proved (C105_created_partial, C105_appended_partial), for the records and ids, and for the posting lists and what Get shows after a session of any number of documents, under all schedules (C105_found_partial, C105_found_appended_partial; C105_found_false: a document is found under the id of another); likewise what Next delivers (C105_next_partial, C105_next_appended_partial; C105_next_false: two documents with the same text and the same id are passed over); both after any number of sessions with any numbers of documents (C105_sessions_partial, C105_sessions_exist_partial, C105_sessions_false); Next with slices of any capacities is C105_limited_partial; missing: lists of 2^32 entries"
  },
  {
   "property": "C106",
   "status": "partial",
   "theorems": [
    "Dupi.Props.C106_none_read",
    "Dupi.Props.C106_open_partial",
    "Dupi.Props.C106_false"
   ],
   "note": "false as stated (C106_none_read, C106_false): a table of 2^32 entries is read back as an empty one; up to that the table in memory is right (C106_open_partial)"
  },
  {
   "property": "C107",
   "status": "partial",
   "theorems": [
    "Dupi.Props.C107_apart_partial",
    "Dupi.Props.C107_false_ids",
    "Dupi.Props.C107_false_paths",
    "Dupi.Props.C107_memory",
    "Dupi.Props.C107_nonvacuous"
   ],
   "note": "False as stated; C107_false_ids and C107_false_paths give the interleavings, for all indexes and documents; calls that do not overlap are proved right"
  },
  {
   "property": "C108",
   "status": "partial",
   "theorems": [
    "Dupi.Props.C108_load",
    "Dupi.Props.C108_whole",
    "Dupi.Props.C108_unblot_partial",
    "Dupi.Props.C108_false_text",
    "Dupi.Props.C108_false_unblot",
    "Dupi.Props.C108_false_blanks",
    "Dupi.Props.C108_false_panic",
    "Dupi.Props.C108_nonvacuous",
    "Dupi.Props.C108_unblot"
   ],
   "note": "False as stated for files of 4 GiB and more; what is loaded, and what unblot prints or that it panics, is proved for any number of files of any lengths (C108_unblot); of like only what C121_like says, which has no bound on the files of the documents"
  },
  {
   "property": "C109",
   "status": "partial",
   "theorems": [
    "Dupi.Props.C109_config",
    "Dupi.Props.C109_putOnes",
    "Dupi.Props.C109_count",
    "Dupi.Props.C109_positions",
    "Dupi.Props.C109_estimate",
    "Dupi.Props.C109_false_large",
    "Dupi.Props.C109_false_power",
    "Dupi.Props.C109_nonvacuous"
   ],
   "note": "False as stated for sizes that are multiples of 2^32 bits (panic) or powers of 2 (values with hashes that agree modulo the size are not told apart); all else proved"
  },
  {
   "property": "C110",
   "status": "proved",
   "theorems": [
    "Dupi.Props.C110_get",
    "Dupi.Props.C110_get_limited",
    "Dupi.Props.C110_least",
    "Dupi.Props.C110_next"
   ],
   "note": "io.ReadFull and ReadAt count as one call each. Next with nil Docs."
  },
  {
   "property": "C111",
   "status": "proved",
   "theorems": [
    "Dupi.Props.C111_local",
    "Dupi.Props.C111_byte"
   ],
   "note": ""
  },
  {
   "property": "C112",
   "status": "proved",
   "theorems": [
    "Dupi.Props.C112_records",
    "Dupi.Props.C112_record_byte",
    "Dupi.Props.C112_ends",
    "Dupi.Props.C112_names"
   ],
   "note": "any contents of the metadata file for Get, any change of starts, ends and names for Get and Next; a changed number of a path may make a query panic (C97)"
  },
  {
   "property": "C113",
   "status": "proved",
   "theorems": [
    "Dupi.Props.C113_local",
    "Dupi.Props.C113_bytes",
    "Dupi.Props.C113_byte"
   ],
   "note": "any files of heads and posting files for Get; a byte that gets or loses its top bit moves all later entries, and then only the general statement (lists that still begin where they began) applies"
  },
  {
   "property": "C114",
   "status": "proved",
   "theorems": [
    "Dupi.Props.C114_get",
    "Dupi.Props.C114_one",
    "Dupi.Props.C114_sessions",
    "Dupi.Props.C114_nonvacuous"
   ],
   "note": "directories with at least one shard (with none, Get panics: C97); memory is taken to be unlimited; uses classical case distinction"
  },
  {
   "property": "C115",
   "status": "proved",
   "theorems": [
    "Dupi.Props.C115_next",
    "Dupi.Props.C115_sessions",
    "Dupi.Props.C115_local",
    "Dupi.Props.C115_nonvacuous"
   ],
   "note": ""
  },
  {
   "property": "C116",
   "status": "proved",
   "theorems": [
    "Dupi.Props.C116_open",
    "Dupi.Props.C116_state",
    "Dupi.Props.C116_sessions",
    "Dupi.Props.C116_lax",
    "Dupi.Props.C116_nonvacuous"
   ],
   "note": "Memory is taken to be unlimited."
  },
  {
   "property": "C117",
   "status": "proved",
   "theorems": [
    "Dupi.Props.C117_runs",
    "Dupi.Props.C117_records",
    "Dupi.Props.C117_shards",
    "Dupi.Props.C117_opens",
    "Dupi.Props.C117_lists",
    "Dupi.Props.C117_get",
    "Dupi.Props.C117_false_cut",
    "Dupi.Props.C117_false",
    "Dupi.Props.C117_mends",
    "Dupi.Props.C117_nonvacuous"
   ],
   "note": "All parts of the statement are proved for every directory that Indexer.open opens; the posting files are assumed to be of less than 2^63 bytes where stated, and the configuration file as the program writes it for opening afterwards."
  },
  {
   "property": "C118",
   "status": "proved",
   "theorems": [
    "Dupi.Props.C118_get",
    "Dupi.Props.C118_lost",
    "Dupi.Props.C118_false_link",
    "Dupi.Props.C118_nonvacuous"
   ],
   "note": "All parts of the statement are proved for every directory that opens."
  },
  {
   "property": "C119",
   "status": "proved",
   "theorems": [
    "Dupi.Props.C119_ids",
    "Dupi.Props.C119_string",
    "Dupi.Props.C119_files",
    "Dupi.Props.C119_any",
    "Dupi.Props.C119_damaged"
   ],
   "note": "Numbers, printed text and the two files exactly, for every division into sessions; String for any table."
  },
  {
   "property": "C120",
   "status": "proved",
   "theorems": [
    "Dupi.Props.C120_drawn",
    "Dupi.Props.C120_sessions",
    "Dupi.Props.C120_get",
    "Dupi.Props.C120_nonvacuous"
   ],
   "note": "C120_drawn: any directory, any slices; C120_sessions and C120_get: other heads and postings of an index made by sessions"
  },
  {
   "property": "C121",
   "status": "proved",
   "theorems": [
    "Dupi.Props.C121_unblot",
    "Dupi.Props.C121_extract",
    "Dupi.Props.C121_inspect",
    "Dupi.Props.C121_nonvacuous",
    "Dupi.Props.C121_extract_all",
    "Dupi.Props.C121_extract_nonvacuous",
    "Dupi.Props.C121_like",
    "Dupi.Props.C121_like_nonvacuous",
    "Dupi.Props.C121_like_all",
    "Dupi.Props.C121_like_usual",
    "Dupi.Props.C121_like_all_nonvacuous"
   ],
   "note": "C121_unblot: exact for any directory and any files below 4 GiB; C121_extract and C121_like: what is printed if they end; C121_extract_all: which lists are printed, in which order, and where extract ends; C121_like_all: exactly what like prints if the listed documents start at 0 and have files, and that it prints nothing if one has none; C121_inspect: the four numbers"
  },
  {
   "property": "C122",
   "status": "partial",
   "theorems": [
    "Dupi.Props.C122_found",
    "Dupi.Props.C122_text_partial",
    "Dupi.Props.C122_false",
    "Dupi.Props.C122_false_two",
    "Dupi.Props.C122_nonvacuous"
   ],
   "note": "false as stated (C122_false, C122_false_two): the text is not kept and extent 0:0 stands for the whole file with the path; it is always shown under its blots (C122_found) and read back when the file holds exactly the text (C122_text_partial)"
  },
  {
   "property": "C123",
   "status": "proved",
   "theorems": [
    "Dupi.Props.C123_once",
    "Dupi.Props.C123_listed",
    "Dupi.Props.C123_same",
    "Dupi.Props.C123_differs",
    "Dupi.Props.C123_nonvacuous"
   ],
   "note": "writing to standard error is not modelled beyond the text of the message"
  },
  {
   "property": "C124",
   "status": "partial",
   "theorems": [
    "Dupi.Props.C124_token",
    "Dupi.Props.C124_post",
    "Dupi.Props.C124_shard",
    "Dupi.Props.C124_false",
    "Dupi.Props.C124_nonvacuous"
   ],
   "note": "false of posts (C124_false): only the low 16 bits of the blot are printed; true of tokens (C124_token) and of the posts of one shard (C124_shard); C124_post says which posts print alike"
  },
  {
   "property": "C125",
   "status": "partial",
   "theorems": [
    "Dupi.Props.C125_doc",
    "Dupi.Props.C125_room",
    "Dupi.Props.C125_false",
    "Dupi.Props.C125_get",
    "Dupi.Props.C125_next",
    "Dupi.Props.C125_next_one",
    "Dupi.Props.C125_nonvacuous",
    "Dupi.Props.C125_nonvacuous_calls",
    "Dupi.Props.C125_next_one_nonvacuous"
   ],
   "note": "false as stated (C125_false): Blot.Next without room moves the documents; true while there is room (C125_room) and over Get of a blot with a slice (C125_get); over Query.Next such blots stay in place (C125_next), but a blot given up is filled anew; one that has two documents keeps them (C125_next_one)"
  }
 ]
}