{
 "C01": [
  "proved",
  "all 32-bit values"
 ],
 "C02": [
  "proved",
  "all blots and shard counts below 65536; C02_overflow shows the bound is needed"
 ],
 "C06": [
  "proved",
  "any history of sessions, any positive flush rates, fewer than 2^32-1 documents"
 ],
 "C07": [
  "proved",
  "any history of sessions; ids never assigned are rejected"
 ],
 "C03": [
  "proved",
  "any sequence of adds, any later adds; fewer than 2^32 nodes"
 ],
 "C04": [
  "proved",
  "same id iff the paths lead to the same place; no growth"
 ],
 "C05": [
  "proved",
  "round trip and any number of write/read cycles"
 ],
 "C08": [
  "partial",
  "false as stated (C08_false, C08_lost): the last character is dropped; the rest is covered"
 ],
 "C09": [
  "proved",
  "complete characterisation as maximal runs of all characters but the last"
 ],
 "C11": [
  "proved",
  "any configuration with positive lengths, any words; hash is FNV-1 (C11_hash)"
 ],
 "C12": [
  "proved",
  "case: any blotter state; permutation up to case of the selected window"
 ],
 "C44": [
  "partial",
  "false as stated: panic, divergence and empty-table witnesses; holds when parents precede children"
 ],
 "C10": [
  "proved",
  "tokenizer gives nothing, and no query ever finds such a document"
 ],
 "C14": [
  "proved",
  "any number of buckets, any history of sessions, whole file bytes; fewer than 2^32 docids per bucket and 2^58 posts"
 ],
 "C15": [
  "proved",
  "any split into sessions; lists and counts"
 ],
 "C16": [
  "proved",
  "counts and NumPosts of any history"
 ],
 "C17": [
  "proved",
  "every reachable indexer state; with C14 no panic while reading"
 ],
 "C29": [
  "partial",
  "NumPosts, NumBlots and NumPaths proved; NumDocs is one too large"
 ],
 "C13": [
  "proved",
  "any previously processed documents, any consistent configuration"
 ],
 "C33": [
  "partial",
  "false as stated: only 10 is accepted (C33_accepts_partial); the second half holds"
 ],
 "C18": [
  "proved",
  "for every schedule of the goroutines, every prefix of it"
 ],
 "C19": [
  "proved",
  "every schedule finishes within a bound and none gets stuck; liveness needs at least one shatterer"
 ],
 "C20": [
  "proved",
  "any session and history equals the sequential one; the number of shatterers does not change the data files"
 ],
 "C21": [
  "proved",
  "any history, any blot, any state of the query; sizes as in Fits"
 ],
 "C22": [
  "proved",
  "exact result, including capacity"
 ],
 "C23": [
  "proved",
  "any sequence of calls with any slices"
 ],
 "C24": [
  "proved",
  "any sequence of calls"
 ],
 "C25": [
  "partial",
  "first end prompt and EOF repeatable (C23_enumerates); false that later calls are prompt: C25_false_spins (2^32 passes)"
 ],
 "C37": [
  "proved",
  "any two documents, any history"
 ],
 "C45": [
  "partial",
  "false as stated (C45_false_stale_data); holds for slices without old data"
 ],
 "C27": [
  "proved",
  "any document at any offset with data loaded; exact first range; shard counts below 65536"
 ],
 "C28": [
  "partial",
  "false as stated for a start other than 0 (C28_false_panics); full statement proved for start 0"
 ],
 "C34": [
  "partial",
  "false as stated for an empty sub-range at 0 (C34_false_empty: 0:0 means the whole file); proved otherwise, short files covered (C34_short)"
 ],
 "C39": [
  "proved",
  "any threshold; the threshold itself is computed with floating point numbers, not modelled"
 ],
 "C40": [
  "proved",
  "any history, fewer than 65536 shards; C40_false_large for blots out of range"
 ],
 "C41": [
  "proved",
  "documents with start 0, unchanged files; text compared byte for byte"
 ],
 "C42": [
  "partial",
  "second half false as stated (C42_false_open, C42_false_dotdot); first half and the rest of the second proved for all trees"
 ],
 "C43": [
  "partial",
  "false of every blot of every file (C43_false_every); the blots themselves are right (C43_blots_partial)"
 ],
 "C35": [
  "proved",
  "For filters whose size in bits is nonzero as uint32 (else every use panics, C35_zero_size). C35_false_readd: an integer removed by an intersection and added again as the very next add is not stored."
 ],
 "C36": [
  "proved",
  "Range, decoding to the last three letters, injectivity, and Letter as folding of any rune."
 ],
 "C47": [
  "proved",
  "FromTokens on an empty buffer; C47_false_dst and C47_eod state what happens on a nonempty buffer and on an end of document."
 ],
 "C32": [
  "partial",
  "Proved for creating indexers in every reachable state of any number of processes, and that closing releases the lock. False of the code for appending indexers (C32_false_appending), for Unlock without Close (C32_false_unlock), after a failed creation (C32_false_failed), and for readers given a root with a trailing slash (C32_false_slash); roots ending in a plain name lock the same file (C32_same_file_partial)."
 ],
 "C38": [
  "partial",
  "A lookup whose seek and read are not separated by another goroutine is correct, in every schedule. False of the code in general: C38_false_seek, C38_false_read."
 ],
 "C46": [
  "partial",
  "Proved when the old file is not longer or has only white space beyond the new length; in all other cases reading fails (C46_false_longer, C46_false_config)."
 ],
 "C48": [
  "proved",
  "With encoding/json written down as a model (reader and writer). C48_false_utf8: a root that is not valid UTF-8 never reads back as itself."
 ],
 "C30": [
  "proved",
  "For every configuration, list of documents, schedule and crash point: either every file operation of the session was done (and then the directory is the one of a whole session) or OpenIndex returns an error. Process death is modelled (prefix of each goroutine's writes, the last one perhaps partial), not loss of unsynced pages."
 ],
 "C31": [
  "partial",
  "False of the code as stated (see the C31_false theorems). Proved: at every crash point OpenIndex returns an error or every blot no new document has is answered exactly as before the session (C31_partial); while documents are added the index opens and the same holds of blots at most 102 new documents have (C31_adding_partial); likewise while Close writes the common files (C31_closing_partial) and, shard by shard, while the shards are closed (C31_shards_partial). Process death, not power loss."
 ],
 "C26": [
  "partial",
  "The claim is false of the code. Proved: with one shard, or when no number of documents of a blot is 0 or 1 modulo the capacity, the calls deliver exactly the pieces (all documents, except the last of a blot with a number of documents 1 modulo the capacity); false in general: C26_false_last (a last single document is dropped), C26_false_skips (a blot of another shard is passed over)."
 ],
 "C49": [
  "partial",
  "false as stated; the configurations with which BlotDoc returns for every text are characterised (C49_iff_partial), with an accepted file of each bad kind"
 ],
 "C50": [
  "partial",
  "False of the code: C50_false_deadlock reaches, with two callers and any number of shatterers, a state without a next step in which a document was never handed over. Proved instead, for any number of callers and every schedule: shards receive the documents in id order and nothing panics; a session that ends leaves the index of a single caller adding an interleaving; a state without a next step is the end or that deadlock; if callers hold a mutex of their own around Add the session always ends. doc2Id is taken as atomic (the code does not ensure that either)."
 ],
 "C51": [
  "partial",
  "False as stated (C51_false_nil: a failed write of a posting list is only logged, Adds and Close return nil and Get fails; C51_false_retry: a caller that carries on after an error of Add gets documents shown as others). Proved: if all Adds and Close return nil, all files but those of shards for which a line was logged are as without failures, and every Get that succeeds is right."
 ],
 "C52": [
  "proved",
  "The disk refines a catalogue from places to configurations and sessions (C52_open, C52_get, C52_apart); everything the catalogue allows can happen (C52_possible); C52_created ties it to CreateIndexer. Programs run one after the other (locks: C32); no symbolic links."
 ],
 "C53": [
  "partial",
  "False as stated, for every index: C53_false_moved, C53_false_copied (a copy opens, appends to and removes the original), C53_false_relative, C53_false_utf8. Proved: where the recorded root leads to the directory itself (always, as long as nothing is moved: C52), the index opened is the one in the directory."
 ],
 "C54": [
  "partial",
  "False of the code as stated (C54_false_new, C54_false_panic, C54_false_link). Proved: for every choice of moments, also with torn writes, Get of a blot no new document has returns exactly the old documents (C54_quiet_partial), the same for blots at most 102 new documents have until the shards are closed (C54_few_partial); a blot no old document has is answered empty whatever happens to the files (C54_absent_partial); for all blots Get returns the old documents followed by the first few new ones, or an error, or panics, the latter only for a path not in the old table (C54_sound_partial, C54_limited_partial). Next: C76."
 ],
 "C55": [
  "proved",
  "for every index after any history, with or without fused multiply-add; float64 arithmetic is modelled as IEEE 754 binary64 rounding of real numbers"
 ],
 "C56": [
  "proved",
  "threshold within the stated error of mean + sigma * deviation; the blots printed are exactly those of C39 for it; for |sigma| <= 2^20"
 ],
 "C57": [
  "partial",
  "false as stated (C57_false_root_named_as_verb, C57_false_stray); true of all command lines in which no -r ROOT has the name of a verb for ROOT"
 ],
 "C58": [
  "partial",
  "false as stated (C58_false_t, C58_false_like); everything else holds for all options in all ways of writing"
 ],
 "C59": [
  "partial",
  "false as stated (C59_false_0x, C59_false_junk); numbers are read as what they are"
 ],
 "C60": [
  "partial",
  "false as stated (C60_false_space, C60_false_newline); true of paths without space and newline"
 ],
 "C61": [
  "partial",
  "false as stated for opening to append (C61_false_append); OpenIndex, Get and Next have it for all failures, opening to append if reads go on failing"
 ],
 "C62": [
  "partial",
  "false as stated (C62_false_next, C62_false_get); C62_next_partial says exactly what comes after an error of Next"
 ],
 "C63": [
  "proved",
  "Whole runs: both commands from the command line to the disk and the printed text. Adding a document is taken to succeed (true within Fits); -sigma between -2^20 and 2^20; the trees do not change while they are walked."
 ],
 "C64": [
  "partial",
  "the number of documents printed is one too large; all else proved"
 ],
 "C65": [
  "proved",
  "without -offsets"
 ],
 "C66": [
  "proved",
  "fewer than 65536 shards, files unchanged"
 ],
 "C67": [
  "proved",
  "documents starting at 0, as index creates them; fewer than 65536 shards, files unchanged"
 ],
 "C68": [
  "partial",
  "False as stated: no document can be loaded again (C68_false_load), after a faulty record the index is not closed and cannot be opened (C68_false_close, C68_false_unclosed). Proved: documents and texts of every csv file, and what extract prints of them."
 ],
 "C69": [
  "partial",
  "False as stated: the writer is not flushed (C69_false_end, C69_false_short). Proved: what is printed is the csv text of the first records except for at most 4096 bytes at the end."
 ],
 "C70": [
  "partial",
  "False of the code as stated (C70_false_json, C70_false_told). Proved: the output of a whole run is one JSON array per blot found, with exactly its documents, in order; it is a JSON text iff there is exactly one; it determines blots and documents if the paths are UTF-8."
 ],
 "C71": [
  "partial",
  "False of the code as stated (C71_false_docs: NumDocs is one too large). Everything else is proved for whole runs, under the assumption that encoding/json writes float64s so that they are read back."
 ],
 "C72": [
  "partial",
  "False of the code as stated (C72_false_add: -a is not overridden and FILE not read; C72_false_relative: with a relative IndexRoot the index is not found from other directories). Without -a and with an absolute IndexRoot proved for whole runs, all JSON texts of the configuration, all schedules."
 ],
 "C73": [
  "partial",
  "False of the code as stated (C73_false_index: a file that cannot be opened in a directory: status 0, nothing after it is indexed; C73_false_blot: status 0 if no file can be read). Proved for all command lines that are not as the usage messages want them (C73_lines shows the classification to be complete), for all verbs without an index, for extract, inspect, blot, unblot, like, and for index (new and -a) if no visible file fails to be opened (exactly if everything visible can be read)."
 ],
 "C74": [
  "proved",
  "Sequences of arbitrary runs, by induction; needs room (Fits) for the documents in the end and usable configurations with absolute roots for indexes that are made."
 ],
 "C75": [
  "partial",
  "False as stated: readers do not share (C75_false_readers, C75_false_shared). Proved: exclusion of all handles in use, release by Unlock. LockFileEx is written down from its documentation."
 ],
 "C76": [
  "partial",
  "False as stated: after a session a reader that would have returned io.EOF delivers blots with one old document (C76_false_extra); new documents appear in the lists, and errors and panics are possible as in C54. Proved: exact when no new document has a blot an old one has, also with torn writes (C76_quiet_partial); for all sessions and moments the old enumeration is delivered in order with all old documents, then at most one extra blot for each shard, or an error or a panic under stated conditions (C76_sound_partial). Calls with a bounded slice (limited extraction) on a changing index are modelled (C76_constant) but nothing else is proved of them."
 ],
 "C77": [
  "partial",
  "after a successful OpenIndex, Close gives up everything whatever fails (C77_index); a session whose Close returns nil holds nothing (C77_session); files opened for one part are closed on every path (C77_open_partial, C77_close_partial). False for failed openings, for a failing Close of an indexer, and for errors of closing (C77_false_*)"
 ],
 "C78": [
  "proved",
  "an equivalence for every file of bytes (C78_read), errors for all others (C78_refused, C78_open, C78_run), what the values are (C78_values, C78_again, C78_one), and how the specification treats JSON texts, unknown names and texts that are not UTF-8 (C78_json, C78_unknown, C78_lenient)"
 ],
 "C79": [
  "partial",
  "Proved on every processor for values between -2^20 and 2^20, and on arm64 for any two numbers; every run with any value prints precisely the blots above some threshold. False on amd64 (C79_amd64, C79_false_amd64): NaN, infinities and values of either sign whose product with the deviation is 2^65 or more make the conversion to int give the least int, and every shared blot is printed."
 ],
 "C80": [
  "proved",
  "What is read is exactly the signed integer literals of the Go specification in the range of int64 (C80_exact); C80_decimal, C80_range, C80_octal and C80_octal_refused say what that means for numbers in decimal digits; everything else ends with status 2 and no effect (C80_refused); the numbers arrive in the configuration (C80_index)."
 ],
 "C81": [
  "proved",
  "No write meets a reader (C81_race) and the index is the one of the documents at their Add (C81_kept) if buffers are kept for NumShatters further Adds; C81_any for arbitrary programs; C81_late and C81_false show that fewer are not enough, for every number of shatterers. One document is read in one step (Model/Reuse)."
 ],
 "C82": [
  "proved",
  "C82_posts (both bounds), C82_entries, C82_single, C82_texts, C82_heads, C82_documents, C82_paths, C82_only."
 ],
 "C83": [
  "proved",
  "C83_config, C83_documents, C83_paths, C83_shard, C83_posts, C83_nothing, C83_idle."
 ],
 "C84": [
  "partial",
  "false as stated; exactly which configurations work (C84_iff_partial), when an indexer is returned (C84_create), and what happens with the others (C84_false_*)"
 ],
 "C85": [
  "partial",
  "false as stated (C85_false, C85_false_dmd); where every call after Close ends and what is written of dmd is proved"
 ],
 "C86": [
  "partial",
  "false as stated (C86_false); exactly what is added is C86_added, and C86_fresh_partial says when that is what was meant"
 ],
 "C87": [
  "proved",
  "for replaced words; C87_sharp and C87_inserted say what interleaving does not help with"
 ],
 "C88": [
  "partial",
  "false as stated (C88_false); which windows are confused for certain is C88_parity, and C88_letter, C88_last say which never are"
 ],
 "C89": [
  "proved",
  "posts held by the goroutines, posting lists in memory, records in memory"
 ],
 "C90": [
  "partial",
  "false as stated: an attempt that failed after os.Mkdir cannot be repeated; what is left, and when, is proved"
 ],
 "C91": [
  "partial",
  "false as stated (C91_false): of passages of one document with the same blot only the first is considered; C91_pipe, C91_sound and C91_texts say exactly what is printed"
 ],
 "C92": [
  "partial",
  "false as stated (C92_false: with two shards a blot can be delivered twice); proved: every loop of calls ends, whatever the capacities (C92_ends), and what is returned is right (C92_any_partial)"
 ],
 "C93": [
  "proved",
  "reading only; the figures Stats prints are not covered, a shorter dmd file changes the number of documents"
 ],
 "C94": [
  "partial",
  "False as stated: for every index with a document that has some blot, ten bytes written into a posting file make opening it to append and a Get run for ever, one byte makes every Get of a blot panic, and ten bytes make opening to append panic. Proved: opening for reading always works; opening to append, Get and Next end with a result or an error unless the links from a head are endless or lead to a length dupi does not write (for going to the last link, an equivalence)."
 ],
 "C95": [
  "partial",
  "False of the document records: when the dmd file is gone or ends early, the index is opened for adding, the ids of the lost documents are given to the new ones, and Get returns new documents for blots they do not have (C95_false gives the exact answers for whole records lost; C117_false: cut inside a record, the path of the old document is found for the new one). Proved: loss in any other file is refused with an error, and if the records are intact and opening succeeds, sessions leave what they would have left without the loss."
 ],
 "C96": [
  "partial",
  "False when two of the slices overlap up to their capacities, for example docs[0:0] and docs[1:1]: Next extends a slice up to its capacity, so the second blot overwrites what the first one shows (C96_false, element by element). Proved: with slices no element of which belongs to two, every call returns what it would return with an array for each (C96_separate_partial, C96_whole_partial), and changes nothing else in memory (C96_rest)."
 ],
 "C97": [
  "partial",
  "False as stated (C97_false_table, C97_false_get, C97_false_endless: a few bytes in the path table make opening, or every Get of a blot with documents, panic or run for ever). Proved for all directories: exactly when opening for reading succeeds, panics or reports an error; exactly when the path of a document is an error, a panic or endless; and conditions under which Get, Next and opening to append end with a result or an error. The exact conditions are C114 for Get, C115 for Next (up to a list that has fewer documents than its head says), C116 for opening to append, C117 for adding and closing then. Memory is taken to be unlimited."
 ],
 "C98": [
  "partial",
  "False as stated, with three kinds of loss that make Get of every index panic or answer wrongly (and C118_false_link: a lost last link). Proved: the configuration is read as it was or refused; a list that begins in a lost page gives an error; after any loss in posting files Get of a blot returns what it returned, or an error, or the first page of the list that lost a byte is across two pages of the disk and then what is before it is still returned (C98_later_partial); Next returns what it did up to the first list that lost a byte (C115)."
 ],
 "C99": [
  "partial",
  "false as stated (C99_false_lost, C99_false_mixed, C99_false_panics); proved: what Get returns for blots no new document has, for every blot if the first indexer added no new paths, and for every blot if the second one adds nothing"
 ],
 "C100": [
  "partial",
  "false as stated (C100_false_lock, C100_false_get, C100_false_next); proved: what Close does, what every call after it gives whatever was called before and after, and that the first Next is not taken for the end"
 ],
 "C101": [
  "proved",
  ""
 ],
 "C102": [
  "proved",
  ""
 ],
 "C103": [
  "proved",
  ""
 ],
 "C104": [
  "partial",
  "false as stated (C104_false): the last character of a text is dropped; proved for texts after whose last word something comes, and C104_cut says exactly what the others count as"
 ],
 "C105": [
  "partial",
  "false as stated (C105_false): ids are 32 bit numbers that wrap around unnoticed; what happens for any number of documents is proved (C105_created_partial, C105_appended_partial), for the records and ids, and for the posting lists and what Get shows after a session of any number of documents, under all schedules (C105_found_partial, C105_found_appended_partial; C105_found_false: a document is found under the id of another); likewise what Next delivers (C105_next_partial, C105_next_appended_partial; C105_next_false: two documents with the same text and the same id are passed over); both after any number of sessions with any numbers of documents (C105_sessions_partial, C105_sessions_exist_partial, C105_sessions_false); Next with slices of any capacities is C105_limited_partial; missing: lists of 2^32 entries"
 ],
 "C106": [
  "partial",
  "false as stated (C106_none_read, C106_false): a table of 2^32 entries is read back as an empty one; up to that the table in memory is right (C106_open_partial)"
 ],
 "C107": [
  "partial",
  "False as stated; C107_false_ids and C107_false_paths give the interleavings, for all indexes and documents; calls that do not overlap are proved right"
 ],
 "C108": [
  "partial",
  "False as stated for files of 4 GiB and more; what is loaded, and what unblot prints or that it panics, is proved for any number of files of any lengths (C108_unblot); of like only what C121_like says, which has no bound on the files of the documents"
 ],
 "C109": [
  "partial",
  "False as stated for sizes that are multiples of 2^32 bits (panic) or powers of 2 (values with hashes that agree modulo the size are not told apart); all else proved"
 ],
 "C110": [
  "proved",
  "io.ReadFull and ReadAt count as one call each. Next with nil Docs."
 ],
 "C111": [
  "proved",
  ""
 ],
 "C112": [
  "proved",
  "any contents of the metadata file for Get, any change of starts, ends and names for Get and Next; a changed number of a path may make a query panic (C97)"
 ],
 "C113": [
  "proved",
  "any files of heads and posting files for Get; a byte that gets or loses its top bit moves all later entries, and then only the general statement (lists that still begin where they began) applies"
 ],
 "C114": [
  "proved",
  "directories with at least one shard (with none, Get panics: C97); memory is taken to be unlimited; uses classical case distinction"
 ],
 "C115": [
  "proved",
  ""
 ],
 "C116": [
  "proved",
  "Memory is taken to be unlimited."
 ],
 "C117": [
  "proved",
  "All parts of the statement are proved for every directory that Indexer.open opens; the posting files are assumed to be of less than 2^63 bytes where stated, and the configuration file as the program writes it for opening afterwards."
 ],
 "C118": [
  "proved",
  "All parts of the statement are proved for every directory that opens."
 ],
 "C119": [
  "proved",
  "Numbers, printed text and the two files exactly, for every division into sessions; String for any table."
 ],
 "C120": [
  "proved",
  "C120_drawn: any directory, any slices; C120_sessions and C120_get: other heads and postings of an index made by sessions"
 ],
 "C121": [
  "proved",
  "C121_unblot: exact for any directory and any files below 4 GiB; C121_extract and C121_like: what is printed if they end; C121_extract_all: which lists are printed, in which order, and where extract ends; C121_like_all: exactly what like prints if the listed documents start at 0 and have files, and that it prints nothing if one has none; C121_inspect: the four numbers"
 ],
 "C122": [
  "partial",
  "false as stated (C122_false, C122_false_two): the text is not kept and extent 0:0 stands for the whole file with the path; it is always shown under its blots (C122_found) and read back when the file holds exactly the text (C122_text_partial)"
 ],
 "C123": [
  "proved",
  "writing to standard error is not modelled beyond the text of the message"
 ],
 "C124": [
  "partial",
  "false of posts (C124_false): only the low 16 bits of the blot are printed; true of tokens (C124_token) and of the posts of one shard (C124_shard); C124_post says which posts print alike"
 ],
 "C125": [
  "partial",
  "false as stated (C125_false): Blot.Next without room moves the documents; true while there is room (C125_room) and over Get of a blot with a slice (C125_get); over Query.Next such blots stay in place (C125_next), but a blot given up is filled anew; one that has two documents keeps them (C125_next_one)"
 ]
}