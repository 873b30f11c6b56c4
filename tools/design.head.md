# A Lean 4 model of go-air/dupi

The code in /repo was read as text.  `lean/Verif/Model` follows it function by function, each definition citing file and lines;
`lean/Verif/Props` states and proves the properties of `properties.jsonl`.  Where the code does not have a property the English
statement is kept, a theorem with `_false` in its name shows how it fails (for all inputs of a stated kind, or on a family of
executions), and a theorem with the suffix `_partial` says what does hold.

This file is assembled by `tools/design.py` from `tools/design.head.md` and from Lean's `#print axioms` for every theorem listed
in `MANIFEST.json`.

## Layout

```
lean/Verif/Model/   the model, one file per package or file of /repo
lean/Verif/Spec/    small stand-alone specifications (no reference to model helpers)
lean/Verif/Proof/   lemmas, invariants, refinement proofs
lean/Verif/Props/   the property theorems, with non-vacuity theorems or examples beside them
properties.jsonl    the English properties         MANIFEST.json  property -> theorems
seeded/LOG.jsonl    wrong programs (edits of the model) tried against the theorems
tools/              generators of Verif.lean, MANIFEST.json, properties.jsonl, DESIGN.md
```

## Modelling conventions

* `uint8/16/32/64` are Lean `UInt8/16/32/64` wherever wrap-around can matter; `int` and `int64` values are `Nat` or `Int` with the
  range stated where it matters.
* A byte slice or file is `List UInt8`.  `append` is `++`; capacities are modelled only where the code looks at them (`Blot.Docs`,
  posting chunks).
* Errors and run-time panics are explicit: `M = Except Fault`, a `Fault` being `err e`, `panic` or `diverge`.  Index out of range,
  slice bounds, division by zero and negative lengths panic.
* Pointer receivers: functions return the new value.
* Loops are structural recursion.  Loops whose termination depends on file contents take fuel and give `diverge` when it runs out;
  theorems show that this does not happen, or that it does.
* Goroutines, channels, the mutex and the condition variable of shatter.go are a transition system with one transition per
  synchronisation step (`Model/Sched`); the theorems are about all its executions.
* An index directory is a map from its files to their bytes (`Dir`).  For crashes a session is the list of its file operations, one
  list per goroutine, and a crash leaves any interleaved prefix, the last write of each perhaps partial (`Model/Crash`).

## Trusted base

* Lean 4.33.0's kernel, and the axioms in the table at the end: at most `propext`, `Classical.choice` and `Quot.sound`.  No axiom of
  our own, no `sorry`, no `native_decide`, no `bv_decide`.
* The reading of the Go sources into `Verif/Model`.
* Library behaviour written down from the Go 1.17 documentation and sources rather than from /repo: `encoding/binary` (varints, big
  endian), `unicode/utf8`, `hash/fnv` (FNV-1), `bytes.ToLower`, `filepath.Abs/Clean/Join/WalkDir` (Unix), `os.File`
  `Read/ReadAt/WriteAt/Seek/Truncate`, `flock(2)`, `sync.Mutex/Cond`, unbuffered channels, `encoding/json` on `Config` (`Model/Json`) and on blots, documents and statistics (`Model/JsonOut`, `Cmd.statsJson`; how a float64 is written is a parameter), `encoding/csv` with two columns and `bufio.Writer.WriteString` (`Model/Csv`).
* Quantified over in the theorems: the Unicode tables (`Uni`: `IsLetter`, `IsDigit`, `ToLower`; what they say about ASCII, and that the lower case of a scalar value is one, is assumed as fields of the structure), the working directory, the
  permutation `sort.Slice` produces (any sorted one), the capacity `append` chooses, the files of the file system, the schedule.

## Limits

Most theorems about whole indexes suppose that the index is not full (`Fits`, Proof/Indexer): fewer than 2^32 - 1 documents; fewer
than 2^32 different paths, the directories on the way to them counted (`FewPaths`, Spec/Path; a path may be added any number of times),
each shorter than 4 GiB; and fewer than 2^63 / 23 blots in all.  The first two are what 32 bit ids can tell apart, the last one what
63 bit offsets can.  C105 and C106 are about what happens when the first two limits are exceeded.

## What is modelled and what is not

| source | model | not modelled |
|---|---|---|
| post/t.go | Model/Post, Model/Strings (printing) | |
| token/t.go, token/config.go | Model/Token, Model/Config, Model/Strings (printing) | tags other than the three constants |
| blotter/*.go | Model/Blotter | |
| config.go | Model/Config, Model/Indexer (reading and writing), Model/Json | file modes, "huge file" |
| fnames.go | Model/Fnames, Model/FnamesString, Model/Path | errors of the bufio writer |
| dmd/*.go | Model/Dmd; Model/DmdConc for concurrent lookups; Model/Faults for write errors, Model/ReadFaults for read errors | |
| internal/shard/*.go | Model/Poster (chunks), Model/Shard; Model/Faults for write errors, Model/ReadFaults for read errors | errors of reading the posting file when it is opened to append; what is logged |
| shatter.go | Model/Shatter (sequential part), Model/Sched (goroutines), Model/Callers (several callers of Add), Model/Reuse (the memory of the documents), Model/Race (doc2Id called concurrently) | races within a single map operation, slice header or flush; spurious wake-ups (Go has none) |
| indexer.go, doc.go | Model/Indexer, Model/Find (`Load`), Model/NewDoc; Model/Late (calls after Close), Model/Again (the effect of Add on its argument), Model/Making (the directory) | lock handling is in Model/Lock |
| index.go, query.go, blot.go | Model/Query, Model/Find; Model/Stats for `BlotMean`, `BlotSigma` and `SosDiffs`; Model/Shared for slices of documents that share an array, Model/Pointers for `Blot.Doc` | — |
| remove.go, the paths in config.go | Model/Disk: directories of several indexes | symbolic links, parent directories, errors of `RemoveAll` |
| lock/*.go, locking in index.go and indexer.go | Model/Lock, Model/LockWin | that truncating a locked file may fail on Windows |
| cmd/dupi index, extract, blot, unblot, like, inspect; stats.go `String` | Model/Cmd; Model/Commands: whole runs of blot, unblot, like and inspect with what they print | what a run printed before a panic; `fmt`'s `%d`, `%x` and `%.2f` are written down from the documentation; the order in which Go goes through a map is a parameter, any permutation |
| cmd/dupi/dupi.go, the flags of the verbs | Model/Main (with package flag), Model/Text (output of extract, argument of unblot) ; Model/Run: whole runs of index and extract; Model/Program: the whole program with its exit status; Model/Usage: the usage message | messages other than the usage, the gops agent, errors of Add and Close; strconv.ParseFloat is a parameter, strconv.ParseInt too except in Model/Strconv, where it is followed as it is |
| float64 (library) | Model/Float: IEEE 754 binary64, nearest, ties to even; Proof/Float shows that results are nearest | signed zeros; what operations give for operands that are not finite, except in the threshold of extract (Model/Sigma); x87 double rounding |
| attic/trigram, attic/bposts.go, attic/ibloom | Model/Attic, Model/Bloom | attic/ibloom/estimate.go but for the rounding to bytes (floating point) |
| cmd/dupenron/main.go | Model/Enron, Model/Csv (encoding/csv reader and writer, the buffer of bufio.Writer) | the gops agent, messages, progress; `qEnron` (not called) |
| crashes of a session; loss of power after Close | Model/Crash, Spec/PowerLoss | power loss in the course of a session (unsynced pages of files that are not finished) |
| two indexers open on one index | Model/Twin: both open, the one adds and closes, then the other | other interleavings |
| an index after Close | Model/Closed: calls in any order, each file open or closed | calls concurrent with Close |
| failing system calls of a session | Model/Faults: every open, stat, seek and write may fail, a write after any number of bytes; Model/Making: so may those of making an index | errors of opening a session to append other than of reading the .iix files, and of close(2), which the code ignores |
| failing reads | Model/ReadFaults: files as streams of bytes and errors when an index or a shard is opened; each `ReadAt`, `Seek` and `ReadFull` of `Get` and `Next` may fail | several failing calls of one buffered read are one event; short reads without an error (`io.Reader` allows them, `ReadFull` and bufio hide them) |
| an index open for reading while documents are added | Model/Live: each read of a file is at a moment of its own; `Get`, `Next` (C76: with nil `Docs`) | a block's link read in the middle of the write that sets it (C54_quiet_partial allows torn writes, C54_sound_partial does not); the index being removed or created again meanwhile |

Further simplifications, each noted at the definition: reading a file that was opened earlier is one step with opening it; the index
directory passed by the caller is the one in its configuration (the code uses `IndexRoot` of cfg.json, so a moved index is read at its
old place); in `Sched` the computation of a document's posts and a batch of `AddPost` calls are single steps, as no other goroutine
sees their intermediate states.

## Properties

| id | model | proof, and what is false |
|---|---|---|
| C01 | Model/Post on UInt32/UInt64 | bit arithmetic for all values |
| C02 | `SplitBlot`/`JoinBlot`, routing in shatter.go and query.go | modular arithmetic with explicit 32-bit wrap; `C02_overflow`: 65536 shards break it |
| C03, C04 | trie of path components; `Spec/Path`: a path as a walk in a tree | trie invariant by induction over adds |
| C05 | table written and read as bytes | round trip; behaviour of all continuations |
| C06, C07 | metadata adder and file bytes, sessions | invariant: file ++ buffer = encoded history |
| C08–C10 | decoder, tokenizer loop | loop invariant against `Spec/Runs` (maximal runs) of the characters of a text (`Spec/Text`: Lean's `Char` and its UTF-8 library, to which the model's decoder is proved equal). C08 false: the last rune is never part of a token |
| C11, C12 | ring buffer | ring invariant against `Spec/Window`; xor algebra; `bytes.ToLower` against `Spec/Text` |
| C13 | shatterer with its persistent blotter | blotter state represents all words so far; windows of a document lie inside it |
| C14–C17 | chunks, posting file, index file, appending | refinement: the file is the rendering of the lists of docids (`Spec/Postings`) |
| C18–C20 | transition system of all goroutines | inductive invariant, progress, measure; equality with the sequential run |
| C21–C24, C29, C45 | index opened after any history of sessions; query state | composition of the refinements; `Spec/Index`: documents, blots, buckets. C29: NumDocs is one too large; NumPaths by the representation of the trie by the set of its paths. C45: `Dat` of a reused slice is stale |
| C25 | `Next` after the end | the counter of exhausted shards is not reset: 2^32 passes before the next EOF |
| C26 | `Next` with slices of fixed capacity | exact pieces under a condition; false: a last single document is dropped, and a second `advance` uses a changed `state.i` |
| C27, C28 | `FindBlot`, `FindBlots` | loop invariants; C28 false for documents with start > 0 (panics) |
| C30, C31 | file operations of a session, crashes | every proper prefix leaves an unreadable index file (C30); C31 false: fnm/iix truncated then rewritten, and links patched before the block they point to; what survives is characterised |
| C32 | flock state machine of any number of processes | invariant; false for appending indexers, `Unlock`, after a failed creation, trailing slash |
| C33, C49 | configuration check, TokenFunc, Blotter | case analysis; only length 10 can be created; files that pass the check and panic later |
| C50 | several callers of Add | simulation: a state with several callers is a state of the one-caller system in which every unfinished caller is a shatterer still computing; the deadlock is built by induction over the shatterers |
| C51 | failing system calls | a session whose Adds and Close return nil is compared with the faultless session: equal fates give equal states (simulation), and a representation invariant of the posting file that survives torn writes (blocks laid out disjointly, a list may end in a block that cannot be read); two counterexample sessions are constructed for every configuration of a kind |
| C52, C53 | index directories by place, programs one after the other | refinement of a catalogue keyed by place (`Spec/Disk`), composed with C21; C53 false for every moved or copied index, and for roots that are relative or not UTF-8 |
| C54 | all prefixes of the writes of a session, the reads of another process at any of these moments | the posting file at every moment is a prefix of a rendering of its blocks so far (`Growing`), the reader's position is on the chain of its bucket (`Chase`); metadata only grows, the reader's path table is an older one (`Older`); false in three ways, each for every such session |
| C55, C56 | `ShardIndex.sosDiffs`, `Index.blotStats`, `Cmd.threshold` | a computed nonnegative number is within factors (1-2^-53)^k of the exact one (`Near k`); sums, quotients, squares, roots and roundings of such; the mean is on a grid fine enough for its differences not to underflow (`Grid`); the counts kept are a permutation of the bucket sizes; differences from the computed mean give the deviation up to its error (`sqrt_shift`) |
| C57, C58 | `Cmd.main`, `Flag.parse`, `Cmd.getIndexer`, `Cmd.likeFiles` | parsing inverts writing options (`parse_opts`); the first verb is where the options end iff no option's value is a verb |
| C59, C60 | `Cmd.scanHex`, `Cmd.extractText` | digits have a value (`digits_value`); pieces between separators they do not contain are unique (`split_first`, `lines_inj`, `pieces_inj`) |
| C61, C62 | `Index.openS`, `ShardIndexer.initAppendS`, `Query.getF`, `Query.nextF` | simulation of the run without failures up to the first failing read; the state after a failure is that of the query inside the first blot not delivered (`Broken`), from which the unlimited enumeration of C23 goes on; C61 false for one failing read at the total of the last bucket, C62 for a failing lookup at any document of the first blot |
| C63 | `Cmd.indexRun`, `Cmd.extractRun` | composition of C57, C58 (command line), C42 (walk), C52 (disk), C56 (threshold), C37 (common bucket) |
| C64–C67 | `Cmd.inspectRun`, `blotRun`, `unblotRun`, `likeRun` | composition of C57 (command line), C52 (disk), C29 and C55 (figures), C39–C41, C27, C28; a numeral (`Spec/Numeral`) has the value of its digits and no leading zero. C64: number of documents one too large |
| C68 | `Enron.main`, `docsOf`, `Csv.read` | csv files as a grammar (`Spec/Csv`), the reader gives the records of any text of the grammar; composition with C63. False: start and end of the documents; the index is not closed after a faulty record, so there is no table of paths and it cannot be opened |
| C69 | `Enron.copy`, `Csv.recordPieces`, `Buf.str` | invariant of the buffer: what was passed on and the buffer make up the text, the buffer is not empty after a record. False: no `Flush` |
| C34 | `Doc.Load` | list slicing; 0:0 means the whole file |
| C35, C36, C47 | attic | bit lemmas, base 38 arithmetic, induction over tokens (`Spec/Trigram`) |
| C37 | composition of C13, C21, C23 | common passages have a common bucket |
| C38 | goroutines sharing a file offset | schedules that return another document's data; undisturbed lookups are right |
| C39–C43 | commands | corollaries of the above; induction over directory trees. C42 false: an unreadable directory stops its parent and `..` counts as hidden; C43 false: offsets index unfiltered tokens |
| C44 | reading arbitrary bytes as a path table | witnesses of panic and endless loop; fine when parents precede children |
| C70 | `extractJson`, `Json.blots` | JSON texts as a grammar (`Spec/Json`); the reader of encoding/json, as modelled, reads every text of it, so it is unambiguous; writers produce texts of it. False: one array per blot is no JSON text; paths that are not UTF-8 |
| C71 | `Cmd.statsJson`, `Cmd.inspectRun` | as C70, the figures as in C64; float64s are written so that they are read back (assumption `WritesFloats`). False: NumDocs |
| C72 | `Cmd.readConfig`, `Json.unmarshal`, `Cmd.indexRun` | a configuration as a JSON value (`Spec/ConfigJson`: `Describes`), read by invariant over the members (each field has its value or none); composition with C58, C63. False: with -a; relative IndexRoot |
| C73 | `Cmd.Runs` (the whole program: disk, standard output, exit status), `Flag.helps` | each kind of run is characterised (`runs_query`, `runs_index`, `runs_flags`); composition with C42, C52, C57, C58, C63-C67; `C73_lines`: every command line has no verb, an improper option before the verb, one after it, or proper options (strong induction over the arguments, Spec/Misuse), and the first three do nothing, with status 1, 1 and 2 (0 for -h). False: files that cannot be opened (index), files that cannot be read (blot) |
| C74 | `Cmd.Runs`, sequences of them | induction over the sequence with the catalogue of requests as invariant; composition with C52, C73 |
| C75 | `LockWin.Step` (any number of handles, all interleavings) | invariant: one handle per lock file has the lock, those in use have it. False: readers do not share |
| C76 | as C54, any sequence of calls of `Next` with nil `Docs`, each read at a moment of its own | the enumeration of C23 (`Delivers`) followed call by call: what a bucket yields is a prefix of its old and new documents that has all the old ones (`FillsL`), so `advance` goes the same way as on the old index; after the enumeration at most one extra blot per shard (`LSpec`). If all reads find the same files it is `Next` (C76_constant). False: C76_false_extra |
| C77 | Model/Resources: the opening and closing functions reduced to what they open, close and start; every system call and every other step that can return an error may do so, in any pattern | partial: for a successful `OpenIndex` everything is given up by `Close` whatever fails; for a successful `CreateIndexer`/`OpenIndexer`, any `Add`s and a `Close` that returns nil as well, and the goroutines and the lock in any case. False: failed openings keep lock, posting files, goroutines; a failing `Close` can keep the posting files; close errors are dropped. Finalizers (which close unreachable files some time) and the end of the process are not modelled |
| C78 | Model/Json (`parse`, `unmarshal`: what of encoding/json `json.Unmarshal(d, &cfg)` uses), `Cmd.readConfig`, `Disk.openIndex`, `Disk.openIndexer` | equivalence: the parser accepts exactly the grammar of `Spec/Json` with `LaxChars` for strings (both directions, by induction over fuel and over derivations), and what it stores is exactly `ConfigFrom` of `Spec/ConfigExact` (the last value given for each name). `ParseInt` of a literal never sees a sign + or an underscore, which JSON excludes |
| C79 | Model/Sigma (the threshold for any float64; the conversion to int is a parameter, with amd64 and arm64 as instances), `Cmd.extractRunF`; Spec/Sigma | monotonicity: rounding to nearest is monotone (Proof/Float `near_mono`), so is the threshold; a greater threshold ends the loop earlier (`extractLoop_prefix`). False on amd64: values far out are converted to the least int and everything shared is printed (`C79_amd64`, `C79_false_amd64`) |
| C80 | `ParseInt.parse` (strconv.ParseInt with base 0 and its helper underscoreOK) | the loops are characterised as filters and folds, the language of the automaton for underscores as digits with single separators (induction); the rest by cases on the prefix |
| C81 | the caller's memory is part of the state, `Reuse.params` reads it when a shatterer computes; `Sched` otherwise | the goroutines do not look at documents (`Step.map`, `Step.unmap`), so a run is mapped to one of `Sched` with data in place of slices; at most `nw` documents are in hand (pigeonhole on the invariant of C18), so a write after `nw` further Adds touches none of them; for any program the data is chosen when it is read (backward over the run); C81_false: all documents are handed over before any is read |
| C82 | History, the files of `Dir` | the blocks of the posting file (Proof/Blocks) with the number of those that are not full: blocks written while posts are added are full (`addPost_exact`), closing writes at most one for each bucket and exactly for those that got documents (`shard_session`); induction over the sessions (`History.room`). Words are at most half the bytes of a text (`wordChars_le`). Statements use Spec/Size |
| C83 | History, Indexer.open, Session | the blocks after a session are those before with further ones behind them (`shard_session`), so only links that were -1 change (`render_changed`, one for each owner); opening gives the posters that were closed (`open_shards`); a path that is there is not added again (`adds_known`). Statements use Spec/Quiet (`changed`, `grown`) |
| C84 | Indexer.create, Session, Indexer.open for any configuration | partial (false as stated): `C84_create` says when an indexer is returned, `C84_iff_partial` that documents can be added and the index opened again exactly for sound configurations. The four ways to fail are `C84_false_*`; Proof/SchedStuck shows that a shatterer that cannot compute its document keeps Close from getting past its shutdown requests, and that with no shatterer nothing moves. A text with any number of words is `wordsText` |
| C85 | Model/Late: any number of calls of Add and Close, each in a goroutine of its own, beside the goroutines of the indexer as Close left them | partial (false as stated, `C85_false`, `C85_false_dmd`): all shatterers have returned when Close is through with its requests (`Told.all`, whatever they computed), so nobody takes the request of a later call. `C85_dmd_partial` says how much of dmd is written. `doc2Id` is one step |
| C86 | Model/Again: the caller's variables, and `Add` changing them | partial (false as stated, `C86_false`): `C86_added` says what any sequence of assignments and calls adds |
| C87 | Interleave, blots, Next | `C87_every` (every kth word), `C87_replaced` (fewer than k replaced words leave one of the k interleaved streams untouched). `C87_sharp` and `C87_inserted` show two documents that no calls of Next deliver together |
| C88 | Circ, fnv32, blots, Next | partial (false as stated, `C88_false`): `C88_parity` (only words which occur an odd number of times matter), `C88_letter` (a step of FNV-1 is one to one in the state, as the prime is odd), `C88_last` (the blots differ in the low 8 bits only) |
| C89 | scheduler, AddPost, dmd.Adder | proved: `C89_posts` (by the scheduler's invariant: `Sched.Inv.held`), `C89_lists` (per step), `C89_records`; what is counted is what the code refers to, not what the allocator keeps: capacities of slices and garbage are not modelled |
| C90 | make (Model/Making), Disk | partial (false as stated, `C90_stuck`, `C90_refused`, `C90_unopened`): `C90_left`, `C90_made`, `C90_config`, `C90_again_partial`; lock files and the wait for the lock are not part of it |
| C91 | extractRun, unblotRun, xargs (Model/Pipe) | partial (false as stated, `C91_false`): `C91_pipe` (the whole pipeline), `C91_sound`, `C91_texts` (exactly what is printed); the files must still contain the documents; of xargs only the division into words and runs is modelled |
| C92 | Query.next, fillBlot, advance, slices of any capacities | partial (false as stated, `C92_false`: a blot delivered twice): `C92_any_partial` (all calls return, what they return is right, a bound on the number of blots), `C92_ends` (a loop until io.EOF ends) |
| C93 | Index.open, Config.readFrom, Fnames.read, readIix, Posts.next, Dmd.lookup, Query.get, next; spec: Spec/Damage | proved: `C93_cut` (any directory), `C93_answers` (indexes made by sessions, with C21 and C23), `C93_config` (a JSON object cut short is refused), `C93_noticed` |
| C94 | Poster.readToLink, readVarintAt, Posts.readNext, Query.get, Indexer.open, Index.open; spec: Spec/Damage (numbers, chunks and links in a file) | partial: false (`C94_false_hang`: ten bytes, appending and a Get do not end; `C94_false_panic`: one byte, Get panics; `C94_false_append`: appending panics; for every index with a document that has a blot). True: `C94_ends_partial` (what must not be in the files), and `C94_walk`, an equivalence, for going to the last link; `C94_next_partial` (Props/AnyDir) for `Next` |
| C95 | Indexer.open, Fnames.read, openShards, initAppend, Dmd.newAdder, Front.adds, Session; spec: Spec/Damage, Props/CutAppend (`inPlace`) | partial: false of the document records (`C95_false`: with records missing at the end the ids of the lost documents are given again, and queries return new documents for blots of the lost ones; which ones is stated exactly). True: `C95_refused` (every other loss is refused) and `C95_unharmed` (what is not refused, with the records intact, does no harm).  `C95_false` is about records cut at a record's boundary or gone |
| C96 | HBlot.next, HBlot.setLast, nextH, getH (Model/Shared: slices as windows into memory); spec: Props/Shared (`Separate`, `inMem`) | partial: false when two slices overlap up to their capacities (`C96_false`: the documents of the second blot are shown under the first wherever the windows overlap; stated element by element). True when they do not: `C96_separate_partial`, `C96_whole_partial`, `C96_rest` (by a simulation of the model with lists) |
| C97 | Index.open, Indexer.open, Fnames.read, Fnames.abs, Dmd.lookup, ShardIndex.readIix, Poster.initAppend, get, next, on directories with any contents; spec: Spec/AnyDir (`Num`, `TableFile`, `StrayFile`, `Leads`, `RecordAt`, `Entries`, `LaxHeads`, `Walkable`) | partial: false (`C97_false_table`: three bytes as path table make both openers panic; `C97_false_get`: one byte; `C97_false_endless`: six bytes and other records). Proved: `C97_open` (equivalences: opens / panics / error), `C97_path` (equivalences for the path of a document), `C97_get_partial`, `C97_next_partial`, `C97_append_partial` (conditions under which they end with a result or an error; for `Get` exactly: C114; for `Next`: C115; for opening to append exactly: C116), `C97_sessions` (an index made by sessions has these conditions on records and table). Memory is taken to be unlimited |
| C98 | Index.open, Config.readFrom, get, posts on what a loss of power leaves; spec: Spec/PowerLoss (`PageLost`: every page as written or zeros, the file no longer; `PowerLoss`) | partial: false (`C98_false_paths`, `C98_false_records`, `C98_false_heads`); the configuration (`C98_config_partial`, `C98_open_partial`) and lost posting pages where lists begin (`C98_get_partial`, `C98_posts_partial`) and in their middle (`C98_later_partial`) proved | what may be lost is a hypothesis about the operating system, not taken from /repo: no call of Sync is in /repo, and only posting files opened for appending have O_SYNC (internal/shard/indexer.go:75); that they may lose pages too is more than can happen, and the false witnesses do not use it |
| C99 | Indexer.Twin, refresh, open, Session; Index.open, startQuery, get; spec: Spec/Twin (`twinFound`), `found` | partial: false (`C99_false_lost`, `C99_false_mixed`, `C99_false_panics`); blots no new document has (`C99_old_partial`) and exact lists if the first indexer added no new paths (`C99_get_partial`) proved; the same exactly for a second indexer that adds nothing (`C99_idle_partial`, with spec `PathListed`); such executions exist (`C99_runs`) | only executions in which both open first, then the one adds and closes and then the other; other interleavings of the two are not modelled; `Next` on such an index is not |
| C100 | Holder.call, calls, Index.close, Handles.fates; getF, nextF; spec: Spec/Closed (`Turned`, `UsesStarted`, `GivesRoom`, `NoRoom`), `found` | partial: false (`C100_false_lock`, `C100_false_get`, `C100_false_next`); `C100_close_partial`, `C100_calls_partial` and `C100_fresh_partial` proved | before Close, `Next` is called with slices that are nil or empty (`GivesRoom`); every use of a closed file gives an error, as os.File does; calls are one after the other, not concurrent |
| C101, C102, C103 | History, Index.open, Query.get, next; spec: `found` | proved, from C21 and C23 for both indexes: `C101_get`, `C101_next`, `C101_shards_get`, `C101_shards_next`; `C102_get`, `C102_next`; `C103_get`, `C103_next` |
| C104 | the same and the tokenizer; spec: Spec/Layout (`Laid`, `SameWords`) | partial: false (`C104_false`, for every configuration); `C104_get_partial` and `C104_next_partial` for texts after whose last word something comes; `C104_cut` says what a text that ends with a word counts as |
| C105 | Model/Dmd, Model/Fnames, Model/Indexer (`Front.adds`), Model/Query (`docid2Doc`), without the limits of `Fits` on the number of documents (Proof/Full) | partial: false (`C105_false`); `C105_created_partial`, `C105_appended_partial` say what happens for any number of documents, `C105_below_partial` that ids are different below the limit, `C105_reopened_partial` about opening. The goroutine system with ids that are used again (Proof/SchedWrap, less than 2^32 shatterers) and the posting lists it leaves (Proof/FullPosts): `C105_found_partial`, `C105_found_appended_partial` say what `Get` shows after a session with any number of documents, `C105_found_false` is a wrong answer; `C105_next_partial`, `C105_next_appended_partial` say what `Next` delivers, `C105_next_false` is a pair of duplicates it passes over. Spec/Records says where the records are after any number of sessions (Proof/FullHistory): `C105_sessions_partial`, `C105_sessions_exist_partial` are about any sessions of any numbers of documents, `C105_sessions_false` a session after one that used up the ids. `C105_limited_partial` is about `Next` with slices of any capacities. Missing: posting lists of 2^32 entries |
| C106 | the same; tables with 2^32 entries | partial: false (`C106_none_read`, `C106_false`); `C106_open_partial` for the open indexer; tables of more than 2^32 entries other than multiples of it are not treated |
| C107 | Model/Race: doc2Id as a sequence of reads and writes of slices, arrays, maps and counters that several goroutines share; Model/Sched for the rest of the session | partial: false (`C107_false_ids`, `C107_false_paths`); `C107_apart_partial`: calls that do not overlap are those of Model/Indexer; which interleavings go right is not characterised, memory is sequentially consistent, a map operation, a flush and the storing of a slice header are single steps |
| C108 | Model/Find (`Load`, `FindBlot`), Model/Cmd (unblot) | partial: false (`C108_false_unblot`, `C108_false_text`, `C108_false_blanks`, `C108_false_panic`); `C108_load`, `C108_whole`: exactly what is loaded of a file of any length; `C108_unblot`: exactly what unblot prints, or that it panics, for any number of files of any lengths (`C108_unblot_partial` in simpler words for lengths that are no multiple of 4 GiB); of `like` only what C121_like says, which has no bound on the files of the documents |
| C109 | Model/Bloom | partial: false for sizes that are a multiple of 2^32 bits (`C109_false_large`) or a power of 2 (`C109_false_power`); `C109_config`: exactly when a filter can be made again; `C109_putOnes`, `C109_positions`, `C109_estimate` for the rest; the floating point part of Estimate is a parameter |
| C110 | `Query.getF`, `Query.nextF` | calls are counted through the fates: the outcome does not depend on the fates from a number on; potential argument, a docid in memory being worth two calls: the header of a block takes two calls only if the block has at least two docids, so that reading a block costs at most two calls per docid of it, and each lookup costs two |
| C111 | `Index.open`, `Query.get` on any posting files | opening reads nothing of the posting files; the owner of a byte is that of the block it is in; a list whose blocks are in the file (`Covers`) is read, whatever is between them |
| C112 | `Index.open`, `Query.get`, `Query.next` on other metadata files and path tables | the shards are the same, so that queries differ only in what `docid2Doc` gives: the proofs for C21 and C23 with any such function; a lookup reads the twelve bytes of its record; other bytes in the place of names are a table with other names of the same lengths and the same parents, which is read as such (`TableFile`, C97) |
| C113 | `Index.open`, `ShardIndex.readIix`, `Query.get` on other files of heads | what an opened shard has is what its file says (`Entries`, C97); a number of which no top bit changed is read as a number of as many bytes or as none, so that the entries stay where they are; then as for C111 |
| C114 | `Query.get`, `Posts.next`, `Posts.readNext`, `Index.docid2Doc` on directories with any contents; spec: Spec/AnyGet (`PageAt`, `Pages`, `Reaches`, `DocAs`, `GetFate`) | a page is read precisely if it is there (`readNext_exact`); calls of `Next` on the list give the documents of its pages; the loop of `Get` is these calls, each with a document that is shown; the four fates are shown to exhaust all cases, classically; `C114_sessions` says that in an index made by sessions the fate is a result of the right length |
| C115 | `Query.next`, `Query.fillBlot`, `Query.advance`, `setMax`, `startQuery` on directories with any contents; spec: Spec/AnyNext (`CountAt`, `Meets`), Spec/AnyGet; `Visited` (Props/AnyNext) says what consecutive calls return | the order is that of the visits when every list is given (`Query.visits`, from the numbers in the files of heads alone), and is the same with other posting files (`Visits.with`); the loop of fillBlot does what that of Get does (`fill_get`), whose fate is C114's; `C115_sessions`: in an index made by sessions all lists are given, with as many documents as stated; `C115_local`: damage to posting files. Not covered: calls that come to a list said to have at least two documents that gives none or one (the code then advances another shard), and slices with a limit |
| C116 | `Indexer.open`, `Indexer.openShards`, `ShardIndexer.initAppend`, `readIix`, `readLinks`, `Poster.initAppend`, `readUvarintLax`, `readToLink`, `Dmd.newAdder`, `makeBlotters` on directories with any contents; spec: Spec/AnyAppend (`LaxValue`, `AppendEntry`, `LastLink`, `ShardOpens`, `ShardStops`, `Begun`) | `C116_open`: equivalences for success, panic and no end, and an error otherwise; `C116_state`: what the session has then; `C116_sessions`: an index made by sessions is of this kind; `C116_lax`: what opens to append need not open for reading. Memory is taken to be unlimited |
| C117 | `Front.adds`, `Dmd.newAdder`, `Dmd.add`, `Dmd.close`, `Fnames.addParts`, `Fnames.write`, `ShardIndexer.addAll`, `Poster.addPost`, `Poster.flushTo`, `ShardIndexer.close`, `Indexer.Session` on directories with any contents; spec: Spec/AnySession (`withFirst`, `numberNext`, `RoomFor`, `GetsOne`, `holders`), Spec/AnyGet, Spec/AnyAppend | `C117_runs` (equivalence for a session that ends), `C117_records`, `C117_shards`, `C117_opens`, `C117_lists`, `C117_get`, `C117_mends` (a directory that cannot be read is mended by a session), `C117_false_cut`, `C117_false` (records cut inside a record; part of the statement) |
| C118 | `Query.get`, `Posts.next`, `Posts.readNext` on directories with any contents; spec: Spec/LatePages (`PageTo`, `KeptPages`, `Gone`), Spec/AnyGet, Spec/PowerLoss | `C118_get`, `C118_lost`, `C118_false_link` (the last sentence of the statement); applied to indexes made by sessions: `C98_later_partial` |
| C119 | `Fnames.addPath`, `Fnames.abs`, `Fnames.string`, `Fnames.write`, `Fnames.read`, `Dmd.add`, sessions of an index; spec: Spec/PathOrder (`wayOrder`, `wayNumber`, `namesFile`, `recordsFile`), Spec/Path | `C119_ids`, `C119_string`, `C119_files` (every history of an index), `C119_any` and `C119_damaged` (any table); the files of the configuration, heads and postings are not in this statement |
| C120 | Model/Query (`nextLoop`, `fillLoop`, `getLoop`, `advance`), Model/Poster (`Posts.next`) | proved (`C120_drawn`, `C120_sessions`, `C120_get`); only what returned calls return; when calls return is C97, C114 and C115 |
| C121 | Model/Cmd (`unblot`, `unblotLoop`, `extract`, `extractLoop`, `like`, `likeLoop`, `likeDocs`), Model/Find (`findBlot`, `findBlots`, `Doc.load`), Model/Query (`stats`) | proved (`C121_unblot`, `C121_extract`, `C121_extract_all`, `C121_like`, `C121_like_all`, `C121_inspect`); unblot is exact; of extract what it prints if it ends without an error, and all that it prints if the lists it comes to give at least two documents each; of like what it prints if it ends without an error, and exactly what it prints if the documents start at 0 and their files are there; the mean and deviation of inspect are not considered here |
| C122 | Model/NewDoc on top of Model/Indexer, Model/Query, Model/Find | partial: `C122_found` (always shown under its blots), `C122_text_partial` (read back if the file holds the text); false otherwise (`C122_false`, `C122_false_two`) |
| C123 | Model/Usage (the message for an order of the map of verbs) | `C123_once`, `C123_listed` (against what `scMap` and the global flags accept), `C123_same`, `C123_differs`; Spec/Lines says what the lines of a text are and when a line lists a word. That the status is then 1 is C73 |
| C124 | Model/Strings with the digits of Model/Text | partial: `C124_token` (all of it for tokens), `C124_post` (which posts print alike), `C124_shard`; false of posts in general (`C124_false`) |
| C125 | Model/Pointers on top of Model/Shared (slices in memory) | partial: `C125_doc`, `C125_room`, `C125_get`, `C125_next` (over `Query.Next` blots with slices stay in place, though a blot given up is filled anew), `C125_next_one` (one blot with two documents keeps them); false when a new array is made (`C125_false`) |
| C46, C48 | cfg.json through encoding/json | parser/printer round trip for all configurations; C46 false: no truncation; roots that are not UTF-8 change |

Other things noticed while modelling: a failed `CreateIndexer` keeps the exclusive lock; `Add` clears the path of the caller's
document; `IndexerFromConfig` does not call `check`; concurrent callers of `Add` can deadlock (C50); errors of writing a posting list are logged, `Close` returns nil and the list is unreadable (C51); a failed flush of the document table is repeated from its beginning and shifts all later documents (C51); cfg.json records the root and everything else, also what is removed, is found through it: a moved index cannot be opened and removing a copy removes the original (C53); an index created under a root that is not UTF-8 cannot be opened (C53); a reader of an index that is being appended to panics or fails for blots of new documents (C54); `dupi -r index ...` fails and `dupi typo -r ROOT index ...` indexes into the default root (C57); `dupi index -t N` fails unless N is 10 (C58); `dupi unblot 0x1a` looks up blot 0 (C59); extract's output is ambiguous for paths with spaces (C60); extract -json prints several JSON texts one after the other (C70); a read error at the total of a posting list while a shard is opened to append is dropped and the count becomes 0 (C61); after an error `Next` does not deliver again the documents it had read of the current blot, and `Get` with the same blot returns a blank document (C62); dupenron gives documents a wrong place in the file, leaves an unusable index after a faulty record and with -o loses the end of the output (C68, C69); `NumPaths` counts tree nodes; files of
4 GiB or more get an end modulo 2^32; a hand-edited (longer) cfg.json is corrupted by the next session's `Close`.

## Testing the theorems

`seeded/LOG.jsonl` has one line per wrong program.  The edit is applied to a scratch copy of the model, the project is rebuilt, every
failing proof is replaced by `sorry`, and the theorems that then depend on `sorryAx` are the ones that failed.  This does not show by
itself that the statement became false: a proof can also fail because it was too rigid.  Edits that change nothing the English claims
speak of, and repairs of the code's bugs, are therefore included as controls, but the log is evidence, not a proof, that the
statements are strong enough.

