{"id": "C01", "title": "Posts pack and unpack without loss", "statement": "post.Make(docid, blot) followed by Docid/Blot/Split returns exactly the docid and the blot that were packed; two posts are equal only if both components are; comparing posts as integers orders them by docid first, blot second.", "quantifier": "every pair of 32-bit docid and 32-bit blot", "why_tests_cant": "2^64 pairs; a sign/shift mistake shows only for values with particular high bits.", "anchors": ["post/t.go:Make", "post/t.go:T.Docid", "post/t.go:T.Blot", "post/t.go:T.Split"]}
{"id": "C02", "title": "Blot splitting, joining and routing agree", "statement": "For an index with 0 < NumShards < 65536 shards: JoinBlot(SplitBlot(b)) = b mod (NumShards*65536), SplitBlot(JoinBlot(s, sb)) = (s, sb) for every shard s < NumShards, SplitBlot's shard is a valid shard, and the shard/bucket at which the indexer stores a post with blot b is exactly the shard/bucket at which Query.Get(b) looks.", "quantifier": "every 32-bit blot, every shard count in range, every (shard, 16-bit sub-blot)", "why_tests_cant": "All 2^32 blots times all shard counts; 32-bit overflow of NumShards*65536 is the dangerous corner.", "anchors": ["index.go:Index.SplitBlot", "index.go:Index.JoinBlot", "query.go:Query.Get", "query.go:Query.fillBlot", "shatter.go:shatter.blot", "internal/shard/indexer.go:Indexer.Serve"]}
{"id": "C03", "title": "A path added to the path table is reported back as its absolute path", "statement": "After adding any sequence of paths, the string reported for the id returned by the i-th add is the cleaned absolute form of the i-th path (and stays so after further adds).", "quantifier": "every sequence of paths (absolute or relative to any working directory), every position in it", "why_tests_cant": "Unbounded sequences; shared prefixes make later insertions touch nodes of earlier ones.", "anchors": ["fnames.go:fnames.addPath", "fnames.go:fnames.abs"]}
{"id": "C04", "title": "Path ids identify paths", "statement": "Two adds return the same id if and only if the two paths have the same cleaned absolute form, and adding a path that is already present does not grow the table.", "quantifier": "every sequence of adds and every two positions in it", "why_tests_cant": "Quantifies over all pairs of adds in unbounded histories.", "anchors": ["fnames.go:fnames.addPath"]}
{"id": "C05", "title": "The path table survives being written and read back", "statement": "Reading the bytes written for a path table succeeds and yields a table that reports the same path for every id, and on which every later sequence of adds returns the same ids as it would have on the original table.", "quantifier": "every path table reachable by adds (and by earlier write/read cycles), every later sequence of adds", "why_tests_cant": "Unbounded table contents and names of any length; behavioural equality over all continuations.", "anchors": ["fnames.go:fnames.write", "fnames.go:breadFnames", "fnames.go:readUvarint32", "fnames.go:writeUvarint32"]}
{"id": "C06", "title": "Document ids are dense and sequential", "statement": "Within and across sessions, the k-th document ever added to an index receives id k (ids start at 1), whatever the flush rate and wherever flushes and close/reopen cycles fall.", "quantifier": "every history of sessions and adds, every positive flush rate per session", "why_tests_cant": "Off-by-one at flush boundaries only appears for particular (flush rate, count) combinations.", "anchors": ["dmd/adder.go:NewAdder", "dmd/adder.go:Adder.Add", "dmd/adder.go:Adder.flush", "dmd/adder.go:Adder.Last", "dmd/adder.go:Adder.Close"]}
{"id": "C07", "title": "Document metadata is durable and exact", "statement": "After any history of sessions, looking up the id of any added document returns exactly the (file id, start, end) it was added with, and looking up an id that was never assigned (other than the reserved id 0) fails with an error.", "quantifier": "every history of sessions/adds/flush rates, every 32-bit id", "why_tests_cant": "All histories and all ids, including ids just past the end.", "anchors": ["dmd/t.go:T.Lookup", "dmd/adder.go:Adder.flush", "dmd/t.go:New"]}
{"id": "C08", "title": "The tokenizer loses no text", "statement": "For valid UTF-8 input the concatenation of the literals of the returned tokens is the whole input.", "quantifier": "every byte string that is valid UTF-8", "why_tests_cant": "All inputs; the end-of-input handling depends on the class and width of the last rune. (FALSE of the code: the last rune is always dropped.)", "anchors": ["token/t.go:Tokenize"]}
{"id": "C09", "title": "Tokens are maximal, alternating, correctly positioned runs", "statement": "Every token is non-empty; a Word token consists only of letters/digits and an Other token contains none; adjacent tokens have different tags; each token's Pos is offset plus the byte position of its literal in the data.", "quantifier": "every byte string, every 32-bit offset, every classification of runes", "why_tests_cant": "All inputs including multi-byte runes at every boundary.", "anchors": ["token/t.go:Tokenize"]}
{"id": "C10", "title": "Data that is not valid UTF-8 is indexed as an empty document", "statement": "Tokenizing data that is not valid UTF-8 appends nothing; a document with such data still gets an id but is never returned for any blot.", "quantifier": "every byte string that is not valid UTF-8; every index history containing such a document; every blot queried", "why_tests_cant": "All malformed inputs (truncated, overlong, surrogate, out of range).", "anchors": ["token/t.go:Tokenize", "shatter.go:shatter.do"]}
{"id": "C11", "title": "A blot is the xor of the hashes of the last SeqLen words", "statement": "After feeding any words to a circular blotter of length n, the blot returned is the xor of the FNV-1 hashes of the lower-cased last n words (all of them if fewer than n were fed); with interleaving k it is the xor over every k-th word, going back n of them.", "quantifier": "every n >= 1, every k >= 1, every word sequence", "why_tests_cant": "Unbounded streams; ring buffer wrap-around for every n.", "anchors": ["blotter/circ.go:Circ.Blot", "blotter/interleaved.go:Interleaved.Blot", "blotter/config.go:FromConfig"]}
{"id": "C12", "title": "Blots ignore case and order inside the window", "statement": "Replacing any words by words equal up to ASCII letter case, or permuting the words inside the window, does not change the blot.", "quantifier": "every word sequence, every re-casing, every permutation of a full window", "why_tests_cant": "All permutations and re-casings.", "anchors": ["blotter/circ.go:Circ.Blot"]}
{"id": "C13", "title": "Fingerprints do not depend on earlier documents", "statement": "The posts produced for a document by a shatterer that already processed any other documents are exactly the posts given by the blots Index.BlotDoc reports for that document with a fresh blotter.", "quantifier": "every consistent configuration (including interleaving), every list of previously processed documents, every document", "why_tests_cant": "The blotter is never reset between documents, so independence is a property of every history.", "anchors": ["shatter.go:shatter.do", "shatter.go:shatter.blot", "index.go:Index.BlotDoc", "config.go:Config.check"]}
{"id": "C14", "title": "Posting lists return what was posted", "statement": "After any sequence of posts to a shard, closing and reopening it for reading, the posting list read for each of the 65536 blots is the sequence of docids posted for that blot with consecutive repetitions removed, followed by end-of-list.", "quantifier": "every sequence of (docid, blot) posts, including non-monotone docids, every blot", "why_tests_cant": "Chunk boundaries, interleaved chunks of 65536 lists in one file, and link patching depend on the whole history.", "anchors": ["internal/shard/poster.go:poster.AddPost", "internal/shard/poster.go:poster.flushTo", "internal/shard/posts.go:Posts.readNext", "internal/shard/posts.go:Posts.next", "internal/shard/indexer.go:Indexer.Close", "internal/shard/index.go:Index.Init"]}
{"id": "C15", "title": "Appending to a shard is the same as never having closed it", "statement": "A shard that is closed and reopened for appending any number of times between posts yields the same posting lists and counts as one that received all the posts in a single session.", "quantifier": "every split of every post sequence into sessions", "why_tests_cant": "All splits of all histories.", "anchors": ["internal/shard/poster.go:poster.initAppend", "internal/shard/poster.go:poster.readToLink", "internal/shard/indexer.go:Indexer.InitAppend"]}
{"id": "C16", "title": "Counts are exact", "statement": "The count stored for a blot equals the number of docids its posting list yields, and Stats().NumPosts is the sum over all blots.", "quantifier": "every history with fewer than 2^32 posts per blot, every blot", "why_tests_cant": "All histories.", "anchors": ["internal/shard/index.go:Index.Count", "internal/shard/index.go:Index.NumPosts", "index.go:Index.Stats"]}
{"id": "C17", "title": "Every written chunk fits the reader's buffer", "statement": "No chunk written to a posting file is longer than the fixed buffer into which a reader slices it, and no in-memory chunk outgrows its buffer, so reading a shard written by the indexer never panics.", "quantifier": "every history of posts", "why_tests_cant": "The bound depends on the largest varint written just below the flush threshold.", "anchors": ["internal/shard/poster.go:poster.AddPost", "internal/shard/posts.go:Posts.readNext", "internal/shard/poster.go:flushRate"]}
{"id": "C18", "title": "Shards see documents in id order under every schedule", "statement": "However the shatter goroutines, per-shard senders and shard servers are scheduled, each shard receives the posts of documents in strictly increasing docid order, all the posts of a document before any post of the next.", "quantifier": "every schedule, every number of shatterers and shards, every sequence of documents", "why_tests_cant": "Exponentially many interleavings; -race and stress tests only sample.", "anchors": ["shatter.go:shatter.send", "shatter.go:startShatter", "internal/shard/indexer.go:Indexer.Serve"]}
{"id": "C19", "title": "Indexing never deadlocks or loses a wake-up", "statement": "With at least one shatterer and a single caller, from every reachable state of the goroutine system some goroutine can step until Close has handed out all shutdown requests, and every schedule reaches that point after finitely many steps.", "quantifier": "every schedule, every number of shatterers >= 1, every number of shards and documents", "why_tests_cant": "Lost wake-ups and deadlocks are schedule dependent.", "anchors": ["shatter.go:shatter.send", "shatter.go:startShatter", "indexer.go:Indexer.Close", "indexer.go:Indexer.Add"]}
{"id": "C20", "title": "The index is a function of the documents, not of the schedule", "statement": "When Close has shut the shatterers down, every shard has received exactly the posts of the sequential execution, independently of the schedule and of NumShatters.", "quantifier": "every two schedules and shatterer counts for the same documents", "why_tests_cant": "Pairs of schedules.", "anchors": ["shatter.go:shatter.send", "shatter.go:shatter.do", "indexer.go:Indexer.Close"]}
{"id": "C21", "title": "Query.Get returns exactly the matching documents", "statement": "After any history of create/append sessions, Get(b) with nil Docs returns precisely the documents one of whose blots falls in the same bucket as b, in the order they were added, each once, each with its absolute path, start and end.", "quantifier": "every history of sessions and documents, every 32-bit blot", "why_tests_cant": "End-to-end over all histories, configurations and blots.", "anchors": ["query.go:Query.Get", "index.go:Index.docid2Doc", "index.go:OpenIndex", "indexer.go:Indexer.Add", "indexer.go:Indexer.Close"]}
{"id": "C22", "title": "Query.Get with a limited slice returns the first documents", "statement": "Get with a non-nil Docs of length l and capacity c keeps the first l entries and fills in the first c-l matching documents (fewer if there are not as many), and never reallocates.", "quantifier": "every index, every blot, every length and capacity", "why_tests_cant": "All capacities relative to list lengths.", "anchors": ["query.go:Query.Get", "blot.go:Blot.Next"]}
{"id": "C23", "title": "Unlimited extraction enumerates every duplicated blot exactly once", "statement": "Calling Next repeatedly with Docs = nil until EOF yields every blot that has at least two documents exactly once, with all its documents in order, and nothing else.", "quantifier": "every index contents, every number of shards, every length of the destination slice", "why_tests_cant": "The per-shard cursor/maximum logic depends on all counts at once.", "anchors": ["query.go:Query.Next", "query.go:Query.fillBlot", "query.go:Query.advance", "query.go:qstate.setMax", "internal/shard/index.go:Index.ReadStateAt"]}
{"id": "C24", "title": "Extraction is in non-increasing frequency order", "statement": "The blots produced by unlimited extraction have non-increasing numbers of documents, so stopping at the first blot below a threshold misses none above it.", "quantifier": "every index contents and shard count", "why_tests_cant": "Merge order across shards for all count distributions.", "anchors": ["query.go:qstate.setMax", "query.go:Query.advance", "internal/shard/index.go:Index.readIix"]}
{"id": "C25", "title": "Extraction signals the end promptly and repeatably", "statement": "Once every blot was delivered, Next returns EOF, and calling Next again returns EOF again without further work.", "quantifier": "every index contents, every destination length, every number of calls after the end", "why_tests_cant": "Needs all continuations. (FALSE of the code: the exhausted-shard counter is never reset, so after a short or EOF return the next call spins about 2^32 times.)", "anchors": ["query.go:Query.Next"]}
{"id": "C26", "title": "Limited extraction loses no document", "statement": "With Docs slices of fixed capacity c >= 2, repeated Next calls deliver every document of every blot having at least two documents.", "quantifier": "every index contents, every capacity", "why_tests_cant": "Needs all contents. (FALSE of the code: a blot of another shard can be skipped, and a remainder of one document is dropped.)", "anchors": ["query.go:Query.Next", "query.go:Query.fillBlot", "query.go:Query.advance"]}
{"id": "C27", "title": "FindBlot is sound and complete", "statement": "FindBlot(b, doc) succeeds iff b is one of the document's blots reduced modulo NumShards*65536; on success the returned range starts at the start of a word, ends at the end of a word, spans SeqLen+1 consecutive words, and the blot of the last SeqLen of them is b; it is the first such range.", "quantifier": "every document, every blot, every consistent configuration", "why_tests_cant": "All documents.", "anchors": ["index.go:Index.FindBlot"]}
{"id": "C28", "title": "FindBlots reports only text that is really in the document", "statement": "Every entry (b, t) returned by FindBlots(m, doc) satisfies m[b] = t and t is the text of doc at a position where the blot b occurs; every such occurrence with equal text is reported. Works for documents at any Start offset.", "quantifier": "every map, every document, every Start", "why_tests_cant": "All documents and offsets. (Soundness for Start = 0 holds; for Start > 0 the code slices with absolute offsets: FALSE.)", "anchors": ["index.go:Index.FindBlots"]}
{"id": "C29", "title": "Stats count the documents, posts and paths", "statement": "Stats().NumDocs is the number of documents added, NumPosts the number of distinct (document, bucket) pairs, NumBlots the number of buckets, NumPaths the number of different nodes (the root, directories and files) on the way to the documents.", "quantifier": "every history", "why_tests_cant": "All histories. (NumDocs is FALSE of the code: the reserved record 0 is counted.)", "anchors": ["index.go:Index.Stats", "dmd/t.go:T.NumDocs", "internal/shard/index.go:Index.NumPosts"]}
{"id": "C30", "title": "Creating an index is all-or-nothing under crashes", "statement": "If the process dies at any point of a create session before Close finished its last write, OpenIndex on the result fails; if OpenIndex succeeds the index is complete.", "quantifier": "every sequence of documents, every crash point (between or inside any two writes)", "why_tests_cant": "All crash points times all contents.", "anchors": ["indexer.go:Indexer.Close", "internal/shard/indexer.go:Indexer.InitCreate", "internal/shard/indexer.go:Indexer.flushIix", "internal/shard/poster.go:poster.initCreate", "internal/shard/index.go:Index.readIix"]}
{"id": "C31", "title": "A crash while appending never damages what was committed", "statement": "If the process dies at any point of an append session, every document committed by earlier sessions is still returned by queries on reopening.", "quantifier": "every committed index, every appended documents, every crash point", "why_tests_cant": "All crash points. (FALSE of the code: truncation windows and in-place link patching; holds as long as nothing was flushed.)", "anchors": ["indexer.go:Indexer.Close", "indexer.go:Indexer.writeFiles", "internal/shard/poster.go:poster.flushTo", "internal/shard/indexer.go:Indexer.flushIix"]}
{"id": "C32", "title": "Writers are exclusive", "statement": "While an indexer is open on an index, no other indexer or reader can be opened on it, and unlocking makes the lock available to others.", "quantifier": "every history of lock operations by any number of processes", "why_tests_cant": "All interleavings of processes. (Holds for creating indexers; FALSE for appending ones and for Unlock.)", "anchors": ["lock/unix.go:File.Lock", "lock/unix.go:File.Unlock", "lock/file.go:File.Close", "indexer.go:IndexerFromConfig", "indexer.go:openFromConfig", "index.go:OpenIndex"]}
{"id": "C33", "title": "Any sequence length can be configured", "statement": "CreateIndexer(root, n, seqLen) accepts every positive seqLen, and a configuration that is accepted always makes a usable blotter.", "quantifier": "every seqLen and shard count", "why_tests_cant": "All integers. (FALSE of the code: only seqLen = 10 is accepted.)", "anchors": ["config.go:NewConfig", "config.go:Config.check", "blotter/config.go:FromConfig"]}
{"id": "C34", "title": "Loading an indexed document gives back the indexed bytes", "statement": "If a file is unchanged since it was indexed, Doc.Load on the document returned by a query yields exactly the bytes that were indexed, whether it covers the whole file or a sub-range.", "quantifier": "every file contents and every range 0 <= start <= end <= size", "why_tests_cant": "All ranges, including the (0,0) special case.", "anchors": ["doc.go:Doc.Load"]}
{"id": "C35", "title": "The integer Bloom filter has no false negatives", "statement": "Starting from an empty set, after any sequence of adds and unions HasPost is true for each integer added and each integer a united set has; an intersection has exactly the integers both sets have; Ones lists exactly the set bits.", "quantifier": "every filter whose size in bits is not 0 as uint32, every k, every sequence of adds and unions", "why_tests_cant": "All values and sequences. (An add directly after an intersection that removed the integer added last is skipped.)", "anchors": ["attic/ibloom/fnv32.go:fnv32.Add", "attic/ibloom/fnv32.go:fnv32.Has", "attic/bposts.go:bposts.AddPost", "attic/bposts.go:bposts.Union", "attic/bposts.go:bposts.Intersect"]}
{"id": "C36", "title": "Trigrams stay in range and decode to the last three letters", "statement": "Shifting any sequence of letters gives a value below NumTrigrams whose String is the last three letters shifted in.", "quantifier": "every sequence of letters", "why_tests_cant": "Unbounded sequences; 16-bit overflow.", "anchors": ["attic/trigram/t.go:T.Shift", "attic/trigram/t.go:T.String", "attic/trigram/t.go:Letter", "attic/trigram/t.go:Unletter"]}
{"id": "C37", "title": "Duplicated text is always found", "statement": "If two indexed documents both contain the same run of SeqLen+1 words (in any ASCII case, with any separators), then some blot is reported by unlimited extraction whose documents include both.", "quantifier": "every history of documents, every pair of documents, every shared run", "why_tests_cant": "The central no-false-negatives claim quantifies over all documents.", "anchors": ["shatter.go:shatter.do", "query.go:Query.Next", "blotter/circ.go:Circ.Blot"]}
{"id": "C38", "title": "Concurrent lookups on one index do not disturb each other", "statement": "Document lookups made by concurrent queries on the same open index return the metadata of the document asked for.", "quantifier": "every schedule of two or more lookups", "why_tests_cant": "Schedule dependent. (FALSE of the code: Lookup uses Seek followed by Read on a shared descriptor.)", "anchors": ["dmd/t.go:T.Lookup"]}
{"id": "C39", "title": "Extract prints exactly the blots at or above the threshold", "statement": "For a threshold N computed from Stats, the extract command outputs exactly the blots with at least max(2, N) documents.", "quantifier": "every index contents and every threshold", "why_tests_cant": "All count distributions.", "anchors": ["cmd/dupi/extract.go:extractCmd.Run"]}
{"id": "C40", "title": "Unblot finds the text for every document it lists", "statement": "For a blot below NumShards*65536 and unchanged files, FindBlot succeeds on every document returned by Get for that blot, so unblot prints no warning and omits no document from its grouping.", "quantifier": "every history, every blot in range", "why_tests_cant": "End-to-end over all histories.", "anchors": ["cmd/dupi/unblot.go:unblotCmd.Run", "index.go:Index.FindBlot", "query.go:Query.Get"]}
{"id": "C41", "title": "Like lists exactly the documents sharing a passage verbatim", "statement": "dupi like lists a document iff it contains one of the file's SeqLen+1-word passages byte for byte (up to later passages of the file with the same blot replacing earlier ones).", "quantifier": "every index history of whole-file documents, every input file", "why_tests_cant": "End-to-end over all histories and files.", "anchors": ["cmd/dupi/like.go:doFilename", "index.go:Index.FindBlots", "index.go:Index.BlotDoc"]}
{"id": "C42", "title": "The index command indexes every visible file or reports an error", "statement": "doPath adds exactly the files reachable without passing a hidden entry, and if it returns nil every such file was added.", "quantifier": "every directory tree, every set of unreadable files", "why_tests_cant": "All trees. (The nil-means-complete half is FALSE of the code.)", "anchors": ["cmd/dupi/index.go:indexCmd.mkWalkFn", "cmd/dupi/index.go:indexCmd.doPath"]}
{"id": "C43", "title": "blot -offsets prints the position of each blot", "statement": "The range printed next to a blot is the range FindBlot gives for it.", "quantifier": "every document", "why_tests_cant": "All documents. (FALSE of the code: offsets are taken from unfiltered tokens.)", "anchors": ["cmd/dupi/blot.go:blotCmd.doFilename"]}
{"id": "C44", "title": "Reading a damaged path table is safe", "statement": "Reading arbitrary bytes as a path table returns a table or an error; it never panics, and on any table it returns the path of every id is defined.", "quantifier": "every byte string", "why_tests_cant": "All inputs. (FALSE of the code.)", "anchors": ["fnames.go:breadFnames", "fnames.go:fnames.abs"]}
{"id": "C45", "title": "Reused result slices never pair a document with another document's data", "statement": "A document returned by a query has empty Dat or the data of that document.", "quantifier": "every contents of the slice passed in", "why_tests_cant": "All reuse patterns. (FALSE of the code: Dat is not reset.)", "anchors": ["index.go:Index.docid2Doc", "blot.go:Blot.Next", "index.go:Index.FindBlot"]}
{"id": "C46", "title": "A configuration written over an older one reads back", "statement": "After Write, reading the configuration file returns the configuration written, whatever the file contained before.", "quantifier": "every pair of old contents and new configuration", "why_tests_cant": "All lengths. (FALSE of the code: the file is not truncated.)", "anchors": ["config.go:Config.Write", "config.go:ReadConfig"]}
{"id": "C47", "title": "Trigrams of a token list are the triples of its folded text", "statement": "FromTokens of words and separators gives exactly the runs of three consecutive characters of the folded text (letters and digits in lower case, one underscore per separator and per other byte); VisitTokens reports every character with its two predecessors.", "quantifier": "every token list", "why_tests_cant": "All token lists. (FromTokens drops the first two elements of a buffer that was not empty, and panics on fewer than two characters.)", "anchors": ["attic/trigram/t.go:FromTokens", "attic/trigram/t.go:FromToken", "attic/trigram/t.go:VisitTokens"]}
{"id": "C48", "title": "The configuration file round-trips", "statement": "A configuration with Go ints and valid UTF-8 strings, written by Close into a new index or over an identical file, is read back exactly by ReadConfig; configurations made by CreateIndexer are of that kind.", "quantifier": "every configuration, every root that is valid UTF-8", "why_tests_cant": "All strings (escapes, control characters, U+2028) and all integers. (A root that is not valid UTF-8 reads back as another one.)", "anchors": ["config.go:Config.Write", "config.go:ReadConfig", "config.go:NewConfig"]}
{"id": "C49", "title": "An index that opens can blot text", "statement": "If an index opens, that is, if ReadConfig accepts its cfg.json and the other files are in order, then BlotDoc returns for every text and Get and Next do not panic.", "quantifier": "every configuration file, every text", "why_tests_cant": "All configurations. (FALSE of the code: check compares only the sequence lengths, so an unknown tokenizer, a negative interleaving with a negative length, a length 0 or no shards are accepted and panic later.)", "anchors": ["config.go:Config.check", "index.go:Index.TokenFunc", "index.go:Index.Blotter", "index.go:Index.BlotDoc", "query.go:Query.Get"]}
{"id": "C50", "title": "Several goroutines may add documents to one indexer", "statement": "If several goroutines call Indexer.Add on one indexer, each for its own documents, and Close is called when all of them have returned, then the session ends and leaves the index of a session in which one goroutine adds the same documents in some order that keeps the order of every caller.", "quantifier": "every number of callers and shatterers, all documents, every schedule", "why_tests_cant": "All interleavings of any number of goroutines. (FALSE of the code, even with an atomic doc2Id: Add takes the id first and hands the document over later, so another caller can fill all shatterers with later documents, which then wait for ever for the earlier one.)", "anchors": ["indexer.go:Indexer.Add", "indexer.go:Indexer.doc2Id", "shatter.go:shatter.send"]}
{"id": "C51", "title": "No error returned means everything was stored", "statement": "If Close returns nil, every document whose Add returned nil is found by later queries exactly as it was added, whatever system calls failed during the session.", "quantifier": "every session, every set of failing opens, seeks and writes (failing after any number of bytes)", "why_tests_cant": "All failure points. (FALSE of the code: errors of the shard goroutines are only logged; and a failed flush of the document table is repeated from its beginning, which shifts all later documents.)", "anchors": ["internal/shard/indexer.go:Indexer.Serve", "internal/shard/poster.go:poster.flushTo", "dmd/adder.go:Adder.flush", "indexer.go:Indexer.Close", "indexer.go:Indexer.Add"]}
{"id": "C52", "title": "Indexes on one disk do not interfere", "statement": "After any sequence of creating, appending to, opening and removing indexes by programs in any working directories, a root leads to an index iff one was created at that place and not removed since; opening it gives the documents of its own sessions; no operation changes a byte of another index; RemoveIndex and RemoveIndexer remove the opened index (and all below its directory) and nothing else, and a new one can be created there.", "quantifier": "every sequence of operations on indexes made with CreateIndexer under roots that are valid UTF-8, every working directory, every spelling of a root", "why_tests_cant": "All operation sequences and all path spellings.", "anchors": ["remove.go:RemoveIndex", "remove.go:RemoveIndexer", "config.go:ReadConfigFromRoot", "index.go:OpenIndex", "indexer.go:OpenIndexer", "indexer.go:IndexerFromConfig"]}
{"id": "C53", "title": "The index opened under a root is the one in that directory", "statement": "OpenIndex(root) and OpenIndexer(root) open the index whose files are in the directory root, and RemoveIndex removes that directory, wherever the directory was moved or copied from.", "quantifier": "every disk, every root", "why_tests_cant": "All disks. (FALSE of the code: all files but cfg.json are found through the root recorded in cfg.json. A moved index cannot be opened; under the root of a copy one opens, appends to and removes the original; an index created under a relative root or a root that is not UTF-8 cannot be opened again.)", "anchors": ["config.go:Config.Path", "config.go:ReadConfigFromRoot", "index.go:OpenIndex", "indexer.go:OpenIndexer", "remove.go:RemoveIndex"]}
{"id": "C54", "title": "An index open for reading answers as of when it was opened", "statement": "While another process has opened the same index with OpenIndexer (both take the lock shared) and adds documents, and after that, Get on the index opened before returns the documents that were in the index when it was opened: no error, no panic, no document twice or missing.", "quantifier": "every index, every session that adds documents, every schedule of the session, every choice of the moments at which the reader reads a file, every blot", "why_tests_cant": "All interleavings of the reads of one process with the writes of another. (FALSE of the code: only the tables are read when the index is opened. For blots that new documents have, Get returns some of these too, or an error while a link is written before its block, or it panics if the path of a new document is not in the table in memory.)", "anchors": ["index.go:OpenIndex", "index.go:Index.docid2Doc", "fnames.go:fnames.abs", "query.go:Query.Get", "internal/shard/posts.go:Posts.next", "indexer.go:OpenIndexer", "internal/shard/poster.go:poster.flushTo"]}
{"id": "C55", "title": "BlotMean and BlotSigma are the mean and the standard deviation", "statement": "Of an index after any history, Stats gives finite numbers: BlotMean is the mean of the numbers of documents in a bucket (relative error at most 2^-51; the nearest float64 if there are fewer than 2^53 postings) and BlotSigma their standard deviation (error at most (65541 + NumShards) * 2^-52 of it plus 2^-50 of the mean; with fewer than 2^53 postings, it is 0 iff all buckets have the same size).", "quantifier": "every history, every configuration, with or without fused multiply-add", "why_tests_cant": "Rounding errors accumulate over 65536 * NumShards additions; tests see particular sizes.", "anchors": ["index.go:Index.Stats", "internal/shard/index.go:Index.SosDiffs", "internal/shard/index.go:Index.NumPosts"]}
{"id": "C56", "title": "extract prints the blots that stand out by sigma deviations", "statement": "dupi extract -sigma s prints each of the blots with at least two documents and at least mean + s * deviation documents once, with all its documents, and no others: exactly so for the threshold N it computes, which differs from mean + s * deviation by at most 1/2 and a relative error of about (65543 + NumShards) * 2^-52.", "quantifier": "every history, every configuration, every s from -2^20 to 2^20, with or without fused multiply-add", "why_tests_cant": "All indexes and all values of the flag.", "anchors": ["cmd/dupi/extract.go:extractCmd.Run", "index.go:Index.Stats", "query.go:Query.Next"]}
{"id": "C57", "title": "dupi runs the verb given on the index root given", "statement": "dupi [options] VERB ARGS, where each option is -r ROOT or -r=ROOT, runs VERB with ARGS on the last ROOT; if there is none or it is empty, on $DUPIROOT; if that is empty, on .dupi in the home directory. Other command lines are refused.", "quantifier": "every list of options in every way of writing, every verb, all arguments, every environment", "why_tests_cant": "All command lines. (FALSE of the code: the verb is searched for before options are parsed, so -r ROOT fails if ROOT is the name of a verb; and a word before the options is not refused: the options are ignored and the verb runs on the default root.)", "anchors": ["cmd/dupi/dupi.go:main", "cmd/dupi/dupi.go:splitArgs", "cmd/dupi/dupi.go:getIndexRoot"]}
{"id": "C58", "title": "The options of a verb do what the usage message says", "statement": "dupi index -t T -n N -s S PATHS creates an index with sequences of T words, N shards and S shatterers at the root and adds PATHS; with -a it opens the index at the root, with -c FILE it takes the configuration of FILE; dupi like FILES works on FILES. Options may be repeated (the last counts), written -x V, -x=V or with two dashes, and ended with --.", "quantifier": "every list of options in every way of writing, all paths and files", "why_tests_cant": "All command lines. (FALSE of the code: -t is refused for every T but 10, and like -- FILES takes -- for a file.)", "anchors": ["cmd/dupi/index.go:indexCmd.getIndexer", "cmd/dupi/index.go:newIndexCmd", "cmd/dupi/like.go:likeCmd.Run", "config.go:NewConfig"]}
{"id": "C59", "title": "unblot looks up the blot whose number it is given", "statement": "dupi unblot reads the number of a blot as dupi blot and dupi extract print it, or any other hexadecimal number below 2^32, as that number and refuses everything else.", "quantifier": "every argument", "why_tests_cant": "All arguments. (FALSE of the code: Sscanf stops at the first character that is no hexadecimal digit, so 0x1a is read as 0 and 1a-foo as 1a.)", "anchors": ["cmd/dupi/unblot.go:unblotCmd.Run", "cmd/dupi/extract.go:extractCmd.Run", "cmd/dupi/blot.go:blotCmd.doFilename"]}
{"id": "C60", "title": "What extract prints can be read", "statement": "From what dupi extract prints, the blots and for each its documents with path, start and end can be read off: different results are printed differently.", "quantifier": "all pairs of results", "why_tests_cant": "All paths. (FALSE of the code: a path with a space in it looks like two documents, one with a newline like two blots; true of paths without these.)", "anchors": ["cmd/dupi/extract.go:extractCmd.Run"]}
{"id": "C61", "title": "A failing read is reported", "statement": "When a file of an index cannot be opened or a read of it fails, OpenIndex, the opening of a shard to append to it, Get and Next return an error (Next one that is not io.EOF), or what they return when nothing fails; the blots Next counts are right in any case, and without a failing read there is no such error.", "quantifier": "every directory, every history, every blot and destination slice, every choice of the reads that fail and of their errors", "why_tests_cant": "Read errors at each of the millions of reads. (FALSE of the code: initAppend overwrites the error of reading the total of a posting list. If this read fails and later ones succeed, the shard is opened and its count becomes 0 when it is closed.)", "anchors": ["index.go:OpenIndex", "config.go:ReadConfig", "fnames.go:breadFnames", "internal/shard/index.go:Index.Init", "internal/shard/indexer.go:Indexer.InitAppend", "internal/shard/poster.go:poster.initAppend", "internal/shard/posts.go:Posts.next", "query.go:Query.Get", "query.go:Query.Next", "dmd/t.go:T.Lookup"]}
{"id": "C62", "title": "After an error a query can go on", "statement": "After Get or Next returned an error because a read failed, calling it again when reads succeed gives what would have been given without the error: Get the documents of the blot, Next the blots not yet delivered with all their documents.", "quantifier": "every history, every choice of the reads that fail, every number of further calls", "why_tests_cant": "All places where a read can fail. (FALSE of the code: the documents of the blot at which Next failed that were read before are not delivered again; Get called again with the same blot returns a blank document and no error. True of all other blots if two documents or more of that blot are left.)", "anchors": ["query.go:Query.Get", "query.go:Query.Next", "query.go:Query.fillBlot", "blot.go:Blot.Next"]}
{"id": "C63", "title": "Indexing files, then extracting, prints the passages they share", "statement": "dupi [-r ROOT] index [options] PATHS, with no index at ROOT, -t 10 and no -a or -c, succeeds under every schedule if all visible files can be read; after it dupi [-r ROOT] extract [-b] -sigma s, in any working directory from which ROOT leads to the same place, prints the blots of the visible files below PATHS as C56 says, with absolute paths. With -sigma 0 and at most 1.4 documents per bucket on average, any two visible files with eleven words in a row in common are printed together on a line.", "quantifier": "every file tree, every command line of this form, every environment, every schedule, every disk with other indexes", "why_tests_cant": "It is about the whole program: all trees, texts, command lines and schedules.", "anchors": ["cmd/dupi/dupi.go:main", "cmd/dupi/index.go:indexCmd.Run", "cmd/dupi/extract.go:extractCmd.Run", "indexer.go:IndexerFromConfig", "index.go:OpenIndex", "query.go:Query.Next"]}
{"id": "C64", "title": "inspect prints the figures of the index", "statement": "dupi inspect, on an index made by any history, prints its root, the number of documents, of nodes in the path tree, of posts, of blots, and the mean and the standard deviation of the number of documents per blot with two decimals, right up to half of the last decimal and the rounding error of C55; without an index it prints nothing and fails.", "quantifier": "every history, every disk, every command line, every working directory and environment", "why_tests_cant": "All indexes. (FALSE of the code: the number of documents printed is one too large.)", "anchors": ["cmd/dupi/inspect.go:inspectCmd.Run", "stats.go:Stats.String", "index.go:Index.Stats"]}
{"id": "C65", "title": "blot prints the blots of files", "statement": "dupi blot FILES (without -offsets), on any index with fewer than 65536 shards, prints for each file that can be read, in order, the bucket number of every blot of its text under the configuration of the index, one per line, in hexadecimal; files that cannot be read are left out and the run succeeds.", "quantifier": "every index, all files, every command line, every working directory and environment", "why_tests_cant": "All files and all configurations; with -offsets C43 applies.", "anchors": ["cmd/dupi/blot.go:blotCmd.Run", "cmd/dupi/blot.go:blotCmd.doFilename", "index.go:Index.Blot", "index.go:Index.JoinBlot"]}
{"id": "C66", "title": "unblot prints the passages behind blots", "statement": "dupi unblot BLOTS, if the documents were not changed since, prints for each blot every text that is the first passage with that blot of at least two documents (with -all: of a document), once, and under it all these documents; at the first argument that is no number the run stops with an error. A number printed by dupi blot for an indexed file, given to dupi unblot -all, leads back to that file.", "quantifier": "every index, all blots, every command line, every order in which Go goes through a map", "why_tests_cant": "All indexes and all blots.", "anchors": ["cmd/dupi/unblot.go:unblotCmd.Run", "index.go:Index.FindBlot", "query.go:Query.Get", "doc.go:Doc.Load"]}
{"id": "C67", "title": "like prints the documents that share passages with a file", "statement": "dupi like FILES, on an index of whole files not changed since, prints for each file, in order, its name and below it, each once, exactly the documents with a passage equal to one of its passages, where of the passages of the file in the same bucket only the last counts; the first file that cannot be read ends the run with an error, what was found for the ones before it being printed.", "quantifier": "every index, all files, every command line, every order in which Go goes through a map", "why_tests_cant": "All indexes and all files.", "anchors": ["cmd/dupi/like.go:likeCmd.Run", "cmd/dupi/like.go:doFilename", "index.go:Index.FindBlots", "query.go:Query.Get"]}
{"id": "C68", "title": "dupenron indexes the bodies of the messages of a csv file", "statement": "dupenron [-r ROOT] [-n N] FILE, FILE being a csv file with two columns written in any way (quotes, line ends, empty lines), makes an index at ROOT with one document for each record, its text being the part of the second column after the first empty line; dupi extract on ROOT then prints the blots of these texts as C56 says; loading a document found in the index gives the text that was indexed; records before a faulty one are indexed.", "quantifier": "all files, every command line, every schedule, every disk", "why_tests_cant": "All csv files. (FALSE of the code: start and end of a document are not a place in the file, no document can be loaded again; at a record that has not two fields the index is not closed and cannot be opened, all records before it are lost. True of the rest.)", "anchors": ["cmd/dupenron/main.go:main", "cmd/dupenron/main.go:indexEnron", "cmd/dupenron/main.go:csvReader", "doc.go:Doc.Load"]}
{"id": "C69", "title": "dupenron -o copies the first records", "statement": "dupenron -o [-n N] FILE prints the first N records of the csv file FILE as a csv file.", "quantifier": "all files, every command line, both ways bufio treats long strings", "why_tests_cant": "All csv files. (FALSE of the code: the writer is not flushed. Up to 4096 bytes at the end, and at least one, are missing, and nothing is printed if the records are short.)", "anchors": ["cmd/dupenron/main.go:main", "cmd/dupenron/main.go:oEnron"]}
{"id": "C70", "title": "extract -json prints a JSON text with the blots", "statement": "dupi extract -json prints a JSON text from which the blots that have several documents and these documents (path, start, end) can be read.", "quantifier": "all histories of operations, all documents, configurations and schedules, every command line, all paths", "why_tests_cant": "All strings as paths and a grammar of JSON texts with any spacing. (FALSE of the code: an array with one element is printed for each blot, one after the other, so the output is a JSON text only if there is exactly one blot; and all invalid bytes in paths are shown alike.)", "anchors": ["cmd/dupi/extract.go:88", "blot.go:30", "doc.go:26"]}
{"id": "C71", "title": "inspect -json prints the figures as a JSON text", "statement": "dupi inspect -json, on an index made by any history, prints a JSON text: an object with its root, the number of documents, of nodes in the path tree, of posts, of blots, and the mean and standard deviation of the number of documents per blot (up to the rounding error of C55).", "quantifier": "every history, every disk, every command line, every working directory and environment, every way to write float64s that can be read back", "why_tests_cant": "All indexes. (FALSE of the code: NumDocs is one too large.)", "anchors": ["cmd/dupi/inspect.go:inspectCmd.Run", "stats.go:Stats", "index.go:Index.Stats"]}
{"id": "C72", "title": "index -c FILE makes the index that FILE describes, whatever other flags are given", "statement": "dupi [-r ROOT] index -c FILE PATHS, where FILE is any JSON text for a usable configuration (members in any order, spacing, escaping and case, fields that are zero left out, other members added), makes an index with that configuration at its IndexRoot of the visible files below PATHS, whatever other flags are given (-c: config file, overrides all other flags); dupi extract run afterwards with a root leading there prints the blots of these files for the sequence length, shards etc. of FILE, in particular two files with SeqLen+1 words in a row in common with -sigma 0.", "quantifier": "every configuration, every JSON text for it, every command line, every tree of files, every disk after any operations, every schedule, every working directory of the later runs", "why_tests_cant": "All spellings of a JSON file and all configurations. (FALSE of the code: -a is not overridden, FILE is not read; if IndexRoot is relative, the index can only be opened from directories from which it leads there.)", "anchors": ["cmd/dupi/index.go:indexCmd.getIndexer", "config.go:ReadConfig", "config.go:Config", "indexer.go:IndexerFromConfig", "cmd/dupi/extract.go:extractCmd.Run"]}
{"id": "C73", "title": "The exit status tells whether dupi did what it was asked to", "statement": "dupi ends with status 0 exactly if it was asked for help or did all that was asked: for the verbs reading an index, if there is an index at the promised root and the files or blots given could be read; for index, if everything visible below the paths was read and is in the index (made at a free root, or with -a added to an index there was). Otherwise the status is 1, or 2 for wrong flags; with wrong command lines, a missing index, and an index where a new one is to be, nothing is printed and the disk is unchanged.", "quantifier": "every command line, every tree of files, every disk after any operations, every working directory and environment", "why_tests_cant": "All command lines and trees. (FALSE of the code: a file that cannot be opened ends the indexing of its whole argument with status 0, though nothing after it is indexed; blot ends with status 0 even if none of its files can be read.)", "anchors": ["cmd/dupi/dupi.go:main", "cmd/dupi/index.go:indexCmd.Run", "cmd/dupi/index.go:indexCmd.mkWalkFn", "cmd/dupi/blot.go:blotCmd.Run", "cmd/dupi/like.go:likeCmd.Run", "cmd/dupi/unblot.go:unblotCmd.Run", "cmd/dupi/extract.go:extractCmd.Run", "cmd/dupi/inspect.go:inspectCmd.Run"]}
{"id": "C74", "title": "Any number of dupi commands, one after the other", "statement": "After any sequence of runs of dupi on a disk without indexes, with any arguments, from any directories and whether they fail or not (with room for the documents, and usable configurations with absolute roots when indexes are made), the disk shows exactly what the index commands among them asked for, in order: a request for a new index where there is one and one to add to an index where there is none have no effect, all else has none either. So dupi extract then prints the blots of exactly the documents added to the index at its root, as C56 says, and ends with status 1 if there is no index.", "quantifier": "every sequence of command lines (arbitrary arguments), every tree of files, every schedule, every working directory and environment", "why_tests_cant": "All sequences of runs of any length with arbitrary arguments.", "anchors": ["cmd/dupi/dupi.go:main", "cmd/dupi/dupi.go:splitArgs", "cmd/dupi/index.go:indexCmd.Run", "cmd/dupi/index.go:indexCmd.getIndexer", "cmd/dupi/extract.go:extractCmd.Run", "indexer.go:IndexerFromConfig", "indexer.go:OpenIndexer"]}
{"id": "C75", "title": "Locks on Windows: writers are exclusive, readers share", "statement": "On Windows, in every state that any number of processes creating, appending to and reading indexes can reach: while an index is being written nothing else uses the same lock file; unlocking gives the lock free at once; several readers can have an index open at the same time, as on other systems.", "quantifier": "any number of processes, all interleavings of their steps, crashes at any point", "why_tests_cant": "All interleavings. (FALSE of the code: LockShared takes an exclusive lock, so a second reader waits until the first closes the index, for ever if it is in the same goroutine.)", "anchors": ["lock/windows.go:Lock", "lock/windows.go:LockShared", "lock/windows.go:Unlock", "index.go:OpenIndex", "indexer.go:OpenIndexer"]}
{"id": "C76", "title": "Extraction from an index open for reading delivers what was in it when it was opened", "statement": "Repeated calls of Next on an index that was opened before another process began to add documents deliver exactly the blots that had at least two documents when it was opened, each once, most documents first, each with precisely the documents it had then, and io.EOF after the last, whatever moments of the session the reads of the files fall on.", "quantifier": "all histories, all sessions that add documents, all moments for each read of a file, all sequences of calls with nil Docs", "why_tests_cant": "The reads of one process interleave with the writes of another at every byte of the index files; the set of interleavings is unbounded. (FALSE of the code: new documents appear in the lists, blots with only one old document are delivered too, and a call can return an error or panic.)", "anchors": ["query.go:Query.Next", "query.go:Query.fillBlot", "query.go:Query.advance", "internal/shard/posts.go:Posts.next", "index.go:Index.docid2Doc", "indexer.go:OpenIndexer"]}
{"id": "C77", "title": "Nothing stays open", "statement": "Every file, lock and goroutine that OpenIndex, CreateIndexer or OpenIndexer acquires is given up again: by Close when the call succeeded, whatever system calls fail meanwhile, and by the call itself when it returns an error; and an error of giving something up is returned. (False as stated: a failed opening keeps the lock file with its lock, the posting files and the goroutines of the shards opened so far; a Close of an indexer that cannot write the configuration, the file list or the document records keeps all posting files open; errors of closing files and of the lock are dropped.)", "quantifier": "all numbers of shards and shatters, all patterns of failing steps in the opening, in every Add and in the closing, all further files and goroutines of the process", "why_tests_cant": "a test must make each of the many system calls fail in turn and then look at the descriptor table; the leaks do not change any output", "anchors": ["indexer.go:IndexerFromConfig", "indexer.go:openFromConfig", "indexer.go:Indexer.Close", "index.go:OpenIndex", "index.go:Index.Close", "lock/file.go:File.Close", "internal/shard/indexer.go:Indexer.Close"]}
{"id": "C78", "title": "A configuration file is read as what it says, and refused if it says nothing", "statement": "ReadConfig, and with it OpenIndex, OpenIndexer and index -c, takes from a file exactly the configuration that the file says: the file is one JSON text (RFC 8259, nested at most 10000 deep; in strings, bytes that are not UTF-8 and lone surrogate escapes stand for U+FFFD) that is an object or null; for each field the last value that is not null under its name, in any case, or else nothing; whole numbers that fit 64 bits for number fields, strings for text fields, objects for the two structures, whose members add up; and SeqLen equals Interleave times BlotConfig.SeqLen modulo 2^64. Every other file gives an error, never a panic, before anything is created. The strings read are UTF-8, and a configuration read is read again when it is written.", "quantifier": "every file of bytes, every disk, every command line with -c", "why_tests_cant": "All byte strings: a parser accepts or rejects infinitely many, and a wrong acceptance shows only on the input nobody thought of.", "anchors": ["config.go:ReadConfig", "config.go:ReadConfigFromRoot", "config.go:Config", "config.go:Config.check", "index.go:OpenIndex", "indexer.go:OpenIndexer", "cmd/dupi/index.go:indexCmd.getIndexer"]}
{"id": "C79", "title": "A greater -sigma prints no more", "statement": "Of two runs of dupi extract on an index that differ in the value of -sigma only, the one with the greater value writes a first part of what the other one writes (cmd/dupi/extract.go: higher=most probable dups, lower=more volume); for any value, infinities and NaN included, a run prints precisely the blots of at least two and at least some number of documents.", "quantifier": "every history, every configuration, every two values of the flag, with or without fused multiply-add, whatever the processor makes of conversions out of range", "why_tests_cant": "All indexes and all pairs of values of the flag, on all processors.", "anchors": ["cmd/dupi/extract.go:extractCmd.Run", "index.go:Index.Stats", "query.go:Query.Next"]}
{"id": "C80", "title": "Numbers given to options are read as integer literals", "statement": "The options -n, -s and -t of dupi index take exactly the integer literals of the Go language (decimal, 0b, 0o, 0x, octal with a leading 0, single underscores between digits), with or without a sign, whose value is in the range of int64, and take them for that value: decimal numbers without a needless 0 are what they say, those with a leading 0 are octal, or refused if they have an 8 or a 9. A new index (without -a, -c and -t) has the number of shards that the last -n says and the number of shatterers that the last -s says. Any other value makes dupi end with status 2 without doing anything, whatever precedes or follows it.", "quantifier": "every text, every command line with it", "why_tests_cant": "All texts and command lines. A surprise on the way: dupi index -n 010 makes 8 shards.", "anchors": ["cmd/dupi/index.go:newIndexCmd", "cmd/dupi/index.go:indexCmd.getIndexer", "cmd/dupi/index.go:indexCmd.Run"]}
{"id": "C81", "title": "The memory of a document may be reused after as many further Adds as there are shatterers, not earlier", "statement": "Indexer.Add hands over the slice Doc.Dat and returns; the bytes are read later. A caller that writes to the memory of a document only after NumShatters further calls of Add have returned never writes to memory that is being read, and the index is that of the documents as they were at their Add, under every schedule. For every number n of shatterers n buffers used in turn are not enough: some schedule gives the index of other documents. Whatever a caller writes and whenever, the index is that of documents with data they had at some moment after their Add.", "quantifier": "every configuration, every open indexer, every program of writes and Adds, every schedule", "why_tests_cant": "All programs that write to their buffers and all schedules of the goroutines. (Writes during the reading of a document are taken to be before or after it, except in the first claim, which says that there are none.)", "anchors": ["indexer.go:Indexer.Add", "shatter.go:shatter.do", "shatter.go:startShatter", "shatter.go:shatter.send"]}
{"id": "C82", "title": "An index takes limited space", "statement": "After any sessions the posting file of a shard holds the base 128 digits of the gaps between the numbers of the documents of each bucket, and beyond them at least 9 bytes for each session that added to a bucket and at most 10 bytes for each of these and for each 512 bytes of the bucket: at most 14 bytes for each document of each bucket (at least 10 if every session adds one document). All posting files together are at most seven times as large as the texts. A .iix file has 6 to 19 bytes for each bucket, dmd 12 bytes for each document and 12 more, files.fnm the distinct names with 2 to 10 bytes for each; there are no other files.", "quantifier": "every configuration, every sequence of sessions, every schedule", "why_tests_cant": "All sequences of documents and sessions; a test sees some sizes, not a bound on all of them. (docs/design.md says that posting lists take about 25% of the size of English text.)", "anchors": ["internal/shard/poster.go:poster.AddPost", "internal/shard/poster.go:poster.flushTo", "internal/shard/indexer.go:Indexer.flushIix", "internal/shard/indexer.go:Indexer.flushInd", "dmd/adder.go:Adder.flush", "fnames.go:fnames.write"]}
{"id": "C83", "title": "A session changes only what its documents need", "statement": "Opening an index, adding documents and closing it: cfg.json stays as it is; dmd is continued by 12 bytes for each document; files.fnm stays as it is if all paths are known; the files of a shard stay as they are if no document has a blot of this shard; of a posting file only bytes 255 are ever changed, at most 8 for each bucket with both old and new documents, everything else is appended. A session that adds nothing leaves every file as it is, and any number of such sessions could as well not have taken place.", "quantifier": "every configuration, every history, every session, every schedule", "why_tests_cant": "All histories; a test compares the files of one. Closing rewrites cfg.json, files.fnm and all .iix files whether or not anything was added.", "anchors": ["indexer.go:openFromConfig", "indexer.go:Indexer.Close", "internal/shard/indexer.go:Indexer.Close", "internal/shard/poster.go:poster.flushTo", "internal/shard/poster.go:poster.readToLink", "dmd/adder.go:Adder.Close", "fnames.go:fnames.write"]}
{"id": "C84", "title": "An index can be made with every configuration that is accepted", "statement": "If IndexerFromConfig returns an indexer, documents can be added, the indexer can be closed and the index can be opened again. (False as stated: with NumShatters < 1 the first Add never returns; with NumShards = 0 or a blotter for sequences of no words a document makes the program panic; with an inconsistent SeqLen, which IndexerFromConfig does not check, the index is made and closed and can never be opened. Proved: exactly when an indexer is returned, and that the rest holds exactly for the configurations that are consistent and positive.)", "quantifier": "every configuration (with fewer than 2^32 shards and a product of the lengths below 2^63), every sequence of documents, every schedule", "why_tests_cant": "All configurations; a test tries a few. Only a few of the conditions are checked anywhere.", "anchors": ["indexer.go:IndexerFromConfig", "config.go:Config.check", "shatter.go:startShatter", "shatter.go:shatter.do", "blotter/config.go:FromConfig", "dmd/adder.go:NewAdder"]}
{"id": "C85", "title": "A closed indexer refuses further calls", "statement": "After Close, Add and Close return an error and change nothing. (False as stated: the shatterers have returned, so Add never returns, and neither does Close; with NumShatters < 1 a second Close panics. Each such Add still numbers its document and keeps it in the buffer of dmd, which is written to the file when it is full: records of documents that are never indexed. Proved: where every such call ends, and exactly how much of dmd is written.)", "quantifier": "every indexer, every session, every schedule, any number of calls afterwards in any order", "why_tests_cant": "All executions; that a call never returns cannot be observed by a test, only that it has not returned yet. This also holds after a Close that returned an error, which so cannot be tried again.", "anchors": ["indexer.go:Indexer.Add", "indexer.go:Indexer.Close", "shatter.go:startShatter", "dmd/adder.go:Adder.Add", "dmd/adder.go:Adder.Close"]}
{"id": "C86", "title": "A document can be added again", "statement": "Add leaves the caller's document as it is, so that adding the same document again adds it under the same path. (False as stated: Add empties doc.Path, so that the second time the document is in the index under the working directory. Proved: exactly what is added by any sequence of assignments and calls, and that it is what was meant if each document is set again before it is added again.)", "quantifier": "every sequence of assignments to any number of documents and calls of Add", "why_tests_cant": "All sequences; every test sets a new document for each call.", "anchors": ["indexer.go:Indexer.Add", "indexer.go:Indexer.doc2Id", "fnames.go:fnames.addPath"]}
{"id": "C87", "title": "With interleaving, replaced words do not hide a duplicate", "statement": "Let k be the interleaving. If two documents have runs of SeqLen+k words that differ, up to case, at fewer than k places, an unlimited extraction run to its end reports a blot whose documents include both. More generally it is enough that of runs of SeqLen+1 words every kth word is the same, up to case and order. With k replaced words the documents may not be found, nor with one word more in one of them.", "quantifier": "every consistent configuration, every history, all pairs of documents with such runs, every way to call Next", "why_tests_cant": "All texts and all placements of the replaced words. (docs/design.md says that interleaving is robust to the different treatment of doesn't; for that it is not: an apostrophe makes one word more.)", "anchors": ["blotter/interleaved.go:Interleaved.Blot", "blotter/config.go:FromConfig", "shatter.go:shatter.do", "query.go:Query.Next"]}
{"id": "C88", "title": "Documents reported together have a passage in common", "statement": "If an extraction reports a blot, its documents have windows with the same words. (False as stated, and not only for chance collisions: words that occur twice in a window cancel out. Two documents are reported together if each word occurs an odd number of times in both windows or an even number of times in both; with an even number of words per blot, as by default, any two documents that repeat some word SeqLen+1 times are, without a word in common. Proved: this, and that two windows which are the same but for one letter of one word never have the same blot; if it is the last letter of the word they are not in one bucket either, for any number of shards.)", "quantifier": "every consistent configuration, every history, all windows of words, every way to call Next", "why_tests_cant": "All words; a test tries some pairs of texts, not all windows that differ by one letter.", "anchors": ["blotter/circ.go:Circ.Blot", "blotter/interleaved.go:Interleaved.Blot", "index.go:Index.SplitBlot", "query.go:Query.Next"]}
{"id": "C89", "title": "An indexing session takes limited memory", "statement": "Whatever documents are added, at every moment of every schedule: the shatterers and the shards together hold at most the posts of as many documents as there are shatterers, as no channel has a buffer; of each of the 65536 posting lists of a shard less than 512 bytes are in memory; and at most DocFlushRate records of documents are. (What grows with the index is the table of paths only.)", "quantifier": "every consistent configuration, every history, every sequence of documents, every prefix of every schedule", "why_tests_cant": "All schedules; a test that measures memory sees one of them, and Go's garbage besides.", "anchors": ["shatter.go:shatter.do", "shatter.go:shatter.send", "internal/shard/poster.go:poster.AddPost", "internal/shard/indexer.go:Indexer.Serve", "dmd/adder.go:Adder.Add", "indexer.go:Indexer.Add"]}
{"id": "C90", "title": "Making an index that failed can be tried again", "statement": "When IndexerFromConfig returns an error, for whatever reason, it can be called again, with the same or a better configuration. (False as stated: an error after os.Mkdir, be it a full disk or a configuration with a misspelt tokenizer, leaves the directory, and from then on nothing changes it: making an index there fails as the directory exists, opening it for reading or appending fails as there is no cfg.json, and so it cannot be removed with RemoveIndex or RemoveIndexer either. Proved: this, for every further sequence of programs that makes no index above it; what exactly is left; which configurations do this; that an error before os.Mkdir changes nothing and that removing the directory by hand undoes the attempt; and that an indexer is returned only if nothing failed.)", "quantifier": "every configuration, every disk, every system call failing, a write after any number of bytes, every later sequence of programs", "why_tests_cant": "All points at which a call can fail (each shard makes more than 131000); a test would need a file system that fails at each.", "anchors": ["indexer.go:IndexerFromConfig", "internal/shard/indexer.go:Indexer.InitCreate", "dmd/adder.go:NewAdder", "token/config.go:FromConfig", "remove.go:RemoveIndex", "remove.go:RemoveIndexer"]}
{"id": "C91", "title": "dupi extract -b | xargs dupi unblot prints the passages documents have in common", "statement": "The pipeline of the tutorial prints each passage (as many words as a blot covers) that occurs verbatim in at least two documents of the index, with these documents, and nothing else. (False as stated: if a document has two passages with the same blot, which any two do whose words occur an even number of times, only the first is considered, and so a passage two documents have in common may not be printed, even with -sigma 0. Proved: into whatever portions xargs divides the blots, all runs succeed; whatever -sigma, each printed text is verbatim a passage of each of the at least two documents below it; with -sigma 0 and not more than 1.4 documents per bucket on average the printed texts are exactly those that are, in at least two documents, the first passage in their bucket, each once with all these documents in order.)", "quantifier": "every sequence of sessions and runs before, every index, all options, every way xargs divides its input, every order in which Go enumerates a map", "why_tests_cant": "All indexes, divisions and map orders; the tests run no command, and no pipeline of two.", "anchors": ["docs/tutorial.md", "cmd/dupi/extract.go:extractCmd.Run", "cmd/dupi/unblot.go:unblotCmd.Run", "index.go:Index.FindBlot"]}
{"id": "C92", "title": "Whatever the capacities, extraction ends and returns nothing wrong and nothing twice", "statement": "Whatever the capacities of the slices handed to Next (any number, also 0 or nil, and different from call to call), a loop that calls Next until io.EOF ends; each blot filled has at least two documents, ones of this blot that follow each other in the index, not more than fit in its slice; no document of a blot is returned twice; and after io.EOF, or a call that did not fill all blots, nothing more is returned. (False as stated: with two shards a blot can be delivered twice, since the second advance, at a shard chosen in the meantime, can set this shard back. Proved: all the rest.)", "quantifier": "every sequence of sessions, every index, every sequence of calls, all capacities", "why_tests_cant": "All indexes and sequences of capacities; termination; the tests never set a capacity.", "anchors": ["query.go:Query.Next", "query.go:Query.fillBlot", "query.go:Query.advance"]}
{"id": "C93", "title": "An index whose files were lost or cut short gives errors, not wrong answers", "statement": "If any of the files of an index (the configuration, the table of paths, the records of documents, the posting files and their heads) are lost or cut short at any byte, then opening the index for reading reports an error, or it opens and every Get and every sequence of calls of Next returns precisely what it returned before, or an error; there is no panic and no endless loop that was not there before.", "quantifier": "every directory that opens, every way its files are cut short or lost, every blot, all slices and calls", "why_tests_cant": "All places at which each of the files can be cut, together; a test tries a few.", "anchors": ["index.go:OpenIndex", "config.go:ReadConfig", "fnames.go:breadFnames", "internal/shard/index.go:Index.readIix", "internal/shard/posts.go:Posts.readNext", "dmd/t.go:T.Lookup", "query.go:Query.Get", "query.go:Query.Next"]}
{"id": "C94", "title": "Whatever is in its posting files, an index opens and answers, or reports an error", "statement": "If the posting files of an index are replaced by files with any contents, then opening the index for reading, opening it to append, every Get and every sequence of calls of Next end, with a result or an error: no panic and no endless loop.", "quantifier": "every index made by sessions, all contents of its posting files, every blot and slice", "why_tests_cant": "All files; a link that leads back is followed for ever, and a test of that does not end.", "anchors": ["internal/shard/poster.go:poster.readToLink", "internal/shard/posts.go:readVarintAt", "internal/shard/posts.go:Posts.readNext", "query.go:Query.Get", "indexer.go:OpenIndexer", "index.go:OpenIndex"]}
{"id": "C95", "title": "An index that lost some of its bytes is not added to as if it had not", "statement": "If files of an index are lost or cut short at any byte, then opening it to add documents reports an error (no panic, no endless loop), or nothing that matters was lost: sessions that add documents leave the index they would have left without the loss.", "quantifier": "every index made by sessions, every way its files are cut short or lost, all documents added afterwards, every schedule, every blot", "why_tests_cant": "All places at which each file can be cut, and everything that is added later; a wrong answer shows only after the next session.", "anchors": ["indexer.go:OpenIndexer", "internal/shard/indexer.go:Indexer.InitAppend", "internal/shard/poster.go:poster.readToLink", "fnames.go:breadFnames", "dmd/adder.go:NewAdder", "config.go:ReadConfig"]}
{"id": "C96", "title": "Slices of documents cut from one array", "statement": "A client may cut the slices of documents it hands to one call of Next from one array. When the call returns, each blot it filled shows documents of this blot, and nothing else of the array has changed.", "quantifier": "every index made by sessions, every memory and every list of slices in it (positions, lengths, capacities), every sequence of calls between which the client does what it likes with memory", "why_tests_cant": "All layouts of slices in memory; a test that makes each slice on its own never shows it.", "anchors": ["query.go:Query.Next", "query.go:Query.fillBlot", "blot.go:Blot.Next", "query.go:Query.Get"]}
{"id": "C97", "title": "Whatever is in a directory, dupi opens and answers, or reports an error", "statement": "Whatever bytes the files of a directory have, opening it for reading, opening it to add documents, Get and Next end, with a result or an error: no panic and no endless loop. (False as stated: three bytes in the path table make both ways to open the index panic; a path table without nodes makes every Get of a blot with documents panic; and one with a node that is its own parent makes it run for ever. Proved: precisely which directories open and which make opening panic; precisely which records make a document panic or run for ever; and that Get, Next and opening to append end with a result or an error if the records have paths, the numbers in the configuration are not negative, and the links of the posting files end and lead to no length dupi does not write.)", "quantifier": "all directories: all contents of all files, or none; every blot, all slices, all sequences of calls", "why_tests_cant": "All files; a table that leads in a circle is followed for ever, and a test of that does not end.", "anchors": ["index.go:OpenIndex", "indexer.go:OpenIndexer", "fnames.go:breadFnames", "fnames.go:fnames.abs", "dmd/t.go:T.Lookup", "internal/shard/index.go:Index.readIix", "internal/shard/poster.go:poster.initAppend", "query.go:Query.Get", "query.go:Query.Next"]}
{"id": "C98", "title": "A loss of power after Close costs at most errors", "statement": "If the power fails after Close has returned, what is left of an index answers as before or reports an error; it never panics and never answers wrongly. (False as stated: of the files of an index only posting files opened for appending are written through to the disk (O_SYNC), the others are not, and pages that were not written read as zeros. Of every index, for every size of pages: zeros in the path table make every Get of a blot with documents panic; zeros in the file of records make every document appear as the root directory, from 0 to 0; zeros in the heads of a shard make Get of every blot of the shard return the documents of one and the same blot. Proved: the configuration is read as it was or there is an error, so an index that opens has the configuration it had; Get of a blot whose list begins in a lost page returns an error; and so does Get of every blot with documents of a shard whose posting file is all zeros.)", "quantifier": "all histories of sessions, all page sizes, all losses of pages, of ends of files and of files; every blot", "why_tests_cant": "A test cannot fail the power between Close and the writing back of pages.", "anchors": ["internal/shard/indexer.go:Indexer.Close", "dmd/adder.go:Adder.Close", "fnames.go:fnames.write", "config.go:ReadConfig", "index.go:OpenIndex", "query.go:Query.Get", "internal/shard/posts.go:Posts.readNext"]}
{"id": "C99", "title": "Documents added by two indexers open on one index are all in it", "statement": "If two processes have an index open for adding documents at the same time, which the shared lock of OpenIndexer permits, and both close without an error, then the index has the documents it had, those the first one added and those the second one added, and each is found under its blots. (False as stated, for every index and all documents, already if the second one opens before the first one adds and adds and closes after it: the index opens and counts all the documents, but Get of a blot that only documents of the first one have returns none, even if the second one added nothing; and Get of a blot of the second one's kth document shows the first one's kth document, whatever its text. Proved: Get of a blot that no new document has returns what it should; and exactly what Get of any blot returns if the first one added only files of which the index had documents; and exactly what it does if the second one adds nothing: no documents for a blot no old document has, otherwise all documents with the blot if the paths of the new ones among them are those of old documents or of directories above them, otherwise a panic.)", "quantifier": "all histories of sessions, all documents, every schedule of the goroutines of each of the two; every blot", "why_tests_cant": "Two processes, all indexes and documents; nothing returns an error.", "anchors": ["indexer.go:OpenIndexer", "indexer.go:Indexer.Close", "dmd/adder.go:NewAdder", "dmd/adder.go:Adder.flush", "internal/shard/indexer.go:Indexer.InitAppend", "internal/shard/poster.go:poster.flushTo", "fnames.go:fnames.write", "query.go:Query.Get"]}
{"id": "C100", "title": "A closed index refuses further calls", "statement": "Close closes every file of an index and returns an error if closing one of them fails; after it, whatever was called before, each further Close, Stats, Get and Next, of queries started before it or after it, in any order, returns an error and no document. (False as stated: the error of closing the lock is dropped; Get of a blot no document has, or given a slice that is full, returns no error; Next given slices that are full of two or more documents returns their number and no error, as if it had found them; and Next of a query that has come to its end returns io.EOF. Proved, for every index, all calls before and after: none panics or fails to end; Close closes all files and its error is nil iff closing the file of records and all posting files succeeds; further calls of Close and Stats return errors; Get leaves the caller's blot as it was and returns an error except in these two cases; Next counts only blots whose slices had two documents or more before the call and leaves them as they were, and returns an error or io.EOF if it counts none; and the first Next of a query, given room, returns an error that is not io.EOF if any document has a blot.)", "quantifier": "all histories of sessions, all sequences of calls with Close at any place, all slices, all errors of closing; every blot", "why_tests_cant": "All sequences of calls on all indexes; which calls touch a closed file depends on what was buffered before.", "anchors": ["index.go:Index.Close", "index.go:Index.Stats", "index.go:Index.StartQuery", "query.go:Query.Get", "query.go:Query.Next", "query.go:Query.fillBlot", "internal/shard/posts.go:Posts.next", "dmd/t.go:T.Lookup"]}
{"id": "C101", "title": "Settings for speed and the division into sessions do not change the answers", "statement": "Two indexes of the same documents in the same order answer alike, however the documents were divided into sessions and whatever the numbers of shatterers and of documents between flushes: Get returns the same documents for every blot, and extraction delivers the same blots with the same documents. If one of them has a multiple of the other one's shards, then for every blot Get returns some of the documents it returns with fewer shards, in the same order, no document is lost (it is returned for a blot that the other index does not tell from this one), and documents extraction delivers together are delivered together with fewer shards, too.", "quantifier": "all pairs of histories of sessions with the same documents, all pairs of configurations with the same blots, every blot, all sequences of calls of Next with nil slices until io.EOF, every schedule of the goroutines", "why_tests_cant": "All pairs of configurations and divisions; a test compares a few.", "anchors": ["indexer.go:IndexerFromConfig", "indexer.go:OpenIndexer", "dmd/adder.go:Adder.Add", "shatter.go:startShatter", "post/t.go:T", "query.go:Query.Get", "query.go:Query.Next"]}
{"id": "C102", "title": "Adding documents only adds to the answers", "statement": "After further sessions Get returns for every blot the documents it returned before, in the same order, and then those new documents that have the blot; extraction delivers every blot it delivered before, with its documents and then the new ones, and every other blot it delivers has a new document.", "quantifier": "all histories of sessions and all sessions after them, every blot, all sequences of calls of Next with nil slices until io.EOF", "why_tests_cant": "All histories; a document lost from a list by a later session shows up only in the lists that session appends to.", "anchors": ["indexer.go:OpenIndexer", "internal/shard/indexer.go:Indexer.InitAppend", "internal/shard/poster.go:poster.flushTo", "query.go:Query.Get", "query.go:Query.Next"]}
{"id": "C103", "title": "The order in which documents are added does not matter", "statement": "Two indexes of the same documents, added in different orders and in different sessions, answer alike: Get returns the same documents for every blot, each time in the order in which they were added, and extraction delivers the same blots, each with the same documents.", "quantifier": "all pairs of histories of sessions whose documents are permutations of each other, every blot, all sequences of calls of Next with nil slices until io.EOF", "why_tests_cant": "All permutations of all documents.", "anchors": ["indexer.go:Indexer.Add", "shatter.go:shatter.do", "internal/shard/poster.go:poster.AddPost", "query.go:Query.Get", "query.go:Query.Next"]}
{"id": "C104", "title": "How a text is laid out does not matter", "statement": "Two indexes whose documents have the same words, but for upper and lower case, with whatever characters that belong to no word between them, at the beginning and at the end, answer alike. (False as stated: the last character of a text is dropped (C08), so whether anything comes after the last word matters. For every configuration there is a text that is found under a blot if a newline comes at its end and under none otherwise. Proved: it holds if something comes after the last word of every text; and a text that ends with a word counts as if the word were without its last character, or, if it has only one, not there.)", "quantifier": "all pairs of histories of sessions, all texts in all layouts, every blot, all sequences of calls of Next with nil slices until io.EOF; false witness for every configuration", "why_tests_cant": "All texts and layouts; that files usually end with a newline hides the failure.", "anchors": ["token/t.go:Tokenize", "token/config.go:FromConfig", "shatter.go:shatter.do", "blotter/circ.go:Circ.Blot", "query.go:Query.Get", "query.go:Query.Next"]}
{"id": "C105", "title": "A document that cannot have an id of its own is refused", "statement": "Every document Add accepts has an id that no other document has, and is shown under it; when the ids are used up Add fails. (False as stated: Add does not notice. However many documents are added all are accepted: the kth, counted from 1, has the id k modulo 2^32. A document has the id of the one 2^32 before it and is shown as that one, the one with number 2^32 has id 0 and is shown as the root directory with extent 0. If the metadata holds a multiple of 2^32 records an indexer that opens it puts a blank record after them. The shatterers, which wait for the id before theirs, still get to the end of the session under every schedule; the posting lists hold the ids, immediate repetitions once, and Get shows for each the first document that had it: a document with a text after 2^32 empty ones is not found under its blots, an empty one is. Next delivers the blots that have at least two ids so: of two documents with the same text and the same id, none between them, it says nothing. Proved: all ids are different, and not 0, as long as there are fewer than 2^32 documents.)", "quantifier": "all sequences of sessions with any numbers of documents, all flush rates; for the posting lists, Get and Next every schedule of the goroutines, fewer than 2^32 shatterers, no list of 2^32 entries", "why_tests_cant": "It takes 2^32 documents to get there.", "anchors": ["dmd/adder.go:Adder.Add", "dmd/adder.go:NewAdder", "indexer.go:Indexer.doc2Id", "index.go:Index.docid2Doc", "shatter.go:shatter.do", "query.go:Query.Get", "query.go:Query.Next"]}
{"id": "C106", "title": "The paths of an index can be read back however many there are", "statement": "After Close the paths of all documents can be read back. (False as stated: the number of paths is written with 32 bits. A table with 2^32 entries - the directories on the way and the root counted - or a multiple of that is written without complaint and read back as an empty one. With 2^32 - 1 documents, each in a file of its own, Add reports no error, all ids are different and all paths right while the indexer is open, but in the index afterwards every document a query comes to makes it panic. Proved: up to that number the table is right in memory; with fewer than 2^32 entries it is read back as it was (C05).)", "quantifier": "all tables whose size is a multiple of 2^32; the documents in rows of files of any number below 2^32", "why_tests_cant": "It takes 2^32 paths to get there.", "anchors": ["fnames.go:fnames.write", "fnames.go:readFnames", "fnames.go:fnames.addPath", "index.go:Index.docid2Doc"]}
{"id": "C107", "title": "Documents added by several goroutines have ids and paths of their own", "statement": "However calls of Add by several goroutines are interleaved, every document gets an id that no other has and is recorded under its own path. (False as stated: nothing keeps two calls of doc2Id apart. Two calls for any two documents on any index can return the same id; the record of one of them is lost, and no schedule then gets to the end of Close: the second document waits for ever for the one before it. Two calls for new files of one directory can leave exactly the index of a session that adds the first document under the name of the second. Proved: if each call of doc2Id is over before the next begins, in whatever order, they return the ids and leave the tables of adding the documents in that order.)", "quantifier": "all indexes just created or opened to append after any history, all pairs of documents, all capacities of the slices; for the positive part all numbers of calls in all orders", "why_tests_cant": "The wrong interleavings are a few instructions wide and hang or misname only then.", "anchors": ["indexer.go:Indexer.doc2Id", "indexer.go:Indexer.Add", "fnames.go:fnames.addPath", "dmd/adder.go:Adder.Add", "shatter.go:shatter.send"]}
{"id": "C108", "title": "A file of any size is found again", "statement": "A file that dupi index has read is loaded again whole, so that unblot prints the passages of a file of any size. (False as stated: the end of a document and the positions of words are 32 bit numbers. A file is loaded whole iff it is shorter than 4 GiB or a multiple of 4 GiB long; else the first length mod 4 GiB bytes are loaded, and unblot warns about every listed file that has the blot only behind them. In a file whose length is a multiple of 4 GiB, unblot prints the bytes at the position of the passage mod 4 GiB instead of the passage, or panics if the passage goes over such a boundary.)", "quantifier": "every index of whole files of all lengths, every blot below the number of buckets", "why_tests_cant": "Needs files of more than 4 GiB.", "anchors": ["doc.go:Doc.Load", "cmd/dupi/index.go:indexCmd.mkWalkFn", "token/t.go:Tokenize", "index.go:Index.FindBlot", "cmd/dupi/unblot.go:unblotCmd.Run"]}
{"id": "C109", "title": "Bloom filters of the attic: configurations, positions, sizes", "statement": "The filter made from the configuration of a filter is that filter; PutOnes writes exactly the positions whose bits Add sets and Has looks at; a filter of the size Estimate gives works, and tells values apart except by chance. (The last part is FALSE of the code: if the size is a multiple of 2^32 bits, Has and Add panic; if it is a power of 2, all values whose hashes agree modulo the size have the same positions, however many hash functions there are.)", "quantifier": "all filters, all values, all sets, all rounded estimates", "why_tests_cant": "All sizes; the panics need sets of 512 MiB.", "anchors": ["attic/ibloom/config.go:FromConfig", "attic/ibloom/fnv32.go:fnv32.PutOnes", "attic/ibloom/fnv32.go:fnv32.Config", "attic/ibloom/estimate.go:Estimate"]}
{"id": "C110", "title": "Queries read no more than their answers need", "statement": "Get makes at most four calls on the files per document it returns (one more in all with a limited slice), none for a blot without documents, whatever the size of the index; Next makes at most four per document of the blots it returns, and four per shard when it finds that none is left. Conversely each of the first 2n+2 calls of a Get that returns n > 0 documents matters: if it fails, Get returns an error.", "quantifier": "every history, every state of the query, every blot, every sequence of Next calls, every outcome of the calls beyond", "why_tests_cant": "All indexes and all sizes of posting lists; counting calls needs instrumented files.", "anchors": ["query.go:Query.Get", "query.go:Query.Next", "query.go:Query.fillBlot", "internal/shard/posts.go:Posts.next", "internal/shard/posts.go:Posts.readNext", "internal/shard/posts.go:readVarintAt", "dmd/t.go:T.Lookup"]}
{"id": "C111", "title": "Damage to a posting file is local", "statement": "The bytes of a posting file are divided among the buckets, at most 14 bytes for each document of a bucket. Whatever happens to posting files, the index opens, and Get of every blot whose bucket still has its bytes returns exactly its documents. In particular a changed byte changes the answers for at most one bucket.", "quantifier": "every history, every contents of the posting files afterwards, every blot", "why_tests_cant": "All damages of all indexes.", "anchors": ["internal/shard/poster.go:poster.flushTo", "internal/shard/posts.go:Posts.readNext", "internal/shard/index.go:Index.Init", "index.go:OpenIndex", "query.go:Query.Get"]}
{"id": "C112", "title": "Damage to records and names is local", "statement": "Whatever is in the metadata file, the index opens, and Get of every blot whose documents still have their records, of twelve bytes each, returns exactly its documents; a changed byte affects the blots of at most one document. If the records keep their numbers of paths, or if only bytes of names in the path table change, then all of Get and Next go on as before with the same documents in the same order, and every document whose record is the same, or none of whose names has changed, is shown as it was.", "quantifier": "every history, every metadata file or path table of the kind afterwards, every blot, every sequence of calls of Next", "why_tests_cant": "All damages of all indexes.", "anchors": ["dmd/t.go:T.Lookup", "fnames.go:breadFnames", "fnames.go:fnames.abs", "index.go:Index.docid2Doc", "index.go:OpenIndex", "query.go:Query.Get", "query.go:Query.Next"]}
{"id": "C113", "title": "Damage to a file of heads is local", "statement": "Whatever happens to the files of heads (.iix) and the posting files, opening the index gives an error, or it opens, and Get of every blot whose list still begins where it began and still has its bytes returns exactly its documents. The four bytes in each entry after the two numbers are not needed: with others in their place the same index is opened. A byte of an entry that keeps its top bit affects at most the blots of one bucket, if the index opens.", "quantifier": "every history, every file of heads and every posting file afterwards, every blot; every byte and every value of it", "why_tests_cant": "All damages of all indexes.", "anchors": ["internal/shard/index.go:Index.readIix", "internal/shard/indexer.go:Indexer.Close", "internal/shard/index.go:Index.ReadStateFor", "index.go:OpenIndex", "query.go:Query.Get"]}
{"id": "C114", "title": "What Get makes of any directory", "statement": "Whatever bytes the files of an index have: if the index opens, with at least one shard, then what becomes of Get is determined by the bytes of the posting file, the records and the path table, as follows. The list of a blot consists of pages of at most 530 bytes, each a number of differences and a link to the next, until the link is -1. If all documents on the list, or as many as there is room for, have a record whose path leads to the root, then precisely these are returned, in this order, with the path, start and end that the record and the table give. Otherwise the first of these decides: a place where no page is, or a document without a record, gives an error; a length that is negative or above 530, or a record with a number of path that is not in the table, a panic; a path that does not lead to the root, or a list that does not end, an endless loop. Each of the four occurs, and one of them always does.", "quantifier": "every directory that opens, every sorter, every blot, with or without a slice of any capacity and contents", "why_tests_cant": "All contents of all files.", "anchors": ["query.go:Query.Get", "internal/shard/posts.go:Posts.next", "internal/shard/posts.go:Posts.readNext", "index.go:Index.docid2Doc", "dmd/t.go:T.Lookup", "fnames.go:fnames.abs", "blot.go:Blot.Next"]}
{"id": "C115", "title": "What Next makes of any directory", "statement": "Whatever bytes the files of an index have: if the index opens, with at least one shard, then Next, with slices for any number of documents, goes through the lists that the files of heads say to have at least two documents, each once, those said to have more first, in an order that does not depend on the posting files. While the lists so far give at least two documents each, calls return them in this order, with the documents, paths, starts and ends that the bytes of the lists, records and table give. If all of them do, and the lists said to have at most one document give at most one, then the calls return all and then io.EOF. If the first that is not given is one that cannot be read, or panics, or does not end, then a call that comes to it returns an error, panics or does not end. So if posting files of an index made by sessions lose or change any bytes, calls that ask for no more than the blots before the first one that lost a byte return what they returned before.", "quantifier": "every directory that opens, every sorter, all other posting files, every number of calls with slices of any length whose blots have nil slices", "why_tests_cant": "All contents of all files.", "anchors": ["query.go:Query.Next", "query.go:Query.fillBlot", "query.go:Query.advance", "query.go:qstate.setMax", "internal/shard/index.go:Index.ReadStateAt", "index.go:Index.StartQuery"]}
{"id": "C116", "title": "What a session makes of any directory that it opens", "statement": "Whatever bytes the files of an index have: opening it to append succeeds precisely if the configuration can be read, with no negative number of shards, a flush rate that the buffer can be made with and a known tokenizer, the path table is one, each shard's two files are there with 65536 entries in the file of heads, from each head the links lead to a chunk whose link is -1, and the blotter can be made. The session then has the paths of the table, as many records as the file has whole ones (in 32 bits), and for each list the head, number of documents and last document of the entry and the place of the last link. It panics precisely if a number in the configuration is negative or otherwise impossible, a node of the table has a parent that is none of the nodes, or the first list without a last link leads to a length no buffer can be made for; it does not end precisely if the links of the first list without a last link do not end; in all other cases it is an error. An error in the count of an entry is not looked at: there are files of heads with which every index opens to append and does not open for reading.", "quantifier": "every directory", "why_tests_cant": "All contents of all files.", "anchors": ["indexer.go:OpenIndexer", "internal/shard/indexer.go:Indexer.InitAppend", "internal/shard/indexer.go:Indexer.readIix", "internal/shard/poster.go:poster.initAppend", "internal/shard/poster.go:poster.readToLink", "dmd/adder.go:NewAdder", "fnames.go:breadFnames"]}
{"id": "C117", "title": "What a session leaves of any directory that it opened", "statement": "Whatever bytes the files of an index have: if it could be opened to append, with a configuration that can be used, and there are numbers of 32 bits left for the new documents and paths, then adding documents and closing comes to an end without an error precisely if the path table has a node or nothing is added (with no node the first document makes it panic). The file of records is then what it was (with a record of zeros after it if there was none) with twelve bytes for each new document; the table of paths goes on from the old one; what was known of a document before is known afterwards; and if the old records were whole, each new document is found under its number. Of the bytes of a posting file only the last links of lists that get a document may change, and the file only grows; lists that get none keep their entries; and the directory then opens for reading, even if it did not before, when the file of the configuration is as the program writes it and posting files have less than 2^63 bytes. The lists of a shard whose files were not damaged have the documents they had and then the new ones, and Get returns them. If the records end inside a record, the new documents are not found under their numbers: ended after the first four bytes of the record of a document, this document's path is found under the number of the first new one.", "quantifier": "every directory that opens, every list of new documents for which there is room, every cut position for the last part", "why_tests_cant": "All contents of all files, all sessions.", "anchors": ["indexer.go:Indexer.Add", "indexer.go:Indexer.Close", "dmd/adder.go:NewAdder", "dmd/adder.go:Adder.Add", "fnames.go:fnames.addPath", "fnames.go:fnames.write", "internal/shard/poster.go:poster.AddPost", "internal/shard/poster.go:poster.flushTo", "internal/shard/indexer.go:Indexer.Close"]}
{"id": "C118", "title": "Damage to later pages of a list", "statement": "If in a directory that opens the first pages of a list have the bytes they have in another posting file, then Get, whatever else is in the file: returns the documents of these pages if there is room for no more; returns them all if the last of these pages has the link -1; returns an error if the page to which they lead begins with a zero, or the file ends before the end of that page and agrees with the other one up to there. If pages of a disk are lost (they are zeros, or the file is shorter), the first page of a list that lost a byte is of this kind, or it begins in a page of the disk that is kept and has a lost byte in another one. If the last link of a list is zero, Get goes on with the list at the beginning of the file, and without an error returns documents that do not have the blot.", "quantifier": "every directory that opens, every two posting files, every size of disk pages", "why_tests_cant": "All contents of all files.", "anchors": ["query.go:Query.Get", "internal/shard/posts.go:Posts.next", "internal/shard/posts.go:Posts.readNext"]}
{"id": "C119", "title": "Paths are numbered in the order in which they are first needed", "statement": "However paths are divided into sessions, between which the path table is written and read: a path gets the number it has among all paths and the directories on the way to them, in the order in which they are first needed (the directories of a path before it), counted from 1; 0 is the root. String prints the table as the line / and then these paths in this order, one line for each. The file of names of an index has exactly the number of nodes, and for each the length of its name, its name and the number of its directory; the file of records has exactly a record of zeros and one for each document with the number of its path, its begin and its end, in the order in which they were added. For any other table String prints the lines of all nodes, or ends as telling the first path does that cannot be told.", "quantifier": "all paths, divided into sessions in any way; all histories of an index within the limits of 32 bit numbers; all tables for String", "why_tests_cant": "All lists of paths with all their common directories, all divisions into sessions.", "anchors": ["fnames.go:fnames.String", "fnames.go:fnames.addPath", "fnames.go:fnames.abs", "fnames.go:fnames.write", "fnames.go:breadFnames", "dmd/adder.go:Adder.Add", "indexer.go:Indexer.Add", "indexer.go:Indexer.Close"]}
{"id": "C120", "title": "Whatever the files, Next and Get hand out only what stands in them", "statement": "Whatever bytes the files of an index have: if it opens, with at least one shard, and calls of Next, with slices of any capacities or nil, return, then every blot returned is that of a list of the index, and has at least two documents that follow each other in this list, each with the path, start and end that its record and the table give. A nil slice gets all documents up to the end of the list; another one no more than its capacity, and less only if the list ends; with nil slices only, the documents begin where the list begins. A call returns io.EOF iff it was asked for a blot and returns none. So if the heads and postings of an index made by sessions are replaced by any others with which it opens, all that Next and Get return are documents that the sessions added, or the first record, which is that of no document.", "quantifier": "every directory that opens, every sorter, every number of calls with slices of any capacities, all other heads and postings", "why_tests_cant": "All contents of all files, and all sequences of calls.", "anchors": ["query.go:Query.Next", "query.go:Query.fillBlot", "query.go:Query.Get", "query.go:Query.advance", "internal/shard/posts.go:Posts.next", "index.go:Index.docid2Doc", "blot.go:Blot.Next"]}
{"id": "C121", "title": "unblot, extract, like and inspect on any directory that opens", "statement": "Whatever bytes the files of an index have: if it opens, with at least one shard, then the following hold. unblot of a number meets the fate of the list that the number names: an error, a panic, no end, or an end. If the list ends after documents that all have records and paths, and the files of the documents, which may be any or missing, are below 4 GiB, then unblot makes a group for each text that is that of the first passage with this blot of a document, with exactly these documents, in the order of the list; it gives exactly one warning for each document of the list whose file is missing or too short or has no such passage. The blots that extract prints, if it ends without an error, are whole lists of the index, each with at least two documents and as many as the threshold, with the paths, starts and ends of their records; there is an order of the lists said by the files of heads to have at least two documents, those said to have more first, such that extract prints, as long as each gives two or more, the lists of this order up to the first that gives fewer documents than the threshold and ends there whatever follows, or all of them if none gives fewer, or meets the fate of the first that cannot be read. What like prints for a file below 4 GiB, if it ends without an error, are documents that stand in the list of a blot of this file, with the path, start and end of the record; and in what the files hold of such a document there stands a passage of the file. If the lists of all blots of the file end after documents that have records and paths, start at 0 and have their files, of any contents, then like prints exactly those of these documents whose files hold a passage of the file (of those in one bucket the last); if a document of these lists has no file, or one too short, then like prints nothing. The numbers of inspect are the whole records of the document file, the nodes of the path table, the sum of the counts in the files of heads, and 65536 for each shard.", "quantifier": "every directory that opens, every sorter, all files of documents below 4 GiB, every blot, every threshold", "why_tests_cant": "All contents of all files of the index and all contents of the documents.", "anchors": ["cmd/dupi/unblot.go:unblotCmd.Run", "cmd/dupi/extract.go:extractCmd.Run", "cmd/dupi/inspect.go:inspectCmd.Run", "cmd/dupi/like.go:doFilename", "index.go:Index.FindBlot", "index.go:Index.FindBlots", "index.go:Index.Stats", "doc.go:Doc.Load", "query.go:Query.Get"]}
{"id": "C122", "title": "A document made with NewDoc is found with its text", "statement": "A document made with NewDoc from a path and a text, added in any session and indexed, is shown by Get under each blot of its text, and loading what is shown gives the text back, in which FindBlot finds the blot. (Partial: the first part holds always. The document has no extent, and the extent 0:0 of what is shown stands for all of the file with this path: if the file holds exactly the text, loading gives the text and FindBlot its first passage with the blot. Otherwise loading gives whatever the file holds, in which the blot may not be found; two different texts given the same path are shown alike, and whatever the files are one of them is not read back.)", "quantifier": "all histories of create and append sessions that fit, all paths, texts, working directories, blots and file systems", "why_tests_cant": "NewDoc is not used by any test or command.", "anchors": ["doc.go:NewDoc", "doc.go:Doc.Load", "query.go:Query.Get", "index.go:Index.FindBlot"]}
{"id": "C123", "title": "The usage message lists each verb once", "statement": "In whatever order the map of verbs is gone through, the usage message has precisely one line for each verb, with its name and what it says of its use; the words it lists are the names of the verbs and the global options the program knows, and no others; two runs print the same lines, those of the verbs perhaps in another order.", "quantifier": "all orders of the map of verbs, every verb, all words", "why_tests_cant": "The order of a map differs from run to run; a test compares a few of 720 messages.", "anchors": ["cmd/dupi/dupi.go:usage", "cmd/dupi/dupi.go:usageFatal", "cmd/dupi/index.go:indexCmd.Usage", "cmd/dupi/extract.go:extractCmd.Usage", "cmd/dupi/blot.go:blotCmd.Usage", "cmd/dupi/unblot.go:unblotCmd.Usage", "cmd/dupi/inspect.go:inspectCmd.Usage", "cmd/dupi/like.go:likeCmd.Usage"]}
{"id": "C124", "title": "What is printed of tokens and posts tells them apart", "statement": "Two tokens print alike only if they are alike in tag, text and place, whatever bytes the text has; two posts print alike only if they are the same post. (False of posts: of the blot only the low 16 bits are printed, so for every post there is another that prints alike. Proved: precisely which posts print alike, and that those sent to one shard with blots in range are told apart.)", "quantifier": "all tokens and posts, all numbers of shards", "why_tests_cant": "All texts, quotes, digits and other bytes included; and all 2^64 posts.", "anchors": ["token/t.go:Tag.String", "token/t.go:T.String", "post/t.go:T.String", "shatter.go:shatter.blot"]}
{"id": "C125", "title": "Pointers to the documents of a blot", "statement": "Blot.Doc(i) is a pointer to document i of those the blot shows, and panics precisely if there is none. A pointer obtained from it stays a pointer to that document of the blot while the blot is filled. (False as stated: when Blot.Next has to make a new array, no pointer obtained before is one to a document of the blot afterwards, and what is written through it is not seen. Proved for Blot.Next with room, and for Get of a blot that was given a slice; over Query.Next such blots stay where they are.)", "quantifier": "all memories, all blots with slices in them, all indices, every growth of slices, every index and query", "why_tests_cant": "Whether append makes a new array depends on the capacity; all capacities and growth policies.", "anchors": ["blot.go:Blot.Doc", "blot.go:Blot.Next", "query.go:Query.Get", "query.go:Query.Next"]}
