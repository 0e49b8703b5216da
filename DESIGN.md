# DESIGN — a Lean 4 model of goirlib

Generated by `tools/gen_design.py` from `tools/design_body.md` (this text) and `MANIFEST.json` (the tables).

## 1. Approach

The code is modelled function by function as total, computable Lean definitions (`lean/Verif/Model/*`), with
property theorems (`lean/Verif/Props/*`) kept apart from helper lemmas (`lean/Verif/Lemmas/*`, or private lemmas next to a
theorem).  Specifications that a property refers to (history counts, segmentations, recency lists, ...) are small separate
definitions in `lean/Verif/Spec/*` or are plain `List` functions used directly in the theorem statement.  Each theorem is followed or
preceded by an `example`, or a named witness theorem, that meets its hypotheses with concrete non-trivial data.

Conventions

* Go `map[K]V` -> `GoMap K V`, an association list.  `range` over a map visits the list order; since Go's order is
  random, theorems either quantify over all lists (all orders) or speak only about lookups.
* Go `int` -> `Int` (unbounded) except where a conversion to `int32` happens (`toInt32`, wraps).
* Go `string` -> `String`; the store code only compares strings for equality, so byte/UTF-8 questions do not arise there.
* Pointers/shared maps -> values, except in the modules that are *about* aliasing (`Alias`, `Slices`, `LinkedList`, `Docs`).
* Goroutines + channels -> small-step machines; a theorem ranges over every run (every list of enabled steps).
* panic / log.Fatal -> explicit outcome values.
* Files -> three-slot "secure file" cells with `torn | full` contents (partial writes), and separately a path-level file
  system on which `SecureSaveFile` is run syscall by syscall; `Props/SFileView.lean` proves that the first is a view of the second.
* float64 -> the score functions are written once over any type of numbers with the operations the code uses; instances: exact reals,
  reals with infinities and NaN, reals rounded to 53 bits.
* A property the code violates is kept in full in properties.jsonl; the negation is proved with a concrete witness
  (`..._refuted`), and what does hold is proved under the suffix `_partial`.

## 2. What is modelled

| model | code |
|---|---|
| `Model/GoMap`, `Machine` | Go maps; transition systems |
| `Model/Types` | model/*.go (Field, NormalizedDocument, Query, DocumentScore, SearchResult, Set) |
| `Model/Text`, `StemmerMachine`, `Slices` | tokenizer/Standard.go, filter/*.go, language/*.go, main.go Preprocessing |
| `Model/Metric`, `Score`, `ScoreReal`, `ScoreX`, `Rounding`, `ScoreRounded` | metric/*.go, similarity/BM25.go |
| `Model/Flatten` | field/FieldProcess.go |
| `Model/Memory`, `Alias` | storage/Memory.go, storage/Storage.go |
| `Model/Serialize` | storage/Serialize.go, storage/buffers/*.go (the generated files that Serialize.go uses) |
| `Model/FS`, `SFile` | file/File.go |
| `Model/DiskIndex` | storage/DiskStorage.go and DiskIO.go: postings, fragments, merge, open |
| `Model/Flusher`, `Counters` | the same: metrics and document frequencies, writers, open |
| `Model/Docs` | the same: LRU-cached documents, writer, reload |
| `Model/DiskStore` | the whole `storage.Disk` |
| `Model/LRU`, `LinkedList`, `PointerLRU` | cache/LRU.go and container/list |
| `Model/Caches` | cache/RCU.go, Map.go, LocalMap.go, Shard.go |
| `Model/FanIn`, `Search` | index/InvertedIndex.go, search/Standard.go |
| `Model/Http` | main.go's two handlers |
| `Model/DiskSearch` | the answers of a disk store to a search (`index.NewIndex(store)`, main.go:117-123); every answer is that of the state the search starts in (`disk_answers_stable` justifies this) |
| `Model/Ingest` | indexing JSON documents (`mainxcrt`, main.go:230-267) with fmt's `%s` for each kind of JSON value; the text of nested arrays of objects is left open (`json.Unmarshal` is in `Model/Json` and `Model/Collection`) |
| `Model/Concurrent` | any number of clients calling SaveOrUpdate and UpdateIndex of one Memory store, one Go map access per step, nested maps and sets as heap cells behind references (storage/Memory.go:15-36, 96-120). Each access is atomic, in favour of the code |
| `Model/LiveSearch` | InvertedIndex.Search on a Memory store that any number of clients write to at the same time: every map access of its goroutines is a step, a `range` over a set that is being added to visits what was there and any of the rest (index/InvertedIndex.go:35-121, storage/Memory.go:48-94) |
| `Model/ConcurrentDisk` | any number of clients calling SaveOrUpdate, UpdateIndex and GetFields of one Disk store, one map access, cache call, message or file read per step, with the four writers, the merge goroutine, crashes and openings (storage/DiskStorage.go:34-228, storage/DiskIO.go). A map access and a call on the cache are atomic, in favour of the code |
| `Model/LiveDisk` | InvertedIndex.Search on a Disk store that any number of clients use at the same time, as main.go runs it: the phase of the terms as in Model/LiveSearch on the maps of the Disk store, the goroutines of the batches inside GetFields with cache calls and file reads (index/InvertedIndex.go:35-121, storage/DiskStorage.go:89-139, main.go:122-190) |
| `Model/Server` | main.go's program: one Disk store, POST handlers as its clients, any number of GET handlers each inside Standard.Search with one goroutine per query, each of them inside InvertedIndex.Search on the live store; arrivals, crashes, restarts (main.go:107-219, search/Standard.go:21-72). gin and JSON are not in it |
| `Model/Json`, `Model/Collection` | encoding/json as the code uses it (a parser and what Marshal writes for strings), UTF-8, field.StringToObject (field/FieldProcess.go:10-17), testecolection's file (testecolection/Teste.go:57-185) as bytes. Bytes that are no UTF-8 count as U+FFFD, as in Go; the limit of 10000 on the depth is modelled, which numbers ParseFloat accepts and how fmt prints them are parameters |
| `Model/Bind` | gin's ShouldBindJSON for main's Document, and POST /nir on the bytes of its body (main.go:122-161) |
| `Model/FlatBytes` | the FlatBuffers runtime on bytes: builder, alignment, growth to 1 GiB, vtables and their reuse, relative offsets, readers; and storage/Serialize.go on top of it (storage/buffers/*.go) |
| `Model/Rounding64`, `Model/Float64` | IEEE 754 binary64: exponents, subnormal numbers, signed zeros, infinities, NaN, rounding of +, -, *, / and fused multiply-add; math.Log as any function within 1 ulp |
| `Model/HttpBytes` | main.go's GET and POST /nir on bytes: url.ParseQuery, the JSON of model.Response and gin.H, the swallowed error of a score that is not finite |
| `Model/Gzip` | file.DecompressData down to the bits: gzip members and headers, DEFLATE blocks, Huffman decoders, CRC-32 (`Spec/Gzip` says, without reading anything, what a gzip file is) |
| `Model/DiskBytes` | the whole Disk store (Disk.go, DiskIO.go, Serialize.go, File.go) on one file system of bytes: paths, directories, SecureSaveFile as system calls, fragments byte by byte |
| `Model/ServerBytes` | main.go's server on the store of Model/DiskBytes: searches whose reads of document files are reads of bytes, next to handlers and the goroutines of the store |
| `Model/Strconv` | strconv.ParseFloat on JSON literals (with the limit on the exponent), the layout of the formats e, f, g and of encoding/json's float64Encoder; which digits are printed is any choice of shortest ones |
| `Model/Int64` | the Memory store with counters that wrap around at 2^64 |
| `Model/Feed` | CriarArquivo from the answer of http.Get on: xml.Unmarshal of a tree of elements into Feed, the documents that are written |
| `Model/Faults` | the store of Model/DiskBytes on a file system whose operations can fail at any time for reasons of its own: what the error branches of DiskIO.go, DiskStorage.go and File.go do then |
| `Model/Shared` | several operating system processes (stores of Model/DiskBytes) that have the same rootFolder: they share the files and nothing else; a process writes to an open file by its path, which is what happens as long as no other process renames or removes that file in between |
| `Model/Replicas` | several instances of the program of Model/ServerBytes, each with its searches, on one folder as in Model/Shared |
| `Spec/Backup` (on Model/Shared) | a copy taken file by file: at every path what the folder had there at the moment at which the path was copied; the content of one file is that of one moment |

## 3. What is not modelled

* gin (routing, HTTP; the query string and the JSON of the responses are modelled, C114, C115), `log`, the clock; of `json.Unmarshal` which number literals fit a float64 (a parameter).  Tickers may fire at any moment.
* `main` itself beyond the handlers and Preprocessing: flags, `maincc`; the download of the feed in `testecolection/Teste.go` and how encoding/xml reads its text (C123 starts from the tree of elements).
* Code that is commented out or not reached: search/AsyncStandard.go, storage/IndexDisk.go, storage/disk/*.go, the commented parts of
  BM25.go and Standard.go, the generated buffers nobody uses.
* The source of the FlatBuffers runtime is not in the sandbox: its bytes are modelled (`Model/FlatBytes`) from the published source; the models of whole
  stores use objects and slots (`Model/Serialize`), which C111 connects to the bytes.  gzip is modelled in bits (`Model/Gzip`, C117): the reader as
  a function, the compressor as any encoding that the RFCs allow; the models of whole stores only use that complete files come back and incomplete ones panic.
* Unicode tables, porter2, NFD/NFC: parameters; theorems hold for every such function.  Ill-formed UTF-8 outside of the JSON readers (C107-C113 cover every sequence of bytes).
* Power loss, reordered or failing system calls, full disks, other processes that write in the same folder.  A crash is the death of the process
  at any instruction; a `write` may have written any prefix.
* Overflow of Go's 64-bit `int`, except in the Memory store (C122); in the rounded model (C59, C61, C63, C104) the float64 exponent range (no overflow, no subnormals) and the sign of zero (C112's float64 has them); `math.Log` is taken as correctly rounded in the
  rounded model.
* Real data races. Any number of clients on a Memory store (C83-C88) or on a Disk store (C89-C99), with searches at the same time, are modelled with atomic
  map accesses and atomic calls of the cache; in Go, overlapping accesses are a data race (C84, C96 say when there is one) and may abort the program.
* The compiler may fuse `x*y + z` on some architectures (FMA): the float64 of C112 covers every choice of the places where it does; the models of C103-C104 (53 binary digits, unbounded exponents) round after each operation.

Further simplifications are listed at the head of each model file and with each definition.

## 4. Plan per property

| prop | modelled | proof |
|---|---|---|
| C01,C02 | `strings.FieldsFunc`+`isNotAlnum` as a fold over runes; letter/number tables are parameters | induction on the text; segmentation is unique |
| C03 | loop of StopWords.Process | induction |
| C04 | goroutine-per-word machine writing slots of a result slice | invariant over all completion orders |
| C05,C06 | composition of the five stages; `lower` runewise, `stem`, `fold` parameters; the English table verbatim | equational; C06 refuted by witness, characterised otherwise |
| C07 | slices as references into a heap | Lowercase refuted; other filters proved |
| C08 | loop | induction |
| C09-C11 | JSON as nested inductive with ordered object entries (order = iteration order) | mutual induction, injectivity of dotted join |
| C12 | map-based set | induction over ops |
| C13-C20 | `Memory` struct and its methods | induction over the history of calls against list-based spec |
| C21 | heap-of-sets version of the index | witness refutes; partial: reads through handle always equal current index |
| C22-C23 | product of the four Disk subsystems with interleaved background steps | invariants; witness for C23 |
| C24-C27,C33 | document subsystem: LRU cache, writer buffer, per-document file | invariant over all runs; witnesses |
| C28-C30,C35,C36,C41 | index subsystem: channel, writer buffer, fragments, index file, merge as micro-steps, crash, open | invariant over all runs incl. crashes; witnesses |
| C31,C34 | metrics subsystem with int32 serialisation | invariant; witness for overflow |
| C32,C37 | document-frequency subsystem | witness; exact characterisation |
| C38-C44 | path-level file system; `filepath.Join`; SecureSaveFile as syscall program with all crash states | case analysis, induction; witnesses |
| C45 | FlatBuffers at slot level: builder with nesting flag, slots, defaults, vectors; the generated accessors by slot number | round-trip by induction |
| C46-C48 | LRU with element ids, map and list | invariant over op sequences; recency specification |
| C49,C50 | `container/list` at pointer level; two reader threads under an RWMutex | ring invariant; the cache over the pointers simulates the cache over a sequence; witness interleavings, one of them followed by arbitrarily many Puts |
| C51-C56 | RCU / SyncMap / Shard / LocalMap machines; CRC32 as parameter (and concretely for witnesses) | invariants; witnesses |
| C57,C58 | fan-in machine: workers, semaphore, bounded channel, closer, collector | invariants, progress, decreasing measure |
| C59-C62 | composition of two levels of fan-in; aggregation map; sort as "some sorted permutation" | permutation invariance; C61 refuted with rounding |
| C63-C67 | exact real arithmetic, and rounding to 53 bits | Mathlib reals; monotonicity of rounding |
| C68 | reals extended with inf/nan, no rounding | evaluation; witness |
| C69,C70 | the two gin handlers as functions on parsed requests | case analysis; witness |
| C71-C73 | index and metrics subsystems with crashes | invariants; witnesses |
| C74 | the two stop word tables verbatim | finite tables, checked by the kernel |
| C75,C76 | document subsystem at the level of map accesses | witness; invariant |
| C77 | the whole disk store: blocking sends on bounded channels | progress and a decreasing measure |
| C78 | a Search of a disk store | same answers as Memory (C22), and the set of possible results is a function of the answers (C59, every order of replies is possible) |
| C79 | end of the process and reopening, all parts together | reopening splits into the parts' runs; C30, C31, C33 for each |
| C80 | the same | counterexample: two flushes with different terms; otherwise equal answers give equal scores |
| C81 | Model/Ingest over Memory (and, through C78, Disk) | the calls made are a permutation of one save per path (C09, C11); then C13-C15, C60, C78 |
| C82 | fmt's text of each kind of value | counterexample, and the exact terms of every kind of value by C05 |
| C83 | Model/Concurrent | counterexamples; invariants over every interleaving (references are kept under their own key, everything in the heap was put there by a call, counters with the additions still pending); a part of the store that one client owns evolves as in Memory, by an invariant over the position inside the call |
| C84 | next accesses of two clients | for any two programs a schedule to a racing state |
| C85 | Model/LiveSearch | invariant of all goroutines: what they hold was posted or saved by a call that has begun; at rest, exact answers |
| C86 | Model/LiveSearch | counterexample with two writers; otherwise references are never replaced, and the document stays due: some goroutine has yet to send it, or it is in the channel, or received |
| C87 | Model/LiveSearch | counterexample (reads before the save, finds after it); with one writer, bounds from the invariant over the owner's position in its call |
| C88 | Model/LiveSearch | progress and a lexicographic rank: the clients' remaining accesses, the stage of the search, the work left in it |
| C89 | Model/ConcurrentDisk | invariants over every step: tags of references, what cells, channels, buffers and files hold comes from calls begun; counters bounded by a gauge that counts pending writes |
| C90 | Model/ConcurrentDisk | invariant: what a returned call posts has been sent to the writer; composition with the index writer's durability; counterexample schedule |
| C91 | Model/ConcurrentDisk | progress for each client and a cost that every prompt step lowers |
| C92 | Model/ConcurrentDisk | an invariant about one field, one map at a time: between the calls of the owner it is exact, inside a call the remaining steps complete it, and no step of another client touches it |
| C93 | Model/ConcurrentDisk | witness run; for a field with one writer, the last message received carries the numbers in memory |
| C94 | Model/ConcurrentDisk | witness runs; for a document with one user, an invariant about its map in the cache, with the writer and in the file, at each step of the calls |
| C95 | Model/ConcurrentDisk | an invariant about the file, the cached maps and the partial answers, kept by every action, crashes and openings too |
| C96 | Model/ConcurrentDisk, Props/ConcurrentDiskRaces (the table of accesses) | constructed schedules from any state for two saves and two readers, a witness run for one client; an invariant of the clients' positions for the positive part |
| C97 | Model/LiveDisk | the goroutines of a search do to the store what clients that read do (a simulation), so the invariants of C89 hold during a search; invariants of the two phases on top |
| C98 | Model/LiveDisk | progress from the invariants; a lexicographic rank (work of the clients, phase, work of the phase) that every step of the search lowers and no other step raises |
| C99 | Model/LiveDisk | invariants: the set that lists the document is never replaced; nobody changes what readers of the document get (C95, through the simulation); the search is on its way to it |
| C100 | Model/Server | every search is simulated by a reading client of the store, so the invariants of C97 hold for all searches at once; a second invariant says what has been collected from the goroutines so far |
| C101 | Model/Server | the rank of C98 for every goroutine of the search, and a count of goroutines and messages left; infinitely many steps would lower one of finitely many ranks for ever |
| C102 | Model/Server | the invariants of C99 for all goroutines of the search, with all other searches as readers |
| C103 | Model/Server | invariant: while nobody saves, each search has read so far exactly what the index and the files say; then the collected answers are the scores of C59 |
| C104 | Model/Score over R53 (rounded reals) against the reals | a calculus of relative errors (`Near m x y`: at most m roundings apart), with the logarithm's error bounded by log((N+1)/(n+1/2)) >= 1/(2N+2) |
| C105 | Model/Collection: the file as bytes, a JSON parser | no byte of a line but the last is a newline (UTF-8, escapes); the parser inverts the writer by induction on the value |
| C106 | the file cut at any byte; a short write followed by others | prefixes of the lines; refutation: `{` before a line is no JSON |
| C107 | the parser; the map of members with the last of equal keys | the parser accepts exactly the grammar of Spec/Json (soundness and completeness by induction on the fuel); induction on the value against paths defined on the text's members |
| C108 | Model/Collection composed with Model/Ingest | C105, C107 and C81 |
| C109 | the same parser, and the decoding into the struct | the grammar theorem, and induction on the members against `the last string for the field` |
| C110 | Model/Bind: the first value of the body, decoded into the struct | the grammar theorem (an object is read whatever follows it), C70 |
| C111 | Model/FlatBytes: `Builder`, `Prep`, `EndObject` with vtable reuse, readers that follow offsets | refinement: every builder action on bytes simulates the action on objects (Model/Serialize) and keeps the invariant that each object is encoded at its offset; readers on bytes agree with readers on objects; then C34/C45 |
| C112 | Model/Float64 as the float type of Model/Score and Model/Search | ranges of every intermediate result (powers of 2) show that nothing overflows or becomes subnormal; then the error analysis of C104 with the slack of math.Log |
| C113 | Model/Collection composed with Model/Ingest, on the bytes of the file | C107's grammar theorem for every line, then C81 |
| C114, C115 | Model/HttpBytes; Spec/HttpBytes says what a query string asks for and what an answer tells, by the grammars of Spec/Json and Spec/Utf8 | the printed value is in the grammar (C107's lemmas) and the grammar is unambiguous; induction on the query string for the decoding; C110, C108 for what is found |
| C116 | Model/Server with clients whose calls are those of the POST handler, Model/HttpBytes for the bytes | an invariant that every call begun or still to come belongs to a body, then C100, C115 and the grammar of the answer |
| C117 | Model/Gzip against Spec/Gzip | Huffman words are prefix free, so one bit at a time finds them; induction over symbols, lengths, blocks, members in both directions; the table of the CRC is the bitwise one |
| C118 | Model/DiskBytes, a forward simulation into Model/ConcurrentDisk | the relation says which bytes stand for which object (C111, C117) and where each goroutine is inside SecureSaveFile; every action of the bytes is zero or more actions of the objects; the theorems C71, C89, C90, C91, C92, C93, C94, C95 are carried over; for C91 a step that is possible on the objects is shown to be possible on the bytes, and a lexicographic measure (steps, files, system calls) falls |
| C119 | Model/ServerBytes, a forward simulation into Model/Server | C118's relation extended by equal requests; the step that reads a document file reads the object it stands for; theorems C100, C101, C102, C116 are carried over; progress also needs that a step of the objects is possible on the bytes |
| C120 | Model/Strconv, Model/Float64 (rnd64), Spec/Decimal | the text printed for d·10^e denotes d·10^e in each layout; shortest digits are read back by definition; rounding is monotone, so the order is kept; C114's answer instantiated |
| C121 | Model/Strconv, Model/Collection | readFloat returns what the literal denotes (below the limit on exponents); rounding overflows from 2^1024 - 2^970 on; the shortest digits of a whole number below a million are its own because neighbouring float64 are closer than 1/2^32; C113 instantiated |
| C122 | Model/Int64 | the wrapped store is the image of the unbounded one under taking every counter modulo 2^64 (simulation), because counters are only added to; C15 gives the exact counts |
| C123 | Model/Feed, Spec/Feed | induction on the pieces of an element; C105 and C108 composed |
| C124 | Model/Faults | a forward simulation by the store without failures: a merge that failed is one that is not scheduled any more, a document that could not be read is one that was not asked for; the questions of the simulating clients are found from the end of the run backwards; then C118. Counterexample runs for the losses |
| C125 | Spec/Corpus on Model/Memory, Disk, Search, Float64 | the counters are counts over the texts (induction); the score by the store's numbers is the one by the texts; then C112 on every store that reads alike |
| C126 | the same with Model/Bind, HttpBytes, Strconv | C110, C114, C115, C120 and C125 composed |
| C127 | Model/Server (searches over Model/ConcurrentDisk) | all calls returned ⇒ the store reads like a memory store with the same texts (C92, C94 per field and per document); a search in which every document is in the cache is a sequential search (an invariant of all searches and goroutines); then C125/C126 |
| C128 | Model/DiskBytes, started on an arbitrary file system | what a folder says is a specification of its own (Spec/Opening); an invariant of LoadIndexOnHD relates what it has read, written and deleted to the folder that was found; a second one follows a damaged file; a third one follows clients that only read |
| C129 | Model/ServerBytes, started on an arbitrary file system | the invariant of C128 for reading clients, extended to the goroutines of the searches (what each of them has read is what the files say); memory only grows by new maps, so what a search has to visit never changes; C98's ranking of steps for the end |
| C130 | Model/DiskBytes, any number of processes | an invariant of the merge relative to the folder itself instead of the folder at the opening, so that it holds of the background merge too and survives kills (SaveIdx follows the index file through the renames); induction on the run from its end; the refutation is computed in the kernel |
| C131 | Model/Shared | a process that is not merging touches no file, so under InTurn the invariants of C128 and C130 (KeptState) belong to one process at a time and are handed over when nobody merges; a second invariant (Speaks) follows what each process has loaded, relative to the folder at its own opening, which says what it said at first; induction on the run; the searches (Model/Replicas) keep the invariant of C129 at every instance: a step of a search leaves the files and the merger alone, and a step of another instance changes no document file; the refutations are computed in the kernel |
| C132 | Model/Shared with Spec/Backup | fragments are never made nor changed, only removed (induction on the run), so what was a fragment when the index was copied had been one, with the same bytes, when it was copied; the invariants of C131 say of each moment what the index and the fragments together say; the refutations are computed in the kernel |
| C133 | Model/LocalHeap with Spec/LocalMap: the variables whose addresses Set stores, the map of addresses, the pointers that Get returned | invariant over the history, one event at a time: map, pointers and contents are what Spec/LocalMap says of the history; the other theorems follow from the characterization |

## 5. Findings about the code

The properties with a `_refuted` theorem are false of the code as written; each has a concrete witness run in the model.

* C06 the stemmer runs after the stop-word filter and can emit a stop word.
* C07 `Lowercase.Process` writes into the caller's slice.
* C10 keys with dots clash in `Flatten`, the winner depends on map order.
* C19 re-saving a document leaves stale postings and counts its size, length and terms twice.
* C21 `GetDocuments` hands out the live map.
* C23 `Memory.UpdateIndex` changes size and length, `Disk.UpdateIndex` does not.
* C26, C27 a document evicted from the cache before its flush is not found or reloaded in an older version; saving a field of an uncached
  document loses its other fields, also on disk.
* C32 a flush of document frequencies overwrites the file with the terms received since the flush before.
* C34 counts are cut to int32.
* C36, C71 fragments are not written atomically; the merge, or a later open, panics on a partial one.
* C37 after a crash a document frequency may exceed the collection size.
* C40, C41, C73 between the two renames of SecureSaveFile the file does not exist under its name, and reopening then loses it.
* C42-C44 ids and names that are used as file names unescaped.
* C48 an LRU of capacity 0 panics at the first Put; C50 `Get` moves list elements under a read lock: after two concurrent `Get`s of one key the next `Put` can panic, or the cache never evicts again.
* C53 nobody drains SyncMap's channel; C54 on 32-bit platforms a shard number can be negative; C56 shard names may collide.
* C61 with three or more queries the sum of float scores depends on goroutine timing.
* C68 a field saved with length 0 makes scores NaN.
* C69 GET /nir panics if there are 1 to 9 hits.
* C75 the writer serializes a document's map while saves change it.
- C80: because the file of document frequencies holds only the last batch, a search can rank two documents the other way round after a clean restart.
- C82: JSON numbers, booleans and null are indexed under words of fmt's error text (`%!s(float64=7)`), and a numeric Id becomes that text.
- C83, C84: the stores have no lock, yet the HTTP handlers call them concurrently: saved documents can become unfindable, fields and counts are lost, and any two concurrent saves race.
- C86, C87: a search that runs while others save can miss a document saved long before it, and can return NaN scores.
- C90: with two clients, a posting lost in memory is on disk: a clean restart changes the answers.
- C93: with two clients that save one field, the older message about its size and length can be received last: the files then say less than the store, for good.
- C94: a client that only reads can undo a save on a Disk store: GetFields loads the old file, the save puts the new map into the cache, and GetFields puts the old map over it.
- C96: one client alone races with the goroutine that writes the documents (the map it saves into is the map being serialised), and two clients that only read race on the page list of the cache (Get moves a page under the read lock).
- main.go's GET handler does `id += 1` on a variable shared by all requests (a data race of its own), and its searches run concurrently with the saves of POST: C97-C99 say what still holds.
- CriarArquivo only prints an error of writing and goes on: the next document lands on the same line, and GetDocuments then panics (C106). A last line without newline is dropped silently.
- POST /nir reads only the first JSON value of its body: a second document, or garbage, after it is ignored and the answer is 201 (C110).
- A file that would exceed 1 GiB makes its serializer panic (C111): the document map or the posting lists of a shard cannot be saved any more.
- A boost near the end of the range of float64 makes scores NaN (C112): boost times idf overflows, and infinity times the frequency 0 of a missing term is NaN; NaN then breaks the sort.
- A score among the first ten that is not finite makes GET /nir answer 200 with an empty body (C114): encoding/json refuses NaN and gin drops the error.
- Nothing checks the id of a posted document. `../../title/index` overwrites the index of field title: the store goes on answering, but no later process ever opens the folder (C43, on the bytes). Saving document `a` deletes the file of document `a_old` (C42).
- Numbers in documents: 1000000 is indexed as `1e+06`, so a search for its digits does not find it; numeric ids above 2^53 may clash (9007199254740993 and 9007199254740992 are one document), since every number goes through a float64 (C121).
- CriarArquivo keeps only the last author of a paper: encoding/xml reads every `author` into the same struct (C123). If the server cannot be reached it panics on the nil response.
- One failed rename of a background merge (no crash, nothing reported) loses the whole index of a field at the next restart, and any failed operation of it ends merging for the rest of the process (C124).
- The size and length of a field go by the name inside its metrics file, not by its directory: a copied or renamed field directory is found with its documents but without its size and length (C128).
- Every opening and every background merge rewrites the index of every field, changed or not; a kill between the two renames loses the field, even in a store to which nothing is ever written, and the next opening overwrites index_temp and deletes index_old, the last two copies (C130).
- Two processes that only read one folder can destroy it: one that opens while another stands between its two renames loads an empty index and writes it back over the good one. No kill, no error, no write request (C131). A fragment that another process merges first makes NewDiskStore fail (C131).
- A backup of a folder in use that copies `index` before `temp` - the order of the names - loses what the merge moved in between, and a snapshot between the two renames lacks a whole field; both copies open without an error (C132).

## 6. Testing the theorems against wrong programs

`tools/mutate.py` applies one realistic bug at a time to a scratch copy of the model and rebuilds; `seeded/LOG.jsonl` has one line per attempt
(definition, edit, claim broken, theorems that failed, theorems tightened).  959 attempts so far; 16 of them led to a tightened or new theorem.

## 7. Trusted base

* Lean 4.33's kernel.
* The axioms `propext`, `Classical.choice`, `Quot.sound` and no others (`vcheck` audits this); the axioms of each theorem of the
  manifest are listed below.  No axiom is added, nothing is left unproved, and `native_decide`/`bv_decide` are not used.  Witness runs use `decide +kernel`, which
  makes the kernel evaluate the decision procedure.
* The reading of the Go code into the model, definition by definition (each cites file:lines), with the simplifications of section 3
  and of the model files' headers.
* The external functions listed in section 3, as far as the theorems do not quantify over them.

### Axioms of each theorem

**propext, Classical.choice, Quot.sound** (393 theorems): `Goir.c01_tokens_are_maximal_runs`, `Goir.c01_tokens_content`, `Goir.c02_tokenize_distributes`, `Goir.c05_preprocessing_per_token`, `Goir.c05_preprocessing_distributes`, `Goir.c05_preprocessing_case_insensitive`, `Goir.c05_preprocessing_ignores_case`, `Goir.c06_no_stopword_emitted_refuted`, `Goir.c06_emitted_terms_partial`, `Goir.Slices.c07_lowercase_mutates_refuted`, `Goir.Slices.c07_lowercase_in_place`, `Goir.Slices.c07_other_filters_pure_partial`, `Goir.c09_flatten_exact`, `Goir.c09_flatten_order_independent`, `Goir.c10_flatten_deterministic_refuted`, `Goir.c100_asked`, `Goir.c100_server_search_sound`, `Goir.c100_document`, `Goir.c100_sorted`, `Goir.c100_sorted_float64`, `Goir.c101_server_search_ends`, `Goir.c101_fair`, `Goir.c102_server_search_finds`, `Goir.c102_get`, `Goir.c103_asked`, `Goir.c103_returns`, `Goir.c103_get`, `Goir.c103_get_float64`, `Goir.c103_searches_do_not_interfere`, `Goir.c103_agree`, `Goir.c104_memory`, `Goir.c104_error`, `Goir.c104_order`, `Goir.c104_two_runs`, `Goir.Collection.c105_round_trip`, `Goir.Collection.c106_crash`, `Goir.Collection.c106_last_write_fails`, `Goir.Collection.c106_refuted`, `Goir.Collection.c106_no_newline_refuted`, `Goir.Collection.c107_object`, `Goir.Collection.c107_values`, `Goir.Collection.c107_inner_object`, `Goir.Collection.c107_null`, `Goir.Collection.c107_panic`, `Goir.Collection.c107_depth`, `Goir.Collection.c108_collection_searchable`, `Goir.Collection.c108_disk`, `Goir.Collection.c108_bad_line`, `Goir.Collection.c109_get_documents`, `Goir.c11_getID_flatten`, `Goir.c110_post`, `Goir.c110_searchable`, `Goir.c110_unique`, `Goir.c110_rest_refuted`, `Goir.FBB.c111_counts_bytes`, `Goir.FBB.c111_fields_bytes`, `Goir.FBB.c111_index_bytes`, `Goir.FBB.c111_metrics_bytes`, `Goir.FBB.c111_counts_fit`, `Goir.FBB.c111_fields_fit`, `Goir.FBB.c111_index_fit`, `Goir.FBB.c111_metrics_fit`, `Goir.FBB.c111_counts_panic`, `Goir.FBB.c111_fields_panic`, `Goir.FBB.c111_index_panic`, `Goir.FBB.c111_any_size_refuted`, `Goir.FBB.c111_short_file`, `Goir.c112_memory`, `Goir.c112_error`, `Goir.c112_order`, `Goir.c112_two_runs`, `Goir.c112_huge_boost_refuted`, `Goir.c112_rounding`, `Goir.c112_special_values`, `Goir.c113_searchable`, `Goir.c113_disk`, `Goir.c113_string`, `Goir.Http.c114_answer`, `Goir.Http.c114_unique`, `Goir.Http.c114_memory`, `Goir.Http.c114_disk`, `Goir.Http.c114_post`, `Goir.Http.c115_query`, `Goir.Http.c115_total`, `Goir.Http.c116_live`, `Goir.Gzip.c117_reads`, `Goir.Gzip.c117_panics`, `Goir.Gzip.c117_one_content`, `Goir.Gzip.c117_round_trip`, `Goir.Gzip.c117_injective`, `Goir.Gzip.c117_truncated`, `Goir.Gzip.c117_appended`, `Goir.BDisk.c118_refines`, `Goir.BDisk.c118_never_invents`, `Goir.BDisk.c118_own_field`, `Goir.BDisk.c118_restart`, `Goir.BDisk.c118_reopens`, `Goir.BDisk.c118_own_document`, `Goir.BDisk.c118_read_only`, `Goir.BDisk.c118_restart_document`, `Goir.BDisk.c118_restart_numbers`, `Goir.BDisk.c118_no_deadlock`, `Goir.BDisk.c118_ends`, `Goir.BDisk.c118_every_schedule`, `Goir.BDisk.c118_alone`, `Goir.BDisk.namesLeft_of_few`, `Goir.BDisk.c118_every_cut_fragment_refuted`, `Goir.BDisk.c118_torn_fragment_refuted`, `Goir.c119_refines`, `Goir.c119_no_panic`, `Goir.c119_asked`, `Goir.c119_finds`, `Goir.c119_ends`, `Goir.c119_live`, `Goir.Strconv.c120_exact`, `Goir.Strconv.c120_read_back`, `Goir.Strconv.c120_order`, `Goir.Strconv.c120_answer`, `Goir.Strconv.c121_accepted`, `Goir.Strconv.c121_printed`, `Goir.Strconv.c121_same`, `Goir.Strconv.c121_integers`, `Goir.Strconv.c121_searchable`, `Goir.Strconv.c121_same_id`, `Goir.Strconv.c121_million_refuted`, `Goir.Strconv.c121_ids_clash_refuted`, `Goir.Strconv.c121_collision_refuted`, `Goir.Strconv.c121_long_refuted`, `Goir.c122_exact`, `Goir.c122_served`, `Goir.c122_refuted`, `Goir.Collection.Feed.c123_file`, `Goir.Collection.Feed.c123_other`, `Goir.Collection.Feed.c123_searchable`, `Goir.Collection.Feed.c123_authors_refuted`, `Goir.BDisk.c124_refines`, `Goir.BDisk.c124_never_invents`, `Goir.BDisk.c124_own_field`, `Goir.BDisk.c124_restart`, `Goir.BDisk.c124_reopens`, `Goir.BDisk.c124_stops`, `Goir.BDisk.c124_rename_refuted`, `Goir.BDisk.c124_read_refuted`, `Goir.c125_search`, `Goir.c125_memory`, `Goir.c125_disk`, `Goir.Http.c126_memory`, `Goir.Http.c126_disk`, `Goir.Http.accepts_total`, `Goir.c127_live`, `Goir.Http.c127_http`, `Goir.c127_bytes`, `Goir.Http.c127_http_bytes`, `Goir.Opening.c128_documents`, `Goir.Opening.c128_numbers`, `Goir.Opening.c128_folder_after`, `Goir.Opening.c128_damage_is_noticed`, `Goir.Opening.c128_all_read`, `Goir.Opening.c128_opens`, `Goir.Opening.c128_fields`, `Goir.Opening.c128_documents_stay`, `Goir.Opening.renamed_loses_sizes`, `Goir.c129_search`, `Goir.c129_returns`, `Goir.c129_no_damage`, `Goir.c129_no_panic`, `Goir.c129_ends`, `Goir.c129_replicas`, `Goir.c129_replicas_one`, `Goir.Opening.c130_reading_loses_field_refuted`, `Goir.Opening.c130_kept_partial`, `Goir.Opening.c130_reopened_partial`, `Goir.c130_search_partial`, `Goir.Opening.c130_nothing_new`, `Goir.Opening.c130_untouched`, `Goir.Opening.c130_numbers`, `Goir.Shared.c131_two_readers_lose_field_refuted`, `Goir.Shared.c131_opening_fails_refuted`, `Goir.Shared.c131_shared_partial`, `Goir.Shared.c131_answers_partial`, `Goir.Shared.c131_fields_partial`, `Goir.Shared.c131_untouched_partial`, `Goir.Replicas.c131_search_partial`, `Goir.Replicas.c131_agree_partial`, `Goir.Replicas.c131_no_panic_partial`, `Goir.Replicas.c131_progress_partial`, `Goir.Replicas.c131_returns_partial`, `Goir.Shared.c132_index_first_refuted`, `Goir.Shared.c132_snapshot_refuted`, `Goir.Shared.c132_copy_partial`, `Goir.Shared.c132_nothing_new_partial`, `Goir.Shared.c132_untouched_partial`, `Goir.Shared.c132_tree`, `Goir.Shared.c132_numbers_partial`, `Goir.Shared.c132_opened_partial`, `Goir.Shared.c132_search_partial`, `Goir.LHeap.c133_other_keys`, `Goir.LHeap.c133_live`, `Goir.c20_indexDocument_searchable`, `Goir.c22_disk_like_memory`, `Goir.c22_getFields_like_memory`, `Goir.disk_answers`, `Goir.c23_updateIndex_differs`, `Goir.c23_difference_partial`, `Goir.c24_latest_field_when_nothing_is_evicted`, `Goir.c25_found_was_saved`, `Goir.c25_getFields_never_invents`, `Goir.c25_store_never_invents`, `Goir.c26_refuted_missing`, `Goir.c26_refuted_stale`, `Goir.c26_latest_up_to_32_bits_partial`, `Goir.c26_latest_when_orderly_partial`, `Goir.c27_refuted`, `Goir.c27_refuted_permanent`, `Goir.c27_other_fields_stay_partial`, `Goir.c28_flushed_postings_survive`, `Goir.c28_on_disk_postings_survive`, `Goir.sfile_view`, `Goir.c29_never_invents`, `Goir.c29_store_never_invents`, `Goir.c30_clean_restart`, `Goir.c31_clean_restart`, `Goir.c32_restart_refuted`, `Goir.c32_same_or_reset_partial`, `Goir.c32_exact_partial`, `Goir.c33_documents_survive_restart`, `Goir.c33_fresh_store_survives_restart`, `Goir.c34_survives_iff_fits_partial`, `Goir.c34_sizes_after_restart`, `Goir.c35_open_returns_union`, `Goir.c35_idempotent`, `Goir.c35_merge_loses_nothing`, `Goir.c35_merge_exact`, `Goir.c36_merge_reads_torn_refuted`, `Goir.c36_no_panic_partial`, `Goir.c37_df_above_size`, `Goir.c37_df_le_size_partial`, `Goir.c38_secureSave_installs`, `Goir.c39_secureSave_never_loses_both`, `Goir.c40_readable_refuted`, `Goir.c40_outside_window_partial`, `Goir.c41_window_loses_index_refuted`, `Goir.c41_outside_window_partial`, `Goir.c41_fragments_partial`, `Goir.c42_other_documents_refuted`, `Goir.BDisk.c42_lost_document_refuted`, `Goir.c42_other_documents_partial`, `Goir.c43_ids_confined_refuted`, `Goir.BDisk.c43_one_document_ruins_the_folder_refuted`, `Goir.c43_ids_confined_partial`, `Goir.c44_field_names_refuted`, `Goir.c44_slash_refuted`, `Goir.c44_field_names_partial`, `Goir.LRU.c46_lru_bounded`, `Goir.PLRU.c49_lru_on_pointers`, `Goir.LRU.c47_lru_recency`, `Goir.LRU.c48_positive_capacity_partial`, `Goir.PList.c49_moveToFront`, `Goir.PLRU.c49_cache_refines`, `Goir.PList.c50_gets_safe_partial`, `Goir.PLRU.c50_serial_gets_partial`, `Goir.Shard.c54_shard_get_total`, `Goir.Shard.c54_32bit_panics_refuted`, `Goir.Shard.c55_shard_is_a_map`, `Goir.Shard.c56_shards_isolated_refuted`, `Goir.Shard.c56_different_residues_isolated_partial`, `Goir.c57_bounded`, `Goir.c57_no_deadlock`, `Goir.index_search_returns`, `Goir.c58_exact`, `Goir.c58_schedule_independent`, `Goir.c59_bounded`, `Goir.c59_no_deadlock`, `Goir.c59_result`, `Goir.c59_every_order`, `Goir.c59_ranking`, `Goir.c59_ranking_rounded`, `Goir.c59_ranking_float64`, `Goir.search_returns`, `Goir.c60_sound_complete`, `Goir.c61_refuted`, `Goir.c61_iff`, `Goir.c61_real`, `Goir.c61_two_queries_partial`, `Goir.c61_two_queries_rounded`, `Goir.c61_float64_refuted`, `Goir.c61_two_queries_float64`, `Goir.c62_harmless`, `Goir.c63_idf_formula`, `Goir.c63_idf_positive`, `Goir.c63_idf_decreases`, `Goir.c63_idf_increases`, `Goir.c63_idf_rounded_nonneg`, `Goir.c63_idf_rounded_decreases`, `Goir.c63_idf_rounded_increases`, `Goir.c64_bm25_formula`, `Goir.c64_nonneg`, `Goir.c64_zero_iff`, `Goir.c64_rounded_nonneg`, `Goir.c64_float64`, `Goir.c65_frequency`, `Goir.c65_length`, `Goir.c65_saturates`, `Goir.c65_float64`, `Goir.c66_boost_scales`, `Goir.c66_boost_zero`, `Goir.c66_boost_zero_float64`, `Goir.c67_append`, `Goir.c67_order`, `Goir.c67_repeat`, `Goir.c68_finite_refuted`, `Goir.c68_finite_partial`, `Goir.c68_special_values`, `Goir.c68_http_finite`, `Goir.c68_float64_refuted`, `Goir.c69_any_number_of_hits_refuted`, `Goir.c69_panics_refuted`, `Goir.c69_best_partial`, `Goir.c70_rejected`, `Goir.c70_indexes_three_fields`, `Goir.c70_searchable`, `Goir.c71_reopen_after_crash_refuted`, `Goir.c71_every_cut_fragment_refuted`, `Goir.c71_reopen_partial`, `Goir.c72_counters_always_load`, `Goir.c72_size_and_length_of_one_moment`, `Goir.c73_window_resets_metrics_refuted`, `Goir.c73_flushed_metrics_never_fall_partial`, `Goir.c74_languages`, `Goir.c74_tables`, `Goir.c74_stopwords_plain`, `Goir.c74_any_case_removed`, `Goir.c74_accented_kept`, `Goir.c75_refuted`, `Goir.c75_commute_partial`, `Goir.c76_documents_never_panic`, `Goir.c76_no_cache_panics`, `Goir.c77_no_deadlock`, `Goir.c77_bounded`, `Goir.c77_every_schedule`, `Goir.c77_call_completes`, `Goir.c78_search_like_memory`, `Goir.c78_sound_complete`, `Goir.c78_http`, `Goir.c79_reopens`, `Goir.c79_restart`, `Goir.c79_fields`, `Goir.c79_search`, `Goir.c80_ranking_refuted`, `Goir.c80_same_search_partial`, `Goir.c81_indexed`, `Goir.c81_searchable`, `Goir.c81_disk`, `Goir.c81_possible`, `Goir.c82_refuted`, `Goir.c82_numeric_id_refuted`, `Goir.c82_terms_of_values`, `Goir.c82_terms_of_arrays`, `Goir.c83_refuted`, `Goir.c83_never_invents_partial`, `Goir.c83_own_field_partial`, `Goir.c83_disjoint_partial`, `Goir.c86_refuted`, `Goir.c86_one_writer_partial`, `Goir.c87_refuted`, `Goir.c87_one_writer_partial`, `Goir.c87_score_finite_partial`, `Goir.c88_live_search_ends`, `Goir.c89_never_invents`, `Goir.c90_answers_change_refuted`, `Goir.c90_reopens`, `Goir.c90_complete`, `Goir.c91_no_deadlock`, `Goir.c91_bounded`, `Goir.c91_every_schedule`, `Goir.c91_alone`, `Goir.c92_own_field`, `Goir.c93_refuted`, `Goir.c93_own_field_partial`, `Goir.c94_refuted_two_writers`, `Goir.c94_refuted_restart`, `Goir.c94_refuted_reader`, `Goir.c94_own_document_partial`, `Goir.c94_restart_partial`, `Goir.c95_read_only`, `Goir.c96_every_two_saves_race_refuted`, `Goir.c96_two_readers_race_refuted`, `Goir.c96_one_client_refuted`, `Goir.c96_no_saves_partial`, `Goir.c97_live_disk_search_sound`, `Goir.c98_live_disk_search_ends`, `Goir.c99_live_disk_search_finds`, `Goir.c99_after_restart`.

**propext, Quot.sound** (55 theorems): `Goir.c03_stopwords_exact`, `Goir.StemmerMachine.c04_stemmer_schedule_independent`, `Goir.c08_term_frequency`, `Goir.c08_field_length`, `Goir.c10_flatten_keys_partial`, `Goir.c11_getID`, `Goir.c12_set_semantics`, `Goir.c122_wraps`, `Goir.c13_memory_postings_exact`, `Goir.LHeap.c133_pointer`, `Goir.LHeap.c133_get`, `Goir.LHeap.c133_kept`, `Goir.LHeap.c133_panics`, `Goir.LHeap.c133_update_lost_refuted`, `Goir.c14_memory_getFields_latest`, `Goir.c14_memory_getFieldDocumentTest`, `Goir.c15_memory_counters_exact`, `Goir.c16_memory_df_le_size`, `Goir.c17_memory_frame`, `Goir.c18_memory_order_independent`, `Goir.c19_stale_postings_persist`, `Goir.c19_counts_documents_partial`, `Goir.c21_live_view_partial`, `Goir.c21_store_call_partial`, `Goir.c21_change_reaches_the_store_partial`, `Goir.c21_change_is_local_partial`, `Goir.alias_refines`, `Goir.c34_any_size_refuted`, `Goir.c34_counts_are_cut_to_32_bits`, `Goir.c34_fields_are_cut_to_32_bits`, `Goir.c44_listings_exact`, `Goir.c45_sizeLength_roundtrip`, `Goir.c45_numberFieldTerm_roundtrip`, `Goir.c45_fieldMap_roundtrip`, `Goir.c45_index_roundtrip_keys`, `Goir.c45_index_roundtrip`, `Goir.PList.c49_pushFront`, `Goir.PList.c49_remove`, `Goir.PList.c49_back_len_new`, `Goir.PList.c50_concurrent_gets_refuted`, `Goir.PLRU.c50_cache_unbounded_refuted`, `Goir.RCU.c51_rcu_prefix_consistent`, `Goir.RCU.c52_rcu_bounded_progress`, `Goir.SyncMap.c53_syncmap_never_sees_refuted`, `Goir.memory_consistent`, `Goir.c62_unknown_field`, `Goir.c69_none_or_many_partial`, `Goir.c83_refuted_new_term`, `Goir.c83_own_document_partial`, `Goir.c83_known_term_partial`, `Goir.c84_search_races_refuted`, `Goir.c84_one_client_partial`, `Goir.c85_live_search_sound`, `Goir.c85_at_rest`, `Goir.c86_quiet_start_partial`.

**propext** (9 theorems): `Goir.Collection.c109_every_file`, `Goir.c21_snapshot_refuted`, `Goir.c21_not_found_partial`, `Goir.c45_no_nesting`, `Goir.LRU.c48_capacity_zero_panics_refuted`, `Goir.PLRU.c50_put_panics_refuted`, `Goir.c83_refuted_field`, `Goir.c84_every_two_calls_race_refuted`, `Goir.c84_search_quiet_partial`.

**none** (2 theorems): `Goir.c19_resave_replaces_refuted`, `Goir.SyncMap.c53_writer_would_lose_updates_refuted`.

## 8. Status of each property

| prop | title | status | theorems | note |
|---|---|---|---|---|
| C01 | Tokens are exactly the maximal alphanumeric runs | proved | `c01_tokens_are_maximal_runs`, `c01_tokens_content` |  |
| C02 | Tokenizing distributes over separated concatenation | proved | `c02_tokenize_distributes` |  |
| C03 | Stop-word filter keeps exactly the non-stop words, in order | proved | `c03_stopwords_exact` |  |
| C04 | Concurrent stemming is position-preserving and schedule-independent | proved | `c04_stemmer_schedule_independent` |  |
| C05 | Preprocessing is a per-token function of the text | proved | `c05_preprocessing_per_token`, `c05_preprocessing_distributes`, `c05_preprocessing_case_insensitive`, `c05_preprocessing_ignores_case` |  |
| C06 | Preprocessing never emits a stop word | partial | `c06_no_stopword_emitted_refuted`, `c06_emitted_terms_partial` | False of the code: the stemmer runs after the stop-word filter and can produce a stop word. Refuted with a witness; the true part (what is emitted) is the _partial theorem. |
| C07 | Filters do not modify the caller's token slice | partial | `c07_lowercase_mutates_refuted`, `c07_lowercase_in_place`, `c07_other_filters_pure_partial` | False of the code: the lower-case filter writes into the caller's slice. The other filters are proved pure. |
| C08 | TermFrequency counts occurrences and adds up to the token count | proved | `c08_term_frequency`, `c08_field_length` |  |
| C09 | Flatten maps every leaf to its dotted path and nothing else | proved | `c09_flatten_exact`, `c09_flatten_order_independent` | For objects whose flattened paths do not clash (PlainKeys); the clash case is C10. |
| C10 | Flatten is determined by its input for every JSON object | partial | `c10_flatten_keys_partial`, `c10_flatten_deterministic_refuted` | False of the code: keys containing dots clash and the winner depends on map order. The key set is proved determined. |
| C100 | A search of the running server tells only of what was posted | proved | `c100_asked`, `c100_server_search_sound`, `c100_document`, `c100_sorted`, `c100_sorted_float64` | The whole program of main.go without gin and JSON. Sortedness is over the reals, and in float64 unless a score is NaN (C87). Map accesses are atomic in the model; the abort of the Go runtime on concurrent map writes (C96) ends the process as a kill does, which these runs contain at every point. |
| C101 | Every search of the running server ends | proved | `c101_server_search_ends`, `c101_fair` | The saved frequency maps have distinct keys (GoValues), as every Go map has. Map accesses are atomic in the model. |
| C102 | A search of the running server finds a stored document that nobody saves | proved | `c102_server_search_finds`, `c102_get` | c102_get is the same for the GET handler, with C69's panic for fewer than ten hits. Map accesses are atomic in the model. |
| C103 | Searches do not disturb each other | proved | `c103_asked`, `c103_returns`, `c103_get`, `c103_get_float64`, `c103_searches_do_not_interfere`, `c103_agree` | The agreement of two searches of any number of queries is over the reals (in floats the order of three or more addends can differ, C61); for those of GET /nir it is in float64 (c103_get_float64). Map accesses are atomic in the model; two searches do race on the list of pages of the cache (C96). |
| C104 | Rounding changes scores by little, and the ranking only among nearly equal documents | proved | `c104_memory`, `c104_error`, `c104_order`, `c104_two_runs` | Each operation rounds to 53 bits, ties to even, with an unbounded exponent; math.Log is taken to be correctly rounded. |
| C105 | The collection file gives back the documents | proved | `c105_round_trip` | The documents are those of the feed (C123). The file is bytes, UTF-8; encoding/json is modelled as Go documents it. |
| C106 | A cut or failed write of the collection file costs only the documents cut | partial | `c106_crash`, `c106_last_write_fails`, `c106_refuted`, `c106_no_newline_refuted` | Proved for a crash at every byte and for a failure of the last write. Refuted for a failed write in the middle: the error is only printed, the next document is written on the same line, and GetDocuments panics, losing everything. |
| C107 | StringToObject gives the object of the text | proved | `c107_object`, `c107_values`, `c107_inner_object`, `c107_null`, `c107_panic`, `c107_depth` | For every text of the grammar of RFC 8259 (Spec/Json); bytes that are no UTF-8 count as U+FFFD (Spec/Utf8). Which numbers ParseFloat accepts is a parameter (C121 for what they are). |
| C108 | The collection, from file to search | proved | `c108_collection_searchable`, `c108_disk`, `c108_bad_line` | On disk between two calls and with a cache large enough (see C26, C27 for what happens otherwise). |
| C109 | GetDocuments accepts exactly the files of JSON documents | proved | `c109_get_documents`, `c109_every_file` | Every file (c109_every_file): bytes that are no UTF-8 count as U+FFFD (Spec/Utf8). |
| C11 | GetID returns the document's own Id | proved | `c11_getID`, `c11_getID_flatten` |  |
| C110 | POST /nir indexes the documents of its body | partial | `c110_post`, `c110_searchable`, `c110_unique`, `c110_rest_refuted` | Proved with one correction: the body needs only to begin with the object. Refuted: gin's decoder ignores what follows it, so a second document in the same body is dropped and the answer is still 201. On a Memory store. |
| C111 | The bytes of the storage files give back the data | proved | `c111_counts_bytes`, `c111_fields_bytes`, `c111_index_bytes`, `c111_metrics_bytes`, `c111_counts_fit`, `c111_fields_fit`, `c111_index_fit`, `c111_metrics_fit`, `c111_counts_panic`, `c111_fields_panic`, `c111_index_panic`, `c111_any_size_refuted`, `c111_short_file` | The FlatBuffers runtime is modelled from its published source (v23.5.26), which is not in the sandbox. c111_any_size_refuted: a map too large for the buffer makes the serializer panic. |
| C112 | Scores are finite float64 numbers close to the exact ones | proved | `c112_memory`, `c112_error`, `c112_order`, `c112_two_runs`, `c112_huge_boost_refuted`, `c112_rounding`, `c112_special_values` | For every choice of the compiler to fuse a multiplication with an addition or not. c112_huge_boost_refuted shows that the bound on the boost is needed: 2^1023 gives NaN on three documents. |
| C113 | Any file of JSON objects, from its bytes to a search | proved | `c113_searchable`, `c113_disk`, `c113_string` | Keys without dots and not empty (C09 for what happens otherwise). Which number literals fit a float64 and how fmt prints them are parameters (C121 for what they are); what is printed for every other value is modelled (C82). |
| C114 | The answers of the server, as bytes a client reads | proved | `c114_answer`, `c114_unique`, `c114_memory`, `c114_disk`, `c114_post` | How strconv prints a float64 (any JSON number) is a parameter (C120 for what it is), as are the text of the duration and gin's error message. gin 1.9.1 and encoding/json are modelled as documented, not from source in the sandbox. c114_answer covers every number of hits, including the panic of C69. |
| C115 | The query that is searched is the one the client encoded | proved | `c115_query`, `c115_total` | net/url's ParseQuery on bytes; c115_total: every query string asks for exactly one text. Bytes that are no UTF-8 count as U+FFFD. |
| C116 | What a client is told while others write | proved | `c116_live` | C100 composed with C110, C114 and C115 on the model of the server whose clients run side by side. Soundness only: what the client gets it wanted; that a search during saves may miss documents is C86, and when it must find them C102. The order and the choice of the ten are those of the scores, see C100 and C114. |
| C117 | What CompressData writes DecompressData gives back, and nothing else passes | proved | `c117_reads`, `c117_panics`, `c117_one_content`, `c117_round_trip`, `c117_injective`, `c117_truncated`, `c117_appended` | gzip.Reader, compress/flate's decoder and hash/crc32 are modelled as documented (their source is not in the sandbox); the model was compared with Python's zlib on thousands of files. The compressor is a relation: any sequence of stored, fixed and dynamic blocks that RFC 1951 allows (written_exists: there is one for all data); that Go's compressor emits such a sequence is assumed. |
| C118 | The Disk store keeps its promises on the bytes of its files | proved | `c118_refines`, `c118_never_invents`, `c118_own_field`, `c118_restart`, `c118_reopens`, `c118_own_document`, `c118_read_only`, `c118_restart_document`, `c118_restart_numbers`, `c118_no_deadlock`, `c118_ends`, `c118_every_schedule`, `c118_alone`, `namesLeft_of_few`, `c118_every_cut_fragment_refuted`, `c118_torn_fragment_refuted` | The gzip reader (C117) and FlatBuffers (C111) are the modelled ones, the compressor is any function whose result is a gzip file of its argument. MkdirAll is one step, directories are listed in the order in which they were made. The names are plain (C42 to C44 for the others). Progress (c118_no_deadlock and the three after it) supposes that in every folder a uuid is left (which is so while there are fewer than 2^36 files: namesLeft_of_few), and stops at data too large for a serializer (TooBig, C111). The two theorems named refuted are the counterpart of C71: a fragment cut short makes the folder unopenable for ever. |
| C119 | The whole program keeps its promises on the bytes of its files | proved | `c119_refines`, `c119_no_panic`, `c119_asked`, `c119_finds`, `c119_ends`, `c119_live` | C100, C101, C102 and C116 carried over to the server on bytes by a forward simulation (and, for progress, a backward one of single steps). The names are plain (C42 to C44 for the others), clients only make the calls of the handlers, MkdirAll is one step, the compressor is any function whose result is a gzip file of its argument. Map accesses are atomic in the model; the abort of the Go runtime on concurrent map writes (C96) ends the process as a kill does, which these runs contain at every point. |
| C12 | Set behaves as a mathematical set | proved | `c12_set_semantics` |  |
| C120 | Scores are printed exactly | proved | `c120_exact`, `c120_read_back`, `c120_order`, `c120_answer` | strconv is modelled as documented: correct rounding, and any shortest digits that are read back as the same float64 (Ryu and Eisel-Lemire are not modelled; Nonempty Digits: there are such digits for every float64). The layout of the digits in the formats e, f and of encoding/json is modelled. Denotes (Spec/Decimal) is the number a literal of RFC 8259 stands for. |
| C121 | What is indexed for a number in a document | proved | `c121_accepted`, `c121_printed`, `c121_same`, `c121_integers`, `c121_searchable`, `c121_same_id`, `c121_million_refuted`, `c121_ids_clash_refuted`, `c121_collision_refuted`, `c121_long_refuted` | The theorems named refuted are the limits that the statement names. For literals of at most 9000 characters; c121_long_refuted is a longer one. strconv as for C120; fmt's verb v is strconv's format g with the threshold 6 of precision -1. |
| C122 | Counters that exceed Go's int | proved | `c122_wraps`, `c122_exact`, `c122_served`, `c122_refuted` | Memory store. c122_refuted is the negative length that the statement names. Cutting to 32 bits when a Disk store writes its files does not notice the wrapping (toInt32_wrap64); C34 for that. |
| C123 | From the feed to the collection and to a search | proved | `c123_file`, `c123_other`, `c123_searchable`, `c123_authors_refuted` | The feed is a tree of elements and texts: how encoding/xml reads its text is not modelled. Links and attributes are left out, nothing reads them. c123_authors_refuted is the last sentence of the statement. |
| C124 | When file operations fail | proved | `c124_refines`, `c124_never_invents`, `c124_own_field`, `c124_restart`, `c124_reopens`, `c124_stops`, `c124_rename_refuted`, `c124_read_refuted` | The theorems named refuted are the losses that the last sentences of the statement name. A write that fails has written any number of its bytes; a rename or removal that fails has changed nothing. Errors of the four writers, of MkdirAll and of ReadDir end the process, as log.Fatal does in the code. |
| C125 | A search ranks by BM25 of the texts that were put in | proved | `c125_search`, `c125_memory`, `c125_disk` | Spec/Corpus is BM25 of a collection of texts, without index or counters. c125_search is for every store that reads like a memory store that got the saves. That a text must be put in only once is C19; what restarts do to the counters of a Disk store is C32 and C80. |
| C126 | From the bytes of the requests to the bytes of the ranking | proved | `c126_memory`, `c126_disk`, `accepts_total` | C110, C112, C114, C115, C120 and C125 composed. c126_disk: the calls are those of the requests one after the other; for requests side by side see C116 and C119. accepts_total: every sequence of bodies carries some sequence of documents. |
| C127 | A busy server ranks by BM25 of what was put in | proved | `c127_live`, `c127_http`, `c127_bytes`, `c127_http_bytes` | C125 and C126 for the concurrent server: Model/Server with the clients and goroutines of Model/ConcurrentDisk; the last two for the server whose files are bytes (Model/ServerBytes, names as in C118). Two clients on one field can lose counts (C90), two on one document can lose a field (C94), and a search that runs during a save can make it stale in the cache (c94_refuted_reader); the hypotheses rule out just these. |
| C128 | Opening any folder: exactly what its files say, or no store | proved | `c128_documents`, `c128_numbers`, `c128_folder_after`, `c128_damage_is_noticed`, `c128_all_read`, `c128_opens`, `c128_fields`, `c128_documents_stay`, `renamed_loses_sizes` | Model/DiskBytes from an arbitrary file system. Spec/Opening says what the files say: gzip as in Spec/Gzip, FlatBuffers by the modelled reader (C111). Assumed of the tree: no name twice, the names are names, and the folder is a directory. renamed_loses_sizes is the last sentence. When several metrics files name one field, the size and length are those of one of them. |
| C129 | Searches on any folder, and replicas | proved | `c129_search`, `c129_returns`, `c129_no_damage`, `c129_no_panic`, `c129_ends`, `c129_replicas`, `c129_replicas_one` | Model/ServerBytes from a folder with any contents (C128). Spec/FolderSearch says which store the answers come from. Ids that are not names of files (they contain a slash, or are . or ..) are outside c129_search and excluded by hypothesis in c129_returns, c129_no_panic and c129_ends. c129_replicas needs that the metrics files do not contradict each other (OneMetrics): the code takes one of them. Cases in Props/FolderServerCases. |
| C13 | Memory: postings are exactly the saved terms | proved | `c13_memory_postings_exact` |  |
| C130 | Reading a store cannot lose anything, even when the process is killed | partial | `c130_reading_loses_field_refuted`, `c130_kept_partial`, `c130_reopened_partial`, `c130_search_partial`, `c130_nothing_new`, `c130_untouched`, `c130_numbers` | FALSE of the code as stated; c130_reading_loses_field_refuted is the refutation: a folder that is only opened, one kill, and a field is gone from every file. Proved: c130_kept_partial and c130_reopened_partial under the hypothesis, stated about files only, that no process ends while an index file is missing that was there before (NoneMissing, AllThere); c130_nothing_new, c130_untouched and c130_numbers without it. Cases in Props/OpeningKillCases, among them a kill in the middle of the new index file. |
| C131 | Several processes can read one folder at the same time | partial | `c131_two_readers_lose_field_refuted`, `c131_opening_fails_refuted`, `c131_shared_partial`, `c131_answers_partial`, `c131_fields_partial`, `c131_untouched_partial`, `c131_search_partial`, `c131_agree_partial`, `c131_no_panic_partial`, `c131_progress_partial`, `c131_returns_partial` | FALSE of the code as stated; two refutations, both computed in the kernel on the bytes: two readers that lose a field without a kill or an error, and a process that does not open. Proved under InTurn (no two processes merge at the same time) and NoneMissing (whenever none merges, every index file is there that was there before), both stated about the states of the run. Props/SharedCases shows a run with two processes, a kill in the middle of a file and overlapping lives that meets both. The searches (Model/Replicas, with the whole search of Model/ServerBytes at every instance): under the same two conditions, stated again about the states of the run, every search returned at any instance is the BM25 ranking of what the folder said at first, and two searches with the same queries agree; if the listed documents are undamaged no search ends an instance, a search that has not returned can always make its next step, and in a run without end it makes finitely many steps however the other instances go on, so it returns unless it waits for ever; Props/ReplicasCases is a run with two instances, the first of which returns a document while the second opens the folder. |
| C132 | A backup of a store in use is a copy of the store | partial | `c132_index_first_refuted`, `c132_snapshot_refuted`, `c132_copy_partial`, `c132_nothing_new_partial`, `c132_untouched_partial`, `c132_tree`, `c132_numbers_partial`, `c132_opened_partial`, `c132_search_partial` | FALSE of the code as stated; two refutations, both computed in the kernel on the bytes: a copy in the order of the names loses the posting of a fragment, and a snapshot between the two renames loses a field. Spec/Backup says what a copy is: at every path it has what the folder had at the moment at which that path was copied. Proved under InTurn and NoneMissing (of C131), for every assignment of moments to paths: nothing new is in the copy, and with the fragments of a field before its index file and no index file missing it says exactly what the folder said. Simplified: the content of one file is that of one moment. Props/BackupCases has a copy with an old fragment and a new index that meets all hypotheses. |
| C133 | A pointer from LocalMap.Get is a variable of its own | proved | `c133_pointer`, `c133_get`, `c133_kept`, `c133_other_keys`, `c133_panics`, `c133_live`, `c133_update_lost_refuted` | Spec/LocalMap says in terms of the history which Set a pointer comes from. A write through a pointer is one step (the value type may be large: a torn write is outside the model). c133_update_lost_refuted is the limit that the statement names. |
| C14 | Memory: GetFields returns the latest saved field of each requested document | proved | `c14_memory_getFields_latest`, `c14_memory_getFieldDocumentTest` |  |
| C15 | Memory: counters count calls exactly | proved | `c15_memory_counters_exact` |  |
| C16 | Memory: document frequency never exceeds the collection size | proved | `c16_memory_df_le_size` |  |
| C17 | Memory: saving one field leaves all others alone | proved | `c17_memory_frame` |  |
| C18 | Memory: save order does not matter for distinct (document, field) pairs | proved | `c18_memory_order_independent` |  |
| C19 | Re-saving a document replaces its previous version | partial | `c19_resave_replaces_refuted`, `c19_stale_postings_persist`, `c19_counts_documents_partial` | False of the code: re-saving leaves stale postings and counts twice. Counting is proved for histories that save each pair once. |
| C20 | IndexDocument makes a document's every field searchable | proved | `c20_indexDocument_searchable` |  |
| C21 | GetDocuments returns a snapshot | partial | `c21_snapshot_refuted`, `c21_live_view_partial`, `c21_store_call_partial`, `c21_change_reaches_the_store_partial`, `c21_change_is_local_partial`, `c21_not_found_partial`, `alias_refines` | False of the code: the returned struct shares the live map. Proved: it is a live view, what each call does to it, and that changing it reaches its own field and term only. |
| C22 | Disk answers like Memory while it runs | proved | `c22_disk_like_memory`, `c22_getFields_like_memory`, `disk_answers` | Between two calls of one client; the stored fields as long as the cache holds all documents saved. |
| C23 | UpdateIndex means the same in every Storage implementation | partial | `c23_updateIndex_differs`, `c23_difference_partial` | False of the code: UpdateIndex counts size and length on a Memory store only. Proved: everything else agrees, and exactly how the two counters differ. |
| C24 | Disk: GetFields returns the latest saved field when nothing was evicted | proved | `c24_latest_field_when_nothing_is_evicted` |  |
| C25 | Disk: GetFields never invents a field | proved | `c25_found_was_saved`, `c25_getFields_never_invents`, `c25_store_never_invents` | One iteration in any reachable state, the whole call, and the whole store. |
| C26 | Disk: GetFields returns the latest saved field in spite of eviction | partial | `c26_refuted_missing`, `c26_refuted_stale`, `c26_latest_up_to_32_bits_partial`, `c26_latest_when_orderly_partial` | False of the code: a document evicted before its flush is not found, or an older version is reloaded and stays. Proved for runs in which documents leave the cache only after they were written and only cached or new documents are saved. |
| C27 | Disk: saving one field keeps the document's other fields | partial | `c27_refuted`, `c27_refuted_permanent`, `c27_other_fields_stay_partial` | False of the code: a save of an uncached document starts from an empty map, so after a restart or eviction its other fields are lost, also on disk. Proved for orderly runs. |
| C28 | Flushed postings survive crashes | proved | `c28_flushed_postings_survive`, `c28_on_disk_postings_survive`, `sfile_view` | Killed anywhere outside the two renames. Says nothing if the folder cannot be opened any more (C71). |
| C29 | Reopening never invents postings | proved | `c29_never_invents`, `c29_store_never_invents` | The posting index alone, and the whole store. |
| C30 | Clean restart preserves the index | proved | `c30_clean_restart` | Existence of the reopened store and equality of all answers, including the found flag. |
| C31 | Clean restart preserves field sizes and lengths | proved | `c31_clean_restart` |  |
| C32 | Clean restart preserves document frequencies | partial | `c32_restart_refuted`, `c32_same_or_reset_partial`, `c32_exact_partial` | False of the code: a flush overwrites the file with the terms received since the flush before. Proved: exactly which frequencies survive. |
| C33 | Clean restart preserves stored documents | proved | `c33_documents_survive_restart`, `c33_fresh_store_survives_restart` |  |
| C34 | Counters of any size survive a restart | partial | `c34_any_size_refuted`, `c34_counts_are_cut_to_32_bits`, `c34_fields_are_cut_to_32_bits`, `c34_survives_iff_fits_partial`, `c34_sizes_after_restart` | False of the code: counts are cut to int32. Proved: exactly what comes back for every map, and that a map survives iff every count fits in 32 bits. |
| C35 | Merging fragments loses nothing and is idempotent | proved | `c35_open_returns_union`, `c35_idempotent`, `c35_merge_loses_nothing`, `c35_merge_exact` |  |
| C36 | The background merge never reads a half-written fragment | partial | `c36_merge_reads_torn_refuted`, `c36_no_panic_partial` | False of the code: the merge can read a fragment the writer has not finished. Proved: that is the only way a merge step can fail. |
| C37 | Document frequency never exceeds collection size after a crash | partial | `c37_df_above_size`, `c37_df_le_size_partial` | False of the code: sizes and frequencies are flushed by different timers. Proved for every history in which the metrics writer has written everything when a process ends (the frequency writer may be anywhere). |
| C38 | SecureSaveFile installs the new content and nothing else | proved | `c38_secureSave_installs` |  |
| C39 | SecureSaveFile never loses both versions | proved | `c39_secureSave_never_loses_both` | Crash = process death; no power loss. |
| C40 | A crash in SecureSaveFile leaves the file readable under its name | partial | `c40_readable_refuted`, `c40_outside_window_partial` | False of the code: between the two renames the name does not exist. Proved for every other crash point. |
| C41 | Reopening after a crash in SecureSaveFile does not lose the index | partial | `c41_window_loses_index_refuted`, `c41_outside_window_partial`, `c41_fragments_partial` | False of the code between the two renames; proved everywhere else, and for fragments also there. |
| C42 | Saving one document's file never touches another document's file | partial | `c42_other_documents_refuted`, `c42_lost_document_refuted`, `c42_other_documents_partial` | False of the code for ids d and d_old or d_temp; proved for all other pairs of plain ids. |
| C43 | Document ids are confined to the document folder and stored separately | partial | `c43_ids_confined_refuted`, `c43_one_document_ruins_the_folder_refuted`, `c43_ids_confined_partial` | False of the code for ids with slashes or dots: one document with the id ../../title/index makes the folder unopenable; proved for ids that are single path components. |
| C44 | Every field name can be stored and loaded again | partial | `c44_field_names_refuted`, `c44_slash_refuted`, `c44_field_names_partial`, `c44_listings_exact` | False of the code for the field name docs and names with slashes; proved for plain names. |
| C45 | Serialize then Deserialize is the identity | proved | `c45_no_nesting`, `c45_sizeLength_roundtrip`, `c45_numberFieldTerm_roundtrip`, `c45_fieldMap_roundtrip`, `c45_index_roundtrip_keys`, `c45_index_roundtrip` | At the level of objects and slots; C111 proves it of the bytes. |
| C46 | LRU cache never exceeds its capacity and never duplicates keys | proved | `c46_lru_bounded`, `c49_lru_on_pointers` | Also over the pointers of container/list. |
| C47 | LRU Get returns the latest Put value, evicting only the least recently used | proved | `c47_lru_recency`, `c49_lru_on_pointers` | Also over the pointers of container/list. |
| C48 | LRU accepts every capacity | partial | `c48_capacity_zero_panics_refuted`, `c48_positive_capacity_partial` | False of the code: capacity 0 panics on the first Put. Positive capacities are proved safe. |
| C49 | The LRU's linked list implements a recency list | proved | `c49_moveToFront`, `c49_pushFront`, `c49_remove`, `c49_back_len_new`, `c49_cache_refines`, `c49_lru_on_pointers` | The list operations on pointers; the whole cache over those pointers answers every sequence of calls as the cache over a sequence does, so C46 and C47 hold of the pointers. |
| C50 | Concurrent Gets on the LRU are safe | partial | `c50_concurrent_gets_refuted`, `c50_put_panics_refuted`, `c50_cache_unbounded_refuted`, `c50_gets_safe_partial`, `c50_serial_gets_partial` | False of the code: Get moves list elements under a read lock. Two concurrent Gets of one key break the list; a client then sees the next Put panic, or a cache of capacity 2 that never evicts again and holds any number of keys. Proved for Gets that do not overlap (same result as in turn) and for Gets that all hit the front. |
| C51 | RCU Get only returns values that were Put, newest published last | proved | `c51_rcu_prefix_consistent` |  |
| C52 | RCU bounds its queue and never blocks forever | proved | `c52_rcu_bounded_progress` |  |
| C53 | SyncMap Get eventually sees a Put | partial | `c53_syncmap_never_sees_refuted`, `c53_writer_would_lose_updates_refuted` | False of the code: no goroutine drains the channel, so a Put never becomes visible. Fully refuted. |
| C54 | Shard.Get always finds a shard | partial | `c54_shard_get_total`, `c54_32bit_panics_refuted` | Proved where int is 64 bits; false where int is 32 bits (negative remainder), refuted with a witness. |
| C55 | Shard used with one key is a map | proved | `c55_shard_is_a_map` |  |
| C56 | Shards of distinct names are isolated | partial | `c56_shards_isolated_refuted`, `c56_different_residues_isolated_partial` | False of the code: names whose checksums agree modulo the shard count share a shard. Isolation is proved for different residues. |
| C57 | Index.Search terminates for every schedule | proved | `c57_bounded`, `c57_no_deadlock`, `index_search_returns` | Every schedule ends within an explicit number of steps, and no reachable state is stuck. The store does not change during the search. |
| C58 | Index.Search returns exactly the matching documents, whatever the schedule | proved | `c58_exact`, `c58_schedule_independent`, `memory_consistent` | The store does not change during the search. |
| C59 | Standard.Search ranks each matching document once, best first | proved | `c59_bounded`, `c59_no_deadlock`, `c59_result`, `c59_every_order`, `c59_ranking`, `c59_ranking_rounded`, `c59_ranking_float64`, `search_returns` | Sorted over exact reals, with rounding, and in float64 unless a score is NaN (C68); which documents are listed, and each score as a sum in some order of the queries, over any kind of number. |
| C60 | End-to-end retrieval is sound and complete | proved | `c60_sound_complete` | Over a Memory store filled by SaveOrUpdate. |
| C61 | Scores do not depend on goroutine timing | partial | `c61_refuted`, `c61_iff`, `c61_real`, `c61_two_queries_partial`, `c61_two_queries_rounded`, `c61_float64_refuted`, `c61_two_queries_float64` | False of the code in float64 (and with rounding to 53 bits) with three queries. Proved: it holds exactly if the scores have the same sum in every order; over exact reals; and in float64, NaN and infinities included, for at most two queries (all that GET /nir makes). |
| C62 | Searching an unknown field or with no terms returns nothing | proved | `c62_harmless`, `c62_unknown_field` |  |
| C63 | IDF is positive and decreases with document frequency | proved | `c63_idf_formula`, `c63_idf_positive`, `c63_idf_decreases`, `c63_idf_increases`, `c63_idf_rounded_nonneg`, `c63_idf_rounded_decreases`, `c63_idf_rounded_increases` | Over exact reals; and, with weak inequalities, with rounding to 53 bits. |
| C64 | BM25 is non-negative and zero exactly for non-matching documents | proved | `c64_bm25_formula`, `c64_nonneg`, `c64_zero_iff`, `c64_rounded_nonneg`, `c64_float64` | Over exact reals; in float64 (c64_float64) for the scale of C112. |
| C65 | BM25 rewards frequency, penalises length and saturates | proved | `c65_frequency`, `c65_length`, `c65_saturates`, `c65_float64` | Over exact reals; in float64 up to the rounding errors of C112. |
| C66 | Boost scales the score, and 0 means 1 | proved | `c66_boost_scales`, `c66_boost_zero`, `c66_boost_zero_float64` | Over exact reals; that 0 means 1 also in float64. |
| C67 | BM25 is a sum over query terms | proved | `c67_append`, `c67_order`, `c67_repeat` | Over exact reals. |
| C68 | Scores are never NaN | partial | `c68_finite_refuted`, `c68_finite_partial`, `c68_special_values`, `c68_http_finite`, `c68_float64_refuted` | False of the code when saved fields have length 0. Proved when fields with terms have positive lengths, as POST /nir makes them; over reals with infinities and NaN, no rounding or overflow. |
| C69 | GET /nir returns the best results for any number of hits | partial | `c69_any_number_of_hits_refuted`, `c69_panics_refuted`, `c69_none_or_many_partial`, `c69_best_partial` | False of the code for 1 to 9 hits (the handler panics, exactly then). Proved for 0 and for 10 or more. |
| C70 | POST /nir indexes exactly the three fields or nothing | proved | `c70_rejected`, `c70_indexes_three_fields`, `c70_searchable` | Over a Memory store. |
| C71 | A crash never makes the folder unopenable | partial | `c71_reopen_after_crash_refuted`, `c71_every_cut_fragment_refuted`, `c71_reopen_partial` | False of the code: a fragment cut short by a crash makes every later open panic (c71_every_cut_fragment_refuted: after every history). Proved when the writer is not inside a fragment write. |
| C72 | After a crash, a field's size and length are from the same moment | proved | `c72_counters_always_load`, `c72_size_and_length_of_one_moment` |  |
| C73 | Flushed sizes and lengths never fall | partial | `c73_window_resets_metrics_refuted`, `c73_flushed_metrics_never_fall_partial` | False of the code if killed between the two renames; proved for every other crash point (totals below 2^31). |
| C74 | Stop word tables | proved | `c74_languages`, `c74_tables`, `c74_stopwords_plain`, `c74_any_case_removed`, `c74_accented_kept` |  |
| C75 | Flushing a document does not race with saving it | partial | `c75_refuted`, `c75_commute_partial` | False of the code. Proved: a save and the flush of another document commute. |
| C76 | Document reads, saves and flushes never panic | proved | `c76_documents_never_panic`, `c76_no_cache_panics` | cacheSize 0 is shown to panic at the first save. |
| C77 | Every call on a Disk store completes | proved | `c77_no_deadlock`, `c77_bounded`, `c77_every_schedule`, `c77_call_completes` | One client; the merger and the tickers may stay silent. |
| C78 | Searching a Disk store gives what searching a Memory store gives | proved | `c78_search_like_memory`, `c78_sound_complete`, `c78_http` | The store answers a search from the state between two calls; disk_answers_stable shows that nothing the background goroutines or GetFields do changes an answer. |
| C79 | A clean restart keeps the store | proved | `c79_reopens`, `c79_restart`, `c79_fields`, `c79_search` | Document frequencies are C32. |
| C80 | A clean restart keeps the ranking | partial | `c80_ranking_refuted`, `c80_same_search_partial` | False of the code, because of C32. Proved for queries whose document frequencies survive. |
| C81 | Indexing a JSON document makes every value findable by its dotted path | proved | `c81_indexed`, `c81_searchable`, `c81_disk`, `c81_possible` | A document is the object that json.Unmarshal decodes to; C107 and C113 add the JSON text. |
| C82 | A JSON number, boolean or null adds only the terms of its own text | partial | `c82_refuted`, `c82_numeric_id_refuted`, `c82_terms_of_values`, `c82_terms_of_arrays` | False of the code: fmt.Sprintf with %s prints an error text for values that are not strings. Proved: exactly which terms each kind of value gets. |
| C83 | Concurrent calls behave like the same calls one after the other | partial | `c83_refuted`, `c83_refuted_field`, `c83_refuted_new_term`, `c83_never_invents_partial`, `c83_own_field_partial`, `c83_own_document_partial`, `c83_disjoint_partial`, `c83_known_term_partial` | False of the code: there is no lock, so postings, fields and counts are lost. Proved for every interleaving: nothing is invented and no counter is too high; exact answers for fields and documents that one client owns; no posting is lost for a term the index already has. |
| C84 | Concurrent calls do not race | partial | `c84_every_two_calls_race_refuted`, `c84_search_races_refuted`, `c84_one_client_partial`, `c84_search_quiet_partial` | False of the code for any two clients that have calls to make, and for any client and any search. Proved: no race while one client makes all calls, or between a search and clients that are not inside a call. |
| C85 | A search during saves returns only what was saved | proved | `c85_live_search_sound`, `c85_at_rest` | Every interleaving of the goroutines of a search with any clients. |
| C86 | A search during saves returns what was saved before it | partial | `c86_refuted`, `c86_quiet_start_partial`, `c86_one_writer_partial` | False of the code with two writers: the map of postings that a search reads can be replaced by an empty one. Proved if no call on the field or document is in progress when the search begins (any clients may save during it), and if the field and the document have one writer each (any interleaving). |
| C87 | The numbers of a search during saves fit together | partial | `c87_refuted`, `c87_one_writer_partial`, `c87_score_finite_partial` | False of the code with one writer: a search can find a document in a field whose size it read as 0, and scores it NaN. Proved for a field with one writer: every number lies between those before and after the search; and scores are finite if something had been saved before. |
| C88 | A search ends, also during saves | proved | `c88_live_search_ends` | Some goroutine of the search can always step, and no run is infinite. |
| C89 | Concurrent calls on a Disk store never invent anything | proved | `c89_never_invents` | Every interleaving, crash point and restart. Map accesses are atomic in the model; the abort of the Go runtime on concurrent map writes (C84) ends the process as a kill does, which these runs contain at every point. |
| C90 | A clean restart keeps the postings that concurrent clients saved | partial | `c90_answers_change_refuted`, `c90_reopens`, `c90_complete` | False of the code: a posting that a concurrent call lost in memory is on disk, so GetDocuments answers differently after a clean restart. Proved: the folder opens, every posting of a returned call and every posting listed before is listed after, and nothing is invented. |
| C91 | Every call of every client of a Disk store completes | proved | `c91_no_deadlock`, `c91_bounded`, `c91_every_schedule`, `c91_alone` | Map accesses are atomic in the model; the abort of the Go runtime on concurrent map writes (C84) is not modelled. |
| C92 | A field that one client saves is exact on a Disk store | proved | `c92_own_field` | The clients' other calls, and the other clients, may be on any other fields, of the same documents too. Map accesses are atomic in the model; the abort of the Go runtime on concurrent map writes (C84) ends the process as a kill does, which these runs contain at every point. |
| C93 | A clean restart keeps the sizes and lengths that concurrent clients counted | partial | `c93_refuted`, `c93_own_field_partial` | False of the code: size and length are read, then sent, and the older of two messages can be received last. Proved for a field that one client saves in this process. |
| C94 | GetFields on a Disk store with several clients returns what was saved last | partial | `c94_refuted_two_writers`, `c94_refuted_restart`, `c94_refuted_reader`, `c94_own_document_partial`, `c94_restart_partial` | False of the code: two clients that save two fields of one document lose one of them; a clean restart can swap which; and a client that only reads can undo a save. Proved for a document that one client saves and reads, if the cache has room for all documents in use: during the process and after a restart. |
| C95 | All readers of a document that nobody saves agree, for ever | proved | `c95_read_only` | Map accesses are atomic in the model; the abort of the Go runtime on concurrent map writes (C84) ends the process as a kill does, which these runs contain at every point. |
| C96 | The goroutines of a Disk store do not race | partial | `c96_every_two_saves_race_refuted`, `c96_two_readers_race_refuted`, `c96_one_client_refuted`, `c96_no_saves_partial` | False of the code for any two clients about to save, for any two clients about to read different cached documents, and even for one client alone (with the writer of the documents). Proved: no race if nobody saves, indexed fields are known and have one writer each, and at most one client reads. |
| C97 | A search of a live Disk store returns only what was saved | proved | `c97_live_disk_search_sound` | What main.go runs. Map accesses are atomic in the model; the abort of the Go runtime on concurrent map writes (C96) ends the process as a kill does, which these runs contain at every point. |
| C98 | A search of a live Disk store ends | proved | `c98_live_disk_search_ends` | The saved frequency maps have distinct keys (GoValues), as every Go map has. Map accesses are atomic in the model. |
| C99 | A search of a live Disk store finds the documents that nobody is saving | proved | `c99_live_disk_search_finds`, `c99_after_restart` | c99_after_restart composes C90, C94 and C99 over a restart. A search that begins later is a run whose first steps are the clients'. Map accesses are atomic in the model. |
