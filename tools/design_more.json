{
 "models": [
  "| `Model/DiskSearch` | the answers of a disk store to a search (`index.NewIndex(store)`, main.go:117-123); every answer is that of the state the search starts in (`disk_answers_stable` justifies this) |",
  "| `Model/Ingest` | indexing JSON documents (`mainxcrt`, main.go:230-267) with fmt's `%s` for each kind of JSON value; the text of nested arrays of objects is left open (`json.Unmarshal` is in `Model/Json` and `Model/Collection`) |",
  "| `Model/Concurrent` | any number of clients calling SaveOrUpdate and UpdateIndex of one Memory store, one Go map access per step, nested maps and sets as heap cells behind references (storage/Memory.go:15-36, 96-120). Each access is atomic, in favour of the code |",
  "| `Model/LiveSearch` | InvertedIndex.Search on a Memory store that any number of clients write to at the same time: every map access of its goroutines is a step, a `range` over a set that is being added to visits what was there and any of the rest (index/InvertedIndex.go:35-121, storage/Memory.go:48-94) |",
  "| `Model/ConcurrentDisk` | any number of clients calling SaveOrUpdate, UpdateIndex and GetFields of one Disk store, one map access, cache call, message or file read per step, with the four writers, the merge goroutine, crashes and openings (storage/DiskStorage.go:34-228, storage/DiskIO.go). A map access and a call on the cache are atomic, in favour of the code |",
  "| `Model/LiveDisk` | InvertedIndex.Search on a Disk store that any number of clients use at the same time, as main.go runs it: the phase of the terms as in Model/LiveSearch on the maps of the Disk store, the goroutines of the batches inside GetFields with cache calls and file reads (index/InvertedIndex.go:35-121, storage/DiskStorage.go:89-139, main.go:122-190) |",
  "| `Model/Server` | main.go's program: one Disk store, POST handlers as its clients, any number of GET handlers each inside Standard.Search with one goroutine per query, each of them inside InvertedIndex.Search on the live store; arrivals, crashes, restarts (main.go:107-219, search/Standard.go:21-72). gin and JSON are not in it |",
  "| `Model/Json`, `Model/Collection` | encoding/json as the code uses it (a parser and what Marshal writes for strings), UTF-8, field.StringToObject (field/FieldProcess.go:10-17), testecolection's file (testecolection/Teste.go:57-185) as bytes. Bytes that are no UTF-8 count as U+FFFD, as in Go; the limit of 10000 on the depth is modelled, which numbers ParseFloat accepts and how fmt prints them are parameters |",
  "| `Model/Bind` | gin's ShouldBindJSON for main's Document, and POST /nir on the bytes of its body (main.go:122-161) |",
  "| `Model/FlatBytes` | the FlatBuffers runtime on bytes: builder, alignment, growth to 1 GiB, vtables and their reuse, relative offsets, readers; and storage/Serialize.go on top of it (storage/buffers/*.go) |",
  "| `Model/Rounding64`, `Model/Float64` | IEEE 754 binary64: exponents, subnormal numbers, signed zeros, infinities, NaN, rounding of +, -, *, / and fused multiply-add; math.Log as any function within 1 ulp |",
  "| `Model/HttpBytes` | main.go's GET and POST /nir on bytes: url.ParseQuery, the JSON of model.Response and gin.H, the swallowed error of a score that is not finite |",
  "| `Model/Gzip` | file.DecompressData down to the bits: gzip members and headers, DEFLATE blocks, Huffman decoders, CRC-32 (`Spec/Gzip` says, without reading anything, what a gzip file is) |",
  "| `Model/DiskBytes` | the whole Disk store (Disk.go, DiskIO.go, Serialize.go, File.go) on one file system of bytes: paths, directories, SecureSaveFile as system calls, fragments byte by byte |",
  "| `Model/ServerBytes` | main.go's server on the store of Model/DiskBytes: searches whose reads of document files are reads of bytes, next to handlers and the goroutines of the store |",
  "| `Model/Strconv` | strconv.ParseFloat on JSON literals (with the limit on the exponent), the layout of the formats e, f, g and of encoding/json's float64Encoder; which digits are printed is any choice of shortest ones |",
  "| `Model/Int64` | the Memory store with counters that wrap around at 2^64 |",
  "| `Model/Feed` | CriarArquivo from the answer of http.Get on: xml.Unmarshal of a tree of elements into Feed, the documents that are written |",
  "| `Model/Faults` | the store of Model/DiskBytes on a file system whose operations can fail at any time for reasons of its own: what the error branches of DiskIO.go, DiskStorage.go and File.go do then |",
  "| `Model/Shared` | several operating system processes (stores of Model/DiskBytes) that have the same rootFolder: they share the files and nothing else; a process writes to an open file by its path, which is what happens as long as no other process renames or removes that file in between |",
  "| `Model/Replicas` | several instances of the program of Model/ServerBytes, each with its searches, on one folder as in Model/Shared |",
  "| `Spec/Backup` (on Model/Shared) | a copy taken file by file: at every path what the folder had there at the moment at which the path was copied; the content of one file is that of one moment |"
 ],
 "plan": [
  "| C78 | a Search of a disk store | same answers as Memory (C22), and the set of possible results is a function of the answers (C59, every order of replies is possible) |",
  "| C79 | end of the process and reopening, all parts together | reopening splits into the parts' runs; C30, C31, C33 for each |",
  "| C80 | the same | counterexample: two flushes with different terms; otherwise equal answers give equal scores |",
  "| C81 | Model/Ingest over Memory (and, through C78, Disk) | the calls made are a permutation of one save per path (C09, C11); then C13-C15, C60, C78 |",
  "| C82 | fmt's text of each kind of value | counterexample, and the exact terms of every kind of value by C05 |",
  "| C83 | Model/Concurrent | counterexamples; invariants over every interleaving (references are kept under their own key, everything in the heap was put there by a call, counters with the additions still pending); a part of the store that one client owns evolves as in Memory, by an invariant over the position inside the call |",
  "| C84 | next accesses of two clients | for any two programs a schedule to a racing state |",
  "| C85 | Model/LiveSearch | invariant of all goroutines: what they hold was posted or saved by a call that has begun; at rest, exact answers |",
  "| C86 | Model/LiveSearch | counterexample with two writers; otherwise references are never replaced, and the document stays due: some goroutine has yet to send it, or it is in the channel, or received |",
  "| C87 | Model/LiveSearch | counterexample (reads before the save, finds after it); with one writer, bounds from the invariant over the owner's position in its call |",
  "| C88 | Model/LiveSearch | progress and a lexicographic rank: the clients' remaining accesses, the stage of the search, the work left in it |",
  "| C89 | Model/ConcurrentDisk | invariants over every step: tags of references, what cells, channels, buffers and files hold comes from calls begun; counters bounded by a gauge that counts pending writes |",
  "| C90 | Model/ConcurrentDisk | invariant: what a returned call posts has been sent to the writer; composition with the index writer's durability; counterexample schedule |",
  "| C91 | Model/ConcurrentDisk | progress for each client and a cost that every prompt step lowers |",
  "| C92 | Model/ConcurrentDisk | an invariant about one field, one map at a time: between the calls of the owner it is exact, inside a call the remaining steps complete it, and no step of another client touches it |",
  "| C93 | Model/ConcurrentDisk | witness run; for a field with one writer, the last message received carries the numbers in memory |",
  "| C94 | Model/ConcurrentDisk | witness runs; for a document with one user, an invariant about its map in the cache, with the writer and in the file, at each step of the calls |",
  "| C95 | Model/ConcurrentDisk | an invariant about the file, the cached maps and the partial answers, kept by every action, crashes and openings too |",
  "| C96 | Model/ConcurrentDisk, Props/ConcurrentDiskRaces (the table of accesses) | constructed schedules from any state for two saves and two readers, a witness run for one client; an invariant of the clients' positions for the positive part |",
  "| C97 | Model/LiveDisk | the goroutines of a search do to the store what clients that read do (a simulation), so the invariants of C89 hold during a search; invariants of the two phases on top |",
  "| C98 | Model/LiveDisk | progress from the invariants; a lexicographic rank (work of the clients, phase, work of the phase) that every step of the search lowers and no other step raises |",
  "| C99 | Model/LiveDisk | invariants: the set that lists the document is never replaced; nobody changes what readers of the document get (C95, through the simulation); the search is on its way to it |",
  "| C100 | Model/Server | every search is simulated by a reading client of the store, so the invariants of C97 hold for all searches at once; a second invariant says what has been collected from the goroutines so far |",
  "| C101 | Model/Server | the rank of C98 for every goroutine of the search, and a count of goroutines and messages left; infinitely many steps would lower one of finitely many ranks for ever |",
  "| C102 | Model/Server | the invariants of C99 for all goroutines of the search, with all other searches as readers |",
  "| C103 | Model/Server | invariant: while nobody saves, each search has read so far exactly what the index and the files say; then the collected answers are the scores of C59 |",
  "| C104 | Model/Score over R53 (rounded reals) against the reals | a calculus of relative errors (`Near m x y`: at most m roundings apart), with the logarithm's error bounded by log((N+1)/(n+1/2)) >= 1/(2N+2) |",
  "| C105 | Model/Collection: the file as bytes, a JSON parser | no byte of a line but the last is a newline (UTF-8, escapes); the parser inverts the writer by induction on the value |",
  "| C106 | the file cut at any byte; a short write followed by others | prefixes of the lines; refutation: `{` before a line is no JSON |",
  "| C107 | the parser; the map of members with the last of equal keys | the parser accepts exactly the grammar of Spec/Json (soundness and completeness by induction on the fuel); induction on the value against paths defined on the text's members |",
  "| C108 | Model/Collection composed with Model/Ingest | C105, C107 and C81 |",
  "| C109 | the same parser, and the decoding into the struct | the grammar theorem, and induction on the members against `the last string for the field` |",
  "| C110 | Model/Bind: the first value of the body, decoded into the struct | the grammar theorem (an object is read whatever follows it), C70 |",
  "| C111 | Model/FlatBytes: `Builder`, `Prep`, `EndObject` with vtable reuse, readers that follow offsets | refinement: every builder action on bytes simulates the action on objects (Model/Serialize) and keeps the invariant that each object is encoded at its offset; readers on bytes agree with readers on objects; then C34/C45 |",
  "| C112 | Model/Float64 as the float type of Model/Score and Model/Search | ranges of every intermediate result (powers of 2) show that nothing overflows or becomes subnormal; then the error analysis of C104 with the slack of math.Log |",
  "| C113 | Model/Collection composed with Model/Ingest, on the bytes of the file | C107's grammar theorem for every line, then C81 |",
  "| C114, C115 | Model/HttpBytes; Spec/HttpBytes says what a query string asks for and what an answer tells, by the grammars of Spec/Json and Spec/Utf8 | the printed value is in the grammar (C107's lemmas) and the grammar is unambiguous; induction on the query string for the decoding; C110, C108 for what is found |",
  "| C116 | Model/Server with clients whose calls are those of the POST handler, Model/HttpBytes for the bytes | an invariant that every call begun or still to come belongs to a body, then C100, C115 and the grammar of the answer |",
  "| C117 | Model/Gzip against Spec/Gzip | Huffman words are prefix free, so one bit at a time finds them; induction over symbols, lengths, blocks, members in both directions; the table of the CRC is the bitwise one |",
  "| C118 | Model/DiskBytes, a forward simulation into Model/ConcurrentDisk | the relation says which bytes stand for which object (C111, C117) and where each goroutine is inside SecureSaveFile; every action of the bytes is zero or more actions of the objects; the theorems C71, C89, C90, C91, C92, C93, C94, C95 are carried over; for C91 a step that is possible on the objects is shown to be possible on the bytes, and a lexicographic measure (steps, files, system calls) falls |",
  "| C119 | Model/ServerBytes, a forward simulation into Model/Server | C118's relation extended by equal requests; the step that reads a document file reads the object it stands for; theorems C100, C101, C102, C116 are carried over; progress also needs that a step of the objects is possible on the bytes |",
  "| C120 | Model/Strconv, Model/Float64 (rnd64), Spec/Decimal | the text printed for d·10^e denotes d·10^e in each layout; shortest digits are read back by definition; rounding is monotone, so the order is kept; C114's answer instantiated |",
  "| C121 | Model/Strconv, Model/Collection | readFloat returns what the literal denotes (below the limit on exponents); rounding overflows from 2^1024 - 2^970 on; the shortest digits of a whole number below a million are its own because neighbouring float64 are closer than 1/2^32; C113 instantiated |",
  "| C122 | Model/Int64 | the wrapped store is the image of the unbounded one under taking every counter modulo 2^64 (simulation), because counters are only added to; C15 gives the exact counts |",
  "| C123 | Model/Feed, Spec/Feed | induction on the pieces of an element; C105 and C108 composed |",
  "| C124 | Model/Faults | a forward simulation by the store without failures: a merge that failed is one that is not scheduled any more, a document that could not be read is one that was not asked for; the questions of the simulating clients are found from the end of the run backwards; then C118. Counterexample runs for the losses |",
  "| C125 | Spec/Corpus on Model/Memory, Disk, Search, Float64 | the counters are counts over the texts (induction); the score by the store's numbers is the one by the texts; then C112 on every store that reads alike |",
  "| C126 | the same with Model/Bind, HttpBytes, Strconv | C110, C114, C115, C120 and C125 composed |",
  "| C127 | Model/Server (searches over Model/ConcurrentDisk) | all calls returned ⇒ the store reads like a memory store with the same texts (C92, C94 per field and per document); a search in which every document is in the cache is a sequential search (an invariant of all searches and goroutines); then C125/C126 |",
  "| C128 | Model/DiskBytes, started on an arbitrary file system | what a folder says is a specification of its own (Spec/Opening); an invariant of LoadIndexOnHD relates what it has read, written and deleted to the folder that was found; a second one follows a damaged file; a third one follows clients that only read |",
  "| C129 | Model/ServerBytes, started on an arbitrary file system | the invariant of C128 for reading clients, extended to the goroutines of the searches (what each of them has read is what the files say); memory only grows by new maps, so what a search has to visit never changes; C98's ranking of steps for the end |",
  "| C130 | Model/DiskBytes, any number of processes | an invariant of the merge relative to the folder itself instead of the folder at the opening, so that it holds of the background merge too and survives kills (SaveIdx follows the index file through the renames); induction on the run from its end; the refutation is computed in the kernel |",
  "| C131 | Model/Shared | a process that is not merging touches no file, so under InTurn the invariants of C128 and C130 (KeptState) belong to one process at a time and are handed over when nobody merges; a second invariant (Speaks) follows what each process has loaded, relative to the folder at its own opening, which says what it said at first; induction on the run; the searches (Model/Replicas) keep the invariant of C129 at every instance: a step of a search leaves the files and the merger alone, and a step of another instance changes no document file; the refutations are computed in the kernel |",
  "| C132 | Model/Shared with Spec/Backup | fragments are never made nor changed, only removed (induction on the run), so what was a fragment when the index was copied had been one, with the same bytes, when it was copied; the invariants of C131 say of each moment what the index and the fragments together say; the refutations are computed in the kernel |",
  "| C133 | Model/LocalHeap with Spec/LocalMap: the variables whose addresses Set stores, the map of addresses, the pointers that Get returned | invariant over the history, one event at a time: map, pointers and contents are what Spec/LocalMap says of the history; the other theorems follow from the characterization |"
 ],
 "findings": [
  "- C80: because the file of document frequencies holds only the last batch, a search can rank two documents the other way round after a clean restart.",
  "- C82: JSON numbers, booleans and null are indexed under words of fmt's error text (`%!s(float64=7)`), and a numeric Id becomes that text.",
  "- C83, C84: the stores have no lock, yet the HTTP handlers call them concurrently: saved documents can become unfindable, fields and counts are lost, and any two concurrent saves race.",
  "- C86, C87: a search that runs while others save can miss a document saved long before it, and can return NaN scores.",
  "- C90: with two clients, a posting lost in memory is on disk: a clean restart changes the answers.",
  "- C93: with two clients that save one field, the older message about its size and length can be received last: the files then say less than the store, for good.",
  "- C94: a client that only reads can undo a save on a Disk store: GetFields loads the old file, the save puts the new map into the cache, and GetFields puts the old map over it.",
  "- C96: one client alone races with the goroutine that writes the documents (the map it saves into is the map being serialised), and two clients that only read race on the page list of the cache (Get moves a page under the read lock).",
  "- main.go's GET handler does `id += 1` on a variable shared by all requests (a data race of its own), and its searches run concurrently with the saves of POST: C97-C99 say what still holds.",
  "- CriarArquivo only prints an error of writing and goes on: the next document lands on the same line, and GetDocuments then panics (C106). A last line without newline is dropped silently.",
  "- POST /nir reads only the first JSON value of its body: a second document, or garbage, after it is ignored and the answer is 201 (C110).",
  "- A file that would exceed 1 GiB makes its serializer panic (C111): the document map or the posting lists of a shard cannot be saved any more.",
  "- A boost near the end of the range of float64 makes scores NaN (C112): boost times idf overflows, and infinity times the frequency 0 of a missing term is NaN; NaN then breaks the sort.",
  "- A score among the first ten that is not finite makes GET /nir answer 200 with an empty body (C114): encoding/json refuses NaN and gin drops the error.",
  "- Nothing checks the id of a posted document. `../../title/index` overwrites the index of field title: the store goes on answering, but no later process ever opens the folder (C43, on the bytes). Saving document `a` deletes the file of document `a_old` (C42).",
  "- Numbers in documents: 1000000 is indexed as `1e+06`, so a search for its digits does not find it; numeric ids above 2^53 may clash (9007199254740993 and 9007199254740992 are one document), since every number goes through a float64 (C121).",
  "- CriarArquivo keeps only the last author of a paper: encoding/xml reads every `author` into the same struct (C123). If the server cannot be reached it panics on the nil response.",
  "- One failed rename of a background merge (no crash, nothing reported) loses the whole index of a field at the next restart, and any failed operation of it ends merging for the rest of the process (C124).",
  "- The size and length of a field go by the name inside its metrics file, not by its directory: a copied or renamed field directory is found with its documents but without its size and length (C128).",
  "- Every opening and every background merge rewrites the index of every field, changed or not; a kill between the two renames loses the field, even in a store to which nothing is ever written, and the next opening overwrites index_temp and deletes index_old, the last two copies (C130).",
  "- Two processes that only read one folder can destroy it: one that opens while another stands between its two renames loads an empty index and writes it back over the good one. No kill, no error, no write request (C131). A fragment that another process merges first makes NewDiskStore fail (C131).",
  "- A backup of a folder in use that copies `index` before `temp` - the order of the names - loses what the merge moved in between, and a snapshot between the two renames lacks a whole field; both copies open without an error (C132)."
 ]
}