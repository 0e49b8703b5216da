# DESIGN — a Lean 4 model of goirlib

Generated by `tools/gen_design.py` from `tools/design_body.md` (this text) and `MANIFEST.json` (the tables).

## 1. Approach

The code is modelled function by function as total, computable Lean definitions (`lean/Verif/Model/*`), with
property theorems (`lean/Verif/Props/*`) kept apart from helper lemmas (`lean/Verif/Lemmas/*`, or private lemmas next to a
theorem).  Specifications that a property refers to (history counts, segmentations, recency lists, ...) are small separate
definitions in `lean/Verif/Spec/*` or are plain `List` functions used directly in the theorem statement.  Each theorem is followed or
preceded by an `example`, or a named witness theorem, that meets its hypotheses with concrete non-trivial data.

Conventions

* Go `map[K]V` -> `GoMap K V`, an association list.  `range` over a map visits the list order; since Go's order is
  random, theorems either quantify over all lists (all orders) or speak only about lookups.
* Go `int` -> `Int` (unbounded) except where a conversion to `int32` happens (`toInt32`, wraps).
* Go `string` -> `String`; the store code only compares strings for equality, so byte/UTF-8 questions do not arise there.
* Pointers/shared maps -> values, except in the modules that are *about* aliasing (`Alias`, `Slices`, `LinkedList`, `Docs`).
* Goroutines + channels -> small-step machines; a theorem ranges over every run (every list of enabled steps).
* panic / log.Fatal -> explicit outcome values.
* Files -> three-slot "secure file" cells with `torn | full` contents (partial writes), and separately a path-level file
  system on which `SecureSaveFile` is run syscall by syscall; `Props/SFileView.lean` proves that the first is a view of the second.
* float64 -> the score functions are written once over any type of numbers with the operations the code uses; instances: exact reals,
  reals with infinities and NaN, reals rounded to 53 bits.
* A property the code violates is kept in full in properties.jsonl; the negation is proved with a concrete witness
  (`..._refuted`), and what does hold is proved under the suffix `_partial`.

## 2. What is modelled

| model | code |
|---|---|
| `Model/GoMap`, `Machine` | Go maps; transition systems |
| `Model/Types` | model/*.go (Field, NormalizedDocument, Query, DocumentScore, SearchResult, Set) |
| `Model/Text`, `StemmerMachine`, `Slices` | tokenizer/Standard.go, filter/*.go, language/*.go, main.go Preprocessing |
| `Model/Metric`, `Score`, `ScoreReal`, `ScoreX`, `Rounding`, `ScoreRounded` | metric/*.go, similarity/BM25.go |
| `Model/Flatten` | field/FieldProcess.go |
| `Model/Memory`, `Alias` | storage/Memory.go, storage/Storage.go |
| `Model/Serialize` | storage/Serialize.go, storage/buffers/*.go (the generated files that Serialize.go uses) |
| `Model/FS`, `SFile` | file/File.go |
| `Model/DiskIndex` | storage/DiskStorage.go and DiskIO.go: postings, fragments, merge, open |
| `Model/Flusher`, `Counters` | the same: metrics and document frequencies, writers, open |
| `Model/Docs` | the same: LRU-cached documents, writer, reload |
| `Model/DiskStore` | the whole `storage.Disk` |
| `Model/LRU`, `LinkedList`, `PointerLRU` | cache/LRU.go and container/list |
| `Model/Caches` | cache/RCU.go, Map.go, LocalMap.go, Shard.go |
| `Model/FanIn`, `Search` | index/InvertedIndex.go, search/Standard.go |
| `Model/Http` | main.go's two handlers |
@@MORE_MODELS@@

## 3. What is not modelled

* gin (routing, HTTP; the query string and the JSON of the responses are modelled, C114, C115), `log`, the clock; of `json.Unmarshal` which number literals fit a float64 (a parameter).  Tickers may fire at any moment.
* `main` itself beyond the handlers and Preprocessing: flags, `maincc`; the download of the feed in `testecolection/Teste.go` and how encoding/xml reads its text (C123 starts from the tree of elements).
* Code that is commented out or not reached: search/AsyncStandard.go, storage/IndexDisk.go, storage/disk/*.go, the commented parts of
  BM25.go and Standard.go, the generated buffers nobody uses.
* The source of the FlatBuffers runtime is not in the sandbox: its bytes are modelled (`Model/FlatBytes`) from the published source; the models of whole
  stores use objects and slots (`Model/Serialize`), which C111 connects to the bytes.  gzip is modelled in bits (`Model/Gzip`, C117): the reader as
  a function, the compressor as any encoding that the RFCs allow; the models of whole stores only use that complete files come back and incomplete ones panic.
* Unicode tables, porter2, NFD/NFC: parameters; theorems hold for every such function.  Ill-formed UTF-8 outside of the JSON readers (C107-C113 cover every sequence of bytes).
* Power loss, reordered or failing system calls, full disks, other processes that write in the same folder.  A crash is the death of the process
  at any instruction; a `write` may have written any prefix.
* Overflow of Go's 64-bit `int`, except in the Memory store (C122); in the rounded model (C59, C61, C63, C104) the float64 exponent range (no overflow, no subnormals) and the sign of zero (C112's float64 has them); `math.Log` is taken as correctly rounded in the
  rounded model.
* Real data races. Any number of clients on a Memory store (C83-C88) or on a Disk store (C89-C99), with searches at the same time, are modelled with atomic
  map accesses and atomic calls of the cache; in Go, overlapping accesses are a data race (C84, C96 say when there is one) and may abort the program.
* The compiler may fuse `x*y + z` on some architectures (FMA): the float64 of C112 covers every choice of the places where it does; the models of C103-C104 (53 binary digits, unbounded exponents) round after each operation.

Further simplifications are listed at the head of each model file and with each definition.

## 4. Plan per property

| prop | modelled | proof |
|---|---|---|
| C01,C02 | `strings.FieldsFunc`+`isNotAlnum` as a fold over runes; letter/number tables are parameters | induction on the text; segmentation is unique |
| C03 | loop of StopWords.Process | induction |
| C04 | goroutine-per-word machine writing slots of a result slice | invariant over all completion orders |
| C05,C06 | composition of the five stages; `lower` runewise, `stem`, `fold` parameters; the English table verbatim | equational; C06 refuted by witness, characterised otherwise |
| C07 | slices as references into a heap | Lowercase refuted; other filters proved |
| C08 | loop | induction |
| C09-C11 | JSON as nested inductive with ordered object entries (order = iteration order) | mutual induction, injectivity of dotted join |
| C12 | map-based set | induction over ops |
| C13-C20 | `Memory` struct and its methods | induction over the history of calls against list-based spec |
| C21 | heap-of-sets version of the index | witness refutes; partial: reads through handle always equal current index |
| C22-C23 | product of the four Disk subsystems with interleaved background steps | invariants; witness for C23 |
| C24-C27,C33 | document subsystem: LRU cache, writer buffer, per-document file | invariant over all runs; witnesses |
| C28-C30,C35,C36,C41 | index subsystem: channel, writer buffer, fragments, index file, merge as micro-steps, crash, open | invariant over all runs incl. crashes; witnesses |
| C31,C34 | metrics subsystem with int32 serialisation | invariant; witness for overflow |
| C32,C37 | document-frequency subsystem | witness; exact characterisation |
| C38-C44 | path-level file system; `filepath.Join`; SecureSaveFile as syscall program with all crash states | case analysis, induction; witnesses |
| C45 | FlatBuffers at slot level: builder with nesting flag, slots, defaults, vectors; the generated accessors by slot number | round-trip by induction |
| C46-C48 | LRU with element ids, map and list | invariant over op sequences; recency specification |
| C49,C50 | `container/list` at pointer level; two reader threads under an RWMutex | ring invariant; the cache over the pointers simulates the cache over a sequence; witness interleavings, one of them followed by arbitrarily many Puts |
| C51-C56 | RCU / SyncMap / Shard / LocalMap machines; CRC32 as parameter (and concretely for witnesses) | invariants; witnesses |
| C57,C58 | fan-in machine: workers, semaphore, bounded channel, closer, collector | invariants, progress, decreasing measure |
| C59-C62 | composition of two levels of fan-in; aggregation map; sort as "some sorted permutation" | permutation invariance; C61 refuted with rounding |
| C63-C67 | exact real arithmetic, and rounding to 53 bits | Mathlib reals; monotonicity of rounding |
| C68 | reals extended with inf/nan, no rounding | evaluation; witness |
| C69,C70 | the two gin handlers as functions on parsed requests | case analysis; witness |
| C71-C73 | index and metrics subsystems with crashes | invariants; witnesses |
| C74 | the two stop word tables verbatim | finite tables, checked by the kernel |
| C75,C76 | document subsystem at the level of map accesses | witness; invariant |
| C77 | the whole disk store: blocking sends on bounded channels | progress and a decreasing measure |
@@MORE_PLAN@@

## 5. Findings about the code

The properties with a `_refuted` theorem are false of the code as written; each has a concrete witness run in the model.

* C06 the stemmer runs after the stop-word filter and can emit a stop word.
* C07 `Lowercase.Process` writes into the caller's slice.
* C10 keys with dots clash in `Flatten`, the winner depends on map order.
* C19 re-saving a document leaves stale postings and counts its size, length and terms twice.
* C21 `GetDocuments` hands out the live map.
* C23 `Memory.UpdateIndex` changes size and length, `Disk.UpdateIndex` does not.
* C26, C27 a document evicted from the cache before its flush is not found or reloaded in an older version; saving a field of an uncached
  document loses its other fields, also on disk.
* C32 a flush of document frequencies overwrites the file with the terms received since the flush before.
* C34 counts are cut to int32.
* C36, C71 fragments are not written atomically; the merge, or a later open, panics on a partial one.
* C37 after a crash a document frequency may exceed the collection size.
* C40, C41, C73 between the two renames of SecureSaveFile the file does not exist under its name, and reopening then loses it.
* C42-C44 ids and names that are used as file names unescaped.
* C48 an LRU of capacity 0 panics at the first Put; C50 `Get` moves list elements under a read lock: after two concurrent `Get`s of one key the next `Put` can panic, or the cache never evicts again.
* C53 nobody drains SyncMap's channel; C54 on 32-bit platforms a shard number can be negative; C56 shard names may collide.
* C61 with three or more queries the sum of float scores depends on goroutine timing.
* C68 a field saved with length 0 makes scores NaN.
* C69 GET /nir panics if there are 1 to 9 hits.
* C75 the writer serializes a document's map while saves change it.
@@MORE_FINDINGS@@

## 6. Testing the theorems against wrong programs

`tools/mutate.py` applies one realistic bug at a time to a scratch copy of the model and rebuilds; `seeded/LOG.jsonl` has one line per attempt
(definition, edit, claim broken, theorems that failed, theorems tightened).  @@MUTS@@

## 7. Trusted base

* Lean 4.33's kernel.
* The axioms `propext`, `Classical.choice`, `Quot.sound` and no others (`vcheck` audits this); the axioms of each theorem of the
  manifest are listed below.  No axiom is added, nothing is left unproved, and `native_decide`/`bv_decide` are not used.  Witness runs use `decide +kernel`, which
  makes the kernel evaluate the decision procedure.
* The reading of the Go code into the model, definition by definition (each cites file:lines), with the simplifications of section 3
  and of the model files' headers.
* The external functions listed in section 3, as far as the theorems do not quantify over them.

### Axioms of each theorem

@@AXIOMS@@

## 8. Status of each property

@@STATUS@@
