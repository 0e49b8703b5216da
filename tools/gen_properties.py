#!/usr/bin/env python3
"""Generates /verif/properties.jsonl (run from /verif)."""
import json
P = []
def p(id, title, statement, quantifier, why, *anchors):
    P.append(dict(id=id, title=title, statement=statement, quantifier=quantifier, why_tests_cant=why, anchors=list(anchors)))

# ---------------------------------------------------------------- text
p("C01","Tokens are exactly the maximal alphanumeric runs",
  "Tokenizer.Tokenize(text) returns, in order, exactly the maximal non-empty runs of letters, numbers and apostrophes of text: text is an alternation of separators and tokens, inner separators are non-empty, and no other token list has that shape.",
  "every text, every classification of runes into letters and numbers",
  "texts are unbounded; tests only sample a few sentences","tokenizer/Standard.go:Tokenize","tokenizer/Standard.go:isNotAlnum")
p("C02","Tokenizing distributes over separated concatenation",
  "If a separator rune stands between a and b, Tokenize(a + sep + b) is Tokenize(a) followed by Tokenize(b); tokens never span a separator and never depend on text beyond one.",
  "every pair of texts and every separator rune","unbounded pairs of inputs","tokenizer/Standard.go:Tokenize")
p("C03","Stop-word filter keeps exactly the non-stop words, in order",
  "StopWords.Process(tokens) is the subsequence of tokens whose entry in the word map is not true, in the original order and with multiplicity; applying it twice is the same as once.",
  "every token list and every stop-word map (including words mapped to false)","unbounded lists and maps","filter/StopWords.go:Process")
p("C04","Concurrent stemming is position-preserving and schedule-independent",
  "Stemmer.Process(tokens), with algorithm Snowball, returns a list of the same length whose i-th element is Stem(tokens[i]), whatever order the per-word goroutines run in, and it always terminates; with any other algorithm value it panics and stems nothing.",
  "every token list, every interleaving of the goroutines, every algorithm value","all schedules cannot be enumerated by a test","filter/Stemmer.go:Process","filter/stemmer/Algorithm.go:Snowball")
p("C05","Preprocessing is a per-token function of the text",
  "Preprocessing(text) is the list obtained by lower-casing each token, dropping English stop words, then stemming and ASCII-folding each survivor: one output term per surviving token, in order. Consequently it distributes over separated concatenation, and two texts whose tokens agree up to case get the same terms, so documents and queries are normalised identically.",
  "every text and every stemmer/folding function","unbounded texts","main.go:Preprocessing","filter/Lowercase.go:Process","filter/ASCII.go:Process")
p("C06","Preprocessing never emits a stop word",
  "No term returned by Preprocessing is an English stop word.",
  "every text","the counterexamples are accented or stemmed forms tests do not think of","main.go:Preprocessing","filter/StopWords.go:Process","language/StopEnglish.go")
p("C07","Filters do not modify the caller's token slice",
  "After filter.Process(tokens) the caller's slice tokens still holds the tokens it held before the call.",
  "every filter, every token slice","aliasing is invisible to tests that only look at the result","filter/Lowercase.go:Process","filter/StopWords.go:Process","filter/ASCII.go:Process","filter/Stemmer.go:Process")
p("C08","TermFrequency counts occurrences and adds up to the token count",
  "TermFrequency(tokens)[t] is the number of occurrences of t in tokens; t is a key iff it occurs; the values sum to len(tokens); the result does not depend on the order of tokens. A Field built as POST /nir builds it therefore has Length equal to the sum of its TF.",
  "every token list","unbounded lists","metric/TF.go:TermFrequency","main.go:main")
# ---------------------------------------------------------------- field
p("C09","Flatten maps every leaf to its dotted path and nothing else",
  "For a JSON object whose keys are non-empty and contain no dot, Flatten(obj)[k] = v iff obj has a non-object value v at the path whose components joined with '.' are k; no leaf is lost, none is invented, and map iteration order does not matter.",
  "every JSON object of any depth and width, every map iteration order","unbounded nesting; Go map order is random","field/FieldProcess.go:Flatten","field/FieldProcess.go:recFlatten")
p("C10","Flatten is determined by its input for every JSON object",
  "For every JSON object (any keys), Flatten yields the same output on every run; in any case its key set is exactly the set of joined leaf paths and each value is one of the leaves with that joined path.",
  "every JSON object, every pair of map iteration orders","needs colliding keys and an unlucky iteration order","field/FieldProcess.go:recFlatten")
p("C11","GetID returns the document's own Id",
  "GetID(flattened) returns the string stored under key Id; it returns the empty string exactly when there is no such key or that string is empty (so a caller generates a fresh id exactly then), independent of map order.",
  "every flattened document","map order is random","field/FieldProcess.go:GetID")
p("C12","Set behaves as a mathematical set",
  "After any sequence of Add and Remove, Contains(x) is true iff the last operation on x was Add, Size is the number of such x, and GetData maps exactly those to true.",
  "every operation sequence","unbounded histories","model/Set.go:Set")
# ---------------------------------------------------------------- memory storage
p("C13","Memory: postings are exactly the saved terms",
  "GetDocuments(field, term) contains document d iff some earlier SaveOrUpdate(d, f) or UpdateIndex(d, f) had f.Name = field and term among f.TF's keys; its ok result is true iff there is such a d. GetIndex(field) shows the same sets.",
  "every history of SaveOrUpdate/UpdateIndex calls, every field and term","histories are unbounded","storage/Memory.go:UpdateIndex","storage/Memory.go:GetDocuments","storage/Memory.go:GetIndex")
p("C14","Memory: GetFields returns the latest saved field of each requested document",
  "GetFields(ids, name)[d] is the field of the last SaveOrUpdate(d, f) with f.Name = name, for d in ids, and absent otherwise; documents not requested never appear.",
  "every history, every id list (with repetitions), every field name","histories are unbounded","storage/Memory.go:GetFields","storage/Memory.go:createFieldDocument")
p("C15","Memory: counters count calls exactly",
  "GetFieldSize(name) is the number of SaveOrUpdate/UpdateIndex calls with that field name, GetFieldLength(name) the sum of their lengths, GetNumberFieldTerm(name, terms)[t] the number of SaveOrUpdate calls with that name whose TF has t (0 for unknown terms), with exactly the requested terms as keys.",
  "every history, every field and term list","histories are unbounded","storage/Memory.go:SaveOrUpdate","storage/Memory.go:UpdateIndex","storage/Memory.go:GetNumberFieldTerm")
p("C16","Memory: document frequency never exceeds the collection size",
  "GetNumberFieldTerm(name, terms)[t] <= GetFieldSize(name) at all times, so the IDF computed from a Memory index is always positive.",
  "every history, field, term","an inductive invariant over unbounded histories","storage/Memory.go:SaveOrUpdate","metric/IDF.go:IdfBM25")
p("C17","Memory: saving one field leaves all others alone",
  "SaveOrUpdate(d, f) changes no observation about any field name other than f.Name, no GetFields entry of any document other than d, and no posting membership of any document other than d.",
  "every state, every save, every observation","frame conditions quantify over everything not touched","storage/Memory.go:SaveOrUpdate")
p("C18","Memory: save order does not matter for distinct (document, field) pairs",
  "Two histories that are permutations of each other and save each (document, field) pair at most once give the same answers to GetDocuments, GetFields, GetFieldSize, GetFieldLength and GetNumberFieldTerm.",
  "every pair of permuted histories","n! orders","storage/Memory.go:SaveOrUpdate")
p("C19","Re-saving a document replaces its previous version",
  "After SaveOrUpdate(d, f) followed by SaveOrUpdate(d, f'), with the same field name, every observation is as if only the second call had happened: counts count documents, and d is posted only under the terms of f'.",
  "every history with updates","unit tests index each document once","storage/Memory.go:SaveOrUpdate","storage/DiskStorage.go:SaveOrUpdate","storage/Storage.go:SaveOrUpdate")
p("C20","IndexDocument makes a document's every field searchable",
  "After IndexDocument(d, doc) with distinct field names, for each field f of doc: d is in GetDocuments(f.Name, t) for every t in f.TF, GetFields([d], f.Name)[d] = f, and each counter moved by exactly this document's contribution.",
  "every document with any number of fields, every prior history","unbounded","index/InvertedIndex.go:IndexDocument")
p("C21","GetDocuments returns a snapshot",
  "A set returned by GetDocuments does not change when later documents are indexed, and modifying it does not change the index.",
  "every history, every use of the returned set","aliasing is invisible unless a test mutates the result","storage/Memory.go:GetDocuments","storage/DiskStorage.go:GetDocuments","model/Set.go:Set")
# ---------------------------------------------------------------- disk storage, running
p("C22","Disk answers like Memory while it runs",
  "For every history of SaveOrUpdate calls on a freshly created disk store, whatever the timing of flushes and merges, GetDocuments, GetIndex membership, GetFieldSize, GetFieldLength and GetNumberFieldTerm return what a Memory store with the same history returns.",
  "every history and every interleaving with the four writer goroutines and the merge goroutine","schedules and histories are unbounded","storage/DiskStorage.go:SaveOrUpdate","storage/Memory.go:SaveOrUpdate")
p("C23","UpdateIndex means the same in every Storage implementation",
  "UpdateIndex(d, f) through the Storage interface has the same observable effect on a Memory store and on a Disk store.",
  "every d, f and prior history","the two test suites are separate and never compare","storage/Memory.go:UpdateIndex","storage/DiskStorage.go:UpdateIndex","storage/Storage.go:UpdateIndex")
p("C24","Disk: GetFields returns the latest saved field when nothing was evicted",
  "If the number of distinct documents saved since a fresh start does not exceed cacheSize, GetFields(ids, name) on disk returns the latest saved field of each requested document, whatever the flush timing and whatever reads happened.",
  "every history with at most cacheSize documents, every schedule","unbounded","storage/DiskStorage.go:GetFields","storage/DiskStorage.go:UpdateFieldDocument","cache/LRU.go")
p("C25","Disk: GetFields never invents a field",
  "Every field returned by GetFields(ids, name)[d] was passed to some earlier SaveOrUpdate(d, .) with that name, in this process or an earlier one on the same folder (its numbers perhaps cut to 32 bits by the file format, C34), for every cache size, eviction pattern, flush timing, crash and restart.",
  "every history, schedule, crash point, restart","unbounded combinations","storage/DiskStorage.go:GetFields","storage/DiskIO.go:SaveDocumentFieldOnDisk","storage/DiskIO.go:LoadFieldDocumentOnHD")
p("C26","Disk: GetFields returns the latest saved field in spite of eviction",
  "GetFields(ids, name) returns the latest saved field of each requested document also when the document was evicted from the cache.",
  "every history, cache size and flush timing","needs eviction inside a flush window","storage/DiskStorage.go:GetFields","storage/DiskIO.go:SaveDocumentFieldOnDisk")
p("C27","Disk: saving one field keeps the document's other fields",
  "SaveOrUpdate(d, f) does not change what GetFields([d], name) returns, now or after a flush and restart, for any name other than f.Name.",
  "every history, cache content, restart","needs an eviction or restart between the two saves","storage/DiskStorage.go:UpdateFieldDocument")
# ---------------------------------------------------------------- disk storage, persistence
p("C28","Flushed postings survive crashes",
  "Once the index writer has flushed a posting (field, term, document), every later open of the folder sees that document in GetDocuments(field, term), whatever saves, flushes and merges happen later and wherever (outside SecureSaveFile's rename window) the process is killed.",
  "every later history, schedule and crash point","crash points cannot be enumerated by tests","storage/DiskIO.go:SaveIndexOnDisk","storage/DiskIO.go:LoadIndexOnHD")
p("C29","Reopening never invents postings",
  "After any crash and reopen, GetDocuments(field, term) contains only documents that were saved under that field and term earlier.",
  "every history, schedule, crash point, number of restarts","unbounded","storage/DiskIO.go:LoadIndexOnHD","storage/DiskIO.go:SaveIndexOnDisk")
p("C30","Clean restart preserves the index",
  "If all queued postings have been flushed, closing and reopening the folder yields exactly the same GetDocuments answers for every field and term as before.",
  "every history and schedule ending in a flushed state","unbounded","storage/DiskIO.go:LoadIndexOnHD","storage/DiskStorage.go:NewDiskStore")
p("C31","Clean restart preserves field sizes and lengths",
  "If the metrics writer has flushed, reopening yields the same GetFieldSize and GetFieldLength for every field, as long as the values fit in 32 bits.",
  "every history and schedule ending in a flushed state","unbounded","storage/DiskIO.go:SaveFieldSizeLengthOnDisc","storage/DiskIO.go:LoadFieldSizeLengthOnHD")
p("C32","Clean restart preserves document frequencies",
  "If the document-frequency writer has flushed, reopening yields the same GetNumberFieldTerm answers for every field and term.",
  "every history and schedule ending in a flushed state","the loss needs two flush periods; tests wait for one","storage/DiskIO.go:SaveNumberFieldTermOnDisk","storage/DiskIO.go:LoadNumberFieldTermOnHD")
p("C33","Clean restart preserves stored documents",
  "If the document writer has flushed and no document was evicted since the fresh start, then after reopening GetFields returns for every document and field what it returned before (numbers cut to 32 bits by the file format, C34).",
  "every history and schedule ending in a flushed state","unbounded","storage/DiskIO.go:SaveDocumentFieldOnDisk","storage/DiskIO.go:LoadFieldDocumentOnHD")
p("C34","Counters of any size survive a restart",
  "Field sizes, lengths, document frequencies and term frequencies read back after a restart equal the values written, for every Go int value.",
  "every int value","overflow values are never reached in tests","storage/Serialize.go:SerializeFieldSizeLength","storage/Serialize.go:SerializeNumberFieldTerm","storage/Serialize.go:SerializeFieldMap","storage/DiskIO.go:SaveFieldSizeLengthOnDisc")
p("C35","Merging fragments loses nothing and is idempotent",
  "LoadIndexOnHD returns, per field, the union of the index file and all fragments it saw; afterwards the folder holds the same union, fragments written meanwhile by the index writer are kept, and running it again returns the same index.",
  "every folder content, every concurrent fragment write","interleavings and folder contents are unbounded","storage/DiskIO.go:LoadIndexOnHD","storage/DiskIO.go:LoadTermDocumentsFromIndex")
p("C36","The background merge never reads a half-written fragment",
  "Whatever the timing of the index writer and the merge goroutine, the merge only sees complete fragments, so it never panics.",
  "every interleaving of fragment writing and merging","needs a race inside one file write","storage/DiskIO.go:SaveIndexOnDisk","storage/DiskIO.go:LoadIndexOnHD","file/File.go:DecompressData")
p("C37","Document frequency never exceeds collection size after a crash",
  "After any crash and reopen, GetNumberFieldTerm(name, [t])[t] <= GetFieldSize(name), so IDF stays positive.",
  "every history, schedule and crash point","metrics and frequencies are flushed by different timers","storage/DiskIO.go:SaveFieldSizeLengthOnDisc","storage/DiskIO.go:SaveNumberFieldTermOnDisk","metric/IDF.go:IdfBM25")
# ---------------------------------------------------------------- files
p("C38","SecureSaveFile installs the new content and nothing else",
  "A completed SecureSaveFile(dir, name, buf) leaves buf under dir/name, leaves no name_temp or name_old behind, and changes no path other than those three.",
  "every folder state, name and content","unbounded states","file/File.go:SecureSaveFile")
p("C39","SecureSaveFile never loses both versions",
  "If the process dies at any point of SecureSaveFile, then at least one of dir/name, dir/name_old, dir/name_temp holds the complete old or complete new content.",
  "every crash point including inside the write","crash points","file/File.go:SecureSaveFile")
p("C40","A crash in SecureSaveFile leaves the file readable under its name",
  "If dir/name existed before, then at every crash point of SecureSaveFile dir/name exists and holds the complete old or complete new content.",
  "every crash point","crash points","file/File.go:SecureSaveFile")
p("C41","Reopening after a crash in SecureSaveFile does not lose the index",
  "If the process dies inside the SecureSaveFile call that rewrites a field's index file and the folder is opened again, every posting of the old index is still returned.",
  "every crash point","crash points","storage/DiskIO.go:LoadIndexOnHD","file/File.go:SecureSaveFile")
p("C42","Saving one document's file never touches another document's file",
  "Flushing document d leaves the stored file of every other document id unchanged.",
  "every pair of distinct document ids","needs ids that end in _old or _temp or contain path separators","storage/DiskIO.go:SaveDocumentFieldOnDisk","file/File.go:SecureSaveFile")
p("C43","Document ids are confined to the document folder and stored separately",
  "filepath.Join(root, docs, metrics, id) is a file directly in the document folder, and distinct ids give distinct files.",
  "every document id","ids are arbitrary strings","storage/DiskIO.go:SaveDocumentFieldOnDisk","storage/DiskIO.go:LoadFieldDocumentOnHD")
p("C44","Every field name can be stored and loaded again",
  "For every field name saved, its index, metrics and frequencies are found again when the folder is reopened.",
  "every field name","needs particular names","file/File.go:ListDirectories","storage/DiskIO.go:LoadIndexOnHD")
p("C45","Serialize then Deserialize is the identity",
  "For index fragments, field metrics, term frequencies and document field maps, Deserialize(Serialize(x)) = x (as maps) whenever the integers fit in 32 bits, for every map iteration order used while writing; serialisation never trips the builder's nesting check.",
  "every map, every iteration order","unbounded maps; random order","storage/Serialize.go","storage/buffers")
# ---------------------------------------------------------------- caches
p("C46","LRU cache never exceeds its capacity and never duplicates keys",
  "For capacity >= 1, after any sequence of Get and Put the cache holds at most capacity entries, each key once, and its map and its list describe the same entries; no operation panics.",
  "every operation sequence, every capacity >= 1","unbounded histories","cache/LRU.go:Put","cache/LRU.go:Get")
p("C47","LRU Get returns the latest Put value, evicting only the least recently used",
  "Get(k) hits iff k was put and fewer than capacity distinct other keys were put or hit since k was last put or hit; a hit returns the value of the last Put(k).",
  "every operation sequence, every capacity >= 1","unbounded histories","cache/LRU.go:Put","cache/LRU.go:Get")
p("C48","LRU accepts every capacity",
  "NewLRUCache(c) gives a cache whose Put never panics, for every int c.",
  "every capacity","boundary value","cache/LRU.go:Put","storage/DiskStorage.go:NewDiskStore")
p("C49","The LRU's linked list implements a recency list",
  "Each pointer-level list operation used by the cache (MoveToFront, PushFront, Remove, Back, Len) has exactly the effect of the corresponding operation on a sequence of pages, keeping next and prev inverse to each other.",
  "every well-formed list and every element of it","heap shapes are unbounded","cache/LRU.go (container/list)")
p("C50","Concurrent Gets on the LRU are safe",
  "Any number of concurrent Get calls (which only take the read lock) leave the recency list well formed.",
  "every interleaving of concurrent Gets","data race needing a particular interleaving","cache/LRU.go:Get")
p("C51","RCU Get only returns values that were Put, newest published last",
  "RCU.Get(k) is a miss or the value of some Put(k, .); as time passes it never goes back to an older Put; once everything queued has been received and a tick has passed it is the last Put(k, .), and other keys are unaffected.",
  "every sequence of Put, receive, tick and Get steps","schedules are unbounded","cache/RCU.go:Put","cache/RCU.go:Get","cache/RCU.go:writer")
p("C52","RCU bounds its queue and never blocks forever",
  "RCU.Put blocks only while 1000 puts are queued and the writer can always make progress.",
  "every reachable state","schedules","cache/RCU.go:NewCacheRCU","cache/RCU.go:Put")
p("C53","SyncMap Get eventually sees a Put",
  "After SyncMap.Put(k, v) returns, Get(k) eventually returns v, and Put never blocks forever.",
  "every history","the writer goroutine is not started","cache/Map.go:NewSyncMap","cache/Map.go:Put","cache/Map.go:writer")
p("C54","Shard.Get always finds a shard",
  "For fragments >= 1 (and 64-bit int) Shard.Get(key) never panics and always returns the same one of the fragments maps for the same key; for fragments <= 0 it always panics.",
  "every key, every fragment count, every hash function","keys are unbounded","cache/Shard.go:Get","cache/Shard.go:getShardId","cache/Shard.go:NewShardMap")
p("C55","Shard used with one key is a map",
  "Storing with Shard.Get(k).Set(k, v) and reading with Shard.Get(k).Get(k) behaves like one ordinary map.",
  "every operation sequence, every fragment count","unbounded","cache/Shard.go","cache/LocalMap.go")
p("C56","Shards of distinct names are isolated",
  "Values set through Shard.Get(a) are not visible or overwritten through Shard.Get(b) for a != b.",
  "every pair of names","needs a hash collision modulo the fragment count","cache/Shard.go:Get")
# ---------------------------------------------------------------- search
p("C57","Index.Search terminates for every schedule",
  "InvertedIndex.Search never deadlocks and returns after finitely many steps under every goroutine schedule, for any number of terms and postings and at least one CPU.",
  "every schedule, term list, posting lists, CPU count","all schedules","index/InvertedIndex.go:Search")
p("C58","Index.Search returns exactly the matching documents, whatever the schedule",
  "FieldDocuments maps d to f iff d is posted under at least one query term and the storage has field f for d; NumFieldsWithTerm, TotalDocuments and AvgDocLength are the storage's counters; none of this depends on the schedule or on map iteration order.",
  "every schedule, term list, storage content","all schedules","index/InvertedIndex.go:Search")
p("C59","Standard.Search ranks each matching document once, best first",
  "Search(queries) terminates under every schedule and returns each document matched by some query exactly once, with the sum over the queries of its BM25 score, sorted by non-increasing score.",
  "every schedule, query list, index content","all schedules","search/Standard.go:Search")
p("C60","End-to-end retrieval is sound and complete",
  "Over a Memory store, a document is returned by Search iff for some query it was saved under the query's field with a TF containing one of the query's terms.",
  "every history of saves, every query list, every schedule","unbounded","search/Standard.go:Search","index/InvertedIndex.go:Search","storage/Memory.go")
p("C61","Scores do not depend on goroutine timing",
  "Two runs of Search on the same index and queries give every document the same score.",
  "every pair of schedules","rounding differences need a particular arrival order","search/Standard.go:Search")
p("C62","Searching an unknown field or with no terms returns nothing",
  "A query with no terms, or on a field never saved, contributes no document and no score, and does not disturb the other queries.",
  "every index, every other query","unbounded","index/InvertedIndex.go:Search","search/Standard.go:Search")
# ---------------------------------------------------------------- scoring
p("C63","IDF is positive and decreases with document frequency",
  "IdfBM25(N, n) is positive iff n < N + 1/2, strictly decreasing in n and strictly increasing in N, for counts n >= 0, N >= 0.",
  "all real (hence all integer) counts","continuum of inputs","metric/IDF.go:IdfBM25")
p("C64","BM25 is non-negative and zero exactly for non-matching documents",
  "With non-negative frequencies, n <= N, positive average length, positive boost (0 meaning 1) and the constants used by Search, a document's BM25 score is >= 0 and is 0 iff no query term occurs in it.",
  "all inputs in range","continuum","similarity/BM25.go:BM25")
p("C65","BM25 rewards frequency, penalises length and saturates",
  "BM25 is monotone in each term frequency, antitone in the field length, and each term's contribution is below boost*idf*(k1+1).",
  "all inputs in range","continuum","similarity/BM25.go:BM25")
p("C66","Boost scales the score, and 0 means 1",
  "BM25 with boost c*b is c times BM25 with boost b for non-zero boosts; boost 0 equals boost 1.",
  "all inputs","continuum","similarity/BM25.go:BM25")
p("C67","BM25 is a sum over query terms",
  "The score of a concatenated query is the sum of the scores, the order of terms is irrelevant and a term listed k times counts k times.",
  "all queries","unbounded","similarity/BM25.go:BM25")
p("C68","Scores are never NaN",
  "Every score returned by Search is a finite number.",
  "every history, every query","division by a zero average needs special data","similarity/BM25.go:BM25","index/InvertedIndex.go:Search")
# ---------------------------------------------------------------- http
p("C69","GET /nir returns the best results for any number of hits",
  "GET /nir answers with the min(10, n) best-ranked documents and their count for every number n of hits.",
  "every result list","boundary n in 1..9","main.go:main (r.GET)")
p("C70","POST /nir indexes exactly the three fields or nothing",
  "A document with empty id is rejected and leaves the index unchanged; otherwise the fields id, title and text are indexed under the given id with the terms of Preprocessing, and the document is then found by Search for any term of its title or text.",
  "every document, every prior index","unbounded","main.go:main (r.POST)")
p("C71","A crash never makes the folder unopenable",
  "Wherever the process is killed, a later NewDiskStore on the same folder succeeds.",
  "every history, schedule and crash point","needs a kill inside one os.WriteFile","storage/DiskIO.go:SaveIndexOnDisk","storage/DiskIO.go:LoadIndexOnHD","file/File.go:SaveFileOnDisk")
p("C72","After a crash, a field's size and length are from the same moment",
  "Wherever the process is killed, the counters can be loaded again, and the size and length a reopened store answers for a field are, cut to 32 bits, a size and length it answered together at some earlier moment.",
  "every history, schedule and crash point, any number of restarts","crash points","storage/DiskIO.go:SaveFieldSizeLengthOnDisc","storage/DiskIO.go:LoadFieldSizeLengthOnHD","file/File.go:SecureSaveFile")
p("C73","Flushed sizes and lengths never fall",
  "Once the metrics writer has flushed, GetFieldSize and GetFieldLength never again return less than at that moment, through any later saves, flushes, crashes and restarts.",
  "every history, schedule and crash point, any number of restarts","crash points","storage/DiskIO.go:SaveFieldSizeLengthOnDisc","file/File.go:SecureSaveFile")
p("C74","Stop word tables",
  "GetWords has a table for exactly the languages EN and PT; each table marks exactly the listed words; every stop word is a non-empty string of lower case ASCII letters, so after Lowercase a stop word is removed in any letter case, while a token with an accented letter is never removed.",
  "every language string, every token","all strings","language/Language.go:GetWords","language/StopEnglish.go","language/StopPortuguese.go","filter/StopWords.go:Process")
p("C75","Flushing a document does not race with saving it",
  "The document writer never reads a document's field map at the same moment as a SaveOrUpdate of that document writes it.",
  "every history and schedule","needs a save inside the flush of the same document","storage/DiskStorage.go:UpdateFieldDocument","storage/DiskIO.go:SaveDocumentFieldOnDisk")
p("C76","Document reads, saves and flushes never panic",
  "With cacheSize at least 1, in every state reachable through saves, reads, flushes, crashes and restarts, GetFields answers, SaveOrUpdate's document part goes through, and a flush that has begun can go on to its end.",
  "every history, schedule, crash point, cache size at least 1","unbounded","storage/DiskStorage.go:GetFields","storage/DiskStorage.go:UpdateFieldDocument","storage/DiskIO.go:LoadFieldDocumentOnHD","cache/LRU.go:Put")
p("C77","Every call on a Disk store completes",
  "SaveOrUpdate and UpdateIndex on a Disk store opened with cacheSize at least 1 never panic and always return: while a call is in progress the client or one of the writer goroutines can take a step without waiting for a ticker, under every schedule those steps are finite in number, and when none is left the call has returned.",
  "every history, crash point and schedule of the four writers, any number of restarts","needs every interleaving of five goroutines, a full index channel, a flush in progress","storage/DiskStorage.go:SaveOrUpdate","storage/DiskStorage.go:UpdateIndex","storage/DiskIO.go:SaveIndex","storage/DiskIO.go:SaveFieldSizeLength","storage/DiskIO.go:SaveNumberFieldTerm","storage/DiskIO.go:SaveDocumentField")
p("C78","Searching a Disk store gives what searching a Memory store gives",
  "A Search between two calls on a Disk store that this process created, with a cache no smaller than the number of documents saved, has the same possible results as the same Search on a Memory store that got the same SaveOrUpdate calls, up to the order of equal scores; it lists exactly the documents saved under a queried field with a queried term.",
  "every history of saves, every schedule of the writers and of the search, every query, any kind of number","unbounded histories and schedules","index/InvertedIndex.go:Search","search/Standard.go:Search","storage/DiskStorage.go:GetDocuments","storage/DiskStorage.go:GetFields")
p("C79","A clean restart keeps the store",
  "When everything saved has been written, the folder can be opened again with any cache size, and the reopened store has the same postings, the same sizes and lengths (as far as they fit in 32 bits), the same stored fields, and a Search lists the same documents.",
  "every history of saves, every schedule of the writers; the postings and counters also after any earlier crashes","unbounded histories and schedules","storage/DiskStorage.go:NewDiskStore","storage/DiskIO.go:LoadIndexOnHD","storage/DiskIO.go:LoadFieldSizeLengthOnHD","storage/DiskIO.go:LoadFieldDocumentOnHD")
p("C80","A clean restart keeps the ranking",
  "When everything saved has been written, closing and reopening the store does not change the scores or the ranking of any Search.",
  "every history of saves, every schedule, every query","needs two flushes with different terms before the restart","storage/DiskIO.go:SaveNumberFieldTerm","storage/DiskIO.go:LoadNumberFieldTermOnHD","search/Standard.go:Search")
p("C81","Indexing a JSON document makes every value findable by its dotted path",
  "Indexing JSON documents (Flatten, GetID, Preprocessing, IndexDocument) whose keys are non-empty and dot-free never panics; each is indexed under its Id, or under the uuid when it has none; each value is stored and indexed under its dotted path with the terms of its text; and after indexing any list of documents Search returns a document iff the value at a queried path shares a term with the query.",
  "every list of JSON documents of any depth, every map iteration order, every search schedule, Memory and Disk stores","unbounded nesting and orders","main.go:mainxcrt","main.go:Preprocessing","field/FieldProcess.go:Flatten","field/FieldProcess.go:GetID","index/InvertedIndex.go:IndexDocument")
p("C82","A JSON number, boolean or null adds only the terms of its own text",
  "A JSON value is indexed under the terms of its own text and no others, and a document with a numeric Id is indexed under that number.",
  "every JSON value","needs a value that is not a string","main.go:mainxcrt","field/FieldProcess.go:GetID")
p("C83","Concurrent calls behave like the same calls one after the other",
  "When several clients (such as concurrent HTTP requests) call SaveOrUpdate and UpdateIndex on one Memory store, then once all calls have returned the store answers as if it had got the calls one after the other in some order: every saved document is found, every stored field is returned, and the counters count every call.",
  "every number of clients, every program of each, every interleaving of their map accesses","needs every interleaving","storage/Memory.go:SaveOrUpdate","storage/Memory.go:UpdateIndex","main.go:main")
p("C84","Concurrent calls do not race",
  "No two clients of a Memory store ever access the same Go map at the same time when one of the accesses is a write.",
  "every number of clients, every program of each, every interleaving","needs a schedule","storage/Memory.go:SaveOrUpdate","storage/Memory.go:UpdateIndex","main.go:main")
p("C85","A search during saves returns only what was saved",
  "Whatever clients save to a Memory store before and during a search, every document that the search returns was given to a call that posts it under one of the terms, and the field returned for it is one that a SaveOrUpdate of this document was given. If nobody saves during the search, it returns exactly the documents and numbers that the store answers.",
  "every number of clients, every program of each, every interleaving of their map accesses with those of the goroutines of the search, every map iteration order","needs every interleaving","index/InvertedIndex.go:Search","storage/Memory.go:GetDocuments","storage/Memory.go:GetFields","main.go:main")
p("C86","A search during saves returns what was saved before it",
  "A document whose SaveOrUpdate had returned before the search began, with a term of the search, is returned by the search, with the field saved last or one saved during the search, whatever the clients save meanwhile.",
  "every number of clients, every program of each, every interleaving","needs every interleaving","index/InvertedIndex.go:Search","storage/Memory.go:UpdateIndex","storage/Memory.go:SaveOrUpdate")
p("C87","The numbers of a search during saves fit together",
  "The number of documents, the total length and the document frequencies that a search reads while clients save lie between those before the search and those after it, and fit the documents that it returns: the score of every returned document is a finite number.",
  "every number of clients, every program of each, every interleaving","needs every interleaving","index/InvertedIndex.go:Search","storage/Memory.go:GetFieldSize","storage/Memory.go:GetFieldLength","storage/Memory.go:GetNumberFieldTerm","metric/BM25.go:BM25")
p("C88","A search ends, also during saves",
  "A search on a Memory store never deadlocks and ends after finitely many steps, whatever clients with finitely many calls to make do meanwhile.",
  "every number of clients, every program of each, every interleaving, every number of CPUs","needs every schedule and infinite runs","index/InvertedIndex.go:Search","storage/Memory.go:GetDocuments")
p("C89","Concurrent calls on a Disk store never invent anything",
  "Whatever any number of clients do on one Disk store at the same time, over any number of processes and crashes: GetDocuments lists a document only if a call that has begun posts it under the term; GetFields returns for a document and a field name only a field that a SaveOrUpdate of them was given (its frequencies perhaps cut to 32 bits); and GetFieldSize, GetFieldLength and GetNumberFieldTerm are never above what the calls that have begun add up to.",
  "every number of clients, every program of each, every interleaving of their map accesses with the four writers, every crash point and number of restarts","needs every interleaving and crash point","storage/DiskStorage.go:SaveOrUpdate","storage/DiskStorage.go:UpdateIndex","storage/DiskStorage.go:GetFields","storage/DiskIO.go","main.go:main")
p("C90","A clean restart keeps the postings that concurrent clients saved",
  "When the index writer of a Disk store with several clients has written everything, the folder opens again, every posting of every call that had returned is there, and GetDocuments answers as before the restart.",
  "every number of clients, every program of each, every interleaving, every earlier crash","needs every interleaving","storage/DiskStorage.go:UpdateIndex","storage/DiskIO.go:SaveIndex","storage/DiskIO.go:LoadIndexOnHD")
p("C91","Every call of every client of a Disk store completes",
  "With several clients on one Disk store opened with cacheSize at least 1, no call waits forever: as long as a client has calls to make, that client or a writer can take a step without waiting for a ticker or for another client; under every schedule those steps are finite in number, and when none is left all calls of all clients have returned.",
  "every number of clients, every program of each, every schedule of clients and writers, every earlier crash","needs every interleaving of clients and writers that share unbuffered channels","storage/DiskStorage.go:SaveOrUpdate","storage/DiskStorage.go:UpdateIndex","storage/DiskStorage.go:GetFields","storage/DiskIO.go:SaveFieldSizeLength","storage/DiskIO.go:SaveNumberFieldTerm","storage/DiskIO.go:SaveDocumentField","storage/DiskIO.go:SaveIndex")
p("C92","A field that one client saves is exact on a Disk store",
  "If in this process only one of several clients of a Disk store saves a field, then whenever that client is not in a call on the field, its size, length, document frequencies and postings are exactly those found when the store was opened plus what the returned calls of this process add, whatever the other clients, the writers and the tickers do.",
  "every number of clients, every program of each, every interleaving with the writers, every earlier history of crashes and restarts","needs every interleaving","storage/DiskStorage.go:SaveOrUpdate","storage/DiskStorage.go:UpdateFieldSizeLength","storage/DiskStorage.go:UpdateNumberFieldTerm","storage/DiskStorage.go:UpdateIndex")
p("C93","A clean restart keeps the sizes and lengths that concurrent clients counted",
  "When all calls of all clients of a Disk store have returned and the writers have written everything, closing and reopening the store does not change GetFieldSize, GetFieldLength or GetDocuments of a field.",
  "every number of clients, every program of each, every interleaving, every earlier crash","needs an overtaken message","storage/DiskStorage.go:UpdateFieldSizeLength","storage/DiskIO.go:SaveFieldSizeLength","storage/DiskIO.go:LoadFieldSizeLengthOnHD")
p("C94","GetFields on a Disk store with several clients returns what was saved last",
  "When SaveOrUpdate of a document and a field has returned, the next GetFields of any client of the Disk store returns this field, and so does GetFields after a clean restart, whatever other clients save or read meanwhile.",
  "every number of clients, every program of each, every interleaving with the writer, every earlier history of crashes","needs every interleaving of cache misses, loads and saves","storage/DiskStorage.go:UpdateFieldDocument","storage/DiskStorage.go:GetFields","storage/DiskIO.go:LoadFieldDocumentOnHD","storage/DiskIO.go:SaveDocumentField")
p("C95","All readers of a document that nobody saves agree, for ever",
  "If from some moment, when no process runs, no client of any later process saves a document, then every GetFields of every client of every later process returns for it exactly what its file held at that moment, with any cache sizes, evictions, crashes and concurrent saves of other documents.",
  "every number of processes, clients and programs, every interleaving, crash point and cache size","unbounded histories and interleavings","storage/DiskStorage.go:GetFields","storage/DiskIO.go:LoadFieldDocumentOnHD","cache/LRU.go:Put")
p("C96","The goroutines of a Disk store do not race",
  "No two goroutines of a Disk store (the clients that call SaveOrUpdate, UpdateIndex and GetFields, and the goroutine that writes the documents) are ever about to access the same map, the list of pages of the cache or the same cached value, one of them writing, with nothing ordering the two accesses.",
  "every number of clients and programs, every interleaving, every cache content","interleavings of real goroutines; the race detector only sees the schedules it runs","storage/DiskStorage.go:SaveOrUpdate","storage/DiskStorage.go:GetFields","storage/DiskIO.go:SaveDocumentField","cache/LRU.go:Get")
p("C97","A search of a live Disk store returns only what was saved",
  "Whatever the clients and the goroutines of a Disk store do before and during InvertedIndex.Search, in this process and in earlier ones with any crashes: a document that the search returns was given, with one of its terms in the field, to a call that had begun by then; the field returned for it is one that a SaveOrUpdate of this document and field name was given, or that field with its frequencies cut to 32 bits; and the size, length and document frequencies that it ranks with are not above what the calls that have begun add up to.",
  "every history of processes and crashes, every number of clients, every program of each, every interleaving with the goroutines of the search, every number of CPUs","every interleaving of the goroutines of GET and POST requests","index/InvertedIndex.go:Search","storage/DiskStorage.go:GetFields","storage/DiskStorage.go:GetDocuments","main.go:main")
p("C98","A search of a live Disk store ends",
  "On a Disk store opened with cacheSize at least 1, InvertedIndex.Search never panics in the store and waits for no client, writer or ticker: whenever it has not returned, one of its goroutines can step; left alone it returns; and in no run, also an infinite one, does it make infinitely many steps.",
  "every history of processes and crashes, every number of clients, every program of each, every interleaving, every number of CPUs, infinite runs","every schedule, and infinite runs (tickers)","index/InvertedIndex.go:Search","storage/DiskStorage.go:GetFields","cache/LRU.go:Put")
p("C99","A search of a live Disk store finds the documents that nobody is saving",
  "Let a document's file hold a field at a moment when no process runs, and let no client of later processes save this document. If, at some moment before the search, GetDocuments lists the document under a term of the search in this field while no call that writes the field is in progress (in particular if it is listed when the store is opened), then InvertedIndex.Search, when it returns, returns the document with exactly the field of the file, whatever clients save, index or read before and during the search, with any cache size. So a document that one client saved in an earlier process is found by every search of the next process if the index and the document had been written.",
  "every history of processes and crashes, every number of clients, every program of each, every interleaving with the goroutines of the search, every cache size","every interleaving of cache evictions, loads and concurrent saves of other documents in the same field","index/InvertedIndex.go:Search","storage/DiskStorage.go:GetFields","storage/DiskStorage.go:UpdateIndex","storage/DiskIO.go:LoadIndexOnHD","storage/DiskIO.go:LoadFieldDocumentOnHD")
p("C100","A search of the running server tells only of what was posted",
  "Whatever requests POST and GET the server handles at the same time, in this process and in earlier ones with any crashes: when Standard.Search returns a ranking, every document in it is there once, with the sum of the BM25 scores that the answers of its queries give it, one answer per query; and every answer tells only of documents that were posted with one of the query's terms in the field, with a field that was given to a SaveOrUpdate of this document (perhaps with frequencies cut to 32 bits), ranked with numbers that are not above what the calls that have begun add up to. Over the reals, the ranking is sorted by score.",
  "every history of processes and crashes, every number of requests under way, every number of queries per search, every interleaving of all their goroutines","every interleaving of all requests, goroutines of searches and writers","search/Standard.go:Search","index/InvertedIndex.go:Search","storage/DiskStorage.go:GetFields","main.go:main")
p("C101","Every search of the running server ends",
  "On a server whose store was opened with cacheSize at least 1, no search waits for another search, a save, a writer or a ticker: one that has not returned can always step, left alone it returns, and in no run of the process, also an infinite one with ever new requests, does it make infinitely many steps; so in every run in which it is not forgotten for ever it returns.",
  "every history of processes and crashes, every number of requests, every number of queries per search, every interleaving, infinite runs","every schedule, and infinite runs (requests arrive for ever)","search/Standard.go:Search","index/InvertedIndex.go:Search","storage/DiskStorage.go:GetFields")
p("C102","A search of the running server finds a stored document that nobody saves",
  "Let a document's file hold a field at a moment when no process runs, and let no client of later processes save this document. If, when a search arrives, GetDocuments lists the document under a term in this field and no call that writes the field is in progress, then the ranking that the search returns has the document in it if one of its queries is for this field and term, scored by exactly the field of the file; and GET /nir then answers with the first ten of the ranking, or panics because fewer than ten were found.",
  "every history of processes and crashes, every number of requests under way, every program of the saving clients, every interleaving, every cache size","every interleaving of cache evictions by other searches, loads, and concurrent saves in the same field","search/Standard.go:Search","index/InvertedIndex.go:Search","storage/DiskStorage.go:GetFields","main.go:main")
p("C103","Searches do not disturb each other",
  "If nobody saves since a moment when no process ran, then every search of the server, whatever other searches and reads run at the same time, and through any number of restarts, returns exactly what Standard.Search returns on a store that stands still: each document that is listed for a term of one of its queries and whose file has the field, once, with the sum of its BM25 scores by the numbers of the store. Over the reals, any two searches of one process with the same queries give every document the same score.",
  "every history of processes and crashes before, every number of concurrent searches and queries, every interleaving, every cache size","every interleaving of searches that evict each other's pages from the cache","search/Standard.go:Search","index/InvertedIndex.go:Search","storage/DiskStorage.go:GetFields","cache/LRU.go:Put")
p("C104","Rounding changes scores by little, and the ranking only among nearly equal documents",
  "For non-negative boosts and a store in which no more documents contain a term than have the field: the score that Search returns for a document differs from the BM25 sum computed without rounding by a relative error of at most (16 N + 2 T + 2 Q + 50) / 2^53, for Q queries of at most T terms on fields of at most N documents, whatever the schedule; so two searches give a document scores within twice that, and a document whose exact score exceeds another's by more than the errors comes before it in the results.",
  "every history of saves, every list of queries, every schedule, all frequencies and lengths, N, T and Q up to 2^40","a continuum of inputs; the worst case of the rounding of each operation","similarity/BM25.go:BM25","metric/IDF.go:IdfBM25","index/InvertedIndex.go:Search","search/Standard.go:Search")
p("C105","The collection file gives back the documents",
  "What CriarArquivo writes, GetDocuments reads: the same documents in the same order, whatever characters their texts contain (quotes, newlines, HTML, any Unicode), and GetTextDocuments returns exactly one line per document.",
  "every list of documents, every text of their fields","unbounded texts; every combination of escaped characters and multi-byte encodings","testecolection/Teste.go:GravarLinhasNoArquivo","testecolection/Teste.go:GetDocuments","testecolection/Teste.go:GetTextDocuments")
p("C106","A cut or failed write of the collection file costs only the documents cut",
  "If CriarArquivo stops after any number of bytes, GetDocuments does not panic and returns exactly the documents whose lines were completely written. The same holds if a write fails in the middle and others follow.",
  "every list of documents, every crash point (number of bytes written), every failed write","every byte offset of a crash, inside any escape sequence or multi-byte character","testecolection/Teste.go:CriarArquivo","testecolection/Teste.go:GravarLinhasNoArquivo","testecolection/Teste.go:GetDocuments")
p("C107","StringToObject gives the object of the text",
  "For the JSON text of an object that is nested at most 10000 deep and whose numbers strconv.ParseFloat accepts, StringToObject does not panic and the map it returns holds along every path of keys exactly the value that the text has there (the last one, if a key occurs more than once); for null it gives a nil map, and for every other text - no JSON, another kind of value, nested deeper, a number out of range - it panics.",
  "every sequence of bytes; every JSON value of every size and depth, with every text in its keys and strings","unbounded nesting and texts","field/FieldProcess.go:StringToObject")
p("C108","The collection, from file to search",
  "After the documents that CriarArquivo wrote have been read with GetTextDocuments and StringToObject and indexed as mainxcrt does, a search returns exactly the documents that have a term of a query in the field that the query names (Id, Title, Summary, Author), each under its own id, or under the uuid made for it if its id is empty; whatever the order in which maps are visited and goroutines run, in memory, and on disk if the cache is large enough.",
  "every list of documents, every texts, every iteration order, every query and schedule, every timing of the store's background writes","unbounded documents and texts; iteration orders and schedules","testecolection/Teste.go:GetTextDocuments","field/FieldProcess.go:StringToObject","main.go:mainxcrt","search/Standard.go:Search")
p("C109","GetDocuments accepts exactly the files of JSON documents",
  "On any file, whoever wrote it (bytes that are no UTF-8 counting as U+FFFD), GetDocuments returns documents if and only if every line is the JSON text (any white space, any escapes, any key order, extra keys) of an object, nested at most 10000 deep, whose members for the fields of Document are strings or null, or null itself; the fields are then the last strings given for them, whatever the case of the keys, and empty without one; otherwise it panics. Bytes after the last newline do not matter.",
  "every file, every sequence of bytes","unbounded texts; the whole grammar of JSON","testecolection/Teste.go:GetDocuments")
p("C110","POST /nir indexes the documents of its body",
  "POST /nir answers 201 to exactly the bodies that are the JSON object, nested at most 10000 deep, of a document with a non-empty id (fields id, title, text: strings, null or absent, keys in any case), and then the terms of exactly that document become searchable under its id; every other body is answered 400 and changes nothing. After any sequence of requests a search of GET /nir returns exactly the ids of the accepted documents that have a term of the query in title or text.",
  "every body (every sequence of bytes), every history, every sequence of requests, every query and schedule","unbounded bodies; the whole grammar of JSON","main.go:main","main.go:isNotDocumentComplete")
p("C111","The bytes of the storage files give back the data",
  "Whatever bytes SerializeNumberFieldTerm, SerializeFieldMap, SerializeIndex and SerializeFieldSizeLength return, the matching Deserialize function reads back from those bytes the same map (counts cut to 32 bits), without panicking; the serializers return bytes whenever the strings of the data and about 50 to 120 bytes for each entry stay below 1 GiB, and panic whenever the strings alone exceed it. A file of less than four bytes makes every Deserialize function panic.",
  "every map, every text of its keys, every order of iteration","unbounded maps and texts; every alignment, every reuse of a vtable, every growth of the buffer","storage/Serialize.go:SerializeNumberFieldTerm","storage/Serialize.go:SerializeFieldMap","storage/Serialize.go:SerializeIndex","storage/Serialize.go:DeserializeIndex","storage/buffers/Index.go:Entries")
p("C112","Scores are finite float64 numbers close to the exact ones",
  "In IEEE 754 double precision, with its range of exponents, subnormal numbers, signed zeros, infinities and NaN, and with any math.Log that is within one unit in the last place, and whichever sums of a product the compiler fuses: on a store in which no more documents contain a term than have the field and whose lengths and frequencies are Go ints, for boosts that are 0 or between 2^-100 and 2^100, every score that Search returns is finite (never NaN or infinite) and within a relative error of (16 N + 2 T + 2 Q + 56) / 2^53 of the exact BM25 sum, whatever the schedule, and documents whose exact scores differ by more than the errors come in the right order. For a boost near the end of the range this fails.",
  "every history of saves, every list of queries, every schedule, every implementation of math.Log, every choice of fused multiply-adds, N, T and Q up to 2^40","a continuum of inputs; overflow and underflow in every intermediate result","similarity/BM25.go:BM25","metric/IDF.go:IdfBM25","index/InvertedIndex.go:Search","search/Standard.go:Search")
p("C113","Any file of JSON objects, from its bytes to a search",
  "On any file whose lines are JSON objects (or null) with plain keys, within the limits of encoding/json, mainxcrt does not panic; after it has indexed the lines a search returns exactly the ids of those lines that have, along the path of keys that a query names with dots, a value with a term of that query. The id of a line is what is printed for its top-level member Id, or the uuid made for it if there is none or it is empty.",
  "every sequence of bytes as a file, every nesting, every iteration order, every query and schedule, Memory and Disk stores","unbounded files and nesting; orders and schedules","testecolection/Teste.go:GetTextDocuments","field/FieldProcess.go:StringToObject","field/FieldProcess.go:Flatten","main.go:mainxcrt","search/Standard.go:Search")
p("C114","The answers of the server, as bytes a client reads",
  "The bytes that GET /nir sends are the JSON text of an object that tells the number of results, the algorithm, and the results in the order of the ranking with the id and the score of each: ten results, different documents, all of them with a term of the query in title or text, if the accepted bodies contain ten such documents, and no results if they contain none. If a score among the first ten is not finite the answer is 200 with an empty body. POST /nir answers with an object telling 201 or 400. (For one to nine hits see C69.)",
  "every sequence of bodies (bytes), every query string, every text of the ids, every schedule, Memory and Disk stores","unbounded texts; every character that needs escaping","main.go:main","main.go:QueryResult","main.go:Document")
p("C115","The query that is searched is the one the client encoded",
  "Whatever mixture of plain bytes, plus signs and percent escapes a client uses for a text, and whatever other parameters precede or follow it in the query string, GET /nir searches for that text: the value of the first parameter named query, and the empty text if there is none. Malformed parameters are skipped and change nothing.",
  "every sequence of bytes as a query string","unbounded strings; every encoding of a text","main.go:main")
p("C116","What a client is told while others write",
  "While any number of clients POST documents side by side, over any number of processes that may crash anywhere, a GET /nir that is answered is answered truthfully, down to the bytes: either it says that there are no results, or it lists ten different documents each of which some accepted body carried with a term of the decoded query in its title or its text. If it is not answered (the panic of C69), or answered with an empty body, there is at least one such document.",
  "every set of bodies (bytes), every interleaving of handlers, searches, writers and crashes, every query string","interleavings and crash points; unbounded texts","main.go:main","storage/Disk.go:SaveOrUpdate","search/Standard.go:Search")
p("C117","What CompressData writes DecompressData gives back, and nothing else passes",
  "DecompressData returns data exactly for the byte sequences that are gzip files (RFC 1952 and 1951: members with a header, any sequence of stored, fixed and dynamic blocks, the CRC-32 and the length of the data), and then it returns the data they contain; every other sequence of bytes makes it panic. So whatever encoding the compressor chooses, DecompressData(CompressData(x)) is x; a compressed file that was cut short anywhere makes DecompressData panic; two different contents never have the same file; and what is appended to a file must itself be such a file.",
  "every sequence of bytes as a file, every data, every choice of blocks, codes, matches and header fields, every point where a file is cut","unbounded files; all encodings of all data","file/File.go:CompressData","file/File.go:DecompressData")
p("C118","The Disk store keeps its promises on the bytes of its files",
  "Seen through its API, a Disk store in an empty folder, whose files are gzip files of FlatBuffers in one file system, written byte by byte by concurrent goroutines, behaves as if its files held objects that change at once: whatever any number of clients do and wherever processes are killed (after any byte, between any two system calls), GetDocuments, GetFields, sizes, lengths and term counts never show anything that no call gave them; a field that one client saves is exact; a document that one client uses is, while the cache has room for all of them, always read as that client saved it last, also after a restart once it is written, and so are the size and length of a field that one client writes; a document that nobody saves is always read as it is on disk; and once the index writer has nothing left to write, the next process opens the folder (unless a field's index exceeds 1 GiB) and finds at least every posting of every call that had returned. While a process runs, the calls of every client complete after finitely many steps, whatever the other clients do: no client waits for another for ever, and no step ends the process (unless something exceeds the serializer's 1 GiB). (If the process is killed inside the write of a fragment the folder can never be opened again, C71.)",
  "every program of every client, every interleaving of goroutines, every byte as a crash point, every number of processes, every compressor; field names and ids that are plain file names, no id being another one followed by _temp or _old, no field named docs (C42 to C44 for those)","crash points after every byte, interleavings, unbounded histories","storage/Disk.go:NewDiskStore","storage/DiskIO.go","storage/Serialize.go","file/File.go:SecureSaveFile")
p("C119","The whole program keeps its promises on the bytes of its files",
  "main.go over a Disk store in an empty folder, with any number of POST and GET handlers side by side, killed after any byte and started again any number of times: reading the file of a document never panics; every search that returns merges one truthful answer per query; a document whose file held a field when no process ran, which nobody saved since and which is listed for a term, is found with that field, however many crashes and other saves happened between; every search can always go on and returns after finitely many of its own steps; and a GET /nir that is answered lists ten different documents that accepted bodies carried, or says that there are none, down to the bytes of the body and of the files.",
  "every set of bodies (bytes), every interleaving of handlers, searches, goroutines of the store and system calls, every byte as a crash point, every number of processes, every compressor; ids that are plain file names, none being another one followed by _temp or _old","crash points after every byte, interleavings, unbounded histories","main.go:main","storage/Disk.go","storage/DiskIO.go","index/InvertedIndex.go:Search","search/Standard.go:Search")
p("C120","Scores are printed exactly",
  "The number that GET /nir prints next to each document is a JSON number, and the float64 nearest to it is the very score that was computed, sign included: a Go client that decodes the answer gets every score bit by bit. Comparing the printed numbers, however exactly, orders two documents as comparing the scores does.",
  "every finite float64 as a score (subnormal numbers and -0 included), every implementation of the shortest decimal digits, every store, query string and schedule","2^64 numbers, every ranking","main.go:main","main.go:QueryResult")
p("C121","What is indexed for a number in a document",
  "json.Unmarshal accepts a number of a document exactly if its absolute value is less than 2^1024 - 2^970, and what is indexed for it is a number with the same sign and the same nearest float64; two numbers are indexed alike, and as ids of two documents are one id, exactly if they agree in both. A whole number below a million is indexed under its digits, so a search for them in the field with its path finds the document. From a million on it is not (1000000 is indexed as 1e+06), the ids 9007199254740993 and 9007199254740992 are one, and a literal whose exponent has more digits than strconv reads may be indexed as another number.",
  "every JSON number literal of at most 9000 characters, every implementation of the shortest decimal digits, every file of objects, every schedule","infinitely many literals; every rounding","field/FieldProcess.go:StringToObject","field/FieldProcess.go:Flatten","main.go:mainxcrt")
p("C122","Counters that exceed Go's int",
  "On a 64-bit machine GetFieldSize, GetFieldLength and GetNumberFieldTerm return the exact counts modulo 2^64 (as signed numbers), and GetDocuments and GetFields do not notice. If fewer than 2^63 calls were made and the lengths of each field add up to less than 2^63, every answer, and so every search, is as with unbounded numbers; through POST /nir that is so as long as fewer than 2^61 characters were posted. Through the library the length of a field is the caller's: two fields of length 2^62 have together a negative length.",
  "every history of calls, every length a caller passes, every set of requests","unbounded histories; totals that no test can reach by counting","storage/Memory.go:UpdateIndex","storage/Memory.go:SaveOrUpdate","main.go:main")
p("C123","From the feed to the collection and to a search",
  "CriarArquivo replaces the file of the collection by one from which GetDocuments reads, in the order of the feed, one document for each entry, with a new id, the text of the entry's last title, of its last summary, and the name of its last author that has one; after mainxcrt has indexed it a search returns exactly the ids of the entries with a term of a query in the field it names. A body that is no XML or no feed leaves the file as it was; without an answer from the server CriarArquivo panics. Of several authors only the last can be searched.",
  "every tree of XML elements as the feed, every iteration order, every query and schedule","unbounded trees; repeated and missing elements in every order","testecolection/Teste.go:CriarArquivo","testecolection/Teste.go:GetArvixData","testecolection/Teste.go:GetDocuments","main.go:mainxcrt")
p("C124","When file operations fail",
  "Whatever file operations of a Disk store fail, at any moment and for any reason (no space, too many open files, a bad disk), GetDocuments, GetFields, sizes, lengths and term counts show nothing that no call gave them, a field that one client saves stays exact in memory, and what happens is what could have happened without failures to clients that ask for fewer documents. If no rename of a new index into place failed, the next process opens the folder and finds every posting of every call that had returned. But the failures are silent: an operation of the background merge that fails ends merging until the process ends; if that operation is the rename of the new index, the postings of the field are lost at the next restart although the process goes on finding them; a document whose file cannot be read at the moment is left out of the answer of GetFields as if it had never been saved.",
  "every program of every client, every interleaving, every operation at which a failure can happen, every number of failures and processes, every byte as a crash point, every compressor; names as in C118","failures of the operating system at every operation, in every combination, with every interleaving","storage/DiskIO.go:LoadIndexOnHD","storage/DiskIO.go:LoadFieldDocumentOnHD","storage/DiskStorage.go:NewDiskStore","storage/DiskStorage.go:GetFields","file/File.go:SecureSaveFile")
p("C125","A search ranks by BM25 of the texts that were put in",
  "If every document is saved with at most one text for each field, Search returns exactly the documents with a term of a query in the field of that query, each once, with a finite float64 score within (16 N + 2 T + 2 Q + 56) / 2^53 of the sum over the queries of boost times BM25 of the document's text among all texts of the field, computed from the texts alone; documents whose BM25 scores differ by more than the errors come in the right order. On a Memory store, and in the first process of a Disk store with a cache for all documents.",
  "every collection of texts, every list of queries, every schedule, every order of the steps of the store's goroutines, every implementation of math.Log, N, T and Q up to 2^40","a continuum of collections, every schedule","search/Standard.go:Search","index/InvertedIndex.go:Search","index/InvertedIndex.go:IndexDocument","similarity/BM25.go:BM25","storage/MemoryStorage.go:SaveOrUpdate","storage/DiskStorage.go:SaveOrUpdate")
p("C126","From the bytes of the requests to the bytes of the ranking",
  "If the accepted bodies of POST /nir, sent one after the other, carry every id once, then for every query string the body that GET /nir sends lists, if ten or more of the posted documents have a word of the query in title or text, ten different ones of them; the float64 nearest to the number next to each is, up to a relative error of (16 N + 2 T + 60) / 2^53, BM25 of its title among the posted titles plus BM25 of its text among the posted texts; the numbers do not increase from one to the next; and no document that is listed below another one or left out has a higher BM25 score than that one beyond the errors. If none of the documents has a word, the body says that there are none. (For one to nine see C69.)",
  "every sequence of bodies (bytes), every query string (bytes), every schedule, Memory and Disk stores (first process), every implementation of math.Log and of the shortest digits","unbounded bodies; a continuum of scores; every schedule","main.go:main","search/Standard.go:Search","similarity/BM25.go:BM25","storage/DiskStorage.go:SaveOrUpdate")
p("C127","A busy server ranks by BM25 of what was put in",
  "If the clients of the first process of the disk store save every text once, side by side but no two on the same field or document, with a cache for all documents, and all have returned, then any number of searches that arrive afterwards and run side by side, while the goroutines of the store write their files, return what C125 says: exactly the documents with a term, finite scores close to BM25 of the collection, and the right order. If one HTTP client has posted documents with different ids, the bytes of every answer to every GET request that arrives afterwards are the ranking of the posted documents that C126 describes, whatever other requests run at the same time. The same holds for the bytes of the files (gzip, FlatBuffers) that the store writes and reads.",
  "every collection, every number of clients, every interleaving of their steps, of the goroutines of the store and of any number of searches, every cpu count, every query, every implementation of math.Log and of the shortest digits","every interleaving of unboundedly many searches and writers","main.go:main","search/Standard.go:Search","index/InvertedIndex.go:Search","similarity/BM25.go:BM25","storage/DiskStorage.go:SaveOrUpdate","storage/DiskStorage.go:GetFields","cache/LRU.go:Get")
p("C128","Opening any folder: exactly what its files say, or no store",
  "Whatever files are in the folder, however they came there: if NewDiskStore returns a store, GetDocuments returns for every field and term exactly the documents that the index file or a fragment in the directory of the field lists, size and length of a field are those of a metrics file that names the field (0 if there is none), the term counts those of the file in its directory (0 if there is none); the folder says the same afterwards, no fragment is left, and no other file has changed. If one of these files cannot be read (cut short, changed, foreign, a directory in its place, or a file in the place of the directory of the fragments), no process ever opens the store and the file stays as it is. If all can be read, the store opens, unless a directory is in the way of the two files an index is written with, or an index needs 1 GiB. As long as clients only read, every call of GetFields that returns has returned exactly what the files of the documents hold, none of which is damaged. The sizes go by the name inside the metrics file: a directory that was renamed keeps its documents and loses its size and length.",
  "every file tree with every content, every number of processes, every byte as a crash point, every interleaving of any number of reading clients with the background merge, every compressor","every content of every file; foreign and damaged folders","storage/DiskStorage.go:NewDiskStore","storage/DiskStorage.go:GetFields","storage/DiskIO.go:LoadIndexOnHD","storage/DiskIO.go:LoadFieldSizeLengthOnHD","storage/DiskIO.go:LoadNumberFieldTermOnHD","storage/DiskIO.go:LoadFieldDocumentOnHD","storage/DiskIO.go:LoadTermDocumentsFromIndex")
p("C129","Searches on any folder, and replicas",
  "Whatever files are in the folder: once NewDiskStore has returned a store and as long as the clients only read, every search that returns - any number of them side by side, with any number of GetFields calls, while the store merges its index in the background - returns what Search returns on a store that stands still and whose answers are what the files of the folder say: a document (whose id is the name of a file) is in the answer exactly if a query gives it a score, once, with the sum of its BM25 scores. A search never leaves a document out because its file is damaged: such a file ends the process. If no listed document is damaged (and the cache has room), no search panics, every search can always go on, by itself it returns, and in no run does it make infinitely many steps. Two processes that have opened two copies of a folder give the same answers: for a single query with any arithmetic, for several with exact arithmetic.",
  "every file tree with every content, every interleaving of any number of searches, reading clients and the background merge, every cpu count, every cache size, every query, every compressor","every content of every file and every schedule of unboundedly many searches","search/Standard.go:Search","index/InvertedIndex.go:Search","storage/DiskStorage.go:NewDiskStore","storage/DiskStorage.go:GetFields","storage/DiskIO.go:LoadFieldDocumentOnHD","similarity/BM25.go:BM25","cache/LRU.go:Get","cache/LRU.go:Put")
p("C130","Reading a store cannot lose anything, even when the process is killed",
  "Any number of processes open a folder one after another, none of them writes anything through the interface, and each is killed at any moment, even between two bytes of a file. English: the folder goes on saying what it said at first, of every field, every term and every document, and the next process answers from it. FALSE of the code: at every opening (and every few seconds) the index file of every field is rewritten although nothing has changed, and a process that is killed between the two renames of that leaves the field without its index; the next process opens without an error, finds no document of the field, and overwrites the two files that still held it. What is true: as long as no process ends while an index file is missing that was there before, every field says what it said at first and the next process answers so; at the moment at which the index file is missing the file index_temp holds all of it; the folder never says anything new; and whatever the moments of the kills, the sizes, the lengths, the term counts, the documents and every file that does not belong to an index stay as they were.",
  "every file tree with every content, any number of processes and kills at any byte, every interleaving of reading clients with the background merge, every compressor","a kill can come between any two bytes of any process, and the losses of several processes add up","storage/DiskIO.go:LoadIndexOnHD","file/File.go:SecureSaveFile","storage/DiskStorage.go:NewDiskStore")
p("C131","Several processes can read one folder at the same time",
  "The program is made to run without a server of its own: several instances mount one folder. Any number of processes open the same folder, each at any time, none of them writes anything through the interface, and each may be killed at any moment. English: every process comes up and answers what the folder says, and the folder goes on saying it. FALSE of the code: opening a folder rewrites the index of every field, so that a process that opens it while another one stands between its two renames loads an empty index for the field, answers that there is no such document, and then writes the empty index over the good one: no process was killed, no error occurred, and the field is gone from every file; and a process that has listed a fragment that another one merges does not open at all. What is true: if no two processes merge at the same time (opening is a merge, and so is the background job every few seconds), and no process ends while an index file is missing, every process that has come up answers exactly what the folder said before the first of them was started (documents, stored fields, sizes, lengths, counts), its GetFields return what is stored, the folder says the same throughout, but for the one field between its two renames, whose index_temp then holds all of it, and no file that does not belong to an index changes; every search that returns, at whatever instance, is the ranking of what the folder said at first, equal searches at two instances agree, and (if the listed documents are undamaged) every search returns unless it is left waiting for ever or its instance is killed.",
  "every file tree with every content, any number of processes, every interleaving of their openings, kills, background merges and reading clients, byte by byte, every compressor","the schedules of several operating system processes cannot be controlled by a test, and the loss needs one of them to read within the few microseconds between two renames of another","storage/DiskIO.go:LoadIndexOnHD","file/File.go:SecureSaveFile","storage/DiskStorage.go:NewDiskStore","storage/DiskStorage.go:GetFields")
p("C132","A backup of a store in use is a copy of the store",
  "Somebody copies the folder file by file (cp -r, rsync, tar, a file synchroniser) while processes use it; none of them writes anything through the interface. English: a process that opens the copy comes up and answers what the folder says. FALSE of the code, although nothing is written and nothing is killed: opening a folder, and the background merge every few seconds, move the postings of the fragments into the index file and then remove the fragments, so that a copy that takes the index file first and the fragments later - the order of the names - has neither the new index nor the fragment, and the copy opens without an error and does not find the document; and even a copy of everything in one moment (a snapshot of the disk) lacks the whole index of a field if the moment is between the two renames. What is true: if no two processes merge at the same time, and no process ends while an index file is missing, nothing is ever in a copy that the folder did not say, the sizes, lengths, term counts and stored documents of the copy are those of the folder, and if the fragments of each field are copied before its index file and no index file is missing in the copy, then the copy says of every field exactly what the folder said at first, and every process that opens it answers documents and searches so, whatever the processes did between the copying of any two files.",
  "every file tree with every content, any number of processes with every interleaving of openings, kills, background merges and reading clients, every order and every moment at which each single file is copied, every compressor","the moment at which a backup reaches a file is not under the control of a test, and the result depends on the order of the merge's steps relative to hundreds of copied files","storage/DiskIO.go:LoadIndexOnHD","file/File.go:SecureSaveFile","storage/DiskStorage.go:NewDiskStore")
p("C133","A pointer from LocalMap.Get is a variable of its own",
  "cache.LocalMap hands out addresses. After every history of Set and Get calls by any callers and of writes through the pointers that Get returned: the pointer of a Get shows what was put last into the variable that the last Set of the key before that Get made, by this Set or by a write through any pointer to it; Get returns nil exactly for the keys never set, and otherwise the variable of the last Set; a later Set, of the same key or of others, never changes what a pointer shows; a write through a pointer to the value of one key never changes the value of another key; the only panic is a write through the pointer of a Get that found nothing; the map that GetData returns has at every moment exactly the keys set until then. The limit: an update that a caller makes through its pointer after another one has set the key is not seen by any later Get.",
  "every history of Set, Get and writes through pointers, in every interleaving (the mutex makes Set and Get atomic), every value type and all keys","which variable a pointer denotes depends on the whole history before the Get that returned it, and sharing shows only when somebody writes later","cache/LocalMap.go:LocalMap.Set","cache/LocalMap.go:LocalMap.Get","cache/LocalMap.go:LocalMap.GetData")
with open('properties.jsonl','w') as f:
    for x in P: f.write(json.dumps(x, ensure_ascii=False)+'\n')
print(len(P))
