{
 "claims": [
  {
   "property": "C01",
   "status": "proved",
   "theorems": [
    "Goir.c01_tokens_are_maximal_runs",
    "Goir.c01_tokens_content"
   ],
   "note": ""
  },
  {
   "property": "C02",
   "status": "proved",
   "theorems": [
    "Goir.c02_tokenize_distributes"
   ],
   "note": ""
  },
  {
   "property": "C03",
   "status": "proved",
   "theorems": [
    "Goir.c03_stopwords_exact"
   ],
   "note": ""
  },
  {
   "property": "C04",
   "status": "proved",
   "theorems": [
    "Goir.StemmerMachine.c04_stemmer_schedule_independent"
   ],
   "note": ""
  },
  {
   "property": "C05",
   "status": "proved",
   "theorems": [
    "Goir.c05_preprocessing_per_token",
    "Goir.c05_preprocessing_distributes",
    "Goir.c05_preprocessing_case_insensitive",
    "Goir.c05_preprocessing_ignores_case"
   ],
   "note": ""
  },
  {
   "property": "C06",
   "status": "partial",
   "theorems": [
    "Goir.c06_no_stopword_emitted_refuted",
    "Goir.c06_emitted_terms_partial"
   ],
   "note": "False of the code: the stemmer runs after the stop-word filter and can produce a stop word. Refuted with a witness; the true part (what is emitted) is the _partial theorem."
  },
  {
   "property": "C07",
   "status": "partial",
   "theorems": [
    "Goir.Slices.c07_lowercase_mutates_refuted",
    "Goir.Slices.c07_lowercase_in_place",
    "Goir.Slices.c07_other_filters_pure_partial"
   ],
   "note": "False of the code: the lower-case filter writes into the caller's slice. The other filters are proved pure."
  },
  {
   "property": "C08",
   "status": "proved",
   "theorems": [
    "Goir.c08_term_frequency",
    "Goir.c08_field_length"
   ],
   "note": ""
  },
  {
   "property": "C09",
   "status": "proved",
   "theorems": [
    "Goir.c09_flatten_exact",
    "Goir.c09_flatten_order_independent"
   ],
   "note": "For objects whose flattened paths do not clash (PlainKeys); the clash case is C10."
  },
  {
   "property": "C10",
   "status": "partial",
   "theorems": [
    "Goir.c10_flatten_keys_partial",
    "Goir.c10_flatten_deterministic_refuted"
   ],
   "note": "False of the code: keys containing dots clash and the winner depends on map order. The key set is proved determined."
  },
  {
   "property": "C100",
   "status": "proved",
   "theorems": [
    "Goir.c100_asked",
    "Goir.c100_server_search_sound",
    "Goir.c100_document",
    "Goir.c100_sorted",
    "Goir.c100_sorted_float64"
   ],
   "note": "The whole program of main.go without gin and JSON. Sortedness is over the reals, and in float64 unless a score is NaN (C87). Map accesses are atomic in the model; the abort of the Go runtime on concurrent map writes (C96) ends the process as a kill does, which these runs contain at every point."
  },
  {
   "property": "C101",
   "status": "proved",
   "theorems": [
    "Goir.c101_server_search_ends",
    "Goir.c101_fair"
   ],
   "note": "The saved frequency maps have distinct keys (GoValues), as every Go map has. Map accesses are atomic in the model."
  },
  {
   "property": "C102",
   "status": "proved",
   "theorems": [
    "Goir.c102_server_search_finds",
    "Goir.c102_get"
   ],
   "note": "c102_get is the same for the GET handler, with C69's panic for fewer than ten hits. Map accesses are atomic in the model."
  },
  {
   "property": "C103",
   "status": "proved",
   "theorems": [
    "Goir.c103_asked",
    "Goir.c103_returns",
    "Goir.c103_get",
    "Goir.c103_get_float64",
    "Goir.c103_searches_do_not_interfere",
    "Goir.c103_agree"
   ],
   "note": "The agreement of two searches of any number of queries is over the reals (in floats the order of three or more addends can differ, C61); for those of GET /nir it is in float64 (c103_get_float64). Map accesses are atomic in the model; two searches do race on the list of pages of the cache (C96)."
  },
  {
   "property": "C104",
   "status": "proved",
   "theorems": [
    "Goir.c104_memory",
    "Goir.c104_error",
    "Goir.c104_order",
    "Goir.c104_two_runs"
   ],
   "note": "Each operation rounds to 53 bits, ties to even, with an unbounded exponent; math.Log is taken to be correctly rounded."
  },
  {
   "property": "C105",
   "status": "proved",
   "theorems": [
    "Goir.Collection.c105_round_trip"
   ],
   "note": "The documents are those of the feed (C123). The file is bytes, UTF-8; encoding/json is modelled as Go documents it."
  },
  {
   "property": "C106",
   "status": "partial",
   "theorems": [
    "Goir.Collection.c106_crash",
    "Goir.Collection.c106_last_write_fails",
    "Goir.Collection.c106_refuted",
    "Goir.Collection.c106_no_newline_refuted"
   ],
   "note": "Proved for a crash at every byte and for a failure of the last write. Refuted for a failed write in the middle: the error is only printed, the next document is written on the same line, and GetDocuments panics, losing everything."
  },
  {
   "property": "C107",
   "status": "proved",
   "theorems": [
    "Goir.Collection.c107_object",
    "Goir.Collection.c107_values",
    "Goir.Collection.c107_inner_object",
    "Goir.Collection.c107_null",
    "Goir.Collection.c107_panic",
    "Goir.Collection.c107_depth"
   ],
   "note": "For every text of the grammar of RFC 8259 (Spec/Json); bytes that are no UTF-8 count as U+FFFD (Spec/Utf8). Which numbers ParseFloat accepts is a parameter (C121 for what they are)."
  },
  {
   "property": "C108",
   "status": "proved",
   "theorems": [
    "Goir.Collection.c108_collection_searchable",
    "Goir.Collection.c108_disk",
    "Goir.Collection.c108_bad_line"
   ],
   "note": "On disk between two calls and with a cache large enough (see C26, C27 for what happens otherwise)."
  },
  {
   "property": "C109",
   "status": "proved",
   "theorems": [
    "Goir.Collection.c109_get_documents",
    "Goir.Collection.c109_every_file"
   ],
   "note": "Every file (c109_every_file): bytes that are no UTF-8 count as U+FFFD (Spec/Utf8)."
  },
  {
   "property": "C11",
   "status": "proved",
   "theorems": [
    "Goir.c11_getID",
    "Goir.c11_getID_flatten"
   ],
   "note": ""
  },
  {
   "property": "C110",
   "status": "partial",
   "theorems": [
    "Goir.c110_post",
    "Goir.c110_searchable",
    "Goir.c110_unique",
    "Goir.c110_rest_refuted"
   ],
   "note": "Proved with one correction: the body needs only to begin with the object. Refuted: gin's decoder ignores what follows it, so a second document in the same body is dropped and the answer is still 201. On a Memory store."
  },
  {
   "property": "C111",
   "status": "proved",
   "theorems": [
    "Goir.FBB.c111_counts_bytes",
    "Goir.FBB.c111_fields_bytes",
    "Goir.FBB.c111_index_bytes",
    "Goir.FBB.c111_metrics_bytes",
    "Goir.FBB.c111_counts_fit",
    "Goir.FBB.c111_fields_fit",
    "Goir.FBB.c111_index_fit",
    "Goir.FBB.c111_metrics_fit",
    "Goir.FBB.c111_counts_panic",
    "Goir.FBB.c111_fields_panic",
    "Goir.FBB.c111_index_panic",
    "Goir.FBB.c111_any_size_refuted",
    "Goir.FBB.c111_short_file"
   ],
   "note": "The FlatBuffers runtime is modelled from its published source (v23.5.26), which is not in the sandbox. c111_any_size_refuted: a map too large for the buffer makes the serializer panic."
  },
  {
   "property": "C112",
   "status": "proved",
   "theorems": [
    "Goir.c112_memory",
    "Goir.c112_error",
    "Goir.c112_order",
    "Goir.c112_two_runs",
    "Goir.c112_huge_boost_refuted",
    "Goir.c112_rounding",
    "Goir.c112_special_values"
   ],
   "note": "For every choice of the compiler to fuse a multiplication with an addition or not. c112_huge_boost_refuted shows that the bound on the boost is needed: 2^1023 gives NaN on three documents."
  },
  {
   "property": "C113",
   "status": "proved",
   "theorems": [
    "Goir.c113_searchable",
    "Goir.c113_disk",
    "Goir.c113_string"
   ],
   "note": "Keys without dots and not empty (C09 for what happens otherwise). Which number literals fit a float64 and how fmt prints them are parameters (C121 for what they are); what is printed for every other value is modelled (C82)."
  },
  {
   "property": "C114",
   "status": "proved",
   "theorems": [
    "Goir.Http.c114_answer",
    "Goir.Http.c114_unique",
    "Goir.Http.c114_memory",
    "Goir.Http.c114_disk",
    "Goir.Http.c114_post"
   ],
   "note": "How strconv prints a float64 (any JSON number) is a parameter (C120 for what it is), as are the text of the duration and gin's error message. gin 1.9.1 and encoding/json are modelled as documented, not from source in the sandbox. c114_answer covers every number of hits, including the panic of C69."
  },
  {
   "property": "C115",
   "status": "proved",
   "theorems": [
    "Goir.Http.c115_query",
    "Goir.Http.c115_total"
   ],
   "note": "net/url's ParseQuery on bytes; c115_total: every query string asks for exactly one text. Bytes that are no UTF-8 count as U+FFFD."
  },
  {
   "property": "C116",
   "status": "proved",
   "theorems": [
    "Goir.Http.c116_live"
   ],
   "note": "C100 composed with C110, C114 and C115 on the model of the server whose clients run side by side. Soundness only: what the client gets it wanted; that a search during saves may miss documents is C86, and when it must find them C102. The order and the choice of the ten are those of the scores, see C100 and C114."
  },
  {
   "property": "C117",
   "status": "proved",
   "theorems": [
    "Goir.Gzip.c117_reads",
    "Goir.Gzip.c117_panics",
    "Goir.Gzip.c117_one_content",
    "Goir.Gzip.c117_round_trip",
    "Goir.Gzip.c117_injective",
    "Goir.Gzip.c117_truncated",
    "Goir.Gzip.c117_appended"
   ],
   "note": "gzip.Reader, compress/flate's decoder and hash/crc32 are modelled as documented (their source is not in the sandbox); the model was compared with Python's zlib on thousands of files. The compressor is a relation: any sequence of stored, fixed and dynamic blocks that RFC 1951 allows (written_exists: there is one for all data); that Go's compressor emits such a sequence is assumed."
  },
  {
   "property": "C118",
   "status": "proved",
   "theorems": [
    "Goir.BDisk.c118_refines",
    "Goir.BDisk.c118_never_invents",
    "Goir.BDisk.c118_own_field",
    "Goir.BDisk.c118_restart",
    "Goir.BDisk.c118_reopens",
    "Goir.BDisk.c118_own_document",
    "Goir.BDisk.c118_read_only",
    "Goir.BDisk.c118_restart_document",
    "Goir.BDisk.c118_restart_numbers",
    "Goir.BDisk.c118_no_deadlock",
    "Goir.BDisk.c118_ends",
    "Goir.BDisk.c118_every_schedule",
    "Goir.BDisk.c118_alone",
    "Goir.BDisk.namesLeft_of_few",
    "Goir.BDisk.c118_every_cut_fragment_refuted",
    "Goir.BDisk.c118_torn_fragment_refuted"
   ],
   "note": "The gzip reader (C117) and FlatBuffers (C111) are the modelled ones, the compressor is any function whose result is a gzip file of its argument. MkdirAll is one step, directories are listed in the order in which they were made. The names are plain (C42 to C44 for the others). Progress (c118_no_deadlock and the three after it) supposes that in every folder a uuid is left (which is so while there are fewer than 2^36 files: namesLeft_of_few), and stops at data too large for a serializer (TooBig, C111). The two theorems named refuted are the counterpart of C71: a fragment cut short makes the folder unopenable for ever."
  },
  {
   "property": "C119",
   "status": "proved",
   "theorems": [
    "Goir.c119_refines",
    "Goir.c119_no_panic",
    "Goir.c119_asked",
    "Goir.c119_finds",
    "Goir.c119_ends",
    "Goir.c119_live"
   ],
   "note": "C100, C101, C102 and C116 carried over to the server on bytes by a forward simulation (and, for progress, a backward one of single steps). The names are plain (C42 to C44 for the others), clients only make the calls of the handlers, MkdirAll is one step, the compressor is any function whose result is a gzip file of its argument. Map accesses are atomic in the model; the abort of the Go runtime on concurrent map writes (C96) ends the process as a kill does, which these runs contain at every point."
  },
  {
   "property": "C12",
   "status": "proved",
   "theorems": [
    "Goir.c12_set_semantics"
   ],
   "note": ""
  },
  {
   "property": "C120",
   "status": "proved",
   "theorems": [
    "Goir.Strconv.c120_exact",
    "Goir.Strconv.c120_read_back",
    "Goir.Strconv.c120_order",
    "Goir.Strconv.c120_answer"
   ],
   "note": "strconv is modelled as documented: correct rounding, and any shortest digits that are read back as the same float64 (Ryu and Eisel-Lemire are not modelled; Nonempty Digits: there are such digits for every float64). The layout of the digits in the formats e, f and of encoding/json is modelled. Denotes (Spec/Decimal) is the number a literal of RFC 8259 stands for."
  },
  {
   "property": "C121",
   "status": "proved",
   "theorems": [
    "Goir.Strconv.c121_accepted",
    "Goir.Strconv.c121_printed",
    "Goir.Strconv.c121_same",
    "Goir.Strconv.c121_integers",
    "Goir.Strconv.c121_searchable",
    "Goir.Strconv.c121_same_id",
    "Goir.Strconv.c121_million_refuted",
    "Goir.Strconv.c121_ids_clash_refuted",
    "Goir.Strconv.c121_collision_refuted",
    "Goir.Strconv.c121_long_refuted"
   ],
   "note": "The theorems named refuted are the limits that the statement names. For literals of at most 9000 characters; c121_long_refuted is a longer one. strconv as for C120; fmt's verb v is strconv's format g with the threshold 6 of precision -1."
  },
  {
   "property": "C122",
   "status": "proved",
   "theorems": [
    "Goir.c122_wraps",
    "Goir.c122_exact",
    "Goir.c122_served",
    "Goir.c122_refuted"
   ],
   "note": "Memory store. c122_refuted is the negative length that the statement names. Cutting to 32 bits when a Disk store writes its files does not notice the wrapping (toInt32_wrap64); C34 for that."
  },
  {
   "property": "C123",
   "status": "proved",
   "theorems": [
    "Goir.Collection.Feed.c123_file",
    "Goir.Collection.Feed.c123_other",
    "Goir.Collection.Feed.c123_searchable",
    "Goir.Collection.Feed.c123_authors_refuted"
   ],
   "note": "The feed is a tree of elements and texts: how encoding/xml reads its text is not modelled. Links and attributes are left out, nothing reads them. c123_authors_refuted is the last sentence of the statement."
  },
  {
   "property": "C124",
   "status": "proved",
   "theorems": [
    "Goir.BDisk.c124_refines",
    "Goir.BDisk.c124_never_invents",
    "Goir.BDisk.c124_own_field",
    "Goir.BDisk.c124_restart",
    "Goir.BDisk.c124_reopens",
    "Goir.BDisk.c124_stops",
    "Goir.BDisk.c124_rename_refuted",
    "Goir.BDisk.c124_read_refuted"
   ],
   "note": "The theorems named refuted are the losses that the last sentences of the statement name. A write that fails has written any number of its bytes; a rename or removal that fails has changed nothing. Errors of the four writers, of MkdirAll and of ReadDir end the process, as log.Fatal does in the code."
  },
  {
   "property": "C125",
   "status": "proved",
   "theorems": [
    "Goir.c125_search",
    "Goir.c125_memory",
    "Goir.c125_disk"
   ],
   "note": "Spec/Corpus is BM25 of a collection of texts, without index or counters. c125_search is for every store that reads like a memory store that got the saves. That a text must be put in only once is C19; what restarts do to the counters of a Disk store is C32 and C80."
  },
  {
   "property": "C126",
   "status": "proved",
   "theorems": [
    "Goir.Http.c126_memory",
    "Goir.Http.c126_disk",
    "Goir.Http.accepts_total"
   ],
   "note": "C110, C112, C114, C115, C120 and C125 composed. c126_disk: the calls are those of the requests one after the other; for requests side by side see C116 and C119. accepts_total: every sequence of bodies carries some sequence of documents."
  },
  {
   "property": "C127",
   "status": "proved",
   "theorems": [
    "Goir.c127_live",
    "Goir.Http.c127_http",
    "Goir.c127_bytes",
    "Goir.Http.c127_http_bytes"
   ],
   "note": "C125 and C126 for the concurrent server: Model/Server with the clients and goroutines of Model/ConcurrentDisk; the last two for the server whose files are bytes (Model/ServerBytes, names as in C118). Two clients on one field can lose counts (C90), two on one document can lose a field (C94), and a search that runs during a save can make it stale in the cache (c94_refuted_reader); the hypotheses rule out just these."
  },
  {
   "property": "C128",
   "status": "proved",
   "theorems": [
    "Goir.Opening.c128_documents",
    "Goir.Opening.c128_numbers",
    "Goir.Opening.c128_folder_after",
    "Goir.Opening.c128_damage_is_noticed",
    "Goir.Opening.c128_all_read",
    "Goir.Opening.c128_opens",
    "Goir.Opening.c128_fields",
    "Goir.Opening.c128_documents_stay",
    "Goir.Opening.renamed_loses_sizes"
   ],
   "note": "Model/DiskBytes from an arbitrary file system. Spec/Opening says what the files say: gzip as in Spec/Gzip, FlatBuffers by the modelled reader (C111). Assumed of the tree: no name twice, the names are names, and the folder is a directory. renamed_loses_sizes is the last sentence. When several metrics files name one field, the size and length are those of one of them."
  },
  {
   "property": "C129",
   "status": "proved",
   "theorems": [
    "Goir.c129_search",
    "Goir.c129_returns",
    "Goir.c129_no_damage",
    "Goir.c129_no_panic",
    "Goir.c129_ends",
    "Goir.c129_replicas",
    "Goir.c129_replicas_one"
   ],
   "note": "Model/ServerBytes from a folder with any contents (C128). Spec/FolderSearch says which store the answers come from. Ids that are not names of files (they contain a slash, or are . or ..) are outside c129_search and excluded by hypothesis in c129_returns, c129_no_panic and c129_ends. c129_replicas needs that the metrics files do not contradict each other (OneMetrics): the code takes one of them. Cases in Props/FolderServerCases."
  },
  {
   "property": "C13",
   "status": "proved",
   "theorems": [
    "Goir.c13_memory_postings_exact"
   ],
   "note": ""
  },
  {
   "property": "C130",
   "status": "partial",
   "theorems": [
    "Goir.Opening.c130_reading_loses_field_refuted",
    "Goir.Opening.c130_kept_partial",
    "Goir.Opening.c130_reopened_partial",
    "Goir.c130_search_partial",
    "Goir.Opening.c130_nothing_new",
    "Goir.Opening.c130_untouched",
    "Goir.Opening.c130_numbers"
   ],
   "note": "FALSE of the code as stated; c130_reading_loses_field_refuted is the refutation: a folder that is only opened, one kill, and a field is gone from every file. Proved: c130_kept_partial and c130_reopened_partial under the hypothesis, stated about files only, that no process ends while an index file is missing that was there before (NoneMissing, AllThere); c130_nothing_new, c130_untouched and c130_numbers without it. Cases in Props/OpeningKillCases, among them a kill in the middle of the new index file."
  },
  {
   "property": "C131",
   "status": "partial",
   "theorems": [
    "Goir.Shared.c131_two_readers_lose_field_refuted",
    "Goir.Shared.c131_opening_fails_refuted",
    "Goir.Shared.c131_shared_partial",
    "Goir.Shared.c131_answers_partial",
    "Goir.Shared.c131_fields_partial",
    "Goir.Shared.c131_untouched_partial",
    "Goir.Replicas.c131_search_partial",
    "Goir.Replicas.c131_agree_partial",
    "Goir.Replicas.c131_no_panic_partial",
    "Goir.Replicas.c131_progress_partial",
    "Goir.Replicas.c131_returns_partial"
   ],
   "note": "FALSE of the code as stated; two refutations, both computed in the kernel on the bytes: two readers that lose a field without a kill or an error, and a process that does not open. Proved under InTurn (no two processes merge at the same time) and NoneMissing (whenever none merges, every index file is there that was there before), both stated about the states of the run. Props/SharedCases shows a run with two processes, a kill in the middle of a file and overlapping lives that meets both. The searches (Model/Replicas, with the whole search of Model/ServerBytes at every instance): under the same two conditions, stated again about the states of the run, every search returned at any instance is the BM25 ranking of what the folder said at first, and two searches with the same queries agree; if the listed documents are undamaged no search ends an instance, a search that has not returned can always make its next step, and in a run without end it makes finitely many steps however the other instances go on, so it returns unless it waits for ever; Props/ReplicasCases is a run with two instances, the first of which returns a document while the second opens the folder."
  },
  {
   "property": "C132",
   "status": "partial",
   "theorems": [
    "Goir.Shared.c132_index_first_refuted",
    "Goir.Shared.c132_snapshot_refuted",
    "Goir.Shared.c132_copy_partial",
    "Goir.Shared.c132_nothing_new_partial",
    "Goir.Shared.c132_untouched_partial",
    "Goir.Shared.c132_tree",
    "Goir.Shared.c132_numbers_partial",
    "Goir.Shared.c132_opened_partial",
    "Goir.Shared.c132_search_partial"
   ],
   "note": "FALSE of the code as stated; two refutations, both computed in the kernel on the bytes: a copy in the order of the names loses the posting of a fragment, and a snapshot between the two renames loses a field. Spec/Backup says what a copy is: at every path it has what the folder had at the moment at which that path was copied. Proved under InTurn and NoneMissing (of C131), for every assignment of moments to paths: nothing new is in the copy, and with the fragments of a field before its index file and no index file missing it says exactly what the folder said. Simplified: the content of one file is that of one moment. Props/BackupCases has a copy with an old fragment and a new index that meets all hypotheses."
  },
  {
   "property": "C133",
   "status": "proved",
   "theorems": [
    "Goir.LHeap.c133_pointer",
    "Goir.LHeap.c133_get",
    "Goir.LHeap.c133_kept",
    "Goir.LHeap.c133_other_keys",
    "Goir.LHeap.c133_panics",
    "Goir.LHeap.c133_live",
    "Goir.LHeap.c133_update_lost_refuted"
   ],
   "note": "Spec/LocalMap says in terms of the history which Set a pointer comes from. A write through a pointer is one step (the value type may be large: a torn write is outside the model). c133_update_lost_refuted is the limit that the statement names."
  },
  {
   "property": "C14",
   "status": "proved",
   "theorems": [
    "Goir.c14_memory_getFields_latest",
    "Goir.c14_memory_getFieldDocumentTest"
   ],
   "note": ""
  },
  {
   "property": "C15",
   "status": "proved",
   "theorems": [
    "Goir.c15_memory_counters_exact"
   ],
   "note": ""
  },
  {
   "property": "C16",
   "status": "proved",
   "theorems": [
    "Goir.c16_memory_df_le_size"
   ],
   "note": ""
  },
  {
   "property": "C17",
   "status": "proved",
   "theorems": [
    "Goir.c17_memory_frame"
   ],
   "note": ""
  },
  {
   "property": "C18",
   "status": "proved",
   "theorems": [
    "Goir.c18_memory_order_independent"
   ],
   "note": ""
  },
  {
   "property": "C19",
   "status": "partial",
   "theorems": [
    "Goir.c19_resave_replaces_refuted",
    "Goir.c19_stale_postings_persist",
    "Goir.c19_counts_documents_partial"
   ],
   "note": "False of the code: re-saving leaves stale postings and counts twice. Counting is proved for histories that save each pair once."
  },
  {
   "property": "C20",
   "status": "proved",
   "theorems": [
    "Goir.c20_indexDocument_searchable"
   ],
   "note": ""
  },
  {
   "property": "C21",
   "status": "partial",
   "theorems": [
    "Goir.c21_snapshot_refuted",
    "Goir.c21_live_view_partial",
    "Goir.c21_store_call_partial",
    "Goir.c21_change_reaches_the_store_partial",
    "Goir.c21_change_is_local_partial",
    "Goir.c21_not_found_partial",
    "Goir.alias_refines"
   ],
   "note": "False of the code: the returned struct shares the live map. Proved: it is a live view, what each call does to it, and that changing it reaches its own field and term only."
  },
  {
   "property": "C22",
   "status": "proved",
   "theorems": [
    "Goir.c22_disk_like_memory",
    "Goir.c22_getFields_like_memory",
    "Goir.disk_answers"
   ],
   "note": "Between two calls of one client; the stored fields as long as the cache holds all documents saved."
  },
  {
   "property": "C23",
   "status": "partial",
   "theorems": [
    "Goir.c23_updateIndex_differs",
    "Goir.c23_difference_partial"
   ],
   "note": "False of the code: UpdateIndex counts size and length on a Memory store only. Proved: everything else agrees, and exactly how the two counters differ."
  },
  {
   "property": "C24",
   "status": "proved",
   "theorems": [
    "Goir.c24_latest_field_when_nothing_is_evicted"
   ],
   "note": ""
  },
  {
   "property": "C25",
   "status": "proved",
   "theorems": [
    "Goir.c25_found_was_saved",
    "Goir.c25_getFields_never_invents",
    "Goir.c25_store_never_invents"
   ],
   "note": "One iteration in any reachable state, the whole call, and the whole store."
  },
  {
   "property": "C26",
   "status": "partial",
   "theorems": [
    "Goir.c26_refuted_missing",
    "Goir.c26_refuted_stale",
    "Goir.c26_latest_up_to_32_bits_partial",
    "Goir.c26_latest_when_orderly_partial"
   ],
   "note": "False of the code: a document evicted before its flush is not found, or an older version is reloaded and stays. Proved for runs in which documents leave the cache only after they were written and only cached or new documents are saved."
  },
  {
   "property": "C27",
   "status": "partial",
   "theorems": [
    "Goir.c27_refuted",
    "Goir.c27_refuted_permanent",
    "Goir.c27_other_fields_stay_partial"
   ],
   "note": "False of the code: a save of an uncached document starts from an empty map, so after a restart or eviction its other fields are lost, also on disk. Proved for orderly runs."
  },
  {
   "property": "C28",
   "status": "proved",
   "theorems": [
    "Goir.c28_flushed_postings_survive",
    "Goir.c28_on_disk_postings_survive",
    "Goir.sfile_view"
   ],
   "note": "Killed anywhere outside the two renames. Says nothing if the folder cannot be opened any more (C71)."
  },
  {
   "property": "C29",
   "status": "proved",
   "theorems": [
    "Goir.c29_never_invents",
    "Goir.c29_store_never_invents"
   ],
   "note": "The posting index alone, and the whole store."
  },
  {
   "property": "C30",
   "status": "proved",
   "theorems": [
    "Goir.c30_clean_restart"
   ],
   "note": "Existence of the reopened store and equality of all answers, including the found flag."
  },
  {
   "property": "C31",
   "status": "proved",
   "theorems": [
    "Goir.c31_clean_restart"
   ],
   "note": ""
  },
  {
   "property": "C32",
   "status": "partial",
   "theorems": [
    "Goir.c32_restart_refuted",
    "Goir.c32_same_or_reset_partial",
    "Goir.c32_exact_partial"
   ],
   "note": "False of the code: a flush overwrites the file with the terms received since the flush before. Proved: exactly which frequencies survive."
  },
  {
   "property": "C33",
   "status": "proved",
   "theorems": [
    "Goir.c33_documents_survive_restart",
    "Goir.c33_fresh_store_survives_restart"
   ],
   "note": ""
  },
  {
   "property": "C34",
   "status": "partial",
   "theorems": [
    "Goir.c34_any_size_refuted",
    "Goir.c34_counts_are_cut_to_32_bits",
    "Goir.c34_fields_are_cut_to_32_bits",
    "Goir.c34_survives_iff_fits_partial",
    "Goir.c34_sizes_after_restart"
   ],
   "note": "False of the code: counts are cut to int32. Proved: exactly what comes back for every map, and that a map survives iff every count fits in 32 bits."
  },
  {
   "property": "C35",
   "status": "proved",
   "theorems": [
    "Goir.c35_open_returns_union",
    "Goir.c35_idempotent",
    "Goir.c35_merge_loses_nothing",
    "Goir.c35_merge_exact"
   ],
   "note": ""
  },
  {
   "property": "C36",
   "status": "partial",
   "theorems": [
    "Goir.c36_merge_reads_torn_refuted",
    "Goir.c36_no_panic_partial"
   ],
   "note": "False of the code: the merge can read a fragment the writer has not finished. Proved: that is the only way a merge step can fail."
  },
  {
   "property": "C37",
   "status": "partial",
   "theorems": [
    "Goir.c37_df_above_size",
    "Goir.c37_df_le_size_partial"
   ],
   "note": "False of the code: sizes and frequencies are flushed by different timers. Proved for every history in which the metrics writer has written everything when a process ends (the frequency writer may be anywhere)."
  },
  {
   "property": "C38",
   "status": "proved",
   "theorems": [
    "Goir.c38_secureSave_installs"
   ],
   "note": ""
  },
  {
   "property": "C39",
   "status": "proved",
   "theorems": [
    "Goir.c39_secureSave_never_loses_both"
   ],
   "note": "Crash = process death; no power loss."
  },
  {
   "property": "C40",
   "status": "partial",
   "theorems": [
    "Goir.c40_readable_refuted",
    "Goir.c40_outside_window_partial"
   ],
   "note": "False of the code: between the two renames the name does not exist. Proved for every other crash point."
  },
  {
   "property": "C41",
   "status": "partial",
   "theorems": [
    "Goir.c41_window_loses_index_refuted",
    "Goir.c41_outside_window_partial",
    "Goir.c41_fragments_partial"
   ],
   "note": "False of the code between the two renames; proved everywhere else, and for fragments also there."
  },
  {
   "property": "C42",
   "status": "partial",
   "theorems": [
    "Goir.c42_other_documents_refuted",
    "Goir.BDisk.c42_lost_document_refuted",
    "Goir.c42_other_documents_partial"
   ],
   "note": "False of the code for ids d and d_old or d_temp; proved for all other pairs of plain ids."
  },
  {
   "property": "C43",
   "status": "partial",
   "theorems": [
    "Goir.c43_ids_confined_refuted",
    "Goir.BDisk.c43_one_document_ruins_the_folder_refuted",
    "Goir.c43_ids_confined_partial"
   ],
   "note": "False of the code for ids with slashes or dots: one document with the id ../../title/index makes the folder unopenable; proved for ids that are single path components."
  },
  {
   "property": "C44",
   "status": "partial",
   "theorems": [
    "Goir.c44_field_names_refuted",
    "Goir.c44_slash_refuted",
    "Goir.c44_field_names_partial",
    "Goir.c44_listings_exact"
   ],
   "note": "False of the code for the field name docs and names with slashes; proved for plain names."
  },
  {
   "property": "C45",
   "status": "proved",
   "theorems": [
    "Goir.c45_no_nesting",
    "Goir.c45_sizeLength_roundtrip",
    "Goir.c45_numberFieldTerm_roundtrip",
    "Goir.c45_fieldMap_roundtrip",
    "Goir.c45_index_roundtrip_keys",
    "Goir.c45_index_roundtrip"
   ],
   "note": "At the level of objects and slots; C111 proves it of the bytes."
  },
  {
   "property": "C46",
   "status": "proved",
   "theorems": [
    "Goir.LRU.c46_lru_bounded",
    "Goir.PLRU.c49_lru_on_pointers"
   ],
   "note": "Also over the pointers of container/list."
  },
  {
   "property": "C47",
   "status": "proved",
   "theorems": [
    "Goir.LRU.c47_lru_recency",
    "Goir.PLRU.c49_lru_on_pointers"
   ],
   "note": "Also over the pointers of container/list."
  },
  {
   "property": "C48",
   "status": "partial",
   "theorems": [
    "Goir.LRU.c48_capacity_zero_panics_refuted",
    "Goir.LRU.c48_positive_capacity_partial"
   ],
   "note": "False of the code: capacity 0 panics on the first Put. Positive capacities are proved safe."
  },
  {
   "property": "C49",
   "status": "proved",
   "theorems": [
    "Goir.PList.c49_moveToFront",
    "Goir.PList.c49_pushFront",
    "Goir.PList.c49_remove",
    "Goir.PList.c49_back_len_new",
    "Goir.PLRU.c49_cache_refines",
    "Goir.PLRU.c49_lru_on_pointers"
   ],
   "note": "The list operations on pointers; the whole cache over those pointers answers every sequence of calls as the cache over a sequence does, so C46 and C47 hold of the pointers."
  },
  {
   "property": "C50",
   "status": "partial",
   "theorems": [
    "Goir.PList.c50_concurrent_gets_refuted",
    "Goir.PLRU.c50_put_panics_refuted",
    "Goir.PLRU.c50_cache_unbounded_refuted",
    "Goir.PList.c50_gets_safe_partial",
    "Goir.PLRU.c50_serial_gets_partial"
   ],
   "note": "False of the code: Get moves list elements under a read lock. Two concurrent Gets of one key break the list; a client then sees the next Put panic, or a cache of capacity 2 that never evicts again and holds any number of keys. Proved for Gets that do not overlap (same result as in turn) and for Gets that all hit the front."
  },
  {
   "property": "C51",
   "status": "proved",
   "theorems": [
    "Goir.RCU.c51_rcu_prefix_consistent"
   ],
   "note": ""
  },
  {
   "property": "C52",
   "status": "proved",
   "theorems": [
    "Goir.RCU.c52_rcu_bounded_progress"
   ],
   "note": ""
  },
  {
   "property": "C53",
   "status": "partial",
   "theorems": [
    "Goir.SyncMap.c53_syncmap_never_sees_refuted",
    "Goir.SyncMap.c53_writer_would_lose_updates_refuted"
   ],
   "note": "False of the code: no goroutine drains the channel, so a Put never becomes visible. Fully refuted."
  },
  {
   "property": "C54",
   "status": "partial",
   "theorems": [
    "Goir.Shard.c54_shard_get_total",
    "Goir.Shard.c54_32bit_panics_refuted"
   ],
   "note": "Proved where int is 64 bits; false where int is 32 bits (negative remainder), refuted with a witness."
  },
  {
   "property": "C55",
   "status": "proved",
   "theorems": [
    "Goir.Shard.c55_shard_is_a_map"
   ],
   "note": ""
  },
  {
   "property": "C56",
   "status": "partial",
   "theorems": [
    "Goir.Shard.c56_shards_isolated_refuted",
    "Goir.Shard.c56_different_residues_isolated_partial"
   ],
   "note": "False of the code: names whose checksums agree modulo the shard count share a shard. Isolation is proved for different residues."
  },
  {
   "property": "C57",
   "status": "proved",
   "theorems": [
    "Goir.c57_bounded",
    "Goir.c57_no_deadlock",
    "Goir.index_search_returns"
   ],
   "note": "Every schedule ends within an explicit number of steps, and no reachable state is stuck. The store does not change during the search."
  },
  {
   "property": "C58",
   "status": "proved",
   "theorems": [
    "Goir.c58_exact",
    "Goir.c58_schedule_independent",
    "Goir.memory_consistent"
   ],
   "note": "The store does not change during the search."
  },
  {
   "property": "C59",
   "status": "proved",
   "theorems": [
    "Goir.c59_bounded",
    "Goir.c59_no_deadlock",
    "Goir.c59_result",
    "Goir.c59_every_order",
    "Goir.c59_ranking",
    "Goir.c59_ranking_rounded",
    "Goir.c59_ranking_float64",
    "Goir.search_returns"
   ],
   "note": "Sorted over exact reals, with rounding, and in float64 unless a score is NaN (C68); which documents are listed, and each score as a sum in some order of the queries, over any kind of number."
  },
  {
   "property": "C60",
   "status": "proved",
   "theorems": [
    "Goir.c60_sound_complete"
   ],
   "note": "Over a Memory store filled by SaveOrUpdate."
  },
  {
   "property": "C61",
   "status": "partial",
   "theorems": [
    "Goir.c61_refuted",
    "Goir.c61_iff",
    "Goir.c61_real",
    "Goir.c61_two_queries_partial",
    "Goir.c61_two_queries_rounded",
    "Goir.c61_float64_refuted",
    "Goir.c61_two_queries_float64"
   ],
   "note": "False of the code in float64 (and with rounding to 53 bits) with three queries. Proved: it holds exactly if the scores have the same sum in every order; over exact reals; and in float64, NaN and infinities included, for at most two queries (all that GET /nir makes)."
  },
  {
   "property": "C62",
   "status": "proved",
   "theorems": [
    "Goir.c62_harmless",
    "Goir.c62_unknown_field"
   ],
   "note": ""
  },
  {
   "property": "C63",
   "status": "proved",
   "theorems": [
    "Goir.c63_idf_formula",
    "Goir.c63_idf_positive",
    "Goir.c63_idf_decreases",
    "Goir.c63_idf_increases",
    "Goir.c63_idf_rounded_nonneg",
    "Goir.c63_idf_rounded_decreases",
    "Goir.c63_idf_rounded_increases"
   ],
   "note": "Over exact reals; and, with weak inequalities, with rounding to 53 bits."
  },
  {
   "property": "C64",
   "status": "proved",
   "theorems": [
    "Goir.c64_bm25_formula",
    "Goir.c64_nonneg",
    "Goir.c64_zero_iff",
    "Goir.c64_rounded_nonneg",
    "Goir.c64_float64"
   ],
   "note": "Over exact reals; in float64 (c64_float64) for the scale of C112."
  },
  {
   "property": "C65",
   "status": "proved",
   "theorems": [
    "Goir.c65_frequency",
    "Goir.c65_length",
    "Goir.c65_saturates",
    "Goir.c65_float64"
   ],
   "note": "Over exact reals; in float64 up to the rounding errors of C112."
  },
  {
   "property": "C66",
   "status": "proved",
   "theorems": [
    "Goir.c66_boost_scales",
    "Goir.c66_boost_zero",
    "Goir.c66_boost_zero_float64"
   ],
   "note": "Over exact reals; that 0 means 1 also in float64."
  },
  {
   "property": "C67",
   "status": "proved",
   "theorems": [
    "Goir.c67_append",
    "Goir.c67_order",
    "Goir.c67_repeat"
   ],
   "note": "Over exact reals."
  },
  {
   "property": "C68",
   "status": "partial",
   "theorems": [
    "Goir.c68_finite_refuted",
    "Goir.c68_finite_partial",
    "Goir.c68_special_values",
    "Goir.c68_http_finite",
    "Goir.c68_float64_refuted"
   ],
   "note": "False of the code when saved fields have length 0. Proved when fields with terms have positive lengths, as POST /nir makes them; over reals with infinities and NaN, no rounding or overflow."
  },
  {
   "property": "C69",
   "status": "partial",
   "theorems": [
    "Goir.c69_any_number_of_hits_refuted",
    "Goir.c69_panics_refuted",
    "Goir.c69_none_or_many_partial",
    "Goir.c69_best_partial"
   ],
   "note": "False of the code for 1 to 9 hits (the handler panics, exactly then). Proved for 0 and for 10 or more."
  },
  {
   "property": "C70",
   "status": "proved",
   "theorems": [
    "Goir.c70_rejected",
    "Goir.c70_indexes_three_fields",
    "Goir.c70_searchable"
   ],
   "note": "Over a Memory store."
  },
  {
   "property": "C71",
   "status": "partial",
   "theorems": [
    "Goir.c71_reopen_after_crash_refuted",
    "Goir.c71_every_cut_fragment_refuted",
    "Goir.c71_reopen_partial"
   ],
   "note": "False of the code: a fragment cut short by a crash makes every later open panic (c71_every_cut_fragment_refuted: after every history). Proved when the writer is not inside a fragment write."
  },
  {
   "property": "C72",
   "status": "proved",
   "theorems": [
    "Goir.c72_counters_always_load",
    "Goir.c72_size_and_length_of_one_moment"
   ],
   "note": ""
  },
  {
   "property": "C73",
   "status": "partial",
   "theorems": [
    "Goir.c73_window_resets_metrics_refuted",
    "Goir.c73_flushed_metrics_never_fall_partial"
   ],
   "note": "False of the code if killed between the two renames; proved for every other crash point (totals below 2^31)."
  },
  {
   "property": "C74",
   "status": "proved",
   "theorems": [
    "Goir.c74_languages",
    "Goir.c74_tables",
    "Goir.c74_stopwords_plain",
    "Goir.c74_any_case_removed",
    "Goir.c74_accented_kept"
   ],
   "note": ""
  },
  {
   "property": "C75",
   "status": "partial",
   "theorems": [
    "Goir.c75_refuted",
    "Goir.c75_commute_partial"
   ],
   "note": "False of the code. Proved: a save and the flush of another document commute."
  },
  {
   "property": "C76",
   "status": "proved",
   "theorems": [
    "Goir.c76_documents_never_panic",
    "Goir.c76_no_cache_panics"
   ],
   "note": "cacheSize 0 is shown to panic at the first save."
  },
  {
   "property": "C77",
   "status": "proved",
   "theorems": [
    "Goir.c77_no_deadlock",
    "Goir.c77_bounded",
    "Goir.c77_every_schedule",
    "Goir.c77_call_completes"
   ],
   "note": "One client; the merger and the tickers may stay silent."
  },
  {
   "property": "C78",
   "status": "proved",
   "theorems": [
    "Goir.c78_search_like_memory",
    "Goir.c78_sound_complete",
    "Goir.c78_http"
   ],
   "note": "The store answers a search from the state between two calls; disk_answers_stable shows that nothing the background goroutines or GetFields do changes an answer."
  },
  {
   "property": "C79",
   "status": "proved",
   "theorems": [
    "Goir.c79_reopens",
    "Goir.c79_restart",
    "Goir.c79_fields",
    "Goir.c79_search"
   ],
   "note": "Document frequencies are C32."
  },
  {
   "property": "C80",
   "status": "partial",
   "theorems": [
    "Goir.c80_ranking_refuted",
    "Goir.c80_same_search_partial"
   ],
   "note": "False of the code, because of C32. Proved for queries whose document frequencies survive."
  },
  {
   "property": "C81",
   "status": "proved",
   "theorems": [
    "Goir.c81_indexed",
    "Goir.c81_searchable",
    "Goir.c81_disk",
    "Goir.c81_possible"
   ],
   "note": "A document is the object that json.Unmarshal decodes to; C107 and C113 add the JSON text."
  },
  {
   "property": "C82",
   "status": "partial",
   "theorems": [
    "Goir.c82_refuted",
    "Goir.c82_numeric_id_refuted",
    "Goir.c82_terms_of_values",
    "Goir.c82_terms_of_arrays"
   ],
   "note": "False of the code: fmt.Sprintf with %s prints an error text for values that are not strings. Proved: exactly which terms each kind of value gets."
  },
  {
   "property": "C83",
   "status": "partial",
   "theorems": [
    "Goir.c83_refuted",
    "Goir.c83_refuted_field",
    "Goir.c83_refuted_new_term",
    "Goir.c83_never_invents_partial",
    "Goir.c83_own_field_partial",
    "Goir.c83_own_document_partial",
    "Goir.c83_disjoint_partial",
    "Goir.c83_known_term_partial"
   ],
   "note": "False of the code: there is no lock, so postings, fields and counts are lost. Proved for every interleaving: nothing is invented and no counter is too high; exact answers for fields and documents that one client owns; no posting is lost for a term the index already has."
  },
  {
   "property": "C84",
   "status": "partial",
   "theorems": [
    "Goir.c84_every_two_calls_race_refuted",
    "Goir.c84_search_races_refuted",
    "Goir.c84_one_client_partial",
    "Goir.c84_search_quiet_partial"
   ],
   "note": "False of the code for any two clients that have calls to make, and for any client and any search. Proved: no race while one client makes all calls, or between a search and clients that are not inside a call."
  },
  {
   "property": "C85",
   "status": "proved",
   "theorems": [
    "Goir.c85_live_search_sound",
    "Goir.c85_at_rest"
   ],
   "note": "Every interleaving of the goroutines of a search with any clients."
  },
  {
   "property": "C86",
   "status": "partial",
   "theorems": [
    "Goir.c86_refuted",
    "Goir.c86_quiet_start_partial",
    "Goir.c86_one_writer_partial"
   ],
   "note": "False of the code with two writers: the map of postings that a search reads can be replaced by an empty one. Proved if no call on the field or document is in progress when the search begins (any clients may save during it), and if the field and the document have one writer each (any interleaving)."
  },
  {
   "property": "C87",
   "status": "partial",
   "theorems": [
    "Goir.c87_refuted",
    "Goir.c87_one_writer_partial",
    "Goir.c87_score_finite_partial"
   ],
   "note": "False of the code with one writer: a search can find a document in a field whose size it read as 0, and scores it NaN. Proved for a field with one writer: every number lies between those before and after the search; and scores are finite if something had been saved before."
  },
  {
   "property": "C88",
   "status": "proved",
   "theorems": [
    "Goir.c88_live_search_ends"
   ],
   "note": "Some goroutine of the search can always step, and no run is infinite."
  },
  {
   "property": "C89",
   "status": "proved",
   "theorems": [
    "Goir.c89_never_invents"
   ],
   "note": "Every interleaving, crash point and restart. Map accesses are atomic in the model; the abort of the Go runtime on concurrent map writes (C84) ends the process as a kill does, which these runs contain at every point."
  },
  {
   "property": "C90",
   "status": "partial",
   "theorems": [
    "Goir.c90_answers_change_refuted",
    "Goir.c90_reopens",
    "Goir.c90_complete"
   ],
   "note": "False of the code: a posting that a concurrent call lost in memory is on disk, so GetDocuments answers differently after a clean restart. Proved: the folder opens, every posting of a returned call and every posting listed before is listed after, and nothing is invented."
  },
  {
   "property": "C91",
   "status": "proved",
   "theorems": [
    "Goir.c91_no_deadlock",
    "Goir.c91_bounded",
    "Goir.c91_every_schedule",
    "Goir.c91_alone"
   ],
   "note": "Map accesses are atomic in the model; the abort of the Go runtime on concurrent map writes (C84) is not modelled."
  },
  {
   "property": "C92",
   "status": "proved",
   "theorems": [
    "Goir.c92_own_field"
   ],
   "note": "The clients' other calls, and the other clients, may be on any other fields, of the same documents too. Map accesses are atomic in the model; the abort of the Go runtime on concurrent map writes (C84) ends the process as a kill does, which these runs contain at every point."
  },
  {
   "property": "C93",
   "status": "partial",
   "theorems": [
    "Goir.c93_refuted",
    "Goir.c93_own_field_partial"
   ],
   "note": "False of the code: size and length are read, then sent, and the older of two messages can be received last. Proved for a field that one client saves in this process."
  },
  {
   "property": "C94",
   "status": "partial",
   "theorems": [
    "Goir.c94_refuted_two_writers",
    "Goir.c94_refuted_restart",
    "Goir.c94_refuted_reader",
    "Goir.c94_own_document_partial",
    "Goir.c94_restart_partial"
   ],
   "note": "False of the code: two clients that save two fields of one document lose one of them; a clean restart can swap which; and a client that only reads can undo a save. Proved for a document that one client saves and reads, if the cache has room for all documents in use: during the process and after a restart."
  },
  {
   "property": "C95",
   "status": "proved",
   "theorems": [
    "Goir.c95_read_only"
   ],
   "note": "Map accesses are atomic in the model; the abort of the Go runtime on concurrent map writes (C84) ends the process as a kill does, which these runs contain at every point."
  },
  {
   "property": "C96",
   "status": "partial",
   "theorems": [
    "Goir.c96_every_two_saves_race_refuted",
    "Goir.c96_two_readers_race_refuted",
    "Goir.c96_one_client_refuted",
    "Goir.c96_no_saves_partial"
   ],
   "note": "False of the code for any two clients about to save, for any two clients about to read different cached documents, and even for one client alone (with the writer of the documents). Proved: no race if nobody saves, indexed fields are known and have one writer each, and at most one client reads."
  },
  {
   "property": "C97",
   "status": "proved",
   "theorems": [
    "Goir.c97_live_disk_search_sound"
   ],
   "note": "What main.go runs. Map accesses are atomic in the model; the abort of the Go runtime on concurrent map writes (C96) ends the process as a kill does, which these runs contain at every point."
  },
  {
   "property": "C98",
   "status": "proved",
   "theorems": [
    "Goir.c98_live_disk_search_ends"
   ],
   "note": "The saved frequency maps have distinct keys (GoValues), as every Go map has. Map accesses are atomic in the model."
  },
  {
   "property": "C99",
   "status": "proved",
   "theorems": [
    "Goir.c99_live_disk_search_finds",
    "Goir.c99_after_restart"
   ],
   "note": "c99_after_restart composes C90, C94 and C99 over a restart. A search that begins later is a run whose first steps are the clients'. Map accesses are atomic in the model."
  }
 ]
}