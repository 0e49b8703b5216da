T += [
 ("C34", R, ["c34_any_size_refuted","c34_counts_are_cut_to_32_bits","c34_fields_are_cut_to_32_bits","c34_survives_iff_fits_partial","c34_sizes_after_restart"], "False of the code: counts are cut to int32. Proved: exactly what comes back for every map, and that a map survives iff every count fits in 32 bits."),
 ("C45", P, ["c45_no_nesting","c45_sizeLength_roundtrip","c45_numberFieldTerm_roundtrip","c45_fieldMap_roundtrip","c45_index_roundtrip_keys","c45_index_roundtrip"], "At the level of objects and slots; C111 proves it of the bytes."),
 ("C38", P, ["c38_secureSave_installs"], ""),
 ("C39", P, ["c39_secureSave_never_loses_both"], "Crash = process death; no power loss."),
 ("C40", R, ["c40_readable_refuted","c40_outside_window_partial"], "False of the code: between the two renames the name does not exist. Proved for every other crash point."),
 ("C42", R, ["c42_other_documents_refuted","BDisk.c42_lost_document_refuted","c42_other_documents_partial"], "False of the code for ids d and d_old or d_temp; proved for all other pairs of plain ids."),
 ("C43", R, ["c43_ids_confined_refuted","BDisk.c43_one_document_ruins_the_folder_refuted","c43_ids_confined_partial"], "False of the code for ids with slashes or dots: one document with the id ../../title/index makes the folder unopenable; proved for ids that are single path components."),
 ("C44", R, ["c44_field_names_refuted","c44_slash_refuted","c44_field_names_partial","c44_listings_exact"], "False of the code for the field name docs and names with slashes; proved for plain names."),
]
T += [
 ("C28", P, ["c28_flushed_postings_survive","c28_on_disk_postings_survive","sfile_view"], "Killed anywhere outside the two renames. Says nothing if the folder cannot be opened any more (C71)."),
 ("C29", P, ["c29_never_invents","c29_store_never_invents"], "The posting index alone, and the whole store."),
 ("C30", P, ["c30_clean_restart"], "Existence of the reopened store and equality of all answers, including the found flag."),
 ("C35", P, ["c35_open_returns_union","c35_idempotent","c35_merge_loses_nothing","c35_merge_exact"], ""),
 ("C36", R, ["c36_merge_reads_torn_refuted","c36_no_panic_partial"], "False of the code: the merge can read a fragment the writer has not finished. Proved: that is the only way a merge step can fail."),
 ("C41", R, ["c41_window_loses_index_refuted","c41_outside_window_partial","c41_fragments_partial"], "False of the code between the two renames; proved everywhere else, and for fragments also there."),
 ("C71", R, ["c71_reopen_after_crash_refuted","c71_every_cut_fragment_refuted","c71_reopen_partial"], "False of the code: a fragment cut short by a crash makes every later open panic (c71_every_cut_fragment_refuted: after every history). Proved when the writer is not inside a fragment write."),
]
T += [
 ("C31", P, ["c31_clean_restart"], ""),
 ("C32", R, ["c32_restart_refuted","c32_same_or_reset_partial","c32_exact_partial"], "False of the code: a flush overwrites the file with the terms received since the flush before. Proved: exactly which frequencies survive."),
 ("C72", P, ["c72_counters_always_load","c72_size_and_length_of_one_moment"], ""),
 ("C73", R, ["c73_window_resets_metrics_refuted","c73_flushed_metrics_never_fall_partial"], "False of the code if killed between the two renames; proved for every other crash point (totals below 2^31)."),
]
T += [
 ("C57", P, ["c57_bounded","c57_no_deadlock","index_search_returns"], "Every schedule ends within an explicit number of steps, and no reachable state is stuck. The store does not change during the search."),
 ("C58", P, ["c58_exact","c58_schedule_independent","memory_consistent"], "The store does not change during the search."),
 ("C59", P, ["c59_bounded","c59_no_deadlock","c59_result","c59_every_order","c59_ranking","c59_ranking_rounded","c59_ranking_float64","search_returns"], "Sorted over exact reals, with rounding, and in float64 unless a score is NaN (C68); which documents are listed, and each score as a sum in some order of the queries, over any kind of number."),
 ("C60", P, ["c60_sound_complete"], "Over a Memory store filled by SaveOrUpdate."),
 ("C61", R, ["c61_refuted","c61_iff","c61_real","c61_two_queries_partial","c61_two_queries_rounded","c61_float64_refuted","c61_two_queries_float64"], "False of the code in float64 (and with rounding to 53 bits) with three queries. Proved: it holds exactly if the scores have the same sum in every order; over exact reals; and in float64, NaN and infinities included, for at most two queries (all that GET /nir makes)."),
 ("C62", P, ["c62_harmless","c62_unknown_field"], ""),
 ("C63", P, ["c63_idf_formula","c63_idf_positive","c63_idf_decreases","c63_idf_increases","c63_idf_rounded_nonneg","c63_idf_rounded_decreases","c63_idf_rounded_increases"], "Over exact reals; and, with weak inequalities, with rounding to 53 bits."),
 ("C64", P, ["c64_bm25_formula","c64_nonneg","c64_zero_iff","c64_rounded_nonneg","c64_float64"], "Over exact reals; in float64 (c64_float64) for the scale of C112."),
 ("C65", P, ["c65_frequency","c65_length","c65_saturates","c65_float64"], "Over exact reals; in float64 up to the rounding errors of C112."),
 ("C66", P, ["c66_boost_scales","c66_boost_zero","c66_boost_zero_float64"], "Over exact reals; that 0 means 1 also in float64."),
 ("C67", P, ["c67_append","c67_order","c67_repeat"], "Over exact reals."),
]
T += [
 ("C21", R, ["c21_snapshot_refuted","c21_live_view_partial","c21_store_call_partial","c21_change_reaches_the_store_partial","c21_change_is_local_partial","c21_not_found_partial","alias_refines"], "False of the code: the returned struct shares the live map. Proved: it is a live view, what each call does to it, and that changing it reaches its own field and term only."),
 ("C68", R, ["c68_finite_refuted","c68_finite_partial","c68_special_values","c68_http_finite","c68_float64_refuted"], "False of the code when saved fields have length 0. Proved when fields with terms have positive lengths, as POST /nir makes them; over reals with infinities and NaN, no rounding or overflow."),
 ("C69", R, ["c69_any_number_of_hits_refuted","c69_panics_refuted","c69_none_or_many_partial","c69_best_partial"], "False of the code for 1 to 9 hits (the handler panics, exactly then). Proved for 0 and for 10 or more."),
 ("C70", P, ["c70_rejected","c70_indexes_three_fields","c70_searchable"], "Over a Memory store."),
 ("C74", P, ["c74_languages","c74_tables","c74_stopwords_plain","c74_any_case_removed","c74_accented_kept"], ""),
]
T += [
 ("C24", P, ["c24_latest_field_when_nothing_is_evicted"], ""),
 ("C25", P, ["c25_found_was_saved","c25_getFields_never_invents","c25_store_never_invents"], "One iteration in any reachable state, the whole call, and the whole store."),
 ("C26", R, ["c26_refuted_missing","c26_refuted_stale","c26_latest_up_to_32_bits_partial","c26_latest_when_orderly_partial"], "False of the code: a document evicted before its flush is not found, or an older version is reloaded and stays. Proved for runs in which documents leave the cache only after they were written and only cached or new documents are saved."),
 ("C27", R, ["c27_refuted","c27_refuted_permanent","c27_other_fields_stay_partial"], "False of the code: a save of an uncached document starts from an empty map, so after a restart or eviction its other fields are lost, also on disk. Proved for orderly runs."),
 ("C33", P, ["c33_documents_survive_restart","c33_fresh_store_survives_restart"], ""),
 ("C75", R, ["c75_refuted","c75_commute_partial"], "False of the code. Proved: a save and the flush of another document commute."),
 ("C76", P, ["c76_documents_never_panic","c76_no_cache_panics"], "cacheSize 0 is shown to panic at the first save."),
]
T += [
 ("C22", P, ["c22_disk_like_memory","c22_getFields_like_memory","disk_answers"], "Between two calls of one client; the stored fields as long as the cache holds all documents saved."),
 ("C23", R, ["c23_updateIndex_differs","c23_difference_partial"], "False of the code: UpdateIndex counts size and length on a Memory store only. Proved: everything else agrees, and exactly how the two counters differ."),
 ("C37", R, ["c37_df_above_size","c37_df_le_size_partial"], "False of the code: sizes and frequencies are flushed by different timers. Proved for every history in which the metrics writer has written everything when a process ends (the frequency writer may be anywhere)."),
]
T += [
 ("C77", P, ["c77_no_deadlock","c77_bounded","c77_every_schedule","c77_call_completes"], "One client; the merger and the tickers may stay silent."),
]
T += [
 ("C78", P, ["c78_search_like_memory","c78_sound_complete","c78_http"], "The store answers a search from the state between two calls; disk_answers_stable shows that nothing the background goroutines or GetFields do changes an answer."),
 ("C79", P, ["c79_reopens","c79_restart","c79_fields","c79_search"], "Document frequencies are C32."),
 ("C80", R, ["c80_ranking_refuted","c80_same_search_partial"], "False of the code, because of C32. Proved for queries whose document frequencies survive."),
]
T += [
 ("C81", P, ["c81_indexed","c81_searchable","c81_disk","c81_possible"], "A document is the object that json.Unmarshal decodes to; C107 and C113 add the JSON text."),
 ("C82", R, ["c82_refuted","c82_numeric_id_refuted","c82_terms_of_values","c82_terms_of_arrays"], "False of the code: fmt.Sprintf with %s prints an error text for values that are not strings. Proved: exactly which terms each kind of value gets."),
]
T += [
 ("C83", R, ["c83_refuted","c83_refuted_field","c83_refuted_new_term","c83_never_invents_partial","c83_own_field_partial","c83_own_document_partial","c83_disjoint_partial","c83_known_term_partial"], "False of the code: there is no lock, so postings, fields and counts are lost. Proved for every interleaving: nothing is invented and no counter is too high; exact answers for fields and documents that one client owns; no posting is lost for a term the index already has."),
 ("C84", R, ["c84_every_two_calls_race_refuted","c84_search_races_refuted","c84_one_client_partial","c84_search_quiet_partial"], "False of the code for any two clients that have calls to make, and for any client and any search. Proved: no race while one client makes all calls, or between a search and clients that are not inside a call."),
 ("C85", P, ["c85_live_search_sound","c85_at_rest"], "Every interleaving of the goroutines of a search with any clients."),
 ("C86", R, ["c86_refuted","c86_quiet_start_partial","c86_one_writer_partial"], "False of the code with two writers: the map of postings that a search reads can be replaced by an empty one. Proved if no call on the field or document is in progress when the search begins (any clients may save during it), and if the field and the document have one writer each (any interleaving)."),
 ("C87", R, ["c87_refuted","c87_one_writer_partial","c87_score_finite_partial"], "False of the code with one writer: a search can find a document in a field whose size it read as 0, and scores it NaN. Proved for a field with one writer: every number lies between those before and after the search; and scores are finite if something had been saved before."),
 ("C88", P, ["c88_live_search_ends"], "Some goroutine of the search can always step, and no run is infinite."),
]
T += [
 ("C89", P, ["c89_never_invents"], "Every interleaving, crash point and restart. Map accesses are atomic in the model; the abort of the Go runtime on concurrent map writes (C84) ends the process as a kill does, which these runs contain at every point."),
 ("C90", R, ["c90_answers_change_refuted","c90_reopens","c90_complete"], "False of the code: a posting that a concurrent call lost in memory is on disk, so GetDocuments answers differently after a clean restart. Proved: the folder opens, every posting of a returned call and every posting listed before is listed after, and nothing is invented."),
 ("C91", P, ["c91_no_deadlock","c91_bounded","c91_every_schedule","c91_alone"], "Map accesses are atomic in the model; the abort of the Go runtime on concurrent map writes (C84) is not modelled."),
]
T += [
 ("C92", P, ["c92_own_field"], "The clients' other calls, and the other clients, may be on any other fields, of the same documents too. Map accesses are atomic in the model; the abort of the Go runtime on concurrent map writes (C84) ends the process as a kill does, which these runs contain at every point."),
 ("C93", R, ["c93_refuted","c93_own_field_partial"], "False of the code: size and length are read, then sent, and the older of two messages can be received last. Proved for a field that one client saves in this process."),
]
T += [
 ("C94", R, ["c94_refuted_two_writers","c94_refuted_restart","c94_refuted_reader","c94_own_document_partial","c94_restart_partial"], "False of the code: two clients that save two fields of one document lose one of them; a clean restart can swap which; and a client that only reads can undo a save. Proved for a document that one client saves and reads, if the cache has room for all documents in use: during the process and after a restart."),
 ("C95", P, ["c95_read_only"], "Map accesses are atomic in the model; the abort of the Go runtime on concurrent map writes (C84) ends the process as a kill does, which these runs contain at every point."),
]
T += [
 ("C96", R, ["c96_every_two_saves_race_refuted","c96_two_readers_race_refuted","c96_one_client_refuted","c96_no_saves_partial"], "False of the code for any two clients about to save, for any two clients about to read different cached documents, and even for one client alone (with the writer of the documents). Proved: no race if nobody saves, indexed fields are known and have one writer each, and at most one client reads."),
]
T += [
 ("C97", P, ["c97_live_disk_search_sound"], "What main.go runs. Map accesses are atomic in the model; the abort of the Go runtime on concurrent map writes (C96) ends the process as a kill does, which these runs contain at every point."),
 ("C98", P, ["c98_live_disk_search_ends"], "The saved frequency maps have distinct keys (GoValues), as every Go map has. Map accesses are atomic in the model."),
 ("C99", P, ["c99_live_disk_search_finds","c99_after_restart"], "c99_after_restart composes C90, C94 and C99 over a restart. A search that begins later is a run whose first steps are the clients'. Map accesses are atomic in the model."),
]
T += [
 ("C100", P, ["c100_asked","c100_server_search_sound","c100_document","c100_sorted","c100_sorted_float64"], "The whole program of main.go without gin and JSON. Sortedness is over the reals, and in float64 unless a score is NaN (C87). Map accesses are atomic in the model; the abort of the Go runtime on concurrent map writes (C96) ends the process as a kill does, which these runs contain at every point."),
 ("C101", P, ["c101_server_search_ends","c101_fair"], "The saved frequency maps have distinct keys (GoValues), as every Go map has. Map accesses are atomic in the model."),
 ("C102", P, ["c102_server_search_finds","c102_get"], "c102_get is the same for the GET handler, with C69's panic for fewer than ten hits. Map accesses are atomic in the model."),
 ("C103", P, ["c103_asked","c103_returns","c103_get","c103_get_float64","c103_searches_do_not_interfere","c103_agree"], "The agreement of two searches of any number of queries is over the reals (in floats the order of three or more addends can differ, C61); for those of GET /nir it is in float64 (c103_get_float64). Map accesses are atomic in the model; two searches do race on the list of pages of the cache (C96)."),
]
T += [
 ("C104", P, ["c104_memory","c104_error","c104_order","c104_two_runs"], "Each operation rounds to 53 bits, ties to even, with an unbounded exponent; math.Log is taken to be correctly rounded."),
]
T += [
 ("C105", P, ["Collection.c105_round_trip"], "The documents are those of the feed (C123). The file is bytes, UTF-8; encoding/json is modelled as Go documents it."),
 ("C106", R, ["Collection.c106_crash","Collection.c106_last_write_fails","Collection.c106_refuted","Collection.c106_no_newline_refuted"], "Proved for a crash at every byte and for a failure of the last write. Refuted for a failed write in the middle: the error is only printed, the next document is written on the same line, and GetDocuments panics, losing everything."),
 ("C107", P, ["Collection.c107_object","Collection.c107_values","Collection.c107_inner_object","Collection.c107_null","Collection.c107_panic","Collection.c107_depth"], "For every text of the grammar of RFC 8259 (Spec/Json); bytes that are no UTF-8 count as U+FFFD (Spec/Utf8). Which numbers ParseFloat accepts is a parameter (C121 for what they are)."),
 ("C108", P, ["Collection.c108_collection_searchable","Collection.c108_disk","Collection.c108_bad_line"], "On disk between two calls and with a cache large enough (see C26, C27 for what happens otherwise)."),
 ("C109", P, ["Collection.c109_get_documents","Collection.c109_every_file"], "Every file (c109_every_file): bytes that are no UTF-8 count as U+FFFD (Spec/Utf8)."),
 ("C110", R, ["c110_post","c110_searchable","c110_unique","c110_rest_refuted"], "Proved with one correction: the body needs only to begin with the object. Refuted: gin's decoder ignores what follows it, so a second document in the same body is dropped and the answer is still 201. On a Memory store."),
 ("C111", P, ["FBB."+t for t in ["c111_counts_bytes","c111_fields_bytes","c111_index_bytes","c111_metrics_bytes","c111_counts_fit","c111_fields_fit","c111_index_fit","c111_metrics_fit","c111_counts_panic","c111_fields_panic","c111_index_panic","c111_any_size_refuted","c111_short_file"]], "The FlatBuffers runtime is modelled from its published source (v23.5.26), which is not in the sandbox. c111_any_size_refuted: a map too large for the buffer makes the serializer panic."),
 ("C112", P, ["c112_memory","c112_error","c112_order","c112_two_runs","c112_huge_boost_refuted","c112_rounding","c112_special_values"], "For every choice of the compiler to fuse a multiplication with an addition or not. c112_huge_boost_refuted shows that the bound on the boost is needed: 2^1023 gives NaN on three documents."),
 ("C113", P, ["c113_searchable","c113_disk","c113_string"], "Keys without dots and not empty (C09 for what happens otherwise). Which number literals fit a float64 and how fmt prints them are parameters (C121 for what they are); what is printed for every other value is modelled (C82)."),
 ("C114", P, ["Http.c114_answer","Http.c114_unique","Http.c114_memory","Http.c114_disk","Http.c114_post"], "How strconv prints a float64 (any JSON number) is a parameter (C120 for what it is), as are the text of the duration and gin's error message. gin 1.9.1 and encoding/json are modelled as documented, not from source in the sandbox. c114_answer covers every number of hits, including the panic of C69."),
 ("C115", P, ["Http.c115_query","Http.c115_total"], "net/url's ParseQuery on bytes; c115_total: every query string asks for exactly one text. Bytes that are no UTF-8 count as U+FFFD."),
 ("C116", P, ["Http.c116_live"], "C100 composed with C110, C114 and C115 on the model of the server whose clients run side by side. Soundness only: what the client gets it wanted; that a search during saves may miss documents is C86, and when it must find them C102. The order and the choice of the ten are those of the scores, see C100 and C114."),
 ("C117", P, ["Gzip."+t for t in ["c117_reads","c117_panics","c117_one_content","c117_round_trip","c117_injective","c117_truncated","c117_appended"]], "gzip.Reader, compress/flate's decoder and hash/crc32 are modelled as documented (their source is not in the sandbox); the model was compared with Python's zlib on thousands of files. The compressor is a relation: any sequence of stored, fixed and dynamic blocks that RFC 1951 allows (written_exists: there is one for all data); that Go's compressor emits such a sequence is assumed."),
 ("C118", P, ["BDisk."+t for t in ["c118_refines","c118_never_invents","c118_own_field","c118_restart","c118_reopens","c118_own_document","c118_read_only","c118_restart_document","c118_restart_numbers","c118_no_deadlock","c118_ends","c118_every_schedule","c118_alone","namesLeft_of_few","c118_every_cut_fragment_refuted","c118_torn_fragment_refuted"]], "The gzip reader (C117) and FlatBuffers (C111) are the modelled ones, the compressor is any function whose result is a gzip file of its argument. MkdirAll is one step, directories are listed in the order in which they were made. The names are plain (C42 to C44 for the others). Progress (c118_no_deadlock and the three after it) supposes that in every folder a uuid is left (which is so while there are fewer than 2^36 files: namesLeft_of_few), and stops at data too large for a serializer (TooBig, C111). The two theorems named refuted are the counterpart of C71: a fragment cut short makes the folder unopenable for ever."),
 ("C119", P, ["c119_refines","c119_no_panic","c119_asked","c119_finds","c119_ends","c119_live"], "C100, C101, C102 and C116 carried over to the server on bytes by a forward simulation (and, for progress, a backward one of single steps). The names are plain (C42 to C44 for the others), clients only make the calls of the handlers, MkdirAll is one step, the compressor is any function whose result is a gzip file of its argument. Map accesses are atomic in the model; the abort of the Go runtime on concurrent map writes (C96) ends the process as a kill does, which these runs contain at every point."),
 ("C120", P, ["Strconv."+t for t in ["c120_exact","c120_read_back","c120_order","c120_answer"]], "strconv is modelled as documented: correct rounding, and any shortest digits that are read back as the same float64 (Ryu and Eisel-Lemire are not modelled; Nonempty Digits: there are such digits for every float64). The layout of the digits in the formats e, f and of encoding/json is modelled. Denotes (Spec/Decimal) is the number a literal of RFC 8259 stands for."),
 ("C121", P, ["Strconv."+t for t in ["c121_accepted","c121_printed","c121_same","c121_integers","c121_searchable","c121_same_id","c121_million_refuted","c121_ids_clash_refuted","c121_collision_refuted","c121_long_refuted"]], "The theorems named refuted are the limits that the statement names. For literals of at most 9000 characters; c121_long_refuted is a longer one. strconv as for C120; fmt's verb v is strconv's format g with the threshold 6 of precision -1."),
 ("C122", P, ["c122_wraps","c122_exact","c122_served","c122_refuted"], "Memory store. c122_refuted is the negative length that the statement names. Cutting to 32 bits when a Disk store writes its files does not notice the wrapping (toInt32_wrap64); C34 for that."),
 ("C123", P, ["Collection.Feed."+t for t in ["c123_file","c123_other","c123_searchable","c123_authors_refuted"]], "The feed is a tree of elements and texts: how encoding/xml reads its text is not modelled. Links and attributes are left out, nothing reads them. c123_authors_refuted is the last sentence of the statement."),
 ("C124", P, ["BDisk."+t for t in ["c124_refines","c124_never_invents","c124_own_field","c124_restart","c124_reopens","c124_stops","c124_rename_refuted","c124_read_refuted"]], "The theorems named refuted are the losses that the last sentences of the statement name. A write that fails has written any number of its bytes; a rename or removal that fails has changed nothing. Errors of the four writers, of MkdirAll and of ReadDir end the process, as log.Fatal does in the code."),
 ("C125", P, ["c125_search","c125_memory","c125_disk"], "Spec/Corpus is BM25 of a collection of texts, without index or counters. c125_search is for every store that reads like a memory store that got the saves. That a text must be put in only once is C19; what restarts do to the counters of a Disk store is C32 and C80."),
 ("C126", P, ["Http.c126_memory","Http.c126_disk","Http.accepts_total"], "C110, C112, C114, C115, C120 and C125 composed. c126_disk: the calls are those of the requests one after the other; for requests side by side see C116 and C119. accepts_total: every sequence of bodies carries some sequence of documents."),
 ("C127", P, ["c127_live","Http.c127_http","c127_bytes","Http.c127_http_bytes"], "C125 and C126 for the concurrent server: Model/Server with the clients and goroutines of Model/ConcurrentDisk; the last two for the server whose files are bytes (Model/ServerBytes, names as in C118). Two clients on one field can lose counts (C90), two on one document can lose a field (C94), and a search that runs during a save can make it stale in the cache (c94_refuted_reader); the hypotheses rule out just these."),
 ("C128", P, ["Opening."+t for t in ["c128_documents","c128_numbers","c128_folder_after","c128_damage_is_noticed","c128_all_read","c128_opens","c128_fields","c128_documents_stay","renamed_loses_sizes"]], "Model/DiskBytes from an arbitrary file system. Spec/Opening says what the files say: gzip as in Spec/Gzip, FlatBuffers by the modelled reader (C111). Assumed of the tree: no name twice, the names are names, and the folder is a directory. renamed_loses_sizes is the last sentence. When several metrics files name one field, the size and length are those of one of them."),
 ("C129", P, ["c129_search","c129_returns","c129_no_damage","c129_no_panic","c129_ends","c129_replicas","c129_replicas_one"], "Model/ServerBytes from a folder with any contents (C128). Spec/FolderSearch says which store the answers come from. Ids that are not names of files (they contain a slash, or are . or ..) are outside c129_search and excluded by hypothesis in c129_returns, c129_no_panic and c129_ends. c129_replicas needs that the metrics files do not contradict each other (OneMetrics): the code takes one of them. Cases in Props/FolderServerCases."),
 ("C130", R, ["Opening.c130_reading_loses_field_refuted","Opening.c130_kept_partial","Opening.c130_reopened_partial","c130_search_partial","Opening.c130_nothing_new","Opening.c130_untouched","Opening.c130_numbers"], "FALSE of the code as stated; c130_reading_loses_field_refuted is the refutation: a folder that is only opened, one kill, and a field is gone from every file. Proved: c130_kept_partial and c130_reopened_partial under the hypothesis, stated about files only, that no process ends while an index file is missing that was there before (NoneMissing, AllThere); c130_nothing_new, c130_untouched and c130_numbers without it. Cases in Props/OpeningKillCases, among them a kill in the middle of the new index file."),
 ("C131", R, ["Shared.c131_two_readers_lose_field_refuted","Shared.c131_opening_fails_refuted","Shared.c131_shared_partial","Shared.c131_answers_partial","Shared.c131_fields_partial","Shared.c131_untouched_partial","Replicas.c131_search_partial","Replicas.c131_agree_partial","Replicas.c131_no_panic_partial","Replicas.c131_progress_partial","Replicas.c131_returns_partial"], "FALSE of the code as stated; two refutations, both computed in the kernel on the bytes: two readers that lose a field without a kill or an error, and a process that does not open. Proved under InTurn (no two processes merge at the same time) and NoneMissing (whenever none merges, every index file is there that was there before), both stated about the states of the run. Props/SharedCases shows a run with two processes, a kill in the middle of a file and overlapping lives that meets both. The searches (Model/Replicas, with the whole search of Model/ServerBytes at every instance): under the same two conditions, stated again about the states of the run, every search returned at any instance is the BM25 ranking of what the folder said at first, and two searches with the same queries agree; if the listed documents are undamaged no search ends an instance, a search that has not returned can always make its next step, and in a run without end it makes finitely many steps however the other instances go on, so it returns unless it waits for ever; Props/ReplicasCases is a run with two instances, the first of which returns a document while the second opens the folder."),
 ("C132", R, ["Shared.c132_index_first_refuted","Shared.c132_snapshot_refuted","Shared.c132_copy_partial","Shared.c132_nothing_new_partial","Shared.c132_untouched_partial","Shared.c132_tree","Shared.c132_numbers_partial","Shared.c132_opened_partial","Shared.c132_search_partial"], "FALSE of the code as stated; two refutations, both computed in the kernel on the bytes: a copy in the order of the names loses the posting of a fragment, and a snapshot between the two renames loses a field. Spec/Backup says what a copy is: at every path it has what the folder had at the moment at which that path was copied. Proved under InTurn and NoneMissing (of C131), for every assignment of moments to paths: nothing new is in the copy, and with the fragments of a field before its index file and no index file missing it says exactly what the folder said. Simplified: the content of one file is that of one moment. Props/BackupCases has a copy with an old fragment and a new index that meets all hypotheses."),
 ("C133", P, ["LHeap."+t for t in ["c133_pointer","c133_get","c133_kept","c133_other_keys","c133_panics","c133_live","c133_update_lost_refuted"]], "Spec/LocalMap says in terms of the history which Set a pointer comes from. A write through a pointer is one step (the value type may be large: a torn write is outside the model). c133_update_lost_refuted is the limit that the statement names."),
]
