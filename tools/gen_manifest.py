#!/usr/bin/env python3
"""Writes /verif/MANIFEST.json from the table below."""
import json, os
P, R = "proved", "partial"
G = "Goir."
T = [
 ("C01", P, ["c01_tokens_are_maximal_runs","c01_tokens_content"], ""),
 ("C02", P, ["c02_tokenize_distributes"], ""),
 ("C03", P, ["c03_stopwords_exact"], ""),
 ("C04", P, ["StemmerMachine.c04_stemmer_schedule_independent"], ""),
 ("C05", P, ["c05_preprocessing_per_token","c05_preprocessing_distributes","c05_preprocessing_case_insensitive","c05_preprocessing_ignores_case"], ""),
 ("C06", R, ["c06_no_stopword_emitted_refuted","c06_emitted_terms_partial"], "False of the code: the stemmer runs after the stop-word filter and can produce a stop word. Refuted with a witness; the true part (what is emitted) is the _partial theorem."),
 ("C07", R, ["Slices.c07_lowercase_mutates_refuted","Slices.c07_lowercase_in_place","Slices.c07_other_filters_pure_partial"], "False of the code: the lower-case filter writes into the caller's slice. The other filters are proved pure."),
 ("C08", P, ["c08_term_frequency","c08_field_length"], ""),
 ("C09", P, ["c09_flatten_exact","c09_flatten_order_independent"], "For objects whose flattened paths do not clash (PlainKeys); the clash case is C10."),
 ("C10", R, ["c10_flatten_keys_partial","c10_flatten_deterministic_refuted"], "False of the code: keys containing dots clash and the winner depends on map order. The key set is proved determined."),
 ("C11", P, ["c11_getID","c11_getID_flatten"], ""),
 ("C12", P, ["c12_set_semantics"], ""),
 ("C13", P, ["c13_memory_postings_exact"], ""),
 ("C14", P, ["c14_memory_getFields_latest","c14_memory_getFieldDocumentTest"], ""),
 ("C15", P, ["c15_memory_counters_exact"], ""),
 ("C16", P, ["c16_memory_df_le_size"], ""),
 ("C17", P, ["c17_memory_frame"], ""),
 ("C18", P, ["c18_memory_order_independent"], ""),
 ("C19", R, ["c19_resave_replaces_refuted","c19_stale_postings_persist","c19_counts_documents_partial"], "False of the code: re-saving leaves stale postings and counts twice. Counting is proved for histories that save each pair once."),
 ("C20", P, ["c20_indexDocument_searchable"], ""),
 ("C46", P, ["LRU.c46_lru_bounded","PLRU.c49_lru_on_pointers"], "Also over the pointers of container/list."),
 ("C47", P, ["LRU.c47_lru_recency","PLRU.c49_lru_on_pointers"], "Also over the pointers of container/list."),
 ("C48", R, ["LRU.c48_capacity_zero_panics_refuted","LRU.c48_positive_capacity_partial"], "False of the code: capacity 0 panics on the first Put. Positive capacities are proved safe."),
 ("C49", P, ["PList.c49_moveToFront","PList.c49_pushFront","PList.c49_remove","PList.c49_back_len_new","PLRU.c49_cache_refines","PLRU.c49_lru_on_pointers"], "The list operations on pointers; the whole cache over those pointers answers every sequence of calls as the cache over a sequence does, so C46 and C47 hold of the pointers."),
 ("C50", R, ["PList.c50_concurrent_gets_refuted","PLRU.c50_put_panics_refuted","PLRU.c50_cache_unbounded_refuted","PList.c50_gets_safe_partial","PLRU.c50_serial_gets_partial"], "False of the code: Get moves list elements under a read lock. Two concurrent Gets of one key break the list; a client then sees the next Put panic, or a cache of capacity 2 that never evicts again and holds any number of keys. Proved for Gets that do not overlap (same result as in turn) and for Gets that all hit the front."),
 ("C51", P, ["RCU.c51_rcu_prefix_consistent"], ""),
 ("C52", P, ["RCU.c52_rcu_bounded_progress"], ""),
 ("C53", R, ["SyncMap.c53_syncmap_never_sees_refuted","SyncMap.c53_writer_would_lose_updates_refuted"], "False of the code: no goroutine drains the channel, so a Put never becomes visible. Fully refuted."),
 ("C54", R, ["Shard.c54_shard_get_total","Shard.c54_32bit_panics_refuted"], "Proved where int is 64 bits; false where int is 32 bits (negative remainder), refuted with a witness."),
 ("C55", P, ["Shard.c55_shard_is_a_map"], ""),
 ("C56", R, ["Shard.c56_shards_isolated_refuted","Shard.c56_different_residues_isolated_partial"], "False of the code: names whose checksums agree modulo the shard count share a shard. Isolation is proved for different residues."),
]
exec(open(os.path.join(os.path.dirname(__file__),"manifest_more.py")).read()) if os.path.exists(os.path.join(os.path.dirname(__file__),"manifest_more.py")) else None
ids=[json.loads(l)["id"] for l in open("/verif/properties.jsonl")]
have={t[0] for t in T}
assert have<=set(ids), have-set(ids)
claims=[{"property":p,"status":s,"theorems":[G+x for x in th],"note":n} for p,s,th,n in sorted(T)]
print("missing:",[i for i in ids if i not in have])
json.dump({"claims":claims},open("/verif/MANIFEST.json","w"),indent=1)
