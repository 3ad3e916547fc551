{
 "claims": [
  {
   "property": "C01",
   "status": "partial",
   "theorems": [
    "SLM.C01_partial",
    "SLM.C01_static_partial",
    "SLM.C01_spread_partial",
    "SLM.C80_answers",
    "SLM.C80_static",
    "SLM.C01_refuted_boundary",
    "SLM.C01_refuted_collision"
   ],
   "note": "False of the code as it stands; the refuting theorem gives a kernel-checked history. Proved: refinement to a plain map for every history meeting Clean (no primary-hash collision, fresh items, no store exactly on an existing bucket boundary, no bucketHeadEmpty crash); the static and spread versions replace the run-time conditions by conditions on the keys only, spread for histories of unbounded length. C80 needs the conditions for one key only."
  },
  {
   "property": "C02",
   "status": "partial",
   "theorems": [
    "SLM.C02_partial",
    "SLM.C80_stored",
    "SLM.C02_refuted"
   ],
   "note": "False of the code as it stands; the refuting theorem gives a kernel-checked history. Proved under Clean, and for one key whatever the others do (C80)."
  },
  {
   "property": "C03",
   "status": "partial",
   "theorems": [
    "SLM.C03_no_confusion_partial",
    "SLM.C03_load_partial",
    "SLM.C03_others_kept_partial",
    "SLM.C03_refuted"
   ],
   "note": "False of the code as it stands; the refuting theorem gives a kernel-checked history. Proved in every reachable state, collisions included: a lookup (Get, LoadItem) never answers with the other colliding key's entry, and no call changes or removes an entry whose pair of hashes is another one."
  },
  {
   "property": "C04",
   "status": "partial",
   "theorems": [
    "SLM.C04_partial",
    "SLM.C80_untouched",
    "SLM.C04_refuted"
   ],
   "note": "False of the code as it stands; the refuting theorem gives a kernel-checked history. Proved under Clean, and for one key whatever the others do (C80)."
  },
  {
   "property": "C05",
   "status": "partial",
   "theorems": [
    "SLM.C05_partial",
    "SLM.C80_deleted",
    "SLM.C05_refuted"
   ],
   "note": "False of the code as it stands; the refuting theorem gives a kernel-checked history. Proved under Clean, and for one key whatever the others do (C80)."
  },
  {
   "property": "C06",
   "status": "proved",
   "theorems": [
    "SLM.C06_iff_loadItem",
    "SLM.C06_false_unchanged",
    "SLM.C06_iff_get_partial"
   ],
   "note": "Retrievable = found by LoadItem: every reachable state. For Get (which may start from another bucket): under Clean."
  },
  {
   "property": "C07",
   "status": "partial",
   "theorems": [
    "SLM.C07_partial",
    "SLM.C07_no_delete_partial",
    "SLM.C07_len_steps",
    "SLM.C07_refuted"
   ],
   "note": "False of the code as it stands; the refuting theorem gives a kernel-checked history. Len never decreases: proved Len = live keys + deletions under Clean, equality without Delete, and the exact step rule in every reachable state."
  },
  {
   "property": "C08",
   "status": "proved",
   "theorems": [
    "SLM.C08_range",
    "SLM.C08_range_all",
    "SLM.C08_range_get_partial"
   ],
   "note": "Every reachable state, every callback; under Clean the visited items are exactly what Get finds."
  },
  {
   "property": "C09",
   "status": "proved",
   "theorems": [
    "SLM.C09_item_order"
   ],
   "note": ""
  },
  {
   "property": "C10",
   "status": "proved",
   "theorems": [
    "SLM.C10_buckets"
   ],
   "note": ""
  },
  {
   "property": "C100",
   "status": "partial",
   "theorems": [
    "SLM.C100_buckets",
    "SLM.C100_order",
    "SLM.C100_level",
    "SLM.C100_down",
    "SLM.C100_len_partial",
    "SLM.C100_sentinels_partial",
    "SLM.C100_keys_partial",
    "SLM.C100_partial",
    "SLM.C100_refuted",
    "SLM.C100_kind_refuted"
   ],
   "note": "Buckets, order and the columns level and down hold in every reachable map; the column len until the first bucket is divided (after that it is wrong, C99). With SampleItems only, every key line shows a key and its own hashes, the keys Range shows are among them in the same order, and without Delete they are exactly these. False otherwise: a deleted key is shown for ever (C100_refuted), and an item that is not a SampleItem is read as one, so that its line shows foreign memory (C100_kind_refuted; what exactly is printed is outside the model). Maps without embedded pools; addresses and number formats are not modelled."
  },
  {
   "property": "C101",
   "status": "proved",
   "theorems": [
    "SLM.Conc.C101_item",
    "SLM.Conc.C101_order"
   ],
   "note": "For all schedules of the step-by-step machine (Model/Conc.lean: SampleItems, no embedded pools). Not covered: SetValue on held items by other goroutines, StoreItem, and memory reordering."
  },
  {
   "property": "C102",
   "status": "proved",
   "theorems": [
    "SLM.Conc.C102",
    "SLM.Conc.C102_range"
   ],
   "note": "Every schedule of the step-by-step machine (Model/Conc.lean: SampleItems, no embedded pools, no memory reordering); overlapping Deletes of one key have to be excluded (C92_refuted)."
  },
  {
   "property": "C103",
   "status": "proved",
   "theorems": [
    "SLM.Conc.C103",
    "SLM.Conc.C103_many"
   ],
   "note": "C94 without its condition on lookups: while no split is under way no Get can locate a bucket without a sentinel. C103_many: the same for many writers under the conditions of C93_apart_partial, without the condition on lookups."
  },
  {
   "property": "C104",
   "status": "proved",
   "theorems": [
    "SLM.Conc.C104",
    "SLM.Conc.C104_witness",
    "SLM.Conc.C104_needed"
   ],
   "note": "Every schedule of the step-by-step machine (Model/Conc.lean: SampleItems, no embedded pools, no memory reordering; a split is seen as the insertion of its sentinel, so panics inside a split itself, C15, are not covered). C104_needed: both conditions are needed. C104_witness: a run with a split, two Sets and a Delete overlapping that meets the conditions."
  },
  {
   "property": "C105",
   "status": "partial",
   "theorems": [
    "SLM.PoolMgr.C105_distinct",
    "SLM.PoolMgr.C105_served",
    "SLM.PoolMgr.C105_refuted_order"
   ],
   "note": "The statement as given is proved for every schedule; partial because the order of set-up matters (C105_refuted_order: if the variable is set after UsePool(true) was applied no manager runs and every Set of a new key waits for ever) and because progress is stated as 'can be served', without a scheduler. The debug output after an extension and the dump it triggers in Set are not modelled; CmdPut and CmdClose are never sent."
  },
  {
   "property": "C106",
   "status": "partial",
   "theorems": [
    "SLM.C106_partial",
    "SLM.C106_refuted_order",
    "SLM.C106_refuted_alias"
   ],
   "note": "Proved for every reachable map: every bucket of DumpBucket is printed under its level, all lines of a level have that level, no boundary occurs twice, and every boundary is one of DumpBucket's. False as stated: the lines need not descend (C106_refuted_order), and the first child of every divided bucket is printed too, under its parent's boundary (C106_refuted_alias). Which levels are printed at all depends on Empty() of the absent list package for a node that was never initialised (map.go:1083, 1268-1284) and is left open. Maps without embedded pools."
  },
  {
   "property": "C107",
   "status": "partial",
   "theorems": [
    "SLM.ESplit.C107_found_partial",
    "SLM.ESplit.C107_quiet_partial",
    "SLM.ESplit.C107_sound",
    "SLM.ESplit.C107_kept_partial",
    "SLM.ESplit.C107_refuted_get",
    "SLM.ESplit.C107_refuted_set",
    "SLM.ESplit.C107_refuted_stale"
   ],
   "note": "Proved for every schedule whose splits are not nested, have room and have keys on both sides (Tame) and in which a Set that gets its bucket's lock still has the right bucket (Fresh): a key whose Set has answered is found by every Get that reads the bucket now right for it, or the Get waits for a running split; nothing is invented (any schedule) or thrown away. False as stated: a Get that chose its bucket before a split misses its key (C107_refuted_get), and a Set that chose its bucket before a split and locks it afterwards loses its key although it answers true (C107_refuted_set), in every such case and for ever (C107_refuted_stale). Searches and insertions into one array are single steps here (EConc takes them apart)."
  },
  {
   "property": "C108",
   "status": "partial",
   "theorems": [
    "SLM.ESplit.C108_partial",
    "SLM.ESplit.C108_refuted_crash",
    "SLM.ESplit.C108_refuted_lock",
    "SLM.ESplit.C108_refuted_destroyed"
   ],
   "note": "Proved for every schedule with Tame splits: locks have one holder, an array changes only by the holder of its bucket's lock, nothing crashes. False as stated: the nested makeBucket2 works on a bucket whose lock it does not hold (C108_refuted_lock); together with a Set on that bucket it crashes on a nil pool (C108_refuted_crash) or destroys a key whose Set has answered (C108_refuted_destroyed)."
  },
  {
   "property": "C109",
   "status": "partial",
   "theorems": [
    "SLM.Emb.C109_partial",
    "SLM.Emb.C109_refuted",
    "SLM.Emb.C109_refuted_all",
    "SLM.Emb.C109_refuted_applies",
    "SLM.Emb.C109_refuted_statement",
    "SLM.Emb.C109_partial_applies"
   ],
   "note": "Proved for every Clean history without a crash in which no hash is 2^64-1: a bucket holding more than MaxPefBucket keys has all of them in the lower half of its range, or holds exactly one too many, all in the upper half. False as stated, without any bound: while no hash has bit 4 set, nothing crashes and no bucket is ever divided (C109_refuted), and if the lowest four bits agree one bucket holds all the keys there are (C109_refuted_all)."
  },
  {
   "property": "C11",
   "status": "proved",
   "theorems": [
    "SLM.C11_dyadic",
    "SLM.C11_trie",
    "SLM.C11_split",
    "SLM.C11_no_livelock"
   ],
   "note": ""
  },
  {
   "property": "C110",
   "status": "partial",
   "theorems": [
    "SLM.Emb.C110_partial",
    "SLM.Emb.C110_any_partial",
    "SLM.Emb.C110_reads",
    "SLM.Emb.C110_trace",
    "SLM.Emb.C110_linear_refuted",
    "SLM.Emb.C110_linear_applies",
    "SLM.Emb.C110_refuted_run",
    "SLM.Emb.C110_refuted"
   ],
   "note": "Proved for every Clean history without a crash (no Delete, Purge or StoreItem), with Len in the place of n. For every history whatsoever: at most (log2 n + 2)(1 + d) + 1 with n slots in the array and d of them marked deleted. False with deletions: where all slots but the first are marked every lookup in that bucket reads more than half of them (C110_linear_refuted); 16 Sets and 15 Deletes make a lookup read 53 slots (C110_refuted). C110_reads: the slots counted are in use and the one a Get answers from is among them."
  },
  {
   "property": "C111",
   "status": "partial",
   "theorems": [
    "SLM.C111_partial",
    "SLM.C111_grow_partial",
    "SLM.C111_kept_refuted",
    "SLM.C111_rounds",
    "SLM.C111_refuted"
   ],
   "note": "False, for every constant (C111_refuted): in every reachable map no operation takes a node out or changes the order of the nodes (C111_kept_refuted), and n times Set and Delete of one key leave an empty map with n nodes, for every n, key and environment (C111_rounds). Proved instead: in a Clean history the nodes that carry a key are exactly the live keys plus the acknowledged Deletes (C111_partial), and in any history there are at most 17 + 2 x stores nodes (C111_grow_partial). Go's garbage collector is not modelled: a node counts as kept while the list reaches it."
  },
  {
   "property": "C112",
   "status": "partial",
   "theorems": [
    "SLM.C112_partial",
    "SLM.C112_lost_refuted",
    "SLM.C112_lost_applies",
    "SLM.C112_small_refuted",
    "SLM.C112_refuted"
   ],
   "note": "False: a hash below 16 (so each integer key 0 to 15) is found by no call in no reachable map, in every mode (C112_small_refuted, C112_refuted); a hash below 2^60 whose reversal is a bucket boundary and under which nothing is found is lost for ever, whatever is called afterwards (C112_lost_refuted; C112_lost_applies: the key 21 after four stores). True, in every reachable map whatever went wrong before, for string keys whose hash is no boundary at that moment and is shared by no key found: the next Set that comes back makes Get find it (C112_partial)."
  },
  {
   "property": "C113",
   "status": "partial",
   "theorems": [
    "SLM.C113_partial",
    "SLM.C113_embedded_partial",
    "SLM.C113_across_partial",
    "SLM.C113_refuted",
    "SLM.C113_applies",
    "SLM.C113_across_applies"
   ],
   "note": "Proved for all pairs of Clean histories without embedded pool (any two configurations), for all pairs of gentle histories with embedded pools (the conditions of C75), and between the two kinds of maps. Items are compared by their two hashes and values (C18, C47, C52 say when Key() is the key). False without the conditions: a map in which the integer 3 was stored answers every Get like an empty map, and Range shows the 3 (C113_refuted)."
  },
  {
   "property": "C114",
   "status": "partial",
   "theorems": [
    "SLM.C114_partial",
    "SLM.Emb.C114_embedded_partial",
    "SLM.Emb.C114_refuted",
    "SLM.C114_applies",
    "SLM.Emb.C114_embedded_applies"
   ],
   "note": "Without embedded pool: proved in every reachable state for every call, except the panic of map.go:864-866 (C15), after which the model does not follow the map. With embedded pools: proved in every state for every call that comes back; false for refused calls: a Set of an integer key panics at map.go:688 after the slot was reserved, and Get finds the key afterwards (Emb.C114_refuted)."
  },
  {
   "property": "C115",
   "status": "partial",
   "theorems": [
    "SLM.C115_partial",
    "SLM.C115_applies",
    "SLM.Emb.C115_refuted",
    "SLM.Emb.C115_embedded_partial",
    "SLM.Emb.C115_embedded_applies"
   ],
   "note": "Proved without embedded pool for every history and configuration, with the bound in terms of what Len answers. With embedded pools the first part is false: one Set can make two buckets (Emb.C115_refuted); the bound on their number is proved there for histories of Sets with string keys and lookups (no deletions, 64-bit hashes without collisions, no crash)."
  },
  {
   "property": "C116",
   "status": "partial",
   "theorems": [
    "SLM.C116_partial",
    "SLM.C116_fits",
    "SLM.C116_place",
    "SLM.C116_order",
    "SLM.C116_frame",
    "SLM.C116_frame_applies",
    "SLM.C116_applies",
    "SLM.C116_refuted",
    "SLM.C116_lost_refuted",
    "SLM.C116_lost_applies",
    "SLM.C116_twice_applies",
    "SLM.C116_twice_refuted"
   ],
   "note": "The order is kept in every map made by calls and TestSets with any buckets (C116_order). The rest is false of the code as it stands: with a bucket above the hash and another one between them the item is not linked, although TestSet answers true and Len counts it, in every map (C116_lost_refuted); a key that is there already is there twice afterwards, and Get may go on answering the old value (C116_twice_refuted). Proved in every such map for a bucket at or below the hash, a hash that is no boundary and under which nothing is found (C116_partial; FindBucket of the reversed hash always fits, C116_fits); with such a bucket the item's place does not depend on the bucket, duplicates included (C116_place), and what Get answers for the other hashes does not change, a division on the way included (C116_frame; for hashes that were no boundary and belong to one item). Maps with embedded pool: not covered."
  },
  {
   "property": "C117",
   "status": "partial",
   "theorems": [
    "SLM.C117_next",
    "SLM.C117_prev",
    "SLM.C117_item_partial",
    "SLM.C117_applies",
    "SLM.C117_refuted"
   ],
   "note": "The neighbours are what they should be in every reachable map, after any calls (C117_next, C117_prev). That NextEntry answers a live item is proved for maps on which nothing was deleted (C117_item_partial) and false otherwise: a deleted entry is still linked and is answered although keys follow it in the bucket (C117_refuted). The node is handed out as an entryHMap whatever it is; what Key and Value of the answer give for a SampleItem is not modelled (see C100_kind_refuted). Maps with embedded pool and goroutines: not covered."
  },
  {
   "property": "C118",
   "status": "partial",
   "theorems": [
    "SLM.C118_found",
    "SLM.C118_absent",
    "SLM.C118_partial",
    "SLM.C118_some",
    "SLM.C118_clean_partial",
    "SLM.C118_applies",
    "SLM.C118_refuted"
   ],
   "note": "That GetByHash finds only what Range shows, and nothing under hashes Range does not show, holds in every map (C118_found, C118_absent). That everything shown is found is proved for a hash that is no bucket boundary and that only one shown item has (C118_partial; all three parts if that is so of every shown item, C118_clean_partial) and false for two keys of one primary hash (C118_refuted); of several items of one hash that is no boundary one is found (C118_some). Hashes on a boundary: not covered. Maps with embedded pool: not covered."
  },
  {
   "property": "C12",
   "status": "proved",
   "theorems": [
    "SLM.C12_find_bucket"
   ],
   "note": ""
  },
  {
   "property": "C13",
   "status": "partial",
   "theorems": [
    "SLM.C13_partial",
    "SLM.C13_refuted"
   ],
   "note": "False of the code as it stands; the refuting theorem gives a kernel-checked history. Proved under Clean."
  },
  {
   "property": "C14",
   "status": "partial",
   "theorems": [
    "SLM.C14_partial",
    "SLM.C14_spread_partial",
    "SLM.C14_refuted"
   ],
   "note": "False of the code as it stands; the refuting theorem gives a kernel-checked history. Proved when both histories are Clean, and from key conditions alone (spread)."
  },
  {
   "property": "C15",
   "status": "partial",
   "theorems": [
    "SLM.C15_only_crash_partial",
    "SLM.C15_bounded_partial",
    "SLM.C15_spread_partial",
    "SLM.C15_refuted"
   ],
   "note": "False of the code as it stands; the refuting theorem gives a kernel-checked history. Proved: bucketHeadEmpty is the only possible crash, and it needs more than 58 splits at one place (bounded) or crowded keys (spread)."
  },
  {
   "property": "C16",
   "status": "partial",
   "theorems": [
    "SLM.C16_present",
    "SLM.C16_absent_partial",
    "SLM.C16_refuted"
   ],
   "note": "False of the code as it stands; the refuting theorem gives a kernel-checked history. Present key: every reachable state. Absent key: under Clean (boundary hashes are lost)."
  },
  {
   "property": "C17",
   "status": "proved",
   "theorems": [
    "SLM.C17_type_change",
    "SLM.C17_refuted_entry"
   ],
   "note": "Proved for every reachable state with SampleItem in effect; with the entryHMap type the change is stored silently (C17_refuted_entry), which is outside the stated quantifier."
  },
  {
   "property": "C18",
   "status": "proved",
   "theorems": [
    "SLM.C18_integer_hash",
    "SLM.C18_integers_injective",
    "SLM.C18_string_bytes_same_entry",
    "SLM.C18_equal_extension_same_entry",
    "SLM.C18_unsupported_panics",
    "SLM.C18_supported_hashed"
   ],
   "note": "For every choice of the two hash functions."
  },
  {
   "property": "C19",
   "status": "partial",
   "theorems": [
    "SLM.Opt.C19_maxPefBucket_partial",
    "SLM.Opt.C19_bucketMode_partial",
    "SLM.Opt.C19_itemFn_partial",
    "SLM.Opt.C19_usePool_partial",
    "SLM.Opt.C19_useEmbeddedPool_partial",
    "SLM.Opt.C19_options_list_partial",
    "SLM.Opt.C19_refuted"
   ],
   "note": "False of the code as it stands; the refuting theorem gives a kernel-checked history. Proved: exactly when each option is undone."
  },
  {
   "property": "C20",
   "status": "proved",
   "theorems": [
    "SLM.C20_growth",
    "SLM.C20_monotone",
    "SLM.C20_growth_iterates",
    "SLM.C20_overflow_refuted"
   ],
   "note": "Within the stated range; C20_overflow_refuted shows the range is needed."
  },
  {
   "property": "C21",
   "status": "proved",
   "theorems": [
    "SLM.C21_first_last"
   ],
   "note": ""
  },
  {
   "property": "C22",
   "status": "partial",
   "theorems": [
    "SLM.Emb.C22_partial",
    "SLM.Emb.C22_del_partial",
    "SLM.Emb.C22_refuted_deep",
    "SLM.Emb.C22_refuted_collision",
    "SLM.Emb.C22_refuted_panic"
   ],
   "note": "False of the code as it stands; the refuting theorem gives a kernel-checked history. Proved for Set/Get histories of any length with string keys, no colliding primary hashes and no hash cluster that reaches the last trie level, as long as nothing crashed. Also proved for `gentle` histories with Delete, Purge and reused slots (each call's side condition is checked in the state where it is made)."
  },
  {
   "property": "C23",
   "status": "partial",
   "theorems": [
    "SLM.Emb.C23_partial",
    "SLM.Emb.C23_refuted_delete",
    "SLM.Emb.C23_refuted_purge"
   ],
   "note": "False of the code as it stands; the refuting theorem gives a kernel-checked history. Delete / Purge of the first key of a bucket leaves it visible. Proved for gentle histories: after a Delete or Purge the key stays away until a Set of it."
  },
  {
   "property": "C24",
   "status": "partial",
   "theorems": [
    "SLM.Emb.C24_partial",
    "SLM.Emb.C24_bounded_partial",
    "SLM.Emb.C24_refuted"
   ],
   "note": "False of the code as it stands; the refuting theorem gives a kernel-checked history. Purge after a Delete in the same bucket takes another key away. Proved for gentle histories; and in every state: Purge touches one array only and takes at most one more key away."
  },
  {
   "property": "C25",
   "status": "partial",
   "theorems": [
    "SLM.Emb.C25_partial",
    "SLM.Emb.C25_refuted",
    "SLM.Emb.C22_partial",
    "SLM.Emb.C51_partial"
   ],
   "note": "False of the code as it stands; the refuting theorem gives a kernel-checked history. Holds without deletions (C22_partial: answers of a plain map); reuse of a deleted slot breaks the order. Proved for gentle histories, including reuse of a deleted slot at the right place."
  },
  {
   "property": "C26",
   "status": "partial",
   "theorems": [
    "SLM.Emb.C26_partial",
    "SLM.Emb.C26_exact_partial",
    "SLM.Emb.C26_exact_applies",
    "SLM.Emb.C26_partial_few",
    "SLM.Emb.C26_del_partial",
    "SLM.Emb.C26_del_partial_few",
    "SLM.Emb.C26_refuted_overflow",
    "SLM.Emb.C26_refuted_overflow32",
    "SLM.Emb.C26_refuted_zero"
   ],
   "note": "False of the code as it stands; the refuting theorem gives a kernel-checked history. After a clean history the only possible failure is the exhausted stack, and it happens exactly when the key's bucket holds more than MaxPefBucket keys and the key is in the upper half of its range (C26_exact_partial); none at all while at most MaxPefBucket keys share their lowest four hash bits. Same with gentle deletions."
  },
  {
   "property": "C27",
   "status": "partial",
   "theorems": [
    "SLM.Emb.C27_partial",
    "SLM.Emb.C27_del_partial",
    "SLM.Emb.C27_refuted"
   ],
   "note": "False of the code as it stands; the refuting theorem gives a kernel-checked history. Proved for histories without deletions and for gentle histories with deletions; slot number -1 is used after a deletion of the only key of a bucket."
  },
  {
   "property": "C28",
   "status": "partial",
   "theorems": [
    "SLM.Emb.C28_present_partial",
    "SLM.Emb.C28_refuted",
    "SLM.Emb.C28_refuted_always"
   ],
   "note": "False of the code as it stands; the refuting theorem gives a kernel-checked history. Holds for a present key in every reachable state. Fails in every state: StoreItem of an absent key never makes it retrievable."
  },
  {
   "property": "C29",
   "status": "partial",
   "theorems": [
    "SLM.Emb.C29_partial",
    "SLM.Emb.C29_complete_partial",
    "SLM.Emb.C29_refuted"
   ],
   "note": "False of the code as it stands; the refuting theorem gives a kernel-checked history. Proved for clean histories."
  },
  {
   "property": "C30",
   "status": "partial",
   "theorems": [
    "SLM.Pool.C30_partial",
    "SLM.Pool.C30_refuted",
    "SLM.Pool.warm_reachable"
   ],
   "note": "False of the code as it stands; the refuting theorem gives a kernel-checked history. Proved for all schedules of any number of goroutines once the first allocation is over; refuted for a race in the first allocation."
  },
  {
   "property": "C31",
   "status": "proved",
   "theorems": [
    "SLM.Pool.C31_expand",
    "SLM.Pool.C31_allocs",
    "SLM.C20_growth"
   ],
   "note": ""
  },
  {
   "property": "C32",
   "status": "partial",
   "theorems": [
    "SLM.C32_partial",
    "SLM.C32_live",
    "SLM.Pool.C32_pooled_partial",
    "SLM.Pool.C32_pooled_small",
    "SLM.Pool.C32_refuted",
    "SLM.Pool.C32_stale"
   ],
   "note": "False of the code as it stands; the refuting theorem gives a kernel-checked history. Proved without pools; with pools as long as the pool of the item was not expanded since LoadItem (always so in programs of at most 64 calls). With an expansion the statement is false (Pool.C32_refuted)."
  },
  {
   "property": "C33",
   "status": "partial",
   "theorems": [
    "SLM.Conc.C33_partial",
    "SLM.Conc.C33_refuted"
   ],
   "note": "False of the code as it stands; the refuting theorem gives a kernel-checked history. Proved, any number of goroutines and any schedule afterwards, when no other goroutine links or touches the search option during the Set and the call does not locate a bucket whose sentinel is not linked (C66_refuted_set); refuted otherwise: the failed position check is only logged."
  },
  {
   "property": "C34",
   "status": "partial",
   "theorems": [
    "SLM.Conc.C34_partial",
    "SLM.Conc.C34_refuted"
   ],
   "note": "False of the code as it stands; the refuting theorem gives a kernel-checked history. Proved when Sets of this key do not overlap and locate linked buckets; two overlapping Sets make two entries."
  },
  {
   "property": "C35",
   "status": "partial",
   "theorems": [
    "SLM.Conc.C35_visible_partial",
    "SLM.Conc.C35_get_partial",
    "SLM.Conc.C35_separates",
    "SLM.Conc.C35_order_partial",
    "SLM.Conc.C35_refuted_order"
   ],
   "note": "False of the code as it stands; the refuting theorem gives a kernel-checked history. Visibility of keys that were there before the concurrent phase: proved for all schedules in which the call does not locate a bucket whose sentinel is not linked yet (refuted there: C66_refuted_get). Order: proved while no two goroutines are between check and link before one node, refuted otherwise."
  },
  {
   "property": "C36",
   "status": "partial",
   "theorems": [
    "SLM.EConc.C36_partial",
    "SLM.EConc.C36_refuted"
   ],
   "note": "False of the code as it stands; the refuting theorem gives a kernel-checked history. Proved for an update written while the array it found is current, beside any number of updates and Gets and one inserting Set at a time; refuted: an insertion replaces the array between search and lock."
  },
  {
   "property": "C37",
   "status": "partial",
   "theorems": [
    "SLM.EConc.C37_partial",
    "SLM.EConc.C37_noreuse_partial",
    "SLM.EConc.C37_released_partial",
    "SLM.EConc.C37_refuted_leak",
    "SLM.EConc.C37_refuted_owner",
    "SLM.EConc.C37_refuted_deadlock"
   ],
   "note": "False of the code as it stands; the refuting theorem gives a kernel-checked history. Mutual exclusion and ownership proved for all schedules without reuse of deleted slots; release proved while no Set has to start over under the lock; refuted in general by a leak, a foreign unlock and a deadlock."
  },
  {
   "property": "C38",
   "status": "partial",
   "theorems": [
    "SLM.Conc.C38_partial",
    "SLM.Conc.C38_refuted",
    "SLM.Conc.C38_refuted_effect"
   ],
   "note": "False of the code as it stands; the refuting theorem gives a kernel-checked history. Proved for searches that do not overlap; two overlapping searches leave the option off."
  },
  {
   "property": "C39",
   "status": "partial",
   "theorems": [
    "SLM.RMap.C39_partial",
    "SLM.RMap.C39_refuted"
   ],
   "note": "False of the code as it stands; the refuting theorem gives a kernel-checked history. Proved over the real Map model as dirty map, for keys meeting Sane (no primary-hash collisions, spread hashes), histories of any length without Delete."
  },
  {
   "property": "C40",
   "status": "partial",
   "theorems": [
    "SLM.RMap.C40_partial",
    "SLM.RMap.C40_refuted",
    "SLM.RMap.C40_read_frozen"
   ],
   "note": "False of the code as it stands; the refuting theorem gives a kernel-checked history. Proved: Get hands out a value that was set for the key; a plain value is the last one. C40_read_frozen: in every state a Set of a promoted key has no effect."
  },
  {
   "property": "C41",
   "status": "partial",
   "theorems": [
    "SLM.RMap.C41_partial",
    "SLM.RMap.C61_get",
    "SLM.RMap.C41_refuted",
    "SLM.RMap.C61_phantom_key"
   ],
   "note": "False of the code as it stands; the refuting theorem gives a kernel-checked history. Proved: never ok=true for an absent key; exactly when it crashes."
  },
  {
   "property": "C42",
   "status": "partial",
   "theorems": [
    "SLM.RMap.C42_refuted",
    "SLM.RMap.C42_refuted_history",
    "SLM.RMap.C42_frame_partial"
   ],
   "note": "False of the code as it stands; the refuting theorem gives a kernel-checked history. C42_refuted holds in every state: Delete never answers true."
  },
  {
   "property": "C43",
   "status": "partial",
   "theorems": [
    "SLM.RMap.C43_partial",
    "SLM.RMap.C43_refuted"
   ],
   "note": "False of the code as it stands; the refuting theorem gives a kernel-checked history. Proved: Len counts the keys not yet promoted."
  },
  {
   "property": "C44",
   "status": "partial",
   "theorems": [
    "SLM.RMap.C44_partial",
    "SLM.RMap.C44_hashes",
    "SLM.RMap.C44_refuted"
   ],
   "note": "False of the code as it stands; the refuting theorem gives a kernel-checked history. C44_hashes: every state, at the level of primary hashes. C44_partial: API level for keys without primary-hash collision. With a collision a value is lost (C44_refuted)."
  },
  {
   "property": "C45",
   "status": "partial",
   "theorems": [
    "SLM.C45_palindrome_partial",
    "SLM.C45_refuted"
   ],
   "note": "False of the code as it stands; the refuting theorem gives a kernel-checked history. C45_refuted: for every reachable map and every string whose hash is not its own bit reversal."
  },
  {
   "property": "C46",
   "status": "proved",
   "theorems": [
    "SLM.C46_reverse_involution",
    "SLM.C46_reverse_bits",
    "SLM.C46_initial_boundaries",
    "SLM.C46_midpoint",
    "SLM.C46_midpoint_between",
    "SLM.C46_nearest"
   ],
   "note": ""
  },
  {
   "property": "C47",
   "status": "partial",
   "theorems": [
    "SLM.C47_partial",
    "SLM.C47_refuted"
   ],
   "note": "False of the code as it stands; the refuting theorem gives a kernel-checked history. Proved for histories using one item type."
  },
  {
   "property": "C48",
   "status": "proved",
   "theorems": [
    "SLM.C48_single_bit",
    "SLM.C48_nonzero",
    "SLM.C48_distinct"
   ],
   "note": ""
  },
  {
   "property": "C49",
   "status": "partial",
   "theorems": [
    "SLM.Pool.C49_partial",
    "SLM.Pool.C49_refuted_crash",
    "SLM.Pool.C49_refuted_hang"
   ],
   "note": "False of the code as it stands; the refuting theorem gives a kernel-checked history. Proved for all schedules while at most 63 slots are taken; at the 64th slot refuted by a crash and by a deadlock."
  },
  {
   "property": "C50",
   "status": "partial",
   "theorems": [
    "SLM.Emb.C50_len_partial",
    "SLM.Emb.C50_refuted"
   ],
   "note": "False of the code as it stands; the refuting theorem gives a kernel-checked history. Proved for clean histories; deletions are not subtracted."
  },
  {
   "property": "C51",
   "status": "partial",
   "theorems": [
    "SLM.Emb.C51_partial",
    "SLM.Emb.C51_del_partial",
    "SLM.Emb.C51_refuted_stale",
    "SLM.Emb.C51_refuted_oldvalue"
   ],
   "note": "False of the code as it stands; the refuting theorem gives a kernel-checked history. Proved for clean histories and for gentle histories with deletions."
  },
  {
   "property": "C52",
   "status": "partial",
   "theorems": [
    "SLM.Emb.C52_nopurge_partial",
    "SLM.Emb.C52_key_partial",
    "SLM.Emb.C52_key_del_partial",
    "SLM.Emb.C52_refuted"
   ],
   "note": "False of the code as it stands; the refuting theorem gives a kernel-checked history. After Purge an item can carry another key. Proved for all histories without Purge with string keys (deletions, reuse, collisions, panics and crashes included); with Purge for clean histories and for gentle histories with deletions, without a crash."
  },
  {
   "property": "C53",
   "status": "partial",
   "theorems": [
    "SLM.Conc.C53_range",
    "SLM.Conc.C53_order_partial",
    "SLM.Conc.C53_refuted"
   ],
   "note": "False of the code as it stands; the refuting theorem gives a kernel-checked history. After two overlapping Sets a Range shows two live keys in the wrong order. Everything but the hash order for all schedules; the hash order for executions that keep the list order (C35_refuted_order shows others exist)."
  },
  {
   "property": "C54",
   "status": "partial",
   "theorems": [
    "SLM.Conc.C54_partial",
    "SLM.Conc.C54_nosearch_partial",
    "SLM.Conc.C54_refuted"
   ],
   "note": "False of the code as it stands; the refuting theorem gives a kernel-checked history. The search option is shared by all maps of the process.  Proved when position searches on other maps overlap no other position search, and, for all schedules, when the calls on this map do none (Get, Delete, Range, overwriting Set)."
  },
  {
   "property": "C55",
   "status": "proved",
   "theorems": [
    "SLM.Conc.C55_get"
   ],
   "note": "All schedules. A panic (C66_refuted_panic) answers no value."
  },
  {
   "property": "C56",
   "status": "partial",
   "theorems": [
    "SLM.EConc.C56_partial",
    "SLM.EConc.C56_stored_partial",
    "SLM.EConc.C56_refuted"
   ],
   "note": "False of the code as it stands; the refuting theorem gives a kernel-checked history. Proved with one inserting Set at a time; storage proved for all schedules; two concurrent insertions break the order."
  },
  {
   "property": "C57",
   "status": "partial",
   "theorems": [
    "SLM.EConc.C57_stays_partial",
    "SLM.EConc.C57_partial",
    "SLM.EConc.C57_refuted"
   ],
   "note": "False of the code as it stands; the refuting theorem gives a kernel-checked history. Storage proved for all schedules; retrieval proved while nobody is between taking a slot and writing its hash."
  },
  {
   "property": "C58",
   "status": "partial",
   "theorems": [
    "SLM.EConc.C58_partial",
    "SLM.EConc.C58_mark_partial",
    "SLM.EConc.C58_refuted"
   ],
   "note": "False of the code as it stands; the refuting theorem gives a kernel-checked history. An insertion copies the array between search and mark.  Proved when no array is being replaced at the mark, the item is not the first slot and no Set of the key runs: every later Get, in every execution, misses."
  },
  {
   "property": "C59",
   "status": "proved",
   "theorems": [
    "SLM.C59_get",
    "SLM.C59_get_key",
    "SLM.C59_loadItem",
    "SLM.C59_loadItemByHash",
    "SLM.C59_range"
   ],
   "note": "No side condition."
  },
  {
   "property": "C60",
   "status": "proved",
   "theorems": [
    "SLM.C60_absent",
    "SLM.C60_deletes"
   ],
   "note": "No side condition. A store counts as new when LoadItem of its key answers nil just before."
  },
  {
   "property": "C61",
   "status": "proved",
   "theorems": [
    "SLM.RMap.C61_get"
   ],
   "note": "No side condition. RMap.C61_phantom_key records that presence (ok with nil) is invented under a collision; the property is about values."
  },
  {
   "property": "C62",
   "status": "proved",
   "theorems": [
    "SLM.Emb.C62_value"
   ],
   "note": "No side condition."
  },
  {
   "property": "C63",
   "status": "partial",
   "theorems": [
    "SLM.Emb.C63_partial",
    "SLM.Emb.C63_refuted_purge",
    "SLM.Emb.C63_refuted_nil"
   ],
   "note": "False of the code as it stands; the refuting theorem gives a kernel-checked history. A slot given back by Purge, or reused by a Set of nil, shows another key's value. Proved for all histories without Purge with string keys and non-nil values of one type, deletions and reuse anywhere."
  },
  {
   "property": "C64",
   "status": "proved",
   "theorems": [
    "SLM.Emb.C64_update",
    "SLM.Emb.C64_rejected"
   ],
   "note": "Every reachable state."
  },
  {
   "property": "C65",
   "status": "proved",
   "theorems": [
    "SLM.Conc.C65_no_wait",
    "SLM.Conc.C65_completes",
    "SLM.Conc.C65_bounded"
   ],
   "note": "All schedules of the machine of Model/Conc.lean (one step = one atomic access; the mutex of the search option encloses one)."
  },
  {
   "property": "C66",
   "status": "partial",
   "theorems": [
    "SLM.Conc.C66_partial",
    "SLM.Conc.C66_refuted_get",
    "SLM.Conc.C66_refuted_delete",
    "SLM.Conc.C66_refuted_set",
    "SLM.Conc.C66_refuted_panic"
   ],
   "note": "False of the code as it stands; the refuting theorem gives a kernel-checked history. A new bucket between two existing ones is found by lookups before its sentinel is linked. Proved for Get and Delete when no such bucket at or below the hash is unlinked at the moment the call locates its bucket; all other points of a split are harmless."
  },
  {
   "property": "C67",
   "status": "partial",
   "theorems": [
    "SLM.Slots.C67_partial",
    "SLM.Slots.C67_partial_stays",
    "SLM.Slots.C67_partial_applies",
    "SLM.Slots.C67_refuted"
   ],
   "note": "False of the code as it stands; the refuting theorem gives a kernel-checked history. Two goroutines that split towards the same bucket between existing siblings both set it up (initialise it and link its sentinel twice). Proved for the newest bucket of a group, in the schedules without the race of C68."
  },
  {
   "property": "C68",
   "status": "partial",
   "theorems": [
    "SLM.Slots.C68_partial",
    "SLM.Slots.C68_partial_alone",
    "SLM.Slots.C68_partial_applies",
    "SLM.Slots.C68_refuted"
   ],
   "note": "False of the code as it stands; the refuting theorem gives a kernel-checked history. map.go:1830 reads cntOfActiveLevels, then the length, then compares and swaps: a split overtaken in between makes the count smaller than the length, and every later split beyond the length spins for ever (Set never returns). Proved for the schedules without this race, among them all without overlapping splits."
  },
  {
   "property": "C69",
   "status": "partial",
   "theorems": [
    "SLM.Slots.C69_partial",
    "SLM.Slots.C69_ends",
    "SLM.Slots.C69_partial_applies",
    "SLM.Slots.C69_refuted"
   ],
   "note": "False of the code as it stands; the refuting theorem gives a kernel-checked history. In the race of C68 two goroutines can both make the group longer, and the slower one makes it shorter: a finished bucket is not found any more. The bound on the steps: all schedules. The rest: the schedules without the race of C68."
  },
  {
   "property": "C70",
   "status": "proved",
   "theorems": [
    "SLM.RConc.C70_get",
    "SLM.RConc.C70_sets",
    "SLM.RConc.C70_applies"
   ],
   "note": "A step of the model is one access to shared data; a call on a dirty map is one step whose answer is only constrained by what was linked there."
  },
  {
   "property": "C71",
   "status": "partial",
   "theorems": [
    "SLM.RConc.C71_partial",
    "SLM.RConc.C71_partial_alone",
    "SLM.RConc.C71_partial_applies",
    "SLM.RConc.C71_partial_alone_applies",
    "SLM.RConc.C71_refuted"
   ],
   "note": "False of the code as it stands; the refuting theorem gives a kernel-checked history. Get reads `read` and `dirty` separately: overtaken by a promotion, it panics (nil item) or answers (nil, true) for a key that is present throughout. Proved: promoted keys are always found (all schedules); other keys by a Get that is not overlapped."
  },
  {
   "property": "C72",
   "status": "proved",
   "theorems": [
    "SLM.RConc.C72_frozen",
    "SLM.RConc.C72_set_ignored",
    "SLM.RConc.C72_applies"
   ],
   "note": "The concurrent form of C40_read_frozen."
  },
  {
   "property": "C73",
   "status": "partial",
   "theorems": [
    "SLM.RConc.C73_partial",
    "SLM.RConc.C73_partial_bound",
    "SLM.RConc.C73_partial_applies",
    "SLM.RConc.C73_refuted",
    "SLM.RConc.C73_refuted_reached"
   ],
   "note": "False of the code as it stands; the refuting theorem gives a kernel-checked history. Delete holds the lock when missLocked promotes, and the promotion locks again: Delete never returns, and every goroutine that comes to the lock waits for ever. Proved: this is the only way to a standstill, and calls take at most 25 own steps (once the first Set is over)."
  },
  {
   "property": "C74",
   "status": "partial",
   "theorems": [
    "SLM.RConc.C74_partial_store",
    "SLM.RConc.C74_partial",
    "SLM.RConc.C74_partial_quiet",
    "SLM.RConc.C74_partial_applies",
    "SLM.RConc.C74_refuted"
   ],
   "note": "False of the code as it stands; the refuting theorem gives a kernel-checked history. A Set that stores into the dirty map between RangeItem and initDirty of a promotion is lost; so is what a finished first Set published when another first Set installs its empty read map; and a Set that overlaps a promotion can stay invisible. Proved: otherwise a key stays kept, in all schedules (faultless dirty maps)."
  },
  {
   "property": "C75",
   "status": "partial",
   "theorems": [
    "SLM.EList.C75_range_partial",
    "SLM.EList.C75_clean_partial",
    "SLM.EList.C75_few_partial",
    "SLM.EList.C75_deletes_partial",
    "SLM.EList.C75_refuted",
    "SLM.EList.exList_clean",
    "SLM.EList.exList_nocrash",
    "SLM.EList.exList_off"
   ],
   "note": "False of the code as it stands; the refuting theorem gives a kernel-checked history. A key with hash 2^64-1 is not linked when its bucket holds another key: Get answers it, Range never visits it. Proved without that hash for gentle histories (C22) in which no key is exactly on a boundary that a split makes (there the array and the bucket's dummy entry are linked the wrong way round, and the model does not follow what the next relinking does). With few keys per bucket nothing else is assumed."
  },
  {
   "property": "C76",
   "status": "partial",
   "theorems": [
    "SLM.EList.C76_followed_partial",
    "SLM.EList.C76_ends_partial"
   ],
   "note": "Proved for every history whose item list the model follows to the end (ungentle ones and keys on boundaries included); C76_ends_partial shows for the histories of C75_range_partial that it does. Missing: histories in which the model stops describing the list (a copied array whose links leave it, StoreItem of a new key)."
  },
  {
   "property": "C77",
   "status": "partial",
   "theorems": [
    "SLM.Conc.C77_fresh_partial",
    "SLM.Conc.C77_refuted"
   ],
   "note": "False of the code as it stands; the refuting theorem gives a kernel-checked history. Refuted: two overlapping Sets of different keys, then strictly one call after the other: Set(k,3), Delete(k), Delete(other key), and Get(k) answers a value replaced and deleted before. Proved for all schedules after the Set, when up to its return Sets of k did not overlap each other or locate an unlinked bucket and no two goroutines were between check and link before one node, and the hash of k is no boundary and no other key's."
  },
  {
   "property": "C78",
   "status": "partial",
   "theorems": [
    "SLM.Conc.C78_gone_partial",
    "SLM.Conc.C78_refuted",
    "SLM.Conc.C34_refuted"
   ],
   "note": "False of the code as it stands; the refuting theorem gives a kernel-checked history. Refuted by the schedule of C77_refuted (and by C34_refuted). Proved, Get and Range, for all schedules from the start of the Delete, under the conditions of C77 on the execution before it. A Get may panic in the window of C66."
  },
  {
   "property": "C79",
   "status": "partial",
   "theorems": [
    "SLM.Conc.C79_delete_once_partial",
    "SLM.Conc.C79_refuted",
    "SLM.Conc.C79_refuted_overlap"
   ],
   "note": "False of the code as it stands; the refuting theorem gives a kernel-checked history. Overlapping Deletes can both answer true (the mark is set without compare-and-swap); so can two Deletes one after the other after the race of C77_refuted. Proved for Deletes one after the other under the conditions of C78."
  },
  {
   "property": "C80",
   "status": "proved",
   "theorems": [
    "SLM.C80_answers",
    "SLM.C80_stored",
    "SLM.C80_untouched",
    "SLM.C80_deleted",
    "SLM.C80_static"
   ],
   "note": "C80_static has conditions on arguments only; the others a run-time condition for stores of this key (not on a boundary)."
  },
  {
   "property": "C81",
   "status": "proved",
   "theorems": [
    "SLM.C81_spread"
   ],
   "note": ""
  },
  {
   "property": "C82",
   "status": "proved",
   "theorems": [
    "SLM.Emb.C82_answers",
    "SLM.Emb.C82_range"
   ],
   "note": "The condition LoadWork speaks about the calls only; Range also needs that no hash is 2^64-1."
  },
  {
   "property": "C83",
   "status": "partial",
   "theorems": [
    "SLM.Walk.C83_partial",
    "SLM.Walk.C83_clean_partial",
    "SLM.Walk.C83_sound_partial",
    "SLM.Walk.C83_refuted"
   ],
   "note": "False of the code as it stands; the refuting theorem gives a kernel-checked history. Refuted for the hash of a bucket boundary (integer key 3). Proved: what is answered is right, in every reachable map; the full statement in every reachable map for hashes that are no boundary; and after clean histories for all hashes, with the plain map's content. Embedded mode: not stated."
  },
  {
   "property": "C84",
   "status": "proved",
   "theorems": [
    "SLM.Walk.C84_range",
    "SLM.Walk.C84_kept"
   ],
   "note": "Modes without embedded pool, one goroutine."
  },
  {
   "property": "C85",
   "status": "proved",
   "theorems": [
    "SLM.Walk.C85_neighbours",
    "SLM.Walk.C85_held"
   ],
   "note": "Modes without embedded pool, one goroutine."
  },
  {
   "property": "C86",
   "status": "partial",
   "theorems": [
    "SLM.Walk.C86_once_partial",
    "SLM.Walk.C86_clear_partial",
    "SLM.Walk.C86_refuted"
   ],
   "note": "False of the code as it stands; the refuting theorem gives a kernel-checked history. Refuted: a callback that deletes the key it is shown and sets it again is shown it again and again, because the new item is linked behind the cursor. Proved after clean histories: callbacks that add nothing (Len stays) see no key twice and the Range ends; clearing a map by deleting what is shown works."
  },
  {
   "property": "C87",
   "status": "partial",
   "theorems": [
    "SLM.Conc.C87_range_partial",
    "SLM.Conc.C87_growth",
    "SLM.Conc.C87_turns_partial",
    "SLM.Conc.C87_exact_partial",
    "SLM.Conc.C87_refuted"
   ],
   "note": "False of the code as it stands; the refuting theorem gives a kernel-checked history. Refuted: a Set whose position check failed (C33_refuted) is counted although its item is not linked; Len is 2, Range shows one item. Proved for all schedules: Len never decreases, grows by one per Set answered true, and is never below what a Range shows. Proved equal when insertions take turns (everything else at any time)."
  },
  {
   "property": "C88",
   "status": "partial",
   "theorems": [
    "SLM.Emb.C88_hash_partial",
    "SLM.Emb.C88_get_partial",
    "SLM.Emb.C88_partial",
    "SLM.Emb.C88_refuted"
   ],
   "note": "False of the code as it stands; the refuting theorem gives a kernel-checked history. Refuted: Set(k), Delete(k), and SearchKey(k) still hands out the item when it stands first in its array. Proved in every state whatsoever, sorted or not: the item handed out has the hash asked for, only a first slot can be a deleted one, and SearchKey and GetByHash agree. Proved in full after gentle histories (C22)."
  },
  {
   "property": "C89",
   "status": "partial",
   "theorems": [
    "SLM.EList.C89_partial",
    "SLM.EList.C89_wipe_partial",
    "SLM.EList.C75_deletes_partial",
    "SLM.EList.C89_refuted"
   ],
   "note": "False of the code as it stands; the refuting theorem gives a kernel-checked history. Refuted by the key with hash 2^64-1, which Range does not show. Proved after gentle histories without the two harmful hashes (C75), for all callbacks that read, delete any keys and set keys that are there. Missing: callbacks that set new keys or purge (the nodes are moved under the cursor), other histories."
  },
  {
   "property": "C90",
   "status": "partial",
   "theorems": [
    "SLM.C90_partial",
    "SLM.C90_spread_partial",
    "SLM.C90_calls_partial",
    "SLM.C90_refuted"
   ],
   "note": "False of the code as it stands; the refuting theorem gives a kernel-checked history. Refuted: the bucket size decides where boundaries are and a key on one is lost (C14). Proved for clean histories and, in full, for spread keys (C81), at any length, changes at any points. Missing: UseEmbeddedPool and ItemFn(nil) on a map in use."
  },
  {
   "property": "C91",
   "status": "partial",
   "theorems": [
    "SLM.C91_partial",
    "SLM.C91_spread_partial",
    "SLM.C91_refuted"
   ],
   "note": "False of the code as it stands; the refuting theorem gives a kernel-checked history. Refuted by a key on a bucket boundary (C02). Proved without pools, for clean histories and for spread keys (C81) at any length. Missing: an item passed to StoreItem whose key was present already stays outside the map and is not followed; pools (see C32), embedded pool."
  },
  {
   "property": "C92",
   "status": "partial",
   "theorems": [
    "SLM.Conc.C92_partial",
    "SLM.Conc.C92_apart_partial",
    "SLM.Conc.C92_refuted"
   ],
   "note": "False of the code as it stands; the refuting theorem gives a kernel-checked history. Refuted for all schedules: of two overlapping Deletes of one key both answer true. Proved for any number of goroutines and every schedule in which no Delete marks an entry that another one has marked since it was found, and no other Set of the key is looking for it when a Set inserts it (in particular if Sets of the key do not overlap Sets of it and Deletes not Deletes: C92_apart_partial); Sets that find the key may overlap each other and everything else. Further conditions: no Set of the key gives up (C33), the order of the list is kept and buckets being made are not located (C66), no other key shares the primary hash, the key is no boundary."
  },
  {
   "property": "C93",
   "status": "partial",
   "theorems": [
    "SLM.Conc.C93_partial",
    "SLM.Conc.C93_apart_partial",
    "SLM.Conc.C93_refuted"
   ],
   "note": "False of the code as it stands; the refuting theorem gives a kernel-checked history. Refuted by two overlapping Deletes of one key (C92). Proved for every schedule that satisfies the conditions of C92 for every key, in particular if Sets of a key do not overlap Sets of the same key and Deletes of a key not Deletes of it."
  },
  {
   "property": "C94",
   "status": "partial",
   "theorems": [
    "SLM.Conc.C94_partial",
    "SLM.Conc.C94_refuted"
   ],
   "note": "False of the code as it stands; the refuting theorem gives a kernel-checked history. Refuted: with one split going on and nothing else, a Get of a stored key that locates the new bucket before its sentinel is linked answers not found (C66). Proved if no Get of the keys in question locates a bucket in that window; everything C92 and C93 assume about Sets and Deletes (the order is kept, no Set gives up, no lost bucket, one inserting Set) is derived from the single writer."
  },
  {
   "property": "C95",
   "status": "partial",
   "theorems": [
    "SLM.EConc.C95_partial",
    "SLM.EConc.C95_oneset_partial",
    "SLM.EConc.C95_refuted"
   ],
   "note": "False of the code as it stands; the refuting theorem gives a kernel-checked history. Refuted: while a Set has taken a slot and not written its hash, a Get of a key stored earlier answers not found. A search is one step here (undisturbed). Proved if a key is inserted only while no other insertion runs, a new array is published only while no Set has an item in hand, and no Get searches while a slot is taken and not yet filled (C95_partial); in particular for one writer and any number of readers under the last condition (C95_oneset_partial). Delete calls are not covered (C58)."
  },
  {
   "property": "C96",
   "status": "partial",
   "theorems": [
    "SLM.Conc.C96_partial",
    "SLM.Conc.C96_from_partial",
    "SLM.Conc.C96_call_partial",
    "SLM.Conc.C96_bucket_partial",
    "SLM.Conc.C96_exact_partial",
    "SLM.Conc.C96_plain_partial"
   ],
   "note": "C96_plain_partial combines it with C01: in a clean history calls that do not overlap answer as a plain map. Both directions: the history can be made on the step-by-step machine and every way to do it has the sequential map's answers, item list and search option. Bucket splits are made after the Set that triggers them. Not covered: StoreItem, LoadItem and Len (not calls of the machine), Sets of a key whose reversed hash is 2^64 - 1, histories that crash (C15)."
  },
  {
   "property": "C97",
   "status": "partial",
   "theorems": [
    "SLM.C97_iff",
    "SLM.C97_partial",
    "SLM.C97_refuted"
   ],
   "note": "False of the code as it stands: the loop over the trie levels ends at 15, the sixteenth is looked at only from the side (largestDown). C97_iff says exactly for which hashes it holds, in every reachable map; C97_partial: always, for the first MaxPefBucket + 56 stores. Maps without embedded pools; buckets of embedded maps: C29, C82."
  },
  {
   "property": "C98",
   "status": "partial",
   "theorems": [
    "SLM.C98_answer",
    "SLM.C98_partial",
    "SLM.C98_set_partial",
    "SLM.C98_count_partial",
    "SLM.C98_leak",
    "SLM.C98_refuted"
   ],
   "note": "True of live entries: all live entries looked at, except possibly the last, are in the key's bucket (where FindBucket finds the nearest bucket, see C97; not for Get in mode CombineSearch2). False of deleted items and of the sentinels of empty buckets: they are passed over one by one and never removed, so a Get in an empty map may look at any number of entries (C98_leak: n rounds of Set and Delete of one key, for every n and all hash functions). Maps without embedded pools."
  },
  {
   "property": "C99",
   "status": "partial",
   "theorems": [
    "SLM.C99_partial",
    "SLM.C99_counter_partial",
    "SLM.C99_grows_partial",
    "SLM.C99_sum_partial",
    "SLM.C99_sum_step_partial",
    "SLM.C99_sum_applies",
    "SLM.C99_division_partial",
    "SLM.C99_division_applies",
    "SLM.C99_refuted",
    "SLM.C99_counter_refuted"
   ],
   "note": "True until the first bucket is divided: the counters are exact (deleted items included), no bucket but the lowest holds more keys than the limit, and a store into a bucket at its limit adds a bucket that halves the interval, in every reachable map, unless no other item and no boundary but the lowest lies below the new key in hash order or the interval has size one (C99_grows_partial). False in general: the division point is computed from the predecessor of the new item, so N keys stored in descending order into the lowest bucket never divide it, for every limit and every N (C99_refuted), and a division gives the lower half's count to the new upper bucket, after which counters are wrong and even negative (C99_counter_refuted). What is left of the counters in every reachable map: added up over all buckets they never exceed Len, a division leaves their sum alone and only the store of a new key adds to it, at most 1 and every division, in every reachable map, sets the new bucket (the upper half) to the number of items of the lower half plus two and takes that off the lower half (C99_division_partial; C99_sum_partial, C99_sum_step_partial; the missing ones are counted at aliases outside the bucket list). Maps without embedded pools."
  }
 ]
}