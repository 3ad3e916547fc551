c("C39","partial","RMap.C39_partial RMap.C39_refuted",DEFECT+"Proved over the real Map model as dirty map, for keys meeting Sane (no primary-hash collisions, spread hashes), histories of any length without Delete.")
c("C40","partial","RMap.C40_partial RMap.C40_refuted RMap.C40_read_frozen",DEFECT+"Proved: Get hands out a value that was set for the key; a plain value is the last one. C40_read_frozen: in every state a Set of a promoted key has no effect.")
c("C41","partial","RMap.C41_partial RMap.C61_get RMap.C41_refuted RMap.C61_phantom_key",DEFECT+"Proved: never ok=true for an absent key; exactly when it crashes.")
c("C42","partial","RMap.C42_refuted RMap.C42_refuted_history RMap.C42_frame_partial",DEFECT+"C42_refuted holds in every state: Delete never answers true.")
c("C43","partial","RMap.C43_partial RMap.C43_refuted",DEFECT+"Proved: Len counts the keys not yet promoted.")
c("C44","partial","RMap.C44_partial RMap.C44_hashes RMap.C44_refuted",DEFECT+"C44_hashes: every state, at the level of primary hashes. C44_partial: API level for keys without primary-hash collision. With a collision a value is lost (C44_refuted).")
c("C30","partial","Pool.C30_partial Pool.C30_refuted Pool.warm_reachable",DEFECT+"Proved for all schedules of any number of goroutines once the first allocation is over; refuted for a race in the first allocation.")
c("C31","proved","Pool.C31_expand Pool.C31_allocs C20_growth","")
c("C49","partial","Pool.C49_partial Pool.C49_refuted_crash Pool.C49_refuted_hang",DEFECT+"Proved for all schedules while at most 63 slots are taken; at the 64th slot refuted by a crash and by a deadlock.")
c("C22","partial","Emb.C22_partial Emb.C22_del_partial Emb.C22_refuted_deep Emb.C22_refuted_collision Emb.C22_refuted_panic",DEFECT+"Proved for Set/Get histories of any length with string keys, no colliding primary hashes and no hash cluster that reaches the last trie level, as long as nothing crashed. Also proved for `gentle` histories with Delete, Purge and reused slots (each call's side condition is checked in the state where it is made).")
c("C23","partial","Emb.C23_partial Emb.C23_refuted_delete Emb.C23_refuted_purge",DEFECT+"Delete / Purge of the first key of a bucket leaves it visible. Proved for gentle histories: after a Delete or Purge the key stays away until a Set of it.")
c("C24","partial","Emb.C24_partial Emb.C24_bounded_partial Emb.C24_refuted",DEFECT+"Purge after a Delete in the same bucket takes another key away. Proved for gentle histories; and in every state: Purge touches one array only and takes at most one more key away.")
c("C25","partial","Emb.C25_partial Emb.C25_refuted Emb.C22_partial Emb.C51_partial",DEFECT+"Holds without deletions (C22_partial: answers of a plain map); reuse of a deleted slot breaks the order. Proved for gentle histories, including reuse of a deleted slot at the right place.")
c("C26","partial","Emb.C26_partial Emb.C26_exact_partial Emb.C26_exact_applies Emb.C26_partial_few Emb.C26_del_partial Emb.C26_del_partial_few Emb.C26_refuted_overflow Emb.C26_refuted_overflow32 Emb.C26_refuted_zero",DEFECT+"After a clean history the only possible failure is the exhausted stack, and it happens exactly when the key's bucket holds more than MaxPefBucket keys and the key is in the upper half of its range (C26_exact_partial); none at all while at most MaxPefBucket keys share their lowest four hash bits. Same with gentle deletions.")
c("C27","partial","Emb.C27_partial Emb.C27_del_partial Emb.C27_refuted",DEFECT+"Proved for histories without deletions and for gentle histories with deletions; slot number -1 is used after a deletion of the only key of a bucket.")
c("C28","partial","Emb.C28_present_partial Emb.C28_refuted Emb.C28_refuted_always",DEFECT+"Holds for a present key in every reachable state. Fails in every state: StoreItem of an absent key never makes it retrievable.")
c("C29","partial","Emb.C29_partial Emb.C29_complete_partial Emb.C29_refuted",DEFECT+"Proved for clean histories.")
c("C50","partial","Emb.C50_len_partial Emb.C50_refuted",DEFECT+"Proved for clean histories; deletions are not subtracted.")
c("C51","partial","Emb.C51_partial Emb.C51_del_partial Emb.C51_refuted_stale Emb.C51_refuted_oldvalue",DEFECT+"Proved for clean histories and for gentle histories with deletions.")
c("C52","partial","Emb.C52_nopurge_partial Emb.C52_key_partial Emb.C52_key_del_partial Emb.C52_refuted",DEFECT+"After Purge an item can carry another key. Proved for all histories without Purge with string keys (deletions, reuse, collisions, panics and crashes included); with Purge for clean histories and for gentle histories with deletions, without a crash.")
c("C33","partial","Conc.C33_partial Conc.C33_refuted",DEFECT+"Proved, any number of goroutines and any schedule afterwards, when no other goroutine links or touches the search option during the Set and the call does not locate a bucket whose sentinel is not linked (C66_refuted_set); refuted otherwise: the failed position check is only logged.")
c("C34","partial","Conc.C34_partial Conc.C34_refuted",DEFECT+"Proved when Sets of this key do not overlap and locate linked buckets; two overlapping Sets make two entries.")
c("C35","partial","Conc.C35_visible_partial Conc.C35_get_partial Conc.C35_separates Conc.C35_order_partial Conc.C35_refuted_order",DEFECT+"Visibility of keys that were there before the concurrent phase: proved for all schedules in which the call does not locate a bucket whose sentinel is not linked yet (refuted there: C66_refuted_get). Order: proved while no two goroutines are between check and link before one node, refuted otherwise.")
c("C38","partial","Conc.C38_partial Conc.C38_refuted Conc.C38_refuted_effect",DEFECT+"Proved for searches that do not overlap; two overlapping searches leave the option off.")
c("C53","partial","Conc.C53_range Conc.C53_order_partial Conc.C53_refuted",DEFECT+"After two overlapping Sets a Range shows two live keys in the wrong order. Everything but the hash order for all schedules; the hash order for executions that keep the list order (C35_refuted_order shows others exist).")
c("C54","partial","Conc.C54_partial Conc.C54_nosearch_partial Conc.C54_refuted",DEFECT+"The search option is shared by all maps of the process.  Proved when position searches on other maps overlap no other position search, and, for all schedules, when the calls on this map do none (Get, Delete, Range, overwriting Set).")
c("C55","proved","Conc.C55_get","All schedules. A panic (C66_refuted_panic) answers no value.")
c("C36","partial","EConc.C36_partial EConc.C36_refuted",DEFECT+"Proved for an update written while the array it found is current, beside any number of updates and Gets and one inserting Set at a time; refuted: an insertion replaces the array between search and lock.")
c("C37","partial","EConc.C37_partial EConc.C37_noreuse_partial EConc.C37_released_partial EConc.C37_refuted_leak EConc.C37_refuted_owner EConc.C37_refuted_deadlock",DEFECT+"Mutual exclusion and ownership proved for all schedules without reuse of deleted slots; release proved while no Set has to start over under the lock; refuted in general by a leak, a foreign unlock and a deadlock.")
c("C56","partial","EConc.C56_partial EConc.C56_stored_partial EConc.C56_refuted",DEFECT+"Proved with one inserting Set at a time; storage proved for all schedules; two concurrent insertions break the order.")
c("C57","partial","EConc.C57_stays_partial EConc.C57_partial EConc.C57_refuted",DEFECT+"Storage proved for all schedules; retrieval proved while nobody is between taking a slot and writing its hash.")
c("C58","partial","EConc.C58_partial EConc.C58_mark_partial EConc.C58_refuted",DEFECT+"An insertion copies the array between search and mark.  Proved when no array is being replaced at the mark, the item is not the first slot and no Set of the key runs: every later Get, in every execution, misses.")
c("C59","proved","C59_get C59_get_key C59_loadItem C59_loadItemByHash C59_range","No side condition.")
c("C60","proved","C60_absent C60_deletes","No side condition. A store counts as new when LoadItem of its key answers nil just before.")
c("C61","proved","RMap.C61_get","No side condition. RMap.C61_phantom_key records that presence (ok with nil) is invented under a collision; the property is about values.")
c("C62","proved","Emb.C62_value","No side condition.")
c("C63","partial","Emb.C63_partial Emb.C63_refuted_purge Emb.C63_refuted_nil",DEFECT+"A slot given back by Purge, or reused by a Set of nil, shows another key's value. Proved for all histories without Purge with string keys and non-nil values of one type, deletions and reuse anywhere.")
c("C64","proved","Emb.C64_update Emb.C64_rejected","Every reachable state.")
c("C65","proved","Conc.C65_no_wait Conc.C65_completes Conc.C65_bounded","All schedules of the machine of Model/Conc.lean (one step = one atomic access; the mutex of the search option encloses one).")
c("C66","partial","Conc.C66_partial Conc.C66_refuted_get Conc.C66_refuted_delete Conc.C66_refuted_set Conc.C66_refuted_panic",DEFECT+"A new bucket between two existing ones is found by lookups before its sentinel is linked. Proved for Get and Delete when no such bucket at or below the hash is unlinked at the moment the call locates its bucket; all other points of a split are harmless.")
c("C67","partial","Slots.C67_partial Slots.C67_partial_stays Slots.C67_partial_applies Slots.C67_refuted",DEFECT+"Two goroutines that split towards the same bucket between existing siblings both set it up (initialise it and link its sentinel twice). Proved for the newest bucket of a group, in the schedules without the race of C68.")
c("C68","partial","Slots.C68_partial Slots.C68_partial_alone Slots.C68_partial_applies Slots.C68_refuted",DEFECT+"map.go:1830 reads cntOfActiveLevels, then the length, then compares and swaps: a split overtaken in between makes the count smaller than the length, and every later split beyond the length spins for ever (Set never returns). Proved for the schedules without this race, among them all without overlapping splits.")
c("C69","partial","Slots.C69_partial Slots.C69_ends Slots.C69_partial_applies Slots.C69_refuted",DEFECT+"In the race of C68 two goroutines can both make the group longer, and the slower one makes it shorter: a finished bucket is not found any more. The bound on the steps: all schedules. The rest: the schedules without the race of C68.")
c("C70","proved","RConc.C70_get RConc.C70_sets RConc.C70_applies","A step of the model is one access to shared data; a call on a dirty map is one step whose answer is only constrained by what was linked there.")
c("C71","partial","RConc.C71_partial RConc.C71_partial_alone RConc.C71_partial_applies RConc.C71_partial_alone_applies RConc.C71_refuted",DEFECT+"Get reads `read` and `dirty` separately: overtaken by a promotion, it panics (nil item) or answers (nil, true) for a key that is present throughout. Proved: promoted keys are always found (all schedules); other keys by a Get that is not overlapped.")
c("C72","proved","RConc.C72_frozen RConc.C72_set_ignored RConc.C72_applies","The concurrent form of C40_read_frozen.")
c("C73","partial","RConc.C73_partial RConc.C73_partial_bound RConc.C73_partial_applies RConc.C73_refuted RConc.C73_refuted_reached",DEFECT+"Delete holds the lock when missLocked promotes, and the promotion locks again: Delete never returns, and every goroutine that comes to the lock waits for ever. Proved: this is the only way to a standstill, and calls take at most 25 own steps (once the first Set is over).")
c("C74","partial","RConc.C74_partial_store RConc.C74_partial RConc.C74_partial_quiet RConc.C74_partial_applies RConc.C74_refuted",DEFECT+"A Set that stores into the dirty map between RangeItem and initDirty of a promotion is lost; so is what a finished first Set published when another first Set installs its empty read map; and a Set that overlaps a promotion can stay invisible. Proved: otherwise a key stays kept, in all schedules (faultless dirty maps).")
c("C75","partial","EList.C75_range_partial EList.C75_clean_partial EList.C75_few_partial EList.C75_deletes_partial EList.C75_refuted EList.exList_clean EList.exList_nocrash EList.exList_off",DEFECT+"A key with hash 2^64-1 is not linked when its bucket holds another key: Get answers it, Range never visits it. Proved without that hash for gentle histories (C22) in which no key is exactly on a boundary that a split makes (there the array and the bucket's dummy entry are linked the wrong way round, and the model does not follow what the next relinking does). With few keys per bucket nothing else is assumed.")
c("C76","partial","EList.C76_followed_partial EList.C76_ends_partial","Proved for every history whose item list the model follows to the end (ungentle ones and keys on boundaries included); C76_ends_partial shows for the histories of C75_range_partial that it does. Missing: histories in which the model stops describing the list (a copied array whose links leave it, StoreItem of a new key).")
c("C77","partial","Conc.C77_fresh_partial Conc.C77_refuted",DEFECT+"Refuted: two overlapping Sets of different keys, then strictly one call after the other: Set(k,3), Delete(k), Delete(other key), and Get(k) answers a value replaced and deleted before. Proved for all schedules after the Set, when up to its return Sets of k did not overlap each other or locate an unlinked bucket and no two goroutines were between check and link before one node, and the hash of k is no boundary and no other key's.")
c("C78","partial","Conc.C78_gone_partial Conc.C78_refuted Conc.C34_refuted",DEFECT+"Refuted by the schedule of C77_refuted (and by C34_refuted). Proved, Get and Range, for all schedules from the start of the Delete, under the conditions of C77 on the execution before it. A Get may panic in the window of C66.")
c("C79","partial","Conc.C79_delete_once_partial Conc.C79_refuted Conc.C79_refuted_overlap",DEFECT+"Overlapping Deletes can both answer true (the mark is set without compare-and-swap); so can two Deletes one after the other after the race of C77_refuted. Proved for Deletes one after the other under the conditions of C78.")
c("C80","proved","C80_answers C80_stored C80_untouched C80_deleted C80_static","C80_static has conditions on arguments only; the others a run-time condition for stores of this key (not on a boundary).")
c("C81","proved","C81_spread","")
c("C82","proved","Emb.C82_answers Emb.C82_range","The condition LoadWork speaks about the calls only; Range also needs that no hash is 2^64-1.")
c("C83","partial","Walk.C83_partial Walk.C83_clean_partial Walk.C83_sound_partial Walk.C83_refuted",DEFECT+"Refuted for the hash of a bucket boundary (integer key 3). Proved: what is answered is right, in every reachable map; the full statement in every reachable map for hashes that are no boundary; and after clean histories for all hashes, with the plain map's content. Embedded mode: not stated.")
c("C84","proved","Walk.C84_range Walk.C84_kept","Modes without embedded pool, one goroutine.")
c("C85","proved","Walk.C85_neighbours Walk.C85_held","Modes without embedded pool, one goroutine.")
c("C86","partial","Walk.C86_once_partial Walk.C86_clear_partial Walk.C86_refuted",DEFECT+"Refuted: a callback that deletes the key it is shown and sets it again is shown it again and again, because the new item is linked behind the cursor. Proved after clean histories: callbacks that add nothing (Len stays) see no key twice and the Range ends; clearing a map by deleting what is shown works.")
c("C87","partial","Conc.C87_range_partial Conc.C87_growth Conc.C87_turns_partial Conc.C87_exact_partial Conc.C87_refuted",DEFECT+"Refuted: a Set whose position check failed (C33_refuted) is counted although its item is not linked; Len is 2, Range shows one item. Proved for all schedules: Len never decreases, grows by one per Set answered true, and is never below what a Range shows. Proved equal when insertions take turns (everything else at any time).")
c("C88","partial","Emb.C88_hash_partial Emb.C88_get_partial Emb.C88_partial Emb.C88_refuted",DEFECT+"Refuted: Set(k), Delete(k), and SearchKey(k) still hands out the item when it stands first in its array. Proved in every state whatsoever, sorted or not: the item handed out has the hash asked for, only a first slot can be a deleted one, and SearchKey and GetByHash agree. Proved in full after gentle histories (C22).")
c("C89","partial","EList.C89_partial EList.C89_wipe_partial EList.C75_deletes_partial EList.C89_refuted",DEFECT+"Refuted by the key with hash 2^64-1, which Range does not show. Proved after gentle histories without the two harmful hashes (C75), for all callbacks that read, delete any keys and set keys that are there. Missing: callbacks that set new keys or purge (the nodes are moved under the cursor), other histories.")
c("C90","partial","C90_partial C90_spread_partial C90_calls_partial C90_refuted",DEFECT+"Refuted: the bucket size decides where boundaries are and a key on one is lost (C14). Proved for clean histories and, in full, for spread keys (C81), at any length, changes at any points. Missing: UseEmbeddedPool and ItemFn(nil) on a map in use.")
c("C91","partial","C91_partial C91_spread_partial C91_refuted",DEFECT+"Refuted by a key on a bucket boundary (C02). Proved without pools, for clean histories and for spread keys (C81) at any length. Missing: an item passed to StoreItem whose key was present already stays outside the map and is not followed; pools (see C32), embedded pool.")
c("C92","partial","Conc.C92_partial Conc.C92_apart_partial Conc.C92_refuted",DEFECT+"Refuted for all schedules: of two overlapping Deletes of one key both answer true. Proved for any number of goroutines and every schedule in which no Delete marks an entry that another one has marked since it was found, and no other Set of the key is looking for it when a Set inserts it (in particular if Sets of the key do not overlap Sets of it and Deletes not Deletes: C92_apart_partial); Sets that find the key may overlap each other and everything else. Further conditions: no Set of the key gives up (C33), the order of the list is kept and buckets being made are not located (C66), no other key shares the primary hash, the key is no boundary.")
c("C93","partial","Conc.C93_partial Conc.C93_apart_partial Conc.C93_refuted",DEFECT+"Refuted by two overlapping Deletes of one key (C92). Proved for every schedule that satisfies the conditions of C92 for every key, in particular if Sets of a key do not overlap Sets of the same key and Deletes of a key not Deletes of it.")
c("C94","partial","Conc.C94_partial Conc.C94_refuted",DEFECT+"Refuted: with one split going on and nothing else, a Get of a stored key that locates the new bucket before its sentinel is linked answers not found (C66). Proved if no Get of the keys in question locates a bucket in that window; everything C92 and C93 assume about Sets and Deletes (the order is kept, no Set gives up, no lost bucket, one inserting Set) is derived from the single writer.")
c("C95","partial","EConc.C95_partial EConc.C95_oneset_partial EConc.C95_refuted",DEFECT+"Refuted: while a Set has taken a slot and not written its hash, a Get of a key stored earlier answers not found. A search is one step here (undisturbed). Proved if a key is inserted only while no other insertion runs, a new array is published only while no Set has an item in hand, and no Get searches while a slot is taken and not yet filled (C95_partial); in particular for one writer and any number of readers under the last condition (C95_oneset_partial). Delete calls are not covered (C58).")
c("C96","partial","Conc.C96_partial Conc.C96_from_partial Conc.C96_call_partial Conc.C96_bucket_partial Conc.C96_exact_partial Conc.C96_plain_partial","C96_plain_partial combines it with C01: in a clean history calls that do not overlap answer as a plain map. Both directions: the history can be made on the step-by-step machine and every way to do it has the sequential map's answers, item list and search option. Bucket splits are made after the Set that triggers them. Not covered: StoreItem, LoadItem and Len (not calls of the machine), Sets of a key whose reversed hash is 2^64 - 1, histories that crash (C15).")
c("C97","partial","C97_iff C97_partial C97_refuted","False of the code as it stands: the loop over the trie levels ends at 15, the sixteenth is looked at only from the side (largestDown). C97_iff says exactly for which hashes it holds, in every reachable map; C97_partial: always, for the first MaxPefBucket + 56 stores. Maps without embedded pools; buckets of embedded maps: C29, C82.")
c("C98","partial","C98_answer C98_partial C98_set_partial C98_count_partial C98_leak C98_refuted","True of live entries: all live entries looked at, except possibly the last, are in the key's bucket (where FindBucket finds the nearest bucket, see C97; not for Get in mode CombineSearch2). False of deleted items and of the sentinels of empty buckets: they are passed over one by one and never removed, so a Get in an empty map may look at any number of entries (C98_leak: n rounds of Set and Delete of one key, for every n and all hash functions). Maps without embedded pools.")
c("C99","partial","C99_partial C99_counter_partial C99_grows_partial C99_sum_partial C99_sum_step_partial C99_sum_applies C99_division_partial C99_division_applies C99_refuted C99_counter_refuted","True until the first bucket is divided: the counters are exact (deleted items included), no bucket but the lowest holds more keys than the limit, and a store into a bucket at its limit adds a bucket that halves the interval, in every reachable map, unless no other item and no boundary but the lowest lies below the new key in hash order or the interval has size one (C99_grows_partial). False in general: the division point is computed from the predecessor of the new item, so N keys stored in descending order into the lowest bucket never divide it, for every limit and every N (C99_refuted), and a division gives the lower half's count to the new upper bucket, after which counters are wrong and even negative (C99_counter_refuted). What is left of the counters in every reachable map: added up over all buckets they never exceed Len, a division leaves their sum alone and only the store of a new key adds to it, at most 1 and every division, in every reachable map, sets the new bucket (the upper half) to the number of items of the lower half plus two and takes that off the lower half (C99_division_partial; C99_sum_partial, C99_sum_step_partial; the missing ones are counted at aliases outside the bucket list). Maps without embedded pools.")
c("C100","partial","C100_buckets C100_order C100_level C100_down C100_len_partial C100_sentinels_partial C100_keys_partial C100_partial C100_refuted C100_kind_refuted","Buckets, order and the columns level and down hold in every reachable map; the column len until the first bucket is divided (after that it is wrong, C99). With SampleItems only, every key line shows a key and its own hashes, the keys Range shows are among them in the same order, and without Delete they are exactly these. False otherwise: a deleted key is shown for ever (C100_refuted), and an item that is not a SampleItem is read as one, so that its line shows foreign memory (C100_kind_refuted; what exactly is printed is outside the model). Maps without embedded pools; addresses and number formats are not modelled.")
c("C101","proved","Conc.C101_item Conc.C101_order","For all schedules of the step-by-step machine (Model/Conc.lean: SampleItems, no embedded pools). Not covered: SetValue on held items by other goroutines, StoreItem, and memory reordering.")
c("C102","proved","Conc.C102 Conc.C102_range","Every schedule of the step-by-step machine (Model/Conc.lean: SampleItems, no embedded pools, no memory reordering); overlapping Deletes of one key have to be excluded (C92_refuted).")
c("C103","proved","Conc.C103 Conc.C103_many","C94 without its condition on lookups: while no split is under way no Get can locate a bucket without a sentinel. C103_many: the same for many writers under the conditions of C93_apart_partial, without the condition on lookups.")
c("C104","proved","Conc.C104 Conc.C104_witness Conc.C104_needed","Every schedule of the step-by-step machine (Model/Conc.lean: SampleItems, no embedded pools, no memory reordering; a split is seen as the insertion of its sentinel, so panics inside a split itself, C15, are not covered). C104_needed: both conditions are needed. C104_witness: a run with a split, two Sets and a Delete overlapping that meets the conditions.")
c("C105","partial","PoolMgr.C105_distinct PoolMgr.C105_served PoolMgr.C105_refuted_order","The statement as given is proved for every schedule; partial because the order of set-up matters (C105_refuted_order: if the variable is set after UsePool(true) was applied no manager runs and every Set of a new key waits for ever) and because progress is stated as 'can be served', without a scheduler. The debug output after an extension and the dump it triggers in Set are not modelled; CmdPut and CmdClose are never sent.")
c("C106","partial","C106_partial C106_refuted_order C106_refuted_alias","Proved for every reachable map: every bucket of DumpBucket is printed under its level, all lines of a level have that level, no boundary occurs twice, and every boundary is one of DumpBucket's. False as stated: the lines need not descend (C106_refuted_order), and the first child of every divided bucket is printed too, under its parent's boundary (C106_refuted_alias). Which levels are printed at all depends on Empty() of the absent list package for a node that was never initialised (map.go:1083, 1268-1284) and is left open. Maps without embedded pools.")
c("C107","partial","ESplit.C107_found_partial ESplit.C107_quiet_partial ESplit.C107_sound ESplit.C107_kept_partial ESplit.C107_refuted_get ESplit.C107_refuted_set ESplit.C107_refuted_stale","Proved for every schedule whose splits are not nested, have room and have keys on both sides (Tame) and in which a Set that gets its bucket's lock still has the right bucket (Fresh): a key whose Set has answered is found by every Get that reads the bucket now right for it, or the Get waits for a running split; nothing is invented (any schedule) or thrown away. False as stated: a Get that chose its bucket before a split misses its key (C107_refuted_get), and a Set that chose its bucket before a split and locks it afterwards loses its key although it answers true (C107_refuted_set), in every such case and for ever (C107_refuted_stale). Searches and insertions into one array are single steps here (EConc takes them apart).")
c("C108","partial","ESplit.C108_partial ESplit.C108_refuted_crash ESplit.C108_refuted_lock ESplit.C108_refuted_destroyed","Proved for every schedule with Tame splits: locks have one holder, an array changes only by the holder of its bucket's lock, nothing crashes. False as stated: the nested makeBucket2 works on a bucket whose lock it does not hold (C108_refuted_lock); together with a Set on that bucket it crashes on a nil pool (C108_refuted_crash) or destroys a key whose Set has answered (C108_refuted_destroyed).")
c("C109","partial","Emb.C109_partial Emb.C109_refuted Emb.C109_refuted_all Emb.C109_refuted_applies Emb.C109_refuted_statement Emb.C109_partial_applies","Proved for every Clean history without a crash in which no hash is 2^64-1: a bucket holding more than MaxPefBucket keys has all of them in the lower half of its range, or holds exactly one too many, all in the upper half. False as stated, without any bound: while no hash has bit 4 set, nothing crashes and no bucket is ever divided (C109_refuted), and if the lowest four bits agree one bucket holds all the keys there are (C109_refuted_all).")
c("C110","partial","Emb.C110_partial Emb.C110_any_partial Emb.C110_reads Emb.C110_trace Emb.C110_linear_refuted Emb.C110_linear_applies Emb.C110_refuted_run Emb.C110_refuted","Proved for every Clean history without a crash (no Delete, Purge or StoreItem), with Len in the place of n. For every history whatsoever: at most (log2 n + 2)(1 + d) + 1 with n slots in the array and d of them marked deleted. False with deletions: where all slots but the first are marked every lookup in that bucket reads more than half of them (C110_linear_refuted); 16 Sets and 15 Deletes make a lookup read 53 slots (C110_refuted). C110_reads: the slots counted are in use and the one a Get answers from is among them.")
c("C111","partial","C111_partial C111_grow_partial C111_kept_refuted C111_rounds C111_refuted","False, for every constant (C111_refuted): in every reachable map no operation takes a node out or changes the order of the nodes (C111_kept_refuted), and n times Set and Delete of one key leave an empty map with n nodes, for every n, key and environment (C111_rounds). Proved instead: in a Clean history the nodes that carry a key are exactly the live keys plus the acknowledged Deletes (C111_partial), and in any history there are at most 17 + 2 x stores nodes (C111_grow_partial). Go's garbage collector is not modelled: a node counts as kept while the list reaches it.")
c("C112","partial","C112_partial C112_lost_refuted C112_lost_applies C112_small_refuted C112_refuted","False: a hash below 16 (so each integer key 0 to 15) is found by no call in no reachable map, in every mode (C112_small_refuted, C112_refuted); a hash below 2^60 whose reversal is a bucket boundary and under which nothing is found is lost for ever, whatever is called afterwards (C112_lost_refuted; C112_lost_applies: the key 21 after four stores). True, in every reachable map whatever went wrong before, for string keys whose hash is no boundary at that moment and is shared by no key found: the next Set that comes back makes Get find it (C112_partial).")
c("C113","partial","C113_partial C113_embedded_partial C113_across_partial C113_refuted C113_applies C113_across_applies","Proved for all pairs of Clean histories without embedded pool (any two configurations), for all pairs of gentle histories with embedded pools (the conditions of C75), and between the two kinds of maps. Items are compared by their two hashes and values (C18, C47, C52 say when Key() is the key). False without the conditions: a map in which the integer 3 was stored answers every Get like an empty map, and Range shows the 3 (C113_refuted).")
c("C114","partial","C114_partial Emb.C114_embedded_partial Emb.C114_refuted C114_applies Emb.C114_embedded_applies","Without embedded pool: proved in every reachable state for every call, except the panic of map.go:864-866 (C15), after which the model does not follow the map. With embedded pools: proved in every state for every call that comes back; false for refused calls: a Set of an integer key panics at map.go:688 after the slot was reserved, and Get finds the key afterwards (Emb.C114_refuted).")
c("C115","partial","C115_partial C115_applies Emb.C115_refuted Emb.C115_embedded_partial Emb.C115_embedded_applies","Proved without embedded pool for every history and configuration, with the bound in terms of what Len answers. With embedded pools the first part is false: one Set can make two buckets (Emb.C115_refuted); the bound on their number is proved there for histories of Sets with string keys and lookups (no deletions, 64-bit hashes without collisions, no crash).")
c("C116","partial","C116_partial C116_fits C116_place C116_order C116_frame C116_frame_applies C116_applies C116_refuted C116_lost_refuted C116_lost_applies C116_twice_applies C116_twice_refuted","The order is kept in every map made by calls and TestSets with any buckets (C116_order). The rest is false of the code as it stands: with a bucket above the hash and another one between them the item is not linked, although TestSet answers true and Len counts it, in every map (C116_lost_refuted); a key that is there already is there twice afterwards, and Get may go on answering the old value (C116_twice_refuted). Proved in every such map for a bucket at or below the hash, a hash that is no boundary and under which nothing is found (C116_partial; FindBucket of the reversed hash always fits, C116_fits); with such a bucket the item's place does not depend on the bucket, duplicates included (C116_place), and what Get answers for the other hashes does not change, a division on the way included (C116_frame; for hashes that were no boundary and belong to one item). Maps with embedded pool: not covered.")
c("C117","partial","C117_next C117_prev C117_item_partial C117_applies C117_refuted","The neighbours are what they should be in every reachable map, after any calls (C117_next, C117_prev). That NextEntry answers a live item is proved for maps on which nothing was deleted (C117_item_partial) and false otherwise: a deleted entry is still linked and is answered although keys follow it in the bucket (C117_refuted). The node is handed out as an entryHMap whatever it is; what Key and Value of the answer give for a SampleItem is not modelled (see C100_kind_refuted). Maps with embedded pool and goroutines: not covered.")
c("C118","partial","C118_found C118_absent C118_partial C118_some C118_clean_partial C118_applies C118_refuted","That GetByHash finds only what Range shows, and nothing under hashes Range does not show, holds in every map (C118_found, C118_absent). That everything shown is found is proved for a hash that is no bucket boundary and that only one shown item has (C118_partial; all three parts if that is so of every shown item, C118_clean_partial) and false for two keys of one primary hash (C118_refuted); of several items of one hash that is no boundary one is found (C118_some). Hashes on a boundary: not covered. Maps with embedded pool: not covered.")
