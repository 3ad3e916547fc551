# Formal model of kazu/skiplistmap in Lean 4

Generated by `tools/mkdesign.py` from `tools/design_head.md`, `tools/design_how.json`, `properties.jsonl` and `MANIFEST.json`.

## 1. Trusted base

* Lean's kernel (4.33.0).  No `native_decide`, no `bv_decide`, no axioms of our own.  Every property theorem depends on at most
  `propext`, `Classical.choice` and `Quot.sound`; the concrete witnesses are evaluated by the kernel (`decide +kernel`).
* The model's faithfulness: each definition cites the lines of /repo it models.  The code was read, never run.
* The contracts of the packages that are not in the repository:
  * `elist_head` / `list_head` (doubly linked lists): `Next`/`Prev` give the neighbours, `InsertBefore` inserts, `Empty()` says "not
    linked", `Init` makes a node self-linked.  In the concurrent model each of these is atomic.
    `RepaireSliceAfterCopy` (after an array copy) makes the copied nodes take the old nodes' places.
  * `runtime.memhash` and `xxhash.Sum64`: arbitrary functions of the key's bytes (all theorems hold for every choice; where a
    condition on them is needed it is a hypothesis).
  * `sync/atomic`, `sync.Mutex`, `trylock.Mutex`, `atomic.Value`: sequentially consistent; Unlock of a free mutex is fatal;
    `atomic.Value.Store` panics on nil or on a change of dynamic type.
  * `sort.Search`, `sort.Slice`, `math/bits.Reverse64`: as documented (the first is modelled by its loop).

## 2. Shape of the model

| Part | Lean module | Source |
|---|---|---|
| 64-bit helpers, masks, hashing, pool capacity, errors | `Model/Util.lean` | util.go, hashfn.go, error.go, parts of map.go |
| Option functions | `Model/Options.lean` | map.go:91-153 |
| Map without embedded pool, sequential | `Model/Map.lean` | map.go, bucket.go, item.go, maphead.go, sample_hmap_entry.go |
| Map with embedded pool, sequential | `Model/Embedded.lean` | map_embedded.go, map.go, bucket.go |
| Item pool: concurrent allocation; sequential pooler with addresses | `Model/Pool.lean` | pool2.go, map.go:648-667 |
| RMap | `Model/RMap.lean` | rmap/rmap.go |
| RMap, every interleaving | `Model/RConc.lean` | rmap/rmap.go |
| Map without embedded pool, goroutines, every interleaving | `Model/Conc.lean` | map.go, util.go |
| One embedded bucket, goroutines, every interleaving | `Model/EConc.lean` | map_embedded.go, map.go:563-705, 1550-1613 |
| One group of sibling buckets, splits and lookups, every interleaving | `Model/Slots.lean` | map.go:806-862, 1674-1745, 1765-1950 |
| Specification: the keys of one embedded bucket as a plain map, for C95 | `SpecBucket.lean` | - |
| Range with a callback that changes the map; Next, Prev | `Model/Walk.lean` | map.go:1617-1641, item.go:63-68 |
| NextEntry, PrevEntry of a bucket | `Model/NearEntry.lean` | bucket.go:239-273 |
| The counter behind Len beside concurrent calls | `Model/LConc.lean` | map.go:214-220, 416-426 |
| SearchKey in embedded mode; Range with a callback there | `Model/EmbSearch.lean`, `Model/EmbWalk.lean` | map_embedded.go:21-59, map.go:1617-1641 |
| Options on a map in use | `Model/LiveOpt.lean` | map.go:93-132, 146-153 |
| Items in the caller's hands | `Model/Hold.lean` | item.go:54-61, 80-83, sample_hmap_entry.go:55-65, 83-85, map.go:552-555, 708-717 |
| Item list in embedded mode | `Model/EmbList.lean` | map_embedded.go, map.go:329-435, 928-1034 |
| Debug listings | `Model/Dump.lean` | map.go:1036-1125 |
| Embedded pool, several goroutines, splits | `Model/ESplit.lean` | map_embedded.go:21-132, 629-680; map.go:467-505, 590-705, 975-990, 1192-1209; bucket.go:114-175 |
| Item pool with manager goroutines | `Model/PoolMgr.lean` | pool2.go:44-86, 388-418; map.go:648-704 |
| Number of nodes a lookup looks at | `Model/Cost.lean` | map.go:1467-1547 |
| Slots a lookup of an embedded map reads | `Model/EmbCost.lean` | map_embedded.go:21-52, 780-806 |
| TestSet: a store whose bucket the caller chooses | `Model/TestSet.lean` | map.go:325-327, 1664-1666; map_embedded.go:222-228 |
| Specification: a plain map | `Spec.lean` | - |
| Specification: one key of a plain map and a plain map, for C92 and C93 | `SpecCell.lean` | - |
| Conditions on histories (`Clean`, `Spread`, ...) | `History.lean`, `Props/*.lean` | - |
| Helper lemmas / property theorems | `Proofs/*.lean` / `Props/*.lean` | - |

Conventions: `uint64` is `BitVec 64` with wrapping arithmetic and unsigned order.  Panics, livelocks, stack overflow, deadlock are explicit
results, never totalised away.  Loops are structural recursion over lists or over a fuel equal to the loop's own bound.

## 3. What is modelled, and the simplifications

**Map (sequential).**  All of Set, StoreItem, Get, GetByHash, LoadItem, LoadItemByHash, Delete, Purge (same as Delete here), Len, Range,
RangeItem, First, Last, SearchKey, NewHMap; searchBucket4Key4, searchBucket4update, _findBucket, largestDown, prevAsB, _searchBybucket, find, add2,
inserBeforeWithCheck, _set, makeBucket, bucketFromPool, addBucket, _InsertBefore, initBeforeSet.
 * The item list is the list of its nodes in `Next` order, a node's pointer is a `Ref`.  The bucket list likewise.
 * Bucket memory is addressed by paths of hex digits (`downLevels[i]` of ...), zero-initialised.
 * The per-level bucket lists serve only `NextOnLevel` in mode CombineSearch2.  They are modelled (`St.lv`, Model/Map.lean), and that
   `NextOnLevel` always answers an initialised bucket is proved (Proofs/Levels.lean), so no theorem assumes anything about it.  Whether
   the absent list package's `Empty()` is true of a node in no list is a parameter (`Cfg.loneEmpty`); theorems hold for both answers.
 * Logging, statistics, `IsDebug` branches (LogLevel is the constant LogInfo), `ShowDebugStats` have no effect and are left out (`DumpBucket`, `DumpBucketPerLevel`, `DumpEntry` and `BackBucket` are in Model/Dump.lean).
 * With `UsePool` a new item has a new identity here; where its memory comes from is Model/Pool.lean.

**Embedded map (sequential).**  Set, Get, GetByHash, LoadItem(ByHash), StoreItem, Delete, Purge, Len with slot arrays, binary searches, expand, insert,
append, reuse of deleted slots, split, makeBucket2, bucketFromPoolEmbedded.
 * The linked item list (Range/First/Last) is a second layer, Model/EmbList.lean: the nodes in `Next` order.  elist_head is not part of the
   repository: InsertBefore, MarkForDelete and ReplaceNext are taken to do what they say, links to be relative.  A list that the code tears
   (a walk from an unlinked dummy, a copied array with foreign nodes in between, StoreItem) is `none` from then on.
   The layer below uses add2 only through `pos != nil`.
 * `cntOfActiveLevels` and `state` are ghosts.  Every deleted slot inside the array counts as linked (`!mItem.Empty()`).
 * `MaxPefBucket` is a natural number (negative panics in `make`).

**Pool.**  samepleItemPool.Get as a small-step machine over its atomic operations, any number of goroutines.  `Put` has no caller and is left
out; `UseGoroutineInPool` is false (its default) except in Model/PoolMgr.lean.  Expanding a pool that was already replaced either crashes or makes one more pool (both allowed).

**RMap.**  Set, Get, Delete, Len over a Go map and a dirty `Map` (the model above), with the promotion logic.  `onNewStores` is never filled in.
For several goroutines Model/RConc.lean: one step = one access to shared data; a call on a dirty map is one step with a freely chosen answer (C70-C73: within what is
linked in it; C74: as a faultless map would answer), so the interleaving inside a dirty `Map` is not part of this model (it is C33-C36, C62-C69).  `misses` is raced on in
the code; in the model each access is atomic and the decision to promote is free.

**Map, goroutines.**  One step is one atomic access.  One call per goroutine id (a goroutine doing several calls is several ids scheduled in order).
 * The bucket a call starts from is a parameter `Pk`; theorems hold for every choice of a linked sentinel (`PkOk`), witnesses use the code's own.
 * `findBucket` may also return a bucket between existing ones whose sentinel is not linked yet (`Window`, steps `pickLost`, `lost…`).  Simplified: the
   hundred retries of `head()` are one choice "linked at one of them or not"; the searches a Set then makes from the unlinked sentinel end at once.
   The retry loops `RETRY_*` of bucketFromPool are in Model/Slots.lean (one group of siblings), not in this model; in this model a split sets up a bucket nobody else
   sets up (`p ∉ used`), which the code does not ensure for a bucket between siblings (C67).
 * A split is what it does to the item list: the insertion of a sentinel, started by anybody at any time.

**One group of sibling buckets, goroutines.**  cntOfActiveLevels, len(downLevels), and per child: state, level set, sentinel linked, onOkFn.  One step is one atomic
access or a block of stores nobody else can see yet; the parent exists, the split wants one of its children (the last level of the loop), `recoverBucketWithOutInit`
is its constant false.  Linking the sentinel is one step here; what it does to the item list is the model before.

**One embedded bucket, goroutines.**  Arrays by identity, lock word, slice header; the blocks of Set/Get/Delete/Purge between shared accesses.
 * Below the split threshold: no makeBucket2, no item list.  Keys are hash pairs; SetValue's type check is left out.
 * Copying an array and publishing it are two steps; a search and a classification are one step each, but in `Step` they may answer anything they could
   have seen (`Seen`), which covers the interleavings inside them; `XStep` gives the undisturbed answers only.

**Embedded buckets across splits, goroutines.**  Model/ESplit.lean: boundaries in the trie, in the bucket list and with an array; `muPool` per bucket; makeBucket2 (nested
calls included) in the steps publish - findIdx - _split - setItemPool - addBucket.
 * A bucket is its boundary; `findBucket` is one step: the greatest boundary in the trie not above the key.
 * Keys are reversed primary hashes; values, conflict hashes, Delete, Purge, the item list and level lists are left out.  A search, and the whole of an insertion into an
   array under the lock, are one step each (the model before takes them apart).

Not modelled at all: Go memory-model effects on non-atomic fields, garbage collection with relative pointers (`unsafe`), timing, `hmapMethod`/debug dumps,
the loop `for len == 0` of _findBucket (Go assigns the slice header field by field; the model in one step).

## 4. Specification style

`Spec.lean` is a partial function from hash pairs to values with the answers of a plain map.  Two keys with the same pair of hashes are one key (C18 says
which keys share one).  Structural properties (C09-C12, C21, C29) are stated about what is in the lists and arrays, in terms of their fields.

## 5. Where code and property disagree

The property list says what a user would rely on.  The code violates many of them; each violation is a theorem named `_refuted…` with a concrete
history or schedule.  The most important ones:

* A key whose reversed hash equals a bucket boundary is linked behind the bucket's sentinel, the search goes backwards from it: not found again (C01_refuted_boundary, C02).
* Of two keys with equal primary hash only one is found (C01_refuted_collision, C03, C44).
* Len never goes down (C07, C50).  A Range whose callback deletes and sets again the key it is shown does not end (C86).
* Very many keys in one deep bucket: panic "bucket head empty" (C15); embedded: stack overflow, slot -1 (C26, C27).
* `Setup` stores the hash unreversed (C45).  Options' undo values are wrong for UsePool/UseEmbeddedPool/ItemFn (C19).
* Embedded Delete of the first slot, Purge after Delete, reuse of a deleted slot, StoreItem (C23-C25, C28, C51).
* RMap: updates of promoted keys vanish, Delete never works or deadlocks, Get of an absent key panics (C39-C43).
* RMap shared by goroutines: Get of a present key can panic or answer nil (C71), an acknowledged Set can vanish (C74), a Delete can block everyone for ever (C73).
* Pools: race in the first allocation, crash and deadlock at the last slot, stale pointers after expansion (C30, C32, C49).
* Concurrency: a failed position check is only logged, two Sets of one key make two entries, the search option is shared by all maps (C33-C35, C38, C54).
* A split in progress makes Get and Delete miss a present key, an acknowledged Set vanish, or a call panic (C66).
* Two splits at once can set one bucket up twice (C67), or leave a group in a state in which every later split beyond its end spins for ever (C68).
* Embedded concurrency: lock leak, foreign unlock, self-deadlock, lost updates/deletions, unsorted arrays, spurious misses (C36, C37, C56-C58).

## 6. Testing the theorems

`seeded/LOG.jsonl`: realistic bugs edited into a scratch copy of the model.  For each one the proofs that broke were replaced by placeholders
in the scratch copy, and `#print axioms` of every theorem in MANIFEST.json shows which claims no longer rest on proofs.


## Properties: what is modelled, how it is proved, status

`partial` with a `_refuted` theorem means: the property as stated is false of the code (see section 5), the refuting theorem is a kernel-checked
execution of the model, and the `_partial` theorem is the strongest guarded version proved.

| id | property | modelled / proved how | status | theorems |
|---|---|---|---|---|
| C01 | Sequential map semantics (default and pooled mode) | sequential machine `step`; one invariant (order, sentinels, trie, intervals) over all histories, refinement to `Spec.PMap` for histories meeting `Clean` | partial | `C01_partial`, `C01_static_partial`, `C01_spread_partial`, `C80_answers`, `C80_static`, `C01_refuted_boundary`, `C01_refuted_collision` |
| C02 | Acknowledged insert is retrievable | corollary of the refinement | partial | `C02_partial`, `C80_stored`, `C02_refuted` |
| C03 | Keys with colliding primary hash stay distinct | invariant over all histories: a lookup answers only with an entry carrying both hashes | partial | `C03_no_confusion_partial`, `C03_load_partial`, `C03_others_kept_partial`, `C03_refuted` |
| C04 | Writes to one key do not disturb other keys | corollary of the refinement | partial | `C04_partial`, `C80_untouched`, `C04_refuted` |
| C05 | Deleted key is gone until set again | corollary of the refinement | partial | `C05_partial`, `C80_deleted`, `C05_refuted` |
| C06 | Delete reports presence | case analysis in every reachable state | proved | `C06_iff_loadItem`, `C06_false_unchanged`, `C06_iff_get_partial` |
| C07 | Len counts live keys | counting lemma over all histories | partial | `C07_partial`, `C07_no_delete_partial`, `C07_len_steps`, `C07_refuted` |
| C08 | Range visits every live key exactly once, in hash order, and stops on demand | every reachable state, every callback (function of what was seen) | proved | `C08_range`, `C08_range_all`, `C08_range_get_partial` |
| C09 | Item order invariant | invariant over all histories | proved | `C09_item_order` |
| C10 | Bucket index is a strictly ordered, duplicate-free, complete partition | invariant over all histories | proved | `C10_buckets` |
| C100 | The dumps show the map | Model/Dump.lean gives the printed values line by line. C100_buckets and C100_order from C09 and C10; the others by the invariant `AllSample` (all items are SampleItems with a string key filed under its hashes), by induction over the history with `step_eff`; C100_sentinels_partial: two strictly ascending lists with the same members are equal. Columns (Props/Dump2.lean): level and down from the trie invariant TI and `LastIn` (the array of children ends with a bucket other than child 0), an induction over the history; len from C99. | partial | `C100_buckets`, `C100_order`, `C100_level`, `C100_down`, `C100_len_partial`, `C100_sentinels_partial`, `C100_keys_partial`, `C100_partial`, `C100_refuted`, `C100_kind_refuted` |
| C101 | An item in one goroutine's hands while others work on the map | Case analysis of the steps that touch an item (`Step.item`), induction over executions with the invariants J0 (no item twice in the list) and HitAt (whoever is about to write an item found it under its own hashes). | proved | `Conc.C101_item`, `Conc.C101_order` |
| C102 | Without new keys no lock is needed | Invariant CalmInv: no goroutine is about to link anything, no Set of a key that is present comes to the end of its search (from the invariant Way of C92), no Delete in progress has found a deleted entry; from it the conditions `Orderly` of C93_partial for every key. | proved | `Conc.C102`, `Conc.C102_range` |
| C103 | One writer and any number of readers, while no bucket is divided | Invariant Whole: nobody is in a split, so nobody is about to link a sentinel, so no lookup is lost; then C94_partial and C93_apart_partial. | proved | `Conc.C103`, `Conc.C103_many` |
| C104 | Which calls can panic when goroutines overlap | Invariant TyInv over the machine of C61: the values of all items and of all Sets in progress have the type of their hash, a goroutine that located an unlinked bucket has a hash off the boundaries being made, a call that found a node found an item of its own hash; the initial state from C59. | proved | `Conc.C104`, `Conc.C104_witness`, `Conc.C104_needed` |
| C105 | Item pool with manager goroutines: no item twice, no Set waits for ever | Transition system of Sets and eight managers (Model/PoolMgr.lean); a manager's Get are the steps of Model/Pool.lean taken by one goroutine. Invariant: slots handed out of a pool are its log, without duplicates, and the pool's lock is free whenever its manager is in its loop; progress by a measure on the steps of Get. | partial | `PoolMgr.C105_distinct`, `PoolMgr.C105_served`, `PoolMgr.C105_refuted_order` |
| C106 | DumpBucketPerLevel lists every bucket under its level | Invariant `LvFull` (Props/Dump3.lean) over the history: the list of level l holds buckets with l digits (and the upper end in level 16), every listed bucket and nothing twice; a split adds the new bucket and, at the first split below its parent, the parent's child 0 (NewBucket.lvp, from aliasInsert_perm and levelInsert_perm). | partial | `C106_partial`, `C106_refuted_order`, `C106_refuted_alias` |
| C107 | Embedded: a split loses no key for other goroutines | Model/ESplit.lean: any number of goroutines, all buckets, makeBucket2 in its steps. Invariant `Inv` (locks, no reachable boundary between a bucket and its next one except the one its lock holder is making, arrays sorted) over `Tame` runs, then `Placed` (every key is where findBucket looks or its split is under way; needs Fresh), `Kept` (no key thrown away) and `Lost` (a misplaced key stays misplaced); the refutations are concrete schedules run by the kernel. | partial | `ESplit.C107_found_partial`, `ESplit.C107_quiet_partial`, `ESplit.C107_sound`, `ESplit.C107_kept_partial`, `ESplit.C107_refuted_get`, `ESplit.C107_refuted_set`, `ESplit.C107_refuted_stale` |
| C108 | Embedded: splits by several goroutines do not interfere | The lock fields of `Inv` and the effect relation `Eff` of Proofs/ESplit2.lean; the refutations are concrete schedules with a nested split. | partial | `ESplit.C108_partial`, `ESplit.C108_refuted_crash`, `ESplit.C108_refuted_lock`, `ESplit.C108_refuted_destroyed` |
| C109 | Embedded: buckets are kept to MaxPefBucket keys | Sequential embedded model. Invariant `Full` (a bucket over the limit has its keys in one half and its midpoint already is in the trie, so that only keys of the lower half still arrive) through makeBucket2 by induction over its nesting, insertions and histories; `Low` for the histories that never divide. | partial | `Emb.C109_partial`, `Emb.C109_refuted`, `Emb.C109_refuted_all`, `Emb.C109_refuted_applies`, `Emb.C109_refuted_statement`, `Emb.C109_partial_applies` |
| C11 | Buckets split hash space dyadically and the bucket trie mirrors it | invariant over all histories; dyadic arithmetic of boundaries | proved | `C11_dyadic`, `C11_trie`, `C11_split`, `C11_no_livelock` |
| C110 | Embedded: a lookup reads few slots | Instrumented binary search (Model/EmbCost.lean): indexes probed by sort.Search and slots read by _at; the probes by induction on the exponent, the walk back over marked slots by the number of marks. | partial | `Emb.C110_partial`, `Emb.C110_any_partial`, `Emb.C110_reads`, `Emb.C110_trace`, `Emb.C110_linear_refuted`, `Emb.C110_linear_applies`, `Emb.C110_refuted_run`, `Emb.C110_refuted` |
| C111 | Deleting gives nodes back | Nodes are the elements of the item list; what one step does to the list of references comes from the effect lemma step_eff; the exact count from C07_partial; the unbounded refutation from the refinement to a plain map along Set/Delete rounds. | partial | `C111_partial`, `C111_grow_partial`, `C111_kept_refuted`, `C111_rounds`, `C111_refuted` |
| C112 | Any key can be stored at any time | Invariant: every node of the boundary's hash in front of the bucket's sentinel is dead; kept by each kind of step (an insertion goes in front of a strictly larger node); equivalent to not being found because the lookup walks back from that sentinel (C97_iff). | partial | `C112_partial`, `C112_lost_refuted`, `C112_lost_applies`, `C112_small_refuted`, `C112_refuted` |
| C113 | Range depends on the content only | Range shows a list strictly ascending in the reversed hash whose members are what Get finds (C08, C75); such a list is determined by its members. The refutation uses C112_small_refuted. | partial | `C113_partial`, `C113_embedded_partial`, `C113_across_partial`, `C113_refuted`, `C113_applies`, `C113_across_applies` |
| C114 | Calls that report no change leave no trace | step_eff says what a call can change: with an answer other than true only the pool switch, and step_pooled shows that no answer depends on that switch. Embedded: case analysis of each call; a Set answering false writes the value that was there. | partial | `C114_partial`, `Emb.C114_embedded_partial`, `Emb.C114_refuted`, `C114_applies`, `Emb.C114_embedded_applies` |
| C115 | Buckets are made for stored keys only, one at a time | step_eff: only a stored new key (EffNew) can change the bucket list, by NewBucket. Invariant FewInv: either no split has been made and no bucket counts more keys than Len, or the splits are at most Len - MaxPefBucket. Embedded: invariant RoomL (Proofs/EmbRoom.lean): after the first split the buckets beyond the seventeenth, plus MaxPefBucket, never exceed the slots in use, and at most sixteen buckets are empty. | partial | `C115_partial`, `C115_applies`, `Emb.C115_refuted`, `Emb.C115_embedded_partial`, `Emb.C115_embedded_applies` |
| C116 | TestSet stores an item whatever bucket it is told | Model/TestSet.lean: _set with the bucket as argument. setMid_inv and setNew_spec hold for every bucket, so the invariant does; setInsert_eq for every bucket at or below the hash. Above it, the first node found is the bucket's own sentinel, the node before it is above the hash too, and inserBeforeWithCheck refuses. | partial | `C116_partial`, `C116_fits`, `C116_place`, `C116_order`, `C116_frame`, `C116_frame_applies`, `C116_applies`, `C116_refuted`, `C116_lost_refuted`, `C116_lost_applies`, `C116_twice_applies`, `C116_twice_refuted` |
| C117 | NextEntry and PrevEntry of a bucket are the neighbours of its boundary | Model/NearEntry.lean: neighbours of the bucket's head in the list. head_around splits the list at the head by Inv; order of the list (Sorted) gives that nothing lies between; a sentinel between two boundaries would itself be a boundary. | partial | `C117_next`, `C117_prev`, `C117_item_partial`, `C117_applies`, `C117_refuted` |
| C118 | What Range shows, GetByHash finds, and the other way round | Props/Shown.lean: shown st lists (KeyInHmap, ConflictInHamp, Value) of what RangeItem shows. searchByBucket_mem for found; for a hash that occurs once and is no boundary KGood holds and getEntry is the lookup in the list (getEntry_key); several of one hash: Walk.search_off. | partial | `C118_found`, `C118_absent`, `C118_partial`, `C118_some`, `C118_clean_partial`, `C118_applies`, `C118_refuted` |
| C12 | Bucket lookup never overshoots | invariant; induction over the descent | proved | `C12_find_bucket` |
| C13 | Search mode is only a performance knob | two refinements compared | partial | `C13_partial`, `C13_refuted` |
| C14 | MaxPefBucket is only a performance knob | two refinements compared | partial | `C14_partial`, `C14_spread_partial`, `C14_refuted` |
| C15 | Storing never panics | case analysis of makeBucket + depth bound from the number of keys in a bucket | partial | `C15_only_crash_partial`, `C15_bounded_partial`, `C15_spread_partial`, `C15_refuted` |
| C16 | Nil values | every reachable state (present key), refinement (absent key) | partial | `C16_present`, `C16_absent_partial`, `C16_refuted` |
| C17 | Value type changes are rejected loudly | every reachable state | proved | `C17_type_change`, `C17_refuted_entry` |
| C18 | Key hashing contract | direct, for every pair of hash functions | proved | `C18_integer_hash`, `C18_integers_injective`, `C18_string_bytes_same_entry`, `C18_equal_extension_same_entry`, `C18_unsupported_panics`, `C18_supported_hashed` |
| C19 | Options return their own undo | direct on the option functions | partial | `Opt.C19_maxPefBucket_partial`, `Opt.C19_bucketMode_partial`, `Opt.C19_itemFn_partial`, `Opt.C19_usePool_partial`, `Opt.C19_useEmbeddedPool_partial`, `Opt.C19_options_list_partial`, `Opt.C19_refuted` |
| C20 | Pool growth makes progress | arithmetic over all int lengths | proved | `C20_growth`, `C20_monotone`, `C20_growth_iterates`, `C20_overflow_refuted` |
| C21 | First and Last are sentinels | invariant over all histories | proved | `C21_first_last` |
| C22 | Embedded mode: map semantics without deletion | embedded machine; invariant (sorted arrays inside their intervals) + refinement for Set/Get histories; with deletions: refinement of the array with its deleted slots to a `cleaned` array, for gentle histories | partial | `Emb.C22_partial`, `Emb.C22_del_partial`, `Emb.C22_refuted_deep`, `Emb.C22_refuted_collision`, `Emb.C22_refuted_panic` |
| C23 | Embedded mode: deleted key is gone | concrete refuting histories; positive part: refinement for gentle histories with deletions | partial | `Emb.C23_partial`, `Emb.C23_refuted_delete`, `Emb.C23_refuted_purge` |
| C24 | Embedded mode: Purge affects only its key | concrete refuting history; positive part: refinement for gentle histories with deletions | partial | `Emb.C24_partial`, `Emb.C24_bounded_partial`, `Emb.C24_refuted` |
| C25 | Embedded mode: reuse of deleted slots is safe | concrete refuting history; without deletions the refinement; positive part: refinement for gentle histories with deletions | partial | `Emb.C25_partial`, `Emb.C25_refuted`, `Emb.C22_partial`, `Emb.C51_partial` |
| C26 | Embedded mode: operations terminate without crashing | invariant + case analysis; bounded key classes; with deletions: refinement of the array with its deleted slots to a `cleaned` array, for gentle histories | partial | `Emb.C26_partial`, `Emb.C26_exact_partial`, `Emb.C26_exact_applies`, `Emb.C26_partial_few`, `Emb.C26_del_partial`, `Emb.C26_del_partial_few`, `Emb.C26_refuted_overflow`, `Emb.C26_refuted_overflow32`, `Emb.C26_refuted_zero` |
| C27 | Embedded mode: memory safety of the slot array | invariant; with deletions: refinement of the array with its deleted slots to a `cleaned` array, for gentle histories | partial | `Emb.C27_partial`, `Emb.C27_del_partial`, `Emb.C27_refuted` |
| C28 | Embedded mode: StoreItem is retrievable | every state | partial | `Emb.C28_present_partial`, `Emb.C28_refuted`, `Emb.C28_refuted_always` |
| C29 | Embedded mode: pool slots sorted and inside their bucket | invariant over clean histories | partial | `Emb.C29_partial`, `Emb.C29_complete_partial`, `Emb.C29_refuted` |
| C30 | Item pool never hands out a slot twice | small-step pool machine, invariant over all schedules | partial | `Pool.C30_partial`, `Pool.C30_refuted`, `Pool.warm_reachable` |
| C31 | Item pool preserves items when it grows | direct, and invariant of the sequential pooler | proved | `Pool.C31_expand`, `Pool.C31_allocs`, `C20_growth` |
| C32 | Held items stay live | map machine with item addresses | partial | `C32_partial`, `C32_live`, `Pool.C32_pooled_partial`, `Pool.C32_pooled_small`, `Pool.C32_refuted`, `Pool.C32_stale` |
| C33 | Concurrent inserts of different keys are both kept | small-step machine, invariants over all schedules; solo-insertion lemma | partial | `Conc.C33_partial`, `Conc.C33_refuted` |
| C34 | Concurrent Sets of one new key create one entry | small-step machine, mutual exclusion of Sets of one key as hypothesis | partial | `Conc.C34_partial`, `Conc.C34_refuted` |
| C35 | Concurrent inserts keep existing keys visible | small-step machine, invariant of sublists | partial | `Conc.C35_visible_partial`, `Conc.C35_get_partial`, `Conc.C35_separates`, `Conc.C35_order_partial`, `Conc.C35_refuted_order` |
| C36 | Embedded mode: concurrent update is not lost | EConc machine, sortedness invariant | partial | `EConc.C36_partial`, `EConc.C36_refuted` |
| C37 | Per-bucket lock gives mutual exclusion | EConc machine, lock log invariant | partial | `EConc.C37_partial`, `EConc.C37_noreuse_partial`, `EConc.C37_released_partial`, `EConc.C37_refuted_leak`, `EConc.C37_refuted_owner`, `EConc.C37_refuted_deadlock` |
| C38 | Search options are restored | small-step machine | partial | `Conc.C38_partial`, `Conc.C38_refuted`, `Conc.C38_refuted_effect` |
| C39 | RMap: a set key stays found | RMap machine over the Map machine | partial | `RMap.C39_partial`, `RMap.C39_refuted` |
| C40 | RMap: Get returns the last value set | RMap machine | partial | `RMap.C40_partial`, `RMap.C40_refuted`, `RMap.C40_read_frozen` |
| C41 | RMap: Get of an absent key returns not found | RMap machine | partial | `RMap.C41_partial`, `RMap.C61_get`, `RMap.C41_refuted`, `RMap.C61_phantom_key` |
| C42 | RMap: Delete removes the key | RMap machine, every state | partial | `RMap.C42_refuted`, `RMap.C42_refuted_history`, `RMap.C42_frame_partial` |
| C43 | RMap: Len counts keys | RMap machine | partial | `RMap.C43_partial`, `RMap.C43_refuted` |
| C44 | RMap: promotion loses nothing | RMap machine | partial | `RMap.C44_partial`, `RMap.C44_hashes`, `RMap.C44_refuted` |
| C45 | Setup-prepared items are retrievable | every reachable state | partial | `C45_palindrome_partial`, `C45_refuted` |
| C46 | Hash order arithmetic | bit-vector arithmetic | proved | `C46_reverse_involution`, `C46_reverse_bits`, `C46_initial_boundaries`, `C46_midpoint`, `C46_midpoint_between`, `C46_nearest` |
| C47 | Mixed item types keep their keys | invariant over histories with one item type | partial | `C47_partial`, `C47_refuted` |
| C48 | Error identity | direct | proved | `C48_single_bit`, `C48_nonzero`, `C48_distinct` |
| C49 | Pooled Set returns | small-step pool machine, all schedules | partial | `Pool.C49_partial`, `Pool.C49_refuted_crash`, `Pool.C49_refuted_hang` |
| C50 | Embedded: Len counts keys | counting over clean histories | partial | `Emb.C50_len_partial`, `Emb.C50_refuted` |
| C51 | Embedded: a new key that was set is found | corollary of the embedded refinement; with deletions: refinement of the array with its deleted slots to a `cleaned` array, for gentle histories | partial | `Emb.C51_partial`, `Emb.C51_del_partial`, `Emb.C51_refuted_stale`, `Emb.C51_refuted_oldvalue` |
| C52 | Embedded: LoadItem's item carries the key | invariant over clean histories; with deletions: refinement of the array with its deleted slots to a `cleaned` array, for gentle histories | partial | `Emb.C52_nopurge_partial`, `Emb.C52_key_partial`, `Emb.C52_key_del_partial`, `Emb.C52_refuted` |
| C53 | Range runs safely beside writers | small-step machine, Range as a goroutine | partial | `Conc.C53_range`, `Conc.C53_order_partial`, `Conc.C53_refuted` |
| C54 | Maps of one process are independent | two maps sharing the option; simulation that takes the steps on other maps out of an execution | partial | `Conc.C54_partial`, `Conc.C54_nosearch_partial`, `Conc.C54_refuted` |
| C55 | Concurrent Get never invents a value | small-step machine, all schedules | proved | `Conc.C55_get` |
| C56 | Embedded: keys set concurrently are there afterwards | EConc machine: storage invariant (all schedules), sortedness invariant | partial | `EConc.C56_partial`, `EConc.C56_stored_partial`, `EConc.C56_refuted` |
| C57 | Embedded: a present key is found whatever others set | EConc machine | partial | `EConc.C57_stays_partial`, `EConc.C57_partial`, `EConc.C57_refuted` |
| C58 | Embedded: a concurrent Delete is not lost | EConc machine: the invariant `Gone` (all slots with the hash deleted and not first, in the published array and in those being filled) is kept by every step that starts no Set of the key; concrete schedule for the refutation | partial | `EConc.C58_partial`, `EConc.C58_mark_partial`, `EConc.C58_refuted` |
| C59 | Reads never invent values or keys | invariant over all histories from the effect of each operation | proved | `C59_get`, `C59_get_key`, `C59_loadItem`, `C59_loadItemByHash`, `C59_range` |
| C60 | Every acknowledged Delete takes one store back | counting invariant over all histories | proved | `C60_absent`, `C60_deletes` |
| C61 | RMap.Get never invents a value | invariant over all RMap histories | proved | `RMap.C61_get` |
| C62 | Embedded: reads never invent a value | invariant over all arrays, used and unused slots, all histories | proved | `Emb.C62_value` |
| C63 | Embedded: values belong to their key | invariant: every slot in use carries its key's hashes and a value stored for them; refuted by concrete histories | partial | `Emb.C63_partial`, `Emb.C63_refuted_purge`, `Emb.C63_refuted_nil` |
| C64 | Embedded: an update changes exactly its key's value | writing a value changes no lookup, in every state with array lengths in bounds (invariant over all histories) | proved | `Emb.C64_update`, `Emb.C64_rejected` |
| C65 | Calls never wait for each other and take a bounded number of steps | Model/Conc.lean, any schedule. Progress: shape invariant of the program points, linked cursors (J0) and the sentinel with boundary 0 give an enabled step. Bound: a measure over the program point and the nodes still ahead decreases with every own step and grows by at most 6 per node linked by others (Proofs/Conc9). | proved | `Conc.C65_no_wait`, `Conc.C65_completes`, `Conc.C65_bounded` |
| C66 | A split in progress changes no answer | Model/Conc.lean with the window between publishing a bucket and linking its sentinel; invariant of the program points of Get/Delete on top of C35; schedules as witnesses. | partial | `Conc.C66_partial`, `Conc.C66_refuted_get`, `Conc.C66_refuted_delete`, `Conc.C66_refuted_set`, `Conc.C66_refuted_panic` |
| C67 | One goroutine sets a new bucket up | Model/Slots.lean: one group of sibling buckets, one step = one atomic access of bucketFromPool/makeBucket/_findBucket, any number of goroutines. Invariant in rely/guarantee form (Glob, Loc per program point, Excl for pairs) over all calm executions; a schedule as witness. | partial | `Slots.C67_partial`, `Slots.C67_partial_stays`, `Slots.C67_partial_applies`, `Slots.C67_refuted` |
| C68 | A split always ends | Same model. Left alone a split ends: program points backwards. Otherwise the invariant `busy` gives the goroutine it waits for. Refuted by a schedule and an invariant that holds for ever after it. | partial | `Slots.C68_partial`, `Slots.C68_partial_alone`, `Slots.C68_partial_applies`, `Slots.C68_refuted` |
| C69 | Lookups of buckets are monotone under splits | Same model. Length, level and linked flags only grow (Mono); invariant of the program points of a lookup; measure for the bound. | partial | `Slots.C69_partial`, `Slots.C69_ends`, `Slots.C69_partial_applies`, `Slots.C69_refuted` |
| C70 | RMap under concurrency: Get never invents a value | Model/RConc.lean: RMap with any number of goroutines, one step = one access to `read`, `dirty`, a dirty map, an item or the lock; the answers of the dirty maps are chosen freely within what is linked in them. Invariant Inv (Glob, Loc per program point) over all schedules. | proved | `RConc.C70_get`, `RConc.C70_sets`, `RConc.C70_applies` |
| C71 | RMap under concurrency: a present key is found | Same model. Keys of the read map are kept by every promotion: ids of read maps are unique and only the holder of the lock publishes (Inv2), Has.step; a Get on the fast path stays there (fast_step). Lone Get: symbolic execution (Lone). Refuted by two schedules. | partial | `RConc.C71_partial`, `RConc.C71_partial_alone`, `RConc.C71_partial_applies`, `RConc.C71_partial_alone_applies`, `RConc.C71_refuted` |
| C72 | RMap under concurrency: a promoted key answers the same for ever | Same model. Invariant Frozen: the read map keeps the item, no dirty map in use gets an item of its hash, nobody is about to write its value. | proved | `RConc.C72_frozen`, `RConc.C72_set_ignored`, `RConc.C72_applies` |
| C73 | RMap under concurrency: calls do not wait for ever | Same model. Lock invariant (Inv2.lock); enabledness per program point (can_move); measure mu, decreasing because a CompareAndSwap cannot fail (Calm). Refuted by stuck_steps (an invariant that holds for ever) and a reachable state. | partial | `RConc.C73_partial`, `RConc.C73_partial_bound`, `RConc.C73_partial_applies`, `RConc.C73_refuted`, `RConc.C73_refuted_reached` |
| C74 | RMap under concurrency: an acknowledged Set is not lost | Same model with faultless dirty maps. Invariant Kept: in the read map, or in the dirty map with every promotion under way bound to take it. Refuted by three schedules. | partial | `RConc.C74_partial_store`, `RConc.C74_partial`, `RConc.C74_partial_quiet`, `RConc.C74_partial_applies`, `RConc.C74_refuted` |
| C75 | Embedded pool: Range goes through the map | Model/EmbList.lean: the nodes of the item list (dummies and array slots) in Next order beside the state of Model/Embedded.lean; _set's start of the walk, add2, relinking of a shifted array, of a copied one, renaming by a split, the new bucket's dummy, Purge. Invariant LI: the list is the buckets in ascending order, each dummy followed by its slots, without some deleted ones (EmbList2-8). Refuted by a two-Set history. | partial | `EList.C75_range_partial`, `EList.C75_clean_partial`, `EList.C75_few_partial`, `EList.C75_deletes_partial`, `EList.C75_refuted`, `EList.exList_clean`, `EList.exList_nocrash`, `EList.exList_off` |
| C76 | Embedded pool: First and Last are not items | Same model. The two ends of the list are an invariant of every call as long as the list is followed (EmbList9); for clean histories the canonical list is. | partial | `EList.C76_followed_partial`, `EList.C76_ends_partial` |
| C77 | A Get after a finished Set never answers an older value | Model/Conc.lean. Stages of the one Set of the key (Mine, Conc10), all live entries of the key have its value at the end; steps outside Sets of the key keep that; a Get can only pick up such an entry (Sees). Refuted by a schedule run in the kernel. | partial | `Conc.C77_fresh_partial`, `Conc.C77_refuted` |
| C78 | A deleted key stays deleted | Stages of the Delete (Kills, Conc10): with one live entry, answering true leaves none; then a lookup can only miss (Misses) and a Range only skip (Skips). | partial | `Conc.C78_gone_partial`, `Conc.C78_refuted`, `Conc.C34_refuted` |
| C79 | A key is deleted once | As C78, for the second Delete. | partial | `Conc.C79_delete_once_partial`, `Conc.C79_refuted`, `Conc.C79_refuted_overlap` |
| C80 | A key is not affected by what goes wrong with other keys | Model/Map.lean. KGood: the invariant Good restricted to one hash pair (Proofs/PerKey.lean); searches for the pair return its live entry although the rest of the list may hold duplicates and collisions; steps on other keys preserve it, steps on this key follow the plain map. | proved | `C80_answers`, `C80_stored`, `C80_untouched`, `C80_deleted`, `C80_static` |
| C81 | With spread hashes the map is a plain map | Crowding argument of Proofs/Crowd.lean: a split needs another store in the block, so boundaries stay coarse; then C01, C14, C15 for clean histories. | proved | `C81_spread` |
| C82 | Embedded pool: load first, then delete only keys between neighbours that stay | Invariant Work of the second phase (Proofs/EmbWork.lean): every loaded key keeps its slot, deleted slots belong to guarded keys. A deleted slot between two that stay is the one bsearchFromFreeList returns for its hash, so every call is gentle; then C22/C26/C75 for gentle histories. | proved | `Emb.C82_answers`, `Emb.C82_range` |
| C83 | SearchKey finds a key by its primary hash | opSearchKey (Model/Map.lean) with the lemmas about searchByBucket; refuted by a run in the kernel. | partial | `Walk.C83_partial`, `Walk.C83_clean_partial`, `Walk.C83_sound_partial`, `Walk.C83_refuted` |
| C84 | Range with a callback that changes the map | Model/Walk.lean: the loop with an arbitrary callback, a cursor and the calls made. Every call only changes nodes in place and adds nodes (Evo), so the split of the list at the cursor is kept; invariant WInv. | proved | `Walk.C84_range`, `Walk.C84_kept` |
| C85 | An item that is held stays a place to go on from | The same relation Evo between the lists before and after, split at the item. | proved | `Walk.C85_neighbours`, `Walk.C85_held` |
| C86 | Range shows a key at most once and ends | As C84; nothing added means every live item is an old one, and live items have different keys (Good). Clearing: induction with 'everything live is behind the cursor'. Refuted by a run in the kernel. | partial | `Walk.C86_once_partial`, `Walk.C86_clear_partial`, `Walk.C86_refuted` |
| C87 | Len under concurrency | Model/LConc.lean: the machine of Model/Conc.lean with the counter and the step between link and count. Invariant: the goroutines that have counted and those that owe it, against the number of items linked. Exactness: with insertions in turns the position check never fails (Placing of Conc4). | partial | `Conc.C87_range_partial`, `Conc.C87_growth`, `Conc.C87_turns_partial`, `Conc.C87_exact_partial`, `Conc.C87_refuted` |
| C88 | Embedded pool: SearchKey finds a key by its primary hash | Model/EmbSearch.lean. An edge lemma for sort.Search (it ends where the predicate holds and the one before does not) shows, without sortedness, that the slot found is not a deleted one behind a live one. Completeness from the relation RelD of EmbDel2. | partial | `Emb.C88_hash_partial`, `Emb.C88_get_partial`, `Emb.C88_partial`, `Emb.C88_refuted` |
| C89 | Embedded pool: Range with a callback that changes the map | Model/EmbWalk.lean: the loop over the list with the callback's calls in between. Proofs/EmbWalk.lean: RelX, the relation of C22 without the condition on first slots, is kept by reads, Delete and updates; buckets, lengths, keys and hashes of slots stay, marks are only set. | partial | `EList.C89_partial`, `EList.C89_wipe_partial`, `EList.C75_deletes_partial`, `EList.C89_refuted` |
| C90 | Options changed on a map in use change no answers | Model/LiveOpt.lean: histories of calls and option changes. The invariant of C01, the bucket-free machine of C14 and the crowding argument of C81 do not mention the settings, so each survives a change. | partial | `C90_partial`, `C90_spread_partial`, `C90_calls_partial`, `C90_refuted` |
| C91 | Items in the caller's hands and calls on the map form one consistent whole | Model/Hold.lean: the map with the caller's variables. Specification (Proofs/Hold.lean): keys and variables lead to cells. Simulation between the sorted list of items and the cells, using the bucket-free machine of C14 for the calls; the invariant of C01 is kept by SetValue and Delete on any item, deleted or not. | partial | `C91_partial`, `C91_spread_partial`, `C91_refuted` |
| C92 | The calls on one key are linearizable | SpecCell.lean: one key of a plain map. Every finished call gets a place: the moment at which a call that finds nothing finds the map without the key; its last step, for calls on a live entry and insertions; for a call whose entry was deleted after it was found, a place right before that Delete, in the order of the last steps of such calls. The values the cell runs through are the values of the live entry, refined in each deleting step by the later values of the deleted entry; an induction over the ordered calls (chain) shows the cell gives the same answers. Refuted by the execution of two Deletes. | partial | `Conc.C92_partial`, `Conc.C92_apart_partial`, `Conc.C92_refuted` |
| C93 | The map as a whole is linearizable | The places of C92 are moments of one time line, so all calls are ordered by them; the specification (SpecCell.lean, cells) answers key by key (cellsRun_of). | partial | `Conc.C93_partial`, `Conc.C93_apart_partial`, `Conc.C93_refuted` |
| C94 | One writer and any number of readers | Invariant WInv1 (Proofs/Conc12.lean): one writer, the writer's insertion always stands before a place where the check succeeds (Placing), a writer never locates an unlinked bucket; it gives the conditions of C93_apart_partial. | partial | `Conc.C94_partial`, `Conc.C94_refuted` |
| C95 | Embedded bucket: Sets and Gets are linearizable | Effect of each step on the contents of the published array (Effect, kept_effect in Proofs/EConc5.lean); each call has one step at which it takes effect, the calls ordered by these steps form the linearization (Exec.track, Exec.linear in Proofs/EConc6.lean). | partial | `EConc.C95_partial`, `EConc.C95_oneset_partial`, `EConc.C95_refuted` |
| C96 | Calls that do not overlap behave as one goroutine | Simulation between the two models: what a call is going to answer (Leads in Proofs/Sim.lean) is fixed when it has located its bucket and no step of its own changes it; at the start it is what Model/Map.lean computes (sim_step in Proofs/Sim2.lean). Existence from C65's progress argument (Proofs/Sim3.lean). | partial | `Conc.C96_partial`, `Conc.C96_from_partial`, `Conc.C96_call_partial`, `Conc.C96_bucket_partial`, `Conc.C96_exact_partial`, `Conc.C96_plain_partial` |
| C97 | FindBucket finds the nearest bucket | NZ (a bucket with a child 0 has another child) is an invariant of all histories (Proofs/Locate.lean, from the trie shape after a split in Proofs/Split.lean); with it the descent and largestDown find the greatest boundary (Proofs/EmbFind.lean), and where a last-level boundary lies in the way the descent provably stops at level 15. The refutation takes the history of C15_refuted up to the panic. | partial | `C97_iff`, `C97_partial`, `C97_refuted` |
| C98 | A lookup looks at its own bucket only | Model/Cost.lean lists the entries `_searchBybucket` counts. C98_answer ties the list to the answer (the last entry looked at decides it), C98_partial/C98_set_partial/C98_count_partial by: the list is a run of neighbours from a sentinel (Proofs/Cost.lean `Run`), the start is the nearest bucket or its upper neighbour (C97, `prev_above`), the item list is sorted (C09). C98_leak by induction on the rounds, with C01 for the answers. | partial | `C98_answer`, `C98_partial`, `C98_set_partial`, `C98_count_partial`, `C98_leak`, `C98_refuted` |
| C99 | Buckets are kept to MaxPefBucket keys | C99_partial and C99_counter_partial by the invariant `Young` (Proofs/Fill.lean): until the list of buckets grows, each of the sixteen counters is the number of items in its sixteenth and at most the limit. C99_grows_partial from `makeBucketAt_how` (Proofs/MakeBucket.lean). C99_sum_partial: what bucketFromPool, linkBucket and onOk do to the counters (Props/Sum.lean), induction over the history; C99_division_partial (Props/Div.lean): the invariant `Fresh0` (a bucket never set up has the counter 0) and the place of the new sentinel in the item list. C99_refuted by induction on the number of stores (`LowSt`); C99_counter_refuted by evaluation of one run. | partial | `C99_partial`, `C99_counter_partial`, `C99_grows_partial`, `C99_sum_partial`, `C99_sum_step_partial`, `C99_sum_applies`, `C99_division_partial`, `C99_division_applies`, `C99_refuted`, `C99_counter_refuted` |
