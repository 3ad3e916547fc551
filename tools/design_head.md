# Formal model of kazu/skiplistmap in Lean 4

Generated by `tools/mkdesign.py` from `tools/design_head.md`, `tools/design_how.json`, `properties.jsonl` and `MANIFEST.json`.

## 1. Trusted base

* Lean's kernel (4.33.0).  No `native_decide`, no `bv_decide`, no axioms of our own.  Every property theorem depends on at most
  `propext`, `Classical.choice` and `Quot.sound`; the concrete witnesses are evaluated by the kernel (`decide +kernel`).
* The model's faithfulness: each definition cites the lines of /repo it models.  The code was read, never run.
* The contracts of the packages that are not in the repository:
  * `elist_head` / `list_head` (doubly linked lists): `Next`/`Prev` give the neighbours, `InsertBefore` inserts, `Empty()` says "not
    linked", `Init` makes a node self-linked.  In the concurrent model each of these is atomic.
    `RepaireSliceAfterCopy` (after an array copy) makes the copied nodes take the old nodes' places.
  * `runtime.memhash` and `xxhash.Sum64`: arbitrary functions of the key's bytes (all theorems hold for every choice; where a
    condition on them is needed it is a hypothesis).
  * `sync/atomic`, `sync.Mutex`, `trylock.Mutex`, `atomic.Value`: sequentially consistent; Unlock of a free mutex is fatal;
    `atomic.Value.Store` panics on nil or on a change of dynamic type.
  * `sort.Search`, `sort.Slice`, `math/bits.Reverse64`: as documented (the first is modelled by its loop).

## 2. Shape of the model

| Part | Lean module | Source |
|---|---|---|
| 64-bit helpers, masks, hashing, pool capacity, errors | `Model/Util.lean` | util.go, hashfn.go, error.go, parts of map.go |
| Option functions | `Model/Options.lean` | map.go:91-153 |
| Map without embedded pool, sequential | `Model/Map.lean` | map.go, bucket.go, item.go, maphead.go, sample_hmap_entry.go |
| Map with embedded pool, sequential | `Model/Embedded.lean` | map_embedded.go, map.go, bucket.go |
| Item pool: concurrent allocation; sequential pooler with addresses | `Model/Pool.lean` | pool2.go, map.go:648-667 |
| RMap | `Model/RMap.lean` | rmap/rmap.go |
| RMap, every interleaving | `Model/RConc.lean` | rmap/rmap.go |
| Map without embedded pool, goroutines, every interleaving | `Model/Conc.lean` | map.go, util.go |
| One embedded bucket, goroutines, every interleaving | `Model/EConc.lean` | map_embedded.go, map.go:563-705, 1550-1613 |
| One group of sibling buckets, splits and lookups, every interleaving | `Model/Slots.lean` | map.go:806-862, 1674-1745, 1765-1950 |
| Specification: the keys of one embedded bucket as a plain map, for C95 | `SpecBucket.lean` | - |
| Range with a callback that changes the map; Next, Prev | `Model/Walk.lean` | map.go:1617-1641, item.go:63-68 |
| NextEntry, PrevEntry of a bucket | `Model/NearEntry.lean` | bucket.go:239-273 |
| The counter behind Len beside concurrent calls | `Model/LConc.lean` | map.go:214-220, 416-426 |
| SearchKey in embedded mode; Range with a callback there | `Model/EmbSearch.lean`, `Model/EmbWalk.lean` | map_embedded.go:21-59, map.go:1617-1641 |
| Options on a map in use | `Model/LiveOpt.lean` | map.go:93-132, 146-153 |
| Items in the caller's hands | `Model/Hold.lean` | item.go:54-61, 80-83, sample_hmap_entry.go:55-65, 83-85, map.go:552-555, 708-717 |
| Item list in embedded mode | `Model/EmbList.lean` | map_embedded.go, map.go:329-435, 928-1034 |
| Debug listings | `Model/Dump.lean` | map.go:1036-1125 |
| Embedded pool, several goroutines, splits | `Model/ESplit.lean` | map_embedded.go:21-132, 629-680; map.go:467-505, 590-705, 975-990, 1192-1209; bucket.go:114-175 |
| Item pool with manager goroutines | `Model/PoolMgr.lean` | pool2.go:44-86, 388-418; map.go:648-704 |
| Number of nodes a lookup looks at | `Model/Cost.lean` | map.go:1467-1547 |
| Slots a lookup of an embedded map reads | `Model/EmbCost.lean` | map_embedded.go:21-52, 780-806 |
| TestSet: a store whose bucket the caller chooses | `Model/TestSet.lean` | map.go:325-327, 1664-1666; map_embedded.go:222-228 |
| Specification: a plain map | `Spec.lean` | - |
| Specification: one key of a plain map and a plain map, for C92 and C93 | `SpecCell.lean` | - |
| Conditions on histories (`Clean`, `Spread`, ...) | `History.lean`, `Props/*.lean` | - |
| Helper lemmas / property theorems | `Proofs/*.lean` / `Props/*.lean` | - |

Conventions: `uint64` is `BitVec 64` with wrapping arithmetic and unsigned order.  Panics, livelocks, stack overflow, deadlock are explicit
results, never totalised away.  Loops are structural recursion over lists or over a fuel equal to the loop's own bound.

## 3. What is modelled, and the simplifications

**Map (sequential).**  All of Set, StoreItem, Get, GetByHash, LoadItem, LoadItemByHash, Delete, Purge (same as Delete here), Len, Range,
RangeItem, First, Last, SearchKey, NewHMap; searchBucket4Key4, searchBucket4update, _findBucket, largestDown, prevAsB, _searchBybucket, find, add2,
inserBeforeWithCheck, _set, makeBucket, bucketFromPool, addBucket, _InsertBefore, initBeforeSet.
 * The item list is the list of its nodes in `Next` order, a node's pointer is a `Ref`.  The bucket list likewise.
 * Bucket memory is addressed by paths of hex digits (`downLevels[i]` of ...), zero-initialised.
 * The per-level bucket lists serve only `NextOnLevel` in mode CombineSearch2.  They are modelled (`St.lv`, Model/Map.lean), and that
   `NextOnLevel` always answers an initialised bucket is proved (Proofs/Levels.lean), so no theorem assumes anything about it.  Whether
   the absent list package's `Empty()` is true of a node in no list is a parameter (`Cfg.loneEmpty`); theorems hold for both answers.
 * Logging, statistics, `IsDebug` branches (LogLevel is the constant LogInfo), `ShowDebugStats` have no effect and are left out (`DumpBucket`, `DumpBucketPerLevel`, `DumpEntry` and `BackBucket` are in Model/Dump.lean).
 * With `UsePool` a new item has a new identity here; where its memory comes from is Model/Pool.lean.

**Embedded map (sequential).**  Set, Get, GetByHash, LoadItem(ByHash), StoreItem, Delete, Purge, Len with slot arrays, binary searches, expand, insert,
append, reuse of deleted slots, split, makeBucket2, bucketFromPoolEmbedded.
 * The linked item list (Range/First/Last) is a second layer, Model/EmbList.lean: the nodes in `Next` order.  elist_head is not part of the
   repository: InsertBefore, MarkForDelete and ReplaceNext are taken to do what they say, links to be relative.  A list that the code tears
   (a walk from an unlinked dummy, a copied array with foreign nodes in between, StoreItem) is `none` from then on.
   The layer below uses add2 only through `pos != nil`.
 * `cntOfActiveLevels` and `state` are ghosts.  Every deleted slot inside the array counts as linked (`!mItem.Empty()`).
 * `MaxPefBucket` is a natural number (negative panics in `make`).

**Pool.**  samepleItemPool.Get as a small-step machine over its atomic operations, any number of goroutines.  `Put` has no caller and is left
out; `UseGoroutineInPool` is false (its default) except in Model/PoolMgr.lean.  Expanding a pool that was already replaced either crashes or makes one more pool (both allowed).

**RMap.**  Set, Get, Delete, Len over a Go map and a dirty `Map` (the model above), with the promotion logic.  `onNewStores` is never filled in.
For several goroutines Model/RConc.lean: one step = one access to shared data; a call on a dirty map is one step with a freely chosen answer (C70-C73: within what is
linked in it; C74: as a faultless map would answer), so the interleaving inside a dirty `Map` is not part of this model (it is C33-C36, C62-C69).  `misses` is raced on in
the code; in the model each access is atomic and the decision to promote is free.

**Map, goroutines.**  One step is one atomic access.  One call per goroutine id (a goroutine doing several calls is several ids scheduled in order).
 * The bucket a call starts from is a parameter `Pk`; theorems hold for every choice of a linked sentinel (`PkOk`), witnesses use the code's own.
 * `findBucket` may also return a bucket between existing ones whose sentinel is not linked yet (`Window`, steps `pickLost`, `lost…`).  Simplified: the
   hundred retries of `head()` are one choice "linked at one of them or not"; the searches a Set then makes from the unlinked sentinel end at once.
   The retry loops `RETRY_*` of bucketFromPool are in Model/Slots.lean (one group of siblings), not in this model; in this model a split sets up a bucket nobody else
   sets up (`p ∉ used`), which the code does not ensure for a bucket between siblings (C67).
 * A split is what it does to the item list: the insertion of a sentinel, started by anybody at any time.

**One group of sibling buckets, goroutines.**  cntOfActiveLevels, len(downLevels), and per child: state, level set, sentinel linked, onOkFn.  One step is one atomic
access or a block of stores nobody else can see yet; the parent exists, the split wants one of its children (the last level of the loop), `recoverBucketWithOutInit`
is its constant false.  Linking the sentinel is one step here; what it does to the item list is the model before.

**One embedded bucket, goroutines.**  Arrays by identity, lock word, slice header; the blocks of Set/Get/Delete/Purge between shared accesses.
 * Below the split threshold: no makeBucket2, no item list.  Keys are hash pairs; SetValue's type check is left out.
 * Copying an array and publishing it are two steps; a search and a classification are one step each, but in `Step` they may answer anything they could
   have seen (`Seen`), which covers the interleavings inside them; `XStep` gives the undisturbed answers only.

**Embedded buckets across splits, goroutines.**  Model/ESplit.lean: boundaries in the trie, in the bucket list and with an array; `muPool` per bucket; makeBucket2 (nested
calls included) in the steps publish - findIdx - _split - setItemPool - addBucket.
 * A bucket is its boundary; `findBucket` is one step: the greatest boundary in the trie not above the key.
 * Keys are reversed primary hashes; values, conflict hashes, Delete, Purge, the item list and level lists are left out.  A search, and the whole of an insertion into an
   array under the lock, are one step each (the model before takes them apart).

Not modelled at all: Go memory-model effects on non-atomic fields, garbage collection with relative pointers (`unsafe`), timing, `hmapMethod`/debug dumps,
the loop `for len == 0` of _findBucket (Go assigns the slice header field by field; the model in one step).

## 4. Specification style

`Spec.lean` is a partial function from hash pairs to values with the answers of a plain map.  Two keys with the same pair of hashes are one key (C18 says
which keys share one).  Structural properties (C09-C12, C21, C29) are stated about what is in the lists and arrays, in terms of their fields.

## 5. Where code and property disagree

The property list says what a user would rely on.  The code violates many of them; each violation is a theorem named `_refuted…` with a concrete
history or schedule.  The most important ones:

* A key whose reversed hash equals a bucket boundary is linked behind the bucket's sentinel, the search goes backwards from it: not found again (C01_refuted_boundary, C02).
* Of two keys with equal primary hash only one is found (C01_refuted_collision, C03, C44).
* Len never goes down (C07, C50).  A Range whose callback deletes and sets again the key it is shown does not end (C86).
* Very many keys in one deep bucket: panic "bucket head empty" (C15); embedded: stack overflow, slot -1 (C26, C27).
* `Setup` stores the hash unreversed (C45).  Options' undo values are wrong for UsePool/UseEmbeddedPool/ItemFn (C19).
* Embedded Delete of the first slot, Purge after Delete, reuse of a deleted slot, StoreItem (C23-C25, C28, C51).
* RMap: updates of promoted keys vanish, Delete never works or deadlocks, Get of an absent key panics (C39-C43).
* RMap shared by goroutines: Get of a present key can panic or answer nil (C71), an acknowledged Set can vanish (C74), a Delete can block everyone for ever (C73).
* Pools: race in the first allocation, crash and deadlock at the last slot, stale pointers after expansion (C30, C32, C49).
* Concurrency: a failed position check is only logged, two Sets of one key make two entries, the search option is shared by all maps (C33-C35, C38, C54).
* A split in progress makes Get and Delete miss a present key, an acknowledged Set vanish, or a call panic (C66).
* Two splits at once can set one bucket up twice (C67), or leave a group in a state in which every later split beyond its end spins for ever (C68).
* Embedded concurrency: lock leak, foreign unlock, self-deadlock, lost updates/deletions, unsorted arrays, spurious misses (C36, C37, C56-C58).

## 6. Testing the theorems

`seeded/LOG.jsonl`: realistic bugs edited into a scratch copy of the model.  For each one the proofs that broke were replaced by placeholders
in the scratch copy, and `#print axioms` of every theorem in MANIFEST.json shows which claims no longer rest on proofs.

