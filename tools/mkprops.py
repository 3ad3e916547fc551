#!/usr/bin/env python3
# Generates /verif/properties.jsonl (kept as a script so that ids stay in order when properties are appended).
import json
P=[]
def p(title, statement, quantifier, why, anchors):
    P.append(dict(id="C%02d"%(len(P)+1), title=title, statement=statement, quantifier=quantifier, why_tests_cant=why, anchors=anchors))

p("Sequential map semantics (default and pooled mode)",
  "In a sequential history of Set, StoreItem, Get, GetByHash, LoadItem, LoadItemByHash, Delete, Purge on a map without the embedded pool, every lookup returns the value of the most recent successful Set/StoreItem of that key, and not-found if there was none or the key was deleted since; every Set/StoreItem/Delete returns what a plain map[key]value would make it return.",
  "all configurations (max per bucket, search mode, item type, pool on/off), all finite operation sequences, all keys and values",
  "The result depends on every prior operation through bucket splits; a test fixes one history and one random hash seed.",
  ["map.go:Set","map.go:StoreItem","map.go:Get","map.go:_get","map.go:getWithBucket","map.go:_set","map.go:Delete","map.go:_searchBybucket"])
p("Acknowledged insert is retrievable",
  "Whenever StoreItem (or Set) of a key returns true, an immediately following LoadItem/Get of that key finds it.",
  "all reachable maps, all keys including those whose bit-reversed hash is a bucket boundary or 2^64-1",
  "Fails only for particular hash values (e.g. integer keys 0..15 or -1), which string-keyed tests with a random hash never produce.",
  ["map.go:_set","map.go:add2","map.go:_searchBybucket","util.go:inserBeforeWithCheck"])
p("Keys with colliding primary hash stay distinct",
  "Two different keys that share the 64-bit primary hash but differ in the secondary (conflict) hash can both be stored and both be retrieved.",
  "all pairs of keys with equal primary and different secondary hash, all histories",
  "64-bit collisions never occur in a test run.",
  ["map.go:_get","map.go:getWithBucket","map.go:_searchBybucket"])
p("Writes to one key do not disturb other keys",
  "Set/StoreItem/Delete of one key never changes what Get returns for any other key.",
  "all reachable maps, all pairs of keys with different primary hash",
  "An insert can trigger bucket splits that touch the index of unrelated keys; all shapes must be covered.",
  ["map.go:_set","map.go:makeBucket","map.go:Delete"])
p("Deleted key is gone until set again",
  "After Delete(k) returns true Get(k) reports not found until the next Set/StoreItem of k, after which it is found again with the new value.",
  "all reachable maps without the embedded pool, all keys, all continuations",
  "Deleted items physically stay in the list; all positions and interleavings with splits matter.",
  ["map.go:Delete","map.go:_searchBybucket","item.go:Delete","sample_hmap_entry.go:Delete"])
p("Delete reports presence",
  "Delete(k) (and Purge without embedded pool) returns true exactly when k was retrievable (LoadItem finds it) just before the call; when it returns false the map is unchanged.",
  "all reachable maps, all keys",
  "Quantifies over every reachable state.",
  ["map.go:Delete","map.go:Purge","map.go:LoadItem"])
p("Len counts live keys",
  "Len() equals the number of keys currently retrievable.",
  "all histories",
  "Needs all histories, in particular deletes and re-inserts.",
  ["map.go:Len","map.go:_set","map.go:Delete"])
p("Range visits every live key exactly once, in hash order, and stops on demand",
  "RangeItem/Range call f exactly once for each live item, with its current value, in ascending order of bit-reversed hash, never for internal sentinels or deleted items, and stop right after f first returns false.",
  "all reachable maps, all callbacks",
  "Requires the ordering invariant of the item list in every reachable state.",
  ["map.go:RangeItem","map.go:Range"])
p("Item order invariant",
  "In every reachable map, walking items with Next() yields non-decreasing bit-reversed hashes, whatever items (even ones with a pre-set hash) were stored.",
  "all operation sequences, all items",
  "A single mis-ordered insert silently hides keys; needs all insert positions.",
  ["map.go:add2","map.go:_set","util.go:inserBeforeWithCheck","map.go:_InsertBefore"])
p("Bucket index is a strictly ordered, duplicate-free, complete partition",
  "In every reachable map the buckets listed by DumpBucket have strictly decreasing boundaries from 2^64-1 down to 0, and each one has its sentinel at the matching place in the item order.",
  "all operation sequences and configurations",
  "Bucket splits depend on the whole history.",
  ["map.go:makeBucket","map.go:addBucket","map.go:_InsertBefore","map.go:initBeforeSet"])
p("Buckets split hash space dyadically and the bucket trie mirrors it",
  "Every bucket interval has a power-of-two size aligned to its start; a split always cuts an interval at its midpoint; every bucket sits in the trie at the path spelled by the hex digits of its boundary, and splitting never livelocks.",
  "all operation sequences and configurations",
  "Depth up to 64 splits on a path cannot be sampled.",
  ["map.go:makeBucket","map.go:bucketFromPool","util.go:halfUint64"])
p("Bucket lookup never overshoots",
  "For every hash FindBucket returns an initialised bucket whose boundary is not above the bit-reversed hash, and whose sentinel is linked in the item order.",
  "all reachable maps, all 2^64 hashes",
  "2^64 hashes times all trie shapes.",
  ["map.go:_findBucket","map.go:FindBucket","bucket.go:largestDown"])
p("Search mode is only a performance knob",
  "Get/LoadItem return the same result whatever BucketMode is in effect, and whatever bucket the search starts from.",
  "all reachable maps with one live item per primary hash, all modes, all keys",
  "Compares all start positions and directions of the search.",
  ["map.go:searchBucket4Key4","map.go:_searchBybucket","map.go:BucketMode"])
p("MaxPefBucket is only a performance knob",
  "Two maps that differ only in MaxPefBucket/BucketMode/pooling give identical outputs for the same history.",
  "all pairs of configurations, all histories",
  "A relational property over two unbounded executions.",
  ["map.go:MaxPefBucket","map.go:_set","map.go:makeBucket"])
p("Storing never panics",
  "Set with a string key and a value of consistent type, and StoreItem with a fresh item, never panic or hang.",
  "all reachable maps, all keys",
  "The panic needs a boundary 2^64-2, reached only after ~60 splits on one path.",
  ["map.go:makeBucket","map.go:Set","map.go:StoreItem"])
p("Nil values",
  "Set(k, nil) on a present key of the default item type returns false and changes nothing; on an absent key it returns true and Get(k) then returns (nil, true).",
  "all reachable maps, all keys",
  "All reachable states.",
  ["sample_hmap_entry.go:SetValue","map.go:Set","map.go:_update"])
p("Value type changes are rejected loudly",
  "Set of a present key with a value of another dynamic type than the stored one panics, and leaves every key's value unchanged; it never stores silently.",
  "all reachable maps with the default (SampleItem) type in effect",
  "All reachable states.",
  ["sample_hmap_entry.go:SetValue","map.go:_update"])
p("Key hashing contract",
  "A string and a []byte with equal content address the same entry; distinct integers of one type never share a hash; integer keys of different types with equal 64-bit extension, and nil and integer 0, address the same entry; unsupported key types panic.",
  "all keys, any memhash/xxhash functions",
  "Unbounded key domain.",
  ["hashfn.go:KeyToHash","hashfn.go:MemHash","hashfn.go:MemHashString"])
p("Options return their own undo",
  "Applying the OptHMap value returned by an option function restores the previous configuration.",
  "all configurations, all options",
  "All pairs of prior configuration and option.",
  ["map.go:MaxPefBucket","map.go:BucketMode","map.go:ItemFn","map.go:UsePool","map.go:UseEmbeddedPool","map.go:Options"])
p("Pool growth makes progress",
  "PoolCap(n) is strictly greater than n, at least 2, at most max(2n, n+64) for n>=1, and monotone, so that growing a full pool always makes room.",
  "all non-negative lengths representable without int64 overflow",
  "Unbounded domain; the test samples twelve values.",
  ["util.go:PoolCap","util.go:intPow"])
p("First and Last are sentinels",
  "In every reachable map First() and Last() return the sentinels with key-hash 0 and 2^64-1, never a user item.",
  "all reachable maps (no item with hash 2^64-1 stored after... any history)",
  "All reachable states.",
  ["map.go:First","map.go:Last"])
p("Embedded mode: map semantics without deletion",
  "In embedded-pool mode, for histories of Set and Get only, every operation that returns gives the same result as a plain map.",
  "all configurations, all finite Set/Get histories with distinct primary hashes",
  "Depends on all shapes of pool growth, insertion shifting, and splits.",
  ["map.go:Set","map_embedded.go:bsearchBybucket","map_embedded.go:getWithFn","map_embedded.go:insertToPool","map_embedded.go:expand","map_embedded.go:makeBucket2","map_embedded.go:_split"])
p("Embedded mode: deleted key is gone",
  "In embedded-pool mode, after Delete(k) or Purge(k) returns true, Get(k) reports not found until k is set again.",
  "all reachable embedded maps, all keys",
  "Depends on the slot position of the key.",
  ["map.go:Delete","map.go:purgeInEmbedded","map_embedded.go:bsearchBybucket","map_embedded.go:_at"])
p("Embedded mode: Purge affects only its key",
  "In embedded-pool mode, Purge(k) does not change what Get returns for other keys.",
  "all reachable embedded maps, all keys",
  "Depends on neighbouring slots' state.",
  ["map.go:purgeInEmbedded","map_embedded.go:shrinkLen"])
p("Embedded mode: reuse of deleted slots is safe",
  "In embedded-pool mode, Set of a new key after earlier deletions does not make any other key unretrievable.",
  "all reachable embedded maps",
  "Depends on exact arrangement of deleted slots.",
  ["map_embedded.go:bsearchFromFreeList","map_embedded.go:getWithFn","map_embedded.go:state4get"])
p("Embedded mode: operations terminate without crashing",
  "In embedded-pool mode no Get or Set with a string key crashes, overflows the stack or loops forever.",
  "all configurations, all histories",
  "Needs a bucket whose items all fall on one side of its midpoint.",
  ["map_embedded.go:makeBucket2","bucket.go:itemPool","map_embedded.go:appendLast"])
p("Embedded mode: memory safety of the slot array",
  "In embedded-pool mode no operation accesses a slot index outside the pool's backing array.",
  "all histories including Delete",
  "Out-of-range unsafe pointer reads do not fail a test deterministically.",
  ["map_embedded.go:state4get","map_embedded.go:_at","map_embedded.go:shrinkLen"])
p("Embedded mode: StoreItem is retrievable",
  "In embedded-pool mode StoreItem returning true makes the item retrievable.",
  "all reachable embedded maps, all fresh items",
  "All reachable states.",
  ["map.go:StoreItem","map.go:_set"])
p("Embedded mode: pool slots sorted and inside their bucket",
  "In embedded mode without deletions, every pool holds its keys in strictly increasing bit-reversed-hash order, all inside its bucket's interval, and binary search finds exactly the stored keys.",
  "all Set/Get histories",
  "All shapes of splits.",
  ["map_embedded.go:insertToPool","map_embedded.go:_split","map_embedded.go:findIdx"])
p("Item pool never hands out a slot twice",
  "No two concurrent or successive pool allocations return the same slot, and no allocation returns a slot outside the current capacity.",
  "any number of goroutines, all schedules of the atomic steps",
  "All interleavings.",
  ["pool2.go:Get","pool2.go:_expand","map_embedded.go:appendLast"])
p("Item pool preserves items when it grows",
  "Growing a pool keeps every item's key, value and hash at the same index and leaves at least one free slot.",
  "all pool contents",
  "Unbounded contents.",
  ["pool2.go:_expand","map_embedded.go:expand","map_embedded.go:CopyDataFrom"])
p("Held items stay live",
  "An item obtained by LoadItem keeps denoting the map's entry: SetValue on it is visible to later Gets as long as the key is not deleted.",
  "all continuations after LoadItem",
  "A later unrelated Set may relocate the slot array.",
  ["map.go:LoadItem","pool2.go:_expand","map_embedded.go:insertToPool"])
p("Concurrent inserts of different keys are both kept",
  "When two goroutines concurrently Set two different new keys and both calls return true, both keys are retrievable afterwards.",
  "all schedules of the atomic steps of Set",
  "Needs a particular preemption between locating the position and linking.",
  ["map.go:_set","map.go:add2","util.go:inserBeforeWithCheck"])
p("Concurrent Sets of one new key create one entry",
  "When several goroutines concurrently Set the same new key, the map ends with one live entry for it, and later Set/Get agree.",
  "all schedules",
  "Needs a preemption between lookup and insert.",
  ["map.go:Set","map.go:_loadItem","map.go:_set"])
p("Concurrent inserts keep existing keys visible",
  "A key that is present and not deleted is found by every Get that runs concurrently with any number of inserts and bucket splits performed as atomic list insertions, and the item order is preserved.",
  "any number of goroutines, all schedules of lookups, position searches and checked insertions",
  "All interleavings.",
  ["map.go:_searchBybucket","map.go:add2"])
p("Embedded mode: concurrent update is not lost",
  "In embedded mode, when Set of a present key returns true, a later Get returns that value (or a newer one), even if other goroutines insert keys meanwhile.",
  "all schedules",
  "Needs a relocation between lookup and lock acquisition.",
  ["map.go:Set","map_embedded.go:insertToPool"])
p("Per-bucket lock gives mutual exclusion",
  "In embedded mode the per-bucket lock is held by at most one writer, is released exactly once by its holder, and is never released by a non-holder.",
  "all schedules",
  "All interleavings.",
  ["map_embedded.go:getWithFn","map_embedded.go:lazyUnlock","map.go:Set"])
p("Search options are restored",
  "The package-wide 'ignore bucket entries' option has its default value whenever no operation is in progress.",
  "all schedules of concurrent finds (on any maps in the process)",
  "All interleavings.",
  ["map.go:find","map.go:sharedSearchOpt","map.go:ignoreBucketEntry","map.go:Options"])
p("RMap: a set key stays found",
  "After RMap.Set(k, v) returns, every later RMap.Get(k) returns ok=true as long as no Delete is called.",
  "all Set/Get histories",
  "Promotions between the read map and the dirty map depend on the miss counter history.",
  ["rmap/rmap.go:Set2","rmap/rmap.go:Get2","rmap/rmap.go:storeReadFromDirty","rmap/rmap.go:missLocked"])
p("RMap: Get returns the last value set",
  "RMap.Get(k) returns the value passed to the most recent RMap.Set(k, v).",
  "all Set/Get histories",
  "Depends on promotion history.",
  ["rmap/rmap.go:Get2","rmap/rmap.go:store2"])
p("RMap: Get of an absent key returns not found",
  "RMap.Get of a key never set returns (nil,false) and does not panic.",
  "all histories",
  "Depends on promotion state.",
  ["rmap/rmap.go:Get2","rmap/rmap.go:getDirty"])
p("RMap: Delete removes the key",
  "RMap.Delete(k) of a present key returns true, does not panic or deadlock, and Get(k) then reports not found.",
  "all histories",
  "Depends on promotion state and lock state.",
  ["rmap/rmap.go:Delete","rmap/rmap.go:missLocked","rmap/rmap.go:storeReadFromDirty"])
p("RMap: Len counts keys",
  "RMap.Len() is the number of keys currently retrievable.",
  "all histories",
  "Depends on promotion history.",
  ["rmap/rmap.go:Len","rmap/rmap.go:initDirty"])
p("RMap: promotion loses nothing",
  "Promoting the dirty map into the read map keeps every key of both, for every promotion point.",
  "all histories, all promotion points",
  "Depends on the whole history.",
  ["rmap/rmap.go:storeReadFromDirty"])
p("Setup-prepared items are retrievable",
  "An item prepared with SampleItem.Setup() and then stored with StoreItem is retrievable by its key.",
  "all keys",
  "Fails depending on the bit pattern of the hash.",
  ["sample_hmap_entry.go:Setup","map.go:_set"])
p("Hash order arithmetic",
  "Bit reversal of a hash is an involution; the sixteen initial buckets are exactly the multiples of 2^60; midpoints and nearest-bucket choice never overflow and stay between their arguments.",
  "all 64-bit values",
  "2^64 domain.",
  ["util.go:absDiffUint64","util.go:nearUint64","util.go:halfUint64","map.go:initBeforeSet","map.go:levelMask","map.go:toMask","map.go:toMaskR","map.go:reverse2Index"])
p("Mixed item types keep their keys",
  "Items returned by LoadItem/RangeItem report through Key() the key they were stored with.",
  "all histories of Set and StoreItem with either item type and any ItemFn",
  "Depends on the sequence of item types and on the ItemFn in force.",
  ["map.go:RangeItem","map.go:ItemFn","map.go:Set","item.go:HmapEntryFromListHead"])
p("Error identity",
  "The package's error values carry pairwise distinct, non-zero numbers, each a single bit.",
  "all pairs of error kinds",
  "Complete finite table.",
  ["error.go:NewError","error.go:ErrorNum"])
p("Pooled Set returns",
  "With UsePool(true), an allocation for Set neither crashes nor waits for ever, whatever other goroutines do with the same map.",
  "any number of goroutines, all schedules of the atomic steps of the allocator",
  "Needs a preemption exactly at the last free slot of a pool.",
  ["pool2.go:Get","pool2.go:_expand"])
p("Embedded: Len counts keys",
  "With UseEmbeddedPool(true), Len() is the number of keys currently retrievable.",
  "all histories",
  "Depends on the whole history of insertions and removals.",
  ["map.go:Len","map.go:Set","map_embedded.go:insertToPool"])
p("Embedded: a new key that was set is found",
  "With UseEmbeddedPool(true), a Set of a key that is not in the map and that answers true makes the key retrievable with the value given, also when keys were deleted or purged before.",
  "all histories, all keys and values",
  "Depends on which deleted slot is handed out again.",
  ["map.go:Set","bucket.go:GetItem","map.go:Set"])
p("Embedded: LoadItem's item carries the key",
  "With UseEmbeddedPool(true), the item LoadItem returns reports through Key() a key with the hashes of the one that was asked for.",
  "all histories, all keys",
  "Depends on relocation and reuse of slots.",
  ["map.go:LoadItem","map.go:_get","sample_hmap_entry.go:Key"])
p("Range runs safely beside writers",
  "A Range that runs concurrently with Sets, Deletes and bucket splits shows pairwise different items in hash order, each of which was in the map and not deleted at some moment of the Range, and shows every item that was in the map before it started and is not deleted when it ends.",
  "any number of goroutines, all schedules",
  "All interleavings of the traversal with insertions and deletions.",
  ["map.go:RangeItem","map.go:add2","sample_hmap_entry.go:Delete"])
p("Maps of one process are independent",
  "What another goroutine does with another map does not change the outcome of an operation on this one.",
  "any two maps of a process, all schedules",
  "Needs two position searches on different maps to overlap in a particular way.",
  ["map.go:find","map.go:sharedSearchOpt","map.go:Options"])
p("Concurrent Get never invents a value",
  "A Get that answers ok answers with a value that an entry with the key's two hashes had at some moment of the call; otherwise it answers (nil, false).",
  "any number of goroutines, all schedules",
  "All interleavings.",
  ["map.go:GetByHash","map.go:_searchBybucket"])
p("Embedded: keys set concurrently are there afterwards",
  "With UseEmbeddedPool(true), after Sets of new keys by several goroutines have all returned true, a Get of each key answers with the value given (the last one written).",
  "any number of goroutines, all schedules, all keys and values",
  "All interleavings of insertions with array replacement.",
  ["map.go:Set","map_embedded.go:appendLast","map_embedded.go:insertToPool","map.go:Set"])
p("Embedded: a present key is found whatever others set",
  "With UseEmbeddedPool(true), a Get of a key that was set before and that nobody else sets, deletes or purges answers with its value, whatever other keys other goroutines set meanwhile.",
  "any number of goroutines, all schedules",
  "All interleavings of the binary search with insertions.",
  ["map.go:getWithBucket","map_embedded.go:insertToPool","map.go:bsearchBybucket"])
p("Embedded: a concurrent Delete is not lost",
  "With UseEmbeddedPool(true), after a Delete that returned true, a Get of the key that starts when no Set of this key is running answers not found.",
  "any number of goroutines, all schedules",
  "All interleavings of the mark with array replacement.",
  ["map.go:Delete","sample_hmap_entry.go:Delete","map_embedded.go:insertToPool"])
p("Reads never invent values or keys",
  "Whatever Get, GetByHash, LoadItem, LoadItemByHash, Range or RangeItem shows as a value was handed to an acknowledged Set or StoreItem for exactly the two hashes it is shown under, and a key shown was handed over by an acknowledged Set or StoreItem filed under these hashes; under hash collisions, hashes preset by the caller, crashed calls and any callback.",
  "all configurations, hash functions and histories, all keys, values and callbacks; no side condition",
  "A test only sees the histories it runs; the guarantee has to hold for arbitrarily colliding hash functions and any mixture of calls.",
  ["map.go:Get","map.go:GetByHash","map.go:LoadItem","map.go:LoadItemByHash","map.go:RangeItem","map.go:Set","map.go:StoreItem"])
p("Every acknowledged Delete takes one store back",
  "For each pair of hashes, acknowledged Deletes never outnumber the acknowledged stores of an absent key, and when they are equally many the pair is absent from Get, LoadItem and Range.",
  "all configurations, hash functions and histories; no side condition",
  "Quantifies over all histories, including colliding and preset hashes.",
  ["map.go:Delete","map.go:Set","map.go:StoreItem"])
p("RMap.Get never invents a value",
  "A non-nil value answered by RMap.Get comes with ok and was handed to an acknowledged RMap.Set for a key with the same two hashes, whatever promotions, Deletes, collisions and crashed calls happened.",
  "all hash functions and histories of Set, Get, Delete and Len; no side condition",
  "Promotion happens at points that depend on the whole history; collisions in the read map cannot be enumerated.",
  ["rmap/rmap.go:Get2","rmap/rmap.go:Set2","rmap/rmap.go:Delete","rmap/rmap.go:storeReadFromDirty"])
p("Embedded: reads never invent a value",
  "With UseEmbeddedPool(true), every non-nil value that Get, GetByHash, LoadItem or LoadItemByHash shows was handed to an acknowledged Set or StoreItem of the history.",
  "all hash functions, bucket sizes and histories; no side condition: deletions, purges, reused slots, splits, collisions, crashed and panicking calls included",
  "The slot arrays are copied, shifted, cut and reused; a test sees only a few of these histories.",
  ["map.go:Get","map.go:Set","map.go:StoreItem","map_embedded.go:insertToPool","map_embedded.go:expand","map_embedded.go:_split","map_embedded.go:getWithFn"])
p("Embedded: values belong to their key",
  "With UseEmbeddedPool(true), a value shown for a key was handed to an acknowledged Set or StoreItem for a key with the same two hashes.",
  "all histories of Set, StoreItem, Get, LoadItem, Delete, Purge and Len",
  "Whether a slot keeps parts of an earlier owner depends on the whole history of deletions and reuse.",
  ["map.go:Set","map_embedded.go:getWithFn","map.go:purgeInEmbedded","sample_hmap_entry.go:SetValue"])
p("Embedded: an update changes exactly its key's value",
  "With UseEmbeddedPool(true), Set or StoreItem of a non-nil value for a key that LoadItem finds, with the stored value nil or of the same type, answers true; afterwards Get and LoadItem show the new value for this key, and for every other pair of hashes what they showed before, and Len is the same. With a nil value it answers false and with a value of another type it panics; either way nothing changes.",
  "every state reachable by any history, every key and value; no side condition",
  "The states include those in which deletions, purges and collisions have already damaged the slot arrays.",
  ["map.go:Set","map.go:StoreItem","map.go:_update","sample_hmap_entry.go:SetValue"])
p("Calls never wait for each other and take a bounded number of steps",
  "Apart from the split a Set may carry out at its end (C68): with any number of goroutines calling Get, Set, Delete and Range on a map without embedded pool, beside running splits: a call in progress can always take its next step wherever the other goroutines are stopped (mutexes only enclose single accesses of the search option), it completes by its own steps alone even if all others stop for ever, and whatever they do it takes at most a number of its own steps linear in the number of nodes of the list.",
  "any number of goroutines, all schedules, all states reachable from any sequential history",
  "A deadlock or a livelock needs one particular interleaving; absence quantifies over all of them.",
  ["map.go:getWithBucket","map.go:_searchBybucket","map.go:find","map.go:_set","map.go:add2","map.go:RangeItem","util.go:inserBeforeWithCheck"])
p("A split in progress changes no answer",
  "While a bucket is being split, and nothing else changes: a Get, LoadItem or Delete of a key that is in the map finds it, a Set that answers true has stored its value, and no call panics.",
  "all sequential histories before, any number of goroutines, all schedules of the calls and the split",
  "The window between publishing the new bucket and linking its sentinel lasts a few instructions; a test practically never hits it.",
  ["map.go:bucketFromPool","map.go:_findBucket","map.go:makeBucket","bucket.go:head","bucket.go:entry","map.go:_searchBybucket","map.go:add2"])
p("One goroutine sets a new bucket up",
  "When calls of several goroutines split the same region at the same time, each new bucket is initialised and its sentinel linked by exactly one of them.",
  "any number of goroutines splitting and looking up, all schedules, every bucket of a group of siblings",
  "A second set-up needs two splits of the same bucket within a few instructions of each other.",
  ["map.go:bucketFromPool","map.go:makeBucket"])
p("A split always ends",
  "A Set that splits a bucket returns: whatever splits other goroutines carry out or have carried out, the split can finish, and once it has started nothing can make it wait for ever.",
  "any number of goroutines splitting and looking up, all schedules",
  "A wait without end needs one particular interleaving; absence quantifies over all of them.",
  ["map.go:bucketFromPool","map.go:makeBucket","map.go:_set"])
p("Lookups of buckets are monotone under splits",
  "A call that looks for the bucket of its key while other goroutines add buckets gets a bucket not behind the key and at least as close to it as every bucket that could be found when the lookup began; it gets it after a bounded number of its own steps; and if the sentinel of that bucket is not linked yet, a later sibling exists.",
  "any number of goroutines splitting and looking up, all schedules, all keys",
  "The group of siblings is read field by field while it grows; every interleaving of the reads with the stores matters.",
  ["map.go:_findBucket","map.go:bucketFromPool","bucket.go:level","bucket.go:ptrDownLevels"])
p("RMap under concurrency: Get never invents a value",
  "With any number of goroutines calling Set, Get and Delete of an RMap, a non-nil value answered by Get was handed to a Set of a key with the same two hashes that had been called before.",
  "any number of goroutines, all schedules, all behaviours of the underlying maps that C01-C05 and C33-C35 leave open",
  "A torn or foreign value would need one particular interleaving of promotion, update and read.",
  ["rmap/rmap.go:Get2","rmap/rmap.go:Set2","rmap/rmap.go:storeReadFromDirty"])
p("RMap under concurrency: a present key is found",
  "A Get of a key that is present before, during and after the call answers (its value, true) and does not panic, whatever other goroutines do.",
  "any number of goroutines, all schedules, all keys",
  "The windows in which a promotion can overtake a Get are a few instructions wide.",
  ["rmap/rmap.go:Get2","rmap/rmap.go:getDirty","rmap/rmap.go:storeReadFromDirty"])
p("RMap under concurrency: a promoted key answers the same for ever",
  "Once a key has been promoted, the map has come to rest and the dirty map has no newer item for it, every later Get of the key answers the value it had at that moment: later Sets of it are acknowledged and ignored, and no Set, Get, Delete or promotion of any goroutine changes the answer.",
  "any number of goroutines, all schedules, all keys, any later calls",
  "Ranges over every later history and interleaving.",
  ["rmap/rmap.go:Get2","rmap/rmap.go:Set2","rmap/rmap.go:store2"])
p("RMap under concurrency: calls do not wait for ever",
  "A call of an RMap returns after a bounded number of its own steps, and the goroutines never all wait for the lock.",
  "any number of goroutines, all schedules",
  "Deadlock and livelock freedom quantify over all schedules.",
  ["rmap/rmap.go:storeReadFromDirty","rmap/rmap.go:Delete","rmap/rmap.go:missLocked"])
p("RMap under concurrency: an acknowledged Set is not lost",
  "After Set(k, v) has returned true, k stays stored until a Delete of it is called, whatever promotions other goroutines carry out.",
  "any number of goroutines, all schedules, all keys",
  "A lost key needs a store between two steps of a promotion.",
  ["rmap/rmap.go:Set2","rmap/rmap.go:storeReadFromDirty","rmap/rmap.go:initDirty"])
p("Embedded pool: Range goes through the map",
  "In a map made with UseEmbeddedPool(true) the pairs Range visits are exactly those the map holds, each once, in strictly ascending order of the bit-reversed hash; it stops early only after a callback that answered false.",
  "all histories of Set, Get, Delete and Purge, all keys, all hash functions, all callbacks, all bucket sizes",
  "The list runs through arrays that are shifted, copied and split; which of these happen depends on the whole history and on hashes nobody chooses.",
  ["map.go:RangeItem","map.go:Range","map.go:add2","map_embedded.go:insertToPool","map_embedded.go:expand","map_embedded.go:_split","map.go:addBucket"])
p("Embedded pool: First and Last are not items",
  "In a map made with UseEmbeddedPool(true) First and Last always answer the two entries made with the map, with reversed hashes 0 and 2^64-1, never an item with a key.",
  "all histories",
  "Every insertion and every split could put something before the first or behind the last entry.",
  ["map.go:First","map.go:Last","map.go:initBeforeSet","map.go:add2"])
p("A Get after a finished Set never answers an older value",
  "In a map used by several goroutines (without embedded pool): once Set(k, v) has answered true, and as long as no other Set of k runs, every Get of k by any goroutine that finds k answers v; it does find k if the entry is not deleted meanwhile.",
  "all schedules, any number of goroutines, all histories before, all keys and values, whatever other keys are set, deleted, ranged over or split in between",
  "The older value can come back only through a particular interleaving of list insertions, possibly many calls earlier.",
  ["map.go:Set","map.go:_set","map.go:Get","map.go:getWithBucket","map.go:add2","map.go:_update"])
p("A deleted key stays deleted",
  "In a map used by several goroutines (without embedded pool): once Delete(k) has answered true, and as long as no Set of k runs, every Get of k answers not found and no Range begun afterwards visits k.",
  "all schedules, any number of goroutines, all histories before, all keys, whatever happens to other keys",
  "A second entry of the key may be hidden in the list and come to light when an unrelated key is deleted.",
  ["map.go:Delete","map.go:Get","map.go:RangeItem","map.go:getWithBucket","map.go:add2"])
p("A key is deleted once",
  "In a map used by several goroutines (without embedded pool): of two Deletes of k without a Set of k in between at most one answers true.",
  "all schedules, any number of goroutines, all histories before, all keys",
  "Only interleavings between the lookup and the marking of the entry, or an earlier race of insertions, show the difference.",
  ["map.go:Delete","map.go:getWithBucket"])
p("A key is not affected by what goes wrong with other keys",
  "In a map without embedded pool, take a key k such that no other stored key has its primary hash, no item is brought along with its reversed hash already set, and whose primary hash is not a bucket boundary when it is stored (true if it is at least 2^(4+D), where D is the number of stores of any key beyond MaxPefBucket). Then every Set, StoreItem, Get, GetByHash, LoadItem and Delete of k is answered as by a plain map that sees only these calls — however many other keys collide with each other, lie on boundaries, are lost, or were prepared with Setup. (If k is given to StoreItem while string keys are given to Set, with the item type SampleItem.)",
  "all sequential histories without a bucketHeadEmpty crash, all keys and hash functions, all configurations",
  "The faults of C01 to C05 concern particular pairs of hashes; that they never reach a third key is a statement about all lists the map can be in.",
  ["map.go:Set","map.go:Get","map.go:Delete","map.go:getWithBucket","map.go:add2","map.go:makeBucket","item.go:SetValue"])
p("With spread hashes the map is a plain map",
  "If at most M stores agree on the low 4+j bits of their primary hash (j+M at most 58), every primary hash is at least 2^(4+j+M) and not 2^64-1, no two keys share the primary hash and items are fresh, then every call is answered as by a plain map, no call crashes with bucketHeadEmpty, and MaxPefBucket, BucketMode and pooling make no difference.",
  "all sequential histories of any length of a map without embedded pool, all hash functions, all pairs of configurations with the same item type",
  "No finite set of keys shows that deeper and deeper splits never produce a boundary on a stored key or the crash.",
  ["map.go:Set","map.go:Get","map.go:Delete","map.go:makeBucket","map.go:findBucket"])
p("Embedded pool: load first, then delete only keys between neighbours that stay",
  "In a map with embedded pool, a program that first stores all its string keys (values of one type, at most MaxPefBucket keys with the same four lowest hash bits, no two keys with the same primary hash) and afterwards only reads, stores loaded keys again with values of that type, and deletes keys that have, among the keys with the same four lowest hash bits, a smaller and a larger one (in the order of the reversed hash) that are never deleted, gets the answers of a plain map, never crashes, and its Range shows exactly the keys that are there, each once, in order.",
  "all programs of this shape, any number of keys, deletions and re-stores, all hash functions, all MaxPefBucket at least 1",
  "The defects of C23 to C27 depend on where the deleted slot stands; that a deleted slot between two that stay is always the one used again, is a statement about every order of the calls.",
  ["map_embedded.go:bsearchFromFreeList","map_embedded.go:appendLast","map.go:Set","map.go:Delete","map.go:Get"])
p("SearchKey finds a key by its primary hash",
  "SearchKey(k) answers nil exactly when no key in the map has primary hash k, and otherwise an item that is in the map and has that hash.",
  "all histories, all hashes k, all search modes and configurations (without embedded pool)",
  "Whether the search may start behind the item depends on where the bucket boundaries lie after every possible sequence of splits.",
  ["map.go:SearchKey","map.go:searchKey","map.go:searchBucket4Key4","map.go:_searchBybucket"])
p("Range with a callback that changes the map",
  "A callback of Range or RangeItem may call Set, StoreItem, Get, Delete and so on on the same map. No item is shown twice; items come in the order of the reversed hash, each as it is in the map at that moment; when Range comes to its end every item that was there before and is there afterwards has been shown, in particular every key nobody deleted; and the callback is called at most as often as there were items plus the number by which Len grew.",
  "all histories before the Range, all callbacks (deciding by what they saw what to call and whether to go on), all numbers of calls",
  "The list is changed around the cursor by the callback itself; tests try a few callbacks.",
  ["map.go:RangeItem","map.go:Range","map.go:Set","map.go:Delete","map.go:makeBucket"])
p("An item that is held stays a place to go on from",
  "Next and Prev of an item lead to its neighbours in the order of the reversed hash and are inverse to each other; after any further Sets, Deletes and splits an item the caller holds (deleted or not) is still linked, what was ahead of it is still ahead and what was behind it still behind.",
  "all histories before and after the item was obtained, all items",
  "Every later call may relink the neighbours; the claim is about all of them.",
  ["item.go:Next","item.go:Prev","sample_hmap_entry.go:Next","sample_hmap_entry.go:Prev","map.go:add2","map.go:Delete"])
p("Range shows a key at most once and ends",
  "Whatever the callback of Range does to the map, no key is shown twice, and Range ends; ranging over a map and deleting every key shown leaves it empty.",
  "all histories, all callbacks that change the map",
  "Depends on where an item that is set again during the Range is linked relative to the cursor.",
  ["map.go:RangeItem","map.go:Range","map.go:_set","map.go:add2","map.go:Delete"])
p("Len under concurrency",
  "Whatever goroutines do beside each other: Len never decreases, it grows by exactly the number of Sets of new keys that were answered true, it is never below the number of keys in the map whose Set has returned, and once all calls have returned and nothing was deleted it is the number of keys a Range shows.",
  "all schedules of any number of goroutines calling Set, Get, Delete, Range and splitting buckets; all histories before",
  "The counter is a separate word added to after the item was linked; a test sees one interleaving.",
  ["map.go:Len","map.go:AddLen","map.go:_set","map.go:add2","util.go:inserBeforeWithCheck"])
p("Embedded pool: SearchKey finds a key by its primary hash",
  "With UseEmbeddedPool(true), SearchKey(k) answers nil exactly when the map holds no key with primary hash k; otherwise the item it hands out has that hash and is the one the map holds, with its current value; and SearchKey and Get agree.",
  "all histories, all hashes k, all bucket sizes",
  "SearchKey hands out what the binary search over an array with deleted slots ends at, without comparing hashes again; whether that can be another key depends on every order in which slots were filled, deleted and reused.",
  ["map.go:SearchKey","map_embedded.go:searchKeyFromEmbeddedPool","map_embedded.go:bsearchBybucket","map_embedded.go:_at"])
p("Embedded pool: Range with a callback that changes the map",
  "With UseEmbeddedPool(true), a callback of Range may read the map, delete keys and set keys that are there. No key is shown twice; keys come in the order of the reversed hash, each with the value it has at that moment; when Range comes to its end every key still there was shown; the next Range goes through what is left; ranging and deleting every key shown leaves nothing.",
  "all histories before the Range, all callbacks (deciding by what they saw what to call and whether to go on)",
  "The slots are changed around the cursor by the callback itself, in any of the states a history can lead to.",
  ["map.go:RangeItem","map.go:Range","map.go:Delete","map.go:Set","sample_hmap_entry.go:Delete"])
p("Options changed on a map in use change no answers",
  "Calling Options with MaxPefBucket, BucketMode or UsePool on a map in use, at any points of a history, changes no output of any call (results, values, keys, Len, Range), and makes no call panic; with ItemFn calls in between, answers are those of a plain map with that item type from there on.",
  "all histories of calls and option changes, all configurations",
  "Which buckets exist at each moment, and from which of them each search starts, depends on every setting in force at every earlier store.",
  ["map.go:Options","map.go:MaxPefBucket","map.go:BucketMode","map.go:UsePool","map.go:ItemFn"])
p("Items in the caller's hands and calls on the map form one consistent whole",
  "An item obtained from LoadItem or passed to StoreItem (and inserted) is the entry of its key until the key is deleted: Value() is what Get answers, SetValue and Delete on it are Set and Delete of the key. Once the key was deleted, in whichever way, the item stays readable and writable by itself, and nothing done to it reaches the map, also when the key is set again.",
  "all histories of calls on the map and of Value, SetValue, Delete on any number of items in hand, in any order",
  "Every combination of stale and current items with deletes, re-sets and splits in between.",
  ["map.go:LoadItem","map.go:StoreItem","item.go:SetValue","item.go:Delete","sample_hmap_entry.go:SetValue","sample_hmap_entry.go:Delete","sample_hmap_entry.go:Value"])
p("The calls on one key are linearizable",
  "The finished Set, Get and Delete calls on one key, made by any number of goroutines, can be put into one order that respects real time (a call that returned before another began comes first) and in which every call answers what it would answer if they were made one after the other on a plain map.",
  "all schedules of any number of goroutines calling Set, Get, Delete, Range on this and other keys, with splits going on, after every history",
  "The histories of overlapping calls are unbounded; a test sees a few interleavings and no order to compare with.",
  ["map.go:Set","map.go:Get","map.go:Delete","map.go:_set","map.go:find","item.go:SetValue","item.go:Delete"])
p("The map as a whole is linearizable",
  "The finished Set, Get and Delete calls on all keys, made by any number of goroutines, can be put into one order that respects real time and in which every call answers what it would answer if the calls were made one after the other on a plain map that holds what the history before left in it.",
  "all schedules of any number of goroutines calling Set, Get, Delete, Range on any keys, with splits going on, after every history",
  "The histories of overlapping calls are unbounded; a test sees a few interleavings and no order to compare with.",
  ["map.go:Set","map.go:Get","map.go:Delete","map.go:_set","map.go:find","map.go:makeBucket","item.go:SetValue","item.go:Delete"])
p("One writer and any number of readers",
  "If Set and Delete calls are made one at a time (for example under a lock of the caller), any number of goroutines may call Get and Range at any moment without that lock: all finished Set, Get and Delete calls can be put into one order that respects real time and in which each answers as on a plain map.",
  "all schedules in which no two of Set, Delete and the bucket splits they start overlap, with any number of overlapping Gets and Ranges, after every history",
  "The readers overlap the single writer at every one of its steps, in unboundedly many combinations.",
  ["map.go:Set","map.go:Get","map.go:Delete","map.go:find","map.go:_set","map.go:add2","map.go:makeBucket","util.go:inserBeforeWithCheck","bucket.go:head"])
p("Embedded bucket: Sets and Gets are linearizable",
  "Overlapping Set and Get calls on an embedded bucket behave as if made one at a time: the finished calls, and some of those still running, can be put into one order in which no call precedes one that had returned before it began, and in which each answers as on a plain map.",
  "all schedules of any number of goroutines calling Set and Get, on keys with distinct non-zero hashes, on one embedded bucket",
  "A Get searches an array a Set is filling at that moment, a Set may move every item to a new array meanwhile; no test covers the orders.",
  ["map_embedded.go:getWithFn","map_embedded.go:appendLast","map_embedded.go:insertToPool","map_embedded.go:expand","map_embedded.go:_set"])
p("Calls that do not overlap behave as one goroutine",
  "If the calls made by several goroutines never overlap in time, every Get, Set, Delete and Range answers what it would answer if one goroutine had made them all, and the map ends in the same state.",
  "all histories of Get, GetByHash, Set, Delete and Range calls, all ways to spread them over goroutines, all search modes and bucket sizes",
  "A test makes its calls from the goroutine that runs it; whether the step-by-step code equals the call as a whole is a statement about every state it can start from.",
  ["map.go:Get","map.go:Set","map.go:_set","map.go:Delete","map.go:find","map.go:add2","map.go:_searchBybucket","map.go:RangeItem"])
p("FindBucket finds the nearest bucket",
  "For every hash FindBucket answers with the nearest bucket: no bucket of the map has a boundary that is greater and still not above the bit-reversed hash. (A Set splits the bucket it is told, and a lookup walks from there, so this is what keeps walks short.)",
  "all reachable maps, all 2^64 hashes",
  "2^64 hashes times all trie shapes; the exception needs a bucket at the last of sixteen trie levels, some sixty splits deep.",
  ["map.go:_findBucket","map.go:FindBucket","bucket.go:largestDown","bucket.go:NextOnLevel"])
p("A lookup looks at its own bucket only",
  "A lookup does not walk through the map: Get, LoadItem and Delete (and the lookup that Set and StoreItem begin with) look only at entries of the bucket that holds the key, from its boundary to the key, and at the one entry where they stop. With EnableStats set, the number of entries looked at is what the call adds to DebugStats[CntReverseSearch] and DebugStats[CntSearchEntry].",
  "all maps reachable by any sequence of calls, all search modes but CombineSearch2 for Get, all keys (hashes)",
  "a benchmark shows the cost for one workload; which entries are looked at depends on every earlier Set, Delete and split, and the claim is about all of them",
  ["map.go:_searchBybucket","map.go:searchBucket4Key4","map.go:_get","map.go:getWithBucket","debug.go:DebugStats"])
p("Buckets are kept to MaxPefBucket keys",
  "MaxPefBucket bounds how many keys a bucket may hold before it is divided: a bucket holds at most that many keys, a Set into a bucket whose counter has reached the limit adds a bucket, and the counters shown by DumpBucket are the numbers of items the buckets hold.",
  "all maps reachable by any sequence of calls, all values of MaxPefBucket, all hash functions, all buckets",
  "whether a bucket is divided depends on where in its bucket each earlier key fell; a test with well spread keys never meets the orders of insertion in which no division happens",
  ["map.go:makeBucket","map.go:searchBucket","map.go:_set","map.go:DumpBucket","bucket.go:len"])
p("The dumps show the map",
  "DumpEntry prints one line for each key of the map, with the key and its two hashes, and one line without a key for each bucket, all in order of reversed hash; DumpBucket prints one line for each bucket from the boundary 2^64-1 strictly down to 0, and BackBucket is the bucket printed last. The level printed with a boundary is the number of hexadecimal digits that spell it, down is one more than the largest next digit of a boundary that continues these digits (0 if there is none), and len is the number of items stored in the bucket.",
  "all maps reachable by any sequence of calls, all configurations and hash functions",
  "the output depends on every earlier call: which buckets were made, what was deleted and which types of items were stored",
  ["map.go:DumpEntry","map.go:DumpBucket","map.go:BackBucket","maphead.go:fromMapHead"])
p("An item in one goroutine's hands while others work on the map",
  "An item a goroutine got from LoadItem (or Range, First, Next) keeps its key and hashes while other goroutines work on the map; its value changes only when a Set of its key that answers true stores it there, it is deleted only when a Delete of its key that answers true does it, a deleted item does not come back to life, and items keep their order, so that going on from it with Next still leads to every item that was behind it.",
  "all schedules of any number of goroutines calling Get, Set, Delete and Range (with the bucket splits they cause), all histories before, all items of the map, all moments",
  "another goroutine's write may fall between any two steps of the holder; a test sees a few schedules",
  ["map.go:LoadItem","map.go:Set","map.go:Delete","map.go:add2","sample_hmap_entry.go:SetValue","sample_hmap_entry.go:Delete","item.go:Next"])
p("Without new keys no lock is needed",
  "Take a map filled by one goroutine, and a set of keys that are in it. From then on goroutines call Get for any keys, Set for keys of that set, Delete for keys outside it (each key deleted by one goroutine at a time) and Range, overlapping as they like, without any lock: all finished Get, Set and Delete calls can be put into one order that respects real time and in which each answers as on a plain map, and every Range shows, once each and in order, keys that were there when it began, among them all that are there when it ends.",
  "all histories before in which no key lies on a bucket boundary or shares its primary hash with another, all sets of keys present, all numbers of goroutines, all calls of the kinds named, all schedules, all search modes' choices of a bucket",
  "schedules cannot be enumerated; two overwrites of one key, a Delete and a Get meet in very many ways",
  ["map.go:Get","map.go:Set","map.go:Delete","map.go:_update","map.go:searchKey","map.go:getWithBucket"])
p("One writer and any number of readers, while no bucket is divided",
  "If Sets and Deletes are made one at a time and no bucket is divided meanwhile, any number of goroutines may call Get and Range without a lock: all finished Set, Get and Delete calls can be put into one order that respects real time and in which each answers as on a plain map.",
  "all histories before as in C102, all schedules without a split and with one writer at a time, any number of readers, all keys that lie on no boundary and share their hash with no other",
  "it is a statement about all interleavings of readers with every step of a writer",
  ["map.go:Get","map.go:Set","map.go:Delete","map.go:add2","map.go:find"])
p("Which calls can panic when goroutines overlap",
  "Take a map filled by one goroutine and let any number of goroutines call Get, Set, Delete and Range on it at the same time. No call panics as long as all values stored under one hash have one dynamic type and no call is made for a key whose hash is exactly the boundary of a bucket that is being made meanwhile.",
  "all histories before, all numbers of goroutines, all calls, all schedules (buckets divided at any moment), all choices of a bucket to search from",
  "a panic needs a particular meeting of a lookup with a half-made bucket; no finite set of schedules shows there is no other",
  ["map.go:Set","map.go:Get","map.go:_update","bucket.go:head","bucket.go:entry","map.go:_searchBybucket","sample_hmap_entry.go:SetValue"])
p("Item pool with manager goroutines: no item twice, no Set waits for ever",
  "With UseGoroutineInPool set before the option UsePool(true) is applied, any number of goroutines may Set new keys at the same time: no two of these Sets are given the same item, no manager goroutine crashes, and a Set that waits for its item can be served at every moment by the manager of its pool alone, whatever the other goroutines do or fail to do.",
  "all numbers of goroutines, all hashes, all schedules, all numbers of items handed out (less than 2^61)",
  "the pools with locks instead of managers fail under particular schedules only (C30, C49); that none does so here cannot be seen from runs",
  ["pool2.go:startMgr","pool2.go:idxMaagement","pool2.go:Get","map.go:UsePool","map.go:Set"])
p("DumpBucketPerLevel lists every bucket under its level",
  "For each level DumpBucketPerLevel prints, the lines are the buckets DumpBucket prints with this level, each once, from the largest boundary down.",
  "all histories, all reachable maps, all levels",
  "how the list of a level comes about depends on the order in which buckets of different regions are divided",
  ["map.go:DumpBucketPerLevel","map.go:findNextLevelBucket","map.go:makeBucket","map.go:bucketFromPool"])
p("Embedded: a split loses no key for other goroutines",
  "With UseEmbeddedPool(true), once Set(k) has answered true, every Get(k) that starts afterwards finds the key, whatever Sets of other goroutines run at the same time, including those that divide buckets; and a Get that finds a key does so because a Set has put it there.",
  "all schedules of any number of goroutines calling Set and Get, all keys, all MaxPefBucket values",
  "the loss needs a split between two instructions of another call",
  ["map_embedded.go:makeBucket2","map_embedded.go:_split","map_embedded.go:bsearchBybucket","map.go:Set","map.go:getWithBucket"])
p("Embedded: splits by several goroutines do not interfere",
  "With UseEmbeddedPool(true), when several goroutines' Sets divide buckets at the same time, no two of them work on one bucket's array at once, no call crashes, and no key whose Set has answered disappears from the arrays.",
  "all schedules of any number of goroutines calling Set and Get, all keys, all MaxPefBucket values",
  "needs two splits of one bucket interleaved instruction by instruction",
  ["map_embedded.go:makeBucket2","map_embedded.go:_split","map_embedded.go:findIdx","bucket.go:setItemPool","bucket.go:itemPool"])
p("Embedded: buckets are kept to MaxPefBucket keys",
  "With UseEmbeddedPool(true) and MaxPefBucket(n), after any history of Sets and lookups no bucket holds more than n keys.",
  "all histories of Set with string keys, Get, GetByHash, LoadItem, LoadItemByHash and Len, all hash functions, all MaxPefBucket values",
  "whether a bucket can be divided depends on where all its keys lie",
  ["map_embedded.go:makeBucket2","map_embedded.go:findIdx","map_embedded.go:_split","map.go:add2","map.go:MaxPefBucket"])
p("Embedded: a lookup reads few slots",
  "With UseEmbeddedPool(true), after any history of n operations a lookup that comes back reads at most log2(n) + 3 slots of its bucket's array.",
  "all histories, all hash functions, all MaxPefBucket values, all hashes looked up",
  "a benchmark shows the cost for the keys it draws; how deleted slots and the places of the keys add up is a statement about every array a history can leave",
  ["map_embedded.go:bsearchBybucket","map_embedded.go:_at","map.go:SearchKey","map.go:_get"])
p("Deleting gives nodes back",
  "Without the embedded pool, Delete and Purge take the key's node out of the map: the nodes a map holds on to are at most as many as the keys it holds, up to a constant.",
  "all histories, all hash functions, configurations and keys",
  "a test sees that a deleted key is gone from Get; that no history whatever makes the map let go of a node, and how many it then keeps, is a statement about all histories",
  ["map.go:Delete","map.go:Purge","map.go:add2","maphead.go:IsDeleted","sample_hmap_entry.go:Delete"])
p("Any key can be stored at any time",
  "Without the embedded pool, whatever happened before, for every key there are calls (a Set or StoreItem of it, if need be after Deletes) after which Get finds it.",
  "all reachable maps, all keys, all hash functions and configurations",
  "a test that misses a key once shows one bad history; that no later call whatever brings the key back is a statement about all continuations",
  ["map.go:_searchBybucket","map.go:_set","map.go:add2","map.go:_findBucket","map.go:initBeforeSet"])
p("Range depends on the content only",
  "What Range shows, and in which order, depends only on the keys and values the map holds: not on the order in which they were stored, on overwritten values, deleted keys, bucket splits, MaxPefBucket, BucketMode or pooling.",
  "all pairs of histories and configurations after which every Get answers alike",
  "a test compares two insertion orders; the claim relates every pair of histories of any length with equal content",
  ["map.go:RangeItem","map.go:Range","map.go:_set","map.go:add2","map_embedded.go:insertToPool"])
p("Calls that report no change leave no trace",
  "After a call that does not answer true (a read, a Set or StoreItem answering false, a Delete or Purge answering false, a refused call that panics because of the key's or value's type) every later call answers as if it had not been made.",
  "all reachable maps, all calls, all later sequences of calls",
  "a test probes a few keys after a failed call; the claim is about every later sequence of calls from every reachable state",
  ["map.go:Set","map.go:StoreItem","map.go:Get","map.go:Delete","map.go:_update","map_embedded.go:purgeInEmbedded"])
p("Buckets are made for stored keys only, one at a time",
  "A call adds no bucket to the bucket list, or exactly one, and then it stored a new key and answered true; the map never has more than 17 buckets plus one for each key counted by Len beyond MaxPefBucket.",
  "all histories of calls, all configurations, all keys",
  "a test counts buckets for one workload; the bound is for every history, also of adversarial hashes",
  ["map.go:makeBucket","map.go:_set","map.go:addBucket","map_embedded.go:makeBucket2"])
p("TestSet stores an item whatever bucket it is told",
  "TestSet(k, conflict, FindBucket(q), item) of a fresh item, if it comes back, answers true and GetByHash(k, conflict) then answers the item's value, while every other pair of hashes is answered as before; whatever buckets are told, Range stays in hash order.",
  "all maps without embedded pool made by calls and TestSets with any buckets, all k, conflict, q and items",
  "the one test of TestSet tells the right bucket and asks nothing afterwards; here every bucket is told, in every reachable map",
  ["map.go:TestSet","map.go:_set","map.go:add2","map.go:FindBucket"])
p("NextEntry and PrevEntry of a bucket are the neighbours of its boundary",
  "For the bucket FindBucket names, NextEntry answers an entry at or above the bucket's boundary and PrevEntry one at or below it, no key of the map lies strictly between, and if the bucket holds a key above its boundary NextEntry answers a live item, one that Range shows.",
  "all reachable maps without embedded pool and all reversed hashes",
  "no test calls NextEntry or PrevEntry; which node stands next to a boundary depends on every Set, Delete and split so far",
  ["bucket.go:NextEntry","bucket.go:PrevEntry","map.go:FindBucket"])
p("What Range shows, GetByHash finds, and the other way round",
  "For every item that RangeItem shows, GetByHash(KeyInHmap(), ConflictInHamp()) of it answers its value; every value GetByHash finds is that of an item RangeItem shows with these two hashes; and a pair of hashes no shown item has is not found.",
  "all maps without embedded pool made by calls and TestSets, all pairs of hashes",
  "tests look up keys they set; nothing compares the two views of a map, and they differ exactly in rare states (equal hashes, hashes on a boundary)",
  ["map.go:GetByHash","map.go:RangeItem","map.go:_get","map.go:_searchBybucket","maphead.go:KeyInHmap","maphead.go:ConflictInHamp"])
open("/verif/properties.jsonl","w").write("".join(json.dumps(x)+"\n" for x in P))
print(len(P))
