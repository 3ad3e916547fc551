{"id": "C01", "title": "Sequential map semantics (default and pooled mode)", "statement": "In a sequential history of Set, StoreItem, Get, GetByHash, LoadItem, LoadItemByHash, Delete, Purge on a map without the embedded pool, every lookup returns the value of the most recent successful Set/StoreItem of that key, and not-found if there was none or the key was deleted since; every Set/StoreItem/Delete returns what a plain map[key]value would make it return.", "quantifier": "all configurations (max per bucket, search mode, item type, pool on/off), all finite operation sequences, all keys and values", "why_tests_cant": "The result depends on every prior operation through bucket splits; a test fixes one history and one random hash seed.", "anchors": ["map.go:Set", "map.go:StoreItem", "map.go:Get", "map.go:_get", "map.go:getWithBucket", "map.go:_set", "map.go:Delete", "map.go:_searchBybucket"]}
{"id": "C02", "title": "Acknowledged insert is retrievable", "statement": "Whenever StoreItem (or Set) of a key returns true, an immediately following LoadItem/Get of that key finds it.", "quantifier": "all reachable maps, all keys including those whose bit-reversed hash is a bucket boundary or 2^64-1", "why_tests_cant": "Fails only for particular hash values (e.g. integer keys 0..15 or -1), which string-keyed tests with a random hash never produce.", "anchors": ["map.go:_set", "map.go:add2", "map.go:_searchBybucket", "util.go:inserBeforeWithCheck"]}
{"id": "C03", "title": "Keys with colliding primary hash stay distinct", "statement": "Two different keys that share the 64-bit primary hash but differ in the secondary (conflict) hash can both be stored and both be retrieved.", "quantifier": "all pairs of keys with equal primary and different secondary hash, all histories", "why_tests_cant": "64-bit collisions never occur in a test run.", "anchors": ["map.go:_get", "map.go:getWithBucket", "map.go:_searchBybucket"]}
{"id": "C04", "title": "Writes to one key do not disturb other keys", "statement": "Set/StoreItem/Delete of one key never changes what Get returns for any other key.", "quantifier": "all reachable maps, all pairs of keys with different primary hash", "why_tests_cant": "An insert can trigger bucket splits that touch the index of unrelated keys; all shapes must be covered.", "anchors": ["map.go:_set", "map.go:makeBucket", "map.go:Delete"]}
{"id": "C05", "title": "Deleted key is gone until set again", "statement": "After Delete(k) returns true Get(k) reports not found until the next Set/StoreItem of k, after which it is found again with the new value.", "quantifier": "all reachable maps without the embedded pool, all keys, all continuations", "why_tests_cant": "Deleted items physically stay in the list; all positions and interleavings with splits matter.", "anchors": ["map.go:Delete", "map.go:_searchBybucket", "item.go:Delete", "sample_hmap_entry.go:Delete"]}
{"id": "C06", "title": "Delete reports presence", "statement": "Delete(k) (and Purge without embedded pool) returns true exactly when k was retrievable (LoadItem finds it) just before the call; when it returns false the map is unchanged.", "quantifier": "all reachable maps, all keys", "why_tests_cant": "Quantifies over every reachable state.", "anchors": ["map.go:Delete", "map.go:Purge", "map.go:LoadItem"]}
{"id": "C07", "title": "Len counts live keys", "statement": "Len() equals the number of keys currently retrievable.", "quantifier": "all histories", "why_tests_cant": "Needs all histories, in particular deletes and re-inserts.", "anchors": ["map.go:Len", "map.go:_set", "map.go:Delete"]}
{"id": "C08", "title": "Range visits every live key exactly once, in hash order, and stops on demand", "statement": "RangeItem/Range call f exactly once for each live item, with its current value, in ascending order of bit-reversed hash, never for internal sentinels or deleted items, and stop right after f first returns false.", "quantifier": "all reachable maps, all callbacks", "why_tests_cant": "Requires the ordering invariant of the item list in every reachable state.", "anchors": ["map.go:RangeItem", "map.go:Range"]}
{"id": "C09", "title": "Item order invariant", "statement": "In every reachable map, walking items with Next() yields non-decreasing bit-reversed hashes, whatever items (even ones with a pre-set hash) were stored.", "quantifier": "all operation sequences, all items", "why_tests_cant": "A single mis-ordered insert silently hides keys; needs all insert positions.", "anchors": ["map.go:add2", "map.go:_set", "util.go:inserBeforeWithCheck", "map.go:_InsertBefore"]}
{"id": "C10", "title": "Bucket index is a strictly ordered, duplicate-free, complete partition", "statement": "In every reachable map the buckets listed by DumpBucket have strictly decreasing boundaries from 2^64-1 down to 0, and each one has its sentinel at the matching place in the item order.", "quantifier": "all operation sequences and configurations", "why_tests_cant": "Bucket splits depend on the whole history.", "anchors": ["map.go:makeBucket", "map.go:addBucket", "map.go:_InsertBefore", "map.go:initBeforeSet"]}
{"id": "C11", "title": "Buckets split hash space dyadically and the bucket trie mirrors it", "statement": "Every bucket interval has a power-of-two size aligned to its start; a split always cuts an interval at its midpoint; every bucket sits in the trie at the path spelled by the hex digits of its boundary, and splitting never livelocks.", "quantifier": "all operation sequences and configurations", "why_tests_cant": "Depth up to 64 splits on a path cannot be sampled.", "anchors": ["map.go:makeBucket", "map.go:bucketFromPool", "util.go:halfUint64"]}
{"id": "C12", "title": "Bucket lookup never overshoots", "statement": "For every hash FindBucket returns an initialised bucket whose boundary is not above the bit-reversed hash, and whose sentinel is linked in the item order.", "quantifier": "all reachable maps, all 2^64 hashes", "why_tests_cant": "2^64 hashes times all trie shapes.", "anchors": ["map.go:_findBucket", "map.go:FindBucket", "bucket.go:largestDown"]}
{"id": "C13", "title": "Search mode is only a performance knob", "statement": "Get/LoadItem return the same result whatever BucketMode is in effect, and whatever bucket the search starts from.", "quantifier": "all reachable maps with one live item per primary hash, all modes, all keys", "why_tests_cant": "Compares all start positions and directions of the search.", "anchors": ["map.go:searchBucket4Key4", "map.go:_searchBybucket", "map.go:BucketMode"]}
{"id": "C14", "title": "MaxPefBucket is only a performance knob", "statement": "Two maps that differ only in MaxPefBucket/BucketMode/pooling give identical outputs for the same history.", "quantifier": "all pairs of configurations, all histories", "why_tests_cant": "A relational property over two unbounded executions.", "anchors": ["map.go:MaxPefBucket", "map.go:_set", "map.go:makeBucket"]}
{"id": "C15", "title": "Storing never panics", "statement": "Set with a string key and a value of consistent type, and StoreItem with a fresh item, never panic or hang.", "quantifier": "all reachable maps, all keys", "why_tests_cant": "The panic needs a boundary 2^64-2, reached only after ~60 splits on one path.", "anchors": ["map.go:makeBucket", "map.go:Set", "map.go:StoreItem"]}
{"id": "C16", "title": "Nil values", "statement": "Set(k, nil) on a present key of the default item type returns false and changes nothing; on an absent key it returns true and Get(k) then returns (nil, true).", "quantifier": "all reachable maps, all keys", "why_tests_cant": "All reachable states.", "anchors": ["sample_hmap_entry.go:SetValue", "map.go:Set", "map.go:_update"]}
{"id": "C17", "title": "Value type changes are rejected loudly", "statement": "Set of a present key with a value of another dynamic type than the stored one panics, and leaves every key's value unchanged; it never stores silently.", "quantifier": "all reachable maps with the default (SampleItem) type in effect", "why_tests_cant": "All reachable states.", "anchors": ["sample_hmap_entry.go:SetValue", "map.go:_update"]}
{"id": "C18", "title": "Key hashing contract", "statement": "A string and a []byte with equal content address the same entry; distinct integers of one type never share a hash; integer keys of different types with equal 64-bit extension, and nil and integer 0, address the same entry; unsupported key types panic.", "quantifier": "all keys, any memhash/xxhash functions", "why_tests_cant": "Unbounded key domain.", "anchors": ["hashfn.go:KeyToHash", "hashfn.go:MemHash", "hashfn.go:MemHashString"]}
{"id": "C19", "title": "Options return their own undo", "statement": "Applying the OptHMap value returned by an option function restores the previous configuration.", "quantifier": "all configurations, all options", "why_tests_cant": "All pairs of prior configuration and option.", "anchors": ["map.go:MaxPefBucket", "map.go:BucketMode", "map.go:ItemFn", "map.go:UsePool", "map.go:UseEmbeddedPool", "map.go:Options"]}
{"id": "C20", "title": "Pool growth makes progress", "statement": "PoolCap(n) is strictly greater than n, at least 2, at most max(2n, n+64) for n>=1, and monotone, so that growing a full pool always makes room.", "quantifier": "all non-negative lengths representable without int64 overflow", "why_tests_cant": "Unbounded domain; the test samples twelve values.", "anchors": ["util.go:PoolCap", "util.go:intPow"]}
{"id": "C21", "title": "First and Last are sentinels", "statement": "In every reachable map First() and Last() return the sentinels with key-hash 0 and 2^64-1, never a user item.", "quantifier": "all reachable maps (no item with hash 2^64-1 stored after... any history)", "why_tests_cant": "All reachable states.", "anchors": ["map.go:First", "map.go:Last"]}
{"id": "C22", "title": "Embedded mode: map semantics without deletion", "statement": "In embedded-pool mode, for histories of Set and Get only, every operation that returns gives the same result as a plain map.", "quantifier": "all configurations, all finite Set/Get histories with distinct primary hashes", "why_tests_cant": "Depends on all shapes of pool growth, insertion shifting, and splits.", "anchors": ["map.go:Set", "map_embedded.go:bsearchBybucket", "map_embedded.go:getWithFn", "map_embedded.go:insertToPool", "map_embedded.go:expand", "map_embedded.go:makeBucket2", "map_embedded.go:_split"]}
{"id": "C23", "title": "Embedded mode: deleted key is gone", "statement": "In embedded-pool mode, after Delete(k) or Purge(k) returns true, Get(k) reports not found until k is set again.", "quantifier": "all reachable embedded maps, all keys", "why_tests_cant": "Depends on the slot position of the key.", "anchors": ["map.go:Delete", "map.go:purgeInEmbedded", "map_embedded.go:bsearchBybucket", "map_embedded.go:_at"]}
{"id": "C24", "title": "Embedded mode: Purge affects only its key", "statement": "In embedded-pool mode, Purge(k) does not change what Get returns for other keys.", "quantifier": "all reachable embedded maps, all keys", "why_tests_cant": "Depends on neighbouring slots' state.", "anchors": ["map.go:purgeInEmbedded", "map_embedded.go:shrinkLen"]}
{"id": "C25", "title": "Embedded mode: reuse of deleted slots is safe", "statement": "In embedded-pool mode, Set of a new key after earlier deletions does not make any other key unretrievable.", "quantifier": "all reachable embedded maps", "why_tests_cant": "Depends on exact arrangement of deleted slots.", "anchors": ["map_embedded.go:bsearchFromFreeList", "map_embedded.go:getWithFn", "map_embedded.go:state4get"]}
{"id": "C26", "title": "Embedded mode: operations terminate without crashing", "statement": "In embedded-pool mode no Get or Set with a string key crashes, overflows the stack or loops forever.", "quantifier": "all configurations, all histories", "why_tests_cant": "Needs a bucket whose items all fall on one side of its midpoint.", "anchors": ["map_embedded.go:makeBucket2", "bucket.go:itemPool", "map_embedded.go:appendLast"]}
{"id": "C27", "title": "Embedded mode: memory safety of the slot array", "statement": "In embedded-pool mode no operation accesses a slot index outside the pool's backing array.", "quantifier": "all histories including Delete", "why_tests_cant": "Out-of-range unsafe pointer reads do not fail a test deterministically.", "anchors": ["map_embedded.go:state4get", "map_embedded.go:_at", "map_embedded.go:shrinkLen"]}
{"id": "C28", "title": "Embedded mode: StoreItem is retrievable", "statement": "In embedded-pool mode StoreItem returning true makes the item retrievable.", "quantifier": "all reachable embedded maps, all fresh items", "why_tests_cant": "All reachable states.", "anchors": ["map.go:StoreItem", "map.go:_set"]}
{"id": "C29", "title": "Embedded mode: pool slots sorted and inside their bucket", "statement": "In embedded mode without deletions, every pool holds its keys in strictly increasing bit-reversed-hash order, all inside its bucket's interval, and binary search finds exactly the stored keys.", "quantifier": "all Set/Get histories", "why_tests_cant": "All shapes of splits.", "anchors": ["map_embedded.go:insertToPool", "map_embedded.go:_split", "map_embedded.go:findIdx"]}
{"id": "C30", "title": "Item pool never hands out a slot twice", "statement": "No two concurrent or successive pool allocations return the same slot, and no allocation returns a slot outside the current capacity.", "quantifier": "any number of goroutines, all schedules of the atomic steps", "why_tests_cant": "All interleavings.", "anchors": ["pool2.go:Get", "pool2.go:_expand", "map_embedded.go:appendLast"]}
{"id": "C31", "title": "Item pool preserves items when it grows", "statement": "Growing a pool keeps every item's key, value and hash at the same index and leaves at least one free slot.", "quantifier": "all pool contents", "why_tests_cant": "Unbounded contents.", "anchors": ["pool2.go:_expand", "map_embedded.go:expand", "map_embedded.go:CopyDataFrom"]}
{"id": "C32", "title": "Held items stay live", "statement": "An item obtained by LoadItem keeps denoting the map's entry: SetValue on it is visible to later Gets as long as the key is not deleted.", "quantifier": "all continuations after LoadItem", "why_tests_cant": "A later unrelated Set may relocate the slot array.", "anchors": ["map.go:LoadItem", "pool2.go:_expand", "map_embedded.go:insertToPool"]}
{"id": "C33", "title": "Concurrent inserts of different keys are both kept", "statement": "When two goroutines concurrently Set two different new keys and both calls return true, both keys are retrievable afterwards.", "quantifier": "all schedules of the atomic steps of Set", "why_tests_cant": "Needs a particular preemption between locating the position and linking.", "anchors": ["map.go:_set", "map.go:add2", "util.go:inserBeforeWithCheck"]}
{"id": "C34", "title": "Concurrent Sets of one new key create one entry", "statement": "When several goroutines concurrently Set the same new key, the map ends with one live entry for it, and later Set/Get agree.", "quantifier": "all schedules", "why_tests_cant": "Needs a preemption between lookup and insert.", "anchors": ["map.go:Set", "map.go:_loadItem", "map.go:_set"]}
{"id": "C35", "title": "Concurrent inserts keep existing keys visible", "statement": "A key that is present and not deleted is found by every Get that runs concurrently with any number of inserts and bucket splits performed as atomic list insertions, and the item order is preserved.", "quantifier": "any number of goroutines, all schedules of lookups, position searches and checked insertions", "why_tests_cant": "All interleavings.", "anchors": ["map.go:_searchBybucket", "map.go:add2"]}
{"id": "C36", "title": "Embedded mode: concurrent update is not lost", "statement": "In embedded mode, when Set of a present key returns true, a later Get returns that value (or a newer one), even if other goroutines insert keys meanwhile.", "quantifier": "all schedules", "why_tests_cant": "Needs a relocation between lookup and lock acquisition.", "anchors": ["map.go:Set", "map_embedded.go:insertToPool"]}
{"id": "C37", "title": "Per-bucket lock gives mutual exclusion", "statement": "In embedded mode the per-bucket lock is held by at most one writer, is released exactly once by its holder, and is never released by a non-holder.", "quantifier": "all schedules", "why_tests_cant": "All interleavings.", "anchors": ["map_embedded.go:getWithFn", "map_embedded.go:lazyUnlock", "map.go:Set"]}
{"id": "C38", "title": "Search options are restored", "statement": "The package-wide 'ignore bucket entries' option has its default value whenever no operation is in progress.", "quantifier": "all schedules of concurrent finds (on any maps in the process)", "why_tests_cant": "All interleavings.", "anchors": ["map.go:find", "map.go:sharedSearchOpt", "map.go:ignoreBucketEntry", "map.go:Options"]}
{"id": "C39", "title": "RMap: a set key stays found", "statement": "After RMap.Set(k, v) returns, every later RMap.Get(k) returns ok=true as long as no Delete is called.", "quantifier": "all Set/Get histories", "why_tests_cant": "Promotions between the read map and the dirty map depend on the miss counter history.", "anchors": ["rmap/rmap.go:Set2", "rmap/rmap.go:Get2", "rmap/rmap.go:storeReadFromDirty", "rmap/rmap.go:missLocked"]}
{"id": "C40", "title": "RMap: Get returns the last value set", "statement": "RMap.Get(k) returns the value passed to the most recent RMap.Set(k, v).", "quantifier": "all Set/Get histories", "why_tests_cant": "Depends on promotion history.", "anchors": ["rmap/rmap.go:Get2", "rmap/rmap.go:store2"]}
{"id": "C41", "title": "RMap: Get of an absent key returns not found", "statement": "RMap.Get of a key never set returns (nil,false) and does not panic.", "quantifier": "all histories", "why_tests_cant": "Depends on promotion state.", "anchors": ["rmap/rmap.go:Get2", "rmap/rmap.go:getDirty"]}
{"id": "C42", "title": "RMap: Delete removes the key", "statement": "RMap.Delete(k) of a present key returns true, does not panic or deadlock, and Get(k) then reports not found.", "quantifier": "all histories", "why_tests_cant": "Depends on promotion state and lock state.", "anchors": ["rmap/rmap.go:Delete", "rmap/rmap.go:missLocked", "rmap/rmap.go:storeReadFromDirty"]}
{"id": "C43", "title": "RMap: Len counts keys", "statement": "RMap.Len() is the number of keys currently retrievable.", "quantifier": "all histories", "why_tests_cant": "Depends on promotion history.", "anchors": ["rmap/rmap.go:Len", "rmap/rmap.go:initDirty"]}
{"id": "C44", "title": "RMap: promotion loses nothing", "statement": "Promoting the dirty map into the read map keeps every key of both, for every promotion point.", "quantifier": "all histories, all promotion points", "why_tests_cant": "Depends on the whole history.", "anchors": ["rmap/rmap.go:storeReadFromDirty"]}
{"id": "C45", "title": "Setup-prepared items are retrievable", "statement": "An item prepared with SampleItem.Setup() and then stored with StoreItem is retrievable by its key.", "quantifier": "all keys", "why_tests_cant": "Fails depending on the bit pattern of the hash.", "anchors": ["sample_hmap_entry.go:Setup", "map.go:_set"]}
{"id": "C46", "title": "Hash order arithmetic", "statement": "Bit reversal of a hash is an involution; the sixteen initial buckets are exactly the multiples of 2^60; midpoints and nearest-bucket choice never overflow and stay between their arguments.", "quantifier": "all 64-bit values", "why_tests_cant": "2^64 domain.", "anchors": ["util.go:absDiffUint64", "util.go:nearUint64", "util.go:halfUint64", "map.go:initBeforeSet", "map.go:levelMask", "map.go:toMask", "map.go:toMaskR", "map.go:reverse2Index"]}
{"id": "C47", "title": "Mixed item types keep their keys", "statement": "Items returned by LoadItem/RangeItem report through Key() the key they were stored with.", "quantifier": "all histories of Set and StoreItem with either item type and any ItemFn", "why_tests_cant": "Depends on the sequence of item types and on the ItemFn in force.", "anchors": ["map.go:RangeItem", "map.go:ItemFn", "map.go:Set", "item.go:HmapEntryFromListHead"]}
{"id": "C48", "title": "Error identity", "statement": "The package's error values carry pairwise distinct, non-zero numbers, each a single bit.", "quantifier": "all pairs of error kinds", "why_tests_cant": "Complete finite table.", "anchors": ["error.go:NewError", "error.go:ErrorNum"]}
{"id": "C49", "title": "Pooled Set returns", "statement": "With UsePool(true), an allocation for Set neither crashes nor waits for ever, whatever other goroutines do with the same map.", "quantifier": "any number of goroutines, all schedules of the atomic steps of the allocator", "why_tests_cant": "Needs a preemption exactly at the last free slot of a pool.", "anchors": ["pool2.go:Get", "pool2.go:_expand"]}
{"id": "C50", "title": "Embedded: Len counts keys", "statement": "With UseEmbeddedPool(true), Len() is the number of keys currently retrievable.", "quantifier": "all histories", "why_tests_cant": "Depends on the whole history of insertions and removals.", "anchors": ["map.go:Len", "map.go:Set", "map_embedded.go:insertToPool"]}
{"id": "C51", "title": "Embedded: a new key that was set is found", "statement": "With UseEmbeddedPool(true), a Set of a key that is not in the map and that answers true makes the key retrievable with the value given, also when keys were deleted or purged before.", "quantifier": "all histories, all keys and values", "why_tests_cant": "Depends on which deleted slot is handed out again.", "anchors": ["map.go:Set", "bucket.go:GetItem", "map.go:Set"]}
{"id": "C52", "title": "Embedded: LoadItem's item carries the key", "statement": "With UseEmbeddedPool(true), the item LoadItem returns reports through Key() a key with the hashes of the one that was asked for.", "quantifier": "all histories, all keys", "why_tests_cant": "Depends on relocation and reuse of slots.", "anchors": ["map.go:LoadItem", "map.go:_get", "sample_hmap_entry.go:Key"]}
{"id": "C53", "title": "Range runs safely beside writers", "statement": "A Range that runs concurrently with Sets, Deletes and bucket splits shows pairwise different items in hash order, each of which was in the map and not deleted at some moment of the Range, and shows every item that was in the map before it started and is not deleted when it ends.", "quantifier": "any number of goroutines, all schedules", "why_tests_cant": "All interleavings of the traversal with insertions and deletions.", "anchors": ["map.go:RangeItem", "map.go:add2", "sample_hmap_entry.go:Delete"]}
{"id": "C54", "title": "Maps of one process are independent", "statement": "What another goroutine does with another map does not change the outcome of an operation on this one.", "quantifier": "any two maps of a process, all schedules", "why_tests_cant": "Needs two position searches on different maps to overlap in a particular way.", "anchors": ["map.go:find", "map.go:sharedSearchOpt", "map.go:Options"]}
{"id": "C55", "title": "Concurrent Get never invents a value", "statement": "A Get that answers ok answers with a value that an entry with the key's two hashes had at some moment of the call; otherwise it answers (nil, false).", "quantifier": "any number of goroutines, all schedules", "why_tests_cant": "All interleavings.", "anchors": ["map.go:GetByHash", "map.go:_searchBybucket"]}
{"id": "C56", "title": "Embedded: keys set concurrently are there afterwards", "statement": "With UseEmbeddedPool(true), after Sets of new keys by several goroutines have all returned true, a Get of each key answers with the value given (the last one written).", "quantifier": "any number of goroutines, all schedules, all keys and values", "why_tests_cant": "All interleavings of insertions with array replacement.", "anchors": ["map.go:Set", "map_embedded.go:appendLast", "map_embedded.go:insertToPool", "map.go:Set"]}
{"id": "C57", "title": "Embedded: a present key is found whatever others set", "statement": "With UseEmbeddedPool(true), a Get of a key that was set before and that nobody else sets, deletes or purges answers with its value, whatever other keys other goroutines set meanwhile.", "quantifier": "any number of goroutines, all schedules", "why_tests_cant": "All interleavings of the binary search with insertions.", "anchors": ["map.go:getWithBucket", "map_embedded.go:insertToPool", "map.go:bsearchBybucket"]}
{"id": "C58", "title": "Embedded: a concurrent Delete is not lost", "statement": "With UseEmbeddedPool(true), after a Delete that returned true, a Get of the key that starts when no Set of this key is running answers not found.", "quantifier": "any number of goroutines, all schedules", "why_tests_cant": "All interleavings of the mark with array replacement.", "anchors": ["map.go:Delete", "sample_hmap_entry.go:Delete", "map_embedded.go:insertToPool"]}
{"id": "C59", "title": "Reads never invent values or keys", "statement": "Whatever Get, GetByHash, LoadItem, LoadItemByHash, Range or RangeItem shows as a value was handed to an acknowledged Set or StoreItem for exactly the two hashes it is shown under, and a key shown was handed over by an acknowledged Set or StoreItem filed under these hashes; under hash collisions, hashes preset by the caller, crashed calls and any callback.", "quantifier": "all configurations, hash functions and histories, all keys, values and callbacks; no side condition", "why_tests_cant": "A test only sees the histories it runs; the guarantee has to hold for arbitrarily colliding hash functions and any mixture of calls.", "anchors": ["map.go:Get", "map.go:GetByHash", "map.go:LoadItem", "map.go:LoadItemByHash", "map.go:RangeItem", "map.go:Set", "map.go:StoreItem"]}
{"id": "C60", "title": "Every acknowledged Delete takes one store back", "statement": "For each pair of hashes, acknowledged Deletes never outnumber the acknowledged stores of an absent key, and when they are equally many the pair is absent from Get, LoadItem and Range.", "quantifier": "all configurations, hash functions and histories; no side condition", "why_tests_cant": "Quantifies over all histories, including colliding and preset hashes.", "anchors": ["map.go:Delete", "map.go:Set", "map.go:StoreItem"]}
{"id": "C61", "title": "RMap.Get never invents a value", "statement": "A non-nil value answered by RMap.Get comes with ok and was handed to an acknowledged RMap.Set for a key with the same two hashes, whatever promotions, Deletes, collisions and crashed calls happened.", "quantifier": "all hash functions and histories of Set, Get, Delete and Len; no side condition", "why_tests_cant": "Promotion happens at points that depend on the whole history; collisions in the read map cannot be enumerated.", "anchors": ["rmap/rmap.go:Get2", "rmap/rmap.go:Set2", "rmap/rmap.go:Delete", "rmap/rmap.go:storeReadFromDirty"]}
{"id": "C62", "title": "Embedded: reads never invent a value", "statement": "With UseEmbeddedPool(true), every non-nil value that Get, GetByHash, LoadItem or LoadItemByHash shows was handed to an acknowledged Set or StoreItem of the history.", "quantifier": "all hash functions, bucket sizes and histories; no side condition: deletions, purges, reused slots, splits, collisions, crashed and panicking calls included", "why_tests_cant": "The slot arrays are copied, shifted, cut and reused; a test sees only a few of these histories.", "anchors": ["map.go:Get", "map.go:Set", "map.go:StoreItem", "map_embedded.go:insertToPool", "map_embedded.go:expand", "map_embedded.go:_split", "map_embedded.go:getWithFn"]}
{"id": "C63", "title": "Embedded: values belong to their key", "statement": "With UseEmbeddedPool(true), a value shown for a key was handed to an acknowledged Set or StoreItem for a key with the same two hashes.", "quantifier": "all histories of Set, StoreItem, Get, LoadItem, Delete, Purge and Len", "why_tests_cant": "Whether a slot keeps parts of an earlier owner depends on the whole history of deletions and reuse.", "anchors": ["map.go:Set", "map_embedded.go:getWithFn", "map.go:purgeInEmbedded", "sample_hmap_entry.go:SetValue"]}
{"id": "C64", "title": "Embedded: an update changes exactly its key's value", "statement": "With UseEmbeddedPool(true), Set or StoreItem of a non-nil value for a key that LoadItem finds, with the stored value nil or of the same type, answers true; afterwards Get and LoadItem show the new value for this key, and for every other pair of hashes what they showed before, and Len is the same. With a nil value it answers false and with a value of another type it panics; either way nothing changes.", "quantifier": "every state reachable by any history, every key and value; no side condition", "why_tests_cant": "The states include those in which deletions, purges and collisions have already damaged the slot arrays.", "anchors": ["map.go:Set", "map.go:StoreItem", "map.go:_update", "sample_hmap_entry.go:SetValue"]}
{"id": "C65", "title": "Calls never wait for each other and take a bounded number of steps", "statement": "Apart from the split a Set may carry out at its end (C68): with any number of goroutines calling Get, Set, Delete and Range on a map without embedded pool, beside running splits: a call in progress can always take its next step wherever the other goroutines are stopped (mutexes only enclose single accesses of the search option), it completes by its own steps alone even if all others stop for ever, and whatever they do it takes at most a number of its own steps linear in the number of nodes of the list.", "quantifier": "any number of goroutines, all schedules, all states reachable from any sequential history", "why_tests_cant": "A deadlock or a livelock needs one particular interleaving; absence quantifies over all of them.", "anchors": ["map.go:getWithBucket", "map.go:_searchBybucket", "map.go:find", "map.go:_set", "map.go:add2", "map.go:RangeItem", "util.go:inserBeforeWithCheck"]}
{"id": "C66", "title": "A split in progress changes no answer", "statement": "While a bucket is being split, and nothing else changes: a Get, LoadItem or Delete of a key that is in the map finds it, a Set that answers true has stored its value, and no call panics.", "quantifier": "all sequential histories before, any number of goroutines, all schedules of the calls and the split", "why_tests_cant": "The window between publishing the new bucket and linking its sentinel lasts a few instructions; a test practically never hits it.", "anchors": ["map.go:bucketFromPool", "map.go:_findBucket", "map.go:makeBucket", "bucket.go:head", "bucket.go:entry", "map.go:_searchBybucket", "map.go:add2"]}
{"id": "C67", "title": "One goroutine sets a new bucket up", "statement": "When calls of several goroutines split the same region at the same time, each new bucket is initialised and its sentinel linked by exactly one of them.", "quantifier": "any number of goroutines splitting and looking up, all schedules, every bucket of a group of siblings", "why_tests_cant": "A second set-up needs two splits of the same bucket within a few instructions of each other.", "anchors": ["map.go:bucketFromPool", "map.go:makeBucket"]}
{"id": "C68", "title": "A split always ends", "statement": "A Set that splits a bucket returns: whatever splits other goroutines carry out or have carried out, the split can finish, and once it has started nothing can make it wait for ever.", "quantifier": "any number of goroutines splitting and looking up, all schedules", "why_tests_cant": "A wait without end needs one particular interleaving; absence quantifies over all of them.", "anchors": ["map.go:bucketFromPool", "map.go:makeBucket", "map.go:_set"]}
{"id": "C69", "title": "Lookups of buckets are monotone under splits", "statement": "A call that looks for the bucket of its key while other goroutines add buckets gets a bucket not behind the key and at least as close to it as every bucket that could be found when the lookup began; it gets it after a bounded number of its own steps; and if the sentinel of that bucket is not linked yet, a later sibling exists.", "quantifier": "any number of goroutines splitting and looking up, all schedules, all keys", "why_tests_cant": "The group of siblings is read field by field while it grows; every interleaving of the reads with the stores matters.", "anchors": ["map.go:_findBucket", "map.go:bucketFromPool", "bucket.go:level", "bucket.go:ptrDownLevels"]}
{"id": "C70", "title": "RMap under concurrency: Get never invents a value", "statement": "With any number of goroutines calling Set, Get and Delete of an RMap, a non-nil value answered by Get was handed to a Set of a key with the same two hashes that had been called before.", "quantifier": "any number of goroutines, all schedules, all behaviours of the underlying maps that C01-C05 and C33-C35 leave open", "why_tests_cant": "A torn or foreign value would need one particular interleaving of promotion, update and read.", "anchors": ["rmap/rmap.go:Get2", "rmap/rmap.go:Set2", "rmap/rmap.go:storeReadFromDirty"]}
{"id": "C71", "title": "RMap under concurrency: a present key is found", "statement": "A Get of a key that is present before, during and after the call answers (its value, true) and does not panic, whatever other goroutines do.", "quantifier": "any number of goroutines, all schedules, all keys", "why_tests_cant": "The windows in which a promotion can overtake a Get are a few instructions wide.", "anchors": ["rmap/rmap.go:Get2", "rmap/rmap.go:getDirty", "rmap/rmap.go:storeReadFromDirty"]}
{"id": "C72", "title": "RMap under concurrency: a promoted key answers the same for ever", "statement": "Once a key has been promoted, the map has come to rest and the dirty map has no newer item for it, every later Get of the key answers the value it had at that moment: later Sets of it are acknowledged and ignored, and no Set, Get, Delete or promotion of any goroutine changes the answer.", "quantifier": "any number of goroutines, all schedules, all keys, any later calls", "why_tests_cant": "Ranges over every later history and interleaving.", "anchors": ["rmap/rmap.go:Get2", "rmap/rmap.go:Set2", "rmap/rmap.go:store2"]}
{"id": "C73", "title": "RMap under concurrency: calls do not wait for ever", "statement": "A call of an RMap returns after a bounded number of its own steps, and the goroutines never all wait for the lock.", "quantifier": "any number of goroutines, all schedules", "why_tests_cant": "Deadlock and livelock freedom quantify over all schedules.", "anchors": ["rmap/rmap.go:storeReadFromDirty", "rmap/rmap.go:Delete", "rmap/rmap.go:missLocked"]}
{"id": "C74", "title": "RMap under concurrency: an acknowledged Set is not lost", "statement": "After Set(k, v) has returned true, k stays stored until a Delete of it is called, whatever promotions other goroutines carry out.", "quantifier": "any number of goroutines, all schedules, all keys", "why_tests_cant": "A lost key needs a store between two steps of a promotion.", "anchors": ["rmap/rmap.go:Set2", "rmap/rmap.go:storeReadFromDirty", "rmap/rmap.go:initDirty"]}
{"id": "C75", "title": "Embedded pool: Range goes through the map", "statement": "In a map made with UseEmbeddedPool(true) the pairs Range visits are exactly those the map holds, each once, in strictly ascending order of the bit-reversed hash; it stops early only after a callback that answered false.", "quantifier": "all histories of Set, Get, Delete and Purge, all keys, all hash functions, all callbacks, all bucket sizes", "why_tests_cant": "The list runs through arrays that are shifted, copied and split; which of these happen depends on the whole history and on hashes nobody chooses.", "anchors": ["map.go:RangeItem", "map.go:Range", "map.go:add2", "map_embedded.go:insertToPool", "map_embedded.go:expand", "map_embedded.go:_split", "map.go:addBucket"]}
{"id": "C76", "title": "Embedded pool: First and Last are not items", "statement": "In a map made with UseEmbeddedPool(true) First and Last always answer the two entries made with the map, with reversed hashes 0 and 2^64-1, never an item with a key.", "quantifier": "all histories", "why_tests_cant": "Every insertion and every split could put something before the first or behind the last entry.", "anchors": ["map.go:First", "map.go:Last", "map.go:initBeforeSet", "map.go:add2"]}
{"id": "C77", "title": "A Get after a finished Set never answers an older value", "statement": "In a map used by several goroutines (without embedded pool): once Set(k, v) has answered true, and as long as no other Set of k runs, every Get of k by any goroutine that finds k answers v; it does find k if the entry is not deleted meanwhile.", "quantifier": "all schedules, any number of goroutines, all histories before, all keys and values, whatever other keys are set, deleted, ranged over or split in between", "why_tests_cant": "The older value can come back only through a particular interleaving of list insertions, possibly many calls earlier.", "anchors": ["map.go:Set", "map.go:_set", "map.go:Get", "map.go:getWithBucket", "map.go:add2", "map.go:_update"]}
{"id": "C78", "title": "A deleted key stays deleted", "statement": "In a map used by several goroutines (without embedded pool): once Delete(k) has answered true, and as long as no Set of k runs, every Get of k answers not found and no Range begun afterwards visits k.", "quantifier": "all schedules, any number of goroutines, all histories before, all keys, whatever happens to other keys", "why_tests_cant": "A second entry of the key may be hidden in the list and come to light when an unrelated key is deleted.", "anchors": ["map.go:Delete", "map.go:Get", "map.go:RangeItem", "map.go:getWithBucket", "map.go:add2"]}
{"id": "C79", "title": "A key is deleted once", "statement": "In a map used by several goroutines (without embedded pool): of two Deletes of k without a Set of k in between at most one answers true.", "quantifier": "all schedules, any number of goroutines, all histories before, all keys", "why_tests_cant": "Only interleavings between the lookup and the marking of the entry, or an earlier race of insertions, show the difference.", "anchors": ["map.go:Delete", "map.go:getWithBucket"]}
{"id": "C80", "title": "A key is not affected by what goes wrong with other keys", "statement": "In a map without embedded pool, take a key k such that no other stored key has its primary hash, no item is brought along with its reversed hash already set, and whose primary hash is not a bucket boundary when it is stored (true if it is at least 2^(4+D), where D is the number of stores of any key beyond MaxPefBucket). Then every Set, StoreItem, Get, GetByHash, LoadItem and Delete of k is answered as by a plain map that sees only these calls \u2014 however many other keys collide with each other, lie on boundaries, are lost, or were prepared with Setup. (If k is given to StoreItem while string keys are given to Set, with the item type SampleItem.)", "quantifier": "all sequential histories without a bucketHeadEmpty crash, all keys and hash functions, all configurations", "why_tests_cant": "The faults of C01 to C05 concern particular pairs of hashes; that they never reach a third key is a statement about all lists the map can be in.", "anchors": ["map.go:Set", "map.go:Get", "map.go:Delete", "map.go:getWithBucket", "map.go:add2", "map.go:makeBucket", "item.go:SetValue"]}
{"id": "C81", "title": "With spread hashes the map is a plain map", "statement": "If at most M stores agree on the low 4+j bits of their primary hash (j+M at most 58), every primary hash is at least 2^(4+j+M) and not 2^64-1, no two keys share the primary hash and items are fresh, then every call is answered as by a plain map, no call crashes with bucketHeadEmpty, and MaxPefBucket, BucketMode and pooling make no difference.", "quantifier": "all sequential histories of any length of a map without embedded pool, all hash functions, all pairs of configurations with the same item type", "why_tests_cant": "No finite set of keys shows that deeper and deeper splits never produce a boundary on a stored key or the crash.", "anchors": ["map.go:Set", "map.go:Get", "map.go:Delete", "map.go:makeBucket", "map.go:findBucket"]}
{"id": "C82", "title": "Embedded pool: load first, then delete only keys between neighbours that stay", "statement": "In a map with embedded pool, a program that first stores all its string keys (values of one type, at most MaxPefBucket keys with the same four lowest hash bits, no two keys with the same primary hash) and afterwards only reads, stores loaded keys again with values of that type, and deletes keys that have, among the keys with the same four lowest hash bits, a smaller and a larger one (in the order of the reversed hash) that are never deleted, gets the answers of a plain map, never crashes, and its Range shows exactly the keys that are there, each once, in order.", "quantifier": "all programs of this shape, any number of keys, deletions and re-stores, all hash functions, all MaxPefBucket at least 1", "why_tests_cant": "The defects of C23 to C27 depend on where the deleted slot stands; that a deleted slot between two that stay is always the one used again, is a statement about every order of the calls.", "anchors": ["map_embedded.go:bsearchFromFreeList", "map_embedded.go:appendLast", "map.go:Set", "map.go:Delete", "map.go:Get"]}
{"id": "C83", "title": "SearchKey finds a key by its primary hash", "statement": "SearchKey(k) answers nil exactly when no key in the map has primary hash k, and otherwise an item that is in the map and has that hash.", "quantifier": "all histories, all hashes k, all search modes and configurations (without embedded pool)", "why_tests_cant": "Whether the search may start behind the item depends on where the bucket boundaries lie after every possible sequence of splits.", "anchors": ["map.go:SearchKey", "map.go:searchKey", "map.go:searchBucket4Key4", "map.go:_searchBybucket"]}
{"id": "C84", "title": "Range with a callback that changes the map", "statement": "A callback of Range or RangeItem may call Set, StoreItem, Get, Delete and so on on the same map. No item is shown twice; items come in the order of the reversed hash, each as it is in the map at that moment; when Range comes to its end every item that was there before and is there afterwards has been shown, in particular every key nobody deleted; and the callback is called at most as often as there were items plus the number by which Len grew.", "quantifier": "all histories before the Range, all callbacks (deciding by what they saw what to call and whether to go on), all numbers of calls", "why_tests_cant": "The list is changed around the cursor by the callback itself; tests try a few callbacks.", "anchors": ["map.go:RangeItem", "map.go:Range", "map.go:Set", "map.go:Delete", "map.go:makeBucket"]}
{"id": "C85", "title": "An item that is held stays a place to go on from", "statement": "Next and Prev of an item lead to its neighbours in the order of the reversed hash and are inverse to each other; after any further Sets, Deletes and splits an item the caller holds (deleted or not) is still linked, what was ahead of it is still ahead and what was behind it still behind.", "quantifier": "all histories before and after the item was obtained, all items", "why_tests_cant": "Every later call may relink the neighbours; the claim is about all of them.", "anchors": ["item.go:Next", "item.go:Prev", "sample_hmap_entry.go:Next", "sample_hmap_entry.go:Prev", "map.go:add2", "map.go:Delete"]}
{"id": "C86", "title": "Range shows a key at most once and ends", "statement": "Whatever the callback of Range does to the map, no key is shown twice, and Range ends; ranging over a map and deleting every key shown leaves it empty.", "quantifier": "all histories, all callbacks that change the map", "why_tests_cant": "Depends on where an item that is set again during the Range is linked relative to the cursor.", "anchors": ["map.go:RangeItem", "map.go:Range", "map.go:_set", "map.go:add2", "map.go:Delete"]}
{"id": "C87", "title": "Len under concurrency", "statement": "Whatever goroutines do beside each other: Len never decreases, it grows by exactly the number of Sets of new keys that were answered true, it is never below the number of keys in the map whose Set has returned, and once all calls have returned and nothing was deleted it is the number of keys a Range shows.", "quantifier": "all schedules of any number of goroutines calling Set, Get, Delete, Range and splitting buckets; all histories before", "why_tests_cant": "The counter is a separate word added to after the item was linked; a test sees one interleaving.", "anchors": ["map.go:Len", "map.go:AddLen", "map.go:_set", "map.go:add2", "util.go:inserBeforeWithCheck"]}
{"id": "C88", "title": "Embedded pool: SearchKey finds a key by its primary hash", "statement": "With UseEmbeddedPool(true), SearchKey(k) answers nil exactly when the map holds no key with primary hash k; otherwise the item it hands out has that hash and is the one the map holds, with its current value; and SearchKey and Get agree.", "quantifier": "all histories, all hashes k, all bucket sizes", "why_tests_cant": "SearchKey hands out what the binary search over an array with deleted slots ends at, without comparing hashes again; whether that can be another key depends on every order in which slots were filled, deleted and reused.", "anchors": ["map.go:SearchKey", "map_embedded.go:searchKeyFromEmbeddedPool", "map_embedded.go:bsearchBybucket", "map_embedded.go:_at"]}
{"id": "C89", "title": "Embedded pool: Range with a callback that changes the map", "statement": "With UseEmbeddedPool(true), a callback of Range may read the map, delete keys and set keys that are there. No key is shown twice; keys come in the order of the reversed hash, each with the value it has at that moment; when Range comes to its end every key still there was shown; the next Range goes through what is left; ranging and deleting every key shown leaves nothing.", "quantifier": "all histories before the Range, all callbacks (deciding by what they saw what to call and whether to go on)", "why_tests_cant": "The slots are changed around the cursor by the callback itself, in any of the states a history can lead to.", "anchors": ["map.go:RangeItem", "map.go:Range", "map.go:Delete", "map.go:Set", "sample_hmap_entry.go:Delete"]}
{"id": "C90", "title": "Options changed on a map in use change no answers", "statement": "Calling Options with MaxPefBucket, BucketMode or UsePool on a map in use, at any points of a history, changes no output of any call (results, values, keys, Len, Range), and makes no call panic; with ItemFn calls in between, answers are those of a plain map with that item type from there on.", "quantifier": "all histories of calls and option changes, all configurations", "why_tests_cant": "Which buckets exist at each moment, and from which of them each search starts, depends on every setting in force at every earlier store.", "anchors": ["map.go:Options", "map.go:MaxPefBucket", "map.go:BucketMode", "map.go:UsePool", "map.go:ItemFn"]}
{"id": "C91", "title": "Items in the caller's hands and calls on the map form one consistent whole", "statement": "An item obtained from LoadItem or passed to StoreItem (and inserted) is the entry of its key until the key is deleted: Value() is what Get answers, SetValue and Delete on it are Set and Delete of the key. Once the key was deleted, in whichever way, the item stays readable and writable by itself, and nothing done to it reaches the map, also when the key is set again.", "quantifier": "all histories of calls on the map and of Value, SetValue, Delete on any number of items in hand, in any order", "why_tests_cant": "Every combination of stale and current items with deletes, re-sets and splits in between.", "anchors": ["map.go:LoadItem", "map.go:StoreItem", "item.go:SetValue", "item.go:Delete", "sample_hmap_entry.go:SetValue", "sample_hmap_entry.go:Delete", "sample_hmap_entry.go:Value"]}
{"id": "C92", "title": "The calls on one key are linearizable", "statement": "The finished Set, Get and Delete calls on one key, made by any number of goroutines, can be put into one order that respects real time (a call that returned before another began comes first) and in which every call answers what it would answer if they were made one after the other on a plain map.", "quantifier": "all schedules of any number of goroutines calling Set, Get, Delete, Range on this and other keys, with splits going on, after every history", "why_tests_cant": "The histories of overlapping calls are unbounded; a test sees a few interleavings and no order to compare with.", "anchors": ["map.go:Set", "map.go:Get", "map.go:Delete", "map.go:_set", "map.go:find", "item.go:SetValue", "item.go:Delete"]}
{"id": "C93", "title": "The map as a whole is linearizable", "statement": "The finished Set, Get and Delete calls on all keys, made by any number of goroutines, can be put into one order that respects real time and in which every call answers what it would answer if the calls were made one after the other on a plain map that holds what the history before left in it.", "quantifier": "all schedules of any number of goroutines calling Set, Get, Delete, Range on any keys, with splits going on, after every history", "why_tests_cant": "The histories of overlapping calls are unbounded; a test sees a few interleavings and no order to compare with.", "anchors": ["map.go:Set", "map.go:Get", "map.go:Delete", "map.go:_set", "map.go:find", "map.go:makeBucket", "item.go:SetValue", "item.go:Delete"]}
{"id": "C94", "title": "One writer and any number of readers", "statement": "If Set and Delete calls are made one at a time (for example under a lock of the caller), any number of goroutines may call Get and Range at any moment without that lock: all finished Set, Get and Delete calls can be put into one order that respects real time and in which each answers as on a plain map.", "quantifier": "all schedules in which no two of Set, Delete and the bucket splits they start overlap, with any number of overlapping Gets and Ranges, after every history", "why_tests_cant": "The readers overlap the single writer at every one of its steps, in unboundedly many combinations.", "anchors": ["map.go:Set", "map.go:Get", "map.go:Delete", "map.go:find", "map.go:_set", "map.go:add2", "map.go:makeBucket", "util.go:inserBeforeWithCheck", "bucket.go:head"]}
{"id": "C95", "title": "Embedded bucket: Sets and Gets are linearizable", "statement": "Overlapping Set and Get calls on an embedded bucket behave as if made one at a time: the finished calls, and some of those still running, can be put into one order in which no call precedes one that had returned before it began, and in which each answers as on a plain map.", "quantifier": "all schedules of any number of goroutines calling Set and Get, on keys with distinct non-zero hashes, on one embedded bucket", "why_tests_cant": "A Get searches an array a Set is filling at that moment, a Set may move every item to a new array meanwhile; no test covers the orders.", "anchors": ["map_embedded.go:getWithFn", "map_embedded.go:appendLast", "map_embedded.go:insertToPool", "map_embedded.go:expand", "map_embedded.go:_set"]}
{"id": "C96", "title": "Calls that do not overlap behave as one goroutine", "statement": "If the calls made by several goroutines never overlap in time, every Get, Set, Delete and Range answers what it would answer if one goroutine had made them all, and the map ends in the same state.", "quantifier": "all histories of Get, GetByHash, Set, Delete and Range calls, all ways to spread them over goroutines, all search modes and bucket sizes", "why_tests_cant": "A test makes its calls from the goroutine that runs it; whether the step-by-step code equals the call as a whole is a statement about every state it can start from.", "anchors": ["map.go:Get", "map.go:Set", "map.go:_set", "map.go:Delete", "map.go:find", "map.go:add2", "map.go:_searchBybucket", "map.go:RangeItem"]}
{"id": "C97", "title": "FindBucket finds the nearest bucket", "statement": "For every hash FindBucket answers with the nearest bucket: no bucket of the map has a boundary that is greater and still not above the bit-reversed hash. (A Set splits the bucket it is told, and a lookup walks from there, so this is what keeps walks short.)", "quantifier": "all reachable maps, all 2^64 hashes", "why_tests_cant": "2^64 hashes times all trie shapes; the exception needs a bucket at the last of sixteen trie levels, some sixty splits deep.", "anchors": ["map.go:_findBucket", "map.go:FindBucket", "bucket.go:largestDown", "bucket.go:NextOnLevel"]}
{"id": "C98", "title": "A lookup looks at its own bucket only", "statement": "A lookup does not walk through the map: Get, LoadItem and Delete (and the lookup that Set and StoreItem begin with) look only at entries of the bucket that holds the key, from its boundary to the key, and at the one entry where they stop. With EnableStats set, the number of entries looked at is what the call adds to DebugStats[CntReverseSearch] and DebugStats[CntSearchEntry].", "quantifier": "all maps reachable by any sequence of calls, all search modes but CombineSearch2 for Get, all keys (hashes)", "why_tests_cant": "a benchmark shows the cost for one workload; which entries are looked at depends on every earlier Set, Delete and split, and the claim is about all of them", "anchors": ["map.go:_searchBybucket", "map.go:searchBucket4Key4", "map.go:_get", "map.go:getWithBucket", "debug.go:DebugStats"]}
{"id": "C99", "title": "Buckets are kept to MaxPefBucket keys", "statement": "MaxPefBucket bounds how many keys a bucket may hold before it is divided: a bucket holds at most that many keys, a Set into a bucket whose counter has reached the limit adds a bucket, and the counters shown by DumpBucket are the numbers of items the buckets hold.", "quantifier": "all maps reachable by any sequence of calls, all values of MaxPefBucket, all hash functions, all buckets", "why_tests_cant": "whether a bucket is divided depends on where in its bucket each earlier key fell; a test with well spread keys never meets the orders of insertion in which no division happens", "anchors": ["map.go:makeBucket", "map.go:searchBucket", "map.go:_set", "map.go:DumpBucket", "bucket.go:len"]}
{"id": "C100", "title": "The dumps show the map", "statement": "DumpEntry prints one line for each key of the map, with the key and its two hashes, and one line without a key for each bucket, all in order of reversed hash; DumpBucket prints one line for each bucket from the boundary 2^64-1 strictly down to 0, and BackBucket is the bucket printed last. The level printed with a boundary is the number of hexadecimal digits that spell it, down is one more than the largest next digit of a boundary that continues these digits (0 if there is none), and len is the number of items stored in the bucket.", "quantifier": "all maps reachable by any sequence of calls, all configurations and hash functions", "why_tests_cant": "the output depends on every earlier call: which buckets were made, what was deleted and which types of items were stored", "anchors": ["map.go:DumpEntry", "map.go:DumpBucket", "map.go:BackBucket", "maphead.go:fromMapHead"]}
{"id": "C101", "title": "An item in one goroutine's hands while others work on the map", "statement": "An item a goroutine got from LoadItem (or Range, First, Next) keeps its key and hashes while other goroutines work on the map; its value changes only when a Set of its key that answers true stores it there, it is deleted only when a Delete of its key that answers true does it, a deleted item does not come back to life, and items keep their order, so that going on from it with Next still leads to every item that was behind it.", "quantifier": "all schedules of any number of goroutines calling Get, Set, Delete and Range (with the bucket splits they cause), all histories before, all items of the map, all moments", "why_tests_cant": "another goroutine's write may fall between any two steps of the holder; a test sees a few schedules", "anchors": ["map.go:LoadItem", "map.go:Set", "map.go:Delete", "map.go:add2", "sample_hmap_entry.go:SetValue", "sample_hmap_entry.go:Delete", "item.go:Next"]}
{"id": "C102", "title": "Without new keys no lock is needed", "statement": "Take a map filled by one goroutine, and a set of keys that are in it. From then on goroutines call Get for any keys, Set for keys of that set, Delete for keys outside it (each key deleted by one goroutine at a time) and Range, overlapping as they like, without any lock: all finished Get, Set and Delete calls can be put into one order that respects real time and in which each answers as on a plain map, and every Range shows, once each and in order, keys that were there when it began, among them all that are there when it ends.", "quantifier": "all histories before in which no key lies on a bucket boundary or shares its primary hash with another, all sets of keys present, all numbers of goroutines, all calls of the kinds named, all schedules, all search modes' choices of a bucket", "why_tests_cant": "schedules cannot be enumerated; two overwrites of one key, a Delete and a Get meet in very many ways", "anchors": ["map.go:Get", "map.go:Set", "map.go:Delete", "map.go:_update", "map.go:searchKey", "map.go:getWithBucket"]}
{"id": "C103", "title": "One writer and any number of readers, while no bucket is divided", "statement": "If Sets and Deletes are made one at a time and no bucket is divided meanwhile, any number of goroutines may call Get and Range without a lock: all finished Set, Get and Delete calls can be put into one order that respects real time and in which each answers as on a plain map.", "quantifier": "all histories before as in C102, all schedules without a split and with one writer at a time, any number of readers, all keys that lie on no boundary and share their hash with no other", "why_tests_cant": "it is a statement about all interleavings of readers with every step of a writer", "anchors": ["map.go:Get", "map.go:Set", "map.go:Delete", "map.go:add2", "map.go:find"]}
{"id": "C104", "title": "Which calls can panic when goroutines overlap", "statement": "Take a map filled by one goroutine and let any number of goroutines call Get, Set, Delete and Range on it at the same time. No call panics as long as all values stored under one hash have one dynamic type and no call is made for a key whose hash is exactly the boundary of a bucket that is being made meanwhile.", "quantifier": "all histories before, all numbers of goroutines, all calls, all schedules (buckets divided at any moment), all choices of a bucket to search from", "why_tests_cant": "a panic needs a particular meeting of a lookup with a half-made bucket; no finite set of schedules shows there is no other", "anchors": ["map.go:Set", "map.go:Get", "map.go:_update", "bucket.go:head", "bucket.go:entry", "map.go:_searchBybucket", "sample_hmap_entry.go:SetValue"]}
{"id": "C105", "title": "Item pool with manager goroutines: no item twice, no Set waits for ever", "statement": "With UseGoroutineInPool set before the option UsePool(true) is applied, any number of goroutines may Set new keys at the same time: no two of these Sets are given the same item, no manager goroutine crashes, and a Set that waits for its item can be served at every moment by the manager of its pool alone, whatever the other goroutines do or fail to do.", "quantifier": "all numbers of goroutines, all hashes, all schedules, all numbers of items handed out (less than 2^61)", "why_tests_cant": "the pools with locks instead of managers fail under particular schedules only (C30, C49); that none does so here cannot be seen from runs", "anchors": ["pool2.go:startMgr", "pool2.go:idxMaagement", "pool2.go:Get", "map.go:UsePool", "map.go:Set"]}
{"id": "C106", "title": "DumpBucketPerLevel lists every bucket under its level", "statement": "For each level DumpBucketPerLevel prints, the lines are the buckets DumpBucket prints with this level, each once, from the largest boundary down.", "quantifier": "all histories, all reachable maps, all levels", "why_tests_cant": "how the list of a level comes about depends on the order in which buckets of different regions are divided", "anchors": ["map.go:DumpBucketPerLevel", "map.go:findNextLevelBucket", "map.go:makeBucket", "map.go:bucketFromPool"]}
{"id": "C107", "title": "Embedded: a split loses no key for other goroutines", "statement": "With UseEmbeddedPool(true), once Set(k) has answered true, every Get(k) that starts afterwards finds the key, whatever Sets of other goroutines run at the same time, including those that divide buckets; and a Get that finds a key does so because a Set has put it there.", "quantifier": "all schedules of any number of goroutines calling Set and Get, all keys, all MaxPefBucket values", "why_tests_cant": "the loss needs a split between two instructions of another call", "anchors": ["map_embedded.go:makeBucket2", "map_embedded.go:_split", "map_embedded.go:bsearchBybucket", "map.go:Set", "map.go:getWithBucket"]}
{"id": "C108", "title": "Embedded: splits by several goroutines do not interfere", "statement": "With UseEmbeddedPool(true), when several goroutines' Sets divide buckets at the same time, no two of them work on one bucket's array at once, no call crashes, and no key whose Set has answered disappears from the arrays.", "quantifier": "all schedules of any number of goroutines calling Set and Get, all keys, all MaxPefBucket values", "why_tests_cant": "needs two splits of one bucket interleaved instruction by instruction", "anchors": ["map_embedded.go:makeBucket2", "map_embedded.go:_split", "map_embedded.go:findIdx", "bucket.go:setItemPool", "bucket.go:itemPool"]}
{"id": "C109", "title": "Embedded: buckets are kept to MaxPefBucket keys", "statement": "With UseEmbeddedPool(true) and MaxPefBucket(n), after any history of Sets and lookups no bucket holds more than n keys.", "quantifier": "all histories of Set with string keys, Get, GetByHash, LoadItem, LoadItemByHash and Len, all hash functions, all MaxPefBucket values", "why_tests_cant": "whether a bucket can be divided depends on where all its keys lie", "anchors": ["map_embedded.go:makeBucket2", "map_embedded.go:findIdx", "map_embedded.go:_split", "map.go:add2", "map.go:MaxPefBucket"]}
{"id": "C110", "title": "Embedded: a lookup reads few slots", "statement": "With UseEmbeddedPool(true), after any history of n operations a lookup that comes back reads at most log2(n) + 3 slots of its bucket's array.", "quantifier": "all histories, all hash functions, all MaxPefBucket values, all hashes looked up", "why_tests_cant": "a benchmark shows the cost for the keys it draws; how deleted slots and the places of the keys add up is a statement about every array a history can leave", "anchors": ["map_embedded.go:bsearchBybucket", "map_embedded.go:_at", "map.go:SearchKey", "map.go:_get"]}
{"id": "C111", "title": "Deleting gives nodes back", "statement": "Without the embedded pool, Delete and Purge take the key's node out of the map: the nodes a map holds on to are at most as many as the keys it holds, up to a constant.", "quantifier": "all histories, all hash functions, configurations and keys", "why_tests_cant": "a test sees that a deleted key is gone from Get; that no history whatever makes the map let go of a node, and how many it then keeps, is a statement about all histories", "anchors": ["map.go:Delete", "map.go:Purge", "map.go:add2", "maphead.go:IsDeleted", "sample_hmap_entry.go:Delete"]}
{"id": "C112", "title": "Any key can be stored at any time", "statement": "Without the embedded pool, whatever happened before, for every key there are calls (a Set or StoreItem of it, if need be after Deletes) after which Get finds it.", "quantifier": "all reachable maps, all keys, all hash functions and configurations", "why_tests_cant": "a test that misses a key once shows one bad history; that no later call whatever brings the key back is a statement about all continuations", "anchors": ["map.go:_searchBybucket", "map.go:_set", "map.go:add2", "map.go:_findBucket", "map.go:initBeforeSet"]}
{"id": "C113", "title": "Range depends on the content only", "statement": "What Range shows, and in which order, depends only on the keys and values the map holds: not on the order in which they were stored, on overwritten values, deleted keys, bucket splits, MaxPefBucket, BucketMode or pooling.", "quantifier": "all pairs of histories and configurations after which every Get answers alike", "why_tests_cant": "a test compares two insertion orders; the claim relates every pair of histories of any length with equal content", "anchors": ["map.go:RangeItem", "map.go:Range", "map.go:_set", "map.go:add2", "map_embedded.go:insertToPool"]}
{"id": "C114", "title": "Calls that report no change leave no trace", "statement": "After a call that does not answer true (a read, a Set or StoreItem answering false, a Delete or Purge answering false, a refused call that panics because of the key's or value's type) every later call answers as if it had not been made.", "quantifier": "all reachable maps, all calls, all later sequences of calls", "why_tests_cant": "a test probes a few keys after a failed call; the claim is about every later sequence of calls from every reachable state", "anchors": ["map.go:Set", "map.go:StoreItem", "map.go:Get", "map.go:Delete", "map.go:_update", "map_embedded.go:purgeInEmbedded"]}
{"id": "C115", "title": "Buckets are made for stored keys only, one at a time", "statement": "A call adds no bucket to the bucket list, or exactly one, and then it stored a new key and answered true; the map never has more than 17 buckets plus one for each key counted by Len beyond MaxPefBucket.", "quantifier": "all histories of calls, all configurations, all keys", "why_tests_cant": "a test counts buckets for one workload; the bound is for every history, also of adversarial hashes", "anchors": ["map.go:makeBucket", "map.go:_set", "map.go:addBucket", "map_embedded.go:makeBucket2"]}
{"id": "C116", "title": "TestSet stores an item whatever bucket it is told", "statement": "TestSet(k, conflict, FindBucket(q), item) of a fresh item, if it comes back, answers true and GetByHash(k, conflict) then answers the item's value, while every other pair of hashes is answered as before; whatever buckets are told, Range stays in hash order.", "quantifier": "all maps without embedded pool made by calls and TestSets with any buckets, all k, conflict, q and items", "why_tests_cant": "the one test of TestSet tells the right bucket and asks nothing afterwards; here every bucket is told, in every reachable map", "anchors": ["map.go:TestSet", "map.go:_set", "map.go:add2", "map.go:FindBucket"]}
{"id": "C117", "title": "NextEntry and PrevEntry of a bucket are the neighbours of its boundary", "statement": "For the bucket FindBucket names, NextEntry answers an entry at or above the bucket's boundary and PrevEntry one at or below it, no key of the map lies strictly between, and if the bucket holds a key above its boundary NextEntry answers a live item, one that Range shows.", "quantifier": "all reachable maps without embedded pool and all reversed hashes", "why_tests_cant": "no test calls NextEntry or PrevEntry; which node stands next to a boundary depends on every Set, Delete and split so far", "anchors": ["bucket.go:NextEntry", "bucket.go:PrevEntry", "map.go:FindBucket"]}
{"id": "C118", "title": "What Range shows, GetByHash finds, and the other way round", "statement": "For every item that RangeItem shows, GetByHash(KeyInHmap(), ConflictInHamp()) of it answers its value; every value GetByHash finds is that of an item RangeItem shows with these two hashes; and a pair of hashes no shown item has is not found.", "quantifier": "all maps without embedded pool made by calls and TestSets, all pairs of hashes", "why_tests_cant": "tests look up keys they set; nothing compares the two views of a map, and they differ exactly in rare states (equal hashes, hashes on a boundary)", "anchors": ["map.go:GetByHash", "map.go:RangeItem", "map.go:_get", "map.go:_searchBybucket", "maphead.go:KeyInHmap", "maphead.go:ConflictInHamp"]}
