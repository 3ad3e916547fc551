{
 "C01": "sequential machine `step`; one invariant (order, sentinels, trie, intervals) over all histories, refinement to `Spec.PMap` for histories meeting `Clean`",
 "C02": "corollary of the refinement",
 "C03": "invariant over all histories: a lookup answers only with an entry carrying both hashes",
 "C04": "corollary of the refinement",
 "C05": "corollary of the refinement",
 "C06": "case analysis in every reachable state",
 "C07": "counting lemma over all histories",
 "C08": "every reachable state, every callback (function of what was seen)",
 "C09": "invariant over all histories",
 "C10": "invariant over all histories",
 "C11": "invariant over all histories; dyadic arithmetic of boundaries",
 "C12": "invariant; induction over the descent",
 "C13": "two refinements compared",
 "C14": "two refinements compared",
 "C15": "case analysis of makeBucket + depth bound from the number of keys in a bucket",
 "C16": "every reachable state (present key), refinement (absent key)",
 "C17": "every reachable state",
 "C18": "direct, for every pair of hash functions",
 "C19": "direct on the option functions",
 "C20": "arithmetic over all int lengths",
 "C21": "invariant over all histories",
 "C22": "embedded machine; invariant (sorted arrays inside their intervals) + refinement for Set/Get histories; with deletions: refinement of the array with its deleted slots to a `cleaned` array, for gentle histories",
 "C23": "concrete refuting histories; positive part: refinement for gentle histories with deletions",
 "C24": "concrete refuting history; positive part: refinement for gentle histories with deletions",
 "C25": "concrete refuting history; without deletions the refinement; positive part: refinement for gentle histories with deletions",
 "C26": "invariant + case analysis; bounded key classes; with deletions: refinement of the array with its deleted slots to a `cleaned` array, for gentle histories",
 "C27": "invariant; with deletions: refinement of the array with its deleted slots to a `cleaned` array, for gentle histories",
 "C28": "every state",
 "C29": "invariant over clean histories",
 "C30": "small-step pool machine, invariant over all schedules",
 "C31": "direct, and invariant of the sequential pooler",
 "C32": "map machine with item addresses",
 "C33": "small-step machine, invariants over all schedules; solo-insertion lemma",
 "C34": "small-step machine, mutual exclusion of Sets of one key as hypothesis",
 "C35": "small-step machine, invariant of sublists",
 "C36": "EConc machine, sortedness invariant",
 "C37": "EConc machine, lock log invariant",
 "C38": "small-step machine",
 "C39": "RMap machine over the Map machine",
 "C40": "RMap machine",
 "C41": "RMap machine",
 "C42": "RMap machine, every state",
 "C43": "RMap machine",
 "C44": "RMap machine",
 "C45": "every reachable state",
 "C46": "bit-vector arithmetic",
 "C47": "invariant over histories with one item type",
 "C48": "direct",
 "C49": "small-step pool machine, all schedules",
 "C50": "counting over clean histories",
 "C51": "corollary of the embedded refinement; with deletions: refinement of the array with its deleted slots to a `cleaned` array, for gentle histories",
 "C52": "invariant over clean histories; with deletions: refinement of the array with its deleted slots to a `cleaned` array, for gentle histories",
 "C53": "small-step machine, Range as a goroutine",
 "C54": "two maps sharing the option; simulation that takes the steps on other maps out of an execution",
 "C55": "small-step machine, all schedules",
 "C56": "EConc machine: storage invariant (all schedules), sortedness invariant",
 "C57": "EConc machine",
 "C58": "EConc machine: the invariant `Gone` (all slots with the hash deleted and not first, in the published array and in those being filled) is kept by every step that starts no Set of the key; concrete schedule for the refutation",
 "C59": "invariant over all histories from the effect of each operation",
 "C60": "counting invariant over all histories",
 "C61": "invariant over all RMap histories",
 "C62": "invariant over all arrays, used and unused slots, all histories",
 "C63": "invariant: every slot in use carries its key's hashes and a value stored for them; refuted by concrete histories",
 "C64": "writing a value changes no lookup, in every state with array lengths in bounds (invariant over all histories)",
 "C65": "Model/Conc.lean, any schedule. Progress: shape invariant of the program points, linked cursors (J0) and the sentinel with boundary 0 give an enabled step. Bound: a measure over the program point and the nodes still ahead decreases with every own step and grows by at most 6 per node linked by others (Proofs/Conc9).",
 "C66": "Model/Conc.lean with the window between publishing a bucket and linking its sentinel; invariant of the program points of Get/Delete on top of C35; schedules as witnesses.",
 "C67": "Model/Slots.lean: one group of sibling buckets, one step = one atomic access of bucketFromPool/makeBucket/_findBucket, any number of goroutines. Invariant in rely/guarantee form (Glob, Loc per program point, Excl for pairs) over all calm executions; a schedule as witness.",
 "C68": "Same model. Left alone a split ends: program points backwards. Otherwise the invariant `busy` gives the goroutine it waits for. Refuted by a schedule and an invariant that holds for ever after it.",
 "C69": "Same model. Length, level and linked flags only grow (Mono); invariant of the program points of a lookup; measure for the bound.",
 "C70": "Model/RConc.lean: RMap with any number of goroutines, one step = one access to `read`, `dirty`, a dirty map, an item or the lock; the answers of the dirty maps are chosen freely within what is linked in them. Invariant Inv (Glob, Loc per program point) over all schedules.",
 "C71": "Same model. Keys of the read map are kept by every promotion: ids of read maps are unique and only the holder of the lock publishes (Inv2), Has.step; a Get on the fast path stays there (fast_step). Lone Get: symbolic execution (Lone). Refuted by two schedules.",
 "C72": "Same model. Invariant Frozen: the read map keeps the item, no dirty map in use gets an item of its hash, nobody is about to write its value.",
 "C73": "Same model. Lock invariant (Inv2.lock); enabledness per program point (can_move); measure mu, decreasing because a CompareAndSwap cannot fail (Calm). Refuted by stuck_steps (an invariant that holds for ever) and a reachable state.",
 "C74": "Same model with faultless dirty maps. Invariant Kept: in the read map, or in the dirty map with every promotion under way bound to take it. Refuted by three schedules.",
 "C75": "Model/EmbList.lean: the nodes of the item list (dummies and array slots) in Next order beside the state of Model/Embedded.lean; _set's start of the walk, add2, relinking of a shifted array, of a copied one, renaming by a split, the new bucket's dummy, Purge. Invariant LI: the list is the buckets in ascending order, each dummy followed by its slots, without some deleted ones (EmbList2-8). Refuted by a two-Set history.",
 "C76": "Same model. The two ends of the list are an invariant of every call as long as the list is followed (EmbList9); for clean histories the canonical list is.",
 "C77": "Model/Conc.lean. Stages of the one Set of the key (Mine, Conc10), all live entries of the key have its value at the end; steps outside Sets of the key keep that; a Get can only pick up such an entry (Sees). Refuted by a schedule run in the kernel.",
 "C78": "Stages of the Delete (Kills, Conc10): with one live entry, answering true leaves none; then a lookup can only miss (Misses) and a Range only skip (Skips).",
 "C79": "As C78, for the second Delete.",
 "C80": "Model/Map.lean. KGood: the invariant Good restricted to one hash pair (Proofs/PerKey.lean); searches for the pair return its live entry although the rest of the list may hold duplicates and collisions; steps on other keys preserve it, steps on this key follow the plain map.",
 "C81": "Crowding argument of Proofs/Crowd.lean: a split needs another store in the block, so boundaries stay coarse; then C01, C14, C15 for clean histories.",
 "C82": "Invariant Work of the second phase (Proofs/EmbWork.lean): every loaded key keeps its slot, deleted slots belong to guarded keys. A deleted slot between two that stay is the one bsearchFromFreeList returns for its hash, so every call is gentle; then C22/C26/C75 for gentle histories.",
 "C83": "opSearchKey (Model/Map.lean) with the lemmas about searchByBucket; refuted by a run in the kernel.",
 "C84": "Model/Walk.lean: the loop with an arbitrary callback, a cursor and the calls made. Every call only changes nodes in place and adds nodes (Evo), so the split of the list at the cursor is kept; invariant WInv.",
 "C85": "The same relation Evo between the lists before and after, split at the item.",
 "C86": "As C84; nothing added means every live item is an old one, and live items have different keys (Good). Clearing: induction with 'everything live is behind the cursor'. Refuted by a run in the kernel.",
 "C87": "Model/LConc.lean: the machine of Model/Conc.lean with the counter and the step between link and count. Invariant: the goroutines that have counted and those that owe it, against the number of items linked. Exactness: with insertions in turns the position check never fails (Placing of Conc4).",
 "C88": "Model/EmbSearch.lean. An edge lemma for sort.Search (it ends where the predicate holds and the one before does not) shows, without sortedness, that the slot found is not a deleted one behind a live one. Completeness from the relation RelD of EmbDel2.",
 "C89": "Model/EmbWalk.lean: the loop over the list with the callback's calls in between. Proofs/EmbWalk.lean: RelX, the relation of C22 without the condition on first slots, is kept by reads, Delete and updates; buckets, lengths, keys and hashes of slots stay, marks are only set.",
 "C90": "Model/LiveOpt.lean: histories of calls and option changes. The invariant of C01, the bucket-free machine of C14 and the crowding argument of C81 do not mention the settings, so each survives a change.",
 "C91": "Model/Hold.lean: the map with the caller's variables. Specification (Proofs/Hold.lean): keys and variables lead to cells. Simulation between the sorted list of items and the cells, using the bucket-free machine of C14 for the calls; the invariant of C01 is kept by SetValue and Delete on any item, deleted or not.",
 "C92": "SpecCell.lean: one key of a plain map. Every finished call gets a place: the moment at which a call that finds nothing finds the map without the key; its last step, for calls on a live entry and insertions; for a call whose entry was deleted after it was found, a place right before that Delete, in the order of the last steps of such calls. The values the cell runs through are the values of the live entry, refined in each deleting step by the later values of the deleted entry; an induction over the ordered calls (chain) shows the cell gives the same answers. Refuted by the execution of two Deletes.",
 "C93": "The places of C92 are moments of one time line, so all calls are ordered by them; the specification (SpecCell.lean, cells) answers key by key (cellsRun_of).",
 "C94": "Invariant WInv1 (Proofs/Conc12.lean): one writer, the writer's insertion always stands before a place where the check succeeds (Placing), a writer never locates an unlinked bucket; it gives the conditions of C93_apart_partial.",
 "C95": "Effect of each step on the contents of the published array (Effect, kept_effect in Proofs/EConc5.lean); each call has one step at which it takes effect, the calls ordered by these steps form the linearization (Exec.track, Exec.linear in Proofs/EConc6.lean).",
 "C96": "Simulation between the two models: what a call is going to answer (Leads in Proofs/Sim.lean) is fixed when it has located its bucket and no step of its own changes it; at the start it is what Model/Map.lean computes (sim_step in Proofs/Sim2.lean). Existence from C65's progress argument (Proofs/Sim3.lean).",
 "C97": "NZ (a bucket with a child 0 has another child) is an invariant of all histories (Proofs/Locate.lean, from the trie shape after a split in Proofs/Split.lean); with it the descent and largestDown find the greatest boundary (Proofs/EmbFind.lean), and where a last-level boundary lies in the way the descent provably stops at level 15. The refutation takes the history of C15_refuted up to the panic.",
 "C98": "Model/Cost.lean lists the entries `_searchBybucket` counts. C98_answer ties the list to the answer (the last entry looked at decides it), C98_partial/C98_set_partial/C98_count_partial by: the list is a run of neighbours from a sentinel (Proofs/Cost.lean `Run`), the start is the nearest bucket or its upper neighbour (C97, `prev_above`), the item list is sorted (C09). C98_leak by induction on the rounds, with C01 for the answers.",
 "C99": "C99_partial and C99_counter_partial by the invariant `Young` (Proofs/Fill.lean): until the list of buckets grows, each of the sixteen counters is the number of items in its sixteenth and at most the limit. C99_grows_partial from `makeBucketAt_how` (Proofs/MakeBucket.lean). C99_sum_partial: what bucketFromPool, linkBucket and onOk do to the counters (Props/Sum.lean), induction over the history; C99_division_partial (Props/Div.lean): the invariant `Fresh0` (a bucket never set up has the counter 0) and the place of the new sentinel in the item list. C99_refuted by induction on the number of stores (`LowSt`); C99_counter_refuted by evaluation of one run.",
 "C100": "Model/Dump.lean gives the printed values line by line. C100_buckets and C100_order from C09 and C10; the others by the invariant `AllSample` (all items are SampleItems with a string key filed under its hashes), by induction over the history with `step_eff`; C100_sentinels_partial: two strictly ascending lists with the same members are equal. Columns (Props/Dump2.lean): level and down from the trie invariant TI and `LastIn` (the array of children ends with a bucket other than child 0), an induction over the history; len from C99.",
 "C101": "Case analysis of the steps that touch an item (`Step.item`), induction over executions with the invariants J0 (no item twice in the list) and HitAt (whoever is about to write an item found it under its own hashes).",
 "C102": "Invariant CalmInv: no goroutine is about to link anything, no Set of a key that is present comes to the end of its search (from the invariant Way of C92), no Delete in progress has found a deleted entry; from it the conditions `Orderly` of C93_partial for every key.",
 "C103": "Invariant Whole: nobody is in a split, so nobody is about to link a sentinel, so no lookup is lost; then C94_partial and C93_apart_partial.",
 "C104": "Invariant TyInv over the machine of C61: the values of all items and of all Sets in progress have the type of their hash, a goroutine that located an unlinked bucket has a hash off the boundaries being made, a call that found a node found an item of its own hash; the initial state from C59.",
 "C105": "Transition system of Sets and eight managers (Model/PoolMgr.lean); a manager's Get are the steps of Model/Pool.lean taken by one goroutine. Invariant: slots handed out of a pool are its log, without duplicates, and the pool's lock is free whenever its manager is in its loop; progress by a measure on the steps of Get.",
 "C106": "Invariant `LvFull` (Props/Dump3.lean) over the history: the list of level l holds buckets with l digits (and the upper end in level 16), every listed bucket and nothing twice; a split adds the new bucket and, at the first split below its parent, the parent's child 0 (NewBucket.lvp, from aliasInsert_perm and levelInsert_perm).",
 "C107": "Model/ESplit.lean: any number of goroutines, all buckets, makeBucket2 in its steps. Invariant `Inv` (locks, no reachable boundary between a bucket and its next one except the one its lock holder is making, arrays sorted) over `Tame` runs, then `Placed` (every key is where findBucket looks or its split is under way; needs Fresh), `Kept` (no key thrown away) and `Lost` (a misplaced key stays misplaced); the refutations are concrete schedules run by the kernel.",
 "C108": "The lock fields of `Inv` and the effect relation `Eff` of Proofs/ESplit2.lean; the refutations are concrete schedules with a nested split.",
 "C109": "Sequential embedded model. Invariant `Full` (a bucket over the limit has its keys in one half and its midpoint already is in the trie, so that only keys of the lower half still arrive) through makeBucket2 by induction over its nesting, insertions and histories; `Low` for the histories that never divide.",
 "C110": "Instrumented binary search (Model/EmbCost.lean): indexes probed by sort.Search and slots read by _at; the probes by induction on the exponent, the walk back over marked slots by the number of marks.",
 "C111": "Nodes are the elements of the item list; what one step does to the list of references comes from the effect lemma step_eff; the exact count from C07_partial; the unbounded refutation from the refinement to a plain map along Set/Delete rounds.",
 "C112": "Invariant: every node of the boundary's hash in front of the bucket's sentinel is dead; kept by each kind of step (an insertion goes in front of a strictly larger node); equivalent to not being found because the lookup walks back from that sentinel (C97_iff).",
 "C113": "Range shows a list strictly ascending in the reversed hash whose members are what Get finds (C08, C75); such a list is determined by its members. The refutation uses C112_small_refuted.",
 "C114": "step_eff says what a call can change: with an answer other than true only the pool switch, and step_pooled shows that no answer depends on that switch. Embedded: case analysis of each call; a Set answering false writes the value that was there.",
 "C115": "step_eff: only a stored new key (EffNew) can change the bucket list, by NewBucket. Invariant FewInv: either no split has been made and no bucket counts more keys than Len, or the splits are at most Len - MaxPefBucket. Embedded: invariant RoomL (Proofs/EmbRoom.lean): after the first split the buckets beyond the seventeenth, plus MaxPefBucket, never exceed the slots in use, and at most sixteen buckets are empty.",
 "C116": "Model/TestSet.lean: _set with the bucket as argument. setMid_inv and setNew_spec hold for every bucket, so the invariant does; setInsert_eq for every bucket at or below the hash. Above it, the first node found is the bucket's own sentinel, the node before it is above the hash too, and inserBeforeWithCheck refuses.",
 "C117": "Model/NearEntry.lean: neighbours of the bucket's head in the list. head_around splits the list at the head by Inv; order of the list (Sorted) gives that nothing lies between; a sentinel between two boundaries would itself be a boundary.",
 "C118": "Props/Shown.lean: shown st lists (KeyInHmap, ConflictInHamp, Value) of what RangeItem shows. searchByBucket_mem for found; for a hash that occurs once and is no boundary KGood holds and getEntry is the lookup in the list (getEntry_key); several of one hash: Walk.search_off."
}