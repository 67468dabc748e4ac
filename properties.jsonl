{"id": "C01", "title": "Lookup finds every stored key", "statement": "After any sequence of completed inserts, updates, deletes, aborts and lookups that respects the documented contract (no stored key is a prefix of another, FetchedKey is the key of the returned Value), Lookup(k) for a key k that was stored and not deleted since returns (v, true) where v is the last value stored for k.", "quantifier": "every contract-respecting operation history, every stored key, every key length", "why_tests_cant": "The result depends on the exact node shapes produced by the whole history (prefix splits, growth to the 256-slot layout, merges on delete, recycled memory); tests sample a few histories.", "anchors": ["radix.go:Tree.Lookup", "radix.go:Tree.search", "update.go:UpdateOperation.Finalize", "delete.go:DeleteOperation.Finalize"]}
{"id": "C02", "title": "Lookup never returns a value that is not currently stored", "statement": "If Lookup(k) returns (v, true) then v is the value of some key that is stored now; if k itself is stored it is the value of k; hence comparing the fetched key with k gives exactly map semantics. If Lookup(k) returns false, k is not stored.", "quantifier": "every contract-respecting history and every nonempty lookup key, stored or not, of any length", "why_tests_cant": "Absent keys are infinitely many and the search skips prefixes without comparing them, so stale or freed data could surface only for particular shapes.", "anchors": ["radix.go:Tree.search", "allocator.go:Allocator.Lookup"]}
{"id": "C03", "title": "A lookup candidate shares a prefix with the lookup key", "statement": "Documentation of Lookup: if the key does not exist, the candidate returned is another key sharing a prefix with the lookup key, i.e. candidate and key have a nonempty common prefix.", "quantifier": "every history and lookup key", "why_tests_cant": "Needs to hold for all absent keys and all tree shapes; no test looks at what a candidate has in common with the key.", "anchors": ["radix.go:Tree.Lookup", "allocator.go:Allocator.Lookup"]}
{"id": "C04", "title": "PrepareUpdate classifies the key correctly", "statement": "If PrepareUpdate(k) reports found=false then k is not stored. If it reports found=true then op.Value is the value of some stored key, and it is k's own value whenever k is stored.", "quantifier": "every reachable tree (also with other operations outstanding) and every contract key", "why_tests_cant": "A wrong classification would make the caller insert a duplicate or overwrite a different record; it depends on every prefix comparison on the path.", "anchors": ["update.go:UpdateOperation.prepareUpdate", "radix.go:Tree.PrepareUpdate"]}
{"id": "C05", "title": "Update.Finalize stores exactly one key", "statement": "When Finalize(v) on an update operation for key k returns true, k maps to v (truncated to 55 bits) and every other key maps to what it mapped to before; when it returns false nothing changed.", "quantifier": "every reachable tree, every kind of insertion point, every key and value, every other key", "why_tests_cant": "Eight insertion kinds times all node sizes and prefix lengths; the frame condition ranges over all other keys.", "anchors": ["update.go:UpdateOperation.Finalize"]}
{"id": "C06", "title": "Delete removes exactly one key", "statement": "If PrepareDelete(k) reports not found then k is not stored. If the candidate's key equals k and Finalize returns true, k is no longer stored and every other key maps to what it mapped to before; when Finalize returns false nothing changed.", "quantifier": "every reachable tree, every key, every other key", "why_tests_cant": "Deletion collapses nodes and concatenates prefixes; correctness of all the remaining keys cannot be enumerated.", "anchors": ["delete.go:DeleteOperation.prepare", "delete.go:DeleteOperation.Finalize"]}
{"id": "C07", "title": "Aborting an update leaves the tree unchanged", "statement": "Abort on a prepared update never panics, changes no stored key or value, and releases every lock taken by PrepareUpdate (a later operation on the same place can proceed).", "quantifier": "every reachable tree and prepared update operation", "why_tests_cant": "Lock release must match lock acquisition for each kind and for nodes sharing a lock.", "anchors": ["update.go:UpdateOperation.Abort", "locks.go:Tree.unlockNodes2"]}
{"id": "C08", "title": "Aborting a delete leaves the tree unchanged", "statement": "Abort on a prepared delete never panics, changes no stored key or value, and releases every lock taken by PrepareDelete and no other lock.", "quantifier": "every reachable tree and prepared delete operation", "why_tests_cant": "Depends on the tree shape at the deleted leaf (whether the two-child node is the root) and on lock sharing; tests only abort on a nil operation.", "anchors": ["delete.go:DeleteOperation.Abort", "locks.go:Tree.unlockNodes3"]}
{"id": "C09", "title": "Interleaved operations behave like atomic map operations", "statement": "With any number of update and delete operations prepared at the same time (each on its own allocator) and finalized or aborted in any order, every Finalize that returns true takes effect as one atomic map update/removal at that moment, every Finalize that returns false and every Abort has no effect, and every found/not-found answer is correct for the map at that moment.", "quantifier": "every interleaving of prepare, finalize, abort and lookup steps of any number of goroutines", "why_tests_cant": "The number of interleavings is unbounded and conflicts need specific shapes.", "anchors": ["update.go", "delete.go", "locks.go"]}
{"id": "C10", "title": "Contract-respecting operations never panic", "statement": "Lookup, PrepareUpdate, PrepareDelete and Finalize never panic when keys are nonempty, prefix-free and FetchedKey is right (and memory blocks are left).", "quantifier": "every contract-respecting history", "why_tests_cant": "An index goes out of range only for particular node sizes/prefix lengths reached after particular histories.", "anchors": ["allocator.go:Allocator.recycle", "allocator.go:Allocator.newNode", "update.go", "delete.go", "radix.go:Tree.search"]}
{"id": "C11", "title": "No spurious conflicts without competition", "statement": "When no other operation is outstanding, PrepareUpdate and PrepareDelete complete without having to retry, and Finalize returns true.", "quantifier": "every reachable state with no outstanding operation, every key", "why_tests_cant": "A leaked lock or a stale generation would only show after particular earlier histories.", "anchors": ["update.go:UpdateOperation.prepareUpdate", "delete.go:DeleteOperation.prepare", "locks.go"]}
{"id": "C12", "title": "Lookup always terminates", "statement": "Lookup(k) visits at most len(k)+1 nodes and terminates, for every key and whatever the memory contents.", "quantifier": "every memory state (even corrupted) and every key", "why_tests_cant": "Termination for all states is not testable.", "anchors": ["radix.go:Tree.search"]}
{"id": "C13", "title": "Lock-free lookups are correct under concurrent writers", "statement": "A Lookup(k) whose individual loads interleave arbitrarily with other goroutines' completed operations finds k if k was stored during the whole lookup, returns one of the values k had during it, and never returns a value that was not stored at some moment during the lookup.", "quantifier": "every interleaving of the reader's atomic loads with any number of writer commits", "why_tests_cant": "The schedules are unbounded and the failing ones are rare.", "anchors": ["radix.go:Tree.search", "allocator.go:Allocator.startOp", "allocator.go:Allocator.newNode"]}
{"id": "C14", "title": "Full iteration yields every value once, in key order", "statement": "On a quiescent tree NewIterator(tree, nil) followed by Next until false yields the values of all stored keys exactly once, in lexicographic key order, and then ends.", "quantifier": "every reachable quiescent tree, of any size", "why_tests_cant": "The iterator fetches batches of more than 256 values and resumes from a saved partial key; correctness depends on where the batch boundaries fall in the tree.", "anchors": ["iterator.go:Iterator.Next", "iterator.go:Iterator.storeResumePosition"]}
{"id": "C15", "title": "Prefix iteration yields exactly the keys with the prefix", "statement": "On a quiescent tree, iterating with prefix p yields the values of all stored keys that start with p, in order, and no others.", "quantifier": "every reachable quiescent tree and every prefix", "why_tests_cant": "Depends on whether p ends inside a node prefix, at a node boundary or inside a leaf.", "anchors": ["iterator.go:NewIterator", "radix.go:Tree.partialSearch"]}
{"id": "C16", "title": "MinKey returns the smallest key with the prefix", "statement": "On a quiescent tree MinKey(p) returns the value of the lexicographically smallest stored key starting with p, and ok=false exactly when no stored key starts with p.", "quantifier": "every reachable quiescent tree and every prefix", "why_tests_cant": "Depends on emptied 256-slot nodes, which appear only after many inserts followed by deletes.", "anchors": ["radix.go:Tree.MinKey", "radix.go:Tree.partialSearch"]}
{"id": "C17", "title": "MaxKey returns the largest key with the prefix", "statement": "On a quiescent tree MaxKey(p) returns the value of the lexicographically largest stored key starting with p, and ok=false exactly when no stored key starts with p.", "quantifier": "every reachable quiescent tree and every prefix", "why_tests_cant": "As for MinKey.", "anchors": ["radix.go:Tree.MaxKey", "radix.go:Tree.partialSearch"]}
{"id": "C18", "title": "Count counts the keys with the prefix", "statement": "On a quiescent tree the leaves returned by Count(p) equal the number of stored keys starting with p; Count(nil) counts all stored keys.", "quantifier": "every reachable quiescent tree and every prefix", "why_tests_cant": "The explicit-stack walk has to be right for every shape.", "anchors": ["counter.go:Counter.Count", "radix.go:Tree.Count"]}
{"id": "C19", "title": "Len is the number of stored keys", "statement": "Len() on a tree with no outstanding operation returns the number of stored keys, whichever allocators performed the operations and whenever they flushed their counters.", "quantifier": "every history of operations, allocator choices and counter flushes", "why_tests_cant": "Counters are spread over allocators, may be negative and are flushed at arbitrary moments.", "anchors": ["radix.go:Tree.Len", "allocator.go:Allocator.FlushStats", "allocator.go:Allocator.recycle"]}
{"id": "C20", "title": "Values keep their low 55 bits", "statement": "A stored value v is read back as v mod 2^55 by Lookup, op.Value and iterators; values below 2^55 are read back unchanged, and moving a leaf to another branching byte does not alter its value.", "quantifier": "every 64-bit value and every key byte", "why_tests_cant": "2^64 values times 256 bytes; boundary bits overlap the tag bit.", "anchors": ["utils.go:buildLeaf", "utils.go:getLeafValue", "utils.go:updateLeafKey", "utils.go:isLeaf"]}
{"id": "C21", "title": "Child references keep address, size, prefix length and byte", "statement": "A child reference built for a node decodes to the same branching byte, the same address (below 2^39), the same number of children (1..256) and the same prefix length (saturated at 255), and is never mistaken for a leaf or (unless it is the reserved slot) for an empty slot.", "quantifier": "every byte, address, child count and prefix length in range", "why_tests_cant": "2^39 addresses times counts times lengths.", "anchors": ["utils.go:buildNode", "utils.go:explodeNode", "utils.go:getNodeValue"]}
{"id": "C22", "title": "Compressed prefixes are stored and read back exactly", "statement": "For a common prefix of any length, storing it in a node and reading it back yields the same bytes and the same number of slots as was reserved for it, and writes nothing outside the reserved slots.", "quantifier": "every byte string of any length, including the 254/255/256 boundary, and any previous memory contents", "why_tests_cant": "Lengths are unbounded and the layout changes at 255.", "anchors": ["unsafe.go:storePrefix", "unsafe.go:appendPrefix", "radix.go:Tree.allocateNodeWithPrefix"]}
{"id": "C23", "title": "Live nodes never overlap in memory", "statement": "At every moment the memory slots of any two nodes reachable from the root are disjoint, memory handed out for a new node overlaps no reachable node, and slot 0 is never handed out.", "quantifier": "every history, every allocator, every request size", "why_tests_cant": "Recycling splits and merges free slots over the whole history.", "anchors": ["allocator.go:Allocator.newNode", "allocator.go:Allocator.allocateNode", "allocator.go:Allocator.recycle"]}
{"id": "C24", "title": "Memory is not reused under a running reader", "statement": "Memory of a node that was reachable at some moment after an operation began (Lookup, Prepare*, Count, Iterator.Next) is not handed out again, by any allocator, until that operation ended.", "quantifier": "every interleaving of start/end, unlink, recycle, epoch advance and allocation steps of all allocators", "why_tests_cant": "Needs a specific interleaving of reader start, recycle, epoch advance and allocation.", "anchors": ["epoch.go:epochManager.minReservation", "allocator.go:Allocator.startOp", "allocator.go:Allocator.recycle", "allocator.go:Allocator.newNode"]}
{"id": "C25", "title": "MinKey and MaxKey are safe under concurrent writers", "statement": "MinKey/MaxKey called while other goroutines insert and delete only ever read memory of nodes that has not been reused for another node since the call began.", "quantifier": "every interleaving of the walk's loads with other goroutines' operations", "why_tests_cant": "Only a particular interleaving with recycling shows it.", "anchors": ["radix.go:Tree.MinKey", "radix.go:Tree.MaxKey", "allocator.go:Allocator.startOp"]}
{"id": "C26", "title": "Node locks are exclusive and all-or-nothing", "statement": "Locking two or three nodes either acquires all their locks or leaves every lock as it was; two operations never hold a common lock at once; unlocking never panics after a successful lock and changes the generation so that earlier observers fail; nodes sharing one lock are handled.", "quantifier": "every interleaving of lock, rollback and unlock steps of any number of operations, every choice of node addresses", "why_tests_cant": "Interleavings and address collisions cannot be enumerated.", "anchors": ["locks.go:Tree.lockNodes2", "locks.go:Tree.lockNodes3", "locks.go:Tree.unlockNodes2", "locks.go:Tree.unlockNodes3"]}
{"id": "C27", "title": "An allocator has one user at a time", "statement": "GetAllocator (and the implicit reservation in Tree.Lookup/PrepareUpdate/PrepareDelete) never returns an allocator that another goroutine has not released yet, and a released allocator can be obtained again.", "quantifier": "every interleaving of the load, compare-and-swap and store steps of any number of goroutines", "why_tests_cant": "Schedules are unbounded.", "anchors": ["slots.go:slots.get", "slots.go:slots.put", "radix.go:Tree.GetAllocator"]}
{"id": "C28", "title": "Stop gives exclusive access until Start", "statement": "When Stop returns, no allocator is in use by another goroutine and none can be obtained until Start; Len and concurrent Stop/Start/Len calls do not break the exclusiveness of allocators.", "quantifier": "every interleaving of Stop, Start, Len, GetAllocator and ReleaseAllocator by any number of goroutines", "why_tests_cant": "Concurrent Stop/Len calls are never tested; schedules are unbounded.", "anchors": ["radix.go:Tree.Stop", "radix.go:Tree.Start", "radix.go:Tree.Len"]}
{"id": "C29", "title": "State written is state read", "statement": "Writing the state of a stopped tree and loading it with NewTreeFromState gives a tree with the same keys, values, allocator positions and free lists, whatever the order in which blocks were compressed and written.", "quantifier": "every reachable stopped tree, every order of block completion, every scheduling of the block goroutine", "why_tests_cant": "The blocks are written by concurrent workers in arbitrary order and one goroutine updates the number of blocks asynchronously.", "anchors": ["state.go:Tree.writeState", "state.go:Tree.loadState", "allocator.go:Allocator.writeState", "allocator.go:Allocator.loadState", "radix.go:Tree.blockAllocator"]}
{"id": "C30", "title": "Len survives saving and loading", "statement": "Len() of a tree loaded from a state equals Len() of the tree that was written.", "quantifier": "every reachable stopped tree, every distribution of unflushed counters", "why_tests_cant": "Depends on which counters were flushed before writing.", "anchors": ["state.go:Tree.writeState", "state.go:Tree.loadState", "radix.go:Tree.Len"]}
{"id": "C31", "title": "Incomplete state data is rejected", "statement": "NewTreeFromState on a truncated or malformed state returns an error; it neither panics nor returns a tree that differs from the one written.", "quantifier": "every proper prefix of every written state, and every byte string", "why_tests_cant": "All truncation points and byte strings cannot be tried.", "anchors": ["state.go:Tree.loadState", "allocator.go:Allocator.loadState"]}
{"id": "C32", "title": "WriteState reports writer errors", "statement": "If the writer fails, WriteState returns an error (it does not hang).", "quantifier": "every number of blocks, every failing write, every scheduling of the compression workers and the writer", "why_tests_cant": "Needs many blocks and a failing writer; schedules are unbounded.", "anchors": ["state.go:Tree.writeState"]}
{"id": "C33", "title": "The structure does not depend on insertion order", "statement": "Two insert-only histories that store the same keys produce trees with the same nodes, prefixes and branching (in particular the same Count(p) for every p), whatever the insertion order.", "quantifier": "every key set and every two insertion orders", "why_tests_cant": "All permutations of all key sets.", "anchors": ["update.go:UpdateOperation.Finalize", "counter.go:Counter.Count"]}
{"id": "C34", "title": "Prefix violations are detected, not stored", "statement": "Inserting a key that is a proper prefix of a stored key, or has a stored key as proper prefix, panics in PrepareUpdate or Finalize instead of producing a tree that loses a key.", "quantifier": "every reachable tree and every offending key", "why_tests_cant": "All shapes and all offending keys.", "anchors": ["update.go:UpdateOperation.prepareUpdate", "update.go:UpdateOperation.Finalize"]}
{"id": "C35", "title": "A new tree is usable as soon as NewTree returns", "statement": "Every operation on the tree returned by NewTree works (without panic) whatever the scheduling of the internal goroutine started by NewTree.", "quantifier": "every scheduling of the block-allocation goroutine", "why_tests_cant": "Only a particular schedule fails.", "anchors": ["radix.go:NewTree", "radix.go:Tree.blockAllocator", "radix.go:Tree.search"]}
{"id": "C36", "title": "Index overhead is bounded by the number of keys", "statement": "The number of nodes reported by Count(nil) is smaller than the number of stored keys (for a nonempty tree): no node has a single child and no node is empty.", "quantifier": "every history", "why_tests_cant": "Deletes must collapse nodes in every shape.", "anchors": ["delete.go:DeleteOperation.prepare", "counter.go:Counter.Count"]}
{"id": "C37", "title": "Iteration concurrent with updates", "statement": "An iterator running concurrently with updates returns every key that is stored during the whole iteration exactly once, and terminates when the tree stops changing.", "quantifier": "every interleaving of Next calls with inserts and deletes", "why_tests_cant": "Only particular interleavings at batch boundaries fail.", "anchors": ["iterator.go:Iterator.Next"]}
{"id": "C38", "title": "Portable prefix codec round-trips", "statement": "storePrefixSafe followed by loadPrefixSafe returns the same bytes for every nonempty prefix stored in exactly the slots reserved for it.", "quantifier": "every nonempty byte string", "why_tests_cant": "Lengths are unbounded; the test covers two lengths.", "anchors": ["prefix.go:storePrefixSafe", "prefix.go:loadPrefixSafe"]}
{"id": "C39", "title": "Counter statistics count each node once", "statement": "After Count(p), the sum of Counter.NodeSizes equals the number of nodes returned and NodesWithPrefix is the number of nodes having a nonempty prefix.", "quantifier": "every reachable quiescent tree and prefix", "why_tests_cant": "Depends on how often the walk re-enters a node.", "anchors": ["counter.go:Counter.Count"]}
{"id": "C40", "title": "Locking several nodes rejects stale observations", "statement": "If lockNodes2 or lockNodes3 succeeds, none of the nodes involved (node, parent, child) has been changed since its generation was read.", "quantifier": "every state, every choice of nodes and generations, including nodes that share a lock word", "why_tests_cant": "It needs two nodes of one path that hash to the same lock word and a concurrent change between reading the generation and locking.", "anchors": ["locks.go:Tree.lockNodes2", "locks.go:Tree.lockNodes3"]}
{"id": "C41", "title": "Sequences of calls run to their end", "statement": "Any list of updates and of deletes of stored keys, called one after the other on a new tree, is carried out to the end without panicking, waiting for ever or returning false, and Lookup then reads the map given by the list. Exceptions: all but at most one of the 65536 memory blocks are in use, or Finalize recycles a node of 258 slots (only possible with keys longer than nine bytes).", "quantifier": "every number of allocators, every list of calls respecting the contract, every key set", "why_tests_cant": "The lists are unbounded; it is a liveness statement about every reachable state.", "anchors": ["allocator.go:Allocator.PrepareUpdate", "allocator.go:Allocator.PrepareDelete", "update.go:UpdateOperation.Finalize", "delete.go:DeleteOperation.Finalize"]}
{"id": "C42", "title": "Count beside concurrent updates", "statement": "A Count(prefix) that runs while other goroutines insert and delete returns the size of a set of keys with the prefix that contains every such key stored during the whole call, and only keys that were stored at some moment during the call.", "quantifier": "every tree, prefix and interleaving of the walk's loads with other goroutines' operations", "why_tests_cant": "The loads of the walk can interleave with updates in unboundedly many ways; a run sees few of them.", "anchors": ["radix.go:Tree.Count"]}
{"id": "C43", "title": "MinKey and MaxKey beside concurrent updates", "statement": "A MinKey(prefix) (MaxKey) that runs while other goroutines insert and delete returns the value of a key with the prefix that was stored at some moment during the call, and no key with the prefix that was stored during the whole call is smaller (larger); it reports that there is none only if no key with the prefix was stored during the whole call.", "quantifier": "every tree, prefix and interleaving of the walk's loads with other goroutines' operations", "why_tests_cant": "The loads of the walk can interleave with updates in unboundedly many ways; a run sees few of them.", "anchors": ["radix.go:Tree.MinKey", "radix.go:Tree.MaxKey"]}
{"id": "C44", "title": "Progress", "statement": "A Lookup returns after a number of loads bounded by the length of its key, whatever other goroutines do.  While PrepareUpdate or PrepareDelete retries, other operations get prepared: an operation that takes more steps than the bound for its key saw another operation prepared meanwhile, and one that runs alone beside operations that hold no locks is prepared within the bound.  A prepared operation can always be finished (Finalize or Abort) without waiting for others.", "quantifier": "every tree, key, number of goroutines and interleaving", "why_tests_cant": "A test that terminates says nothing about the schedules under which it would not; freedom from livelock is about all schedules.", "anchors": ["radix.go:Tree.Lookup", "allocator.go:Allocator.PrepareUpdate", "allocator.go:Allocator.PrepareDelete", "update.go:UpdateOperation.Finalize", "delete.go:DeleteOperation.Finalize", "locks.go:Tree.lockNodes2"]}
{"id": "C45", "title": "Every access to shared memory may be interleaved", "statement": "The results of Lookup, PrepareUpdate and PrepareDelete, the effects of Finalize, the absence of panics and the exclusion of lock holders hold at the grain of single atomic accesses: other goroutines may run between any two loads of the words of a node, between any two compare-and-swaps of lockNodes2 and lockNodes3, between the compare-and-swap of the root lock and the comparison of the root, and between any two additions that release or give back locks.", "quantifier": "every number of goroutines, every sequence of their calls and every interleaving of their accesses to shared memory", "why_tests_cant": "The number of interleavings of single accesses is exponential in their number; the race detector and stress tests see a tiny fraction, and words of a node that change between two loads of it are among the rarest.", "anchors": ["update.go:UpdateOperation.prepareUpdate", "delete.go:DeleteOperation.prepare", "locks.go:Tree.lockNodes2", "locks.go:Tree.lockNodes3", "locks.go:Tree.lockLeafRoot", "radix.go:Tree.search"]}
{"id": "C46", "title": "A tree that holds few keys does not run out of memory", "statement": "If updates and deletes of short keys are called one after the other on a new tree that never holds more than three keys, all of them run to their end: the memory of nodes taken out of the tree is used again, so Finalize never panics because there are no blocks left.", "quantifier": "every set of keys of at most nine bytes, every number of allocators and every list of updates and deletes that never stores more than three keys at a time", "why_tests_cant": "Each lost node has a few dozen bytes and there are 128 GiB of blocks, so billions of operations are needed before a test notices; the recycler's lists are not visible from outside.", "anchors": ["delete.go:DeleteOperation.Finalize", "allocator.go:Allocator.recycle", "allocator.go:Allocator.newNode"]}
{"id": "C47", "title": "Two updates at a time do not get in each other's way", "statement": "If at no time more than two updates are under way, and none while a delete is under way, then, however the accesses of the two updates (or of the one delete) and of any number of lookups are interleaved, the tree behaves as a map: a Finalize that returns true changes exactly its own key at one moment, one that returns false and every other step change nothing, Lookup, PrepareUpdate and PrepareDelete answer from the map, and locks are exclusive. Only when a lookup begins there must be a memory block (C35), and an Abort of a delete that merges two nodes at the root is left out (C08). With three updates this is false.", "quantifier": "every set of keys respecting the contract, every number of goroutines, every interleaving of single memory accesses in which at most two updates, or one delete, are under way", "why_tests_cant": "The two updates have thousands of interleavings for each shape of the tree, and with a third update the failing ones need a goroutine to be stopped between two particular instructions.", "anchors": ["update.go:UpdateOperation.prepareUpdate", "update.go:UpdateOperation.Finalize", "locks.go:Tree.lockNodes2", "locks.go:Tree.unlockNodes2"]}
{"id": "C48", "title": "Operations prepared side by side take effect if their calls do not overlap", "statement": "Several goroutines may have prepared operations at the same time, but no call of PrepareUpdate, PrepareDelete, Finalize or Abort runs while another one runs. Then each Finalize that returns true changes the map: when all operations are over, Lookup of every key finds exactly what the successful calls of Finalize left. (Lookups begin when there is a block, C35; an Abort does not release the locks of others, C08.)", "quantifier": "every set of keys respecting the contract, every number of goroutines, every order of whole calls", "why_tests_cant": "The failing case needs a delete prepared in a node with 256 children, the replacement of this node by another operation, and the Finalize of the delete after that; the call then reports success, and only a later lookup of the same key shows that nothing was deleted.", "anchors": ["delete.go:DeleteOperation.prepare", "delete.go:DeleteOperation.Finalize", "update.go:UpdateOperation.Finalize"]}
{"id": "C49", "title": "The memory suffices for millions of operations", "statement": "With keys of at most 1000 bytes and at most 1000 allocators, no operation on a tree fails for lack of memory blocks during the first 20 million calls of Finalize, however the operations interleave and even if no memory is ever reused; with keys of at most nine bytes nothing at all panics during the first 32 million calls, except Abort of a delete that would merge the root with its child.", "quantifier": "every set of keys of bounded length, every number of allocators up to 1000, every interleaving of their operations", "why_tests_cant": "Worst cases (nodes of 256 slots with long prefixes, block ends that are wasted, allocators that each hold a nearly empty block) combine over millions of calls; a test that fills 128 GiB is not run.", "anchors": ["allocator.go:Allocator.newNode", "allocator.go:Allocator.recycle", "radix.go:Tree.blockAllocator", "update.go:UpdateOperation.Finalize", "delete.go:DeleteOperation.Finalize"]}
{"id": "C50", "title": "No memory is lost", "statement": "With keys of at most nine bytes, whenever no operation is going on, every slot of a memory block that has been handed out (except slot 0 and the last 258 slots of a block) belongs to exactly one of: a node reachable from the root, a recycled piece in some allocator's recycler, the unused rest of the block an allocator is filling.", "quantifier": "every set of keys of at most nine bytes, every number of allocators, every interleaving of their operations with saving and reloading, every slot", "why_tests_cant": "A leak is invisible to the results of operations; it would show only after many gigabytes, and whether a slot is reachable or recycled has to be known for every slot in every state.", "anchors": ["allocator.go:Allocator.newNode", "allocator.go:Allocator.recycle", "update.go:UpdateOperation.Finalize", "delete.go:DeleteOperation.Finalize", "delete.go:DeleteOperation.Abort"]}
{"id": "C51", "title": "Memory is reused only when no operation can still read it, access by access", "statement": "When newNode hands out memory, no operation that is going on can have come across it: it belongs to no node that was in the tree at any moment since one of the current operations stored its reservation. It is also not part of the tree, of another node handed out, of a node waiting to be recycled, or on a free list.", "quantifier": "every number of allocators and every interleaving of the single accesses: the load and the store of startOp, each load of minReservation, the load and the increment of the epoch in recycle, the stores that replace nodes of the tree", "why_tests_cant": "The scan of the reservations and the two halves of startOp take nanoseconds and reuse needs a thousand recycled nodes; a reader that is overtaken between two of these accesses by a whole epoch does not occur in tests.", "anchors": ["epoch.go:epochManager.minReservation", "allocator.go:Allocator.startOp", "allocator.go:Allocator.endOp", "allocator.go:Allocator.recycle", "allocator.go:Allocator.newNode"]}
{"id": "C52", "title": "Admin(\"allocators\") has all allocators to itself while it prints, and returns", "statement": "While Admin(\"allocators\") prints the counters of the allocators, it holds all of them: nobody else has an allocator and no Len is adding up the counters. Calls of Admin(\"allocators\") under way can be finished once the other goroutines have given back their allocators.", "quantifier": "every number of allocators and goroutines, every interleaving of the single accesses to the pool and the flag `stopped`", "why_tests_cant": "Two Admin calls must each get one of the last allocators within microseconds; a test that calls Admin from one goroutine cannot meet this.", "anchors": ["admin.go:Tree.Admin", "slots.go:slots.get", "slots.go:slots.put", "radix.go:Tree.Stop"]}
{"id": "C53", "title": "The debug commands show the stored keys", "statement": "Admin(\"root\") and Admin(\"node\", id) for the numbers printed before do not panic. Following them from the root one finds every stored value; the prefixes and bytes on the way are a beginning of its key, and a leaf is shown only for a stored key, the only one with this beginning. No argument makes the command panic, and the number printed for a node or leaf leads to it.", "quantifier": "every state of every calm execution (updates, deletes, lookups by any number of allocators), every argument of the command", "why_tests_cant": "Tests do not call Admin at all; the arguments that make it panic or print something that does not exist are the numbers of certain blocks and all numbers from 2^63, which occur only for large nodes and values.", "anchors": ["admin.go:Tree.Admin", "admin.go:Tree.debugPrintNode", "admin.go:debugPrintLeaf", "unsafe.go:appendPrefix"]}
{"id": "C54", "title": "Stats reports the number of stored keys and of blocks", "statement": "When no operation is under way, objects_approx is the number of stored keys and blocks_allocated the number of blocks that exist; the command `blocks` lists exactly these.", "quantifier": "every idle state of every calm execution; for the number of blocks every state", "why_tests_cant": "The difference depends on when the allocators have flushed their counters and on whether the block goroutine has run already, which a test cannot vary systematically.", "anchors": ["stats.go:Tree.Stats", "admin.go:Tree.Admin", "allocator.go:Allocator.FlushStats", "radix.go:Tree.blockAllocator"]}
{"id": "C55", "title": "Close ends the block goroutine and leaves no operation waiting for memory", "statement": "Close does not panic while there are blocks left. Once it has returned, the block goroutine can do nothing but return, and no operation waits for a block that never comes.", "quantifier": "every number of allocators and goroutines, every interleaving of the accesses to the pool and the channels, Start and Len not being called after Close", "why_tests_cant": "Close must fall between the moments at which another goroutine's Stop sets its flag and an operation of a third goroutine comes to its 2 MB boundary; a test sees at most a goroutine that does not end.", "anchors": ["radix.go:Tree.Close", "radix.go:Tree.Stop", "radix.go:Tree.blockAllocator", "allocator.go:Allocator.allocateNode"]}
{"id": "C56", "title": "With one writer at a time no operation has to be repeated", "statement": "If updates and deletes do not overlap with each other, then, whatever lookups and walks run at the same time, PrepareUpdate and PrepareDelete never retry and return after a number of steps bounded by the length of the key, no step of them waits or panics, and Finalize returns true.", "quantifier": "every tree, key and number of goroutines, and every interleaving of the steps of the writer with those of lookups, walks and the block goroutine", "why_tests_cant": "A retry is invisible in the result; it would show only as lost time under particular schedules, and a Finalize that returns false would be retried by the caller.", "anchors": ["update.go:UpdateOperation.prepareUpdate", "delete.go:DeleteOperation.prepare", "update.go:UpdateOperation.Finalize", "delete.go:DeleteOperation.Finalize"]}
{"id": "C57", "title": "WriteState returns the number of bytes written", "statement": "The number returned by WriteState is the number of bytes given to and accepted by the writer; it returns an error if and only if a call of Write failed, and what has been written is then a beginning of the complete data (all of it if there is no error).", "quantifier": "every state, every writer (any call of Write may fail, after any number of bytes), every order in which the blocks are written", "why_tests_cant": "Each of the several hundred calls of Write per allocator and the two per block has its own error path.", "anchors": ["radix.go:Tree.WriteState", "state.go:Tree.writeState", "allocator.go:Allocator.writeState"]}
{"id": "C58", "title": "The 32-bit generations do not wrap around unnoticed", "statement": "The generations in the lock words are 32-bit numbers, and an operation that locks a node compares the generation it has loaded before with the current one.  The code behaves as if the generations were unbounded: every execution is one in which no generation wraps around.", "quantifier": "all executions of any interleaved operations, any keys, any number of allocators", "why_tests_cant": "Billions of operations are needed before a generation wraps around, and the wrong result also needs an operation that is interrupted meanwhile and locks the node at exactly the right moment.", "anchors": ["locks.go:Tree.generation", "locks.go:Tree.lockNodes2", "locks.go:Tree.lockNodes3", "locks.go:Tree.lockNode", "radix.go:nodeBlock"]}
{"id": "C59", "title": "Keys of any length can be inserted", "statement": "Whatever the length of the keys, as long as there is memory an update does not panic before its change has taken effect, and nothing is written outside of the memory blocks.", "quantifier": "all sequences of operations, all nonempty prefix-free keys of any length", "why_tests_cant": "The limit depends on how much two keys have in common, not on any documented constant, and is above two million bytes in the default build; whether the bytes written behind the block are noticed depends on what happens to be there.", "anchors": ["radix.go:Tree.allocateNodeWithPrefix", "unsafe.go:storePrefix", "allocator.go:Allocator.allocateNode", "update.go:UpdateOperation.Finalize"]}
{"id": "C60", "title": "Copying a node while others write does not tear it", "statement": "Finalize copies the words of the node it replaces one after the other. Whatever other goroutines do between two of these loads, the tree afterwards contains what the finished updates and deletes have put there.", "quantifier": "all interleavings of single loads of the copied words with all other memory accesses of any number of allocators, all nonempty prefix-free keys", "why_tests_cant": "The copy of up to 256 words takes far less than a microsecond, and the race detector does not see it because the lock words are atomics; a test cannot stop a goroutine between two words of copy().", "anchors": ["update.go:UpdateOperation.Finalize", "delete.go:DeleteOperation.Finalize", "locks.go:Tree.lockNodes2"]}
{"id": "C61", "title": "What uninterrupted steps can do, single accesses can do", "statement": "Whatever state of the tree and of the pending operations an execution leads to in which reading a node, taking the locks, publishing a change and releasing the locks each happen without interruption, an execution in which every load, store and compare-and-swap is scheduled separately leads to as well. In particular the execution in which a deleted key comes back (C48) is an execution of the code at the level of single memory accesses.", "quantifier": "all executions of any number of allocators, all keys and values", "why_tests_cant": "The statement is about all schedules at two levels of detail; a test shows neither that a schedule exists nor that each coarse schedule can be refined.", "anchors": ["update.go:Allocator.PrepareUpdate", "delete.go:Allocator.PrepareDelete", "locks.go:Tree.lockNodes2", "locks.go:Tree.lockNodes3"]}
{"id": "C62", "title": "Two updates at a time are safe down to the single words copied", "statement": "With at most two updates, or one delete, under way at a time, and any number of lookups and walks, the tree contains at every moment what the finished updates and deletes have put there, lookups and prepared operations report what is stored, only the publishing store or compare-and-swap changes the contents, and there is no panic except for want of memory blocks or when a node of exactly 258 slots is recycled; and this although Finalize copies nodes one word at a time while others go on.", "quantifier": "all interleavings of single memory accesses, including each load of a word copied, of any number of allocators of which at most two update or one deletes; all nonempty prefix-free keys", "why_tests_cant": "Needs every schedule of single loads within copy(); tests cannot stop a goroutine there, and the lost words would show only in a tiny fraction of schedules.", "anchors": ["update.go:UpdateOperation.Finalize", "delete.go:DeleteOperation.Finalize", "locks.go:Tree.lockNodes2", "locks.go:Tree.lockNodes3"]}
{"id": "C63", "title": "Readers beside two updates or one delete are right, access by access", "statement": "Count, MinKey, MaxKey and iterators may run while at most two updates, or one delete, are under way. Then a Count that ends returns the number of keys of a set that contains every matching key stored all the time and only matching keys stored at some time, except that it may return 1 when no matching key was stored all the time; a value that MinKey or MaxKey returns was stored at some time and its key is not on the wrong side of any matching key stored all the time; the first 257 calls of Next return values in ascending key order, each stored at some time, and every matching key stored all the time at most once and, when Next has returned false, exactly once (except for one value of another key when no matching key was stored all the time); and no slot that such a reader is about to load (for Next: or the slot before it) is handed out for a new node.", "quantifier": "all interleavings of single memory accesses of any number of allocators, of which at most two update or one deletes, and of the reader; all nonempty prefix-free keys, all prefixes, all numbers of iterations", "why_tests_cant": "Needs every schedule of single loads of the reader among single loads, compare-and-swaps and stores of the writers; a test sees a few schedules and cannot stop a goroutine between two loads.", "anchors": ["radix.go:Tree.Count", "radix.go:Tree.MinKey", "radix.go:Tree.MaxKey", "iterator.go:Iterator.Next", "allocator.go:Allocator.startOp", "locks.go:Tree.lockNodes2"]}
{"id": "C64", "title": "Readers beside any number of writers are right, access by access", "statement": "Count, MinKey, MaxKey and iterators may run while any number of updates and deletes are under way. A Count that ends returns the number of keys of a set that contains every matching key stored all the time and only matching keys stored at some time (or 1 when no matching key was stored all the time); a value that MinKey or MaxKey returns was stored at some time and its key is not on the wrong side of any matching key stored all the time; the first 257 calls of Next return values in ascending key order, each stored at some time, and every matching key stored all the time at most once and, when Next has returned false, exactly once (except for one value of another key when no matching key was stored all the time); no slot that a Count is about to load, or a MinKey or MaxKey while an operation of some allocator runs, is handed out for a new node, and for Next this holds of the slot or the one before it.", "quantifier": "all interleavings of single memory accesses of any number of allocators, the loads of words that Finalize copies included, and of the reader; all nonempty prefix-free keys, all prefixes, all numbers of iterations", "why_tests_cant": "Needs every schedule of single loads of the reader among single loads, compare-and-swaps, copies and stores of the writers; a test sees a few schedules and cannot stop a goroutine between two loads.", "anchors": ["radix.go:Tree.Count", "radix.go:Tree.MinKey", "radix.go:Tree.MaxKey", "iterator.go:Iterator.Next", "update.go:UpdateOperation.Finalize", "delete.go:DeleteOperation.Finalize", "allocator.go:Allocator.startOp"]}
{"id": "C65", "title": "debugSearch returns what Lookup finds and prints the way to it", "statement": "Whenever debugSearch returns, in any state, it returns the value that Lookup finds for the same key, or 0 if Lookup finds none. In an index that has a block it does not panic for a nonempty key. If the root is a node, it prints the nodes on the way of the key: the root first, then each time the child whose byte is the next byte of the key after the path and prefix of the node printed before; the last node printed has a line with the leaf returned, or no line for the next byte of the key. For a stored key it returns its value, and the paths and prefixes of all nodes printed are beginnings of the key.", "quantifier": "first part: all states of the memory, reachable or not, and all keys; the rest: all keys and all states reached by any operations, run one after the other", "why_tests_cant": "The function duplicates the search loop line by line, and no test calls it; agreement must hold for every tree shape, key and byte.", "anchors": ["radix.go:Tree.debugSearch", "radix.go:Tree.search", "admin.go:Tree.debugPrintNode"]}
{"id": "C66", "title": "isLocked tells whether an operation holds the lock of a node", "statement": "isLocked of a node in an allocated block returns, and returns true if and only if some operation that is prepared, is being prepared or is being finalized holds the lock word of the node.", "quantifier": "all interleavings of any number of operations, all nodes", "why_tests_cant": "A test sees the lock words in a few states; the claim is about every state of every schedule, failed attempts to lock included.", "anchors": ["locks.go:Tree.isLocked", "locks.go:Tree.lockNodes2", "locks.go:Tree.lockNodes3", "delete.go:DeleteOperation.Abort"]}
{"id": "C67", "title": "slots.available is between the allocators free all the time and those free at some time", "statement": "A call of available on the pool of allocators ends after one load per allocator. Its result is at least the number of allocators that no goroutine had during the call, and at most the number of allocators that some goroutine did not have all the time. If no allocator is obtained or released during the call, it is exactly the number of allocators not in use.", "quantifier": "all numbers of allocators and goroutines, all interleavings of the loads with the loads, compare-and-swaps and stores of goroutines that obtain and release allocators", "why_tests_cant": "The test calls it in a pool that nobody else uses; the bounds are about every schedule of the loads among the steps of other goroutines.", "anchors": ["slots.go:slots.available", "slots.go:slots.get", "slots.go:slots.put"]}
{"id": "C68", "title": "unused is the number of free bytes in the block an allocator fills", "statement": "Of an allocator that has a block, unused returns the number of bytes of this block from its next node on, and these bytes are in no node of the tree and in no recycled memory. The result is never negative and never more than a block. A node that is not made from recycled memory reduces it by the size of the node and begins where these bytes begin, if it is smaller than their number; otherwise the allocator goes on with a new block.", "quantifier": "all interleavings of any number of operations, all allocators; the last part: all states of the memory", "why_tests_cant": "No test calls unused; the claim relates it to every node of every tree, and the difference of 8 bytes in the first block shows only when that block is filled to its end.", "anchors": ["allocator.go:Allocator.unused", "allocator.go:Allocator.allocateNode"]}
