{"id": "C01", "title": "A united store is a map from index to (source, target)", "statement": "Starting from an empty united store, after any sequence of create, update and delete calls, looking a link up by index returns exactly what the map obtained by replaying the successful calls holds: create adds a fresh index with (0,0), update replaces the pair of one index, delete removes one index, and every other index keeps its value.", "quantifier": "every finite history of create/update/delete calls and reopenings with arbitrary arguments in which a link is not updated or deleted while another link has the same non-null doublet, every index, every behaviour of the write handlers", "why_tests_cant": "The set of histories is infinite; tree rotations and free-list states a test does not reach can corrupt unrelated links.", "anchors": ["doublets/src/mem/unit/store.rs: create_links, update_links, delete_links, get_link", "doublets/src/data/traits.rs: Links"]}
{"id": "C02", "title": "Create returns a fresh index", "statement": "A successful create on a united store returns a non-null index that named no existing link before the call, lies inside the internal range, now names a link with null source and target, and leaves all other links unchanged; the handler is called exactly once with (nothing, the new link).", "quantifier": "every reachable store state and handler", "why_tests_cant": "Reachable states include arbitrary free lists; a reused live index silently overwrites data.", "anchors": ["doublets/src/mem/unit/store.rs: create_links"]}
{"id": "C03", "title": "Freed indices are reused, most recently freed first, before the store grows", "statement": "If some index below the highest one is free, create returns the most recently freed such index and the number of allocated slots does not change; only if there is none does create extend the store by exactly one slot.", "quantifier": "every reachable state of a united store", "why_tests_cant": "Depends on the full history of deletions.", "anchors": ["doublets/src/mem/unit/store.rs: create_links, delete_links", "doublets/src/mem/unit/generic/unused_links.rs: UnusedLinks"]}
{"id": "C04", "title": "Deleting the highest links gives their slots back", "statement": "After every operation the highest allocated slot of a united store is a live link or the store is empty: deleting the highest link also releases all free slots directly below it. In particular, once every link has been deleted the store has no allocated and no free slots and hands out index 1 next.", "quantifier": "every history of calls", "why_tests_cant": "The compaction loop depends on the deletion order; the interesting cases are long runs of holes.", "anchors": ["doublets/src/mem/unit/store.rs: delete_links"]}
{"id": "C05", "title": "Update changes one link only", "statement": "A successful update of link i to (s,t) makes looking up i return (i,s,t), leaves every other link unchanged, creates and removes no link, and returns the handler's verdict after exactly one handler call.", "quantifier": "every reachable state, every existing i, every s and t (including null, self references, dangling and external values), whenever no other link holds the same doublet as i does before the call", "why_tests_cant": "Update removes and re-inserts the link in two size-balanced trees; errors show up only for particular tree shapes.", "anchors": ["doublets/src/mem/unit/store.rs: update_links", "doublets/src/mem/unit/generic/sources_recursionless_size_balanced_tree.rs", "doublets/src/mem/unit/generic/targets_recursionless_size_balanced_tree.rs"]}
{"id": "C06", "title": "Delete removes one link only", "statement": "A successful delete of link i removes i and no other link, reports (old link, nothing) to the handler exactly once, and does not touch links that refer to i.", "quantifier": "every reachable state and existing i, whenever no other link holds the same doublet as i", "why_tests_cant": "As for update, plus the free-list and compaction paths.", "anchors": ["doublets/src/mem/unit/store.rs: delete_links"]}
{"id": "C07", "title": "Operations on missing links fail without effect", "statement": "Update or delete of an index that names no link returns NotExists with that index, never calls the handler and leaves the whole store bit for bit unchanged.", "quantifier": "every reachable state, every index (0, free, beyond the end, external)", "why_tests_cant": "The set of absent indices is unbounded and depends on the history.", "anchors": ["doublets/src/mem/unit/store.rs: try_get_link, update_links, delete_links"]}
{"id": "C08", "title": "A full store refuses to create and stays intact", "statement": "When all indices of the internal range are in use, create returns LimitReached with the upper end of the range, and the store is unchanged; a create whose memory growth fails returns the allocation error and leaves the store unchanged.", "quantifier": "every reachable state of a united store and every outcome of the allocator", "why_tests_cant": "Reaching the limit needs billions of links; allocation failures are environment dependent.", "anchors": ["doublets/src/mem/unit/store.rs: create_links"]}
{"id": "C09", "title": "Traversal by any query visits exactly the matching links, each once", "statement": "each_by with a query of 0 to 3 parts visits exactly the links matching the query, each exactly once, where a part equal to `any` matches everything and a two part query [i, v] matches links whose source or target is v.", "quantifier": "every reachable state, every query of length at most 3", "why_tests_cant": "Infinitely many states and queries; the pruning comparisons of the tree walk matter only for particular shapes.", "anchors": ["doublets/src/mem/unit/store.rs: each_core", "doublets/src/mem/unit/generic/sources_recursionless_size_balanced_tree.rs: each_usages_core"]}
{"id": "C10", "title": "Count equals the number of links a traversal visits", "statement": "For the same query, count_by returns the number of times each_by calls its handler.", "quantifier": "every reachable state of a united store, every query of length at most 3", "why_tests_cant": "Count is computed from subtree sizes along search paths, not by visiting; agreement depends on all shapes.", "anchors": ["doublets/src/mem/unit/store.rs: count_links, each_core", "doublets/src/mem/unit/generic/sources_recursionless_size_balanced_tree.rs: count_usages"]}
{"id": "C11", "title": "A traversal stops at the first Break", "statement": "each_by calls the handler on the matching links one after the other, stops right after the first Break, returns Break exactly in that case and Continue otherwise; the sequence of links does not depend on the handler.", "quantifier": "every reachable state, query and stateful handler", "why_tests_cant": "Handlers are arbitrary stateful functions; the traversal is recursive with early exit.", "anchors": ["doublets/src/mem/unit/store.rs: each_core", "doublets/src/data/traits.rs: each_by, each"]}
{"id": "C12", "title": "Search finds a link with the given source and target iff there is one", "statement": "search(s,t) returns an index whose link is (s,t) if there is such a link and None otherwise; when doublets are unique it is that link.", "quantifier": "every reachable state of a united store, all non-null s and all t other than `any`", "why_tests_cant": "Depends on tree order being maintained by every history.", "anchors": ["doublets/src/data/traits.rs: search", "doublets/src/mem/unit/generic/sources_recursionless_size_balanced_tree.rs: search"]}
{"id": "C13", "title": "count without a query is the number of live links", "statement": "count() is the number of indices for which get_link returns a link; create adds one, delete subtracts one, update keeps it.", "quantifier": "every reachable state", "why_tests_cant": "It is computed as allocated minus free; both counters evolve over whole histories.", "anchors": ["doublets/src/mem/unit/store.rs: get_total, count_links", "doublets/src/data/traits.rs: count"]}
{"id": "C14", "title": "Reads, writes and loops stay inside the allocated memory and never panic or diverge", "statement": "On a reachable united store every operation (create, update, delete, traversal, count, search, lookup) with a query of at most three parts terminates without an out of bounds slot access, arithmetic overflow or underflow, failed unwrap or reachable unreachable!().", "quantifier": "every reachable state and argument, whenever no other link holds the same doublet as the link being changed and the memory size in slots fits the index type", "why_tests_cant": "Absence of panics over all histories.", "anchors": ["doublets/src/mem/unit/store.rs", "doublets/src/mem/unit/generic/*.rs"]}
{"id": "C15", "title": "Deleting a link and creating one restores the same index", "statement": "Deleting a link i that is not the highest and then creating a link returns i again, and if i was created with (0,0) the store's contents are as before.", "quantifier": "every reachable state", "why_tests_cant": "Round trip over all free list states.", "anchors": ["doublets/src/mem/unit/store.rs: create_links, delete_links"]}
{"id": "C16", "title": "Data survives closing and reopening", "statement": "Opening a united store on memory that holds a store left by any history yields a store with the same links, the same count, the same search results and the same next free index.", "quantifier": "every reachable state, every allocator that keeps existing contents", "why_tests_cant": "Needs every possible persisted state.", "anchors": ["doublets/src/mem/unit/store.rs: init, with_constants"]}
{"id": "C17", "title": "create_link and create_point", "statement": "create_point returns a fresh index i whose link is (i,i,i); create_link(s,t) returns a fresh index whose link is (s,t); all other links are unchanged.", "quantifier": "every reachable state of the united store, all s and t; every reachable state of the split store in which no link already refers to the index handed out, all s and t where s is null or t is not", "why_tests_cant": "Composition of create and update over all states.", "anchors": ["doublets/src/data/traits.rs: create_point, create_link, create_link_with"]}
{"id": "C18", "title": "get_or_create never duplicates", "statement": "get_or_create(s,t) returns an index whose link is (s,t); if such a link existed nothing changes, otherwise exactly one link is added. A second call returns the same index and changes nothing.", "quantifier": "every reachable state of the united store, every non-null s and every t, neither being the wildcard; the split store as in C17 with a non-null t", "why_tests_cant": "Idempotence over all states.", "anchors": ["doublets/src/data/traits.rs: get_or_create, search"]}
{"id": "C19", "title": "count_usages, usages and has_usages agree with the links", "statement": "usages(i) lists exactly the indices other than i of links whose source or target is i, count_usages(i) is how many such links there are, has_usages(i) is true iff there is one.", "quantifier": "every reachable state and existing i", "why_tests_cant": "Quantifies over all graphs.", "anchors": ["doublets/src/data/traits.rs: usages, count_usages, has_usages"]}
{"id": "C20", "title": "delete_usages removes exactly the links that use i", "statement": "delete_usages(i) succeeds, removes all links other than i whose source or target is i, and removes no other link.", "quantifier": "every reachable state with unique doublets, every existing i", "why_tests_cant": "All graphs, all deletion orders.", "anchors": ["doublets/src/data/traits.rs: delete_usages, delete_usages_with"]}
{"id": "C21", "title": "rebase replaces every reference", "statement": "rebase(old,new) makes every link other than old that referred to old refer to new instead in the same places, leaves the other links unchanged and returns new.", "quantifier": "every reachable state, all old and new that exist", "why_tests_cant": "All graphs, both reference positions.", "anchors": ["doublets/src/data/traits.rs: rebase, rebase_with"]}
{"id": "C22", "title": "rebase_and_delete replaces and removes the old link", "statement": "rebase_and_delete(old,new) rebases old to new, removes old, and returns new; with old = new it does nothing.", "quantifier": "every reachable state, all existing old and new", "why_tests_cant": "All graphs.", "anchors": ["doublets/src/data/traits.rs: rebase_and_delete"]}
{"id": "C23", "title": "delete_all empties the store", "statement": "delete_all succeeds and leaves no links, whatever links exist.", "quantifier": "every reachable state", "why_tests_cant": "Depends on the pattern of holes left by the history.", "anchors": ["doublets/src/data/traits.rs: delete_all"]}
{"id": "C24", "title": "delete_query_with removes exactly the matching links", "statement": "delete_query_with(q) removes every link matching q and no other, reporting each removed link once to the handler.", "quantifier": "every reachable state with unique doublets, every query of length at most 3 that mentions an index or a source/target", "why_tests_cant": "All queries and graphs.", "anchors": ["doublets/src/data/traits.rs: delete_query_with"]}
{"id": "C25", "title": "single, find and found", "statement": "find(q) returns the index of a matching link or None if there is none; found(q) is true iff one exists; single(q) returns a link iff exactly one matches.", "quantifier": "every reachable state, every query of length at most 3", "why_tests_cant": "All queries and states.", "anchors": ["doublets/src/data/traits.rs: find, found, single, exist"]}
{"id": "C26", "title": "The write handler sees the true state change", "statement": "The handler passed to update receives the link as it was before the call and as it is afterwards.", "quantifier": "every reachable state of either store, every update", "why_tests_cant": "The reported link depends on the old contents, which tests rarely compare.", "anchors": ["doublets/src/mem/unit/store.rs: update_links", "doublets/src/mem/split/store.rs: update_links"]}
{"id": "C27", "title": "A fused handler is not called after it broke", "statement": "After the wrapped handler has returned Break once, a fused handler never calls it again and keeps returning Break.", "quantifier": "every handler and every sequence of calls", "why_tests_cant": "Sequences of calls are unbounded.", "anchors": ["doublets/src/data/handler.rs: Fuse"]}
{"id": "C28", "title": "Handler results are passed through", "statement": "create_by_with, each_by, update_by_with and delete_by_with return Ok with the handler's last verdict: Continue if it continued, and the break value if it broke.", "quantifier": "every handler with an arbitrary Try type, every store behaviour allowed by the Links contract", "why_tests_cant": "Handlers and residual types are arbitrary.", "anchors": ["doublets/src/data/traits.rs: create_by_with, each_by, update_by_with, delete_by_with"]}
{"id": "C29", "title": "Iterators yield the traversal", "statement": "iter(), each_iter(q) and each_iter_small(q) yield exactly the links each_by(q) visits, in that order.", "quantifier": "every reachable state and query of length at most 3", "why_tests_cant": "All states.", "anchors": ["doublets/src/data/traits.rs: DoubletsExt"]}
{"id": "C30", "title": "The split store is a map from index to (source, target)", "statement": "After any history of create, update and delete calls that keeps references closed, lookups in a split store return what replaying the successful calls on a map gives.", "quantifier": "every history in which no link is created at an index that is already referenced, no link is given a non-null source with a null target, a non-null link is not updated to refer to itself, and no link whose doublet is duplicated is changed", "why_tests_cant": "Split stores keep one tree per referenced link plus two external trees; links migrate between them.", "anchors": ["doublets/src/mem/split/store.rs: create_links, update_links, delete_links", "doublets/src/mem/split/generic/*.rs"]}
{"id": "C31", "title": "Split and united stores behave the same", "statement": "The same history of calls on an empty united and an empty split store gives the same indices, the same link contents, the same counts and the same errors.", "quantifier": "every history satisfying the split store's side conditions", "why_tests_cant": "Differential claim over all histories.", "anchors": ["doublets/src/mem/unit/store.rs", "doublets/src/mem/split/store.rs"]}
{"id": "C32", "title": "Dangling references survive creation of their target", "statement": "In a split store a link that refers to an index with no link is still found by queries on that index after a link is created there, and can still be updated and deleted.", "quantifier": "every history", "why_tests_cant": "Needs a dangling reference, an allocation hitting it and a later query.", "anchors": ["doublets/src/mem/split/store.rs: resolve_danglind_external, create_links"]}
{"id": "C33", "title": "Deleting a link keeps the links that refer to it findable in a split store", "statement": "After deleting i from a split store, queries for source i or target i still visit exactly the links that refer to i.", "quantifier": "every reachable state satisfying the side conditions", "why_tests_cant": "Whole trees move between index structures.", "anchors": ["doublets/src/mem/split/store.rs: resolve_danglind_internal, delete_links"]}
{"id": "C34", "title": "Split store counts agree with its traversals", "statement": "For the same query, count_by on a split store returns the number of times each_by calls its handler.", "quantifier": "every reachable state of a split store, every query of length at most 3", "why_tests_cant": "Separate code paths for virtual and live references.", "anchors": ["doublets/src/mem/split/store.rs: count_links, try_each_by_core"]}
{"id": "C35", "title": "Internal constants: null is never a link", "statement": "Index 0 never names a link: looking it up, deleting it or updating it fails in every state, and no traversal reports a link with index 0.", "quantifier": "every reachable state of both stores", "why_tests_cant": "Slot 0 holds the header and its bits look like a link.", "anchors": ["doublets/src/mem/unit/store.rs: exists", "doublets/src/mem/split/store.rs: exists", "doublets/src/mem/header.rs"]}
{"id": "C36", "title": "Link helpers", "statement": "Link::nothing is the only null link; point(i) is a full point; is_full implies is_partial; a link survives conversion to a slice and back; from_slice rejects slices shorter than three.", "quantifier": "all links and slices", "why_tests_cant": "All values of the index type.", "anchors": ["doublets/src/data/link.rs"]}
{"id": "C37", "title": "FFI constants round trip", "statement": "Converting LinksConstants to the C structure and back is the identity, for constants with and without an external range.", "quantifier": "all constants", "why_tests_cant": "All values.", "anchors": ["doublets-ffi/src/lib.rs: Constants"]}
{"id": "C38", "title": "FFI callbacks control the operation as documented", "statement": "If a C callback returns `continue` the create, update, delete or each call goes on and returns `continue`; if it returns `break` the call stops and returns `break`.", "quantifier": "all callbacks, operations and states", "why_tests_cant": "Arbitrary foreign callbacks.", "anchors": ["doublets-ffi/src/lib.rs: create_united, update_united, delete_united, each_united"]}
{"id": "C39", "title": "Small index types work", "statement": "A store can be created for every supported unsigned index type.", "quantifier": "all index widths and memory sizes", "why_tests_cant": "Behaviour depends on width and memory page size.", "anchors": ["doublets/src/mem/unit/store.rs: init", "doublets/src/mem/split/store.rs: init"]}
{"id": "C40", "title": "A store survives a crash between two operations, and a crash inside one loses nothing else", "statement": "If the process dies at any point and the memory image at that point is reopened, every link not being changed at that moment is still found by lookup, search and traversal.", "quantifier": "every reachable state, every operation, every crash point between two memory updates of the operation", "why_tests_cant": "Crash points are many and states unbounded.", "anchors": ["doublets/src/mem/unit/store.rs: update_links, delete_links, create_links, init"]}
{"id": "C41", "title": "Unique-doublet decorators keep doublets unique", "statement": "If no two links share a non-null doublet, then after any successful update through UniqueValidator, UniqueResolver or CascadeUniqueResolver no two links do.", "quantifier": "every lawful underlying store, every state with unique doublets, every update", "why_tests_cant": "All states; the resolver deletes and merges links.", "anchors": ["doublets-decorators/src/unique_validator.rs", "doublets-decorators/src/unique_resolver.rs", "doublets-decorators/src/cascade_unique_resolver.rs"]}
{"id": "C42", "title": "UsagesValidator protects used links", "statement": "Through UsagesValidator, update and delete of a link that other links refer to fail with HasUsages and change nothing, and all other updates and deletes behave as on the wrapped store; hence a store without dangling references never gets one by deletion.", "quantifier": "every lawful underlying store and state, every call that returns (the last part: of a link whose doublet no other link holds)", "why_tests_cant": "All graphs.", "anchors": ["doublets-decorators/src/usages_validator.rs"]}
{"id": "C43", "title": "CascadeUsagesResolver leaves no dangling references", "statement": "Deleting through CascadeUsagesResolver removes the link and every link that refers to it.", "quantifier": "every lawful underlying store and state", "why_tests_cant": "All graphs.", "anchors": ["doublets-decorators/src/cascade_usages_resolver.rs"]}
{"id": "C44", "title": "NonNullDeletionResolver reports the null state", "statement": "Deleting through NonNullDeletionResolver resets the link to (null,null) before deleting it and has the same final effect on the links as a plain delete.", "quantifier": "every lawful underlying store and state, every link whose doublet no other link holds", "why_tests_cant": "All states.", "anchors": ["doublets-decorators/src/non_null_deletion_resolver.rs"]}
{"id": "C45", "title": "Split store traversals and searches are exact", "statement": "each_by(q) on a split store visits every link of the store that matches q exactly once and nothing else, stops at the first break, and search(s,t) returns a link (s,t) exactly when there is one.", "quantifier": "every reachable state of a split store, every query of length at most 3, every handler", "why_tests_cant": "Links live in one tree per referenced index and two more trees; all states.", "anchors": ["doublets/src/mem/split/store.rs: try_each_by_core", "doublets/src/mem/split/generic/*.rs"]}
{"id": "C46", "title": "A failed creation leaves a split store unchanged and usable", "statement": "If create fails on a split store, because it is full or because either memory cannot grow, all links can still be read, changed and deleted as before.", "quantifier": "every reachable state and every behaviour of the two allocators", "why_tests_cant": "Failures of one of two allocators at every point of every history.", "anchors": ["doublets/src/mem/split/store.rs: create_links, update_mem"]}
{"id": "C47", "title": "Reopening a split store keeps all links", "statement": "Opening a split store on the memories left by a previous one gives the same links, counts, query results and next index.", "quantifier": "every history of a split store, every initial length of the memories", "why_tests_cant": "All histories and sizes.", "anchors": ["doublets/src/mem/split/store.rs: init, new"]}
{"id": "C48", "title": "A handle returned by the C interface can be used", "statement": "The pointer returned by *Links_New and *Links_NewWithConstants can be passed to every other function of the C interface, which then operates on that store.", "quantifier": "every store, every function of the interface", "why_tests_cant": "Undefined behaviour may go unnoticed in tests.", "anchors": ["doublets-ffi/src/lib.rs: new_with_constants_united_links, unnull_or_error"]}
{"id": "C49", "title": "SmartCreate and SmartUpdate return the index or the error constant", "statement": "*Links_SmartCreate returns a fresh index that now names an empty link, or the error constant and the store is unchanged; *Links_SmartUpdate returns the index of the updated link, or the error constant and the store is unchanged.", "quantifier": "every reachable state, all arguments, whenever no other link holds the doublet of the link being updated", "why_tests_cant": "All states.", "anchors": ["doublets-ffi/src/lib.rs: smart_create_united, smart_update_united"]}
{"id": "C50", "title": "Indices stay dense", "statement": "No index ever names a link that is greater than the largest number of links that existed at the same time since the store was created, on either store; deleted indices are used again before the store grows.", "quantifier": "every history of creates, updates, deletes and reopenings of either store", "why_tests_cant": "Histories are unbounded; a leak of one index per rare path shows only in long runs.", "anchors": ["doublets/src/mem/unit/store.rs: create_links, delete_links", "doublets/src/mem/split/store.rs: create_links, delete_links"]}
{"id": "C51", "title": "A careful client never meets a failure case", "statement": "A client that only creates points, asks with get_or_create for the link between two existing links, and deletes links no other link uses, keeps doublets unique and all references valid for ever, on either store; each of its calls returns, and get_or_create(x,y) returns the only link (x,y).", "quantifier": "every sequence of such calls and reopenings, every allocator behaviour within the index type", "why_tests_cant": "Sequences are unbounded and the guarantee is an invariant over all of them.", "anchors": ["doublets/src/data/traits.rs: create_point, get_or_create, search, delete", "doublets/src/mem/unit/store.rs", "doublets/src/mem/split/store.rs"]}
{"id": "C52", "title": "Whole-store traversals are in index order", "statement": "A traversal that asks for everything (no query, or wildcards only) visits the links in ascending order of their indices, each exactly once, on either store.", "quantifier": "every reachable state of either store", "why_tests_cant": "All states, with any pattern of gaps.", "anchors": ["doublets/src/mem/unit/store.rs: each_links, each_core", "doublets/src/mem/split/store.rs: try_each_by_core"]}
{"id": "C53", "title": "Answers do not depend on the memory", "statement": "Two stores of the same kind with the same limit that serve the same calls give the same results and hold the same links at the same indices, whatever their memories grant at each growth, however often each is closed and reopened and whatever balanced tree each uses, as long as memory does not run out.", "quantifier": "every pair of histories with the same calls", "why_tests_cant": "Allocators, reopenings and histories are unbounded.", "anchors": ["doublets/src/mem/unit/store.rs", "doublets/src/mem/split/store.rs"]}
{"id": "C54", "title": "A split store survives a crash between two operations, and a crash inside one loses nothing else", "statement": "If the process dies at any point of a call on a split store and the two memories at that point are reopened, every link not being changed at that moment is still found by lookup, search and traversal.", "quantifier": "every reachable state of a split store, every call it supports, every crash point between two memory updates of the call, every length and allocator of the reopened memories", "why_tests_cant": "Crash points are many and states unbounded; a deletion moves links the client did not name between trees.", "anchors": ["doublets/src/mem/split/store.rs: update_links, delete_links, create_links, resolve_danglind_internal, resolve_danglind_external, init"]}
{"id": "C55", "title": "The C interface reads exactly the query it is given and reports failures", "statement": "The C functions read exactly the given number of elements of a query array (none if the pointer is null); Count returns how many links Each visits with the same query; an update or delete of an index that names no link and a failing create return the error constant, call no callback and change nothing.", "quantifier": "every reachable state, all query arrays, lengths up to three and callbacks", "why_tests_cant": "All states, arrays and foreign callbacks.", "anchors": ["doublets-ffi/src/lib.rs: query_from_raw, count_united, each_united, create_united, update_united, delete_united"]}
{"id": "C56", "title": "Lookups look at few slots", "statement": "Reading a link by index looks at one slot and the total count at none; finding the link with two given ends, and counting the links with a given source or target, looks at a number of slots proportional to the number of levels of the trees of the external crate, which is logarithmic in the number of links if these trees are size-balanced; traversing the links with a given source or target looks at that many slots besides the links it visits.", "quantifier": "every reachable state of either store, every argument, every handler, every bound on the levels of trees with as many nodes as there are links", "why_tests_cant": "The bound must hold for every store, whatever history produced it; a degenerate case shows only in large stores.", "anchors": ["README.md: size-balanced trees for O(log n) search", "doublets/src/mem/unit/generic/sources_recursionless_size_balanced_tree.rs: search, count_usages, each_usages", "doublets/src/mem/unit/store.rs: count_links, each_links", "doublets/src/mem/split/store.rs: count_links, each_links"]}
{"id": "C57", "title": "Writes cost a bounded number of index updates on average", "statement": "Over any history the calls together make at most nine memory or tree updates per call on a united store and at most ten on a split store; a single deletion, though, can make arbitrarily many. On a split store a deletion makes seven, two for each side of each other link that refers to the deleted one and is found in a tree, and two for each unused index at the end that it gives back besides its own.", "quantifier": "every history of creates, updates and deletes of a united store; on a split store, every history with exact allocators in which the two memories grow together, links with twins are not written and a created index may be one that links refer to", "why_tests_cant": "A bound over all histories; the expensive deletion needs a long run of freed indices.", "anchors": ["doublets/src/mem/unit/store.rs: create_links, update_links, delete_links", "doublets/src/mem/split/store.rs: create_links, update_links, delete_links, resolve_danglind_internal, resolve_danglind_external"]}
{"id": "C58", "title": "When exactly a traversal visits every matching link once", "statement": "each_by(q) visits each link that matches q exactly once, and nothing else, except exactly when there is a matching link and: q asks over all links for a null end; or q is [any, x] and some link has x at both ends; or q gives both ends and two links match it.", "quantifier": "every reachable state of a united store, every query of at most three parts; the same on a split store for every such query without null ends", "why_tests_cant": "A characterisation of all states and queries.", "anchors": ["doublets/src/mem/unit/store.rs: each_core, each_links"]}
{"id": "C59", "title": "What delete_usages does when a link uses the argument at both ends", "statement": "delete_usages(i) succeeds exactly when no other link has i at both ends. If one has, it fails with NotExists of such a link after deleting it, all links whose target is i and some of those whose source is i, and nothing else.", "quantifier": "every reachable state of a united store whose users of i have doublets of their own; every reachable state of a split store without duplicate doublets", "why_tests_cant": "Holds for every store and every set of users.", "anchors": ["doublets/src/data/traits.rs: delete_usages_with, usages"]}
{"id": "C60", "title": "What rebase does when a link uses the argument at both ends", "statement": "rebase(old,new) succeeds and replaces old by new in every other link, except that a link (old,old) becomes (old,new): old is then still used.", "quantifier": "every reachable state of either store whose users of old have doublets of their own", "why_tests_cant": "Holds for every store and every set of users.", "anchors": ["doublets/src/data/traits.rs: rebase_with"]}
{"id": "C61", "title": "Every C function is exported for every index type with the right name and signature", "statement": "A generic function marked for export is exported once for each listed index type, in order, under its name pattern with the star replaced by the type's C# name, with the type parameter replaced by that type everywhere in its signature and nothing else changed, and it calls the generic function at that type with its own arguments in order. Otherwise the build fails.", "quantifier": "every name pattern, list of types and function signature", "why_tests_cant": "Signatures are unbounded trees of types; a wrong signature at the C boundary is undefined behaviour, not a failing test.", "anchors": ["doublets-ffi/ffi-attributes/src/lib.rs: specialize_for, ty_from_to, csharp_convention", "doublets-ffi/src/lib.rs: specialize_for attributes"]}
{"id": "C62", "title": "Exported names do not clash", "statement": "Functions exported from one name pattern for two index types, and functions exported from two different patterns beginning with a star, have different names.", "quantifier": "every pair of patterns and types", "why_tests_cant": "A property of all pairs of exported functions.", "anchors": ["doublets-ffi/ffi-attributes/src/lib.rs: specialize_for, csharp_convention"]}
{"id": "C63", "title": "Decorators named in the environment are applied in order", "statement": "The decorators named in the environment variable, separated by white space, are wrapped around the store with the first one outermost; without the variable it is the store alone; the type produced for the same variable is the type of that value.", "quantifier": "every value of the environment variable", "why_tests_cant": "All strings.", "anchors": ["doublets-ffi/env-decorators/src/lib.rs: env_value, env_type"]}
{"id": "C64", "title": "A list of sources is traversed completely", "statement": "The list-based index of sources visits the links of a source exactly once each, in the order of the list, stops at the first break and always returns; its count is their number.", "quantifier": "every memory that holds a circular list, every handler", "why_tests_cant": "All lists and memories.", "anchors": ["doublets/src/mem/split/generic/internal_sources_linked_list.rs"]}
{"id": "C65", "title": "Printed links, doublets and errors can be told apart", "statement": "Two links, two doublets or two errors of the store that print the same are the same.", "quantifier": "all links, doublets and errors", "why_tests_cant": "All values.", "anchors": ["doublets/src/data/link.rs: Debug", "doublets/src/data/doublet.rs: Display", "doublets/src/data/error.rs"]}
{"id": "C66", "title": "Which calls are malformed, and which parts of a call count", "statement": "A read panics exactly if its query has more than three parts, an update exactly if its query is empty or its change has fewer than three parts, a delete exactly if its query is empty. Of a well-formed write only the index in the query and the two ends in the change matter; creation ignores its query.", "quantifier": "every reachable state, queries and changes of any length; the exact form for the united store (writes of links without a twin, counts by two parts up to overflow), on the split store that malformed calls panic and which parts count", "why_tests_cant": "All lengths and states.", "anchors": ["doublets/src/mem/unit/store.rs: each_core, count_links, create_links, update_links, delete_links", "doublets/src/mem/split/store.rs: try_each_by_core, count_links, create_links, update_links, delete_links"]}
{"id": "C67", "title": "Queries of the split store for null ends", "statement": "Every traversal by a query of at most three parts returns and calls the handler only on links of the store. For null ends: without unused indices below the links, a query for a null source or target visits nothing, and one for a null source and a target visits one such link if the target exists. With such indices, a query for a null target visits nothing, and one for a null source visits the link of highest index, whatever its source; only that one if its source is null, otherwise only links with a source. A query for a source and a target of which one is null then visits at most one link, which agrees with the query in the end that is not null; if the link of highest index has no source, a query for the null source visits that link if its target is asked for and nothing else.", "quantifier": "every reachable state of a split store, every query of at most three parts", "why_tests_cant": "All states, including every arrangement of unused indices.", "anchors": ["doublets/src/mem/split/store.rs: try_each_by_core, count_links, is_unused, is_virtual", "doublets/src/mem/split/generic/internal_recursion_less_base.rs: search_core, count_usages_core", "doublets/src/mem/split/generic/internal_sources_recursion_less_tree.rs: each_usages_core"]}
{"id": "C68", "title": "What delete_query_with does, for every query", "statement": "On a united store without duplicates delete_query_with(q) removes exactly the links that match q, reporting each once, except: if q asks over all links for a null end it removes nothing; if q is [any, x] and a link has x at both ends, it fails with NotExists of such a link after removing all links with target x and some with source x, and nothing else. On a split store without duplicates queries without null ends do the same, and queries for null ends delete what C67 says they visit: without unused indices below the links nothing, except the link with a null source and an existing target if that pair is asked for; with such indices, a query for a null source deletes the link of highest index and, if that has a source, only links that have one.", "quantifier": "every reachable state of a united store without duplicate doublets, every query of at most three parts; the same of a split store", "why_tests_cant": "All stores and queries.", "anchors": ["doublets/src/data/traits.rs: delete_query_with"]}
{"id": "C69", "title": "What rebase_and_delete does in general", "statement": "rebase_and_delete(old,new) on an existing old removes old, returns 0 and replaces old by new in every other link, except that a link (old,old) becomes (old,new); these are exactly the links that still refer to the deleted one.", "quantifier": "every reachable state of either store, every existing old and every new other than old, as long as no link shares its doublet with another at any point of the call; on the split store new is not null and no user of old refers to itself or is new", "why_tests_cant": "All stores and sets of users.", "anchors": ["doublets/src/data/traits.rs: rebase_and_delete, rebase_with, delete"]}
{"id": "C70", "title": "What deletion through CascadeUsagesResolver does in general", "statement": "The deletion of link i succeeds exactly when no other link has i at both ends. If one has, it fails with NotExists of such a link, keeps i, and has by then deleted all other links with target i and some with source i, and nothing else. After a successful deletion the links that refer to a deleted link are exactly the remaining ones that referred to a user of i.", "quantifier": "every lawful underlying store without duplicate doublets", "why_tests_cant": "All graphs.", "anchors": ["doublets-decorators/src/cascade_usages_resolver.rs", "doublets/src/data/traits.rs: delete_usages_with"]}
{"id": "C71", "title": "exist, try_get_link and search_or agree with lookups", "statement": "exist(i) is true exactly if the constants declare i external or there is a link i. try_get_link(i) is link i or NotExists(i). search_or(x,y,d), for ends that are neither null nor the wildcard, is the index of a link (x,y) or, if there is none, d. None of them panics.", "quantifier": "every reachable state of either store, every argument", "why_tests_cant": "All states and arguments.", "anchors": ["doublets/src/data/traits.rs: exist, try_get_link, search_or"]}
{"id": "C72", "title": "When a store can be opened and when reopening keeps all links", "statement": "Opening succeeds exactly if the allocations succeed and the slots granted can be counted in the index type. Reopening a store keeps every link exactly if the number of slots mapped is not the index of a link; otherwise that one link is lost (its lookup is out of bounds) and all other lookups are as before. For the split store, links are lost exactly if the largest index is a multiple of the step and at least a page and a step.", "quantifier": "every memory for opening; every reachable state of either store for reopening, every lawful allocator", "why_tests_cant": "All sizes, allocators and histories.", "anchors": ["doublets/src/mem/unit/store.rs: init, get_link", "doublets/src/mem/split/store.rs: init, align, get_link"]}
{"id": "C73", "title": "What count_by returns on the split store", "statement": "There is a number f, 0 if no index below a link is unused and otherwise the index the next creation returns. For a query without null ends count_by is the number of matching links, except: [i,x] for an index i counts link i only if both its ends are x; [any,x] is the sum of the count for source x and the number of links with target x; the count for source x, of [any,x,any], is the number of links with source x, or f if x is not a link and no link has a source that is not a link; if x is not a link, [any,x,y] is the count for source x whatever y is; otherwise [any,x,y] is 1 or 0. It overflows only if that number is not a value of the index type. For null ends: without unused indices such queries count 0, except that one for a source that is not a link and the null target counts the links with that source. With unused indices the query for a null source counts the links it visits (C67), or 0 if the link of highest index has no source; the one for a null target, which visits nothing, counts 0 exactly if every source is null or a link; [any,0] is the sum of the two; a query for two ends one of which is null counts what it visits, unless its source is not null and not a link, when the target is ignored.", "quantifier": "every reachable state of a split store, every query of at most three parts", "why_tests_cant": "All states and queries, including every arrangement of unused indices.", "anchors": ["doublets/src/mem/split/store.rs: count_links", "doublets/src/mem/split/generic/external_sources_recursion_less_tree.rs: count_usages", "doublets/src/mem/split/generic/internal_recursion_less_base.rs: count_usages_core"]}
{"id": "C74", "title": "What a read returns depends only on the contents", "statement": "Two stores of the same kind with the same links at the same indices, whatever their histories, memories and trees, answer every query alike: traversals visit the same links equally often, counts and searches return the same. On the split store a traversal by an existing source visits in ascending order of targets.", "quantifier": "every pair of reachable states with the same contents and unique doublets, every query of at most three parts; on the split store every such query without null ends", "why_tests_cant": "Histories leading to the same contents are unbounded, and the trees they leave differ.", "anchors": ["doublets/src/mem/unit/store.rs: each_core, count_links", "doublets/src/mem/split/store.rs: try_each_by_core, count_links", "doublets/src/mem/split/generic/internal_sources_recursion_less_tree.rs: each_usages_core"]}
{"id": "C75", "title": "Which links a split store finds after indices that links refer to were reused", "statement": "Say that link k is lost by its source (or target) e from the moment a creation returns e while k refers to it, or k, having a source, is updated to refer to itself, until e is deleted or k is removed. Lookups, the traversal of everything and the total are not affected by lost references. A query for a source (target) visits exactly the links with that source (target) that are not lost by it, each once. search(x,y) looks on one side, the target exactly if it exists and the source does not or more links are found by it, and finds a link (x,y) exactly if one is not lost on that side. Deleting the created link finds everything again.", "quantifier": "every history of creations, whatever index they return, and of updates and deletions of links that are not lost and the only ones to be found with their doublet, where updates give no source without a target", "why_tests_cant": "Histories are unbounded, and losses accumulate over them.", "anchors": ["doublets/src/mem/split/store.rs: create_links, resolve_danglind_external, resolve_danglind_internal, update_links, delete_links, try_each_by_core"]}
{"id": "C76", "title": "Index updates stay inside the memory and use current pointers", "statement": "Every access of a call to the memory, those of the tree and list algorithms through the accessors of the store included, is inside the mapped slots and goes through a pointer that the last growth of the memory has updated. The call returns the result and makes the handler calls stated in the other properties, and leaves all pointers current.", "quantifier": "every reachable state of either store, every create, update of a link without a twin and delete (on the split store those of C30), every allocator, every algorithms of the trees crate that meet their contract; for opening, every memory and every state of the pointers", "why_tests_cant": "A stale pointer or a wrong field shows only when the memory grows at the wrong moment or the algorithm takes a certain branch.", "anchors": ["doublets/src/mem/unit/store.rs: update_mem, init, create_links, update_links, delete_links", "doublets/src/mem/unit/generic/sources_recursionless_size_balanced_tree.rs", "doublets/src/mem/unit/generic/targets_recursionless_size_balanced_tree.rs", "doublets/src/mem/unit/generic/unused_links.rs", "doublets/src/mem/split/store.rs: update_mem, init, create_links, update_links, delete_links", "doublets/src/mem/split/generic/internal_recursion_less_base.rs", "doublets/src/mem/split/generic/external_recursion_less_base.rs", "doublets/src/mem/split/generic/unused_links.rs"]}
{"id": "C77", "title": "A crash at any single write never makes a link point elsewhere", "statement": "Kill the process after any single write of a call, also in the middle of an index update, and reopen the store. Every link the call was not about still has its ends in memory, a lookup returns exactly that link or reports it missing, and a traversal of everything shows nothing else under its index. A crash while opening has no effect on the next opening.", "quantifier": "every reachable state of either store, every create, update of a link without a twin and delete (on the split store those of C30), every write, every allocator before and after, every algorithms of the trees crate that meet their contract, every reopening that maps the links", "why_tests_cant": "Crash points inside index algorithms are numerous and cannot be hit on purpose by a test.", "anchors": ["doublets/src/mem/unit/store.rs: create_links, update_links, delete_links, init, get_link", "doublets/src/mem/unit/generic/sources_recursionless_size_balanced_tree.rs", "doublets/src/mem/unit/generic/unused_links.rs", "doublets/src/mem/split/store.rs: create_links, update_links, delete_links, init, get_link", "doublets/src/mem/split/generic/internal_recursion_less_base.rs", "doublets/src/mem/split/generic/external_recursion_less_base.rs", "doublets/src/mem/split/generic/unused_links.rs"]}
{"id": "C78", "title": "What can be read from a file with arbitrary contents", "statement": "Opening does not check the contents. Whatever they are, looking up an index afterwards either reports nothing or a link with that index, whose ends are the ones in its slot, and never leaves the memory, with one exception: the index equals the number of mapped slots and the recorded number of allocated links without being the first free one. A traversal of everything visits exactly the links that lookups find, in increasing order, each once. The total panics exactly if more slots are recorded as free than as allocated. Searches and traversals by an end can fail to return.", "quantifier": "every memory contents whatsoever, every allocator that grants the slots asked for, every index, every handler; both stores", "why_tests_cant": "Damaged files are as many as files; tests use files written by the library.", "anchors": ["doublets/src/mem/unit/store.rs: init, get_link, exists, each_core, total", "doublets/src/mem/split/store.rs: init, get_link, exists, try_each_by_core, total"]}
{"id": "C79", "title": "The changes reported to a handler, replayed, are the contents", "statement": "A handler that writes down the (before, after) pairs it is told holds a log of the store: replaying it on the contents before the call (nothing after = remove, otherwise set the link) gives the contents after the call, also if the call fails halfway; and at the moment of the k-th report the store is in a legal state with the contents after the first k changes, so that a handler that panics or aborts the process leaves no unreported change behind. This holds through any stack of decorators and for every method that takes a handler.", "quantifier": "every reachable state of either store, every list of decorators, create_with, update_with, delete_with, create_link_with, delete_query_with, delete_usages_with and rebase_with with any arguments, every handler whose answers depend on all it was told, every run whose single writes are supported by the store", "why_tests_cant": "Each composite method makes a data-dependent number of writes; tests check the first and last state.", "anchors": ["doublets/src/data/traits.rs: create_with, update_with, delete_with, create_link_with, delete_query_with, delete_usages_with, rebase_with", "doublets-decorators/src", "doublets/src/mem/unit/store.rs: create_links, update_links, delete_links", "doublets/src/mem/split/store.rs: create_links, update_links, delete_links"]}
{"id": "C80", "title": "Memory is bounded by the links that existed at once, and grows rarely", "statement": "However many links are created and deleted over time, the slots a store has mapped are at most the largest number of links that existed at the same time plus a constant (a step, two slots, and what the memory grants unasked; split store: a page, two steps and two slots). Each growth since the store was opened accounts for a whole step. Only a creation grows the memory, only when the links are numbered without gaps up to two slots below its end, and it asks for one step more.", "quantifier": "every history of create, update and delete calls with reopenings, every allocator that grants at most a fixed number of slots more than asked for; both stores", "why_tests_cant": "The bound is about the peak over a history, so a test only sees one history; a leak of slots shows after any number of calls.", "anchors": ["doublets/src/mem/unit/store.rs: init, create_links, delete_links", "doublets/src/mem/split/store.rs: init, create_links, delete_links"]}
{"id": "C81", "title": "Nested pairs are stored once and can be read back", "statement": "A client stores structured data as points (items) and as links returned by get_or_create for two halves (pairs), to any depth. Each call returns; no existing link changes; every new link is a part of the nested pair; and following sources and targets from the result shows the nested pair. As long as it is there, storing it again returns the same link and changes nothing. Two nested pairs are the same link exactly if they are equal, where the pair of an item with itself counts as the item. Lists of nested pairs share their parts in the same way and are read back with get_link; storing fails only if no link can be created.", "quantifier": "every nested pair and every list of nested pairs of points, every state in the hands of a client that creates points, asks for links between existing links and deletes unused links (C51), with reopenings; for lists every state without duplicates, over every tree crate with the weaker contract of C93; both stores", "why_tests_cant": "Nested pairs have unbounded depth and share parts with anything stored before; a wrong match at any depth makes different data equal.", "anchors": ["doublets/src/data/traits.rs: get_or_create, search, create_link", "doublets/src/mem/unit/store.rs: create_links, update_links, each_links", "doublets/src/mem/split/store.rs: create_links, update_links, each_links"]}
{"id": "C82", "title": "The file of a store has a fixed layout and determines the store", "statement": "Nothing a store writes is ever too large for the index type, so nothing is truncated. A link with index i is found in the file at byte 8*w*i (united store) or 2*w*i (data file of the split store), source first, in the byte order of the machine, where w is the size of the index type; the number of links can be computed from two words of the header. Reading the bytes of a store back gives that very store: links, free slots and search trees.", "quantifier": "every reachable store whose links have ends in the index type, every word size that holds the index type, both byte orders", "why_tests_cant": "A file outlives the program; a value that does not fit or a word at the wrong place shows up only in stores that are large enough, or in another process.", "anchors": ["doublets/src/mem/unit/raw_link.rs: LinkPart", "doublets/src/mem/header.rs: LinksHeader", "doublets/src/mem/split/data_part.rs: DataPart", "doublets/src/mem/split/index_part.rs: IndexPart", "doublets/src/mem/unit/store.rs: get_header, mut_link_part", "doublets/src/mem/split/store.rs: get_header, mut_index_part, mut_data_part"]}
{"id": "C83", "title": "A power loss never changes a link that no call was about", "statement": "The power fails at any moment of a session of calls, and the file is left as any mixture, word by word, of what it was since it was last on disk as a whole. After opening it, every link that was in the store back then and that no call was about still has its ends: lookup returns exactly that link or reports it missing, and a traversal shows nothing else under its index. Searching by content is not guaranteed: a mixture of two memories at rest exists in which such a link is looked up but not found by its ends.", "quantifier": "every reachable store, every session of creations, updates and deletions with any handlers and allocators, every implementation of the tree algorithms, every mixture of the memories after single assignments", "why_tests_cant": "The order in which pages reach the disk is up to the system; the number of mixtures is exponential in the number of assignments.", "anchors": ["doublets/src/mem/unit/store.rs: create_links, update_links, delete_links, with_constants", "doublets/src/mem/split/store.rs: create_links, update_links, delete_links, with_constants", "doublets/src/mem/header.rs: LinksHeader", "doublets/src/mem/unit/raw_link.rs: LinkPart", "doublets/src/mem/split/data_part.rs: DataPart"]}
{"id": "C84", "title": "Decorators on top of each other keep what the validators guarantee", "statement": "A store is wrapped in UniqueValidator and then in any decorators, in any order and number, and used only through the outermost: no two links ever have the same doublet. If UsagesValidator is next to UniqueValidator, in either order, and no resolver of doublets is on top, every reference always names a link. The order of the two validators matters only for the reason given in a refusal. The composite methods stay within these histories.", "quantifier": "every stack of decorators, every history of creations, updates and deletions through it with any handlers, whether they succeed or not; updates between two null ends or two ends other than null and the wildcard (for references: two ends that name links); on the split store plain stacks over both validators", "why_tests_cant": "The number of stacks and of histories through them is unbounded; each decorator calls the others through its inner store.", "anchors": ["doublets-decorators/src/unique_validator.rs", "doublets-decorators/src/unique_resolver.rs", "doublets-decorators/src/cascade_unique_resolver.rs", "doublets-decorators/src/usages_validator.rs", "doublets-decorators/src/cascade_usages_resolver.rs", "doublets-decorators/src/non_null_deletion_resolver.rs"]}
{"id": "C85", "title": "Threads that share a store see it one call at a time", "statement": "Reads of a store do not write to it, so any number of threads may read at the same time. If threads share a store under a reader-writer lock, then in every schedule, down to single loads and assignments, the results are those of the same calls made one after the other in the order in which they returned; nobody panics, no call is stuck, and there is no deadlock. Without the lock a reader can be told of a link that never existed, or that an existing link is missing.", "quantifier": "every schedule of every number of threads, whose programs depend in any way on the results they have got, with calls of get, each, count, create, update and delete that are supported when the threads run one at a time; every implementation of the trees crate that meets the contract", "why_tests_cant": "The number of interleavings is unbounded and a test sees only the few the scheduler happens to choose.", "anchors": ["doublets/src/mem/unit/store.rs", "doublets/src/mem/split/store.rs", "doublets/src/mem/unit/generic/sources_recursionless_size_balanced_tree.rs", "doublets/src/mem/split/generic/internal_recursion_less_base.rs"]}
{"id": "C86", "title": "Texts written as chains of links are read back", "statement": "A client writes texts, one after the other, as chains of links: a root, an alias for every symbol, and links from each of them to the next. If no call fails then reading from each root gives exactly the text that was written there, however the indices of the new links relate to the symbols. Links that were there do not change and texts that were there stay readable, also when the memory runs out in the middle of a text. Where a source refers to an index that is not a link yet, a text in the united store can be read wrongly; a text with a null symbol in the split store cannot be read.", "quantifier": "every list of texts of any length over any symbols, written to any reachable store in which the source of every link is null or a link", "why_tests_cant": "A test writes a few texts to a fresh store; the indices that creations return, their order, and whether a symbol is or becomes an index depend on the whole history.", "anchors": ["doublets/tests/seq.rs", "doublets/src/data/traits.rs", "doublets/src/mem/unit/store.rs", "doublets/src/mem/split/store.rs"]}
{"id": "C87", "title": "A C client can know the store from what it is told", "statement": "A client of the C interface starts with a table of the links of the store and makes any calls of SmartCreate, SmartUpdate, Create, Update, Delete, Each and Count, with raw queries of any length, and answers its callbacks in any way. If it changes the table from the returned codes and the arguments of its callbacks alone, and never writes to a link whose doublet another link of its table has, then after every call the table is the contents of the store, and every call answers as the table says: which codes are returned, how often and with which links callbacks are called, what traversals show and counts return. With legal arguments, and memory that can be counted, every call returns.", "quantifier": "every session: any list of calls with any arguments, any answers of the callbacks depending on all that was told before, from any reachable united store", "why_tests_cant": "A session is a history; tests fix a few calls and answers.", "anchors": ["doublets-ffi/src/lib.rs", "doublets/src/data/traits.rs", "doublets/src/mem/unit/store.rs"]}
{"id": "C88", "title": "Which constants a store can be given", "statement": "A store is opened with constants of the caller's choice and does not check them. The constants for continue, break, skip, itself and error and the external range never change an answer of a store. Each of the others must be as usual: with null other than 0 a new store reports index 0 for every creation and creates nothing; links below the start of the internal range cannot be read, counted, updated or deleted, though the first link still gets index 1; with an internal range that ends above the index type the limit is never reported; if the index is not the first position, queries with one part are not answered; with exchanged positions of source and target queries are read exchanged but updates are not; and a link whose index is any cannot be asked for, and on a split store deleting it spoils the answers about other links.", "quantifier": "all configurations, all states of the store, all queries and handlers (the last point is one history)", "why_tests_cant": "The number of choices of constants is unbounded; tests use the default.", "anchors": ["doublets/src/mem/unit/store.rs: with_constants, create_links, exists, each_core, count_links", "doublets/src/mem/split/store.rs: with_constants, create_links, resolve_danglind_internal", "doublets-ffi/src/lib.rs: constants"]}
{"id": "C89", "title": "Every network can be stored, and a store can be copied link by link", "statement": "Whatever links are to be stored, if their indices are distinct and in the internal range and there is memory for the highest, a client can give them to a fresh store: it creates links up to the highest index, deletes those not wanted and updates the others; all these calls succeed and the store then has exactly these links. So the possible contents of a united store are exactly the maps with indices in the internal range, of a split store those in which also every link with a source has a target. What a whole traversal of a store visits, stored in this way in a fresh store of either kind, with other memory, tree crate or index type, gives a store with the same contents. Only the indices of later creations may differ.", "quantifier": "all lists of links, all reachable stores, all configurations (the last point is one example)", "why_tests_cant": "Networks are unbounded in size and shape; a test stores a few.", "anchors": ["doublets/src/data/traits.rs: create, update, delete, each", "doublets/src/mem/unit/store.rs: create_links, update_links, delete_links, each_core", "doublets/src/mem/split/store.rs: create_links, update_links, delete_links, try_each_by_core"]}
{"id": "C90", "title": "A crashed or damaged store can be recovered by copying what a traversal visits", "statement": "Whatever is in the memory of a store, if it can be opened and the traversal of everything ends, then storing what the traversal visits in a fresh store, link by link, succeeds, and in the copy lookups return what they returned in the damaged store; into a split store this holds of all links except those that have a source but no target. The copy is a sound store, of which every other property holds, even where searches or changes of the damaged one are undefined. After a crash at any point inside a call the traversal ends, and the copy has every link the call was not about (in a split store: whose target was not being deleted); what else it has is the link the call was about or holds the null doublet. After a power failure, in which every word of the file may be old or new, the traversal ends as well, and under the index of a link no call was about the copy has that link or none. If threads share the store when the process dies or the power fails, the same holds of every link that was there at the start and that none of their requests is about, and after a crash of the process of every link that the finished requests leave and that nobody who is writing is about; for threads that only build these are all links that were there and all that were returned to anybody.", "quantifier": "all memories that open, all reachable stores, calls, crash points, mixtures of old and new words, schedules of threads, allocators and configurations", "why_tests_cant": "A test can interrupt a few calls at a few points and cannot produce every damaged file.", "anchors": ["doublets/src/mem/unit/store.rs: init, each_core, get_link, create_links, update_links, delete_links", "doublets/src/mem/split/store.rs: init, try_each_by_core, get_link, create_links, update_links, delete_links"]}
{"id": "C91", "title": "From any contents to any other; every change can be undone", "statement": "A client that can read a store in which no two links have the same non-null ends can take it, on the same memory, to any other contents: nulling and deleting all links and storing the others one by one succeeds, as long as there is memory, and the store then has exactly the wanted links (in a split store: any links except ones with a source and no target). In particular it can always go back to the contents the store had at an earlier time. Some changes are undone by fewer calls: a creation by deleting the new link, an update by an update, the deletion of a link other than the highest by a creation and an update. The deletion of the highest link is not in general undone in this way.", "quantifier": "all reachable stores without duplicate doublets, all wanted contents, all allocators that have room", "why_tests_cant": "A test can undo a few changes of a few stores.", "anchors": ["doublets/src/mem/unit/store.rs: create_links, update_links, delete_links", "doublets/src/mem/split/store.rs: create_links, update_links, delete_links"]}
{"id": "C92", "title": "Queries nest few calls", "statement": "Traversals by source or target call themselves recursively. Whatever the query and the handler, on a store with n links that was left by calls of the API no more than n + 1 of these calls are ever nested, no more than two besides the number of levels of the trees, and if the trees of the external crate are size-balanced no more than 2 log2(n + 1) + 1: a stack of that depth gives the same result as any other. In a damaged file, which the store opens without complaint, the nesting can exceed any stack.", "quantifier": "all reachable stores, queries, handlers and stack depths", "why_tests_cant": "A test sees the depth of a few queries on small stores.", "anchors": ["doublets/src/mem/unit/generic/sources_recursionless_size_balanced_tree.rs: each_usages_core", "doublets/src/mem/unit/generic/targets_recursionless_size_balanced_tree.rs: each_usages_core", "doublets/src/mem/split/generic/internal_sources_recursion_less_tree.rs: each_usages_core", "doublets/src/mem/split/generic/internal_targets_recursion_less_tree.rs: each_usages_core", "doublets/src/mem/split/generic/external_sources_recursion_less_tree.rs: each_usages_core", "doublets/src/mem/split/generic/external_targets_recursion_less_tree.rs: each_usages_core"]}
{"id": "C93", "title": "Clients that make no duplicates need less of the tree crate", "statement": "The tree crate may tell nodes apart by comparing them only: it need not work on a tree that holds two equal nodes. Over every such crate, as long as no update makes two links with the same ends, every call on either store does what it should; in particular a client that creates points, asks with get_or_create for the link between two links and deletes links nobody uses never notices. With two such links in the store, deleting a third link that has no duplicate can leave a query that never returns.", "quantifier": "all tree crates that work on distinguishable nodes, all histories without duplicates, all calls", "why_tests_cant": "A test runs over the one crate it is linked with, on a few trees; which trees break depends on the order in which the links came.", "anchors": ["doublets/src/mem/unit/store.rs: update_links, delete_links", "doublets/src/mem/split/store.rs: update_links, delete_links, resolve_danglind_internal", "doublets/src/mem/unit/generic/sources_recursionless_size_balanced_tree.rs: first_is_to_the_left_of_second_4", "doublets/src/data/traits.rs: get_or_create"]}
{"id": "C94", "title": "Tree algorithms that find nodes by comparing them are enough, assignment by assignment", "statement": "Suppose the tree crate's algorithms, using the accessors of the store only, do what they should on trees whose nodes can all be told apart by comparing, and nothing is known about them on other trees. As long as no update makes two links with the same ends, every call made through the accessors does what it should; a crash after any single assignment, or a power loss that keeps any mixture of old and new words, leaves the ends of every link no call was about; and under a reader-writer lock every schedule of threads gives results of the calls made one at a time, without panics and without deadlock. The published size-balanced tree algorithm is such a crate.", "quantifier": "all tree crates that work on distinguishable nodes, all histories without duplicates, all calls, all crash points, all power losses, all schedules of any number of threads", "why_tests_cant": "A test runs one crate on a few trees; which words reach the disk and which thread runs next cannot be enumerated.", "anchors": ["doublets/src/mem/unit/generic/sources_recursionless_size_balanced_tree.rs: first_is_to_the_left_of_second_4, get_mut_left_reference, clear_node", "doublets/src/mem/split/generic/internal_sources_recursion_less_tree.rs: attach, detach", "doublets/src/mem/unit/store.rs: update_links, delete_links", "doublets/src/mem/split/store.rs: update_links, delete_links"]}
{"id": "C95", "title": "The split store's own methods tell which indices are in use", "statement": "After every supported history exists(i) is true exactly when there is a link with index i, is_unused(i) and is_virtual(i) exactly when there is none, and get_data_part(i) of a link returns its ends.", "quantifier": "all supported histories of a split store, all numbers i", "why_tests_cant": "Which slots look unused depends on the trees and the list of free indices that the whole history left behind.", "anchors": ["doublets/src/mem/split/store.rs: exists, is_unused, is_virtual, get_data_part"]}
{"id": "C96", "title": "Every index of a store can search for a pair", "statement": "Asked for a pair (x, y), each index of a store that covers the pair returns the index of a link with that pair if there is one and 0 if there is none. In a united store the index of sources covers pairs with a source and the index of targets pairs with a target. In a split store the index inside of link x, the index inside of link y, and the external ones for ends that are not links cover it.", "quantifier": "all histories, all pairs", "why_tests_cant": "Whether the comparison and the descent fit the order of the tree shows only in trees of a certain shape.", "anchors": ["doublets/src/mem/unit/generic/targets_recursionless_size_balanced_tree.rs: search", "doublets/src/mem/unit/generic/sources_recursionless_size_balanced_tree.rs: search", "doublets/src/mem/split/generic/external_targets_recursion_less_tree.rs: search", "doublets/src/mem/split/generic/internal_targets_recursion_less_tree.rs: search"]}
{"id": "C97", "title": "What the decorators for unique doublets do in general", "statement": "For every index i and every pair of ends (a, b), null and the wildcard included, over a united store. A link is taken for (a, b) if its ends match, the wildcard matching everything, except that nothing is if a is null, or a is the wildcard and b null. If no link is taken for the pair, the update through UniqueValidator, UniqueResolver or CascadeUniqueResolver is that of the store. Otherwise UniqueValidator refuses it with AlreadyExists; the resolvers choose such a link, delete i (the cascading one after replacing i by the chosen link everywhere), give the chosen link the ends (a, b) whatever its ends were, and return it; if the chosen link is i, it is deleted and the call fails with NotExists. UniqueValidator lets a duplicate in exactly if the pair is not (0, 0) and a is null, or a is the wildcard and b null. Over a split store the resolvers do the same for all ends that are not null; UniqueValidator never lets a duplicate of such a pair in, but, if a is not a link, refuses the update if some link has the source a, whatever its target, and also if no link has a source that is not a link and some index below a link is unused.", "quantifier": "all histories of a united store, all indices, all pairs of ends, all handlers; on the split store all pairs of ends that are not null", "why_tests_cant": "Which link a search meets first, and whether a pair can be found at all, depends on the tree the history left and on which ends are null or wildcards.", "anchors": ["doublets-decorators/src/unique_validator.rs: UniqueValidator", "doublets-decorators/src/unique_resolver.rs: UniqueResolver", "doublets-decorators/src/cascade_unique_resolver.rs: CascadeUniqueResolver"]}
{"id": "C98", "title": "A split store works on memories that grant more than is asked for", "statement": "A split store on memories that grant at least the slots they are asked for, as a united store may have, serves every supported history without panicking.", "quantifier": "all histories, all memories that grant at least what is asked for", "why_tests_cant": "Whether the two memories stay alike depends on every growth in the past.", "anchors": ["doublets/src/mem/split/store.rs: init, create_links"]}
{"id": "C99", "title": "Whatever ends an update gives a link of the split store, the link is still there", "statement": "An update of an existing link that reports success leaves a link with the given ends, null or not: lookups return it, it can be updated and deleted again, and deleting other links does not change it or any other link.", "quantifier": "all reachable split stores, all existing links, all ends", "why_tests_cant": "Which link a later deletion damages depends on which indices are free and which link is the highest at that moment.", "anchors": ["doublets/src/mem/split/store.rs: update_links, is_unused, get_link, delete_links"]}
{"id": "C100", "title": "What find, single and found return, for every query", "statement": "find(q) returns a matching link if there is one; single(q) returns one of the matching links if q gives source and target, and otherwise the only matching link unless q is [any,x] and it has x at both ends; found(q) tells if a link matches. Exceptions: on the united store all three find nothing when null ends are asked for; on the split store found([i,x]) is true only if both ends of i are x, found([any,x]) and found([any,x,any]) are true also when x is no link, no source dangles and some index below a link is unused, and found([any,x,y]) ignores y when x is no link.", "quantifier": "every reachable state of both stores, every query of at most three parts (split store: find and single for null ends only return links of the store)", "why_tests_cant": "Which answer is given depends on how many links match and on which indices are in use.", "anchors": ["doublets/src/data/traits.rs: find, single, found", "doublets/src/mem/unit/store.rs: each_links, count_links", "doublets/src/mem/split/store.rs: each_links, count_links"]}
{"id": "C101", "title": "Lists of sources keep their order under every history", "statement": "Starting with empty lists, attach links before the first or after the last element of the list of any source and detach them, in any order: no call panics although set_last does nothing; afterwards each_usages visits exactly the links that the same operations leave in the list on paper, in that order, count_usages is its length and get_last its last element. Other lists, the links themselves and the indexes of targets are not touched.", "quantifier": "every sequence of calls on every number of lists in which a link is attached only when it is in no list and detached only from the list it is in", "why_tests_cant": "Lists share their pointers with each other; a wrong neighbour shows only after particular orders of calls, and the missing last pointer only when something is attached behind.", "anchors": ["doublets/src/mem/split/generic/internal_sources_linked_list.rs: InternalSourcesLinkedList, get_first, get_last, set_first, set_last, set_size, set_next, set_previous, each_usages, count_usages"]}
{"id": "C102", "title": "Threads that build a network together never duplicate or lose a link", "statement": "Threads share a store under a reader-writer lock and hold the lock for the whole of create_point, get_or_create or delete, as &mut self requires. Whatever the schedule, the results are those of the methods run one at a time in the order in which they returned. If the threads only look, make points and call get_or_create on links they know of, then at every moment nothing has been lost or changed, returned points are new and all different, everybody who asked for the link from x to y has got the same link, it is the only one with these ends, every link is an old one or has been returned to somebody, and the ends of links are links. Making the very same calls under the lock one by one, letting go in between, may end with two links from x to y.", "quantifier": "every number of threads, every schedule down to single loads and assignments, every program of the threads that depends on the results they have got, every start that a careful client has made", "why_tests_cant": "A test runs a few schedules; a duplicate appears only if two searches happen before the first creation.", "anchors": ["doublets/src/data/traits.rs: create_point, create_link, create_link_with, search, get_or_create, delete", "doublets/src/mem/unit/store.rs: Store, Sync", "doublets/src/mem/split/store.rs: Store, Sync"]}
{"id": "C103", "title": "A crash while threads share a store changes no finished link", "statement": "Threads share a store as in C102 and run any methods, when the process dies at any moment of the schedule, also in the middle of an assignment sequence of a writer, or the power fails and every word of the file is what it was at some moment since the file was last on disk. After a power failure the links that were there back then and that none of the requests is about are not changed. After a crash the links that the finished requests leave, and that no unfinished request is about, are not changed, and if nobody was writing the memory is exactly that of the finished requests. Not changed means: the memory holds their ends, lookup returns exactly the link or reports it missing, and the traversal of everything visits nothing else under their index. For threads that only build (C102) this holds of all links that were there and of all that have been returned to anybody, whatever is under way.", "quantifier": "every number of threads, every schedule down to single loads and assignments, every program of the threads, every moment, every mixture of words, every allocator", "why_tests_cant": "A crash test stops at a few moments of a few schedules.", "anchors": ["doublets/src/data/traits.rs: create_point, create_link, get_or_create, delete", "doublets/src/mem/unit/store.rs: Store, Sync, create_links, update_links, delete_links", "doublets/src/mem/split/store.rs: Store, Sync, create_links, update_links, delete_links"]}
{"id": "C104", "title": "A handler that panics leaves a sound store with exactly the changes it was told", "statement": "A handler passed to a write panics and the panic is caught outside. If the call was a single create, update or delete, the store is exactly the one the call leaves when the handler returns. In any other method that takes a handler, and through any stack of decorators, the store left is one that ordinary calls can reach, and its contents are those before the call with the changes told to the handler made, including the one at which it panicked, and no others; so deletions are stopped after the links reported, and creating a link with ends can leave a link with null ends. A handler that does not panic gets the same outcome as ever.", "quantifier": "every state for single writes, every reachable state of either store otherwise, every list of decorators, every method that takes a write handler with any arguments, every handler whose answers and panics depend on all it was told, every change at which it panics, every call whose single writes are supported by the store", "why_tests_cant": "Tests let a handler panic in a few places of a few calls.", "anchors": ["doublets/src/data/traits.rs: WriteHandler, create_by_with, update_by_with, delete_by_with, create_link_with, delete_query_with, delete_usages_with, rebase_with", "doublets/src/data/handler.rs: Fuse", "doublets/src/mem/unit/store.rs: create_links, update_links, delete_links", "doublets/src/mem/split/store.rs: create_links, update_links, delete_links", "doublets-decorators/src: UniqueValidator, UniqueResolver, CascadeUniqueResolver, UsagesValidator, CascadeUsagesResolver, NonNullDeletionResolver"]}
{"id": "C105", "title": "A crash makes no link up", "statement": "The process dies after any single assignment inside a call, also inside the tree algorithms, and the memory is reopened. Every link that a lookup or a traversal of the whole store then shows was in the store before the call with these very ends, or is the link the call was updating, with the ends it was given, or has no source. Links without a source are excepted because they can be made up: a create that is interrupted can show a link from nothing to a link that was deleted. A power loss, where part of what was assigned does not reach the disk, can make links up: after two deletions a link is found with ends it never had, on the split store already when the data file reaches the disk and the index file does not.", "quantifier": "every reachable state of either store, every call the store supports, every assignment at which the process dies, every implementation of the tree algorithms that keeps its contract, every handler, every allocator, every length the file is given when it is reopened", "why_tests_cant": "Tests kill a process at a few places and compare a few links.", "anchors": ["doublets/src/mem/unit/store.rs: create_links, update_links, delete_links, init, is_unused, exists, get_link", "doublets/src/mem/unit/: attach, detach, clear_node", "doublets/src/mem/split/store.rs: create_links, update_links, delete_links, init, is_unused, exists, get_link", "doublets/src/mem/split/: attach, detach, clear_node", "doublets/src/mem/unit/generic/unused_links.rs", "doublets/src/mem/split/generic/unused_links.rs"]}
{"id": "C106", "title": "A power loss while a network only grows makes no link up", "statement": "A store has a link under every index below its highest one, and the calls since its file was last on disk delete nothing. The power fails at any moment, and the file is left as any mixture of its old words and the words written since. Every link that a lookup or a traversal of the whole store then shows has as source the source it had, or one that a call gave this very link, or null if it is new, and likewise its target. If the calls give ends only to links without ends, and to each once, then every link shown with two ends was in the store with these ends, or a call gave it these two ends; copying the links with two ends to a fresh store gives a sound store with real links only. If a link is given ends twice, it can be shown with the source of one call and the target of the other.", "quantifier": "every reachable state of either store without unused indices, every sequence of calls without deletions, every moment of the power loss, every mixture of old and new words, every implementation of the tree algorithms that keeps its contract, every allocator, every length the file is given when it is reopened", "why_tests_cant": "Tests cannot produce every mixture of written and unwritten sectors.", "anchors": ["doublets/src/mem/unit/store.rs: create_links, update_links, init, get_link, exists, is_unused", "doublets/src/mem/split/store.rs: create_links, update_links, init, get_link, exists, is_unused", "doublets/src/mem/unit/raw_link.rs: LinkPart", "doublets/src/mem/split/data_part.rs: DataPart", "doublets/src/mem/split/index_part.rs: IndexPart"]}
{"id": "C107", "title": "Threads that own different links do not notice each other", "statement": "Threads share a store under a reader-writer lock. Every link has at most one owner. A thread updates and deletes only links it owns, and looks up only links that nobody else owns. Then, in every schedule, down to single loads and assignments, each thread gets exactly the results (return values and what its handlers are shown) that it would get from a private map of the links; its links are what this private run makes of them, and links without owner do not change. If the next call of a thread is determined by its results so far, then all schedules that finish give every thread the same results and end with the same links. Threads that use links as cells, each with a target of its own that updates keep, need no further condition.", "quantifier": "every schedule of every number of threads, whose programs depend in any way on the results they have got, with calls of get, update and delete that are supported when the threads run one at a time; every implementation of the trees crate that meets the contract; both stores", "why_tests_cant": "The links of all threads are in the same two trees, and the deleted ones in the same list; tests run a few schedules.", "anchors": ["doublets/src/mem/unit/store.rs: get_link, update_links, delete_links, attach_source, attach_target, detach_source, detach_target", "doublets/src/mem/split/store.rs: get_link, update_links, delete_links", "doublets/src/mem/unit/generic/unused_links.rs", "doublets/src/mem/split/generic/unused_links.rs"]}
{"id": "C108", "title": "What storing a pair through a decorator does", "statement": "create_link(a, b) creates a link and then updates it, and the decorators act on the update. Over UniqueResolver, in a store with unique doublets, it returns the one link that is (a, b): the old one, with the contents unchanged, if there is one, a new one otherwise; over CascadeUniqueResolver too, if links refer to existing links only, while a reference to a missing index can be redirected. Over UniqueValidator it fails with AlreadyExists if the pair is there, but the created link stays behind with null ends: n failing calls leave n null links, until the store is full; get_or_create has no such effect. Over UsagesValidator it fails with HasUsages, and leaves a null link, exactly if some link refers to the index of the new link already. A refusal by the store itself changes nothing.", "quantifier": "every reachable state, every pair of ends that are neither null nor the wildcard (for UniqueValidator over the united store every pair, over the split store every pair without null), every number of calls", "why_tests_cant": "That a failed call leaves a link behind shows only if one counts the links afterwards, and the store fills up only after many calls.", "anchors": ["doublets/src/data/traits.rs: create_link, create_link_with, get_or_create", "doublets-decorators/src/unique_validator.rs", "doublets-decorators/src/unique_resolver.rs", "doublets-decorators/src/cascade_unique_resolver.rs", "doublets-decorators/src/usages_validator.rs"]}
{"id": "C109", "title": "A batch of changes to different links can be made in any order", "statement": "Take updates and deletions of different links such that no two updates are to the same doublet and none is to a doublet another link has (null doublets excepted). In whatever order the calls are made, every call succeeds, every link named is what its change makes of it, every other link is as before, and doublets are unique; two orders end with the same links. So a client may collect all links with a traversal and update each to f(link), whatever order the traversal yields. The order shows only later, in the indices that creations return.", "quantifier": "every reachable state with unique doublets, every list of changes (of any length) that meets the condition, every permutation of it, every function f", "why_tests_cant": "The number of orders grows with the factorial of the length, and every order builds other trees and another list of unused links.", "anchors": ["doublets/src/data/traits.rs: update, delete, each_iter", "doublets/src/mem/unit/store.rs: update_links, delete_links", "doublets/src/mem/split/store.rs: update_links, delete_links"]}
{"id": "C110", "title": "An import can be run again", "statement": "A client loads data with a list of get_or_create calls, whose operands are existing links and results of earlier calls. On a store without duplicates the list always comes to an end: no existing link changes, each result is the link between the operands of its call, no other link is new, and there are still no duplicates; or a call fails and the calls before it stay done. Running the list again, after it was stopped at any point or failed, and after anything else happened that left the links it already returned, the links it names and the absence of duplicates as they were, returns the same links for the calls that were finished, changes nothing for them and goes on from there. So an import that went through changes nothing the second time.", "quantifier": "every list of calls, every reachable state without duplicates, every later state that still has the results", "why_tests_cant": "An import may be stopped at any call, and any history may come between the two runs.", "anchors": ["doublets/src/data/traits.rs: get_or_create, search, create_link", "doublets/src/mem/unit/store.rs", "doublets/src/mem/split/store.rs"]}
{"id": "C111", "title": "The network that imports build does not depend on their order, up to numbering", "statement": "Several threads share a store and each runs an import (C110), one get_or_create at a time, in any order. The calls all return. Any two orders in which all imports are finished build the same network: the links there were before correspond to themselves, the result of a call under one order to the result of that call under the other; this correspondence is one-to-one, covers all links of both networks and respects sources and targets. So two imports may be made in either order. The same holds for two stores with the same contents, of any history, memory, index type, tree crate and kind (united or split).", "quantifier": "every set of imports, every two orders of their calls, every two reachable stores with equal contents, without duplicates and with ends that are null or links", "why_tests_cant": "The number of orders is exponential in the number of calls, and the indices that are returned differ between them.", "anchors": ["doublets/src/data/traits.rs: get_or_create, search, create_link", "doublets/src/mem/unit/store.rs", "doublets/src/mem/split/store.rs"]}
{"id": "C112", "title": "Parallel iteration handles each link once", "statement": "par_iter and par_each_iter(query) give rayon the vector of the links a traversal visits. However rayon divides the vector among its workers, and in whatever order the workers handle the items, every link the traversal visits is handled exactly once and nothing else is; for par_iter these are exactly the links of the store. So counters and other shared updates that commute end as after a sequential traversal, map followed by reduce with an associative operation gives the sequential result, and map followed by collect gives the results in traversal order.", "quantifier": "every reachable state of either store, every query (split store: without null ends) whose count returns, every way of dividing the vector, every order of the workers, every client function", "why_tests_cant": "How rayon divides and schedules the work differs from run to run and from machine to machine.", "anchors": ["doublets/src/data/traits.rs: DoubletsExt, par_iter, par_each_iter, each_iter"]}
{"id": "C113", "title": "A client can delete everything it does not get to from its roots", "statement": "On a store with unique doublets a client collects all links, marks those it gets to from some roots by following sources and targets, and deletes the others one by one, in any order. Every deletion succeeds; afterwards exactly the links it gets to from the roots are there, with the ends they had; doublets are unique, and if all ends were null or links before, they are afterwards.", "quantifier": "every reachable state of either store with unique doublets, every list of roots, every order of the deletions, cycles and points included", "why_tests_cant": "The result depends on the shape of the whole network and every order of deletions goes through other states, some with dangling references.", "anchors": ["doublets/src/data/traits.rs: each_iter, delete", "doublets/src/mem/unit/store.rs: delete_links", "doublets/src/mem/split/store.rs: delete_links"]}
{"id": "C114", "title": "Builds with and without overflow checks behave the same, except for one count", "statement": "A store compiled without overflow checks (a release build) gets to exactly the states a store compiled with them gets to, and does exactly the same in every create, update and delete call, traversal and lookup. Any client program that runs without a panic in the checked build computes the same and leaves the same store in the unchecked one, in every state, reachable or not. No count panics without the checks: it is the number of visits of the traversal; only the count of the links with a given end, which panics with the checks if it overflows, is then reduced modulo the size of the index type.", "quantifier": "every reachable state of either store, every call and every client program whose calls may depend on earlier results; for the last part every query of at most three parts", "why_tests_cant": "Tests run in one build mode, and the wrap shows only when more visits are counted than the index type has values.", "anchors": ["doublets/src/mem/unit/store.rs: get_total, count_links, create_links, delete_links", "doublets/src/mem/split/store.rs: total, count_links, create_links, delete_links", "doublets/src/mem/unit/generic/sources_recursionless_size_balanced_tree.rs: count_usages", "doublets/src/data/traits.rs: count_usages"]}
{"id": "C115", "title": "The index type does not matter as long as its range is not exceeded", "statement": "Two stores of the same kind but of different index types (another highest index, other reserved values) that served the same calls gave the same results and have the same links, if the narrower one never met its limit and no memory ran out. If the links of two stores are the same and no two of them have the same doublet, a query written through the constants of each store visits the same links equally often in both, a count that both index types can represent is the same in both, and so is the result of a search.", "quantifier": "every pair of index types, every history of calls, every query of at most three parts whose parts that are meant as indices are not the reserved value for any of either store", "why_tests_cant": "Tests use one or two index types; that no limit, reserved value or arithmetic of the type shows through needs a proof about all of them.", "anchors": ["doublets/src/mem/unit/store.rs: create_links, each_core, count_links", "doublets/src/mem/split/store.rs: create_links, each_links, count_links", "doublets/src/data/traits.rs: search"]}
{"id": "C116", "title": "A careful client cannot tell which store it uses", "statement": "A client makes calls one after another, each of which may depend on the results of those before: create, update, delete, get, counts, traversals, searches and listings of all links; create_point, create_link and get_or_create are sequences of these. If it makes only calls that the split store supports, asks only queries that are answered exactly, does not name reserved values, does not depend on the order of visits except in listings and stays below the limit, it computes on a store what it computes on a map from indices to pairs, which is one thing only, and leaves the same links behind. So it computes the same on a united and a split store, and on two stores of a kind with other index types, memories or trees. So do threads that share a store and take turns in the same order. If memory never grows beyond the index type, it never meets a panic: it finishes or memory runs out.", "quantifier": "every adaptive client program of any length, every schedule of threads, every history before it, both stores, every configuration", "why_tests_cant": "Tests compare a few fixed scripts on one pair of stores; interchangeability is a statement about every client.", "anchors": ["doublets/src/data/traits.rs: Links, Doublets, create, update, delete, search, count_by, each_by, get_link", "doublets/src/mem/unit/store.rs: Store", "doublets/src/mem/split/store.rs: Store"]}
{"id": "C117", "title": "A careful client does the same through the C interface", "statement": "A client follows a program of calls, each of which may depend on the results of those before, through the C interface. All it has are the codes that calls return and what its callbacks are given: it creates with SmartCreate, updates with SmartUpdate, deletes with Delete, looks links up, lists them and searches with Each, and counts with Count. If it is careful in the sense of C116, it gets at every point what the same program gets through the Rust interface and leaves the same store behind. So what it computes is what the program computes on a map, and the same as a Rust client of a split store computes.", "quantifier": "every adaptive client program of any length, every history of a united store before it, every configuration", "why_tests_cant": "Tests of the C interface make a few calls; that nothing is lost in codes and callbacks is a statement about every program.", "anchors": ["doublets-ffi/src/lib.rs: smart_create_united, smart_update_united, delete_united, each_united, count_united", "doublets/src/data/traits.rs: Doublets"]}
{"id": "C118", "title": "Restarts do not show to a careful client", "statement": "A client follows a program of calls, each of which may depend on the results of those before. Between any two calls its process may end, any number of times; a new one opens the store again, on a memory of any kind that is mapped far enough, and goes on. If the client is careful in the sense of C116, it computes what the program computes on a map, so the same as with restarts at other points or none, on a united or a split store. It leaves the same links behind and the same indices to be given out. If the index type has as many values as memory grows by, a united store can always be opened again in this way.", "quantifier": "every adaptive client program of any length, every number and placement of restarts, every history before it, both stores, every configuration", "why_tests_cant": "Tests reopen a file once or twice at chosen points; there are exponentially many placements of restarts in every program.", "anchors": ["doublets/src/mem/unit/store.rs: Store::new, with_constants, init", "doublets/src/mem/split/store.rs: Store::new, with_constants, init", "doublets/src/data/traits.rs: Doublets"]}
{"id": "C119", "title": "The programs of the README", "statement": "The loops of the README that make points do so for every number of points: on a store without links, new or emptied, united or split, the points are numbered 1 to n and the count is n, or the loop stops with the error that memory ran out or that all indices are taken, and the points made before are there. Its first program makes a point and a link, shows the count, all links and those from the point, updates the link, deletes it and deletes all: it prints the links it made and leaves none behind.", "quantifier": "every number of points, every store without links, every index type and allocator, both stores, every tree crate that works on nodes it can tell apart by comparing", "why_tests_cant": "A test runs the example over one crate and one number of points; whether it works for a million points, for every index type and over every tree crate is not settled by that.", "anchors": ["README.md: Example, Using In-Memory Storage, Using Split Storage", "doublets/src/data/traits.rs: Doublets::create_point, create_link, update, delete_with, delete_all", "doublets/src/mem/unit/store.rs: Store", "doublets/src/mem/split/store.rs: Store"]}
{"id": "C120", "title": "Which trees keep the indexes does not show to clients that make no duplicates", "statement": "A careful client that never gives two links the same source and target computes on a store what it computes on a map and finishes or runs out of memory, even if the tree crate works only on nodes that the comparisons tell apart. So such a client computes the same, and leaves the same links behind, on a united and on a split store, over any two tree crates, index types and memories, after the same calls.", "quantifier": "every such client, where what it calls next may depend on all results so far, every history without duplicates with restarts, every index type, allocator and tree crate with the weaker contract, both stores", "why_tests_cant": "A test runs one client over the one crate it is linked with; a client is a tree of decisions, and there are infinitely many of them.", "anchors": ["doublets/src/mem/unit/store.rs: Store", "doublets/src/mem/split/store.rs: Store", "doublets/src/mem/unit/generic/sources_recursionless_size_balanced_tree.rs", "doublets/src/mem/split/generic", "doublets/src/data/traits.rs: Doublets"]}
{"id": "C121", "title": "Behind the decorators for unique doublets a store needs less of the tree crate", "statement": "A client may ask UniqueValidator and UniqueResolver for any updates to ends that are neither null nor the wildcard, duplicates included, and mix these calls. Over every tree crate that works on nodes it can tell apart, no two links ever get the same ends, and every call returns: the validator refuses or does the update, the resolver does it, or deletes the link and returns the one that is there, or, if the link has the ends already, deletes it and fails. With null sources the decorators do not protect the store: then a query can run on for ever.", "quantifier": "every client and handler, every history of such calls with restarts and any allocators, every index type and tree crate with the weaker contract, both stores", "why_tests_cant": "A test uses one crate; which trees break on equal nodes, and whether some sequence of calls gets two equal nodes past the decorators, cannot be found by trying sequences.", "anchors": ["doublets-decorators/src/unique_validator.rs: UniqueValidator", "doublets-decorators/src/unique_resolver.rs: UniqueResolver", "doublets/src/mem/unit/store.rs: Store", "doublets/src/mem/split/store.rs: Store"]}
{"id": "C122", "title": "In the hands of a careful client every link is a nested pair, and the pairs determine the contents", "statement": "A client creates points, asks with get_or_create for links between existing links and deletes links nobody uses. Then following sources and targets from any link ends at points: a point stands for itself, any other link for the pair of what its ends stand for, and different links stand for different nested pairs. A client that reads a link this way need not go deeper than there are links. If two stores contain the same nested pairs, up to the names of the points, their contents are the same up to the numbers of the links, whatever the histories were. The same is so for threads that share the store and run these methods, whatever the schedule; if they only add, what a link stands for never changes. With updates links can refer to each other in a cycle, and reading does not end.", "quantifier": "every history of such a client with restarts and any allocators, every index type and tree crate with the weaker contract of C93, both stores and one of each; every schedule of any number of threads, under the conditions of C102", "why_tests_cant": "Histories that reuse indices can make any number of links in any order; that none of them closes a cycle and that the order leaves no trace but the numbers is a claim about all of them.", "anchors": ["doublets/src/data/traits.rs: Doublets::create_point, Doublets::get_or_create, Doublets::delete, Doublets::get_link", "doublets/src/mem/unit/store.rs: Store", "doublets/src/mem/split/store.rs: Store"]}
{"id": "C123", "title": "Behind both validators no walk along references comes back", "statement": "A store is wrapped in UniqueValidator and UsagesValidator, in either order, and in any number of further decorators other than the resolvers of doublets, and used only through the outermost; updates give two null ends or two ends that name links. A client that goes from a link to one of its ends, other than the link itself, from there to one of its ends, and so on, never comes back to a link it has been at, and takes fewer steps than there are links. Behind UniqueValidator alone it can go round for ever.", "quantifier": "every stack of such decorators, every history of creations, updates and deletions through it with any handlers, whether they succeed or not, from any state without such a walk; both stores (split: under the conditions of C84)", "why_tests_cant": "A cycle may be closed by any call of a long history, refused or not, and through any of the decorators; a test tries a few stacks and a few calls.", "anchors": ["doublets-decorators/src/usages_validator.rs: UsagesValidator", "doublets-decorators/src/unique_validator.rs: UniqueValidator", "doublets-decorators/src/cascade_usages_resolver.rs: CascadeUsagesResolver", "doublets-decorators/src/non_null_deletion_resolver.rs: NonNullDeletionResolver"]}
{"id": "C124", "title": "A careful client moves its links into a store of another kind, and its contents arrive up to numbers", "statement": "A client that creates points, asks with get_or_create for links between existing links and deletes links nobody uses wants its links in another, empty store, of the same or the other kind and of any index type. It lists its links with each, reads what each stands for with get_link, makes as many points in the empty store and stores there what the links stand for with get_or_create. Every call returns. If none fails, there is a one to one correspondence between the links of the two stores that respects sources and targets, the indices returned are those of the corresponding links in the order of the list, and the new indices go from 1 to the number of links without gaps. A call fails only if memory cannot be had or the other store has fewer indices than there are links.", "quantifier": "every state in the hands of such a client, after any history with restarts and any allocators, every empty state of the other store, new or emptied, every index type and tree crate with the weaker contract of C93, united to split, split to united, united to united and split to split", "why_tests_cant": "The source may hold any network of any depth with any gaps; a test moves a few small ones.", "anchors": ["doublets/src/data/traits.rs: Links::each_links, Doublets::get_link, Doublets::create_point, Doublets::get_or_create", "doublets/src/mem/unit/store.rs: Store", "doublets/src/mem/split/store.rs: Store"]}
{"id": "C125", "title": "A careful client can take its network apart without ever leaving a reference to a deleted link", "statement": "A client that creates points, asks with get_or_create for links between existing links and deletes links nobody uses has n links. It can delete them all, one by one, each at a time when no other link uses it: it lists its links with each, deletes the first that no other link in the list uses, and repeats. It never gets stuck and no call fails. After k deletions there are n - k links left, unchanged, and their sources and targets are links; after n deletions the store is empty. Of links that refer to each other, which updates can make, none can be deleted this way.", "quantifier": "every state in the hands of such a client, after any history with restarts and any allocators, every number of deletions up to the number of links, every index type and tree crate with the weaker contract of C93, both stores", "why_tests_cant": "That some link is unused in every network such a client can build is a claim about all histories; a test takes apart a few small networks.", "anchors": ["doublets/src/data/traits.rs: Links::each_links, Doublets::delete", "doublets/src/mem/unit/store.rs: Store", "doublets/src/mem/split/store.rs: Store"]}
