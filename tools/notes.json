{
 "C01": {
  "status": "proved",
  "note": "All histories with any allocator behaviour and reopenings, under the quantifier's side condition that a link is not changed while another link has the same doublet."
 },
 "C02": {
  "status": "proved",
  "note": ""
 },
 "C03": {
  "status": "proved",
  "note": ""
 },
 "C04": {
  "status": "proved",
  "note": ""
 },
 "C05": {
  "status": "proved",
  "note": ""
 },
 "C06": {
  "status": "proved",
  "note": ""
 },
 "C07": {
  "status": "proved",
  "note": ""
 },
 "C08": {
  "status": "proved",
  "note": ""
 },
 "C09": {
  "status": "partial",
  "note": "False in full: three counterexamples are proved ([any,x] visits a link with x at both ends twice; null ends are not indexed; duplicate doublets are visited once). The partial theorem states exactly what is visited otherwise."
 },
 "C10": {
  "status": "proved",
  "note": "Whenever count returns; when it returns is C14."
 },
 "C11": {
  "status": "proved",
  "note": ""
 },
 "C12": {
  "status": "proved",
  "note": ""
 },
 "C13": {
  "status": "proved",
  "note": ""
 },
 "C14": {
  "status": "proved",
  "note": "Two-part counts need unique doublets (the sum of two counts may exceed the type otherwise)."
 },
 "C15": {
  "status": "proved",
  "note": ""
 },
 "C16": {
  "status": "partial",
  "note": "Proved when the memory mapped on reopening covers all links. Otherwise false: with an exact allocator and at least SIZE_STEP links, the last link is out of bounds (counterexample proved)."
 },
 "C26": {
  "status": "partial",
  "note": "False for the united store: proved that the update handler always sees the new link twice. Proved for the split store."
 },
 "C35": {
  "status": "proved",
  "note": "Both stores."
 },
 "C39": {
  "status": "partial",
  "note": "False for index types with fewer than SIZE_STEP values (u8, u16): proved that opening never succeeds. Partial theorem: opening succeeds when the granted slots can be counted in the type."
 },
 "C17": {
  "status": "proved",
  "note": "When the grown memory can be counted in the index type (C14). On the split store the index handed out must not be referred to already (C32) and a source needs a target (C30)."
 },
 "C18": {
  "status": "proved",
  "note": "Split store under the conditions of C17."
 },
 "C19": {
  "status": "partial",
  "note": "False of a link that has i at both ends (counterexample proved: listed and counted twice). Proved when there is no such link, and C19_usages_list says exactly what is listed otherwise. Both stores."
 },
 "C20": {
  "status": "partial",
  "note": "False of a link that has i at both ends (counterexample proved: NotExists, other users left). Proved when there is no such link. On the split store doublets must also be unique (C45)."
 },
 "C21": {
  "status": "partial",
  "note": "False of a link that has old at both ends (counterexample proved: it keeps a reference to old). Proved when there is no such link. On the split store new must not be null and a user of old that has a source must not be, or refer to, itself after rebasing."
 },
 "C22": {
  "status": "partial",
  "note": "Returns 0 instead of new (proved); the effect is proved under the condition of C21 and when old has no twin after rebasing. Split store: as C21."
 },
 "C23": {
  "status": "partial",
  "note": "False: proved that delete_all succeeds exactly when the links are numbered without gaps, and fails with NotExists otherwise. Both stores."
 },
 "C24": {
  "status": "partial",
  "note": "Proved for every query whose traversal is exact (C09); for [any,x] and a link (x,x) a counterexample is proved. Split store: also when the count returns and doublets are unique."
 },
 "C25": {
  "status": "partial",
  "note": "find and found proved for all queries that do not ask for null ends; single for exact queries, with a counterexample for [any,x]. Split store: found only when the count is exact (C34), with a counterexample."
 },
 "C27": {
  "status": "partial",
  "note": "False: proved that the wrapped handler is called every time, over any sequence of calls. The partial theorem: a break is reported when it happens."
 },
 "C28": {
  "status": "proved",
  "note": "Both stores proved to meet the contract (split store under its write conditions)."
 },
 "C29": {
  "status": "proved",
  "note": "each_iter, each_iter_small and par_each_iter are the same function in the model. Split store for queries without null ends, when the count returns (it can overflow, C34)."
 },
 "C30": {
  "status": "proved",
  "note": "Under the side conditions of the quantifier; counterexamples show that they are needed."
 },
 "C31": {
  "status": "partial",
  "note": "Results, contents, totals, traversals and searches agree; counts agree except in the cases where C34 fails, and queries for null ends do not agree (C67)."
 },
 "C32": {
  "status": "partial",
  "note": "False in every case: proved that after any creation queries for the new index visit nothing. The partial theorem: references to other indices survive."
 },
 "C33": {
  "status": "proved",
  "note": ""
 },
 "C34": {
  "status": "partial",
  "note": "False: three counterexamples are proved. The partial theorem covers all other queries without null ends."
 },
 "C45": {
  "status": "partial",
  "note": "Same exceptions as C09, and the side conditions of C30; counterexamples proved."
 },
 "C46": {
  "status": "partial",
  "note": "False when only the data memory can grow: proved that every existing link is then read through a dangling pointer. Proved when the memories grow together."
 },
 "C47": {
  "status": "partial",
  "note": "Proved when the memory mapped on reopening covers all links; otherwise a counterexample is proved."
 },
 "C36": {
  "status": "proved",
  "note": "Also proved: from_slice is undefined on longer slices."
 },
 "C37": {
  "status": "proved",
  "note": "Both directions."
 },
 "C38": {
  "status": "partial",
  "note": "False of create: proved that the callback's answer is inverted. Proved for update, delete and each."
 },
 "C48": {
  "status": "partial",
  "note": "False: proved that every call through a handle returned by New is undefined. The partial theorem says which handles would work."
 },
 "C49": {
  "status": "proved",
  "note": "For updates of links without a twin."
 },
 "C41": {
  "status": "partial",
  "note": "Proved over every lawful store for ends that are neither null nor the wildcard; for the cascading resolver only if the merge makes no two links equal. False otherwise, with proofs: null sources are not checked, the resolvers delete a link updated to its own doublet, a merge can create duplicates."
 },
 "C42": {
  "status": "proved",
  "note": "Over every lawful store; for every call that returns."
 },
 "C43": {
  "status": "partial",
  "note": "Proved for unique doublets and no link with i at both ends. False otherwise (proved); the cascade is one level deep (proved)."
 },
 "C44": {
  "status": "proved",
  "note": "Over every lawful store, for a link without a twin."
 },
 "C40": {
  "status": "partial",
  "note": "United store, every reachable state, every create/update/delete, every crash point between two memory updates, every reopening that maps enough memory: all other links are found by lookup, search and traversal. Missing because false: the reopening gap of C16, and crash points inside a call of the trees crate, where a crate that keeps its contract can lose other links from searches (C77_crash_inside_an_index_can_hide_links) and only C77 and C90 hold. Counter-theorems: the link being updated is hidden for some crash point; a deleted link can come back as a null link."
 },
 "C50": {
  "status": "proved",
  "note": "Both stores, for every history (updates and deletions of links without a twin; on the split store calls it supports)."
 },
 "C51": {
  "status": "proved",
  "note": "Both stores. The memory must not grow beyond the index type, and reopening must map all links (C16, C47)."
 },
 "C52": {
  "status": "proved",
  "note": "Both stores."
 },
 "C53": {
  "status": "proved",
  "note": "Both stores, under the side conditions of C01 and C30; reopening must map all links (C16, C47)."
 },
 "C54": {
  "status": "partial",
  "note": "Split store, every reachable state, every supported create/update/delete, every crash point between two memory updates, every reopening that maps enough memory: links that neither are changed nor have the link being deleted as target are found by lookup and by a traversal of everything; traversal by an end and search work for ends whose existence the crash did not change. Missing because false: crash points inside a call of the trees crate, where a crate that keeps its contract can lose other links from searches (C77_split_crash_inside_an_index_can_hide_links) and only C77 and C90 hold. Counter-theorems: the link being updated, and any link whose target is being deleted, is lost for some crash point; a search after a crash can be undefined behaviour."
 },
 "C55": {
  "status": "proved",
  "note": "United store, the one the C interface offers; called through a valid handle (see C48)."
 },
 "C56": {
  "status": "proved",
  "note": "Both stores; the trees crate (not in the repository) is assumed to keep its trees size-balanced, which the size-balanced reference implementation meets. Split store: for ends other than 0 (a null end makes it read the header as a tree, C45). Looking is meant extensionally: no change of any other slot can change the answer. The cost of attach and detach is inside the crate."
 },
 "C57": {
  "status": "proved",
  "note": "An update is one write to the memory or one attach or detach of a link in an index tree (the crash points of C40 and C54). United store: at most nine per call, and the unbounded single deletion is proved for every bound. Split store: at most ten per call over histories that may reuse indices links refer to (C75), and the exact number for one deletion."
 },
 "C58": {
  "status": "proved",
  "note": "Queries of at most three parts (longer ones panic); split store: without null ends, which C67 describes."
 },
 "C59": {
  "status": "proved",
  "note": "Both stores; users with a twin are excluded as in C20."
 },
 "C60": {
  "status": "proved",
  "note": "Both stores; users with a twin are excluded, and (old,new), (new,old) must be free if a link (old,old) exists, as the intermediate updates would otherwise make twins. Split store: the updates must be supported (C30)."
 },
 "C61": {
  "status": "partial",
  "note": "Exactly when the macro accepts a function and what it then exports, for signatures without array types and without paths a::T, among them all eleven functions of the C interface (C61_ffi_functions), whose 44 exported names are C61_ffi_names. Missing because false: an array type is replaced by its element type, and a further path segment named like the type parameter is renamed (counter-theorems). Parsing and printing of Rust tokens (syn, quote) is external."
 },
 "C62": {
  "status": "proved",
  "note": "All patterns of the C interface begin with a star."
 },
 "C63": {
  "status": "proved",
  "note": "For any notion of white space."
 },
 "C64": {
  "status": "proved",
  "note": "The reading half; attaching and detaching are in C101. The split store is compiled with trees instead of this list."
 },
 "C65": {
  "status": "proved",
  "note": "Errors of the store whose text does not depend on the operating system: the memory error is compared up to its own text."
 },
 "C66": {
  "status": "proved",
  "note": "United store: exactly; writes for links without a twin, counts with two parts up to the overflow of C14. Split store: malformed calls panic in every state; that others return is C30, C33, C34 (where it is true). Finding: further restrictions in the query of an update or delete are ignored, so 'delete 6 if its source is 9' deletes 6 = (3,2)."
 },
 "C67": {
  "status": "proved",
  "note": "The claim describes what the code does, which is a defect: links with null ends are not found and others are visited in their place (the header is read as the index part of link 0). With unused indices, a query for two ends one of which is null visits at most one link, which agrees with the query in the end that is not null but need not agree in the other; get_or_create then returns a link that is another pair (counter-theorem). Counts return, except [any,x] on overflow; they need not agree with the visits."
 },
 "C68": {
  "status": "proved",
  "note": "Split store: queries without null ends and, from C67, queries for null ends; the latter delete links that do not match."
 },
 "C69": {
  "status": "proved",
  "note": "Side conditions as for C60. That 0 is returned instead of new is a finding (C22)."
 },
 "C70": {
  "status": "proved",
  "note": "Complements C43, which is false in general."
 },
 "C71": {
  "status": "proved",
  "note": ""
 },
 "C72": {
  "status": "proved",
  "note": "Complements C16, C39 and C47, which are false in general. The split allocators grant exactly what is asked for, as assumed throughout."
 },
 "C73": {
  "status": "proved",
  "note": "Complements C34, which is false in general. With unused indices and a source that is not a link, the query for a null target counts some positive number that is not described further."
 },
 "C74": {
  "status": "partial",
  "note": "False for counts on the split store: they can depend on the order in which links were deleted (counterexample), and the same otherwise. Visiting order is determined by the contents only where stated (C52 and by existing source on the split store)."
 },
 "C75": {
  "status": "proved",
  "note": "Describes the behaviour behind C32 for all histories. Updates and deletions of lost links are outside the model of the trees (the link is not in the tree it would be detached from)."
 },
 "C76": {
  "status": "proved",
  "note": "The algorithms of the trees crate are arbitrary programs over the accessors of the repository that do what the contract of the crate says (Access.lean); a reference family of programs is proved to do so (RefPrograms.lean). A write is one assignment to a field of a slot or of the header; a slot copied as a whole counts as one. Split store: under the side conditions of C30; growth moves both memories."
 },
 "C77": {
  "status": "proved",
  "note": "Writes as in C76: one assignment to a field. Lookups and traversals of everything; what queries by an end find after a crash inside an index update depends on code that is not in the repository: proved that with one implementation of its contract a link the call is not about is then not found by its ends (between index updates: C40)."
 },
 "C78": {
  "status": "proved",
  "note": "The exception is the off-by-one of C16 and C47: with it the lookup reads behind the mapped memory. Sequences of writes to a damaged store are not described."
 },
 "C79": {
  "status": "proved",
  "note": "Supported: updated and deleted links have no twin, and on the split store the conditions of C30. Deletions in a store without duplicates always are (second theorem). The united store reports the new link as the state before an update (C26), which replaying does not look at."
 },
 "C80": {
  "status": "proved",
  "note": "Histories as in C01 and C30; the split allocators grant exactly what is asked for, as assumed throughout."
 },
 "C81": {
  "status": "proved",
  "note": "On memories that, when they grow, stay within the index type (otherwise C14 has the panic). The exception is real: get_or_create(p, p) for a point p returns p. C81_lists_of_nested_pairs_are_shared and its split version need only the weaker contract for the tree crate."
 },
 "C82": {
  "status": "proved",
  "note": "The layout of repr(C) structures of equal words, without padding, is taken from the Rust reference. The model writes words, so the bytes of a word are those of its value."
 },
 "C83": {
  "status": "proved",
  "note": "Files are torn between words, not inside them: words are aligned and no word crosses a sector (proved). The calls of a session are those the stores support (no duplicates of the link written to; on the split store the conditions of C30)."
 },
 "C84": {
  "status": "proved",
  "note": "Updates with one null end are excluded: the united store does not index null sources (C41_null_sources_are_not_checked). The limits are theorems: CascadeUniqueResolver over both validators can leave a dangling reference, UniqueResolver over UsagesValidator can delete a link and report a refusal, and on the split store NonNullDeletionResolver over UniqueValidator cannot delete a null link in some states."
 },
 "C85": {
  "status": "proved",
  "note": "Threads step from load to load and from assignment to assignment on a memory that they all see in the same order; the lock is the rule that nobody else is in a call while a thread writes. The reads create short-lived mutable references (get_from_mem goes through mut_from_mem); the aliasing rules of the language for these are not modelled."
 },
 "C86": {
  "status": "proved",
  "note": "In the split store symbols are not null. The condition on sources is needed in the united store: C86_dangling_source_spoils_a_text."
 },
 "C87": {
  "status": "proved",
  "note": "The handle points to a boxed store (C48). The constant error is above the internal range, otherwise codes are ambiguous. The defects of C26 and C38 are part of the specification that is proved."
 },
 "C88": {
  "status": "proved",
  "note": "The damage of an index equal to any on the split store is a concrete history; what the tree crate does when a link is detached from a tree that does not have it is not in its contract."
 },
 "C89": {
  "status": "proved",
  "note": "The copying program is a client of the store, not code of the repository. Copying to a split store needs that no link has a source without a target."
 },
 "C90": {
  "status": "proved",
  "note": "The copying program is a client of the store, not code of the repository (see C89). As in C40, C54 and C83 the reopened store must have more cells than there are allocated indices, else the lookup of the last one is out of bounds (see C72)."
 },
 "C91": {
  "status": "proved",
  "note": "The emptying and the copying program are clients of the store, not code of the repository (see C89). Stores with duplicate doublets are excluded because detaching one of two links with the same ends is not covered by the contract of the trees crate."
 },
 "C92": {
  "status": "proved",
  "note": "The depth counts the nested calls of each_usages_core. each_core and try_each_by_core call themselves at most twice more. Balance of the trees is a hypothesis, as in C56: the trees crate is external."
 },
 "C93": {
  "status": "proved",
  "note": "Split store: under the side conditions of C30. The crate with which duplicates do damage is a transcription of the published size-balanced tree algorithm (Sbt.lean), not code of the repository, which the trees crate is not part of."
 },
 "C94": {
  "status": "proved",
  "note": "C76, C77, C83 and C85 over the weaker contract of C93, under their side conditions. The size-balanced tree programs (SbtPrograms.lean) are a transcription of the published algorithm, not code of the repository, which the trees crate is not part of."
 },
 "C95": {
  "status": "partial",
  "note": "False of is_unused(0) and is_virtual(0): proved that they are false whenever there is a gap below the highest link. Proved for all other indices. Supported histories are those of C30."
 },
 "C96": {
  "status": "proved",
  "note": "Split store: under the side conditions of C30."
 },
 "C97": {
  "status": "proved",
  "note": "Conditions: no link is deleted or updated while another link has the same doublet (as for the plain calls). The merge of CascadeUniqueResolver has the exception of C60 for links with i at both ends. On the split store also: no user of i that has a source is the chosen link or refers to itself, and a link that has a source is not made to refer to itself (updates the store does not support)."
 },
 "C98": {
  "status": "partial",
  "note": "False: proved that a creation panics whenever one of the two memories lacks the slot of the next link while the store sees no reason to grow, and that histories on an empty store get there, whichever of the memories is larger. Proved, with the contents and results of a map, for memories that both grant the same number of slots, more than asked for or not (C98_alike_memories_partial)."
 },
 "C99": {
  "status": "partial",
  "note": "False for a source without a target: proved for every reachable state that the update reports success and the link is then not found, not updatable, not deletable, but still counted and still visited by its source, and that a query for its pair is undefined behaviour if no index is free (C99_half_pairs_vanish); with the usual circular list algorithm, proved to meet the contract (Verif/CircList.lean), deleting a neighbour then overwrites the target of another link or panics. Proved for all other ends (C99_other_pairs_stay_partial)."
 },
 "C100": {
  "status": "proved",
  "note": "Complements C25, which is false in general. found is described whenever it returns (the count by [any,x] can overflow, C14, C73)."
 },
 "C101": {
  "status": "proved",
  "note": "The methods attach_as_first, attach_as_last and detach are those of the trees crate, which is not in the sandbox: the usual algorithms for a circular list are run, assignment by assignment, over the getters and setters of the file. The store itself never calls them: store.rs leaves the branches for USE_LIST as todo!()."
 },
 "C102": {
  "status": "proved",
  "note": "Threads are those of C85. A method is the sequence of the calls it makes; C102_methods shows that it answers as the method of the model. That the lock must be held for the whole method is C102_separate_locks_make_twins."
 },
 "C103": {
  "status": "proved",
  "note": "Threads are those of C85 and C102, crashes those of C77 and C83. Bounds on the loops of requests are large enough (B), as in C77. As there the reopened store must have more cells than there are allocated indices. C103_every_moment_occurs shows that no moment inside a request is left out."
 },
 "C104": {
  "status": "proved",
  "note": "Supported as in C79: updated and deleted links have no twin, and on the split store the conditions of C30; deletions in a store without duplicates always are (third theorem). The methods are modelled a second time with handlers that may panic (Verif/Unwind.lean, Verif/Unit/Unwind.lean, Verif/Split/Unwind.lean). Panics of the store itself are not covered."
 },
 "C105": {
  "status": "proved",
  "note": "Supported as in C77. The reopened memory has to map every link. The two negative theorems per store are concrete witnesses of why links without source and power losses are excepted."
 },
 "C106": {
  "status": "proved",
  "note": "The reopened memory has to map every link. The complement of C105, whose witnesses need deletions."
 },
 "C107": {
  "status": "proved",
  "note": "As in C85, supported calls only: a link that is updated or deleted has no twin at that moment (C107_cells_are_disciplined gives programs for which this always holds). Creations are left out: which index they return depends on the schedule (C102)."
 },
 "C108": {
  "status": "proved",
  "note": "The theorems are over every lawful store (Lawful in Spec.lean), which the united and the split store are on their reachable states; the exact conditions for UniqueValidator are per store. C108_cascade_unique_resolver_redirects and C108_split_refuses_a_new_pair are concrete faults. UsagesValidator: whenever the call returns."
 },
 "C109": {
  "status": "proved",
  "note": "Over every lawful store, so over both stores; over the split store the updates must be supported ones (C31): no source without a target, and a link that has a source is not given itself as an end."
 },
 "C110": {
  "status": "proved",
  "note": "Memories that, when they grow, stay within the index type (otherwise C14 has the panic). Over the split store each end must also be null or a link. A program that stops inside get_or_create, between create and update, leaves one null link: the example shows it."
 },
 "C111": {
  "status": "proved",
  "note": "get_or_create takes the store by exclusive reference, so each call is made under one lock. Memories that, when they grow, stay within the index type (otherwise C14 has the panic). Nothing is said about orders under which a call fails for lack of memory."
 },
 "C112": {
  "status": "proved",
  "note": "The collecting part is the code of the repository; what rayon does with the vector is modelled after its documentation (Verif/Parallel.lean), its source is not in the sandbox."
 },
 "C113": {
  "status": "proved",
  "note": "Over every lawful store, so over both stores. The marking is a client program, modelled with its termination (as many rounds as there are links)."
 },
 "C114": {
  "status": "proved",
  "note": "Both stores, and all default methods that contain or depend on arithmetic. Split store: deletions of links that, like their users, have no duplicates. Proved also that the count does differ: four links with 1 at both ends and an index type of six values give a panic with the checks and 2 without."
 },
 "C115": {
  "status": "proved",
  "note": "Both stores. Split store: queries that do not ask for null ends over all links; the counts are compared for stores that served the same calls, which C74 shows to be needed. The tree crates, the memories and the number of times either store was reopened may differ too."
 },
 "C116": {
  "status": "proved",
  "note": "Both stores. Split store: if the data memory can grow then so can the index memory (C46). The conditions on queries and calls are those that C45, C34, C58 and C67 show to be needed. A client whose creation fails for lack of memory gives up."
 },
 "C117": {
  "status": "proved",
  "note": "United store, the only one that the C interface opens. The handle points to a boxed store (C48). The constant error is above the internal range, otherwise codes are ambiguous. The callbacks answer continue."
 },
 "C118": {
  "status": "proved",
  "note": "Both stores. More slots must be mapped than the largest index in use: otherwise a link can be lost (C16, C47, C72). Split store: if the data memory can grow then so can the index memory (C46). Restarts are between calls; for crashes inside calls see C40, C54, C77, C83."
 },
 "C119": {
  "status": "partial",
  "note": "The loops: proved for both stores. The first program: proved with a second point for the other end of the link. As it stands it is false: the link it makes has the ends of the point, and updating one of two links with the same ends is beyond a tree crate that finds nodes by comparing them; over the published size-balanced trees (a transcription, not code of the repository) the point is lost from the index and delete_all does not return (C119_tour_fails), over a crate that tells equal nodes apart it works."
 },
 "C120": {
  "status": "proved",
  "note": "C116 with the weaker contract of C93 for the tree crate, for clients that make no duplicates (Routine.Tidy). For others it fails: C93, C119_tour_fails."
 },
 "C121": {
  "status": "proved",
  "note": "Split store: under the side conditions of C30; the validator may refuse more than it should, as C97 says. C121_null_sources_do_damage and C121_cascade_merges_do_damage have the failures with null sources and with CascadeUniqueResolver, over the published size-balanced trees."
 },
 "C122": {
  "status": "proved",
  "note": "Over the weaker contract for the tree crate. C122_updates_make_cycles shows the cycle. Reading is a client program with a depth limit; that it returns with the number of links as limit is part of the claim."
 },
 "C123": {
  "status": "proved",
  "note": "A link may have itself as source or target; such a step is not counted. The counterexample for UniqueValidator alone is C123_unique_validator_alone_lets_walks_come_back."
 },
 "C124": {
  "status": "proved",
  "note": "On target memories that, when they grow, stay within the index type, and for split targets grow together (see C14 for what happens otherwise). The client program is moveTo in Verif/Migrate.lean; it is not part of the repository, the calls it makes are."
 },
 "C125": {
  "status": "proved",
  "note": "The client program is takeApart in Verif/Unbuild.lean; it is not part of the repository, the calls it makes are. delete_all (C23) does not do this. C125_cycles_cannot_be_taken_apart shows the cycle."
 }
}