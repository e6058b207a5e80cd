{
 "claims": [
  {
   "property": "C01",
   "status": "proved",
   "theorems": [
    "Verif.Unit.Props.C01_united_store_is_a_map",
    "Verif.Unit.Props.C01_effect_is_independent_of_the_handler"
   ],
   "note": "All histories with any allocator behaviour and reopenings, under the quantifier's side condition that a link is not changed while another link has the same doublet."
  },
  {
   "property": "C02",
   "status": "proved",
   "theorems": [
    "Verif.Unit.Props.C02_create_returns_a_fresh_index"
   ],
   "note": ""
  },
  {
   "property": "C03",
   "status": "proved",
   "theorems": [
    "Verif.Unit.Props.C03_most_recently_freed_first",
    "Verif.Unit.Props.C03_grows_by_one"
   ],
   "note": ""
  },
  {
   "property": "C04",
   "status": "proved",
   "theorems": [
    "Verif.Unit.Props.C04_highest_slot_is_live",
    "Verif.Unit.Props.C04_empty_store_starts_over"
   ],
   "note": ""
  },
  {
   "property": "C05",
   "status": "proved",
   "theorems": [
    "Verif.Unit.Props.C05_update_changes_one_link"
   ],
   "note": ""
  },
  {
   "property": "C06",
   "status": "proved",
   "theorems": [
    "Verif.Unit.Props.C06_delete_removes_one_link"
   ],
   "note": ""
  },
  {
   "property": "C07",
   "status": "proved",
   "theorems": [
    "Verif.Unit.Props.C07_missing_links_fail_without_effect"
   ],
   "note": ""
  },
  {
   "property": "C08",
   "status": "proved",
   "theorems": [
    "Verif.Unit.Props.C08_full_store_refuses",
    "Verif.Unit.Props.C08_failed_create_has_no_effect"
   ],
   "note": ""
  },
  {
   "property": "C09",
   "status": "partial",
   "theorems": [
    "Verif.Unit.Props.C09_traversal_partial",
    "Verif.Unit.Props.C09_double_visit",
    "Verif.Unit.Props.C09_null_source_not_found",
    "Verif.Unit.Props.C09_twins_visited_once"
   ],
   "note": "False in full: three counterexamples are proved ([any,x] visits a link with x at both ends twice; null ends are not indexed; duplicate doublets are visited once). The partial theorem states exactly what is visited otherwise."
  },
  {
   "property": "C10",
   "status": "proved",
   "theorems": [
    "Verif.Unit.Props.C10_count_equals_visits"
   ],
   "note": "Whenever count returns; when it returns is C14."
  },
  {
   "property": "C11",
   "status": "proved",
   "theorems": [
    "Verif.Unit.Props.C11_traversal_stops_at_first_break"
   ],
   "note": ""
  },
  {
   "property": "C12",
   "status": "proved",
   "theorems": [
    "Verif.Unit.Props.C12_search"
   ],
   "note": ""
  },
  {
   "property": "C13",
   "status": "proved",
   "theorems": [
    "Verif.Unit.Props.C13_count_is_number_of_links",
    "Verif.Unit.Props.C13_count_changes"
   ],
   "note": ""
  },
  {
   "property": "C14",
   "status": "proved",
   "theorems": [
    "Verif.Unit.Props.C14_reads_never_panic",
    "Verif.Unit.Props.C14_writes_never_panic",
    "Verif.Unit.Props.C14_growth_beyond_the_index_type_panics"
   ],
   "note": "Two-part counts need unique doublets (the sum of two counts may exceed the type otherwise)."
  },
  {
   "property": "C15",
   "status": "proved",
   "theorems": [
    "Verif.Split.Props.C15_split_delete_then_create_restores_the_index",
    "Verif.Unit.Props.C15_delete_then_create_restores_the_index"
   ],
   "note": ""
  },
  {
   "property": "C16",
   "status": "partial",
   "theorems": [
    "Verif.Unit.Props.C16_reopen_partial",
    "Verif.Unit.Props.C16_reopen_can_lose_the_last_link"
   ],
   "note": "Proved when the memory mapped on reopening covers all links. Otherwise false: with an exact allocator and at least SIZE_STEP links, the last link is out of bounds (counterexample proved)."
  },
  {
   "property": "C17",
   "status": "proved",
   "theorems": [
    "Verif.Split.Props.C17_split_create_point",
    "Verif.Split.Props.C17_split_create_link",
    "Verif.Unit.Props.C17_create_point",
    "Verif.Unit.Props.C17_create_link"
   ],
   "note": "When the grown memory can be counted in the index type (C14). On the split store the index handed out must not be referred to already (C32) and a source needs a target (C30)."
  },
  {
   "property": "C18",
   "status": "proved",
   "theorems": [
    "Verif.Split.Props.C18_split_get_or_create",
    "Verif.Unit.Props.C18_get_or_create"
   ],
   "note": "Split store under the conditions of C17."
  },
  {
   "property": "C19",
   "status": "partial",
   "theorems": [
    "Verif.Split.Props.C19_split_usages_list",
    "Verif.Split.Props.C19_split_usages_partial",
    "Verif.Split.Props.C19_split_missing",
    "Verif.Unit.Props.C19_usages_list",
    "Verif.Unit.Props.C19_usages_partial",
    "Verif.Unit.Props.C19_missing",
    "Verif.Unit.Props.C19_double_user_counted_twice"
   ],
   "note": "False of a link that has i at both ends (counterexample proved: listed and counted twice). Proved when there is no such link, and C19_usages_list says exactly what is listed otherwise. Both stores."
  },
  {
   "property": "C20",
   "status": "partial",
   "theorems": [
    "Verif.Split.Props.C20_split_delete_usages_partial",
    "Verif.Unit.Props.C20_delete_usages_partial",
    "Verif.Unit.Props.C20_double_user_fails"
   ],
   "note": "False of a link that has i at both ends (counterexample proved: NotExists, other users left). Proved when there is no such link. On the split store doublets must also be unique (C45)."
  },
  {
   "property": "C21",
   "status": "partial",
   "theorems": [
    "Verif.Split.Props.C21_split_rebase_partial",
    "Verif.Unit.Props.C21_rebase_partial",
    "Verif.Unit.Props.C21_double_user_keeps_a_reference"
   ],
   "note": "False of a link that has old at both ends (counterexample proved: it keeps a reference to old). Proved when there is no such link. On the split store new must not be null and a user of old that has a source must not be, or refer to, itself after rebasing."
  },
  {
   "property": "C22",
   "status": "partial",
   "theorems": [
    "Verif.Split.Props.C22_split_rebase_and_delete_partial",
    "Verif.Unit.Props.C22_rebase_and_delete_partial",
    "Verif.Unit.Props.C22_returns_null"
   ],
   "note": "Returns 0 instead of new (proved); the effect is proved under the condition of C21 and when old has no twin after rebasing. Split store: as C21."
  },
  {
   "property": "C23",
   "status": "partial",
   "theorems": [
    "Verif.Split.Props.C23_split_delete_all_partial",
    "Verif.Unit.Props.C23_delete_all_partial",
    "Verif.Unit.Props.C23_delete_all_fails"
   ],
   "note": "False: proved that delete_all succeeds exactly when the links are numbered without gaps, and fails with NotExists otherwise. Both stores."
  },
  {
   "property": "C24",
   "status": "partial",
   "theorems": [
    "Verif.Split.Props.C24_split_delete_query_partial",
    "Verif.Unit.Props.C24_delete_query_partial",
    "Verif.Unit.Props.C24_double_end_fails"
   ],
   "note": "Proved for every query whose traversal is exact (C09); for [any,x] and a link (x,x) a counterexample is proved. Split store: also when the count returns and doublets are unique."
  },
  {
   "property": "C25",
   "status": "partial",
   "theorems": [
    "Verif.Split.Props.C25_split_find_and_found_partial",
    "Verif.Split.Props.C25_split_single_partial",
    "Verif.Split.Props.C25_split_found_is_wrong",
    "Verif.Unit.Props.C25_find_and_found",
    "Verif.Unit.Props.C25_single_partial",
    "Verif.Unit.Props.C25_single_double_end"
   ],
   "note": "find and found proved for all queries that do not ask for null ends; single for exact queries, with a counterexample for [any,x]. Split store: found only when the count is exact (C34), with a counterexample."
  },
  {
   "property": "C26",
   "status": "partial",
   "theorems": [
    "Verif.Split.Props.C26_split_update_handler_sees_the_change",
    "Verif.Unit.Props.C26_update_handler_sees_the_new_link_twice",
    "Verif.Unit.Props.C26_update_handler_is_wrong"
   ],
   "note": "False for the united store: proved that the update handler always sees the new link twice. Proved for the split store."
  },
  {
   "property": "C27",
   "status": "partial",
   "theorems": [
    "Verif.Unit.Props.C27_fused_handler_reports_break_partial",
    "Verif.Unit.Props.C27_fuse_never_fuses",
    "Verif.Unit.Props.C27_called_after_break"
   ],
   "note": "False: proved that the wrapped handler is called every time, over any sequence of calls. The partial theorem: a break is reported when it happens."
  },
  {
   "property": "C28",
   "status": "proved",
   "theorems": [
    "Verif.Split.Props.C28_split_store_notifies",
    "Verif.Unit.Props.C28_handler_results_passed_through",
    "Verif.Unit.Props.C28_united_store_notifies"
   ],
   "note": "Both stores proved to meet the contract (split store under its write conditions)."
  },
  {
   "property": "C29",
   "status": "proved",
   "theorems": [
    "Verif.Split.Props.C29_split_iterators_yield_the_traversal",
    "Verif.Split.Props.C29_split_iter_yields_all_links",
    "Verif.Unit.Props.C29_iterators_yield_the_traversal",
    "Verif.Unit.Props.C29_iter_yields_all_links"
   ],
   "note": "each_iter, each_iter_small and par_each_iter are the same function in the model. Split store for queries without null ends, when the count returns (it can overflow, C34)."
  },
  {
   "property": "C30",
   "status": "proved",
   "theorems": [
    "Verif.Split.Props.C30_source_without_target_disappears",
    "Verif.Split.Props.C30_split_store_is_a_map",
    "Verif.Split.Props.C30_create_returns_a_fresh_index",
    "Verif.Split.Props.C30_most_recently_freed_first",
    "Verif.Split.Props.C30_update_changes_one_link",
    "Verif.Split.Props.C30_delete_removes_one_link",
    "Verif.Split.Props.C30_missing_links_fail_without_effect",
    "Verif.Split.Props.C30_count_is_number_of_links",
    "Verif.Split.Props.C30_calls_never_panic"
   ],
   "note": "Under the side conditions of the quantifier; counterexamples show that they are needed."
  },
  {
   "property": "C31",
   "status": "partial",
   "theorems": [
    "Verif.Split.Props.C31_split_and_united_agree_partial"
   ],
   "note": "Results, contents, totals, traversals and searches agree; counts agree except in the cases where C34 fails, and queries for null ends do not agree (C67)."
  },
  {
   "property": "C32",
   "status": "partial",
   "theorems": [
    "Verif.Split.Props.C32_creation_hides_dangling_references",
    "Verif.Split.Props.C32_lost_reference",
    "Verif.Split.Props.C32_references_to_other_indices_survive_partial"
   ],
   "note": "False in every case: proved that after any creation queries for the new index visit nothing. The partial theorem: references to other indices survive."
  },
  {
   "property": "C33",
   "status": "proved",
   "theorems": [
    "Verif.Split.Props.C33_deletion_keeps_referrers_findable"
   ],
   "note": ""
  },
  {
   "property": "C34",
   "status": "partial",
   "theorems": [
    "Verif.Split.Props.C34_index_and_end_miscounted",
    "Verif.Split.Props.C34_virtual_source_ignores_target",
    "Verif.Split.Props.C34_empty_tree_counts_first_free_index",
    "Verif.Split.Props.C34_count_equals_visits_partial"
   ],
   "note": "False: three counterexamples are proved. The partial theorem covers all other queries without null ends."
  },
  {
   "property": "C35",
   "status": "proved",
   "theorems": [
    "Verif.Split.Props.C35_split_null_is_never_a_link",
    "Verif.Unit.Props.C35_null_is_never_a_link"
   ],
   "note": "Both stores."
  },
  {
   "property": "C36",
   "status": "proved",
   "theorems": [
    "Verif.Ffi.Props.C36_nothing_is_the_only_null_link",
    "Verif.Ffi.Props.C36_points",
    "Verif.Ffi.Props.C36_slice_round_trip",
    "Verif.Ffi.Props.C36_from_slice_of_longer_slices_is_undefined"
   ],
   "note": "Also proved: from_slice is undefined on longer slices."
  },
  {
   "property": "C37",
   "status": "proved",
   "theorems": [
    "Verif.Ffi.Props.C37_constants_round_trip",
    "Verif.Ffi.Props.C37_c_structure_round_trip"
   ],
   "note": "Both directions."
  },
  {
   "property": "C38",
   "status": "partial",
   "theorems": [
    "Verif.Ffi.Props.C38_create_inverts_the_callback",
    "Verif.Ffi.Props.C38_update_partial",
    "Verif.Ffi.Props.C38_delete_partial",
    "Verif.Ffi.Props.C38_each_partial"
   ],
   "note": "False of create: proved that the callback's answer is inverted. Proved for update, delete and each."
  },
  {
   "property": "C39",
   "status": "partial",
   "theorems": [
    "Verif.Unit.Props.C39_small_index_types_cannot_be_opened",
    "Verif.Unit.Props.C39_open_partial"
   ],
   "note": "False for index types with fewer than SIZE_STEP values (u8, u16): proved that opening never succeeds. Partial theorem: opening succeeds when the granted slots can be counted in the type."
  },
  {
   "property": "C40",
   "status": "partial",
   "theorems": [
    "Verif.Unit.Props.C40_images_bracket_the_call",
    "Verif.Unit.Props.C40_crash_partial",
    "Verif.Unit.Props.C40_interrupted_update_hides_the_link",
    "Verif.Unit.Props.C40_crash_can_revive_a_deleted_link"
   ],
   "note": "United store, every reachable state, every create/update/delete, every crash point between two memory updates, every reopening that maps enough memory: all other links are found by lookup, search and traversal. Missing because false: the reopening gap of C16, and crash points inside a call of the trees crate, where a crate that keeps its contract can lose other links from searches (C77_crash_inside_an_index_can_hide_links) and only C77 and C90 hold. Counter-theorems: the link being updated is hidden for some crash point; a deleted link can come back as a null link."
  },
  {
   "property": "C41",
   "status": "partial",
   "theorems": [
    "Verif.Deco.Props.C41_unique_validator_partial",
    "Verif.Deco.Props.C41_unique_resolver_partial",
    "Verif.Deco.Props.C41_unique_resolver_deletes_an_unchanged_link",
    "Verif.Deco.Props.C41_unique_resolver_missing",
    "Verif.Deco.Props.C41_cascade_unique_resolver_new_doublet_partial",
    "Verif.Deco.Props.C41_cascade_unique_resolver_deletes_an_unchanged_link",
    "Verif.Deco.Props.C41_cascade_unique_resolver_partial",
    "Verif.Deco.Props.C41_unique_validator_refusals",
    "Verif.Deco.Props.C41_unique_through_every_history_partial",
    "Verif.Deco.Props.C41_null_sources_are_not_checked",
    "Verif.Deco.Props.C41_cascade_merge_makes_duplicates"
   ],
   "note": "Proved over every lawful store for ends that are neither null nor the wildcard; for the cascading resolver only if the merge makes no two links equal. False otherwise, with proofs: null sources are not checked, the resolvers delete a link updated to its own doublet, a merge can create duplicates."
  },
  {
   "property": "C42",
   "status": "proved",
   "theorems": [
    "Verif.Deco.Props.C42_usages_validator_delete",
    "Verif.Deco.Props.C42_usages_validator_update",
    "Verif.Deco.Props.C42_no_dangling_references"
   ],
   "note": "Over every lawful store; for every call that returns."
  },
  {
   "property": "C43",
   "status": "partial",
   "theorems": [
    "Verif.Deco.Props.C43_cascade_usages_resolver_partial",
    "Verif.Deco.Props.C43_double_user_fails",
    "Verif.Deco.Props.C43_second_level_dangles"
   ],
   "note": "Proved for unique doublets and no link with i at both ends. False otherwise (proved); the cascade is one level deep (proved)."
  },
  {
   "property": "C44",
   "status": "proved",
   "theorems": [
    "Verif.Deco.Props.C44_non_null_deletion",
    "Verif.Deco.Props.C44_missing_link"
   ],
   "note": "Over every lawful store, for a link without a twin."
  },
  {
   "property": "C45",
   "status": "partial",
   "theorems": [
    "Verif.Split.Props.C45_self_reference_not_found",
    "Verif.Split.Props.C45_null_source_query_visits_wrong_link",
    "Verif.Split.Props.C45_split_traversal_partial",
    "Verif.Split.Props.C45_split_traversal_stops_at_first_break",
    "Verif.Split.Props.C45_split_search"
   ],
   "note": "Same exceptions as C09, and the side conditions of C30; counterexamples proved."
  },
  {
   "property": "C46",
   "status": "partial",
   "theorems": [
    "Verif.Split.Props.C46_failed_growth_leaves_dangling_memory",
    "Verif.Split.Props.C46_failed_create_has_no_effect_partial"
   ],
   "note": "False when only the data memory can grow: proved that every existing link is then read through a dangling pointer. Proved when the memories grow together."
  },
  {
   "property": "C47",
   "status": "partial",
   "theorems": [
    "Verif.Split.Props.C47_split_reopen_partial",
    "Verif.Split.Props.C47_reopen_can_lose_the_last_link"
   ],
   "note": "Proved when the memory mapped on reopening covers all links; otherwise a counterexample is proved."
  },
  {
   "property": "C48",
   "status": "partial",
   "theorems": [
    "Verif.Ffi.Props.C48_handles_returned_by_new_are_not_usable",
    "Verif.Ffi.Props.C48_handles_to_boxes_are_usable_partial"
   ],
   "note": "False: proved that every call through a handle returned by New is undefined. The partial theorem says which handles would work."
  },
  {
   "property": "C49",
   "status": "proved",
   "theorems": [
    "Verif.Ffi.Props.C49_smart_create",
    "Verif.Ffi.Props.C49_smart_update"
   ],
   "note": "For updates of links without a twin."
  },
  {
   "property": "C50",
   "status": "proved",
   "theorems": [
    "Verif.Unit.C50_dense_indices",
    "Verif.Split.C50_dense_indices"
   ],
   "note": "Both stores, for every history (updates and deletions of links without a twin; on the split store calls it supports)."
  },
  {
   "property": "C51",
   "status": "proved",
   "theorems": [
    "Verif.Unit.Props.C51_careful_client",
    "Verif.Split.Props.C51_split_careful_client"
   ],
   "note": "Both stores. The memory must not grow beyond the index type, and reopening must map all links (C16, C47)."
  },
  {
   "property": "C52",
   "status": "proved",
   "theorems": [
    "Verif.Unit.Props.C52_ascending_order",
    "Verif.Split.Props.C52_split_ascending_order"
   ],
   "note": "Both stores."
  },
  {
   "property": "C53",
   "status": "proved",
   "theorems": [
    "Verif.Unit.Props.C53_memory_does_not_matter",
    "Verif.Split.Props.C53_split_memory_does_not_matter"
   ],
   "note": "Both stores, under the side conditions of C01 and C30; reopening must map all links (C16, C47)."
  },
  {
   "property": "C54",
   "status": "partial",
   "theorems": [
    "Verif.Split.Props.C54_images_bracket_the_call",
    "Verif.Split.Props.C54_split_crash_partial",
    "Verif.Split.Props.C54_interrupted_update_hides_the_link",
    "Verif.Split.Props.C54_interrupted_delete_hides_a_user",
    "Verif.Split.Props.C54_search_after_crash_can_be_undefined"
   ],
   "note": "Split store, every reachable state, every supported create/update/delete, every crash point between two memory updates, every reopening that maps enough memory: links that neither are changed nor have the link being deleted as target are found by lookup and by a traversal of everything; traversal by an end and search work for ends whose existence the crash did not change. Missing because false: crash points inside a call of the trees crate, where a crate that keeps its contract can lose other links from searches (C77_split_crash_inside_an_index_can_hide_links) and only C77 and C90 hold. Counter-theorems: the link being updated, and any link whose target is being deleted, is lost for some crash point; a search after a crash can be undefined behaviour."
  },
  {
   "property": "C55",
   "status": "proved",
   "theorems": [
    "Verif.Ffi.Props.C55_count_and_each_agree",
    "Verif.Ffi.Props.C55_failures_return_error"
   ],
   "note": "United store, the one the C interface offers; called through a valid handle (see C48)."
  },
  {
   "property": "C56",
   "status": "proved",
   "theorems": [
    "Verif.Unit.Props.C56_lookup",
    "Verif.Unit.Props.C56_count_all",
    "Verif.Unit.Props.C56_search_levels",
    "Verif.Unit.Props.C56_search",
    "Verif.Unit.Props.C56_by_source_levels",
    "Verif.Unit.Props.C56_by_target_levels",
    "Verif.Unit.Props.C56_by_source",
    "Verif.Unit.Props.C56_by_target",
    "Verif.Split.Props.C56_split_lookup",
    "Verif.Split.Props.C56_split_count_all",
    "Verif.Split.Props.C56_split_search_levels",
    "Verif.Split.Props.C56_split_search",
    "Verif.Split.Props.C56_split_by_source_levels",
    "Verif.Split.Props.C56_split_by_target_levels",
    "Verif.Split.Props.C56_split_by_source",
    "Verif.Split.Props.C56_split_by_target"
   ],
   "note": "Both stores; the trees crate (not in the repository) is assumed to keep its trees size-balanced, which the size-balanced reference implementation meets. Split store: for ends other than 0 (a null end makes it read the header as a tree, C45). Looking is meant extensionally: no change of any other slot can change the answer. The cost of attach and detach is inside the crate."
  },
  {
   "property": "C57",
   "status": "proved",
   "theorems": [
    "Verif.Split.Props.C57_split_amortised",
    "Verif.Split.Props.C57_split_delete_cost",
    "Verif.Unit.Props.C57_amortised",
    "Verif.Unit.Props.C57_single_delete_unbounded"
   ],
   "note": "An update is one write to the memory or one attach or detach of a link in an index tree (the crash points of C40 and C54). United store: at most nine per call, and the unbounded single deletion is proved for every bound. Split store: at most ten per call over histories that may reuse indices links refer to (C75), and the exact number for one deletion."
  },
  {
   "property": "C58",
   "status": "proved",
   "theorems": [
    "Verif.Unit.Props.C58_traversal_exact",
    "Verif.Unit.Props.C58_traversal_correct_iff",
    "Verif.Split.Props.C58_split_traversal_correct_iff"
   ],
   "note": "Queries of at most three parts (longer ones panic); split store: without null ends, which C67 describes."
  },
  {
   "property": "C59",
   "status": "proved",
   "theorems": [
    "Verif.Unit.Props.C59_succeeds_iff",
    "Verif.Unit.Props.C59_double_user",
    "Verif.Split.Props.C59_split_succeeds_iff",
    "Verif.Split.Props.C59_split_double_user"
   ],
   "note": "Both stores; users with a twin are excluded as in C20."
  },
  {
   "property": "C60",
   "status": "proved",
   "theorems": [
    "Verif.Unit.Props.C60_rebase_exact",
    "Verif.Unit.Props.C60_still_used",
    "Verif.Split.Props.C60_split_rebase_exact",
    "Verif.Split.Props.C60_split_still_used"
   ],
   "note": "Both stores; users with a twin are excluded, and (old,new), (new,old) must be free if a link (old,old) exists, as the intermediate updates would otherwise make twins. Split store: the updates must be supported (C30)."
  },
  {
   "property": "C61",
   "status": "partial",
   "theorems": [
    "Verif.Macros.Props.C61_exported_functions_partial",
    "Verif.Macros.Props.C61_ffi_functions",
    "Verif.Macros.Props.C61_needs_one_type_parameter",
    "Verif.Macros.Props.C61_ffi_names",
    "Verif.Macros.Props.C61_array_is_flattened",
    "Verif.Macros.Props.C61_path_segment_is_renamed"
   ],
   "note": "Exactly when the macro accepts a function and what it then exports, for signatures without array types and without paths a::T, among them all eleven functions of the C interface (C61_ffi_functions), whose 44 exported names are C61_ffi_names. Missing because false: an array type is replaced by its element type, and a further path segment named like the type parameter is renamed (counter-theorems). Parsing and printing of Rust tokens (syn, quote) is external."
  },
  {
   "property": "C62",
   "status": "proved",
   "theorems": [
    "Verif.Macros.Props.C62_names_differ"
   ],
   "note": "All patterns of the C interface begin with a star."
  },
  {
   "property": "C63",
   "status": "proved",
   "theorems": [
    "Verif.Macros.Props.C63_decorators_from_environment"
   ],
   "note": "For any notion of white space."
  },
  {
   "property": "C64",
   "status": "proved",
   "theorems": [
    "Verif.Split.SourcesList.Props.C64_list_traversal"
   ],
   "note": "The reading half; attaching and detaching are in C101. The split store is compiled with trees instead of this list."
  },
  {
   "property": "C65",
   "status": "proved",
   "theorems": [
    "Verif.Printing.Props.C65_printed_forms_identify"
   ],
   "note": "Errors of the store whose text does not depend on the operating system: the memory error is compared up to its own text."
  },
  {
   "property": "C66",
   "status": "proved",
   "theorems": [
    "Verif.Unit.Props.C66_reads_panic_iff_too_long",
    "Verif.Unit.Props.C66_parts_used",
    "Verif.Unit.Props.C66_writes_panic_iff_too_short",
    "Verif.Unit.Props.C66_restrictions_are_ignored",
    "Verif.Split.Props.C66_malformed_calls_panic",
    "Verif.Split.Props.C66_parts_used"
   ],
   "note": "United store: exactly; writes for links without a twin, counts with two parts up to the overflow of C14. Split store: malformed calls panic in every state; that others return is C30, C33, C34 (where it is true). Finding: further restrictions in the query of an update or delete are ignored, so 'delete 6 if its source is 9' deletes 6 = (3,2)."
  },
  {
   "property": "C67",
   "status": "proved",
   "theorems": [
    "Verif.Split.Props.C67_reads_return",
    "Verif.Split.Props.C67_counts_return",
    "Verif.Split.Props.C67_null_ends_without_gaps",
    "Verif.Split.Props.C67_null_ends_with_gaps",
    "Verif.Split.Props.C67_null_pairs_with_gaps",
    "Verif.Split.Props.C67_wrong_pair_is_found"
   ],
   "note": "The claim describes what the code does, which is a defect: links with null ends are not found and others are visited in their place (the header is read as the index part of link 0). With unused indices, a query for two ends one of which is null visits at most one link, which agrees with the query in the end that is not null but need not agree in the other; get_or_create then returns a link that is another pair (counter-theorem). Counts return, except [any,x] on overflow; they need not agree with the visits."
  },
  {
   "property": "C68",
   "status": "proved",
   "theorems": [
    "Verif.Unit.Props.C68_delete_query_exact",
    "Verif.Split.Props.C68_split_delete_query_exact",
    "Verif.Split.Props.C68_split_null_queries_without_gaps",
    "Verif.Split.Props.C68_split_null_queries_with_gaps",
    "Verif.Split.Props.C68_split_null_pairs_with_gaps"
   ],
   "note": "Split store: queries without null ends and, from C67, queries for null ends; the latter delete links that do not match."
  },
  {
   "property": "C69",
   "status": "proved",
   "theorems": [
    "Verif.Split.Props.C69_split_rebase_and_delete_exact",
    "Verif.Unit.Props.C69_rebase_and_delete_exact"
   ],
   "note": "Side conditions as for C60. That 0 is returned instead of new is a finding (C22)."
  },
  {
   "property": "C70",
   "status": "proved",
   "theorems": [
    "Verif.Deco.Props.C70_cascade_double_user",
    "Verif.Deco.Props.C70_cascade_succeeds_iff",
    "Verif.Deco.Props.C70_cascade_dangling"
   ],
   "note": "Complements C43, which is false in general."
  },
  {
   "property": "C71",
   "status": "proved",
   "theorems": [
    "Verif.Unit.Props.C71_exist",
    "Verif.Unit.Props.C71_try_get_link",
    "Verif.Unit.Props.C71_search_or",
    "Verif.Split.Props.C71_split_exist",
    "Verif.Split.Props.C71_split_try_get_link",
    "Verif.Split.Props.C71_split_search_or"
   ],
   "note": ""
  },
  {
   "property": "C72",
   "status": "proved",
   "theorems": [
    "Verif.Unit.Props.C72_open_iff",
    "Verif.Unit.Props.C72_open_fails_iff",
    "Verif.Unit.Props.C72_reopen_lookup",
    "Verif.Unit.Props.C72_reopen_keeps_iff",
    "Verif.Split.Props.C72_split_open_iff",
    "Verif.Split.Props.C72_split_small_index_types_cannot_be_opened",
    "Verif.Split.Props.C72_split_reopen_lookup",
    "Verif.Split.Props.C72_split_reopen_keeps_iff"
   ],
   "note": "Complements C16, C39 and C47, which are false in general. The split allocators grant exactly what is asked for, as assumed throughout."
  },
  {
   "property": "C73",
   "status": "proved",
   "theorems": [
    "Verif.Split.Props.C73_split_count_null_without_gaps",
    "Verif.Split.Props.C73_split_count_null_with_gaps",
    "Verif.Split.Props.C73_split_count",
    "Verif.Split.Props.C73_split_count_of_nothing"
   ],
   "note": "Complements C34, which is false in general. With unused indices and a source that is not a link, the query for a null target counts some positive number that is not described further."
  },
  {
   "property": "C74",
   "status": "partial",
   "theorems": [
    "Verif.Unit.Props.C74_same_contents_same_answers",
    "Verif.Unit.Props.C74_same_contents_same_search",
    "Verif.Unit.Props.C74_order_is_not_determined",
    "Verif.Split.Props.C74_split_same_contents_same_links",
    "Verif.Split.Props.C74_split_same_contents_same_counts_partial",
    "Verif.Split.Props.C74_split_count_depends_on_history",
    "Verif.Split.Props.C74_split_order_by_source"
   ],
   "note": "False for counts on the split store: they can depend on the order in which links were deleted (counterexample), and the same otherwise. Visiting order is determined by the contents only where stated (C52 and by existing source on the split store)."
  },
  {
   "property": "C75",
   "status": "proved",
   "theorems": [
    "Verif.Split.Props.C75_contents",
    "Verif.Split.Props.C75_calls",
    "Verif.Split.Props.C75_found_by_source",
    "Verif.Split.Props.C75_found_by_target",
    "Verif.Split.Props.C75_search",
    "Verif.Split.Props.C75_get_or_create_duplicates",
    "Verif.Split.Props.C75_everything",
    "Verif.Split.Props.C75_nothing_lost",
    "Verif.Split.Props.C75_deletion_recovers"
   ],
   "note": "Describes the behaviour behind C32 for all histories. Updates and deletions of lost links are outside the model of the trees (the link is not in the tree it would be detached from)."
  },
  {
   "property": "C76",
   "status": "proved",
   "theorems": [
    "Verif.Unit.Props.C76_calls_through_accessors",
    "Verif.Unit.Props.C76_opening_through_accessors",
    "Verif.Split.Props.C76_split_calls_through_accessors",
    "Verif.Split.Props.C76_split_opening_through_accessors"
   ],
   "note": "The algorithms of the trees crate are arbitrary programs over the accessors of the repository that do what the contract of the crate says (Access.lean); a reference family of programs is proved to do so (RefPrograms.lean). A write is one assignment to a field of a slot or of the header; a slot copied as a whole counts as one. Split store: under the side conditions of C30; growth moves both memories."
  },
  {
   "property": "C77",
   "status": "proved",
   "theorems": [
    "Verif.Unit.Props.C77_single_writes_keep_the_ends",
    "Verif.Unit.Props.C77_crash_inside_an_index_can_hide_links",
    "Verif.Unit.Props.C77_crash_while_opening",
    "Verif.Split.Props.C77_split_single_writes_keep_the_ends",
    "Verif.Split.Props.C77_split_crash_inside_an_index_can_hide_links",
    "Verif.Split.Props.C77_split_crash_while_opening"
   ],
   "note": "Writes as in C76: one assignment to a field. Lookups and traversals of everything; what queries by an end find after a crash inside an index update depends on code that is not in the repository: proved that with one implementation of its contract a link the call is not about is then not found by its ends (between index updates: C40)."
  },
  {
   "property": "C78",
   "status": "proved",
   "theorems": [
    "Verif.Unit.Props.C78_lookup_in_any_memory",
    "Verif.Unit.Props.C78_traversal_of_any_memory",
    "Verif.Unit.Props.C78_total_of_any_memory",
    "Verif.Unit.Props.C78_search_in_a_damaged_memory",
    "Verif.Split.Props.C78_split_lookup_in_any_memory",
    "Verif.Split.Props.C78_split_traversal_of_any_memory",
    "Verif.Split.Props.C78_split_total_of_any_memory",
    "Verif.Split.Props.C78_split_search_in_a_damaged_memory"
   ],
   "note": "The exception is the off-by-one of C16 and C47: with it the lookup reads behind the mapped memory. Sequences of writes to a damaged store are not described."
  },
  {
   "property": "C79",
   "status": "proved",
   "theorems": [
    "Verif.Unit.Props.C79_changes_replay",
    "Verif.Unit.Props.C79_deletions_are_supported",
    "Verif.Unit.Props.C79_deletions_replay",
    "Verif.Split.Props.C79_split_changes_replay",
    "Verif.Split.Props.C79_split_deletions_are_supported",
    "Verif.Split.Props.C79_split_deletions_replay"
   ],
   "note": "Supported: updated and deleted links have no twin, and on the split store the conditions of C30. Deletions in a store without duplicates always are (second theorem). The united store reports the new link as the state before an update (C26), which replaying does not look at."
  },
  {
   "property": "C80",
   "status": "proved",
   "theorems": [
    "Verif.Unit.Props.C80_memory_is_bounded",
    "Verif.Unit.Props.C80_growth_is_rare",
    "Verif.Unit.Props.C80_grows_when_full",
    "Verif.Split.Props.C80_split_memory_is_bounded",
    "Verif.Split.Props.C80_split_growth_is_rare",
    "Verif.Split.Props.C80_split_grows_when_full"
   ],
   "note": "Histories as in C01 and C30; the split allocators grant exactly what is asked for, as assumed throughout."
  },
  {
   "property": "C81",
   "status": "proved",
   "theorems": [
    "Verif.Unit.Props.C81_lists_of_nested_pairs_are_shared",
    "Verif.Split.Props.C81_split_lists_of_nested_pairs_are_shared",
    "Verif.Unit.Props.C81_nested_pair_is_stored",
    "Verif.Unit.Props.C81_nested_pair_is_stored_once",
    "Verif.Unit.Props.C81_nested_pairs_told_apart",
    "Verif.Split.Props.C81_split_nested_pair_is_stored",
    "Verif.Split.Props.C81_split_nested_pair_is_stored_once",
    "Verif.Split.Props.C81_split_nested_pairs_told_apart"
   ],
   "note": "On memories that, when they grow, stay within the index type (otherwise C14 has the panic). The exception is real: get_or_create(p, p) for a point p returns p. C81_lists_of_nested_pairs_are_shared and its split version need only the weaker contract for the tree crate."
  },
  {
   "property": "C82",
   "status": "proved",
   "theorems": [
    "Verif.Unit.Props.C82_every_word_fits",
    "Verif.Unit.Props.C82_file_holds_the_links",
    "Verif.Unit.Props.C82_reading_the_file_back",
    "Verif.Split.Props.C82_split_every_word_fits",
    "Verif.Split.Props.C82_split_files_hold_the_links",
    "Verif.Split.Props.C82_split_reading_the_files_back"
   ],
   "note": "The layout of repr(C) structures of equal words, without padding, is taken from the Rust reference. The model writes words, so the bytes of a word are those of its value."
  },
  {
   "property": "C83",
   "status": "proved",
   "theorems": [
    "Verif.Props.C83_words_lie_in_one_sector",
    "Verif.Unit.Props.C83_power_loss_keeps_the_ends",
    "Verif.Unit.Props.C83_power_loss_can_lose_a_search",
    "Verif.Split.Props.C83_split_power_loss_keeps_the_ends",
    "Verif.Split.Props.C83_split_power_loss_can_lose_a_search"
   ],
   "note": "Files are torn between words, not inside them: words are aligned and no word crosses a sector (proved). The calls of a session are those the stores support (no duplicates of the link written to; on the split store the conditions of C30)."
  },
  {
   "property": "C84",
   "status": "proved",
   "theorems": [
    "Verif.Stacks.Props.C84_default_deletions",
    "Verif.Stacks.Props.C84_order_of_validators",
    "Verif.Stacks.Props.C84_unique_under_every_stack",
    "Verif.Stacks.Props.C84_default_writes",
    "Verif.Stacks.Props.C84_no_dangling_under_plain_stacks",
    "Verif.Stacks.Props.C84_default_writes_between_links",
    "Verif.Stacks.Props.C84_split_no_dangling_under_plain_stacks",
    "Verif.Stacks.Props.C84_split_default_writes_between_links",
    "Verif.Stacks.Props.C84_cascade_unique_resolver_dangles",
    "Verif.Stacks.Props.C84_unique_resolver_over_usages_validator_deletes_and_fails",
    "Verif.Stacks.Props.C84_split_null_link_cannot_be_deleted"
   ],
   "note": "Updates with one null end are excluded: the united store does not index null sources (C41_null_sources_are_not_checked). The limits are theorems: CascadeUniqueResolver over both validators can leave a dangling reference, UniqueResolver over UsagesValidator can delete a link and report a refusal, and on the split store NonNullDeletionResolver over UniqueValidator cannot delete a null link in some states."
  },
  {
   "property": "C85",
   "status": "proved",
   "theorems": [
    "Verif.Unit.Props.C85_reads_only_load",
    "Verif.Unit.Props.C85_every_schedule",
    "Verif.Unit.Props.C85_one_at_a_time_is_a_schedule",
    "Verif.Unit.Props.C85_no_deadlock",
    "Verif.Unit.Props.C85_parallel_readers",
    "Verif.Unit.Props.C85_always_disciplined",
    "Verif.Unit.Props.C85_torn_read_without_the_lock",
    "Verif.Split.Props.C85_split_reads_only_load",
    "Verif.Split.Props.C85_split_every_schedule",
    "Verif.Split.Props.C85_split_one_at_a_time_is_a_schedule",
    "Verif.Split.Props.C85_split_no_deadlock",
    "Verif.Split.Props.C85_split_parallel_readers",
    "Verif.Split.Props.C85_split_always_disciplined",
    "Verif.Split.Props.C85_split_torn_read_without_the_lock"
   ],
   "note": "Threads step from load to load and from assignment to assignment on a memory that they all see in the same order; the lock is the rule that nobody else is in a call while a thread writes. The reads create short-lived mutable references (get_from_mem goes through mut_from_mem); the aliasing rules of the language for these are not modelled."
  },
  {
   "property": "C86",
   "status": "proved",
   "theorems": [
    "Verif.Unit.Props.C86_texts_are_read_back",
    "Verif.Unit.Props.C86_texts_stay",
    "Verif.Unit.Props.C86_dangling_source_spoils_a_text",
    "Verif.Split.Props.C86_split_texts_are_read_back",
    "Verif.Split.Props.C86_split_texts_stay",
    "Verif.Split.Props.C86_split_null_symbol_is_unreadable"
   ],
   "note": "In the split store symbols are not null. The condition on sources is needed in the united store: C86_dangling_source_spoils_a_text."
  },
  {
   "property": "C87",
   "status": "proved",
   "theorems": [
    "Verif.Ffi.Props.C87_the_client_knows_the_store",
    "Verif.Ffi.Props.C87_sessions_return"
   ],
   "note": "The handle points to a boxed store (C48). The constant error is above the internal range, otherwise codes are ambiguous. The defects of C26 and C38 are part of the specification that is proved."
  },
  {
   "property": "C88",
   "status": "proved",
   "theorems": [
    "Verif.Unit.Props.C88_other_constants_do_not_matter",
    "Verif.Unit.Props.C88_null_must_be_zero",
    "Verif.Unit.Props.C88_links_below_the_range",
    "Verif.Unit.Props.C88_range_must_start_at_one",
    "Verif.Unit.Props.C88_any_must_not_be_an_index",
    "Verif.Unit.Props.C88_exchanged_positions",
    "Verif.Unit.Props.C88_index_must_be_first",
    "Verif.Unit.Props.C88_range_must_end_in_the_type",
    "Verif.Split.Props.C88_split_other_constants_do_not_matter",
    "Verif.Split.Props.C88_split_null_must_be_zero",
    "Verif.Split.Props.C88_split_links_below_the_range",
    "Verif.Split.Props.C88_split_range_must_start_at_one",
    "Verif.Split.Props.C88_split_exchanged_positions",
    "Verif.Split.Props.C88_split_index_must_be_first",
    "Verif.Split.Props.C88_split_range_must_end_in_the_type",
    "Verif.Split.Props.C88_split_any_must_not_be_an_index"
   ],
   "note": "The damage of an index equal to any on the split store is a concrete history; what the tree crate does when a link is detached from a tree that does not have it is not in its contract."
  },
  {
   "property": "C89",
   "status": "proved",
   "theorems": [
    "Verif.C89_all_calls_succeed",
    "Verif.Unit.Props.C89_any_links_can_be_stored",
    "Verif.Unit.Props.C89_possible_contents",
    "Verif.Unit.Props.C89_copies_have_the_same_contents",
    "Verif.Unit.Props.C89_copies_can_number_differently",
    "Verif.Split.Props.C89_split_any_links_can_be_stored",
    "Verif.Split.Props.C89_split_possible_contents",
    "Verif.Split.Props.C89_split_copies_have_the_same_contents",
    "Verif.Split.Props.C89_split_to_united",
    "Verif.Split.Props.C89_united_to_split"
   ],
   "note": "The copying program is a client of the store, not code of the repository. Copying to a split store needs that no link has a source without a target."
  },
  {
   "property": "C90",
   "status": "proved",
   "theorems": [
    "Verif.Unit.Props.C90_any_memory_can_be_copied",
    "Verif.Unit.Props.C90_recovery_after_a_crash",
    "Verif.Unit.Props.C90_recovery_after_power_loss",
    "Verif.Split.Props.C90_split_any_memory_can_be_copied",
    "Verif.Split.Props.C90_split_any_memory_to_united",
    "Verif.Split.Props.C90_split_recovery_after_a_crash",
    "Verif.Split.Props.C90_split_recovery_after_power_loss",
    "Verif.Unit.Props.C90_recovery_with_threads",
    "Verif.Unit.Props.C90_recovery_with_builders",
    "Verif.Split.Props.C90_split_recovery_with_threads",
    "Verif.Split.Props.C90_split_recovery_with_builders"
   ],
   "note": "The copying program is a client of the store, not code of the repository (see C89). As in C40, C54 and C83 the reopened store must have more cells than there are allocated indices, else the lookup of the last one is out of bounds (see C72)."
  },
  {
   "property": "C91",
   "status": "proved",
   "theorems": [
    "Verif.Unit.Props.C91_from_any_contents_to_any_other",
    "Verif.Unit.Props.C91_every_change_can_be_undone",
    "Verif.Unit.Props.C91_creation_is_undone_by_deletion",
    "Verif.Unit.Props.C91_update_is_undone_by_update",
    "Verif.Unit.Props.C91_deletion_is_undone_by_creation",
    "Verif.Unit.Props.C91_deletion_of_the_highest_is_not",
    "Verif.Split.Props.C91_split_from_any_contents_to_any_other",
    "Verif.Split.Props.C91_split_every_change_can_be_undone",
    "Verif.Split.Props.C91_split_creation_is_undone_by_deletion",
    "Verif.Split.Props.C91_split_update_is_undone_by_update",
    "Verif.Split.Props.C91_split_deletion_is_undone_by_creation"
   ],
   "note": "The emptying and the copying program are clients of the store, not code of the repository (see C89). Stores with duplicate doublets are excluded because detaching one of two links with the same ends is not covered by the contract of the trees crate."
  },
  {
   "property": "C92",
   "status": "proved",
   "theorems": [
    "Verif.Unit.Props.C92_depth_is_bounded_by_the_count",
    "Verif.Unit.Props.C92_depth_is_bounded_by_the_levels",
    "Verif.Unit.Props.C92_depth_is_logarithmic",
    "Verif.Unit.Props.C92_damaged_memory_exceeds_any_stack",
    "Verif.Split.Props.C92_split_depth_is_bounded_by_the_count",
    "Verif.Split.Props.C92_split_depth_is_bounded_by_the_levels",
    "Verif.Split.Props.C92_split_depth_is_logarithmic",
    "Verif.Split.Props.C92_split_damaged_memory_exceeds_any_stack"
   ],
   "note": "The depth counts the nested calls of each_usages_core. each_core and try_each_by_core call themselves at most twice more. Balance of the trees is a hypothesis, as in C56: the trees crate is external."
  },
  {
   "property": "C93",
   "status": "proved",
   "theorems": [
    "Verif.Unit.Props.C93_careful_client",
    "Verif.Unit.Props.C93_careful_makes_no_duplicates",
    "Verif.Unit.Props.C93_without_duplicates",
    "Verif.Unit.Props.C93_same_as_the_full_contract",
    "Verif.Unit.Props.C93_duplicates_damage_other_links",
    "Verif.Split.Props.C93_split_careful_client",
    "Verif.Split.Props.C93_split_careful_makes_no_duplicates",
    "Verif.Split.Props.C93_split_without_duplicates",
    "Verif.Split.Props.C93_split_same_as_the_full_contract",
    "Verif.Split.Props.C93_split_duplicates_damage_other_links"
   ],
   "note": "Split store: under the side conditions of C30. The crate with which duplicates do damage is a transcription of the published size-balanced tree algorithm (Sbt.lean), not code of the repository, which the trees crate is not part of."
  },
  {
   "property": "C94",
   "status": "proved",
   "theorems": [
    "Verif.Props.C94_size_balanced_trees",
    "Verif.Unit.Props.C94_calls_through_accessors",
    "Verif.Unit.Props.C94_single_writes_keep_the_ends",
    "Verif.Unit.Props.C94_power_loss_keeps_the_ends",
    "Verif.Unit.Props.C94_every_schedule",
    "Verif.Unit.Props.C94_no_deadlock",
    "Verif.Unit.Props.C94_always_disciplined",
    "Verif.Split.Props.C94_split_calls_through_accessors",
    "Verif.Split.Props.C94_split_single_writes_keep_the_ends",
    "Verif.Split.Props.C94_split_power_loss_keeps_the_ends",
    "Verif.Split.Props.C94_split_every_schedule",
    "Verif.Split.Props.C94_split_no_deadlock",
    "Verif.Split.Props.C94_split_always_disciplined"
   ],
   "note": "C76, C77, C83 and C85 over the weaker contract of C93, under their side conditions. The size-balanced tree programs (SbtPrograms.lean) are a transcription of the published algorithm, not code of the repository, which the trees crate is not part of."
  },
  {
   "property": "C95",
   "status": "partial",
   "theorems": [
    "Verif.Split.Props.C95_exists",
    "Verif.Split.Props.C95_is_unused_partial",
    "Verif.Split.Props.C95_null_may_seem_used",
    "Verif.Split.Props.C95_get_data_part",
    "Verif.Split.Props.C95_get_data_part_of_no_link"
   ],
   "note": "False of is_unused(0) and is_virtual(0): proved that they are false whenever there is a gap below the highest link. Proved for all other indices. Supported histories are those of C30."
  },
  {
   "property": "C96",
   "status": "proved",
   "theorems": [
    "Verif.Unit.Props.C96_search",
    "Verif.Split.Props.C96_split_search"
   ],
   "note": "Split store: under the side conditions of C30."
  },
  {
   "property": "C97",
   "status": "proved",
   "theorems": [
    "Verif.Split.Props.C97_split_unique_validator",
    "Verif.Split.Props.C97_split_unique_validator_keeps",
    "Verif.Split.Props.C97_split_unique_resolver",
    "Verif.Split.Props.C97_split_cascade_unique_resolver",
    "Verif.Split.Props.C97_split_cascade_merges",
    "Verif.Unit.Props.C97_unique_validator",
    "Verif.Unit.Props.C97_unique_validator_lets_in",
    "Verif.Unit.Props.C97_unique_resolver",
    "Verif.Unit.Props.C97_cascade_unique_resolver",
    "Verif.Unit.Props.C97_cascade_merges"
   ],
   "note": "Conditions: no link is deleted or updated while another link has the same doublet (as for the plain calls). The merge of CascadeUniqueResolver has the exception of C60 for links with i at both ends. On the split store also: no user of i that has a source is the chosen link or refers to itself, and a link that has a source is not made to refer to itself (updates the store does not support)."
  },
  {
   "property": "C98",
   "status": "partial",
   "theorems": [
    "Verif.Split.Props.C98_create_outside_panics",
    "Verif.Split.Props.C98_larger_index_memory",
    "Verif.Split.Props.C98_larger_data_memory",
    "Verif.Split.Props.C98_alike_memories_partial"
   ],
   "note": "False: proved that a creation panics whenever one of the two memories lacks the slot of the next link while the store sees no reason to grow, and that histories on an empty store get there, whichever of the memories is larger. Proved, with the contents and results of a map, for memories that both grant the same number of slots, more than asked for or not (C98_alike_memories_partial)."
  },
  {
   "property": "C99",
   "status": "partial",
   "theorems": [
    "Verif.Split.Props.C99_half_pairs_vanish",
    "Verif.Split.Props.C99_deleting_a_neighbour_overwrites_another_link",
    "Verif.Split.Props.C99_deleting_a_neighbour_panics",
    "Verif.Split.Props.C99_other_pairs_stay_partial"
   ],
   "note": "False for a source without a target: proved for every reachable state that the update reports success and the link is then not found, not updatable, not deletable, but still counted and still visited by its source, and that a query for its pair is undefined behaviour if no index is free (C99_half_pairs_vanish); with the usual circular list algorithm, proved to meet the contract (Verif/CircList.lean), deleting a neighbour then overwrites the target of another link or panics. Proved for all other ends (C99_other_pairs_stay_partial)."
  },
  {
   "property": "C100",
   "status": "proved",
   "theorems": [
    "Verif.Unit.Props.C100_find_single_found",
    "Verif.Split.Props.C100_split_find_single_found",
    "Verif.Split.Props.C100_split_answers_are_links"
   ],
   "note": "Complements C25, which is false in general. found is described whenever it returns (the count by [any,x] can overflow, C14, C73)."
  },
  {
   "property": "C101",
   "status": "proved",
   "theorems": [
    "Verif.Split.SourcesList.Props.C101_lists_keep_their_order",
    "Verif.Split.SourcesList.Props.C101_one_call"
   ],
   "note": "The methods attach_as_first, attach_as_last and detach are those of the trees crate, which is not in the sandbox: the usual algorithms for a circular list are run, assignment by assignment, over the getters and setters of the file. The store itself never calls them: store.rs leaves the branches for USE_LIST as todo!()."
  },
  {
   "property": "C102",
   "status": "proved",
   "theorems": [
    "Verif.Unit.Props.C102_methods",
    "Verif.Unit.Props.C102_careful_threads",
    "Verif.Unit.Props.C102_builders",
    "Verif.Unit.Props.C102_any_method",
    "Verif.Unit.Props.C102_one_at_a_time_is_a_schedule",
    "Verif.Unit.Props.C102_separate_locks_make_twins",
    "Verif.Split.Props.C102_split_methods",
    "Verif.Split.Props.C102_split_careful_threads",
    "Verif.Split.Props.C102_split_builders",
    "Verif.Split.Props.C102_split_any_method",
    "Verif.Split.Props.C102_split_one_at_a_time_is_a_schedule",
    "Verif.Split.Props.C102_split_separate_locks_make_twins"
   ],
   "note": "Threads are those of C85. A method is the sequence of the calls it makes; C102_methods shows that it answers as the method of the model. That the lock must be held for the whole method is C102_separate_locks_make_twins."
  },
  {
   "property": "C103",
   "status": "proved",
   "theorems": [
    "Verif.Unit.Props.C103_any_moment",
    "Verif.Unit.Props.C103_builders",
    "Verif.Unit.Props.C103_every_moment_occurs",
    "Verif.Split.Props.C103_split_any_moment",
    "Verif.Split.Props.C103_split_builders",
    "Verif.Split.Props.C103_split_every_moment_occurs"
   ],
   "note": "Threads are those of C85 and C102, crashes those of C77 and C83. Bounds on the loops of requests are large enough (B), as in C77. As there the reopened store must have more cells than there are allocated indices. C103_every_moment_occurs shows that no moment inside a request is left out."
  },
  {
   "property": "C104",
   "status": "proved",
   "theorems": [
    "Verif.Unit.Props.C104_a_panic_leaves_the_finished_write",
    "Verif.Unit.Props.C104_a_panic_leaves_the_changes_told",
    "Verif.Unit.Props.C104_a_panic_stops_deletions",
    "Verif.Split.Props.C104_split_a_panic_leaves_the_finished_write",
    "Verif.Split.Props.C104_split_a_panic_leaves_the_changes_told",
    "Verif.Split.Props.C104_split_a_panic_stops_deletions"
   ],
   "note": "Supported as in C79: updated and deleted links have no twin, and on the split store the conditions of C30; deletions in a store without duplicates always are (third theorem). The methods are modelled a second time with handlers that may panic (Verif/Unwind.lean, Verif/Unit/Unwind.lean, Verif/Split/Unwind.lean). Panics of the store itself are not covered."
  },
  {
   "property": "C105",
   "status": "proved",
   "theorems": [
    "Verif.Unit.Props.C105_crash_makes_no_link_up",
    "Verif.Unit.Props.C105_crash_while_creating_can_make_up_a_target",
    "Verif.Unit.Props.C105_power_loss_can_make_a_link_up",
    "Verif.Split.Props.C105_split_crash_makes_no_link_up",
    "Verif.Split.Props.C105_split_crash_while_creating_can_make_up_a_target",
    "Verif.Split.Props.C105_split_power_loss_can_make_a_link_up"
   ],
   "note": "Supported as in C77. The reopened memory has to map every link. The two negative theorems per store are concrete witnesses of why links without source and power losses are excepted."
  },
  {
   "property": "C106",
   "status": "proved",
   "theorems": [
    "Verif.Unit.Props.C106_power_loss_while_growing",
    "Verif.Unit.Props.C106_power_loss_makes_no_link_up_while_growing",
    "Verif.Unit.Props.C106_recovery_while_growing",
    "Verif.Unit.Props.C106_power_loss_can_mix_the_ends_of_an_update",
    "Verif.Split.Props.C106_split_power_loss_while_growing",
    "Verif.Split.Props.C106_split_power_loss_makes_no_link_up_while_growing",
    "Verif.Split.Props.C106_split_recovery_while_growing",
    "Verif.Split.Props.C106_split_power_loss_can_mix_the_ends_of_an_update"
   ],
   "note": "The reopened memory has to map every link. The complement of C105, whose witnesses need deletions."
  },
  {
   "property": "C107",
   "status": "proved",
   "theorems": [
    "Verif.Unit.Props.C107_owners_do_not_notice_each_other",
    "Verif.Unit.Props.C107_schedules_end_alike",
    "Verif.Unit.Props.C107_cells_are_disciplined",
    "Verif.Split.Props.C107_split_owners_do_not_notice_each_other",
    "Verif.Split.Props.C107_split_schedules_end_alike",
    "Verif.Split.Props.C107_split_cells_are_disciplined"
   ],
   "note": "As in C85, supported calls only: a link that is updated or deleted has no twin at that moment (C107_cells_are_disciplined gives programs for which this always holds). Creations are left out: which index they return depends on the schedule (C102)."
  },
  {
   "property": "C108",
   "status": "proved",
   "theorems": [
    "Verif.Deco.Props.C108_unique_validator_create_link",
    "Verif.Deco.Props.C108_unique_validator_fills_the_store",
    "Verif.Deco.Props.C108_unique_validator_get_or_create",
    "Verif.Deco.Props.C108_unique_resolver_create_link",
    "Verif.Deco.Props.C108_cascade_unique_resolver_create_link",
    "Verif.Deco.Props.C108_usages_validator_create_link",
    "Verif.Unit.Props.C108_unique_validator_exact",
    "Verif.Unit.Props.C108_cascade_unique_resolver_redirects",
    "Verif.Split.Props.C108_split_unique_validator_exact",
    "Verif.Split.Props.C108_split_refuses_a_new_pair"
   ],
   "note": "The theorems are over every lawful store (Lawful in Spec.lean), which the united and the split store are on their reachable states; the exact conditions for UniqueValidator are per store. C108_cascade_unique_resolver_redirects and C108_split_refuses_a_new_pair are concrete faults. UsagesValidator: whenever the call returns."
  },
  {
   "property": "C109",
   "status": "proved",
   "theorems": [
    "Verif.Batch.Props.C109_any_order",
    "Verif.Batch.Props.C109_rewrite_every_link",
    "Verif.Unit.Props.C109_order_shows_in_new_indices"
   ],
   "note": "Over every lawful store, so over both stores; over the split store the updates must be supported ones (C31): no source without a target, and a link that has a source is not given itself as an end."
  },
  {
   "property": "C110",
   "status": "proved",
   "theorems": [
    "Verif.Unit.Props.C110_import",
    "Verif.Unit.Props.C110_import_again",
    "Verif.Unit.Props.C110_import_twice",
    "Verif.Split.Props.C110_split_import",
    "Verif.Split.Props.C110_split_import_again",
    "Verif.Split.Props.C110_split_import_twice"
   ],
   "note": "Memories that, when they grow, stay within the index type (otherwise C14 has the panic). Over the split store each end must also be null or a link. A program that stops inside get_or_create, between create and update, leaves one null link: the example shows it."
  },
  {
   "property": "C111",
   "status": "proved",
   "theorems": [
    "Verif.Unit.Props.C111_any_schedule",
    "Verif.Unit.Props.C111_either_order",
    "Verif.Split.Props.C111_split_any_schedule",
    "Verif.Split.Props.C111_split_either_order",
    "Verif.Split.Props.C111_both_kinds"
   ],
   "note": "get_or_create takes the store by exclusive reference, so each call is made under one lock. Memories that, when they grow, stay within the index type (otherwise C14 has the panic). Nothing is said about orders under which a call fails for lack of memory."
  },
  {
   "property": "C112",
   "status": "proved",
   "theorems": [
    "Verif.Unit.Props.C112_par_each_iter",
    "Verif.Unit.Props.C112_par_iter",
    "Verif.Split.Props.C112_split_par_each_iter",
    "Verif.Split.Props.C112_split_par_iter"
   ],
   "note": "The collecting part is the code of the repository; what rayon does with the vector is modelled after its documentation (Verif/Parallel.lean), its source is not in the sandbox."
  },
  {
   "property": "C113",
   "status": "proved",
   "theorems": [
    "Verif.Sweep.Props.C113_sweep"
   ],
   "note": "Over every lawful store, so over both stores. The marking is a client program, modelled with its termination (as many rounds as there are links)."
  },
  {
   "property": "C114",
   "status": "proved",
   "theorems": [
    "Verif.Unit.Props.C114_same_states",
    "Verif.Unit.Props.C114_same_calls",
    "Verif.Unit.Props.C114_counts",
    "Verif.Unit.Props.C114_count_wraps",
    "Verif.Unit.Props.C114_same_results",
    "Verif.Unit.Props.C114_default_methods",
    "Verif.Split.Props.C114_split_same_states",
    "Verif.Split.Props.C114_split_same_calls",
    "Verif.Split.Props.C114_split_counts",
    "Verif.Split.Props.C114_split_count_wraps",
    "Verif.Split.Props.C114_split_same_results"
   ],
   "note": "Both stores, and all default methods that contain or depend on arithmetic. Split store: deletions of links that, like their users, have no duplicates. Proved also that the count does differ: four links with 1 at both ends and an index type of six values give a panic with the checks and 2 without."
  },
  {
   "property": "C115",
   "status": "proved",
   "theorems": [
    "Verif.Unit.Props.C115_same_calls_same_results",
    "Verif.Unit.Props.C115_same_answers",
    "Verif.Unit.Props.C115_same_search",
    "Verif.Split.Props.C115_split_same_calls_same_results",
    "Verif.Split.Props.C115_split_same_links",
    "Verif.Split.Props.C115_split_same_counts"
   ],
   "note": "Both stores. Split store: queries that do not ask for null ends over all links; the counts are compared for stores that served the same calls, which C74 shows to be needed. The tree crates, the memories and the number of times either store was reopened may differ too."
  },
  {
   "property": "C116",
   "status": "proved",
   "theorems": [
    "Verif.Unit.Props.C116_united_store_is_a_map_to_clients",
    "Verif.Unit.Props.C116_united_clients_finish",
    "Verif.Unit.Props.C116_united_composite_calls",
    "Verif.Split.Props.C116_split_store_is_a_map_to_clients",
    "Verif.Split.Props.C116_split_clients_finish",
    "Verif.Split.Props.C116_split_composite_calls",
    "Verif.Split.Props.C116_one_after_another",
    "Verif.Split.Props.C116_one_meaning",
    "Verif.Split.Props.C116_united_or_split",
    "Verif.Split.Props.C116_threads_united_or_split",
    "Verif.Split.Props.C116_united_or_united",
    "Verif.Split.Props.C116_split_or_split"
   ],
   "note": "Both stores. Split store: if the data memory can grow then so can the index memory (C46). The conditions on queries and calls are those that C45, C34, C58 and C67 show to be needed. A client whose creation fails for lack of memory gives up."
  },
  {
   "property": "C117",
   "status": "proved",
   "theorems": [
    "Verif.Ffi.Props.C117_the_c_interface_is_as_good",
    "Verif.Ffi.Props.C117_a_map_to_c_clients",
    "Verif.Ffi.Props.C117_c_or_split"
   ],
   "note": "United store, the only one that the C interface opens. The handle points to a boxed store (C48). The constant error is above the internal range, otherwise codes are ambiguous. The callbacks answer continue."
  },
  {
   "property": "C118",
   "status": "proved",
   "theorems": [
    "Verif.Unit.Props.C118_united_restarted_clients",
    "Verif.Unit.Props.C118_united_restarts_do_not_show",
    "Verif.Unit.Props.C118_united_can_be_restarted",
    "Verif.Split.Props.C118_split_restarted_clients",
    "Verif.Split.Props.C118_split_restarts_do_not_show",
    "Verif.Split.Props.C118_united_or_split",
    "Verif.Split.Props.C118_split_can_be_restarted"
   ],
   "note": "Both stores. More slots must be mapped than the largest index in use: otherwise a link can be lost (C16, C47, C72). Split store: if the data memory can grow then so can the index memory (C46). Restarts are between calls; for crashes inside calls see C40, C54, C77, C83."
  },
  {
   "property": "C119",
   "status": "partial",
   "theorems": [
    "Verif.Unit.Props.C119_points",
    "Verif.Unit.Props.C119_tour_partial",
    "Verif.Unit.Props.C119_tour_fails",
    "Verif.Split.Props.C119_split_points"
   ],
   "note": "The loops: proved for both stores. The first program: proved with a second point for the other end of the link. As it stands it is false: the link it makes has the ends of the point, and updating one of two links with the same ends is beyond a tree crate that finds nodes by comparing them; over the published size-balanced trees (a transcription, not code of the repository) the point is lost from the index and delete_all does not return (C119_tour_fails), over a crate that tells equal nodes apart it works."
  },
  {
   "property": "C120",
   "status": "proved",
   "theorems": [
    "Verif.Unit.Props.C120_united_store_is_a_map_to_tidy_clients",
    "Verif.Unit.Props.C120_united_tidy_clients_finish",
    "Verif.Unit.Props.C120_united_restarted_tidy_clients",
    "Verif.Unit.Props.C120_united_links",
    "Verif.Split.Props.C120_split_store_is_a_map_to_tidy_clients",
    "Verif.Split.Props.C120_split_tidy_clients_finish",
    "Verif.Split.Props.C120_split_restarted_tidy_clients",
    "Verif.Split.Props.C120_split_links",
    "Verif.Split.Props.C120_united_or_split",
    "Verif.Split.Props.C120_united_or_united",
    "Verif.Split.Props.C120_split_or_split"
   ],
   "note": "C116 with the weaker contract of C93 for the tree crate, for clients that make no duplicates (Routine.Tidy). For others it fails: C93, C119_tour_fails."
  },
  {
   "property": "C121",
   "status": "proved",
   "theorems": [
    "Verif.Unit.Props.C121_no_duplicates",
    "Verif.Unit.Props.C121_validator",
    "Verif.Unit.Props.C121_resolver",
    "Verif.Unit.Props.C121_create_and_delete",
    "Verif.Unit.Props.C121_null_sources_do_damage",
    "Verif.Unit.Props.C121_cascade_merges_do_damage",
    "Verif.Split.Props.C121_split_no_duplicates",
    "Verif.Split.Props.C121_split_validator",
    "Verif.Split.Props.C121_split_resolver",
    "Verif.Split.Props.C121_split_create_and_delete"
   ],
   "note": "Split store: under the side conditions of C30; the validator may refuse more than it should, as C97 says. C121_null_sources_do_damage and C121_cascade_merges_do_damage have the failures with null sources and with CascadeUniqueResolver, over the published size-balanced trees."
  },
  {
   "property": "C122",
   "status": "proved",
   "theorems": [
    "Verif.Unit.Props.C122_every_link_is_a_nested_pair",
    "Verif.Unit.Props.C122_contents_up_to_numbers",
    "Verif.Unit.Props.C122_updates_make_cycles",
    "Verif.Split.Props.C122_split_every_link_is_a_nested_pair",
    "Verif.Split.Props.C122_split_contents_up_to_numbers",
    "Verif.Split.Props.C122_contents_up_to_numbers_across_stores",
    "Verif.Unit.Props.C122_threads_make_nested_pairs",
    "Verif.Unit.Props.C122_builders_keep_the_meaning",
    "Verif.Split.Props.C122_split_threads_make_nested_pairs",
    "Verif.Split.Props.C122_split_builders_keep_the_meaning"
   ],
   "note": "Over the weaker contract for the tree crate. C122_updates_make_cycles shows the cycle. Reading is a client program with a depth limit; that it returns with the number of links as limit is part of the claim."
  },
  {
   "property": "C123",
   "status": "proved",
   "theorems": [
    "Verif.Stacks.Props.C123_no_walk_comes_back",
    "Verif.Stacks.Props.C123_split_no_walk_comes_back",
    "Verif.Stacks.Props.C123_unique_validator_alone_lets_walks_come_back"
   ],
   "note": "A link may have itself as source or target; such a step is not counted. The counterexample for UniqueValidator alone is C123_unique_validator_alone_lets_walks_come_back."
  },
  {
   "property": "C124",
   "status": "proved",
   "theorems": [
    "Verif.Props.C124_united_to_split",
    "Verif.Props.C124_split_to_united",
    "Verif.Props.C124_united_to_united",
    "Verif.Props.C124_split_to_split",
    "Verif.Props.C124_there_and_back"
   ],
   "note": "On target memories that, when they grow, stay within the index type, and for split targets grow together (see C14 for what happens otherwise). The client program is moveTo in Verif/Migrate.lean; it is not part of the repository, the calls it makes are."
  },
  {
   "property": "C125",
   "status": "proved",
   "theorems": [
    "Verif.Unit.Props.C125_taken_apart",
    "Verif.Unit.Props.C125_cycles_cannot_be_taken_apart",
    "Verif.Split.Props.C125_split_taken_apart"
   ],
   "note": "The client program is takeApart in Verif/Unbuild.lean; it is not part of the repository, the calls it makes are. delete_all (C23) does not do this. C125_cycles_cannot_be_taken_apart shows the cycle."
  }
 ]
}