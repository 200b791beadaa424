{
 "claims": [
  {
   "property": "C01",
   "status": "proved",
   "theorems": [
    "Banyan.C01_extend_appends",
    "Banyan.C01_push_appends"
   ],
   "note": ""
  },
  {
   "property": "C02",
   "status": "proved",
   "theorems": [
    "Banyan.C02_extendUnpacked_appends"
   ],
   "note": ""
  },
  {
   "property": "C03",
   "status": "proved",
   "theorems": [
    "Banyan.C03_pack_preserves"
   ],
   "note": ""
  },
  {
   "property": "C04",
   "status": "proved",
   "theorems": [
    "Banyan.C04_pack_packs"
   ],
   "note": ""
  },
  {
   "property": "C05",
   "status": "proved",
   "theorems": [
    "Banyan.C05_extend_keeps_packed"
   ],
   "note": ""
  },
  {
   "property": "C06",
   "status": "partial",
   "theorems": [
    "Banyan.C06_extend_never_aborts_partial",
    "Banyan.C06_extend_succeeds_partial",
    "Banyan.C06_refuted"
   ],
   "note": "proved for packed trees; refuted on unpacked trees"
  },
  {
   "property": "C07",
   "status": "proved",
   "theorems": [
    "Banyan.C07_get"
   ],
   "note": ""
  },
  {
   "property": "C08",
   "status": "proved",
   "theorems": [
    "Banyan.C08_collectFrom"
   ],
   "note": ""
  },
  {
   "property": "C09",
   "status": "proved",
   "theorems": [
    "Banyan.C09_filtered_exact",
    "Banyan.C09_iter_from",
    "Banyan.C09_matching_mem",
    "Banyan.C09_matching_ascending"
   ],
   "note": ""
  },
  {
   "property": "C10",
   "status": "proved",
   "theorems": [
    "Banyan.C10_chunks_partition"
   ],
   "note": ""
  },
  {
   "property": "C11",
   "status": "proved",
   "theorems": [
    "Banyan.C11_reverse_chunks"
   ],
   "note": ""
  },
  {
   "property": "C12",
   "status": "partial",
   "theorems": [
    "Banyan.C12_reverse_elements_partial",
    "Banyan.C12_refuted"
   ],
   "note": "chunks come in descending order, but the elements of a chunk in ascending order"
  },
  {
   "property": "C13",
   "status": "proved",
   "theorems": [
    "Banyan.C13_and",
    "Banyan.C13_or",
    "Banyan.C13_all",
    "Banyan.C13_empty"
   ],
   "note": ""
  },
  {
   "property": "C14",
   "status": "proved",
   "theorems": [
    "Banyan.C14_offset_range"
   ],
   "note": ""
  },
  {
   "property": "C15",
   "status": "proved",
   "theorems": [
    "Banyan.C15_reads",
    "Banyan.C15_iterators",
    "Banyan.C15_elements",
    "Banyan.C15_dumps"
   ],
   "note": ""
  },
  {
   "property": "C16",
   "status": "proved",
   "theorems": [
    "Banyan.C16_retain_keeps_matches",
    "Banyan.C16_get_after_retain"
   ],
   "note": ""
  },
  {
   "property": "C17",
   "status": "proved",
   "theorems": [
    "Banyan.C17_unsealed_stays",
    "Banyan.C17_retain_effective"
   ],
   "note": ""
  },
  {
   "property": "C18",
   "status": "proved",
   "theorems": [
    "Banyan.C18_pack_after_retain",
    "Banyan.C18_pack_succeeds",
    "Banyan.C18_pack_reconfigured"
   ],
   "note": ""
  },
  {
   "property": "C19",
   "status": "partial",
   "theorems": [
    "Banyan.C19_readable_partial",
    "Banyan.C19_refuted"
   ],
   "note": "proved for every set of missing blocks, with a warm or cold branch cache; false for stores that return wrong bytes: the content of a leaf block is not checked"
  },
  {
   "property": "C20",
   "status": "proved",
   "theorems": [
    "Banyan.C20_intact",
    "Banyan.C20_all_blocks_available",
    "Banyan.C20_silent",
    "Banyan.C20_report"
   ],
   "note": ""
  },
  {
   "property": "C21",
   "status": "proved",
   "theorems": [
    "Banyan.C21_no_reuse"
   ],
   "note": ""
  },
  {
   "property": "C22",
   "status": "partial",
   "theorems": [
    "Banyan.C22_reloads_partial",
    "Banyan.C22_reload_offset_partial",
    "Banyan.C22_reload_after_extend_partial",
    "Banyan.C22_reload_after_extendUnpacked_partial",
    "Banyan.C22_refuted"
   ],
   "note": "proved for all histories with any number of reloads and configurations, including extend, extend_unpacked, pack, retain, repair and failures, if no builder is re-created from a root written before a failed or rolled back operation; refuted for that case"
  },
  {
   "property": "C23",
   "status": "proved",
   "theorems": [
    "Banyan.C23_round_trip",
    "Banyan.C23_encrypt",
    "Banyan.C23_exhausted"
   ],
   "note": ""
  },
  {
   "property": "C24",
   "status": "proved",
   "theorems": [
    "Banyan.C24_rollback",
    "Banyan.C24_commit"
   ],
   "note": ""
  },
  {
   "property": "C25",
   "status": "partial",
   "theorems": [
    "Banyan.C25_extend",
    "Banyan.C25_extendUnpacked",
    "Banyan.C25_retain",
    "Banyan.C25_repair",
    "Banyan.C25_pack_partial",
    "Banyan.C25_pack_roots_partial",
    "Banyan.C25_refuted"
   ],
   "note": "proved for extend, extend_unpacked, retain and repair; refuted for pack, for which the content is as before or cut off at the first leaf that is not sealed"
  },
  {
   "property": "C26",
   "status": "partial",
   "theorems": [
    "Banyan.C26_load_builder_partial",
    "Banyan.C26_load_tree_partial",
    "Banyan.C26_loaded_elements_partial",
    "Banyan.C26_loaded_indexes_partial",
    "Banyan.C26_loaded_chunks_partial",
    "Banyan.C26_refuted"
   ],
   "note": "proved for content, chunks and indexes of trees with a branch root; refuted for a bare leaf root and for is_packed after load_tree"
  },
  {
   "property": "C27",
   "status": "partial",
   "theorems": [
    "Banyan.C27_invariants",
    "Banyan.C27_repaired",
    "Banyan.C27_refuted_reconfigured"
   ],
   "note": "histories with one configuration (false if the configuration is changed, refuted); executions of extend, extend_unpacked, pack, retain, transactions, loading, and repairs of packed trees that give up sealed nodes only; and the tree right after any repair, whatever was lost. Missing: further operations after a repair of an unpacked tree or of an unsealed node (see C58)"
  },
  {
   "property": "C28",
   "status": "proved",
   "theorems": [
    "Banyan.C28_count",
    "Banyan.C28_extend_count",
    "Banyan.C28_extendUnpacked_count",
    "Banyan.C28_pack_count",
    "Banyan.C28_retain_count",
    "Banyan.C28_repair_count"
   ],
   "note": ""
  },
  {
   "property": "C29",
   "status": "proved",
   "theorems": [
    "Banyan.C29_stream",
    "Banyan.C29_growing",
    "Banyan.C29_ends",
    "Banyan.C29_elements"
   ],
   "note": ""
  },
  {
   "property": "C30",
   "status": "partial",
   "theorems": [
    "Banyan.C30_reverse_partial",
    "Banyan.C30_damaged_partial",
    "Banyan.C30_refuted"
   ],
   "note": "proved if no read fails; if reading fails part way and a later tree continues, the first element of the last chunk is delivered twice (C30_refuted), but nothing is left out (C30_damaged_partial)"
  },
  {
   "property": "C31",
   "status": "partial",
   "theorems": [
    "Banyan.C31_noticed_partial",
    "Banyan.C31_refuted"
   ],
   "note": "false: the error is swallowed; proved: what is delivered is a gapless beginning, and a consumer can see from the chunk ranges whether the range has been covered"
  },
  {
   "property": "C32",
   "status": "partial",
   "theorems": [
    "Banyan.C32_chunks",
    "Banyan.C32_elements",
    "Banyan.C32_indexes_partial",
    "Banyan.C32_refuted"
   ],
   "note": "false of the index iterator, which delivers the same error again and again; what it delivers apart from the errors is right"
  },
  {
   "property": "C33",
   "status": "proved",
   "theorems": [
    "Banyan.C33_indexes",
    "Banyan.C33_empty",
    "Banyan.C33_all",
    "Banyan.C33_backward",
    "Banyan.C33_match",
    "Banyan.C33_pruned"
   ],
   "note": ""
  },
  {
   "property": "C34",
   "status": "proved",
   "theorems": [
    "Banyan.C34_put_get",
    "Banyan.C34_unknown",
    "Banyan.C34_limit",
    "Banyan.C34_accepts",
    "Banyan.C34_into_inner",
    "Banyan.C34_env",
    "Banyan.C34_env_start",
    "Banyan.Concrete.C34_again"
   ],
   "note": ""
  },
  {
   "property": "C35",
   "status": "proved",
   "theorems": [
    "Banyan.C35_sequence",
    "Banyan.C35_get",
    "Banyan.C35_put",
    "Banyan.C35_put_get",
    "Banyan.Concrete.C35_offer_unchecked"
   ],
   "note": ""
  },
  {
   "property": "C36",
   "status": "proved",
   "theorems": [
    "Banyan.C36_transparent",
    "Banyan.C36_any_caches",
    "Banyan.C36_kept"
   ],
   "note": "for a forest whose users have the same keys; with different keys see C85"
  },
  {
   "property": "C37",
   "status": "proved",
   "theorems": [
    "Banyan.C37_fill",
    "Banyan.C37_leaves"
   ],
   "note": ""
  },
  {
   "property": "C38",
   "status": "proved",
   "theorems": [
    "Banyan.C38_branches"
   ],
   "note": ""
  },
  {
   "property": "C39",
   "status": "proved",
   "theorems": [
    "Banyan.C39_accessors",
    "Banyan.C39_from_iter"
   ],
   "note": ""
  },
  {
   "property": "C40",
   "status": "proved",
   "theorems": [
    "Banyan.C40_branch",
    "Banyan.C40_leaf",
    "Banyan.C40_all_found",
    "Banyan.C40_branch_exact",
    "Banyan.C40_leaf_exact"
   ],
   "note": ""
  },
  {
   "property": "C41",
   "status": "proved",
   "theorems": [
    "Banyan.C41_left_roots",
    "Banyan.C41_empty"
   ],
   "note": ""
  },
  {
   "property": "C42",
   "status": "proved",
   "theorems": [
    "Banyan.C42_dump",
    "Banyan.C42_empty"
   ],
   "note": ""
  },
  {
   "property": "C43",
   "status": "proved",
   "theorems": [
    "Banyan.C43_table",
    "Banyan.C43_codec",
    "Banyan.C43_decoded"
   ],
   "note": ""
  },
  {
   "property": "C44",
   "status": "proved",
   "theorems": [
    "Banyan.C44_matching"
   ],
   "note": ""
  },
  {
   "property": "C45",
   "status": "proved",
   "theorems": [
    "Banyan.C45_dnf",
    "Banyan.C45_matching",
    "Banyan.C45_empty"
   ],
   "note": ""
  },
  {
   "property": "C46",
   "status": "proved",
   "theorems": [
    "Banyan.C46_simplify",
    "Banyan.C46_operators"
   ],
   "note": ""
  },
  {
   "property": "C47",
   "status": "partial",
   "theorems": [
    "Banyan.C47_unique_partial",
    "Banyan.C47_refuted"
   ],
   "note": "false: only one superset is removed, so normal forms can keep redundant terms; proved: irredundant normal forms of equivalent expressions are equal"
  },
  {
   "property": "C48",
   "status": "partial",
   "theorems": [
    "Banyan.C48_sound_partial",
    "Banyan.C48_exact_partial",
    "Banyan.C48_total",
    "Banyan.C48_refuted"
   ],
   "note": "false: a query tag that does not occur in a leaf makes the whole query select nothing there, and untagged elements are pruned at branches; proved: nothing is delivered that is not accepted; exact if all query tags occur in every node and every element has a tag"
  },
  {
   "property": "C49",
   "status": "proved",
   "theorems": [
    "Banyan.C49_intersects_of_common",
    "Banyan.C49_common_of_intersects"
   ],
   "note": ""
  },
  {
   "property": "C50",
   "status": "proved",
   "theorems": [
    "Banyan.C50_sizes"
   ],
   "note": ""
  },
  {
   "property": "C51",
   "status": "proved",
   "theorems": [
    "Banyan.C51_shape",
    "Banyan.C51_same_shape",
    "Banyan.C51_level",
    "Banyan.C51_same_leaves",
    "Banyan.C51_calls_matter"
   ],
   "note": "C51_level and C51_same_leaves hold for all trees built by extend, C51_calls_matter: leaves limited by size do depend on the calls. For C51_shape, hypothesis: every sealed leaf of the tree has the maximal number of elements (leaves limited by count only); the shape is an explicit function of configuration and number of elements"
  },
  {
   "property": "C52",
   "status": "partial",
   "theorems": [
    "Banyan.C52_readable_partial",
    "Banyan.C52_large_unreadable",
    "Banyan.Concrete.C52_refuted"
   ],
   "note": "proved for all reachable states whose branches stay within 16 MiB; false otherwise: a branch of more than 16 MiB can be written but never read (16 MiB decompression limit)"
  },
  {
   "property": "C53",
   "status": "proved",
   "theorems": [
    "Banyan.C53_extend",
    "Banyan.C53_extendUnpacked",
    "Banyan.C53_pack"
   ],
   "note": ""
  },
  {
   "property": "C54",
   "status": "proved",
   "theorems": [
    "Banyan.C54_schedules",
    "Banyan.C54_progress",
    "Banyan.C54_same_chunks"
   ],
   "note": "the threaded stream has no stop at the end of the range: it goes on with chunks without elements"
  },
  {
   "property": "C55",
   "status": "proved",
   "theorems": [
    "Banyan.C55_cut_off",
    "Banyan.C55_no_cut"
   ],
   "note": ""
  },
  {
   "property": "C56",
   "status": "proved",
   "theorems": [
    "Banyan.C56_contract",
    "Banyan.C56_vec",
    "Banyan.C56_unit",
    "Banyan.C56_keys",
    "Banyan.C56_lawful"
   ],
   "note": ""
  },
  {
   "property": "C57",
   "status": "proved",
   "theorems": [
    "Banyan.C57_envelope",
    "Banyan.C57_injective"
   ],
   "note": ""
  },
  {
   "property": "C58",
   "status": "partial",
   "theorems": [
    "Banyan.C58_usable_partial",
    "Banyan.C58_unpacked_extend_partial",
    "Banyan.C58_unpacked_pack_partial",
    "Banyan.C58_fits",
    "Banyan.C58_refuted_extend",
    "Banyan.C58_refuted_pack",
    "Banyan.C58_refuted_purged"
   ],
   "note": "proved for packed trees, losses of sealed nodes, and a branch cache without lost branches; for unpacked trees extending appends, and pack keeps the number of elements and all from some position on, or refuses because of lost elements. False otherwise: extend panics after the loss of an unsealed node, pack shifts and duplicates elements of unpacked trees, or refuses"
  },
  {
   "property": "C59",
   "status": "partial",
   "theorems": [
    "Banyan.C59_pack_noop_partial",
    "Banyan.C59_refuted"
   ],
   "note": "proved for sealed roots; refuted for a packed tree with an unsealed root over one sealed leaf"
  },
  {
   "property": "C60",
   "status": "partial",
   "theorems": [
    "Banyan.C60_extend_partial",
    "Banyan.C60_extendUnpacked_partial",
    "Banyan.C60_refuted",
    "Banyan.C60_stuck",
    "Banyan.C60_stuck_unpacked",
    "Banyan.C60_presets"
   ],
   "note": "proved for max_leaf_count > 0; false for max_leaf_count = 0, which validation accepts: no element is ever taken and the store is filled with empty leaves"
  },
  {
   "property": "C61",
   "status": "proved",
   "theorems": [
    "Banyan.C61_retain_never_aborts",
    "Banyan.C61_extendUnpacked_never_aborts",
    "Banyan.C61_repair_never_aborts",
    "Banyan.C18_pack_reconfigured",
    "Banyan.C18_pack_after_retain",
    "Banyan.C18_pack_succeeds"
   ],
   "note": ""
  },
  {
   "property": "C62",
   "status": "proved",
   "theorems": [
    "Banyan.C62_get",
    "Banyan.C62_collect",
    "Banyan.C62_chunks",
    "Banyan.C62_elements",
    "Banyan.C32_indexes_partial"
   ],
   "note": ""
  },
  {
   "property": "C63",
   "status": "proved",
   "theorems": [
    "Banyan.C63_index",
    "Banyan.C63_fields",
    "Banyan.C63_strict",
    "Banyan.C63_env"
   ],
   "note": ""
  },
  {
   "property": "C64",
   "status": "proved",
   "theorems": [
    "Banyan.C64_scraper",
    "Banyan.C64_index"
   ],
   "note": ""
  },
  {
   "property": "C65",
   "status": "partial",
   "theorems": [
    "Banyan.C65_keys",
    "Banyan.C65_tables",
    "Banyan.C65_lawful",
    "Banyan.Concrete.C65_refuted"
   ],
   "note": "round trip proved; false: the lengths of the columns of a KeySeq are not checked when reading, so accepted data can make a query panic; tag tables are checked (C65_tables)"
  },
  {
   "property": "C66",
   "status": "proved",
   "theorems": [
    "Banyan.C66_chunks",
    "Banyan.C66_elements",
    "Banyan.C66_needed_leaf",
    "Banyan.C66_get",
    "Banyan.C66_collectFrom",
    "Banyan.C66_indexes",
    "Banyan.C66_visited",
    "Banyan.C66_stream",
    "Banyan.C66_stream_growing",
    "Banyan.C66_stream_reverse",
    "Banyan.C66_stream_needed_leaf"
   ],
   "note": "the branch cache has to agree with the (partial) store, e.g. a new process"
  },
  {
   "property": "C67",
   "status": "partial",
   "theorems": [
    "Banyan.C67_reopen",
    "Banyan.C67_usable_partial",
    "Banyan.C67_refuted"
   ],
   "note": "proved: reopening, extending and packing with another valid configuration; the theorems about Reach (C01-C05, C07-C17, C61, ...) hold for histories with changing configurations. False: pack can fail because of values of the tree that are larger than a lowered limit (witness)"
  },
  {
   "property": "C68",
   "status": "proved",
   "theorems": [
    "Banyan.C68_checker_exact",
    "Banyan.C68_assert"
   ],
   "note": "the only excluded trees have a branch of level 0, which makes the checker panic"
  },
  {
   "property": "C69",
   "status": "proved",
   "theorems": [
    "Banyan.C69_contains",
    "Banyan.C69_intersects",
    "Banyan.C69_combine",
    "Banyan.C69_summarize",
    "Banyan.C69_filters",
    "Banyan.C69_filter_intersects"
   ],
   "note": ""
  },
  {
   "property": "C70",
   "status": "proved",
   "theorems": [
    "Banyan.C70_depth",
    "Banyan.C70_log",
    "Banyan.C70_get_blocks",
    "Banyan.C70_unpacked_deep"
   ],
   "note": "C70_unpacked_deep shows that packed is needed"
  },
  {
   "property": "C71",
   "status": "proved",
   "theorems": [
    "Banyan.C71_extend",
    "Banyan.C71_extendUnpacked",
    "Banyan.C71_retain",
    "Banyan.C71_repair",
    "Banyan.C71_log",
    "Banyan.C71_pack",
    "Banyan.C71_pack_writes_garbage"
   ],
   "note": "C71_pack_writes_garbage shows that pack is rightly excluded from the first part; C71_pack bounds what it writes"
  },
  {
   "property": "C72",
   "status": "proved",
   "theorems": [
    "Banyan.C72_received",
    "Banyan.C72_faulty",
    "Banyan.C72_published",
    "Banyan.C72_next",
    "Banyan.C72_complete"
   ],
   "note": "a published link of a bare leaf (possible if max_leaf_count >= 100) cannot be loaded by the receiver and is skipped (load_tree, see C26); what is received is exact for the other links, and C72_next proves that the link published next is that of a branch"
  },
  {
   "property": "C73",
   "status": "proved",
   "theorems": [
    "Banyan.C73_retain_again",
    "Banyan.C73_retain_all",
    "Banyan.C73_repair_again"
   ],
   "note": "the second query may select more than the first, and must not look at links (no query of banyan or banyan-utils does)"
  },
  {
   "property": "C74",
   "status": "proved",
   "theorems": [
    "Banyan.C74_indexes",
    "Banyan.C74_shape",
    "Banyan.C74_roots",
    "Banyan.C74_retain",
    "Banyan.C74_load",
    "Banyan.C74_retain_without_values",
    "Banyan.C74_retain_never_aborts"
   ],
   "note": ""
  },
  {
   "property": "C75",
   "status": "proved",
   "theorems": [
    "Banyan.C75_round_trip",
    "Banyan.C75_injective",
    "Banyan.C75_shape",
    "Banyan.C75_canonical",
    "Banyan.C75_trailing"
   ],
   "note": ""
  },
  {
   "property": "C76",
   "status": "partial",
   "theorems": [
    "Banyan.C76_keys",
    "Banyan.C76_injective_partial",
    "Banyan.C76_refuted"
   ],
   "note": "false: only the first 32 bytes count and zero bytes at the end are ignored; exact characterisation proved"
  },
  {
   "property": "C77",
   "status": "proved",
   "theorems": [
    "Banyan.C77_exact",
    "Banyan.C77_packed"
   ],
   "note": "for lost blocks that are not written again by the repair itself (links are hashes, and a new block has its own cipher offset); what the warnings are good for is C58"
  },
  {
   "property": "C78",
   "status": "partial",
   "theorems": [
    "Banyan.C78_sqlite_put_get",
    "Banyan.C78_sqlite_only",
    "Banyan.C78_ipfs_put_get_partial",
    "Banyan.C78_ipfs_put",
    "Banyan.C78_ipfs_missing",
    "Banyan.C78_storage_put_get_partial",
    "Banyan.C78_option",
    "Banyan.Concrete.C78_refuted"
   ],
   "note": "false for IpfsStore: for a missing block the daemon answers with status 500 and a text, and the text is returned as the block; everything else is proved. Behaviour of the database and the daemon is assumed (BlockDb.Lawful, Daemon.Lawful), and that the blocks in use do not collide"
  },
  {
   "property": "C79",
   "status": "partial",
   "theorems": [
    "Banyan.C79_leaf_partial",
    "Banyan.C79_block_partial",
    "Banyan.C79_foreign",
    "Banyan.Concrete.C79_refuted"
   ],
   "note": "false for branches: the tool passes the key for values for every block, so with different keys the blocks of branches are not shown; proved for leaves, and for every block if the right key is passed"
  },
  {
   "property": "C80",
   "status": "proved",
   "theorems": [
    "Banyan.C80_dump",
    "Banyan.C80_lines",
    "Banyan.C80_text",
    "Banyan.C80_empty",
    "Banyan.C80_graph",
    "Banyan.C80_drawn"
   ],
   "note": "the text of links and the renderer are foreign code; a failing read half way is not modelled (there is none for reachable trees)"
  },
  {
   "property": "C81",
   "status": "proved",
   "theorems": [
    "Banyan.C81_build",
    "Banyan.C81_forget",
    "Banyan.C81_pack",
    "Banyan.C81_repair",
    "Banyan.C81_dump",
    "Banyan.C81_dump_values"
   ],
   "note": "one run of a command as a function of the state of the store; Stream, DumpValues and Filter are C83, SendStream and RecvStream C72 and C84, Bench is covered in its building part only, the texts printed are represented by their parts; Small: blocks of branches are at most 16 MiB (C52)"
  },
  {
   "property": "C82",
   "status": "partial",
   "theorems": [
    "Banyan.C82_read_back_partial",
    "Banyan.C82_passwords",
    "Banyan.Concrete.C82_refuted"
   ],
   "note": "false: Build, Forget, Pack, Filter and RecvStream use the default keys whatever passwords are given, the other commands use the passwords; so what was built with passwords can be read by everybody, and cannot be read with the passwords. Proved: what Build has written with any passwords is read without passwords; what any program has written with the keys of the passwords is read with the passwords"
  },
  {
   "property": "C83",
   "status": "partial",
   "theorems": [
    "Banyan.C83_stream",
    "Banyan.C83_filter",
    "Banyan.C83_dump_values",
    "Banyan.C83_stream_partial",
    "Banyan.Concrete.C83_refuted"
   ],
   "note": "false: Stream and Filter end silently at the first block that cannot be read, nothing tells that elements are missing; proved: on intact stores all print what they announce, with lost blocks DumpValues prints all or fails, and what Stream prints is right as far as it goes"
  },
  {
   "property": "C84",
   "status": "partial",
   "theorems": [
    "Banyan.C84_received_partial",
    "Banyan.Concrete.C84_refuted"
   ],
   "note": "false with passwords: RecvStream uses the default keys; proved for senders without passwords"
  },
  {
   "property": "C85",
   "status": "proved",
   "theorems": [
    "Banyan.C85_runs",
    "Banyan.C85_reach",
    "Banyan.C85_undisturbed"
   ],
   "note": "assumption Separate: no block of the store can be read as two different branches with the keys of two builders (trivial for equal keys); without it the cache, which is keyed by link only, could give the branch of the other user"
  },
  {
   "property": "C86",
   "status": "partial",
   "theorems": [
    "Banyan.C86_no_reuse_partial",
    "Banyan.Concrete.C86_reused"
   ],
   "note": "false for builders with the same secrets: all start at offset 0 of the same key stream; true for the blocks of each builder"
  },
  {
   "property": "C87",
   "status": "proved",
   "theorems": [
    "Banyan.C87_small",
    "Banyan.C87_served",
    "Banyan.Concrete.C87_limit"
   ],
   "note": "assumptions about the crate weight-cache: BlockCache.Lawful, and for C87_served BlockCache.Keeping"
  },
  {
   "property": "C88",
   "status": "proved",
   "theorems": [
    "Banyan.C88_programs",
    "Banyan.C88_get",
    "Banyan.C88_collectFrom",
    "Banyan.C88_isPacked",
    "Banyan.C88_chunks",
    "Banyan.C88_indexes",
    "Banyan.C88_indexStep",
    "Banyan.C88_mutual",
    "Banyan.C88_writers",
    "Banyan.C88_extend"
   ],
   "note": "single accesses to store and cache are atomic (a Mutex in BranchCache, BlockWriter is &mut); branches that users with other index keys insert must not contradict what the reader would read; C88_writers: the blocks of other threads arrive between the blocks of the builder, all theorems about builders apply in this environment"
  },
  {
   "property": "C89",
   "status": "proved",
   "theorems": [
    "Banyan.C89_programs",
    "Banyan.C89_reach",
    "Banyan.C89_extend",
    "Banyan.C89_extend_fails",
    "Banyan.C89_extendUnpacked",
    "Banyan.C89_pack",
    "Banyan.C89_retain",
    "Banyan.C89_no_reuse",
    "Banyan.C89_get",
    "Banyan.C89_collectFrom",
    "Banyan.C89_pool",
    "Banyan.C89_pool_reach",
    "Banyan.C89_together",
    "Banyan.C89_together_extendUnpacked",
    "Banyan.C89_together_pack",
    "Banyan.C89_together_retain",
    "Banyan.C89_exact_shared"
   ],
   "note": "single accesses to store and cache are atomic; all threads have the same index key (or do not fill the cache); no part of the key stream is used twice by one builder, for several builders with the same secrets see C86; repair is not among the operations; failed pack and extend on unpacked trees as in C25 and C06"
  },
  {
   "property": "C90",
   "status": "proved",
   "theorems": [
    "Banyan.C90_extend",
    "Banyan.C90_extend_fails",
    "Banyan.C90_extendUnpacked",
    "Banyan.C90_levels",
    "Banyan.C90_log",
    "Banyan.C90_needed",
    "Banyan.C90_extend_joined",
    "Banyan.C90_extendUnpacked_joined"
   ],
   "note": "joined: for stores to which a put adds nothing but the block; the two stores must answer puts alike (e.g. links are hashes); C90_needed shows that each block of the edge is needed in a concrete tree"
  },
  {
   "property": "C91",
   "status": "proved",
   "theorems": [
    "Banyan.C91_pack",
    "Banyan.C91_pack_fails",
    "Banyan.C91_pack_joined",
    "Banyan.C91_leaves",
    "Banyan.C91_packed",
    "Banyan.C91_needed",
    "Banyan.C91_extend",
    "Banyan.C91_extendUnpacked",
    "Banyan.C91_history",
    "Banyan.C91_history_joined"
   ],
   "note": "joined: for stores to which a put adds nothing but the block; the two stores must answer puts alike (e.g. links are hashes); C91_needed shows that each of the blocks is needed in a concrete tree"
  },
  {
   "property": "C92",
   "status": "proved",
   "theorems": [
    "Banyan.C92_roots",
    "Banyan.C92_branches",
    "Banyan.C92_packed",
    "Banyan.C92_empty"
   ],
   "note": ""
  },
  {
   "property": "C93",
   "status": "proved",
   "theorems": [
    "Banyan.C93_reach",
    "Banyan.C93_contains",
    "Banyan.C93_chunks",
    "Banyan.C93_indexes",
    "Banyan.C93_snapshot",
    "Banyan.C93_works",
    "Banyan.C93_found",
    "Banyan.C93_found_iff"
   ],
   "note": "C93_found and C93_found_iff assume that keys and summaries contain no links (OnlyOwnLink) and that links have different content identifiers. C93_works assumes that the collected store answers puts as the other one (links are hashes)."
  },
  {
   "property": "C94",
   "status": "proved",
   "theorems": [
    "Banyan.C94_retain",
    "Banyan.C94_retain_fails",
    "Banyan.C94_retain_joined",
    "Banyan.C94_extendUnpacked",
    "Banyan.C94_history",
    "Banyan.C94_history_joined",
    "Banyan.C74_retain",
    "Banyan.C94_needed"
   ],
   "note": "joined: for stores to which a put adds nothing but the block; the two stores must answer puts alike"
  }
 ]
}
