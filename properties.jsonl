{"id": "C01", "title": "extend appends", "statement": "If extending a tree with a sequence of key/value pairs succeeds, reading the whole tree back yields the previous content followed by exactly the new pairs, in order, nothing lost, duplicated or reordered (already purged positions stay purged).", "quantifier": "every configuration accepted as valid, every tree reachable by any sequence of API calls, every sequence of pairs, every store state and cache state", "why_tests_cant": "The shape of the result depends on the interplay of leaf sealing, branch limits and the previous tree shape; tests only sample a few sizes.", "anchors": ["banyan/src/tree.rs: Transaction::extend, push", "banyan/src/forest/write.rs: extend_above, extend0, extend_branch, fill_node, extend_leaf"]}
{"id": "C02", "title": "extend_unpacked appends", "statement": "If extending without packing succeeds, reading the whole tree back yields the previous content followed by exactly the new pairs, in order.", "quantifier": "every valid configuration, every reachable tree, every sequence of pairs", "why_tests_cant": "Unpacked trees take a different shape after every call history; only finitely many histories can be sampled.", "anchors": ["banyan/src/tree.rs: Transaction::extend_unpacked", "banyan/src/forest/write.rs: extend_unpacked0"]}
{"id": "C03", "title": "pack preserves content", "statement": "If packing a tree succeeds, the content read back afterwards is identical, position by position, to the content before (including which positions are purged).", "quantifier": "every valid configuration, every tree reachable by any sequence of extend, extend_unpacked, pack and retain calls", "why_tests_cant": "Packing re-uses some subtrees and re-appends the rest; whether the split point is right depends on the whole history of the tree.", "anchors": ["banyan/src/tree.rs: pack, tree_from_roots", "banyan/src/forest/read.rs: roots0, collect0", "banyan/src/forest/write.rs: simplify_roots, find_valid_branch"]}
{"id": "C04", "title": "pack packs", "statement": "After a successful pack the tree reports itself as packed.", "quantifier": "every valid configuration, every reachable tree", "why_tests_cant": "The simplification loop runs an unbounded number of rounds over arbitrary root sequences.", "anchors": ["banyan/src/tree.rs: pack, is_packed", "banyan/src/forest/read.rs: is_packed0", "banyan/src/forest/write.rs: find_valid_branch"]}
{"id": "C05", "title": "extend keeps packed trees packed", "statement": "Extending a packed tree (including the empty tree) successfully yields a packed tree.", "quantifier": "every valid configuration, every packed reachable tree, every sequence of pairs", "why_tests_cant": "Needs every boundary between full/non-full leaves and branches at every level.", "anchors": ["banyan/src/tree.rs: extend, is_packed", "banyan/src/forest/write.rs: extend0, extend_branch"]}
{"id": "C06", "title": "extend never aborts", "statement": "Extending a tree returns a result: it never panics and never fails to terminate, for any tree built through the public API.", "quantifier": "every valid configuration, every reachable tree (packed or not), every sequence of pairs, every store behaviour", "why_tests_cant": "The internal assertions depend on the global shape of the tree; a test can only show that a particular call did not trip them.", "anchors": ["banyan/src/forest/write.rs: asserts in extend_above, extend_branch, new_branch, leaf_from_iter", "banyan/src/tree.rs: extend"]}
{"id": "C07", "title": "get agrees with the content", "statement": "Reading a single position returns the pair stored there; it returns none exactly when the position is at or past the count or has been purged; on an intact store it never fails.", "quantifier": "every reachable tree, every position, every cache state", "why_tests_cant": "All positions of all trees of all shapes cannot be enumerated.", "anchors": ["banyan/src/tree.rs: Forest::get", "banyan/src/forest/read.rs: get0"]}
{"id": "C08", "title": "collect_from is a suffix", "statement": "Collecting from a given offset returns exactly the suffix of the full content starting at that offset, with purged positions shown as none.", "quantifier": "every reachable tree, every offset", "why_tests_cant": "The offset is pushed down through arbitrary tree shapes with saturating arithmetic.", "anchors": ["banyan/src/tree.rs: collect, collect_from", "banyan/src/forest/read.rs: collect0"]}
{"id": "C09", "title": "filtered iteration is exact", "statement": "Iterating with a query yields exactly the non-purged elements whose (offset, key) match the query, each once, with its correct offset, in ascending order.", "quantifier": "every reachable tree, every query whose branch-level answer never rejects a summary covering a match", "why_tests_cant": "Pruning happens at every level on summaries; a wrongly pruned subtree only shows for particular data, shapes and queries.", "anchors": ["banyan/src/tree.rs: iter_filtered, iter_from, stream_filtered", "banyan/src/forest/read.rs: TreeIter, iter_filtered0"]}
{"id": "C10", "title": "chunks cover the tree without holes", "statement": "Chunked iteration yields chunks whose ranges, in order, partition [0, count): the first starts at 0, each next one starts where the previous ended, the last ends at count; every element of a chunk lies in the range of that chunk.", "quantifier": "every reachable tree, every query", "why_tests_cant": "Holes can appear in any of the skip paths, at any depth and offset.", "anchors": ["banyan/src/forest/read.rs: TreeIter::next_fallible, skip", "banyan/src/tree.rs: iter_filtered_chunked"]}
{"id": "C11", "title": "reverse chunks mirror forward chunks", "statement": "Reverse chunked iteration yields the same chunks (range and data) as forward chunked iteration, in the opposite order.", "quantifier": "every reachable tree, every query", "why_tests_cant": "The backward traversal recomputes all offsets by subtraction; equality must hold for all shapes and pruning decisions.", "anchors": ["banyan/src/forest/read.rs: TreeIter::new_rev, next_fallible", "banyan/src/tree.rs: iter_filtered_chunked_reverse"]}
{"id": "C12", "title": "reverse element iteration is the reversal", "statement": "Iterating the elements in reverse yields the elements of the forward iteration in exactly the opposite order.", "quantifier": "every reachable tree, every query", "why_tests_cant": "Order within and across leaves matters; existing tests use data where the difference may not show.", "anchors": ["banyan/src/forest/read.rs: iter_filtered_reverse0", "banyan/src/tree.rs: iter_filtered_reverse"]}
{"id": "C13", "title": "query combinators are sound", "statement": "The conjunction / disjunction of queries matches exactly the elements matched by both / by at least one of them, and its branch-level answer never prunes a match; the all-query matches everything and the empty query nothing.", "quantifier": "every pair of contract-respecting queries, every leaf and branch, every offset, every input mask", "why_tests_cant": "Queries are arbitrary user code composed to any depth.", "anchors": ["banyan/src/query.rs: AndQuery, OrQuery, AllQuery, EmptyQuery"]}
{"id": "C14", "title": "offset range queries are exact", "statement": "A query by offset range matches exactly the elements whose offset is in the range (for every combination of inclusive, exclusive and unbounded ends) and never prunes a branch containing such an element.", "quantifier": "every range, every offset, every leaf and branch", "why_tests_cant": "All bound kinds times all positions relative to node boundaries.", "anchors": ["banyan/src/query.rs: OffsetRangeQuery", "banyan/src/util.rs: RangeBoundsExt"]}
{"id": "C15", "title": "snapshots are immutable", "statement": "A snapshot taken at any time keeps returning the same results for every read operation, no matter what is done later with the builder or with the store (appends, packs, purges, repairs, failed operations).", "quantifier": "every snapshot, every later sequence of operations on the builder, every read operation", "why_tests_cant": "Requires all interleavings of later writes with reads of old snapshots.", "anchors": ["banyan/src/stream_builder.rs: snapshot", "banyan/src/forest/write.rs", "banyan/src/store/mod.rs: BlockWriter"]}
{"id": "C16", "title": "retain keeps what matches", "statement": "After retaining by a query, every element that matched the query is still readable at its original offset with its original key and value; no element changes its key, value or offset; the count is unchanged; elements can only turn into purged ones.", "quantifier": "every reachable tree, every contract-respecting query", "why_tests_cant": "Which nodes are purged depends on the global order of sealed and unsealed nodes and on the summaries.", "anchors": ["banyan/src/tree.rs: retain", "banyan/src/forest/write.rs: retain0"]}
{"id": "C17", "title": "retain purges packed non-matching leaves only", "statement": "Retaining never purges data of unsealed nodes; on a packed tree it purges every sealed leaf none of whose elements match, except where the query's summary-level answer keeps it.", "quantifier": "every reachable tree, every contract-respecting query", "why_tests_cant": "Effectiveness and restraint both quantify over all nodes of all trees.", "anchors": ["banyan/src/tree.rs: retain (doc comment)", "banyan/src/forest/write.rs: retain0"]}
{"id": "C18", "title": "pack works after retain", "statement": "Packing a tree that went through any number of retain calls (mixed with extend, extend_unpacked and pack) never fails because of purged data.", "quantifier": "every history of extend, extend_unpacked, pack and retain, also with changing configurations", "why_tests_cant": "The purge decision and the later root selection are two separate traversals whose agreement must hold on every history.", "anchors": ["banyan/src/tree.rs: pack (found purged data)", "banyan/src/forest/write.rs: retain0", "banyan/src/forest/read.rs: roots0"]}
{"id": "C19", "title": "repair makes the tree readable", "statement": "After repair, reading the whole tree succeeds, and every position holds either what it held in the undamaged tree or none; positions whose blocks are all available keep their data.", "quantifier": "every reachable tree, every set of damaged or missing blocks", "why_tests_cant": "The damage can be any subset of blocks.", "anchors": ["banyan/src/tree.rs: repair", "banyan/src/forest/write.rs: repair0"]}
{"id": "C20", "title": "repair leaves intact trees alone", "statement": "Repairing a tree whose blocks are all readable reports nothing, writes nothing and leaves the tree unchanged; a non-empty report means something was purged.", "quantifier": "every tree, every store", "why_tests_cant": "Needs all tree shapes.", "anchors": ["banyan/src/forest/write.rs: repair0"]}
{"id": "C21", "title": "keystream bytes are never reused by a builder", "statement": "The byte ranges of the cipher stream used by all blocks a builder hands to the block writer are pairwise disjoint, including blocks of failed operations and of rolled back transactions.", "quantifier": "every history of operations on one builder, every failure point, every store behaviour", "why_tests_cant": "Re-use occurs only for particular failure points in particular histories.", "anchors": ["banyan/src/stream_builder.rs: CipherOffset::reserve, StreamTransaction", "banyan/src/store/zstd_dag_cbor_seq.rs: into_encrypted"]}
{"id": "C22", "title": "keystream bytes are never reused across reloads", "statement": "If a builder is re-created from the link of a tree root, the blocks it then writes do not re-use cipher stream bytes of any block written before for the same stream.", "quantifier": "every history before the reload, including failed and rolled back operations, every history after", "why_tests_cant": "Crash/reload points can be anywhere in the history.", "anchors": ["banyan/src/tree.rs: load_stream_builder", "banyan/src/store/zstd_dag_cbor_seq.rs: decrypt"]}
{"id": "C23", "title": "encryption round-trips", "statement": "Decrypting a block produced by encryption, with the same key and nonce, returns the original payload and exactly the cipher byte range that was reserved for it.", "quantifier": "every payload, key, nonce and offset", "why_tests_cant": "All byte strings and offsets.", "anchors": ["banyan/src/store/zstd_dag_cbor_seq.rs: encrypt, into_encrypted, decrypt"]}
{"id": "C24", "title": "transactions roll back", "statement": "If a transaction scope ends without a commit (early return, panic), the builder's tree is what it was when the scope started; if it is committed the result of the scope stays. In both cases the cipher offset never moves backwards.", "quantifier": "every sequence of operations inside the scope, every failure point", "why_tests_cant": "Every possible exit point of every operation sequence.", "anchors": ["banyan/src/stream_builder.rs: StreamTransaction, transaction, commit, drop"]}
{"id": "C25", "title": "failed operations do not change the tree", "statement": "If extend, extend_unpacked, pack, retain or repair returns an error, the builder still holds the tree it held before.", "quantifier": "every operation, every tree, every failure point of the store", "why_tests_cant": "Failures can strike at any block read or write.", "anchors": ["banyan/src/tree.rs: extend, extend_unpacked, pack, retain, repair"]}
{"id": "C26", "title": "reload by link", "statement": "Loading a tree (or a builder) from the link of a tree root gives a tree with the same content, count and level, and with the same per-node index data.", "quantifier": "every reachable tree with a link", "why_tests_cant": "The root index is recomputed from the block; agreement must hold for all shapes and histories.", "anchors": ["banyan/src/tree.rs: load_tree, load_stream_builder", "banyan/src/forest/read.rs: create_index_from_link"]}
{"id": "C27", "title": "built trees satisfy the library's own invariants", "statement": "The invariant checker reports no violation on any tree produced by the library.", "quantifier": "every history of extend, extend_unpacked, pack, retain, repair with one configuration", "why_tests_cant": "All histories.", "anchors": ["banyan/src/tree.rs: check_invariants, assert_invariants", "banyan/src/forest/read.rs: check_invariants0"]}
{"id": "C28", "title": "count is the number of appended elements", "statement": "The count of a tree equals the number of elements ever appended to it; packing, purging and repairing do not change it; a tree is empty iff nothing was appended.", "quantifier": "every history", "why_tests_cant": "All histories.", "anchors": ["banyan/src/tree.rs: Tree::count, is_empty", "banyan/src/index.rs: Index::count"]}
{"id": "C29", "title": "streaming growing trees delivers once and in order", "statement": "Streaming a sequence of ever growing trees with a query and an offset range delivers every matching element in the range exactly once, in ascending offset order, and ends when the range is covered.", "quantifier": "every sequence of trees each of which extends the previous one, every query, every range", "why_tests_cant": "All sequences of growing trees, chunk boundaries and ranges.", "anchors": ["banyan/src/forest/stream.rs: stream_trees, stream_trees_chunked", "banyan/src/util.rs: take_until_condition"]}
{"id": "C30", "title": "reverse streaming delivers once and in descending chunks", "statement": "Reverse streaming of a sequence of trees delivers every matching element of the first non-empty tree within the range exactly once, chunk by chunk in descending order, even if reading fails part way and a later tree is used to continue.", "quantifier": "every sequence of trees, every query, every range, every failure point", "why_tests_cant": "All failure points and chunk boundaries.", "anchors": ["banyan/src/forest/stream.rs: stream_trees_chunked_reverse"]}
{"id": "C31", "title": "streams report errors", "statement": "If a block needed by a tree stream cannot be read, the consumer of the stream sees an error.", "quantifier": "every sequence of trees, every failure point", "why_tests_cant": "Every failure point.", "anchors": ["banyan/src/forest/stream.rs: stream_trees_chunked, stream_trees_chunked_threaded, stream_trees_chunked_reverse"]}
{"id": "C32", "title": "iterators stop after an error", "statement": "An iterator over elements, chunks or indexes that hits a read error yields that error once and then ends.", "quantifier": "every tree, every query, every failure point", "why_tests_cant": "Every failure point.", "anchors": ["banyan/src/forest/read.rs: TreeIter::next", "banyan/src/forest/index_iter.rs: IndexIter::next"]}
{"id": "C33", "title": "index iteration is complete", "statement": "Iterating indexes with a query yields, in pre-order (or, in reverse, in the mirrored order), exactly the indexes of nodes all of whose ancestors were not pruned; in particular every leaf containing a matching element shows up; with the all-query every node shows up exactly once.", "quantifier": "every reachable tree, every query", "why_tests_cant": "All shapes and pruning decisions.", "anchors": ["banyan/src/forest/index_iter.rs: IndexIter", "banyan/src/tree.rs: iter_index, iter_index_reverse"]}
{"id": "C34", "title": "the memory store returns what was put", "statement": "After a successful put, get with the returned link yields the same bytes at any later time; other blocks are unaffected; the total stored size never exceeds the limit; get of an unknown link is an error.", "quantifier": "every sequence of puts and gets, every data, every collision-free digest", "why_tests_cant": "All operation sequences.", "anchors": ["banyan/src/store/mem_store.rs: MemStore"]}
{"id": "C35", "title": "the block cache is transparent", "statement": "Reading through the caching store returns exactly what reading the underlying content-addressed store returns, whatever the cache capacity and eviction decisions.", "quantifier": "every sequence of puts and gets, every capacity, every eviction policy", "why_tests_cant": "All access patterns and evictions.", "anchors": ["banyan/src/store/mem_cache.rs: MemCache"]}
{"id": "C36", "title": "the branch cache is transparent", "statement": "Every read operation returns the same result whatever the content of the branch cache left behind by earlier operations on the same forest (with the same secrets).", "quantifier": "every history of operations, every cache capacity and eviction policy", "why_tests_cant": "All access patterns and evictions.", "anchors": ["banyan/src/store/branch_cache.rs: BranchCache", "banyan/src/forest/read.rs: load_branch_cached_from_link"]}
{"id": "C37", "title": "leaves respect the configured limits", "statement": "Every leaf written has at most the configured number of elements and at most the configured uncompressed size, and is marked sealed exactly when one of the limits (count, compressed size, uncompressed size) has been reached or the next element did not fit.", "quantifier": "every configuration, every previous leaf content, every sequence of values", "why_tests_cant": "All size sequences around the limits.", "anchors": ["banyan/src/store/zstd_dag_cbor_seq.rs: fill", "banyan/src/forest/mod.rs: Config"]}
{"id": "C38", "title": "branches respect the configured limits", "statement": "Every branch written has at least one child and at most the configured number of children for its level, and is marked sealed exactly when all its children are sealed, directly below it and their number has reached the limit.", "quantifier": "every configuration, every history with this configuration", "why_tests_cant": "All histories.", "anchors": ["banyan/src/forest/mod.rs: Config::branch_sealed", "banyan/src/forest/write.rs: extend_branch, new_branch, find_valid_branch"]}
{"id": "C39", "title": "block accessors agree", "statement": "For a block of values, reading all items, selecting by a mask and reading a single position agree with each other and with the values put in; the item count is right.", "quantifier": "every sequence of values, every mask, every position", "why_tests_cant": "All value sequences and masks.", "anchors": ["banyan/src/store/zstd_dag_cbor_seq.rs: from_iter, items, select, get, count"]}
{"id": "C40", "title": "all links are visible without keys", "statement": "The unencrypted link section of a block lists every link contained in its payload: all child links for a branch, all links inside the values of a leaf (also those added by earlier appends). It lists nothing else. Hence all blocks of a tree can be found from its root link by following link sections only.", "quantifier": "every tree reachable by any history, every value containing links", "why_tests_cant": "Every nesting of links in values and every append history.", "anchors": ["banyan/src/store/zstd_dag_cbor_seq.rs: scrape_links, IpldNode", "banyan/tests/link_scraping.rs"]}
{"id": "C41", "title": "left roots are prefixes", "statement": "Each of the left roots of a tree is a tree whose content is a prefix of the content of the tree; they are ordered from smallest to the whole tree.", "quantifier": "every reachable tree", "why_tests_cant": "All shapes.", "anchors": ["banyan/src/tree.rs: left_roots, left_roots0"]}
{"id": "C42", "title": "the graph dump is the tree", "statement": "The dumped graph has one node per tree node, numbered consecutively from 0 in pre-order, and its edges are exactly the parent-child pairs (every node but the root has one parent, with a smaller number).", "quantifier": "every reachable tree", "why_tests_cant": "All shapes.", "anchors": ["banyan/src/tree.rs: dump_graph, dump_graph0"]}
{"id": "C43", "title": "tag table round-trip", "statement": "Compressing a list of tag sets into an index table and expanding it again gives the same list; single-position access agrees with the expansion; every set refers only to tags of the table.", "quantifier": "every list of tag sets", "why_tests_cant": "All lists of sets.", "anchors": ["banyan-utils/src/tag_index.rs: TagIndex::from_elements, iter_elements, get"]}
{"id": "C44", "title": "tag table queries are exact", "statement": "Matching a query in disjunctive normal form against the compressed table yields for each position whether its tag set satisfies the query, i.e. contains all tags of at least one conjunction.", "quantifier": "every table, every query", "why_tests_cant": "All tables and queries, in particular tags that are missing from the table.", "anchors": ["banyan-utils/src/tag_index.rs: TagIndex::matching, map_to_index_set"]}
{"id": "C45", "title": "normal form preserves meaning", "statement": "Converting a tag expression to disjunctive normal form, and back, preserves which tag sets satisfy it.", "quantifier": "every expression (with non-empty connectives), every tag set", "why_tests_cant": "All expressions.", "anchors": ["banyan-utils/src/tag_index.rs: Expression::dnf, Dnf, insert_unless_redundant, BitAnd, BitOr"]}
{"id": "C46", "title": "simplification preserves meaning", "statement": "Simplifying a tag expression preserves which tag sets satisfy it; so do the and / or operators.", "quantifier": "every expression, every tag set", "why_tests_cant": "All expressions.", "anchors": ["banyan-utils/src/tag_index.rs: Expression::simplify, and, or"]}
{"id": "C47", "title": "normal form is unique", "statement": "Two tag expressions satisfied by the same tag sets have the same disjunctive normal form.", "quantifier": "every pair of equivalent expressions", "why_tests_cant": "All pairs of expressions.", "anchors": ["banyan-utils/src/tag_index.rs: Dnf (doc comment), insert_unless_redundant"]}
{"id": "C48", "title": "tag queries on trees are exact", "statement": "Filtering a tree by a tag and time query yields exactly the elements accepted by the query when asked about each key directly, independent of how the elements are grouped into leaves and branches.", "quantifier": "every query, every reachable tree of tagged elements", "why_tests_cant": "Depends on which tags happen to share a leaf, and on the summaries of every level.", "anchors": ["banyan-utils/src/tags.rs: DnfQuery, TranslatedDnfQuery, Key", "banyan-utils/src/tag_index.rs"]}
{"id": "C49", "title": "range intersection has no false negatives", "statement": "The range intersection test used for pruning says no only if the two ranges have no common element.", "quantifier": "every pair of ranges over an ordered type, all bound kinds", "why_tests_cant": "All bound combinations over an unbounded domain.", "anchors": ["banyan/src/util.rs: RangeBoundsExt::intersects, lt"]}
{"id": "C50", "title": "size accounting is exact", "statement": "The value size reported for a tree is the sum of the compressed sizes of its leaves; the key size is the sum of the encoded sizes of its branch blocks.", "quantifier": "every tree built by any history of extend, extend_unpacked and pack", "why_tests_cant": "All histories.", "anchors": ["banyan/src/index.rs: value_bytes, key_bytes", "banyan/src/forest/write.rs: new_branch", "banyan/src/forest/read.rs: create_index_from_link"]}
{"id": "C51", "title": "shape is determined by the content", "statement": "If leaves are limited by element count only, the shape of a tree built by extend (number, sizes, levels and sealed flags of nodes) depends only on the number of elements, not on how the elements were split over extend calls. In general the leaves determine the shape: the level is the smallest one with room for them, and trees with the same leaves have the same shape.", "quantifier": "every valid configuration, every split of every sequence into extend calls", "why_tests_cant": "All splits of all sequences.", "anchors": ["README.md", "banyan/src/forest/write.rs: extend_above, extend0, extend_branch, fill_node"]}
{"id": "C52", "title": "everything written can be read back", "statement": "Every block that a successful operation has written for the tree can be read and decoded again.", "quantifier": "every configuration accepted as valid, every key and value type, every history", "why_tests_cant": "Needs extreme sizes that tests avoid.", "anchors": ["banyan/src/store/thread_local_zstd.rs", "banyan/src/index.rs: serialize_compressed, deserialize_compressed", "banyan/src/store/zstd_dag_cbor_seq.rs: from_iter_ipld"]}
{"id": "C53", "title": "packed subtrees are shared", "statement": "Extending and packing never rewrite sealed subtrees in the packed part: the links of all sealed nodes reachable in the packed prefix before the call are still part of the tree after the call.", "quantifier": "every valid configuration, every reachable tree, every sequence of pairs", "why_tests_cant": "All shapes.", "anchors": ["banyan/src/tree.rs: pack (doc comment), extend", "README.md"]}
{"id": "C54", "title": "threaded streaming is equivalent", "statement": "Streaming chunks through the background thread and bounded channel delivers the same chunks in the same order as direct streaming, for every scheduling of producer and consumer; only the direct stream stops at the end of the range, so the threaded one may add chunks without elements after that. There is no deadlock and no endless execution.", "quantifier": "every schedule of producer and consumer, every channel capacity, every chunk sequence", "why_tests_cant": "All schedules.", "anchors": ["banyan/src/forest/stream.rs: stream_trees_chunked_threaded", "banyan/src/util.rs: into_stream"]}
{"id": "C55", "title": "stream cut-off", "statement": "Cutting a stream by a condition delivers exactly the items up to and including the first item satisfying the condition, and nothing afterwards.", "quantifier": "every stream, every condition", "why_tests_cant": "All sequences.", "anchors": ["banyan/src/util.rs: take_until_condition"]}
{"id": "C56", "title": "compact sequences round-trip", "statement": "Collecting keys (or summaries) into the compact sequence types and reading them back, as a whole or by position, returns the same elements; first, last, length and selection by mask agree with the list.", "quantifier": "every list of elements (non-empty where required)", "why_tests_cant": "All lists.", "anchors": ["banyan/src/index.rs: CompactSeq, VecSeq, UnitSeq", "banyan-utils/src/tags.rs: KeySeq"]}
{"id": "C57", "title": "block envelope round-trips", "statement": "Encoding a block envelope (cipher offset, links, payload) and decoding it returns the same three parts.", "quantifier": "every offset below 2^64, every list of links, every payload", "why_tests_cant": "All byte strings, all integer-length classes.", "anchors": ["banyan/src/store/zstd_dag_cbor_seq.rs: IpldNode", "banyan/tests/build_check.rs: wire format tests"]}
{"id": "C58", "title": "repaired trees stay usable", "statement": "After a repair, extending or packing the tree either succeeds with the right content or returns an error; it never panics and never silently changes or shifts existing elements.", "quantifier": "every reachable tree, every set of damaged blocks, every later operation", "why_tests_cant": "All damage patterns and shapes.", "anchors": ["banyan/src/tree.rs: repair (doc comment), pack, extend", "banyan/src/forest/read.rs: roots0"]}
{"id": "C59", "title": "pack of a packed tree is a no-op", "statement": "Packing an already packed tree does not change the tree.", "quantifier": "every packed reachable tree", "why_tests_cant": "All packed shapes.", "anchors": ["banyan/src/tree.rs: pack (doc comment)"]}
{"id": "C60", "title": "valid configurations make progress", "statement": "With a configuration accepted by validation, appending a non-empty sequence of small elements terminates successfully (if the store works).", "quantifier": "every configuration accepted by validation", "why_tests_cant": "All combinations of limits.", "anchors": ["banyan/src/forest/mod.rs: Config::validate"]}
{"id": "C61", "title": "writing operations never abort", "statement": "extend_unpacked, pack and retain on a tree built through the API never panic: they succeed or return an error caused by the store, by exhausted cipher offsets or by an element that is too large.", "quantifier": "every reachable tree, every input and query, every behaviour of the store", "why_tests_cant": "All tree shapes, fault patterns and queries; a panic only shows on particular shapes.", "anchors": ["banyan/src/tree.rs: extend_unpacked, pack, retain", "banyan/src/forest/write.rs: assertions"]}
{"id": "C62", "title": "damaged stores never yield wrong data", "statement": "If some blocks of a tree are lost, every read operation (get, collect, filtered, chunked and index iteration) either returns what it returns on the intact store or reports an error; an iteration delivers a beginning of what it delivers on the intact store before the error.", "quantifier": "every reachable tree, every set of lost blocks (also changing during an iteration), every read operation", "why_tests_cant": "All damage patterns times all trees times all offsets and queries.", "anchors": ["banyan/src/forest/read.rs: get0, collect0, TreeIter", "banyan/src/forest/index_iter.rs"]}
{"id": "C63", "title": "index wire format round-trips", "statement": "An index (leaf or branch) written in DAG-CBOR and read back is the same index, and reading consumes exactly the bytes that were written; the order of the fields does not matter and unknown fields are ignored, so older formats are still accepted. With these codecs all assumptions about encodings made by the other properties hold.", "quantifier": "every index, all key and summary sequences with round-tripping codecs, any following bytes, any field order", "why_tests_cant": "All integer-length classes, all lengths, all orders of fields.", "anchors": ["banyan/src/index.rs: LeafIndex, BranchIndex, Index", "banyan/tests/build_check.rs: leaf_index_wire_format, branch_index_wire_format"]}
{"id": "C64", "title": "link scraping is exact", "statement": "In any CBOR value the scraper finds exactly the links that occur in it, at any depth of arrays and maps, and fails exactly if something is marked as a link but is not one.", "quantifier": "every well-formed CBOR value", "why_tests_cant": "All nestings.", "anchors": ["banyan/src/store/zstd_dag_cbor_seq.rs: scrape_links", "banyan/tests/link_scraping.rs"]}
{"id": "C65", "title": "tag sequences survive the wire format", "statement": "A sequence of keys with tags written in DAG-CBOR and read back is the same sequence; every sequence that is accepted when reading can be used without a panic.", "quantifier": "every sequence of keys with at most 2^32 different tags; every byte string that is accepted", "why_tests_cant": "All sequences and all malformed inputs.", "anchors": ["banyan-utils/src/tag_index.rs: Encode, Decode for TagIndex", "banyan-utils/src/tags.rs: KeySeq"]}
{"id": "C66", "title": "reading needs only the blocks it looks into", "statement": "Filtered iteration (chunks and elements, both directions) delivers the complete, correct result if only the blocks of the nodes selected by the query are available; every needed leaf contains an element of the result. get needs only the blocks on the way to the offset, and collect_from only those of nodes with elements from the offset on. Iterating over the indexes needs only the blocks of the branches visited. The streams of trees (in both directions) need from each tree only the blocks that the query and the rest of the range select; so who follows a growing tree needs only blocks with new elements that match. So a tree can be read, and followed, from a partial replica.", "quantifier": "every reachable tree, every query, offset and direction, every store in which arbitrary other blocks are missing", "why_tests_cant": "All sets of missing blocks times all trees and queries.", "anchors": ["banyan/src/forest/read.rs: TreeIter, ChunkVisitor, get0, collect0"]}
{"id": "C67", "title": "trees can be reopened with another configuration", "statement": "A tree can be reopened (by the link of its root) with any other valid configuration and the same secrets: content, packed state and the nodes below the root stay the same, and whether the root is sealed is decided again by the new limits. Afterwards every operation works as on a tree made with the new configuration: extending appends, packing keeps the content and packs, and errors only come from outside.", "quantifier": "every reachable tree (made with any sequence of configurations), every pair of valid configurations, every later operation", "why_tests_cant": "All pairs of configurations times all trees; unit tests use one configuration per tree.", "anchors": ["banyan/src/forest/mod.rs: Config", "banyan/src/tree.rs: load_stream_builder", "banyan/src/stream_builder.rs", "banyan/src/forest/read.rs: create_index_from_link"]}
{"id": "C68", "title": "the invariant checker finds everything", "statement": "On any tree that can be loaded, however it was made (also a tampered or broken one), the invariant checker reports a kind of problem exactly if some node has it: wrong number of values, wrong number of children, wrong level or summary of a child, wrong sealed flag. assert_invariants passes exactly if there is no problem.", "quantifier": "every tree that can be loaded, well formed or not, every configuration", "why_tests_cant": "All broken trees; unit tests only run the checker on correct trees.", "anchors": ["banyan/src/tree.rs: check_invariants, assert_invariants", "banyan/src/forest/read.rs: check_invariants0"]}
{"id": "C69", "title": "summaries of tagged keys are tight", "statement": "Combining two keys, or summarizing a sequence of keys, gives the smallest key (time range, lamport time, tags) that all of them are within. A filter contains a key exactly if time range and tags are within those of the filter, and intersects it exactly if there is a common time and a common tag; a tag filter ignores the time.", "quantifier": "all keys, all sequences of keys with at most 2^32 different tags", "why_tests_cant": "All combinations of times and tag sets.", "anchors": ["banyan-utils/src/tags.rs: TimeData, Key, KeySeq::summarize"]}
{"id": "C70", "title": "packed trees are shallow", "statement": "The level of a packed tree of n elements is at most log2(n) + 2, whatever operations (extend, extend_unpacked, pack, retain, repair, reopening with other configurations) it went through; with a single configuration, a packed tree above level 1 has more elements than a sealed branch directly below its root has at least, which is the product of the branch limits. So reading an element by offset needs at most log2(n) + 3 blocks. Trees that are not packed can have a level for each append.", "quantifier": "every reachable packed tree, every sequence of valid configurations, every offset", "why_tests_cant": "All histories; unit tests look at the depth of a few small trees.", "anchors": ["banyan/src/forest/write.rs: extend_above, extend_branch, simplify_roots, find_valid_branch", "banyan/src/stream_builder.rs", "banyan/src/forest/read.rs: get0"]}
{"id": "C71", "title": "writing operations write nothing in vain", "statement": "Every block that a successful extend, extend_unpacked, retain or repair hands to the store is the block of a node of the resulting tree; each is written once, children before their parents and from left to right. Nothing that an operation writes is replaced later in the same operation. Appending n elements writes less than 3 * n + 2 * level blocks, so at most 3 * n + 2 * log2(count) + 3 for a packed tree. pack is different: it can write an intermediate branch that is not part of the packed tree. But it writes at most two blocks for each of the packed sealed subtrees that roots lists, three for each element behind them, and 2 * log2(count) + 4 others: whatever is packed already is not written again.", "quantifier": "every reachable tree, every sequence of elements, every query, every damage repaired, every store and every codec", "why_tests_cant": "All trees and all operations; unit tests do not look at what is written.", "anchors": ["banyan/src/forest/write.rs: put_block, extend_leaf, extend_branch, extend_above, persist_branch, retain0, repair0", "banyan/src/tree.rs: extend, extend_unpacked, retain, repair, pack"]}
{"id": "C72", "title": "trees replicate by published links", "statement": "A sender appends elements one by one, packs its tree when it has become too deep, and publishes the link of the new root each time. A receiver loads the trees of whatever links arrive (in any order, some lost, some repeated) and streams their elements. It delivers exactly the elements of the largest tree that has arrived, each once, in order and with its offset; if the last link has arrived, these are all elements sent. If blocks cannot be read, what it delivers is still a beginning of the sequence without holes or wrong elements.", "quantifier": "all sequences of elements, every selection and order of links, every interleaving with other users of the stores, every pattern of missing blocks", "why_tests_cant": "All orders of arrival, all losses and all packings between.", "anchors": ["banyan-utils/src/bin/cli.rs: SendStream, RecvStream", "banyan/src/forest/stream.rs: stream_trees", "banyan/src/tree.rs: load_tree, extend_unpacked, pack"]}
{"id": "C73", "title": "retain and repair are idempotent", "statement": "After a successful retain, retaining again with the same query, or with one that selects at least as much, succeeds and changes nothing: no block is written, the root stays the same and the cipher offset does not move. Retaining everything changes nothing on any tree. After a successful repair a second repair reports nothing and changes nothing, whatever was damaged before, unless further blocks get lost. Other trees may be written in between.", "quantifier": "every tree, every damage, every query that looks only at keys, summaries and offsets, every later state of the store", "why_tests_cant": "All trees, queries and damages; a test that retains twice looks at one tree.", "anchors": ["banyan/src/forest/write.rs: retain0, repair0", "banyan/src/tree.rs: retain, repair"]}
{"id": "C74", "title": "the index can be used without the values", "statement": "Somebody who has the key of the index but not the key of the values, and only the blocks of the branches, can do everything that concerns the index: iterating over the index (forward and backward, filtered by any query), checking whether the tree is packed, listing its left roots and its packed sealed subtrees, and dumping its graph all give the result they give for an owner with all blocks and keys. They can even retain: the result is the same as for the owner, fails only for causes outside of the tree, and once the blocks of the leaves are available an owner reads from it what retain promises. Reading elements is not possible for them.", "quantifier": "every reachable tree, every query, every store in which only the blocks of branches agree with the original one, every key for the values", "why_tests_cant": "All trees and all sets of missing leaves; unit tests use one key for both and a complete store.", "anchors": ["banyan/src/forest/read.rs: load_branch_from_link, is_packed0", "banyan/src/forest/index_iter.rs", "banyan/src/forest/write.rs: retain0", "banyan/src/tree.rs: load_stream_builder, retain, left_roots, dump_graph"]}
{"id": "C75", "title": "links survive their text form", "statement": "The text that Display prints for a link can be parsed by FromStr and gives the link, also behind a path that ends with /ipfs/. Different links have different texts. The text has 59 characters, lower case letters and digits only, and begins with bafyrei. Conversely a text of this length that begins with b and can be parsed is the text of the resulting link, so a mistyped text is never taken for the same link (longer texts can be: what follows the identifier is ignored).", "quantifier": "every digest, every text, whatever the decoders of the other multibase encodings do", "why_tests_cant": "All 2^256 digests and all texts; the tests use a handful of constants.", "anchors": ["banyan-utils/src/tags.rs: FromStr for Sha256Digest, Display for Sha256Digest, TryFrom<Cid> for Sha256Digest, From<Sha256Digest> for Cid", "banyan-utils/src/bin/cli.rs"]}
{"id": "C76", "title": "different passwords give different keys", "statement": "Different passwords give different encryption keys.", "quantifier": "all passwords", "why_tests_cant": "All pairs of texts; there is no test.", "anchors": ["banyan-utils/src/lib.rs: create_chacha_key", "banyan-utils/src/bin/cli.rs"]}
{"id": "C77", "title": "repair reports exactly what it gives up", "statement": "The report of repair lists exactly the topmost nodes of the tree whose blocks cannot be read, in the order of the tree, each with its own link; nothing below such a node is listed. Behind an entry there is a warning about an unsealed node exactly if the node is unsealed, and a warning about the unpacked part exactly if the node is sealed and an unsealed node that is not above it comes before it in the tree. The report for a packed tree has no warnings about an unpacked part.", "quantifier": "every reachable tree, every set of missing blocks", "why_tests_cant": "All trees and all patterns of missing blocks; the tests look only at whether the report is empty.", "anchors": ["banyan/src/forest/write.rs: repair0", "banyan/src/tree.rs: repair"]}
{"id": "C78", "title": "shipped stores return what was stored", "statement": "Whatever is stored through one of the stores of banyan-utils (sqlite, ipfs daemon, or the memory store chosen by the storage option) is returned unchanged by every later get with the link that put returned, whatever else is stored before and after, and the link is the sha256 digest of the data; asking for a block that is not there is an error, never some other data.", "quantifier": "every sequence of puts and gets, every content of the database or daemon at the start, every database that keeps the first row for a key and every daemon that stores blocks under their digest (assumption: the blocks in use do not collide under sha256)", "why_tests_cant": "All histories of puts and gets and all behaviours of a lawful daemon; the tests need a running daemon and use none.", "anchors": ["banyan-utils/src/sqlite.rs: SqliteStore", "banyan-utils/src/ipfs.rs: IpfsStore, block_get, block_put", "banyan-utils/src/bin/cli.rs: Storage"]}
{"id": "C79", "title": "the dump of a block shows its items", "statement": "Dumping any block of a tree (as CBOR or as dag-json) shows a header and then each item of the block in order, one per line; a block that was not written by the library but is a single CBOR item is shown as this item.", "quantifier": "every reachable tree, every block of it, every printer for items", "why_tests_cant": "All trees and blocks; there is no test for the dump functions.", "anchors": ["banyan-utils/src/dump.rs: dump_json, dump_cbor", "banyan/src/store/zstd_dag_cbor_seq.rs: items, items_ipld", "banyan-utils/src/bin/cli.rs: DumpBlock"]}
{"id": "C80", "title": "dumps of trees show each node", "statement": "The text dump of a tree has exactly one line for each node, a node before its children and its children in order and indented one step more, with the true numbers of elements and children, also for purged nodes; nothing is printed for the empty tree. The graph handed to the renderer has a node for each node of the tree with its number, level or number of elements, and an edge for each child; drawing it never panics.", "quantifier": "every reachable tree", "why_tests_cant": "All shapes of trees including purged ones; there is no test.", "anchors": ["banyan/src/forest/read.rs: dump0, dump_graph0", "banyan/src/tree.rs: dump, dump_graph", "banyan/src/index.rs: Display for NodeInfo", "banyan-utils/src/dump.rs: graph"]}
{"id": "C81", "title": "the commands of the tool do what they announce", "statement": "For links of trees with a branch as root: Build appends the announced number of elements to a new tree or to the given one (which is packed, unless unbalanced elements are to be added), and a balanced build gives a packed tree; Forget keeps the elements from the given offset on and the number of elements, and removes all sealed leaves before it from a packed tree; Pack gives a packed tree with the same content; Repair makes all readable again and keeps every element whose blocks are there; all of them print the dump of the result. DumpValues prints all elements with their offsets in order, Dump the nodes. The assertions in the commands never fail: errors have a cause outside of the tree.", "quantifier": "every tree that was written with the settings of the command, every number and size of batches, every offset, every set of missing blocks for Repair", "why_tests_cant": "All trees and arguments; there is no test for the tool.", "anchors": ["banyan-utils/src/bin/cli.rs: Build, Forget, Pack, Repair, Dump, DumpValues, build_tree", "banyan/src/tree.rs: load_stream_builder, load_tree, assert_invariants"]}
{"id": "C82", "title": "the tool reads with the same passwords what it has written", "statement": "What a command of the tool has written when passwords were given can be read by another command with the same passwords (and only with them).", "quantifier": "all passwords, all trees", "why_tests_cant": "All passwords and trees; there is no test for the tool.", "anchors": ["banyan-utils/src/bin/cli.rs: main, build_tree, Build, DumpValues, Forget, Pack, RecvStream"]}
{"id": "C83", "title": "commands that print elements print all of them or report an error", "statement": "Stream prints the elements whose number in the stream is divisible by 1000 (all are counted), Filter those of the selected elements, DumpValues all elements with their offsets. If a block is missing, the command either prints all the same, or reports an error.", "quantifier": "every tree written with the keys of the command, every query, every set of missing blocks, including blocks that get lost while the command runs", "why_tests_cant": "All trees, queries and failures; there is no test for the tool.", "anchors": ["banyan-utils/src/bin/cli.rs: Stream, Filter, DumpValues", "banyan/src/forest/read.rs: stream_filtered, iter_filtered", "banyan/src/tree.rs: stream_filtered"]}
{"id": "C84", "title": "RecvStream prints what SendStream has sent", "statement": "RecvStream prints, with the same passwords as SendStream, all elements that were sent, each once and in order, as soon as the link that was sent last has arrived, whichever of the other links arrive, in any order and any number of times.", "quantifier": "all passwords, every number of ticks, every selection and order of arriving links", "why_tests_cant": "All orders of arrival and all passwords; the commands need a network, there is no test.", "anchors": ["banyan-utils/src/bin/cli.rs: SendStream, RecvStream", "banyan/src/forest/stream.rs: stream_trees"]}
{"id": "C85", "title": "the streams of a forest do not disturb each other", "statement": "Several stream builders, with the same or with different secrets and configurations, can share the store and the branch cache of a forest. However their operations are interleaved, and whether they succeed or fail, the tree of a builder, what can be read from it, and its cipher offset are changed by its own operations only, and each builder behaves as if it were alone.", "quantifier": "every number of builders, all secrets and configurations, all interleavings of operations with all arguments, all evictions from the cache (if no block can be read as two different branches with the keys of two builders)", "why_tests_cant": "All interleavings, and the shared cache is keyed by link only; tests use one builder.", "anchors": ["banyan/src/forest/mod.rs: Forest, ForestInner", "banyan/src/store/branch_cache.rs", "banyan/src/forest/read.rs: load_branch_cached", "banyan/src/tree.rs: extend, extend_unpacked, pack, retain", "banyan/src/stream_builder.rs"]}
{"id": "C86", "title": "no part of a key stream is used for two blocks of a forest", "statement": "No two blocks written by the builders of a forest are encrypted with the same part of the key stream of the same key.", "quantifier": "every number of builders, all interleavings of operations", "why_tests_cant": "All interleavings and all offsets; a reuse is not visible in any result, but breaks the encryption.", "anchors": ["banyan/src/stream_builder.rs: CipherOffset, StreamBuilder::new", "banyan/src/store/zstd_dag_cbor_seq.rs: into_encrypted", "banyan/src/util.rs: nonce", "banyan/src/forest/mod.rs: TreeTypes::NONCE"]}
{"id": "C87", "title": "the block cache keeps small blocks only, and serves them without the inner store", "statement": "A MemCache answers from the cache only with blocks that are not larger than max_size, and never if max_size or capacity is 0. A block that is not larger than max_size and capacity is, after it was put, served without the inner store, also after any number of reads.", "quantifier": "all inner stores, eviction policies, parameters, numbers of threads and interleavings; all sequences of calls before the put", "why_tests_cant": "All interleavings and policies; what is served from where does not show in the results as long as the inner store works.", "anchors": ["banyan/src/store/mem_cache.rs: Cache::new, MemCache::offer, get0, get, MemWriter::put"]}
{"id": "C88", "title": "threads that share a forest do not disturb each other", "statement": "A thread that reads a snapshot with get, collect_from, is_packed, a filtered iterator or an iterator over indexes, in either direction, gets the same result as if it were alone, however the single accesses of other threads to the store and the branch cache (putting blocks, looking up and inserting branches) fall between its own accesses. Reading threads with the same index key do not disturb each other, and a builder works as if it were alone while other threads put blocks between any two of its own.", "quantifier": "all trees reachable by the operations, all numbers of other threads, all interleavings of single accesses, all stores and caches, all queries, positions and directions", "why_tests_cant": "The interleavings cannot be enumerated, and a race between lookup, load and insertion shows up only for unlucky schedules.", "anchors": ["banyan/src/forest/read.rs: load_branch_cached, get0, collect0, is_packed0, ForestIter::next_fallible", "banyan/src/store/branch_cache.rs: BranchCache::get, put", "banyan/src/forest/mod.rs: Forest (Clone, Send)"]}
{"id": "C89", "title": "builders work at the same time in several threads", "statement": "Any number of threads that share a store and a branch cache and have the same index key, each with its own stream builder, can call extend, extend_unpacked, pack and retain, and read, at the same time. Whatever the order of their single accesses, each operation has the effect on the tree of its own builder that it has alone: successful ones append, pack or purge as promised, failed ones have a cause outside of the tree and leave root and content as they leave them without other threads, no part of the key stream of the builder is used twice, and readers get what they would get alone. What a thread has finished is not undone by the others.", "quantifier": "every number of threads, all interleavings of single accesses to the store and the cache, all arguments, all evictions from the cache, all stores that fail at any time; the cache is filled by users with this index key only", "why_tests_cant": "The interleavings cannot be enumerated; a race shows up only for unlucky schedules, and tests use one thread.", "anchors": ["banyan/src/tree.rs: extend, extend_unpacked, pack, retain", "banyan/src/forest/write.rs", "banyan/src/forest/read.rs: load_branch_cached", "banyan/src/store/branch_cache.rs: BranchCache", "banyan/src/forest/mod.rs: Transaction, Forest (Clone, Send)", "banyan/src/stream_builder.rs"]}
{"id": "C90", "title": "appending needs only the right edge", "statement": "Appending with extend reads only the blocks of the nodes at the right edge of the tree that are not full: a builder whose store has lost all other blocks appends with the same result (the same root, the same blocks written, the same error), and can go on doing so. These are at most one block for each level, so at most log2(n) + 3 for a packed tree of n elements. Appending with extend_unpacked reads nothing at all. Wherever the old blocks and those written by such a builder come together, the whole tree can be read: the old elements followed by the new ones. So the cost of an append does not grow with the tree, and a writer need not keep what it has written.", "quantifier": "every reachable tree, every sequence of pairs, all stores in which arbitrary other blocks are missing and which answer puts alike, all cache states that agree with the store", "why_tests_cant": "A test sees that an append works if blocks it never looks at are there; that it works without them has to be shown for all trees and all missing blocks.", "anchors": ["banyan/src/forest/write.rs: extend0, extend_above, extend_branch, extend_unpacked0, fill_node", "banyan/src/tree.rs: extend, push, extend_unpacked"]}
{"id": "C91", "title": "packing needs only the part that is not packed yet", "statement": "pack reads only the blocks outside of the packed sealed subtrees at the start of the tree (those that roots() lists): the branches above them and everything behind them. A builder whose store has lost all other blocks packs with the same result (the same root, the same blocks written, the same error), and afterwards has the right edge of the packed tree, so that it can go on appending. It can go on forever with extend, extend_unpacked and pack, in any order, on packed trees or not, always with the same trees and blocks as a builder that has everything. Only leaves are read whose elements lie behind these subtrees; of a tree that is packed already only the right edge is read, at most one block for each level. Wherever the old blocks and those written by such a builder come together, all elements can be read.", "quantifier": "every reachable tree, also unpacked and purged ones, all stores in which arbitrary other blocks are missing and which answer puts alike, all cache states that agree with the store", "why_tests_cant": "A test sees that packing works if blocks it never looks at are there; that it works without them has to be shown for all trees and all missing blocks.", "anchors": ["banyan/src/tree.rs: pack, tree_from_roots, roots, collect_from", "banyan/src/forest/write.rs: simplify_roots, extend0", "banyan/src/forest/read.rs: roots_impl, roots0, collect0"]}
{"id": "C92", "title": "the roots are the packed beginning of a tree", "statement": "roots() lists sealed, packed subtrees whose levels do not increase. Each of them can be read as a tree of its own, and has as many elements as it says. Their contents, one after the other, are the content of the tree up to the first element of a leaf that is not sealed, so nothing that has been purged is behind them. If the tree is packed then what is left is less than one full leaf. The empty tree has no roots. Listing the roots reads only branches above and behind them: no leaf, and nothing in a root.", "quantifier": "every reachable tree, including unpacked, retained, repaired and reloaded ones; less than a full leaf: as long as the configuration is not changed", "why_tests_cant": "All shapes of unpacked trees.", "anchors": ["banyan/src/tree.rs: roots", "banyan/src/forest/read.rs: roots_impl, roots0"]}
{"id": "C93", "title": "garbage collection is safe, and purging frees space", "statement": "A store may delete every block that cannot be found from the root of a tree by following the unencrypted link sections (as a garbage collector of a block store does, which has no keys). The content of the tree and every filtered iteration over it stay the same, appending and packing give the same roots and blocks as without the deletion, and everything that holds for builders holds for the builder after it. Conversely, what can be found from the root is a block of a node of the tree or is behind a link in a value. So blocks that have been replaced, and blocks of nodes that retain has purged, are not found any more and can be deleted, unless the same block is still the block of another node. A snapshot taken before stays readable as long as what is found from its root is kept.", "quantifier": "every reachable tree (unpacked, packed, retained, repaired, reloaded, collected before), all stores that keep what is found and have anything or nothing for other links, all cache states that agree with the store", "why_tests_cant": "Which blocks are still needed depends on the whole history; a test with one history says nothing about others.", "anchors": ["banyan/src/store/zstd_dag_cbor_seq.rs: scrape_links, IpldNode", "banyan/src/forest/write.rs: retain0, extend_branch, new_branch", "banyan/src/tree.rs: retain"]}
{"id": "C94", "title": "who has only the branches purges and appends like who has everything", "statement": "More than C74 says for a single retain: a builder without values stays in step with one that has everything. retain reads only blocks of branches: it does not read a single leaf and does not use the key of the values. A builder whose store has lost all leaves (or has only the blocks of branches that are not purged yet) purges with the same result: the same root, the same blocks written, the same error. It can go on forever with retain and extend_unpacked, in any order. So a node that may not read the values, or that has already dropped them, can purge them. Wherever the old blocks and those written by such a builder come together, the tree can be read, and has the content that a builder with all blocks gets. The branches are needed: without one of them purging can fail.", "quantifier": "every reachable tree, also unpacked and purged ones, every query, all stores in which arbitrary other blocks are missing and which answer puts alike, all cache states that agree with the store, every value key", "why_tests_cant": "A test sees that purging works if the leaves are there; that they are never read has to be shown for all trees, queries and missing blocks.", "anchors": ["banyan/src/tree.rs: retain", "banyan/src/forest/write.rs: retain0", "banyan/src/forest/read.rs: load_branch_cached"]}
