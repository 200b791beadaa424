# Design

Verification of the semantic properties of `Actyx/banyan` (Rust, read as text in `/repo`) with a Lean 4 model.
`properties.jsonl` lists the properties (C01 ...). `MANIFEST.json` maps them to theorems.

## 1. Approach

* The Lean model in `lean/Verif/Model/` transcribes the Rust code function by function. Every definition cites file
  and lines. `Result` stays data, a panic (assert, unwrap, expect) is an explicit error value (`Err.panic`) which is
  different from an `anyhow` error (`Err.fail`), `&mut` arguments are returned, `while` loops are structural
  recursions.
* Effects (block store, branch cache, cipher offset) are a state that is threaded through every function and that is
  **kept on errors** (monad `EStateM Err St`), so partial effects of failing operations are visible.
* Recursion through links in the block store has a fuel argument; running out of fuel is a separate error value
  (`Err.fuel`). Theorems hold for every fuel larger than the level of the root, so fuel is never a hidden bound.
* The specification is small and separate (`lean/Verif/Spec/`): a *loaded tree* (a plain inductive tree with values),
  its content as `List (Option (Key x Value))`, a predicate saying that a store holds a loaded tree, and list level
  specifications of the queries, iterators and streams.
* Property theorems live in `lean/Verif/Props/`, helper lemmas in `lean/Verif/Proofs/`. Each property theorem is
  accompanied by a concrete non-trivial `example` meeting its hypotheses, based on a concrete instance of all external
  components (`lean/Verif/Concrete/`; a second one, `Concrete/Wire.lean`, uses the real wire format).

## 2. External components (parameters)

The following code is *not* in the repository. It appears as fields of a structure `Env`; what is assumed about it is
a structure `Env.Lawful` of hypotheses of the theorems which need it, and a concrete instance satisfying them all is
constructed, so no theorem is vacuous.

| component | parameter | assumption |
|---|---|---|
| block store (`ReadOnlyStore`, `BlockWriter`) | `get`, `put` on an abstract state | what a successful `put` returned can be read; `put` (successful or not) never changes what an existing link reads as (append only, content addressed, no hash collisions). `put`/`get` may fail at any time. `MemStore` is modelled and proved to satisfy this (C34, assuming that the digest has no collisions among the blocks put). |
| `weight_cache` (branch cache) | `cacheGet`, `cachePut` on an abstract state | the cache returns only something that was put for that link before (any eviction policy) |
| zstd | `zlen` (bytes in the output so far), `zfin` (finished frame), `unz` | `unz (zfin ws) = ws.flatten`, a finished frame is not empty and not shorter than the output so far |
| CBOR of values (`cbor-data`, user code) | `encV`, `decV`, `item` (split off the first item), `links` (links in an item) | an encoded value is one item and decodes to itself |
| DAG-CBOR of indexes (`libipld`) | `encIdx`, `decIdx` | an encoded index is one non-empty item, decodes to itself. `Model/Cbor.lean` gives the format byte by byte and `C63_env` proves the assumption for it. |
| block envelope (`libipld`) | `encNode`, `decNode` | round trip; given byte by byte and proved in C57, C63 |
| chacha20 | key stream `ks : Key -> Nat -> UInt8` | none (XOR with an arbitrary fixed key stream) |
| user supplied key/summary types (`TreeTypes`) | `CompactSeq`s and `summarize` | `from_iter`/`get`/`len` round trip; for query theorems: a summary covers the keys it summarizes |

## 3. Trusted base

* Lean 4.33.0 kernel. No own axioms, no `sorry`, no `native_decide`. Theorems depend on at most `propext`,
  `Classical.choice`, `Quot.sound`.
* The transcription from Rust to Lean (checked by reading only).
* Simplifications of the model:
  * `u64`/`usize`/`u32` counters are `Nat` (no overflow), except for the cipher offset whose overflow check is
    modelled, and the level argument `u32::max_value()` of `extend`, which is the literal 4294967295.
  * `level as i32` is the exact integer.
  * Reader and writer of a transaction share one store (as in all uses in the repository).
  * Order of the unencrypted link section: order of first occurrence instead of the `BTreeSet` order.
  * Metrics, tracing, `Debug`/`Display`, timing and memory use are not modelled.
  * `summarize` is total (user code; banyan-utils panics on empty sequences, which are never built with
    `max_leaf_count > 0`).
  * Errors are compared by kind, not by message text.
  * Streams are modelled as the sequence of items delivered; wake-ups and cancellation are not modelled.
  * A growing sequence of trees (`Spec/Stream.lean`: `Arrival`, `Between`, `Fed`) is a list of arrivals; between two polls
    of the consumer the store may grow arbitrarily.
  * `Small`: no branch handed to `persist_branch` so far was larger than 16 MiB when encoded. Without it a branch can be
    written that cannot be read (C52). It is a statement about a ghost log `written` in the state.
  * At most `maxElements` elements in a tree, so that no level counter leaves the range of `i32`.
  * chacha20's own limit for seeking (2^70 bytes) is beyond 2^64 and not modelled.
  * `VecSet`, `BTreeSet` are sorted lists with their documented operations. `u32` indices in tag tables: the panic of more
    than 2^32 tags is modelled, times are `Nat`.
  * DAG-CBOR: what `libipld`, `cbor-data` and `cid` write is fixed by the wire format tests of the repository, which are
    repeated as examples in `Props/Wire.lean`. Simplifications are listed at the top of `Model/Cbor.lean`.
  * `Cid::from_str` and `Display` of `Cid` (crate `cid` 0.8.6), base32 (`multibase`, `data-encoding`) are transcribed from their documentation
    (`Model/Text.lean`); an example of the repository's tests is repeated in `Props/Text.lean`.
  * `dump_graph` returns the nodes as a list; petgraph is not modelled.
  * Threads: the block cache (`MemCache`) is modelled as interleaved atomic steps, one per critical section.
    The channel of a threaded stream (`futures::channel::mpsc` 0.3.19) is a queue with room for capacity + 1 items, where `send`
    waits for room and then until the item is taken out or room is left; the thread pool is an arbitrary schedule. A panic in
    the background task is a turn that cannot be taken.

Notions used in the statements (`Spec/`):

* `Run`, `Reach`: sequences of API calls (extend, extend_unpacked, pack, retain, transactions, reload, repair, garbage collection), successful or not,
  with arbitrary changes of the outside world in between (store grows or fails, cache changes coherently), and operations during which
  other threads use the store and the branch cache between any two accesses of the builder (C89). A reload
  may change the configuration to any other valid one. `Steady`: the same, but with one configuration all the time (needed where
  limits are concerned: C27, C37, C38, C51).
* `Contains cx s c`: reading the whole tree of builder state `s` gives `c` (purged elements are `none`).
  `Loaded`/`Shows`: the nodes of the tree. `Yields`, `Sees`, `Delivers`, `Enumerates`: what an iterator delivers when driven to its end.
* `Faulty`, `Tolerable`: a store that has lost blocks, compared to the intact one. `Damaged`: the same before a repair, where
  blocks are added later: a link of the undamaged store never gets another content (links are hashes).
  `Reach.repair`: a repair of a packed tree that gives up sealed nodes only is a step of `Reach`.
* `Later`: the world at a later time (C15).
* `Coherent`: no entry of the branch cache contradicts what can be read with the keys; entries of other users are allowed. `Exact`: all
  entries were read with these keys. `Forest`, `Together`, `Lives`: several builders in one forest (C85, C86).
* `Covering`/`QueryFor`: the contract between summaries and queries.

Modelled code: `banyan/src/{util,query,index,tree,stream_builder}.rs`,
`banyan/src/forest/{mod,read,write,stream,index_iter}.rs`,
`banyan/src/store/{zstd_dag_cbor_seq,thread_local_zstd,mem_store,mem_cache,branch_cache}.rs`,
`banyan-utils/src/{tags,tag_index,lib}.rs`. Modelled in part: `banyan-utils/src/{dump,sqlite,ipfs}.rs` (the http client, sqlite itself and the renderer are parameters; the pubsub functions of `ipfs.rs` are represented by the messages that arrive). Not modelled: of `bin/cli.rs` what `Bench` does after `bench_build` (which is `build_tree` with other settings; it measures the time of iterations), the parsing of arguments, and progress messages, `prom.rs`,
`fill_ipld` and other ipld duplicates of modelled functions, `Display` code (except that of links), benches, examples.

## 4. Properties

* **C01 extend appends.** Model: `extend`, `extendAbove`, `extend0`, `extendBranch`, `fillNode`, `newBranch`, `extendLeaf`, `fill`. Proof: one Hoare-style lemma per function about the loaded tree (content of result ++ rest = content ++ input), induction over fuel/level/loop counters; then over histories.
* **C02 extend_unpacked appends.** Model: `extendUnpacked0`. Same technique.
* **C03 pack preserves content.** Model: `pack`, `treeFromRoots`, `simplifyRoots`, `roots0`, `collectFrom`. Proof: roots of a tree are a content prefix (invariant: level state -1 once an unsealed leaf was met); simplification keeps the concatenated content.
* **C04 pack packs.** Proof: invariant of the simplification loop (all roots but the last sealed, levels descending, the last one packed).
* **C05 extend keeps packed trees packed.** Part of the lemma for `extend` (packed in, packed out).
* **C06 extend never aborts.** False in general: an unpacked tree can make `extend` hit its assertions (concrete witness proved). Partial theorem: on packed trees the only errors are store/codec errors or cipher offset exhaustion, never a panic, never out of fuel.
* **C07 get agrees with the content.** Model: `get0`. Proof: induction over the loaded tree.
* **C08 collect_from is a suffix.** Model: `collect0`. Induction over the loaded tree.
* **C09 filtered iteration is exact.** Model: the stack machine `TreeIter` step by step. Proof: simulation between the stack and the list of pending chunks; the chunk list of a loaded tree is specified recursively; soundness of pruning from the query contract and summaries.
* **C10 chunks cover the tree without holes.** From the recursive chunk specification.
* **C11 reverse chunks mirror forward chunks.** Simulation for the backward mode; the backward chunk list is the reverse of the forward one.
* **C12 reverse element iteration is the reversal.** False in general (order inside a chunk stays ascending; witness). Partial: equality when chunks are reversed individually.
* **C13 query combinators are sound.** Model: the combinators on bool lists. Proof: pointwise.
* **C14 offset range queries are exact.** Model: `Bound`, `lt`, `intersects`, `OffsetRangeQuery`. Proof: case analysis with arithmetic.
* **C15 snapshots are immutable.** Store-monotonicity of every operation plus determinism of reads on a stored tree.
* **C16 retain keeps what matches.** Model: `retain0` with its shared level counter. Proof: induction over the loaded tree.
* **C17 retain purges packed non-matching leaves only.** Same induction, plus an effectiveness lemma for packed trees.
* **C18 pack works after retain.** Relational proof between the level counters of `retain0` and `roots0`.
* **C19 repair makes the tree readable.** Damage (`Damaged`): any blocks are missing, what is there is right, the branch cache may be warm. Induction over the loaded tree gives the loaded tree after the repair and the position-wise relation to the old one; reading it back uses the generic read lemmas with the cache condition `Sane`. False for stores that return wrong bytes: the content of leaf blocks is not looked at (witness).
* **C20 repair leaves intact trees alone.** Induction over the loaded tree. The silent case (no report, no change) holds in every state, by a frame argument.
* **C21 keystream bytes are never reused by a builder.** Ghost log of all blocks handed to `put`; invariant: ranges are disjoint and below the offset.
* **C22 keystream bytes are never reused across reloads.** False after failed or rolled back operations (witness). Partial theorem for all histories with any number of reloads (`Careful`: any operations, failures, repairs and changes of the configuration) in which no builder is re-created from a root that was written before a failed or rolled back operation. Invariant: the block of a branch root ends where the cipher offset is (`InStep`), kept by every successful operation.
* **C23 encryption round-trips.** Model: `intoEncrypted`, `decrypt`. Direct proof.
* **C24 transactions roll back.** Model: `StreamTransaction` as a state machine with commit/drop.
* **C25 failed operations do not change the tree.** False for `pack` (witness); proved for the other operations.
* **C26 reload by link.** Model: `createIndexFromLink`. False for a root that is a bare leaf (produced by `pack`, witness); proved for branch roots: content, filtered elements, chunks and indexes (`Props/Loaded.lean`; `Query.Same` says that the query does not look at the two fields of the root that are computed anew).
* **C27 built trees satisfy the library's own invariants.** Model: `checkInvariants0` returning messages. Induction over the loaded tree. Repaired trees: the nodes that are still there keep their node invariant, purged ones are skipped by the checker.
* **C28 count is the number of appended elements.** Corollary of the content theorems.
* **C29 streaming growing trees delivers once and in order.** Model: `streamTreesChunked` over a list of trees with the shared offset. Induction over the list of trees.
* **C30 reverse streaming delivers once and in descending chunks.** Partially false (the boundary element is delivered twice after an error, witness). Proved for error free reads.
* **C31 streams report errors.** False: errors are dropped (witness).
* **C32 iterators stop after an error.** Proved for element/chunk iterators; false for index iterators (witness: error is yielded forever).
* **C33 index iteration is complete.** Model: the stack machine `IndexIter`. Simulation proof.
* **C34 the memory store returns what was put.** Model: `MemStore` as a block store with a size limit. Statements about sequences of calls (`Call`, `Answer`); a refused re-put of a stored block is a proved witness (`C34_again`).
* **C35 the block cache is transparent.** Model: `MemCache` over any block store and any cache, as steps of interleaved threads (`Task`, `Threads`). Invariant: the cache holds only blocks of the store, unless `offer` was called with wrong data (`C35_offer_unchecked`).
* **C36 the branch cache is transparent.** Two runs of an operation from states that differ in the branch cache only (both caches `Exact`: every entry was read with these keys) are compared step by step (`CacheIndependent`); operations keep the cache exact (`C36_kept`), whatever happens in between (`Used`).
* **C37 leaves respect the configured limits.** Model: `fill`. Induction over the input.
* **C38 branches respect the configured limits.** Model: `newBranch`, `extendBranch`, `branchSealed`. Invariant over histories.
* **C39 block accessors agree.** Model: `fromIter`, `items`, `select`, `get`, `count` on byte sequences. Induction.
* **C40 all links are visible without keys.** Model: `scrapeLinks`. Invariant: the link section of each stored block lists exactly the links in the indexes of the children or in the values (`LinksOf`).
* **C41 left roots are prefixes.** Model: `leftRoots0`. Induction over the loaded tree.
* **C42 the graph dump is the tree.** Model: `dumpGraph0`. Induction.
* **C43 tag table round-trip.** Model: `TagIndex` on sorted tag sets. Induction.
* **C44 tag table queries are exact.** Model: `matching`, `mapToIndexSet`.
* **C45 normal form preserves meaning.** Model: `Expression`, `Dnf`. Induction over expressions; evaluation semantics.
* **C46 simplification preserves meaning.** Model: `simplify`. Induction.
* **C47 normal form is unique.** False (witness): only one redundant term is removed per insertion. Partial: irredundant normal forms are unique.
* **C48 tag queries on trees are exact.** False (two witnesses). Partial theorem when the query tags are in the table and tag sets are non-empty.
* **C49 range intersection has no false negatives.** Case analysis.
* **C50 size accounting is exact.** Invariant over histories; fails for key_bytes after retain (documented todo in the code).
* **C51 shape is determined by the content.** `PTree.shape` (levels, counts, sealed flags) of the loaded tree equals an explicit function of configuration and number of elements (`Config.fullShape`), at the smallest level with room, for all histories of extend calls (`Extended`, failing calls included); hypothesis `LimitedByCount`: every sealed leaf is full. Induction over loaded trees, with the root being minimal as part of the specification of extend. Without the hypothesis: a full subtree has a fixed number of leaves, so the list of leaves (`PTree.leafSizes`) determines the shape (`C51_same_leaves`). The leaves themselves depend on the calls if they are limited by compressed size (`C51_calls_matter`): the size is compared with the target before the compressor has finished, but once more at the end of a call.
* **C52 everything written can be read back.** False for large branches (16 MiB decompression limit, witness); conditional theorem.
* **C53 packed subtrees are shared.** extend and extend_unpacked: every sealed node of the loaded tree (index with link, and all below) is a node of the new loaded tree. pack: every node of every packed part (`PackedPart`: sealed subtrees that start the tree, next to each other, levels not rising) is.
* **C54 threaded streaming is equivalent.** Model: `Threaded`, a transition system of consumer, background task, channel and outside world (`Actor`, `Threaded.step`). `C54_schedules`: without any assumption about the world, an execution that ends has delivered what direct streaming delivers in some sequence of worlds seen by the background tasks. `C54_same_chunks`: while the blocks are available, every execution delivers a prefix of one fixed sequence, which starts with the chunks of direct streaming and goes on with chunks without elements. `C54_progress`: bound for the number of turns, and no deadlock.
* **C55 stream cut-off.** Model: `takeUntilCondition` (flat_map/take_while/filter_map). Induction.
* **C56 compact sequences round-trip.** The contract of `CompactSeq` and the instances `VecSeq`, `UnitSeq`, banyan-utils `KeySeq`.
* **C57 block envelope round-trips.** `Model/Cbor.lean`: DAG-CBOR byte by byte. Round trip by induction over items.
* **C58 repaired trees stay usable.** False (witnesses: panic on extend after an unsealed leaf is lost; silent shift and duplication on pack of an unpacked tree after a sealed branch is lost, without any warning in the report). Partial: a repair of a packed tree that gives up sealed nodes only is a step of the reachable states (`Reach.repair`), so all theorems about reachable states apply after it. This needs a branch cache without lost branches, e.g. that of a restarted process. For repaired trees that are not packed, `pack_any_spec` (pack without the invariant on the places of purged nodes) gives what remains true of `pack`: the number of elements, a suffix that is kept and complete, or the refusal because of purged data.
* **C59 pack of a packed tree is a no-op.** False (witness). Partial: no-op on sealed roots; content and packedness kept.
* **C60 valid configurations make progress.** False for max_leaf_count = 0 (accepted by `validate`, witness). Proved with max_leaf_count > 0.
* **C61 writing operations never abort.** Corollary of the lemmas about the writing operations: the error of a failing run is one of a listed kind.
* **C62 damaged stores never yield wrong data.** Relation `Faulty` between a store with holes and the intact store; relational proof, function by function (`Robust`): on the damaged store an operation fails or does the same as on the intact one.
* **C63 index wire format round-trips.** Derived encoders and decoders as maps with named fields; `C63_env` shows that the codec part of `Env.Lawful` holds for them.
* **C64 link scraping is exact.** The visitor as a recursive function over items; inductive specification `LinkIn`, `BadLinkIn`.
* **C65 tag sequences survive the wire format.** Codecs of `TagIndex` and `KeySeq`. False for malformed data: column lengths are not checked (witness).
* **C66 reading needs only the blocks it looks into.** Specification `PTree.needs` (nodes selected by the bits of a query), `wayTo`, `tailFrom`; `SameBlocks`: another store has the same blocks for these nodes. The invariant of the iterator asks only for the blocks of needed nodes that are still to come. For index iteration `PTree.visited` gives the branches that are opened. For streams `EachFor` (`Props/PartialStream.lean`) says that from each arriving tree the blocks selected by the query and by the offsets behind the trees before are available.
* **C67 trees can be reopened with another configuration.** `ReachIn P sec cfg s`: states reachable with configurations that satisfy P; well-formedness of trees does not mention the configuration, the limits (`Within`) are an additional invariant of `Steady`. Loading from a link gives the same nodes; only the root is sealed again according to the new limits. False for pack (witness: a lowered max_uncompressed_leaf_size makes pack fail with `single item too large`); the invariant checker complains about old branches (witness).
* **C68 the invariant checker finds everything.** Specification `Violates` (what is wrong with one node). The messages of the checker are the messages of all nodes in pre-order, for arbitrary trees that are `Stored` (no well-formedness).
* **C69 summaries of tagged keys are tight.** Specification: order `Within` of keys and least upper bounds `IsBound`.
* **C70 packed trees are shallow.** Specification: `Config.leastCount` (product of the branch limits), `Nat.log2`. Proof: node invariant that sealed nodes have at least that many elements (also purged ones), and the builder invariant that roots above level 1 have two children.
* **C71 writing operations write nothing in vain.** Ghost log of all blocks handed to put (St.puts). Specification: PTree.blocks, the blocks of the nodes of the loaded tree, children before parents. Theorem: the new part of the log is a sublist of it, with a bound on its length. Proof: an inductive relation between an index and the blocks written for it, kept by every writing function. For pack a concrete witness shows that it is false; C71_pack bounds the number of blocks it writes by what roots lists and by the elements behind (tree_from_roots writes one block per round of its loop, then the bound of extend).
* **C72 trees replicate by published links.** Model of the two commands of the CLI (`Model/Pubsub.lean`); the transport is described by what can arrive: any published links in any order, any number of times (`Received`). Sent trees are prefixes of the final content; receiving is an instance of the theorems about streams (C29, C31), which now cover trees loaded by a link. Links of bare leaves are skipped by the receiver; the next published link is that of a branch (C72_next).
* **C73 retain and repair are idempotent.** By induction on the recursion of `retain0` and `repair0`: what comes back is a node at which the function does nothing, in every later state (`Calm`, `Sound` in `Proofs/Again.lean`); a branch that was written again loads back as what was written. No invariant of trees is needed, except for `C73_retain_all`. `Query.Implies` and `Query.Blind` (`Spec/Again.lean`) say what is required of the second query.
* **C74 the index can be used without the values.** `Outlined` (`Spec/Tree.lean`) says that the branches of a loaded tree can be read with a key for the index; the lemmas about index iteration, packedness, roots, left roots and graphs need only this instead of `Stored`. `retain0_specW` (`Proofs/Retain.lean`) is generic in what is known about leaves (`Holding`). That the key of the values is not used is an equation between the two programs (`C74_retain`, `C74_load`). The example drops all leaf blocks, retains with a foreign key, puts the leaf blocks back and reads with the right keys.
* **C75 links survive their text form.** Model: `Model/Text.lean`: base32 bit by bit, the search for `/ipfs/`, `parseCid`, `parseDigest`, `displayDigest`; base58 and the other multibase encodings are parameters without assumptions. Proof: groups of five bits, padding, groups of eight bits; both directions (round trip and canonicity).
* **C76 different passwords give different keys.** False: only the first 32 bytes count, and missing bytes are zeros (`C76_refuted`). `C76_keys` says exactly when two passwords give the same key; partial theorem: passwords of at most 32 bytes that do not end with a zero byte.
* **C77 repair reports exactly what it gives up.** `Spec/Report.lean` defines the nodes that can be found in a tree with lost blocks and the report for them, without the level counter of the code. The traversal of `repair0` is shown to produce this report by induction over the tree; the level counter is related to the unsealed nodes seen before. Hypothesis: none of the blocks written by the repair is one of the lost ones. The warnings about an unpacked part are not complete in the sense that pack can refuse or misplace elements without a warning (`C58_refuted_pack`, `C58_refuted_purged`).
* **C78 shipped stores return what was stored.** Model: `Model/Backends.lean`: `SqliteStore` over a database `BlockDb`, `IpfsStore` over a daemon with http replies (status and body) and foreign parsers, `Storage` of the tool. `Spec/Backends.lean` says what a lawful database and a lawful daemon do. Proof by induction over the calls with one invariant for all three (the first block for a link stays). Negation: `IpfsStore::get` does not look at the status of the reply, so for a missing block the text of the error is returned as data.
* **C79 the dump of a block shows its items.** Model: `Model/Dump.lean`: `dumpJson`, `dumpCbor` with the loops of `items` and `items_ipld`; printing of an item is a parameter. Proof: items of a block are self-delimiting, decryption with the key used for writing gives the compressed items. Negation: `DumpBlock` uses the key for values also for branches (concrete tree with two keys).
* **C80 dumps of trees show each node.** Model: `Model/Dump.lean`: `dump0` with the parts of the texts, `Tree.graph` with the lookup of the ends of the edges (panic if missing). `Spec/Dump.lean` defines the lines by recursion over the loaded tree with counts taken from the content. Induction over the tree; the graph follows from C42. C80_text states the text of a line by its fields, C80_drawn what the renderer is told about each node (names are injective, since decimal numbers are). Observation: the text for a purged leaf shows the number of value bytes with the label key_bytes.
* **C81 the commands of the tool do what they announce.** Model/Cli.lean: the commands as operations on the state of store and builder, with what they print as result. Proved by composition: load (C26, C67), the loop of batches by induction (C01, C02, C05, C06 for packed trees, C61), the assertion by the invariant that the checker is clean (C27), then the dump (C80); Forget with C14, C16, C17; Pack with C03, C04, C18; Repair from a damaged store with the facts behind C19 (loading gives the same index if the block of the root is there). Links of trees whose root is a leaf cannot be loaded (C26).
* **C82 the tool reads with the same passwords what it has written.** False: several commands ignore the passwords. Concrete.C82_refuted builds a tree with passwords, and prints it without but not with them. The true part, C82_read_back_partial, composes C81_build and C81_dump_values.
* **C83 commands that print elements print all of them or report an error.** Model: `Tool.stream`, `Tool.filter`, `Tool.dumpValues`, `Tool.printSome` in Model/Cli.lean. Intact stores: C09 and C26 for the elements, then the numbering; failures: every element delivered before an error is right (facts behind C62), and DumpValues passes the error on. Negation: Concrete.C83_refuted loses a block, Stream ends without an error after the elements before it.
* **C84 RecvStream prints what SendStream has sent.** C72 instantiated with the settings of the commands. The debug configuration allows leaves with more than 100 elements, so published links can be links of bare leaves, which the receiver skips; C72 covers this. Negation: with a password for values the sender encrypts with another key than the receiver uses (Concrete.C84_refuted).
* **C85 the streams of a forest do not disturb each other.** Model (`Spec/Forest.lean`): one store and cache, a root, offset and secrets per builder; `Together` interleaves operations. Coherence of the cache in all other theorems is weak: an entry may have been read with other keys, if it does not contradict what these keys read. Invariant: every entry was read with the keys of some builder. Result: what a builder sees is a `Run` of its own, so all theorems about single builders apply (`C85_runs`, `C85_reach`); C15 gives that trees of others stay the same (`C85_undisturbed`).
* **C86 no part of a key stream is used for two blocks of a forest.** False: builders with the same secrets all start at offset 0 with the same nonce (`Concrete.C86_reused`: two leaves whose encrypted difference is the difference of their plain texts). Partial: the blocks of one builder use disjoint parts, in all interleavings (C85 and C21).
* **C87 the block cache keeps small blocks only, and serves them without the inner store.** The model of C35 (threads with the single steps of each call). Invariant over all interleavings: everything in the cache and everything about to be inserted is small (`C87_small`). For the other direction `WeightCache` is assumed to keep what fits until the next put (`BlockCache.Keeping`, met by the LRU cache of Concrete/Lru.lean): `C87_served`. `Concrete.C87_limit` shows that the limit matters.
* **C88 threads that share a forest do not disturb each other.** Model (`Model/Prog.lean`): the reading operations once more as programs whose only effects are single accesses (load a branch through the cache: lookup, load, insert; load a leaf); run without other threads they are the operations of the rest of the model (`C88_programs`). `Spec/Prog.lean` lets other threads put blocks, look up branches and insert branches between any two accesses (`Prog.Runs`, `Consumes`). Proof: the result of a program that reads from the store only (`Prog.plain`) is kept by growing stores, and coherence of the cache is kept by all accesses; in the environment without a cache the theorems about single threads give the plain result. For writers: the store with blocks of others arriving before each own put satisfies all assumptions (`Env.busy`, `C88_writers`), so every theorem applies to it. The same for iterators over indexes (`Model/IndexProg.lean`, `Props/IndexThreads.lean`): a turn of the loop of `next` is a program (`C88_indexStep`), and a consumer among other threads gets the indexes it gets alone (`C88_indexes`).
* **C89 builders work at the same time in several threads.** Model (`Model/WProg.lean`): the writing operations once more as programs whose only effects are single accesses (load a branch through the cache, load a branch or a leaf from the store, put a block, reserve a part of the key stream, read or set the root); run without other threads they are the operations of the rest of the model (`C89_programs`). `Spec/WProg.lean` lets other threads act between any two accesses (`WProg.Runs`); `Spec/Pool.lean` is the small-step semantics of a pool of threads, in which any thread can make the next access, and `C89_pool` proves that to each thread the others are other threads in the sense of `WProg.Runs`. Proof: a program among other threads does what it does alone in the environment of the end (`Env.final`), in which the store is from the beginning as it will be at the end, the links of the blocks to be written are known in advance, and nothing is cached (`WProg.Runs.alone`); that environment satisfies the assumptions, so the theorems about single threads apply in it, and the trees are carried back. Executions (`Run`) contain operations among other threads (`Run.threaded`), so all theorems about reachable states hold for builders that have worked among other threads.
* **C90 appending needs only the right edge.** `Spec/Edge.lean`: the right edge of a loaded tree (`PTree.edge`), stores that answer puts alike (`Alike`), and a builder that has nothing but the right edge (`Edged`). `Proofs/Edge.lean` runs each writing function in two states side by side (`Both`: the same result, the same blocks written; the blocks known to be in both stores grow by what is written); the only loads are those in `extend0`. `C90_extend_joined`: in every store with the old blocks and those of the partial builder the content is the old one followed by the new elements (`Frugal`: a put adds nothing else to a store). `C90_extend` says that the builder ends in an `Edged` state again, so it applies to all later appends. `C90_needed`: in a concrete tree, appending fails without any one of the blocks of the edge.
* **C91 packing needs only the part that is not packed yet.** `Spec/Edge.lean`: the nodes outside of the packed sealed subtrees at the start (`PTree.loose`; these subtrees are `PTree.rootsOf`, see C92) and a builder that has nothing else (`Loosened`). `Proofs/PackEdge.lean`: `roots0` and `collect_from` read only such nodes, and `tree_from_roots` and `extend` run side by side in both states as for C90. `C91_pack` ends in an `Edged` state (C90). `C91_leaves`: the content is that of the packed sealed subtrees followed by that of the loose leaves, so no other leaf is among the blocks needed; `C91_packed`: for a packed tree these are the right edge. `C91_extendUnpacked` (`Proofs/Fresh.lean`): `extend_unpacked` leads to a `Loosened` state again, since all it adds is new; `C91_extend` (`Proofs/Grown.lean`): so does `extend`, on packed trees or not, since nothing changes except at the right edge, and everything there is new; `C91_history`: any sequence of operations (`Works`), and `C91_history_joined`: the content in a store with the blocks of the start and those of the writer. `C91_needed`: in a concrete tree, packing fails without any one of the other blocks.
* **C92 the roots are the packed beginning of a tree.** `roots` and `roots_impl` list the indexes of `PTree.rootsOf` (`roots_reads`, used for C03). `rootsOf_rest`: by induction over the loaded tree, the traversal goes on until it meets a leaf that is not sealed, because a branch that is not taken lowers the level by one only, and an invariant of reachable trees keeps purged nodes in front of that leaf. Each subtree is read like any other tree (`Sees`). Packed trees: C91_leaves and the limits of C37 for the leaf at the right edge. `C92_branches`: in another store with the blocks of the branches of `PTree.loose` the traversal gives the same roots (`roots0_partial`).
* **C93 garbage collection is safe, and purging frees space.** Executions (`ReachIn`) contain garbage collections (`ReachIn.collect`): all blocks that are not blocks of the tree can vanish or change, and the cache can be anything that agrees with the store. So all theorems about reachable states hold for builders whose store has been collected; the node invariants depend on nothing but the block of the node (`NodeInv.Rewrites.damage`, `Good.congr`). A collector that follows visible links keeps the blocks of the tree by C40. That nothing else is kept is the other direction of C40 (`C40_branch_exact`, `C40_leaf_exact`), by induction over `Found`. Doing the same as without collection: C91.
* **C94 who has only the branches purges and appends like who has everything.** C74_retain speaks about one call and what its result contains; here the root, the blocks written and errors are the same, over whole histories. `Branched`: another builder with the same root, whose store answers puts alike and has the blocks of the branches of the tree, and nothing need be said about any other block. The relational logic of C90 (`Both`: the same program in two states, same result, same puts, the blocks known to both stores grow) for `retain0` and its loop (`retain0_both`), with the invariant that the blocks of the branches below an index are known (`BranchesKnown`, which says nothing below leaves), gives `C94_retain` (same root, same puts, and again `Branched` for the new tree) and `C94_retain_fails`. `C94_retain_joined`: the blocks of the purged tree come from the old tree or from these puts, so C16 holds in every store with both. `C94_extendUnpacked`: below the new root there is the old tree, whose branches are known, and new blocks (`extendUnpacked_fresh`, from C91). `C94_history`, `C94_history_joined`: induction over sequences of successful calls of both. `C74_retain`: `retain` is the same function for every value key. `C94_needed`: concrete stores without a branch that is not purged as a whole, in which `retain` fails. Assumes as C90 that the other store answers puts alike (same links).
