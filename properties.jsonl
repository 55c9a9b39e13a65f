{"id": "C01", "title": "Adding a file and reading it back yields the same bytes", "statement": "Push any byte content, in any split, through the UnixFS file adder with any chunk size >= 1 and any branching factor >= 2, store every emitted block, then cat the root (last emitted) cid: the stream is exactly the pushed bytes, in order, with no error, and ends.", "quantifier": "every content of at most 2^54 bytes, every way of splitting it into push calls, every chunk size 1..2^30 and branching factor 2..2^27 (sizes that fit the format's 32 and 64 bit fields), every hash function with 32 byte digests, every block store answering with the emitted blocks", "why_tests_cant": "Tests fix a handful of lengths and chunkings; tree depth, the flush boundaries and the last partial chunk interact and only induction over the content length covers them all.", "anchors": ["unixfs/src/file/adder.rs: FileAdder::push, finish, flush_buffered_leaf, BalancedCollector::flush_links", "unixfs/src/file/visit.rs: IdleFileVisit::start, FileVisit::continue_walk", "unixfs/src/file/reader.rs", "src/unixfs/cat.rs: cat"]}
{"id": "C02", "title": "The root cid depends only on the content and the options", "statement": "Two adders with the same options fed the same total bytes, split differently over push calls (including empty pushes), emit the same blocks in the same order and hence the same root cid.", "quantifier": "every content, every pair of splits into push calls, every chunk size >= 1, every branching factor >= 1", "why_tests_cant": "There are exponentially many ways to split an input over calls; tests try a few step sizes.", "anchors": ["unixfs/src/file/adder.rs: FileAdder::push, Chunker::accept, finish"]}
{"id": "C03", "title": "Emitted file blocks form a closed DAG in bottom-up order", "statement": "Every block emitted while adding a file has the cid derived from its own bytes, every link in an emitted block points at a block emitted strictly earlier, and the very last block emitted (by finish, or by the last push when the content is exactly one chunk) is the root from which all others are reachable.", "quantifier": "every content of at most 2^54 bytes, split, chunk size 1..2^30 and branching factor 2..2^27", "why_tests_cant": "Order and closure must hold at every prefix of the emission for every tree shape.", "anchors": ["unixfs/src/file/adder.rs: push, finish, flush_links, render_and_hash"]}
{"id": "C04", "title": "Recorded file sizes and cumulative sizes are exact", "statement": "In every file tree produced by the adder, the file size recorded in each node equals the number of content bytes below it, the per-link block sizes sum to it, and the total size recorded on each link equals the sum of the encoded lengths of all blocks in the linked subtree.", "quantifier": "every content of at most 2^54 bytes, split, chunk size 1..2^30 and branching factor 2..2^27, every node of the resulting tree", "why_tests_cant": "A sum over an arbitrarily deep tree; off-by-one errors only show for specific lengths.", "anchors": ["unixfs/src/file/adder.rs: Link, flush_buffered_leaf, flush_links, partition_link"]}
{"id": "C05", "title": "File trees are balanced and bounded", "statement": "In the tree produced by the adder all leaves are at the same depth, every leaf but the last holds exactly chunk-size bytes and the last between 1 and chunk-size (or the tree is a single leaf), and every inner node has between 1 and branching-factor links with only the last node of each level possibly not full.", "quantifier": "every content of at most 2^54 bytes, split, chunk size 1..2^30 and branching factor 2..2^27", "why_tests_cant": "The shape invariant is about all levels of a tree of unbounded depth.", "anchors": ["unixfs/src/file/adder.rs: BalancedCollector::flush_links"]}
{"id": "C06", "title": "Each push makes progress and emits a bounded number of blocks", "statement": "A push of a non-empty slice consumes at least one byte and at most the slice, never more than what completes one chunk, and emits at most two blocks; the loop that pushes the unconsumed rest therefore always terminates with everything consumed.", "quantifier": "every adder state reachable by pushes, every input slice, every chunk size >= 1 and branching factor >= 1", "why_tests_cant": "Reachable states are unbounded; a stuck consumer appears only for particular buffered amounts.", "anchors": ["unixfs/src/file/adder.rs: FileAdder::push, Chunker::accept", "http/src/v0/root_files/add.rs: push_all"]}
{"id": "C07", "title": "Reading a byte range yields exactly that range", "statement": "cat with a range start..end over a file produced by the adder yields exactly the bytes of the file at positions start..min(end,len), and nothing when the range is outside of the file; blocks lying wholly outside of the range contribute no bytes.", "quantifier": "every content of at most 2^54 bytes, split, chunk size 1..2^30, branching factor 2..2^27, and every range, inverted ones included", "why_tests_cant": "All alignments of the range against all chunk and subtree boundaries.", "anchors": ["unixfs/src/file/visit.rs: to_pending, block_is_in_target_range, maybe_target_slice, target_slice", "src/lib.rs: Ipfs::cat_unixfs", "src/unixfs/cat.rs"]}
{"id": "C08", "title": "A file walk over arbitrary blocks never crashes and only delivers consistent ranges", "statement": "Whatever dag-pb blocks the network returns, visiting a file either fails with an error or delivers contents whose declared byte ranges are consecutive, each starting where the one before ended and the first at 0; it never panics.", "quantifier": "every map from cids to bytes (adversarial blocks), every starting block", "why_tests_cant": "The adversary chooses the blocks; tests include a few malformed samples.", "anchors": ["unixfs/src/file/reader.rs: FileReader::from_block, from_continued, Ending::check_is_suitable_next", "unixfs/src/file/visit.rs"]}
{"id": "C09", "title": "UnixFS and dag-pb messages survive encoding", "statement": "For every UnixFS node (type, data, file size, block sizes, hash type, fanout, mode, mtime, and links with hash, name and size) encoding to dag-pb bytes and decoding gives the same node back, and the size computed before writing equals the number of bytes written.", "quantifier": "every message with 64-bit numeric fields, names in UTF-8, and arbitrary byte strings and link lists shorter than 2^32 bytes when written", "why_tests_cant": "The message space is infinite; varint boundaries occur at every power of 128.", "anchors": ["unixfs/src/pb.rs: FlatUnixFs::write_message, try_from", "unixfs/src/pb/unixfs.rs: Data", "unixfs/src/pb/merkledag.rs: PBNode, PBLink"]}
{"id": "C10", "title": "Every path put into a directory tree resolves to its cid, and no other path does", "statement": "After any sequence of accepted put_link calls, building the tree and resolving each inserted path segment by segment from the root block over the emitted blocks reaches exactly the cid given; a name that was not inserted resolves to not-found.", "quantifier": "every accepted sequence of insertions of any paths, with or without wrapping directory, any hash function without collision on the emitted blocks, while total sizes fit 64 bits", "why_tests_cant": "The set of trees is unbounded in depth and width.", "anchors": ["unixfs/src/dir/builder/buffered.rs: put_link, build", "unixfs/src/dir/builder/iter.rs: PostOrderIterator::next_borrowed, render_directory", "unixfs/src/dir.rs: resolve"]}
{"id": "C11", "title": "Rejected insertions into a directory tree change nothing", "statement": "When put_link or set_metadata reports an error (duplicate path, a leaf used as directory, empty segment, rooted path, too many root entries) the tree under construction is exactly as before the call; in particular no stale intermediate directories appear in the built result.", "quantifier": "every reachable builder state, every path, every option", "why_tests_cant": "The source has a FIXME saying a stale-node case could not be ruled out; a test can only exhibit, not exclude it.", "anchors": ["unixfs/src/dir/builder/buffered.rs: put_link, set_metadata, modify_with (FIXME about stale nodes)"]}
{"id": "C12", "title": "Directory blocks are emitted children first with exact sizes and paths", "statement": "Building a tree emits one block per directory, every child directory before its parent and the root last; the reported path of each is the slash-joined chain of names from the root, the reported cid is derived from the reported block, and the reported total size is the length of the block plus the total sizes of its entries.", "quantifier": "every builder state reachable by insertions, while total sizes fit 64 bits", "why_tests_cant": "Path reconstruction is done incrementally on a shared string while walking an unbounded tree.", "anchors": ["unixfs/src/dir/builder/iter.rs: next_borrowed, update_full_path, partition_children_leaves, render_directory"]}
{"id": "C13", "title": "The built directory does not depend on insertion order", "statement": "Two permutations of the same accepted insertions build the same root cid and the same set of blocks; links inside every directory block are sorted by name.", "quantifier": "every list of insertions and every permutation of it that is accepted, while total sizes fit 64 bits", "why_tests_cant": "n! orders.", "anchors": ["unixfs/src/dir/builder/dir_builder.rs: DirBuilder", "unixfs/src/dir/builder/iter.rs: render_directory"]}
{"id": "C14", "title": "The directory block size limit is honoured", "statement": "With a block size limit configured, no emitted directory block is larger than the limit: a directory whose encoding exceeds it makes the build fail with an error, and the size computed before encoding is exactly the encoded length.", "quantifier": "every tree whose total sizes fit 64 bits, and every limit", "why_tests_cant": "Needs size arithmetic to agree with encoding for all inputs.", "anchors": ["unixfs/src/dir/builder/iter.rs: render_directory", "unixfs/src/dir/builder/custom_pb.rs: get_size, write_message"]}
{"id": "C15", "title": "Sharded directory lookup finds an entry exactly when it is there", "statement": "Looking a name up in a HAMT-sharded directory, feeding the requested bucket blocks, ends with the cid of that entry if some reachable bucket holds the name once, and with not-found only if no bucket reachable from the root holds it.", "quantifier": "every finite tree of supported buckets with well-formed names, every name to look for; for answers, any blocks whatever", "why_tests_cant": "Unbounded trees with arbitrary nesting.", "anchors": ["unixfs/src/dir/sharded_lookup.rs: ShardedLookup", "unixfs/src/dir.rs: resolve"]}
{"id": "C16", "title": "Walking a tree visits every entry once with its true path", "statement": "Walking the tree produced by the directory builder (whose leaves are files or symlinks) reports the root directory, every directory, file and symlink exactly once with the path it was inserted under, parents before children.", "quantifier": "every tree produced by the builder", "why_tests_cant": "Unbounded trees; the walker rebuilds paths by incremental push/pop on depth numbers.", "anchors": ["unixfs/src/walk.rs: Walker::next, convert_link, InnerEntry::set_path"]}
{"id": "C17", "title": "A symlink block carries its target exactly", "statement": "Serializing a symlink to any target and reading the block back gives a symlink node with exactly that target.", "quantifier": "every target string shorter than 2^31 bytes", "why_tests_cant": "Infinite strings; length-prefix boundaries.", "anchors": ["unixfs/src/symlink.rs: serialize_symlink_block", "unixfs/src/walk.rs: as_symlink"]}
{"id": "C18", "title": "Paths print and parse back to the same path", "statement": "Formatting any path obtained by parsing and parsing the text again yields an equal path.", "quantifier": "every input string accepted by the parser", "why_tests_cant": "All strings.", "anchors": ["src/path.rs: IpfsPath::from_str, Display"]}
{"id": "C19", "title": "Parsed and extended paths never contain empty segments", "statement": "A path obtained by parsing, and any path obtained from it by push_path, sub_path or shifting/truncating, contains only non-empty segments without '/', and the extension appends exactly the non-empty segments given, rejecting a string with an empty inner segment.", "quantifier": "every string, every sequence of extensions", "why_tests_cant": "Every string and every composition.", "anchors": ["src/path.rs: IpfsPath::push_path, push_str, sub_path, SlashedPath::push_split"]}
{"id": "C20", "title": "Path resolution equals a step-by-step walk and reports the right remainder", "statement": "Resolving a path over any stored DAG with links followed reaches the node obtained by taking the segments one at a time (map key, list index, named dag-pb link), crossing a link whenever one is met; on failure or when stopping at a link the reported remaining path is exactly the unconsumed suffix of the input.", "quantifier": "every stored DAG, every path, following links or not", "why_tests_cant": "Unbounded DAG depth and path length.", "anchors": ["src/dag.rs: IpldDag::resolve, resolve0, resolve_local, resolve_local_ipld, resolve_local_dagpb"]}
{"id": "C21", "title": "dag-cbor documents survive storing", "statement": "Encoding any IPLD document to dag-cbor and decoding gives an equal document.", "quantifier": "every finite document built of null, bool, integers in the 64-bit range, floats, bytes, strings, lists, maps and links", "why_tests_cant": "Recursive documents of any depth, every integer width boundary.", "anchors": ["src/ipld/dag_cbor.rs: WriteCbor, ReadCbor", "src/ipld/mod.rs: encode_ipld, decode_ipld"]}
{"id": "C22", "title": "dag-cbor encoding is canonical", "statement": "The encoding of a document depends only on its value: map keys are written shortest first then bytewise, integers and lengths use the shortest head, so equal documents encode to equal bytes and different documents to different bytes.", "quantifier": "every pair of documents", "why_tests_cant": "Injectivity over an infinite domain.", "anchors": ["src/ipld/dag_cbor.rs: write_u8..write_u64, WriteCbor for BTreeMap"]}
{"id": "C23", "title": "dag-pb documents survive conversion to and from IPLD", "statement": "A dag-pb node converted to an IPLD document and back, and to bytes and back, is unchanged; a document with missing or mistyped fields is rejected with an error.", "quantifier": "every dag-pb node whose fields are shorter than 2^32 bytes, every IPLD document", "why_tests_cant": "Infinite domain.", "anchors": ["src/ipld/dag_pb.rs: PbNode, TryFrom<&Ipld>"]}
{"id": "C24", "title": "Block validation accepts exactly authentic blocks of legal size", "statement": "validate(cid, data) succeeds if and only if data is at most 1 MiB and hashing it with the cid's hash function gives the cid's digest; put-then-decode of a document returns it.", "quantifier": "every cid and every byte string", "why_tests_cant": "All byte strings.", "anchors": ["src/ipld/mod.rs: validate, encode_ipld, decode_ipld"]}
{"id": "C25", "title": "The in-memory block store behaves as a map keyed by content hash", "statement": "For every history of put, get, contains, remove and list, the answers are those of a map keyed by multihash: get returns the bytes of the first put since the last removal, put answers new exactly when the key was absent, remove fails exactly when absent.", "quantifier": "every sequence of operations, including cids of different version and codec for the same hash", "why_tests_cant": "Unbounded histories.", "anchors": ["src/repo/mem.rs: MemBlockStore", "src/repo/mod.rs: RepoCid"]}
{"id": "C26", "title": "Concurrent puts of one block in the filesystem store never expose torn data", "statement": "Under every interleaving of any number of concurrent put, get, contains and remove tasks on the filesystem block store, a get that starts after a put of the block has answered returns exactly the bytes put, and among concurrent puts of an absent block exactly one answers new.", "quantifier": "every interleaving of any number of tasks", "why_tests_cant": "Schedules cannot be enumerated by tests.", "anchors": ["src/repo/fs/blocks.rs: FsBlockStore::put, get, write_through_tempfile, RemoveOnDrop, WriteCompletion"]}
{"id": "C27", "title": "A crash never makes the filesystem store return wrong bytes", "statement": "After a crash at any point of any put and a restart, get of a cid returns either nothing or the full bytes that hash to the cid, and a later put of the block succeeds in making it readable.", "quantifier": "every crash point in every history", "why_tests_cant": "Crash points between individual file operations cannot be hit by tests.", "anchors": ["src/repo/fs/blocks.rs: put (create_new then rename)"]}
{"id": "C28", "title": "Block and pin file names identify their cid", "statement": "The file name chosen for a pin determines its cid, and that for a block determines it up to the version (blocks are named by the version 1 form): listing returns exactly the cids stored, in that form, different cids get different files, and the shard directory is a function of the file name.", "quantifier": "every pair of cids", "why_tests_cant": "Injectivity over all cids.", "anchors": ["src/repo/fs/paths.rs: block_path, filestem_to_block_cid, pin_path, filestem_to_pin_cid, shard"]}
{"id": "C29", "title": "A pinned block cannot be removed", "statement": "remove_block fails and removes nothing if the block is pinned directly, recursively or indirectly at the time of the call; otherwise it removes exactly that block, and a pinned block present in the store stays readable through any history of removals.", "quantifier": "every history of pins, unpins, puts and removals", "why_tests_cant": "Unbounded histories; the check and the removal are separate steps so schedules matter.", "anchors": ["src/repo/mod.rs: Repo::remove_block", "src/lib.rs: Ipfs::remove_block"]}
{"id": "C30", "title": "The in-memory pin store tracks exactly the pinned blocks", "statement": "After any history of successful direct and recursive pin insertions and removals, a cid is reported pinned exactly when it is pinned directly, recursively, or is a descendant recorded for a currently recursively pinned root.", "quantifier": "every history of operations in which no block is pinned recursively under both of its cid versions, every DAG", "why_tests_cant": "Shared subtrees and overlapping roots in every order.", "anchors": ["src/repo/mem.rs: insert_pin, remove_pin, PinDocument::update, insert_recursive_pin, remove_recursive_pin, is_pinned"]}
{"id": "C31", "title": "The filesystem pin store tracks exactly the pinned blocks", "statement": "Same as for the in-memory store, over the files kept per pin: a cid is reported pinned exactly when it has a direct or recursive pin or is recorded under a currently recursively pinned root.", "quantifier": "every history of operations and every DAG", "why_tests_cant": "Shared subtrees and overlapping roots in every order.", "anchors": ["src/repo/fs/pinstore.rs: is_pinned, insert_direct_pin, insert_recursive_pin, remove_direct_pin, remove_recursive_pin"]}
{"id": "C32", "title": "The key-value pin store keeps blocks pinned while some root needs them", "statement": "Removing one recursive pin never unpins a block that is still a descendant of another recursively pinned root, and removing a direct pin never removes the protection given by a recursive root.", "quantifier": "every history of operations and every DAG", "why_tests_cant": "Shared subtrees and overlapping roots in every order.", "anchors": ["src/repo/kv.rs: insert_recursive_pin, remove_recursive_pin, remove_direct_pin, get_pinned_mode"]}
{"id": "C33", "title": "Listing and querying pins agree with is_pinned", "statement": "list_pins without filter reports exactly the pinned cids, once each, with the strongest mode (recursive over indirect over direct as documented); with a filter it reports exactly those matching; query_pins answers for exactly the requested cids with a kind consistent with the listing, and fails when one is not pinned as required.", "quantifier": "every reachable pin store state, every filter, every list of queried cids", "why_tests_cant": "State and query spaces are unbounded.", "anchors": ["src/repo/mem.rs: list, query", "src/repo/fs/pinstore.rs: list, query", "src/repo/kv.rs: list, query", "src/repo/mod.rs: PinStore, PinModeRequirement"]}
{"id": "C34", "title": "A failed pin operation leaves the pins unchanged", "statement": "When inserting or removing a pin returns an error, including when the stream of descendants fails midway, the observable pin state is what it was before.", "quantifier": "every reachable state, every operation, every failure position in the descendant stream", "why_tests_cant": "Failure positions are unbounded.", "anchors": ["src/repo/mem.rs: insert_recursive_pin, remove_recursive_pin", "src/repo/fs/pinstore.rs", "src/repo/kv.rs"]}
{"id": "C35", "title": "Storing a block wakes every waiter for it and nobody else", "statement": "When a block is stored, every get_block waiting for the same hash completes with that block and no other waiter is affected; each waiter completes at most once.", "quantifier": "every history and interleaving of waits, drops, polls and puts", "why_tests_cant": "Interleavings.", "anchors": ["src/subscription.rs: create_subscription, finish_subscription, SubscriptionFuture::poll", "src/repo/mod.rs: Repo::get_block, put_block"]}
{"id": "C36", "title": "The last dropped waiter cancels the network want exactly once", "statement": "When waiters for a block are dropped before completion, the network is told the block is no longer wanted exactly when the last remaining waiter goes, and never while another waiter is pending.", "quantifier": "every order of drops, polls, completions and new waits", "why_tests_cant": "All drop orders.", "anchors": ["src/subscription.rs: Drop for SubscriptionFuture, Subscription::cancel"]}
{"id": "C37", "title": "Shutdown cancels every waiter", "statement": "After the registry is shut down every pending waiter completes as cancelled and every later wait completes as cancelled immediately.", "quantifier": "every history before and after shutdown", "why_tests_cant": "All histories.", "anchors": ["src/subscription.rs: shutdown, create_subscription"]}
{"id": "C38", "title": "Listing references reports exactly the reachable links", "statement": "refs over any DAG without depth limit reports, for each given root, exactly the links of every node reachable from it; with unique set every destination is reported exactly once; it always terminates on a finite store.", "quantifier": "every finite block store, every list of roots", "why_tests_cant": "Arbitrary sharing and depth.", "anchors": ["src/refs.rs: iplds_refs_inner, ipld_links, dagpb_links"]}
{"id": "C39", "title": "The depth limit of refs is exact", "statement": "refs with max depth n reports exactly the links found in nodes at distance less than n from the roots; depth 0 reports nothing and depth 1 only the links of the roots.", "quantifier": "every store, roots and n", "why_tests_cant": "All depths.", "anchors": ["src/refs.rs: iplds_refs_inner (max_depth)", "http/src/v0/refs/options.rs: max_depth"]}
{"id": "C40", "title": "Both ends of a bitswap session agree on what is wanted", "statement": "After any sequence of wants and cancels at one peer, once all its messages are delivered, the wantlist the other side records equals the set of blocks currently wanted by the first.", "quantifier": "every sequence of want, cancel, send and deliver events", "why_tests_cant": "All interleavings of queueing and sending.", "anchors": ["bitswap/src/ledger.rs: Ledger::send, Message::want_block, cancel_block", "bitswap/src/behaviour.rs: inject_event, want_block, cancel_block"]}
{"id": "C41", "title": "Bitswap messages survive the wire", "statement": "Encoding a bitswap message and decoding it yields the same wants with priorities, cancels and blocks.", "quantifier": "every message whose cids are valid, whose blocks have the data of their cids under the hash functions known, and whose priorities fit 32 bits", "why_tests_cant": "Infinite domain.", "anchors": ["bitswap/src/ledger.rs: From<&Message> for Vec<u8>, TryFrom<&[u8]>"]}
{"id": "C42", "title": "A received bitswap block always matches its cid", "statement": "Whatever bytes a peer sends, every block in a successfully decoded message has a cid whose digest is the hash (or a prefix of the hash of the announced length) of exactly the received data.", "quantifier": "every byte string received", "why_tests_cant": "Adversarial bytes.", "anchors": ["bitswap/src/ledger.rs: TryFrom<&[u8]> for Message", "bitswap/src/prefix.rs: Prefix::to_cid"]}
{"id": "C43", "title": "A cid prefix survives encoding and rebuilds the cid", "statement": "Encoding the prefix of a cid and decoding yields the same prefix, and applying it to data that hashes to the cid's digest rebuilds exactly that cid.", "quantifier": "every cid with a codec the cid crate knows and a hash function of the table (sha2-256 and dag-pb in version 0), and all data", "why_tests_cant": "Infinite domain.", "anchors": ["bitswap/src/prefix.rs: Prefix::new, to_bytes, to_cid"]}
{"id": "C44", "title": "The bitswap session survives any connection history", "statement": "For every sequence of connections being opened and closed and messages arriving, including several simultaneous connections to one peer, handling a message from a connected peer never crashes and the peer's recorded wants are kept while at least one connection is open.", "quantifier": "every sequence of connection and message events consistent with the transport", "why_tests_cant": "Connection histories are unbounded.", "anchors": ["bitswap/src/behaviour.rs: inject_connection_established, inject_connection_closed, inject_event"]}
{"id": "C45", "title": "Reported connections are exactly the open ones", "statement": "After any history of connections established and closed, the reported connections and addresses of a peer are exactly those established and not yet closed, and a peer is listed exactly when it has one.", "quantifier": "every consistent history of connection events", "why_tests_cant": "Unbounded histories, several connections per peer.", "anchors": ["src/p2p/swarm.rs: SwarmApi::connections, connections_to, inject_connection_established, inject_connection_closed"]}
{"id": "C46", "title": "Every connect request is completed", "statement": "Once a dial for a peer has been answered by an established connection, a closed connection or a dial failure covering its addresses, every connect future created for it before has completed; no connect future is left without a pending dial.", "quantifier": "every history of connect calls and network events", "why_tests_cant": "Event interleavings.", "anchors": ["src/p2p/swarm.rs: connect, addresses_of_peer, inject_connection_established, inject_dial_failure"]}
{"id": "C47", "title": "Each topic has at most one live subscription and receives each message once", "statement": "For every history of subscribe, unsubscribe, stream drops and incoming messages, subscribe succeeds exactly when no subscription is registered for the topic, a message is delivered exactly once to each stream registered for one of its topics, and no internal assertion can fail.", "quantifier": "every history of events", "why_tests_cant": "Interleavings of drops and messages.", "anchors": ["src/p2p/pubsub.rs: subscribe, unsubscribe, poll"]}
{"id": "C48", "title": "Known pubsub peers are exactly those with a subscription", "statement": "After any history of peer subscribe and unsubscribe notices, subscribed_peers(topic) is exactly the set of peers whose last notice for the topic was a subscribe, and known_peers the set of those with at least one topic.", "quantifier": "every history of notices", "why_tests_cant": "Unbounded histories.", "anchors": ["src/p2p/pubsub.rs: poll (FloodsubEvent::Subscribed/Unsubscribed), known_peers, subscribed_peers"]}
{"id": "C49", "title": "Addresses with and without peer id convert losslessly", "statement": "Adding a peer id to an address without one and splitting it again gives back both; an address without a peer id is accepted as such exactly when it contains no p2p component; parsing an address with one keeps all other components except relay markers.", "quantifier": "every multiaddress", "why_tests_cant": "All component sequences.", "anchors": ["src/p2p/addr.rs: MultiaddrWithPeerId, MultiaddrWithoutPeerId, TryFrom"]}
{"id": "C50", "title": "Every request to listen is answered at most once with the address actually bound", "statement": "For every history of listen requests and bound-address notices, each accepted request is answered at most once, with an address that matches its request up to an ephemeral port or an unspecified ip, and afterwards that address can be removed; the internal ambiguity abort cannot happen.", "quantifier": "every history of requests and notices", "why_tests_cant": "Interleavings of concurrent requests.", "anchors": ["src/lib.rs: complete_listening_address_adding, start_add_listener_address", "src/p2p/addr.rs: could_be_bound_from_ephemeral, starts_unspecified"]}
{"id": "C51", "title": "The refs format string is substituted faithfully", "statement": "A format accepted by the refs endpoint renders each edge as the format text with every <src>, <dst> and <linkname> replaced and all other text unchanged; a format is rejected exactly when it has an unterminated or unknown tag.", "quantifier": "every format string and every edge", "why_tests_cant": "All strings.", "anchors": ["http/src/v0/refs/format.rs: parse_format, EdgeFormatter::format"]}
{"id": "C52", "title": "Refs query options are read unambiguously", "statement": "Each option given at most once is honoured regardless of the order of parameters, a repeated single-valued option is rejected, unknown ones are ignored, and all arg values are kept in order.", "quantifier": "every list of query parameters", "why_tests_cant": "All orders and repetitions.", "anchors": ["http/src/v0/refs/options.rs: TryFrom<&str> for RefsOptions"]}
{"id": "C53", "title": "The tar stream is well framed", "statement": "Every entry written by the get endpoint occupies a multiple of 512 bytes, long names are carried in full by the preceding long-name entry, and file contents are followed by exactly the padding needed, so a reader recovers the same sequence of paths and contents.", "quantifier": "every sequence of entries, every path and content length", "why_tests_cant": "All lengths modulo 512 and name lengths around 100.", "anchors": ["http/src/v0/root_files/tar_helper.rs: TarHelper::apply_file, pad, prepare_long_header, buffer_file_contents", "http/src/v0/root_files.rs: walk"]}
{"id": "C54", "title": "The add endpoint reports the true cumulative size", "statement": "For every uploaded file the size reported by the add endpoint, which is also recorded in the directory listing, is the total encoded size of all blocks of the file, and the final progress report equals the file length.", "quantifier": "every content and every split into body chunks", "why_tests_cant": "All lengths and splits.", "anchors": ["http/src/v0/root_files/add.rs: push_all, import_all, add_stream"]}
{"id": "C55", "title": "Recursive ipns resolution stops at a fixed point", "statement": "Recursive resolution of an ipns path over any finite set of dnslink records terminates; the result is an error or a path that resolves to itself or lies on a cycle of records, and a path that is already an ipld path is returned unchanged.", "quantifier": "every set of dnslink records and every path", "why_tests_cant": "All record graphs including cycles.", "anchors": ["src/lib.rs: Ipfs::resolve_ipns", "src/ipns/mod.rs: Ipns::resolve", "src/ipns/dnslink.rs: resolve"]}
{"id": "C56", "title": "Bitswap statistics add up", "statement": "The totals reported are the sums over all peers ever connected of the blocks and bytes counted for them, each received block is counted exactly once as new or duplicate, and totals never decrease, also across reconnects.", "quantifier": "every history of connections, sends and receives", "why_tests_cant": "Unbounded histories.", "anchors": ["bitswap/src/behaviour.rs: Stats, Bitswap::stats", "src/p2p/behaviour.rs: inject_event(BitswapEvent)"]}
{"id": "C57", "title": "Stored ipns records are returned until replaced or removed", "statement": "get_ipns of a peer returns the last path put for it that was not removed since, for every history of put, get and remove; other peers' records are unaffected.", "quantifier": "every history over any peers", "why_tests_cant": "Unbounded histories; the value passes through text formatting and parsing.", "anchors": ["src/repo/mod.rs: get_ipns, put_ipns, remove_ipns", "src/repo/mem.rs: MemDataStore columns"]}
{"id": "C58", "title": "A crash during a filesystem pin operation leaves it done or not done", "statement": "Interrupt any pin insertion or removal of the filesystem store after any of its disk steps, restart, and go on with any operations, crashing again any number of times: what is reported as pinned is always explained by the completed operations together with each interrupted one having happened entirely or not at all.", "quantifier": "every history of operations with a crash after any disk step of any of them, every DAG", "why_tests_cant": "Crash points multiply with history length; tests cannot stop between two system calls.", "anchors": ["src/repo/fs/pinstore.rs: insert_recursive_pin (temp file, rename, remove direct), remove_recursive_pin, is_pinned"]}
{"id": "C59", "title": "Bitswap reports everything in a message exactly once", "statement": "For every history, what the bitswap behaviour hands to its owner is, in order and without loss or repetition: one dial for the first request to connect to each peer, and for every message received its cancels, then its wants for what is not wanted here, then its blocks.", "quantifier": "every history of calls, connections, received messages and polls", "why_tests_cant": "Unbounded interleavings of messages from several peers with polls that take one action at a time.", "anchors": ["bitswap/src/behaviour.rs: connect, inject_event, poll"]}
{"id": "C60", "title": "A block queued for a connected peer is sent exactly once", "statement": "While a peer stays connected, the blocks in the messages handed out for it are exactly the blocks queued for it, each once and in order, whatever else happens in between.", "quantifier": "every history in which the peer stays connected, any number of other peers", "why_tests_cant": "Unbounded histories; a block passes through the channel, the ledger and the message.", "anchors": ["bitswap/src/behaviour.rs: send_block, poll", "bitswap/src/ledger.rs: Ledger::add_block, send"]}
{"id": "C61", "title": "Walking a tree with sharded directories reports every place once", "statement": "For every tree of files, symlinks, plain directories and sharded (HAMT) directories nested in any way, whose names are plain path components and whose blocks are available, the walker reports each directory, bucket, file and symlink exactly once, in the order of the links, at the path from the root (bucket prefixes removed), with every file's content complete, and then ends.", "quantifier": "every finite tree, every name given for the root, both build modes", "why_tests_cant": "Nesting and the order of buckets and entries are unbounded; the walker's state depends on what it visited last.", "anchors": ["unixfs/src/walk.rs: Walker::next, InnerEntry::as_bucket, set_path, convert_sharded_link"]}
{"id": "C62", "title": "A pubsub subscription over HTTP delivers every message and never just stops", "statement": "For every interleaving of requests, clients that go away, shovel tasks, node steps and published messages: the response to pubsub/sub is an uninterrupted part of the messages of its topic that the node handled, in that order; while a client listens it gets every one of them unless it falls more than 16 behind, which ends the response with an error; a request never panics, and the mutex of the subscriptions is always released.", "quantifier": "every interleaving of any number of requests, shovels, hang ups, timeouts and arrivals", "why_tests_cant": "The number of interleavings is unbounded, and the failures need a client to come back within the 50 ms after another has left, or between two polls of the node.", "anchors": ["http/src/v0/pubsub.rs: inner_subscribe, shovel", "src/p2p/pubsub.rs: subscribe, poll"]}
{"id": "C63", "title": "Publishing over HTTP takes topic and message byte by byte, and subscribing to the same argument finds them", "statement": "For every request to pubsub/pub: it is accepted just if it is well-formed (a query with the topic, percent-encoded UTF-8; the message as the next argument, or as the one non-empty file of a form of at most 100 kB); the topic and message published are then those of the request, byte by byte; and a client that subscribes with the same argument listens to that topic.", "quantifier": "every query text, header and form", "why_tests_cant": "The space of queries and forms is infinite; the two handlers decode their queries with different code.", "anchors": ["http/src/v0/pubsub.rs: publish_args, publish_args_inner, QueryAsRawPartsParser, TopicParameter"]}
{"id": "C64", "title": "A form is accepted just if it has exactly one value, and the value is taken whole", "statement": "For every multipart form and limit: try_only_named_multipart accepts it just if exactly one field has one of the names asked for, everything arrives and the value is within the limit; it then returns all bytes of the field in order; and each other outcome names the right reason.", "quantifier": "every form, however divided into fields and chunks, every limit", "why_tests_cant": "Fields and chunk boundaries are unbounded and chosen by the client.", "anchors": ["http/src/v0/support/body.rs: try_only_named_multipart"]}
{"id": "C65", "title": "A document encoded as dag-json is decoded to itself", "statement": "For every IPLD document: json_decode of json_encode is the document. And for every byte string, json_decode accepts it just if it is a JSON text, and gives the document the text stands for.", "quantifier": "every document of any size and depth, every byte string", "why_tests_cant": "Documents and texts are unbounded; the failures are single values (byte strings, integers beyond 64 bits, maps that look like links) and a depth no test uses.", "anchors": ["src/ipld/dag_json.rs: json_encode, json_decode, serialize, JSONVisitor"]}
{"id": "C66", "title": "A file added over HTTP is served back byte by byte by cat", "statement": "For every request to add that is answered without error, and as long as the blocks stay available: the request to cat for any file that was sent, by the cid in its line or by its path in the wrapping directory, in full or from any offset and with any length, is answered with exactly those bytes of the file.", "quantifier": "every form, chunk size and branching factor, every range, every way to percent-encode the query", "why_tests_cant": "Crosses parser, path resolution, directory and file readers; files, trees and ranges are unbounded.", "anchors": ["http/src/v0/root_files.rs: cat, cat_inner", "http/src/v0/root_files/add.rs", "src/unixfs/cat.rs", "src/dag.rs: resolve"]}
{"id": "C67", "title": "What is added over HTTP comes back from get as an archive of exactly that", "statement": "For every request to add with a wrapping directory that is answered without error, and as long as the blocks stay available: the request to get for the cid of the wrapping directory is answered with a tar archive that has each file with its content, each directory, and each directory on the way, exactly once and nothing else, at the path it was sent under below the name of the cid.", "quantifier": "every form, tree, chunk size and branching factor", "why_tests_cant": "Crosses form, importer, tree builder, walker and archive writer; trees and files are unbounded.", "anchors": ["http/src/v0/root_files.rs: get, get_inner, walk", "http/src/v0/root_files/add.rs", "http/src/v0/root_files/tar_helper.rs", "unixfs/src/walk.rs"]}
{"id": "C68", "title": "A block put over HTTP is returned byte by byte until it is removed", "statement": "For every history of requests to block/put, dag/put, block/get, block/stat and block/rm, with pinning and blocks arriving in between: a put that is well-formed stores its data and is answered with their cid and size; from then on block/get for any cid of that multihash answers with exactly these bytes until a block/rm names it while it is not pinned; every body of block/get has the hash asked for; block/rm removes all or, if an argument is not a cid, none of the unpinned blocks named, and reports for each argument what happened.", "quantifier": "every history, query text, form, hash function without collision on the data, pin store", "why_tests_cant": "Histories, queries and forms are unbounded; the failures need combinations of options, versions, codecs and pins.", "anchors": ["http/src/v0/block.rs", "http/src/v0/block/options.rs", "http/src/v0/dag.rs: put", "http/src/v0/support.rs: recover_as_message_response", "src/repo/mod.rs: put_block, get_block, remove_block"]}
{"id": "C69", "title": "What is pinned stays, with everything below it", "statement": "For every history of storing, pinning, unpinning and removing blocks, failed requests among them: a block is refused to be removed just if it is pinned directly or recursively or is below one pinned recursively, following the links of the documents; everything that is so required is in the repo with its data; a recursive pin succeeds just if everything below is there and can be read; and what is pinned can be unpinned.", "quantifier": "every history, every graph of blocks of any size and depth, cyclic ones included, every pin store", "why_tests_cant": "Graphs and histories are unbounded; the failures need several pins sharing blocks, or requests that fail in the middle of a walk.", "anchors": ["src/lib.rs: insert_pin, remove_pin", "src/refs.rs", "src/repo/mod.rs: remove_block, PinStore", "src/repo/mem.rs", "src/repo/fs/pinstore.rs", "src/repo/kv.rs"]}
{"id": "C70", "title": "What pin/ls says is what was pinned over HTTP, and it stays", "statement": "For every history of requests to pin/add, pin/rm and pin/ls, to block/put, dag/put, block/get, block/stat and block/rm, and blocks arriving in between: what the answers with success say is pinned is in the repo with its data, with everything below what was pinned recursively, is refused to be removed by block/rm, and nothing else is; pin/ls lists exactly this, once each, with its mode, or, when given cids, answers for each of them, in order, and names a root above it; pin/add and pin/rm succeed just if what they ask for is possible, and one that is refused has no effect; queries that are not well-formed are refused with the first thing that is wrong about them.", "quantifier": "every history, query text, graph of blocks, order in which the pins of one request are made", "why_tests_cant": "Histories, graphs and queries are unbounded; the failures need combinations of parameters, cids given twice, and requests that fail after part of their work.", "anchors": ["http/src/v0/pin.rs", "http/src/v0/pin/add.rs", "http/src/v0/support/option_parsing.rs", "src/lib.rs: insert_pin, remove_pin, list_pins, query_pins", "src/repo/mem.rs", "src/repo/fs/pinstore.rs"]}
{"id": "C71", "title": "dag/resolve and refs answer for where a path leads", "statement": "For every request: dag/resolve names the document in which the path ends and the rest of the path inside of it, so that both together lead to the same place again; refs answers, for every path, with the links of the document it leads to and of those below up to the depth asked for, each exactly once per occurrence and level by level, or with unique the first to every block, written in the form asked for, with an error in place of blocks that cannot be decoded; both follow names, and are refused for queries, formats and paths that are not well-formed; refs/local lists exactly the blocks stored.", "quantifier": "every query text, graph of blocks, set of names, depth and format", "why_tests_cant": "Graphs, paths, formats and queries are unbounded; the failures need local-resolve, sharded directories or unusual link names.", "anchors": ["http/src/v0/dag.rs: resolve, inner_resolve", "http/src/v0/refs.rs", "http/src/v0/refs/options.rs", "http/src/v0/refs/format.rs", "src/refs.rs", "src/dag.rs: resolve"]}
{"id": "C72", "title": "A request to the DHT is answered with the outcome of its own query", "statement": "For every history of requests to bootstrap, to find the closest peers, to find providers, to provide, to get and to put records, of queries nobody waits for, of reports by Kademlia about its queries and of callers that wait, poll or go away: nothing panics; a request waits as long as its own query runs, and after the last report about it gets exactly what that report says, once, whatever happens to other requests in between; callers get peers, values or a confirmation of the kind they asked for, or the message of the failure. Looking for a peer answers with known addresses first, and only blocks at hand are provided.", "quantifier": "every history, interleaving and number of requests, every outcome of queries", "why_tests_cant": "Needs real peers and timeouts to get most outcomes; the interleavings of queries, intermediate reports and dropped callers are unbounded.", "anchors": ["src/p2p/behaviour.rs: inject_event for KademliaEvent, bootstrap, get_closest_peers, get_providers, start_providing, dht_get, dht_put", "src/lib.rs: find_peer, get_providers, provide, get_closest_peers, dht_get, dht_put", "src/subscription.rs"]}
{"id": "C73", "title": "A block that a connected peer has arrives", "statement": "For any number of nodes and every interleaving of users asking for, putting and removing blocks, of the tasks of the nodes, of connections made and closed and of messages written, overtaking each other, lost or forged: if two nodes stay connected, no frame between them is lost or too long and the second keeps a block which it had before the first wanted it or before the first knew of the connection, then when nothing is left to do no request for the block at the first waits; if users and peers do nothing new, the nodes come to rest after a bounded number of events; every block answered by a request is what its cid says, whatever anybody sent; nothing connected peers send makes a release build panic.", "quantifier": "every number of nodes, history, interleaving, message and hash function", "why_tests_cant": "Needs several nodes and all interleavings of repo events, polls of the behaviour, lookups, deliveries and connections; forged messages need a peer that is not this implementation.", "anchors": ["src/repo/mod.rs: get_block, put_block", "src/subscription.rs", "src/lib.rs: IpfsFuture", "src/p2p/behaviour.rs: inject_event for BitswapEvent, want_block", "bitswap/src/behaviour.rs", "bitswap/src/ledger.rs", "bitswap/src/protocol.rs", "bitswap/src/prefix.rs"]}
{"id": "C74", "title": "The bootstrap list is what was configured, added and not removed, and the routing table follows it", "statement": "For every list of configured addresses and every history of requests to bootstrap/list, add, add/default, rm and rm/all: an address is on the list just if it was configured or added, or is a default that was restored, and was not removed since; the routing table is told to learn an address when it comes on the list and to forget the same address when it goes off it; a request makes just the change it asks for and is answered with the addresses concerned, all of those removed when everything is removed; what is listed can be given back to remove it; queries that ask for nothing are refused and change nothing.", "quantifier": "every history, query text, order in which the set is iterated, routing table and fate of a request", "why_tests_cant": "Histories and queries are unbounded, the set is iterated in any order, and the answers of the routing table depend on what else it learned.", "anchors": ["src/p2p/behaviour.rs: new, get_bootstrappers, add_bootstrapper, remove_bootstrapper, clear_bootstrappers, restore_bootstrappers", "http/src/v0/bootstrap.rs", "src/p2p/addr.rs", "src/config.rs"]}
{"id": "C75", "title": "What a client reads about peers and names is what the node knows", "statement": "For every request to dht/findpeer, dht/findprovs, dht/provide, dht/query, bitswap/wantlist, bitswap/stat, swarm/peers, swarm/addrs, swarm/addrs/local, swarm/connect, swarm/disconnect, id, resolve and dns, and everything the node may answer: the query is accepted just if its parameters are given at most once and parse; then a client that parses the body reads exactly the peers, cids, addresses, counters and paths the node told, providers up to the number asked for or 20; texts of peers and cids are read back as the same; errors are messages with the status 400 for queries and peer ids that are not well-formed, 501 for what is not implemented, else 500.", "quantifier": "every query text, answer of the node, set of records and parser of addresses", "why_tests_cant": "Answers of the network and queries are unbounded; tests have a handful of peers.", "anchors": ["http/src/v0/dht.rs", "http/src/v0/bitswap.rs", "http/src/v0/swarm.rs", "http/src/v0/id.rs", "http/src/v0/ipns.rs", "src/lib.rs: identity, resolve_ipns"]}
{"id": "C76", "title": "Every request reaches the handler of its name and no other", "statement": "For every method, path and behaviour of the handlers: a POST to /api/v0/ and a name of the API, maybe with one slash behind, runs exactly the handler of that name, and is answered with its reply, or if it rejects the request with the most urgent of its own reasons, as a status and a message; names that are not implemented, and for most of them everything below, are answered 501 without running anything; every other request is answered 404 with a plain text and runs nothing; each handler has one name, the routes do not overlap; version and shutdown answer as they should for every query.", "quantifier": "every path, method, outcome of handlers and set of reasons", "why_tests_cant": "Paths and combinations of rejections are unbounded, and a route added in front of another can take its requests, which a test of either of the routes alone does not show.", "anchors": ["http/src/v0.rs", "http/src/v0/support.rs: recover_as_message_response", "http/src/v0/version.rs"]}
{"id": "C77", "title": "The configuration that init makes is the one the daemon starts with", "statement": "For every key, number of bits, list of profiles, state of the disk and file that is there: init makes a file just if there is none, the bits are within 2048 to 16384 and at most one profile is named, and never changes one that is there; load of what was made gives the key pair whose peer id init reported, and the addresses of the profile, so that the daemon serves there; load of any file succeeds exactly if it is a configuration, with fields in any order and others besides, whose key is an RSA key with the peer id in the file; PEM texts are read however they are wrapped.", "quantifier": "every key, file content, profile list, number of bits and failure of the disk", "why_tests_cant": "Files, keys and wrappings are unbounded; tests generate a few keys and one configuration file.", "anchors": ["http/src/config.rs", "http/src/keys.proto", "http/src/main.rs"]}
{"id": "C78", "title": "An interrupted init can be repeated", "statement": "However making the configuration ends - the directory or the file cannot be made, the disk is full or the process is killed in the middle of writing - making it again succeeds or the daemon can be started with what was made.", "quantifier": "every point at which writing may end, every key and profile", "why_tests_cant": "Needs a crash or a full disk at each byte of the file.", "anchors": ["http/src/config.rs: init", "http/src/main.rs"]}
{"id": "C79", "title": "The background task handles every call once and in order, and never sleeps while there is something to do", "statement": "For every history of reports of the swarm, calls, events of the repo, spurious wake-ups and dropped callers, interleaved with the steps of the background task in any way: if the task sleeps and nobody woke it, no source has anything and the next one to have something wakes it; the calls handled, waiting and failed are the calls made, in order and each once, and no call fails while the task is there; the events of the repo are handled in order; left alone the task comes to rest, within a number of steps that is linear in what there is to do, and then all calls are answered; it ends just if it was asked to or all callers are gone, the first exit being the last call it handles; when it is gone it does nothing and calls fail at once.", "quantifier": "every history and interleaving, of any length", "why_tests_cant": "Lost wake-ups depend on the exact moment at which something arrives between two polls of a source; tests see one schedule of each run.", "anchors": ["src/lib.rs: IpfsFuture::poll, start, exit_daemon", "src/repo/mod.rs: RepoEvent"]}
{"id": "C80", "title": "A repository on disk is used by one node at a time", "statement": "For every number of nodes on the same path, in one process or several, and every order in which they are made, started, shared, dropped and killed: no two nodes are started and alive at once; starting one succeeds just if the directory is there, the stores can be made and no other node has the lock, which is reported as such; a start that fails changes nothing for the others; a node that ended leaves the lock free; only the node that uses the repository reads or writes its files.", "quantifier": "every set of nodes and every history", "why_tests_cant": "Needs several processes and all orders of their steps, and work that goes on when the node that asked for it has gone.", "anchors": ["src/repo/fs.rs: FsLock", "src/repo/mod.rs: LockError, Repo::init", "src/repo/fs/blocks.rs: spawn_blocking", "src/lib.rs: UninitializedIpfs"]}
{"id": "C81", "title": "Documents put into the node are found again along every path", "statement": "For every sequence of documents put with put_dag, each with any codec that can represent it: get_dag of the cid that was answered is the document; a path from it through keys of maps, indices of lists and links to other documents, over any number of documents, is answered with the value that is there, and, if no document is dag-pb, is answered with a value only if it leads there; different documents have different cids, and putting a document again stores nothing.", "quantifier": "every sequence of documents, codec, path and hash function without collisions among the blocks", "why_tests_cant": "Documents, graphs of links and paths are unbounded; encodings, cids, decoding and the walk all have to fit together.", "anchors": ["src/dag.rs: put, get, resolve, resolve0", "src/ipld/mod.rs", "src/ipld/dag_cbor.rs", "src/ipld/dag_json.rs", "src/ipld/dag_pb.rs", "src/lib.rs: put_dag, get_dag"]}
{"id": "C82", "title": "A subscriber over HTTP reads what was published, and the lists of peers and topics are right", "statement": "For every list of messages the body of pubsub/sub is read back, line by line and by the names of the fields, as exactly these messages with their sources, data, numbers and topics, whatever bytes and texts they have; wherever the connection cuts the body, the complete lines are the first messages and no complete message is missing; in every history of requests, messages, tasks and clients, a client reads only messages of its topic that reached the node, in the order the node handled them; pubsub/peers tells each peer whose last handled notice on the topic (on any topic, if none is named) is a subscription, once, and refuses a query with two topics; pubsub/ls tells each topic that is subscribed to, once.", "quantifier": "every list of messages, history, cut of the body and query", "why_tests_cant": "Newlines or quotes in topics, data that is no text, cuts at every byte and orders of notices and requests are unbounded.", "anchors": ["http/src/v0/pubsub.rs: preformat, PubsubHttpApiMessage, inner_peers, inner_ls", "src/lib.rs: IpfsEvent::PubsubPeers, IpfsEvent::PubsubSubscribed", "src/p2p/pubsub.rs: subscribed_peers, known_peers, subscribed_topics"]}
{"id": "C83", "title": "What was pinned on disk survives crashes and full disks, with everything below it", "statement": "For every history of puts, pins, unpins and removals, each of which may be ended by a crash after any of the changes it makes to the disk or by an error of writing: once a recursive pin went well and nobody asks to unpin it, the block and everything below it is there with the data it was put with and cannot be removed; the same holds for a direct pin and its block; it can always be told of each block whether it is pinned; and an interrupted request leaves the set of pinned blocks as it was before it or as it would be after it.", "quantifier": "every history, and every point at which each of its requests may end", "why_tests_cant": "Needs a crash between any two system calls of any request, and histories of requests after it.", "anchors": ["src/lib.rs: put_block, insert_pin, remove_pin, remove_block", "src/repo/mod.rs: put_block, remove_block", "src/repo/fs/blocks.rs: put, write_through_tempfile, remove", "src/repo/fs/pinstore.rs"]}
{"id": "C84", "title": "The two readers of dag-pb agree", "statement": "For all bytes: if the node reads a block as a dag-pb document (prost), the unixfs code reads it too (quick-protobuf), with the same links - cids, names and sizes, in the same order - and the same data, and the other way round; and what the unixfs code writes is read back by both as what it is.", "quantifier": "every byte string shorter than 4 GiB, every node that can be written", "why_tests_cant": "The two decoders differ in unknown fields, repeated fields, wire types and lengths; tests compare them on a few well-formed blocks.", "anchors": ["src/ipld/dag_pb.rs", "unixfs/src/pb/merkledag.rs", "unixfs/src/pb.rs"]}
{"id": "C85", "title": "A file that was added to disk and pinned is read for ever", "statement": "For every content, chunk size and number of links, and every history of requests before and after, each of which may be ended by a crash or a full disk: when the blocks of the file were put, its root can be pinned recursively, and as long as nobody asks to unpin it, reading the file or any range of it from the disk gives exactly its bytes, and no request removes any of its blocks.", "quantifier": "every content, way of cutting it into blocks, history and point at which a request ends", "why_tests_cant": "Chains the adder, the format of blocks, the walk along links, the pin files and the reader, with crashes at any point of unbounded histories.", "anchors": ["unixfs/src/file/adder.rs", "unixfs/src/file/visit.rs", "src/lib.rs: put_block, insert_pin, remove_block", "src/refs.rs", "src/repo/fs/blocks.rs", "src/repo/fs/pinstore.rs", "src/unixfs/cat.rs"]}
{"id": "C86", "title": "What was added over HTTP and pinned is served for ever", "statement": "For every form sent to add with a wrapping directory that was answered without error, and every history of requests before and after, each of which may be ended by a crash or a full disk: when the blocks were put on disk, the cid in the last line of the answer can be pinned recursively, and as long as nobody asks to unpin it, cat answers a request for each file, in full or any range, with exactly the bytes that were sent, get answers with an archive of exactly what was sent, and no request removes any of the blocks.", "quantifier": "every form, chunk size, number of links, history, point at which a request ends, file and range", "why_tests_cant": "Chains the form, the adder, the directory builder, the blocks, the pins, the resolver, the reader and the archive, with crashes at any point of unbounded histories.", "anchors": ["http/src/v0/root_files/add.rs", "http/src/v0/root_files.rs: cat, get", "unixfs/src/dir/builder", "unixfs/src/file/adder.rs", "src/lib.rs: put_block, insert_pin, remove_block", "src/repo/fs/blocks.rs", "src/repo/fs/pinstore.rs"]}
{"id": "C87", "title": "Each request to a node on disk does what it says and nothing else, also after crashes", "statement": "In every state that puts, pins, unpins and removals can leave behind, each of them ended by a crash or a full disk at any point: a put answers well, makes the block readable and changes no other block and no pin; a removal goes well iff the block is there and no pin keeps it, and removes that block alone; a recursive pin goes well iff the block and everything below it is there and can be read, and then keeps exactly these, and a direct pin iff the block is there and not pinned recursively, and then keeps it alone; an unpin goes well iff there is such a pin, and then it keeps nothing; no request touches the pin of another block or any block it does not name, and one that fails changes nothing. A request that is cut off leaves what pins keep as before or as after, and the blocks too, but for the one that was being put, which may be empty.", "quantifier": "every history, point at which each of its requests ended, and request", "why_tests_cant": "Files of pins and blocks that crashes leave behind add up to states no test sets up.", "anchors": ["src/lib.rs: put_block, insert_pin, remove_pin, remove_block", "src/repo/fs/pinstore.rs", "src/repo/fs/blocks.rs", "src/refs.rs"]}
{"id": "C88", "title": "A file that a connected peer has is read whole over the network", "statement": "Any number of nodes exchange blocks, anybody sends anything, and somebody reads a file, or a range of it, that was added somewhere, at a node that has any part of it or none. At every moment what was yielded is a prefix of what was asked for, the stream has no error and no panic, and when it ends it was all of it; only if the node stores the bytes of the root under another codec it refuses to start. If a peer had all blocks of the file before the node wanted them, the two stay connected, no frame between them is lost or too long and nobody sends cids that cannot be written, then in every state in which nothing is left to do the stream has ended, with all that was asked for; the reader goes on a bounded number of times.", "quantifier": "every file, chunk size, branching, range, interleaving of the reader with all nodes and the network, and content of foreign messages; hash functions with which no other data has the hash of a block in question", "why_tests_cant": "Blocks of a file come from other nodes in any order, with other requests for the same blocks in between; tests fetch a block or two between two nodes.", "anchors": ["src/unixfs/cat.rs: cat", "src/repo/mod.rs: get_block", "src/subscription.rs", "bitswap/src/behaviour.rs", "unixfs/src/file/visit.rs"]}
{"id": "C89", "title": "What was added at one node is served by another", "statement": "Everything that reads blocks - looking up names in sharded directories, resolving paths, getting documents, listing references, and the requests cat and get - gives over the network, if it ends, what it gives at a node that has the blocks, whatever anybody sends, unless the node has stored one of the blocks under another cid; and it goes on a bounded number of times. If a connected peer had the blocks before the node wanted them and the two are undisturbed, it ends. So, for every form that was added over HTTP at the peer with a wrapping directory, cat at the other node gives each file or range of it exactly as it was sent, and get an archive of exactly what was sent.", "quantifier": "every form, path, range, program that loads blocks, interleaving with all nodes and the network, and content of foreign messages; hash functions with which no other data has the hash of a block in question", "why_tests_cant": "Chains the adder, the directory builder, bitswap, the subscriptions, the resolver, the walker and the archive over an unbounded number of messages in any order.", "anchors": ["src/dag.rs: resolve0, resolve_hamt, get", "src/refs.rs: iplds_refs_inner", "src/unixfs/cat.rs", "http/src/v0/root_files.rs: cat, get", "src/repo/mod.rs: get_block", "bitswap/src/behaviour.rs"]}
{"id": "C90", "title": "What was read over the network is there afterwards, and can be read from there", "statement": "When something that reads blocks has ended at a node of the network, every block it loaded is in that node's own store, whatever else happened and happens there and elsewhere, until somebody removes it there. So the node gives the same result again with nobody connected: cat of a file added over HTTP elsewhere answers with the bytes that were sent, from the node's own store. And a third node connected to it alone, undisturbed, ends with the same result, also if the node the blocks came from has removed them and gone.", "quantifier": "every program that loads blocks, form, path, range, interleaving with all nodes and the network, and content of foreign messages; hash functions with which no other data has the hash of a block in question", "why_tests_cant": "The reader is woken after the block was stored, by a future that anything may happen to in between; tests do not remove, disconnect and read again in all orders.", "anchors": ["src/repo/mod.rs: get_block, put_block", "src/subscription.rs", "src/dag.rs", "src/unixfs/cat.rs", "bitswap/src/behaviour.rs"]}
{"id": "C91", "title": "What is pinned at a node of the network is downloaded and stays", "statement": "Any number of requests to pin go on side by side at a node of a network, each waiting for blocks that come from other nodes, with anything else going on in between. When a recursive pin is answered well, its root and everything below it has been downloaded: it is in the node's own store with the data of its cid. From then on, until it is unpinned, no request removes any of it, and the same goes for a direct pin - provided nobody removes the root between the moment it was loaded for the pin and the answer. If a connected peer had what is below the root, all of it can be read and the two are undisturbed, the walk ends, with the same pins as at a node that has everything. A request that is dropped while its walk waits lets go of the pins, and pins nothing but its root and the blocks below it that had come.", "quantifier": "every graph of blocks, number of requests, dropped or not, interleaving of them with all nodes and the network, and content of foreign messages; hash functions without collisions among the blocks in question, none of which the node stores under another cid", "why_tests_cant": "The pin waits for blocks one by one while other pins, removals and foreign messages come in; tests pin what is already there.", "anchors": ["src/lib.rs: insert_pin, remove_pin", "src/repo/mem.rs: insert_recursive_pin, insert_direct_pin", "src/repo/mod.rs: get_block, remove_block", "src/refs.rs", "bitswap/src/behaviour.rs"]}
{"id": "C92", "title": "What was added at one node and pinned at another is served there from then on", "statement": "For every form that was added over HTTP somewhere with a wrapping directory and answered without error: at a node that is connected, undisturbed, to one that has the blocks, a recursive pin of the cid in the last line of the answer goes well unless it is pinned already. Once it went well, and as long as it is not unpinned, whatever anybody asks and sends there and elsewhere, cat at that node answers for each file, in full or any range, with exactly the bytes that were sent, and get with an archive of exactly what was sent, from the node's own store - also when the node it came from has removed everything and gone - and no request removes any of the blocks.", "quantifier": "every form, chunk size, number of links, number of nodes, interleaving of requests and messages, file and range; hash functions without collisions among the blocks in question, none of which the node stores under another cid", "why_tests_cant": "Chains the form, the adder, the directory builder, bitswap, the walk, the pins, the resolver, the reader and the archive, over unbounded histories at several nodes.", "anchors": ["http/src/v0/root_files/add.rs", "http/src/v0/root_files.rs: cat, get", "unixfs/src/dir/builder", "unixfs/src/file/adder.rs", "src/lib.rs: insert_pin, remove_block", "src/repo/mem.rs", "src/refs.rs", "bitswap/src/behaviour.rs"]}
{"id": "C93", "title": "The file api tells where the daemon serves, and nothing when there is none", "statement": "Processes with the same IPFS_PATH initialise it, start daemons, serve, are asked to end and are killed, in any order and side by side. At most one of them serves at a time; another one that is started ends without changing anything. The file api, which clients look for, never tells an address at which no daemon listened. As long as a daemon serves the file tells its address, and a client that reads it gets the address and port the daemon listens at, also if the port was chosen by the system; when there is no process the file tells nothing. When there is none a daemon can always be started again.", "quantifier": "every history of processes, of crashes and failures of the disk, every configuration, address and port", "why_tests_cant": "Interleavings of several processes with crashes at every point; tests start one daemon and kill it.", "anchors": ["http/src/main.rs: main, serve", "http/src/config.rs", "src/repo/fs.rs: FsLock"]}
{"id": "C94", "title": "What a client reads about connections is what happened to them, and asking changes nothing", "statement": "After any history of connections made and closed, requests to connect, dials, pings and questions: swarm/peers lists exactly the peers with an open connection, each once with the address of such a connection and, if asked for, the latency; swarm/addrs lists exactly the peers that were connected or added and not given up since, each once, with the addresses known. Asking changes nothing: no connection, known peer, dial or request to connect is affected, and a request goes on as if nobody had asked.", "quantifier": "every consistent history of connection events and questions, every order in which sets are iterated", "why_tests_cant": "Whether a question disturbs a request to connect depends on its falling between the request and the dial; tests ask when nothing is going on.", "anchors": ["src/p2p/behaviour.rs: addrs, addresses_of_peer (derived), add_peer, remove_peer", "src/p2p/swarm.rs: connections, addresses_of_peer", "http/src/v0/swarm.rs: peers_query, addrs_query"]}
{"id": "C95", "title": "Getting any part of any tree gives an archive of exactly that part", "statement": "For every path that leads, name by name and through documents of any kind, to a file, a symlink or a directory, plain or in buckets, with whatever below it, get answers with an archive that has one entry for every place of that tree, in order, with its content, mode and time, below the name of its cid. For every form that was added over HTTP, with or without a wrapping directory: the cid in the line of a file gives an archive of that file alone, and each directory has a line whose cid gives an archive of exactly what was sent below it, each thing once; with a wrapping directory their paths give the same.", "quantifier": "every tree of blocks and combination of plain directories and directories in buckets, every path, form and directory of it; paths that can be written, sizes and times below 2^33", "why_tests_cant": "Combines resolution, the walk over any mix of layouts and the archive for every part of every tree; tests get a file and one small directory.", "anchors": ["http/src/v0/root_files.rs: get, walk", "http/src/v0/root_files/tar_helper.rs", "unixfs/src/walk.rs", "src/dag.rs: resolve", "http/src/v0/root_files/add.rs"]}
{"id": "C96", "title": "A request over HTTP that was given a timeout is over when it has elapsed", "statement": "For each request that takes a timeout - block/get, block/stat, dag/resolve, cat, get, refs and those of dht and bootstrap - and whenever the blocks it needs come, if ever: with a timeout it is over no later than the timeout says. If it would have been over in time without the timeout it is answered the same and at the same time, and else it fails with the error of the timeout at that moment and with nothing else. An answer that is over is the one given where all of the blocks are there at once, or that error.", "quantifier": "every request, timeout, and time at which each block or answer comes or does not come", "why_tests_cant": "Needs control over the moment at which each block comes; tests use a timeout of a second for a block that never comes.", "anchors": ["http/src/v0/support/timeout.rs: maybe_timeout", "http/src/v0/block.rs: get_query, stat_query", "http/src/v0/dag.rs: inner_resolve", "http/src/v0/root_files.rs: cat_inner, get_inner", "http/src/v0/refs.rs: refs_inner, refs_paths", "http/src/v0/dht.rs", "http/src/v0/bootstrap.rs", "http/src/v0/pin/add.rs"]}
{"id": "C97", "title": "What a client has received of an answer is its beginning, and it is complete only if it is all of it", "statement": "Blocks that a request needs come at any time, late or never, and loading one may fail at any time, also one that was loaded before. Whatever was received of the answer to cat, get or refs at any moment is a beginning of the answer that is given where all blocks are at hand. The answer ends as complete only after all of that, and else in an error that tells that a block could not be loaded, or that nothing was found or in time before anything was sent. dag/resolve answers as where all blocks are at hand, or with such an error, and a recursive pin is answered well only if everything below its root was loaded.", "quantifier": "every request, tree of blocks, and for every single load the time it takes and whether it fails", "why_tests_cant": "Needs a failure at each load of each request; tests load from a store that has everything or miss the first block.", "anchors": ["http/src/v0/root_files.rs: cat_inner, get_inner, walk", "src/unixfs/cat.rs", "src/refs.rs: iplds_refs_inner", "http/src/v0/refs.rs: refs_inner", "http/src/v0/dag.rs: inner_resolve", "src/dag.rs: resolve, resolve_hamt", "src/lib.rs: insert_pin"]}
