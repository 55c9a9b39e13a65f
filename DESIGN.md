# Formal model of rust-ipfs in Lean 4: design

`properties.jsonl` lists the properties (C01 and up). `MANIFEST.json` maps each of them to the exact
theorem names, with the status `proved` or `partial`. This file says what is modelled and how, what the
proofs rest on, and what was found to be wrong in the code.

## Layout

| Place | Contents |
|---|---|
| `lean/Verif/Base/` | byte-level libraries the repository uses: varints, UTF-8, protobuf, cids and their text forms, decimal numbers, maps |
| `lean/Verif/{Unixfs,Ipld,Ipfs,Repo,Bitswap,Net,Http}/` | the models. Every definition cites the file and lines of `/repo` it follows; the head of each file states the simplifications. `*Lemmas.lean` and a few named helper files there hold helper lemmas only |
| `lean/Verif/Spec/` | specifications shared by several property files |
| `lean/Verif/Props/` | the property theorems, named `C<nn>_…`. Each file begins with the small specification the theorems are stated in, then helper lemmas, then the theorems with examples beside them |
| `seeded/LOG.jsonl` | edits made to the models in a scratch copy, and which theorems failed |

Conventions:

* A theorem whose name ends in `_partial` proves the property under an extra hypothesis; the doc comment, the
  note in the manifest and the witness theorems next to it say what is missing.
* Where the code violates a property, the violation is itself a theorem: a concrete state or input together
  with what the model does on it (`C32_shared_descendant_lost`, `C26_torn_read`, …). The list is below.
* Beside each theorem is an `example` with a concrete state meeting its hypotheses. Such examples are tests and
  are not counted as theorems.
* Models are total computable functions. Loops become structural recursion, or recursion on fuel where the
  code may not terminate; theorems then say which fuel suffices, or that more fuel does not change the answer.
* A Rust panic is an explicit value (`panic`, `none` or `abort`), so that "never panics" is a statement.
* Concurrency: an `async` function or a critical section is an automaton. Its steps are what happens between
  two points where another task may run. The scheduler picks the next step freely, and theorems quantify over all
  schedules.

## Trusted base

* The kernel of Lean 4.33.0. Axioms used: at most `propext`, `Classical.choice` and `Quot.sound`; none of our own. No
  `sorry`, `admit`, `native_decide` or `bv_decide`. Concrete evaluations use `decide` or `decide +kernel`.
* The reading of the Rust code. The code was not run; the tie is the citation on every definition.
* Crates that are not in `/repo` are modelled from their documentation and from knowledge of their sources:
  * `quick_protobuf`, `prost` 0.9, `unsigned-varint`: wire formats (`Base/PbWire`, `Base/Prost`, `Base/Bytes`).
    `prost` cuts ten byte varints to 64 bits; unknown groups are refused in the model.
  * `cid` 0.5, `multihash` 0.11, `multibase`, `bs58`: byte and text formats (`Base/Cid`, `Base/CidText`, `Base/Radix`). Non-minimal
    varints inside a multihash are normalised in the model. The set of hash functions of `multihash` is a parameter.
  * `tar` 0.4: header layout, `set_path`, `set_link_name`, numbers, checksum (`Http/Tar`).
  * `libp2p` 0.43: the swarm calls behaviours in any order with any arguments (`Net/Swarm`); how it dials
    (`Net/Dial`); floodsub as a set of topics, a view of peers and a queue of anything (`Net/Pubsub`);
    `read_length_prefixed`/`write_length_prefixed` (`Bitswap/Message`). Messages between two bitswap nodes are delivered in order.
  * `multiaddr` as a list of components (`Ipfs/Addr`); `mpart-async` as a list of parts, `percent-encoding` (`Http/Add`);
    `humantime` and `url::form_urlencoded` as parameters (`Http/RefsOptions`); the DNS resolver as a function (`Ipfs/Ipns`).
  * `serde_json` is trusted to read back what it wrote (pin documents); its text format is modelled in `Base/Json` from its
    documentation and source as remembered (it is not in /repo), as is `base64` 0.13 in `Base/Base64`; the texts of floats are
    parameters; `sled` transactions are atomic.
  * `std`: `Path`/`PathBuf` components, push and pop; `usize::from_str`; `String` as UTF-8 bytes.
  * tokio/futures: a task runs until its next await, in any order; locks are fair to nobody.
  * POSIX: `create_new`, `write`, `rename`, `remove` are atomic, in program order; an open file survives its
    name being replaced. No reordering of disk writes by a crash.
* Hash functions are arbitrary parameters (of the right digest length). Where contents are looked up by hash the
  assumption is that no two different blocks among those produced collide, never global injectivity.
* Machine integers: sizes are `Nat`. Where wrap-around is reachable there is an explicit bound, and the overflow
  is a theorem of its own.
* Iteration order of a `HashMap` is arbitrary: either a parameter or the order of an association list on which no statement depends.

## What is modelled

| Source in `/repo` | Model |
|---|---|
| `unixfs/src/pb.rs`, `pb/merkledag.rs`, `pb/unixfs.rs` | `Unixfs/Pb` |
| `unixfs/src/file/adder.rs` | `Unixfs/Adder` |
| `unixfs/src/file/reader.rs`, `file/visit.rs`, `file.rs`, `src/unixfs/cat.rs` | `Unixfs/Reader` |
| `unixfs/src/dir.rs`, `dir/directory.rs`, `dir/sharded_lookup.rs` | `Unixfs/Dir` |
| `unixfs/src/dir/builder.rs`, `builder/buffered.rs`, `builder/dir_builder.rs` | `Unixfs/Builder` |
| `unixfs/src/dir/builder/iter.rs`, `builder/custom_pb.rs` | `Unixfs/TreeIter` |
| `unixfs/src/walk.rs` | `Unixfs/Walk` |
| `unixfs/src/symlink.rs` | `Unixfs/Symlink` |
| `src/path.rs` | `Ipfs/Path` |
| `src/dag.rs`, `unixfs/src/dagpb.rs` | `Ipfs/DagResolve`, `Ipld/Codec` (put) |
| `src/ipld/dag_cbor.rs`, `dag_pb.rs`, `mod.rs` | `Ipld/DagCbor`, `Ipld/DagPb`, `Ipld/Codec`, `Ipld/Ipld` |
| `src/refs.rs` | `Ipfs/Refs` |
| `src/ipns/*`, `resolve_ipns` of `src/lib.rs`, ipns part of `src/repo/mod.rs` | `Ipfs/Ipns` |
| `src/p2p/addr.rs` | `Ipfs/Addr` |
| listening addresses in `src/lib.rs` | `Ipfs/Listen` |
| `src/p2p/swarm.rs`; `addrs`, `add_peer`, `remove_peer` of `src/p2p/behaviour.rs` | `Net/Swarm`, `Net/Dial` |
| `src/p2p/pubsub.rs` | `Net/Pubsub` |
| `src/subscription.rs` | `Repo/Subs` |
| `put_block`, `get_block`, `remove_block` of `src/repo/mod.rs` | `Repo/GetBlock`, `Repo/RemoveBlock` |
| `src/repo/mem.rs` | `Repo/MemBlocks`, `Repo/MemPins` |
| `src/repo/fs/blocks.rs`, `fs/paths.rs`, `fs/pinstore.rs` | `Repo/FsBlocks`, `Repo/FsPaths`, `Repo/FsPins` |
| `src/repo/kv.rs` | `Repo/KvPins` |
| `bitswap/src/*` and the bitswap events of `src/p2p/behaviour.rs` | `Bitswap/*` |
| `http/src/v0/root_files/add.rs`, `tar_helper.rs`, `walk` of `root_files.rs` | `Http/Add`, `Http/Tar` |
| `http/src/v0/refs/format.rs`, `refs/options.rs` | `Http/RefsFormat`, `Http/RefsOptions` |
| `http/src/v0/pubsub.rs` `inner_subscribe`, `shovel` | `Http/PubsubSub` (any interleaving; mutex and broadcast channels as automata) |
| `http/src/v0/support/body.rs` `try_only_named_multipart` | `Http/OnlyField` (the form as the list of fields and chunks the parser yields, any of them broken) |
| `http/src/v0/pubsub.rs` `publish_args`, `publish_args_inner`, `QueryAsRawPartsParser`, `TopicParameter` | `Http/Publish` (query texts as bytes; content-type header absent, not a MIME type, or with its boundary) |
| serde_json 1.0 `Serializer`, `Deserializer::from_slice` for any value | `Base/Json` (compact writer; reader with escapes, surrogates, UTF-8 check, numbers as text, depth limit 127) |
| base64 0.13 `encode`, `decode` (standard alphabet) | `Base/Base64` |
| `src/ipld/dag_json.rs` | `Ipld/DagJson` (texts of floats are parameters) |
| `http/src/v0/root_files.rs` `cat`, `cat_inner`, `get`, `get_inner`, `walk` (queries with serde_urlencoded, from_utf8_lossy and durations as parameters) | `Http/Cat` |
| `http/src/v0/block.rs`, `block/options.rs`, `http/src/v0/dag.rs` `put`, `http/src/v0/support.rs` `recover_as_message_response` for their errors | `Http/Block` (hash functions and texts of library errors as parameters; requests one at a time; whether a block can be announced and whether a timeout elapses chosen by the environment) |
| `src/lib.rs` `insert_pin`, `remove_pin` with the walk of `src/refs.rs` and all three pin stores | `Ipfs/Pin` (requests do not overlap; one that waits for a block is one that fails there) |
| `http/src/v0/pin.rs`, `pin/add.rs` with `support/option_parsing.rs`, over all three pin stores and the block requests | `Http/Pin` (requests one at a time; the pins of one request in any order, stopping at the first that fails; texts of library errors as parameters) |
| `src/dag.rs` `resolve0` over blocks that carry their own cid | `Ipfs/DagStored` (the other models of paths, `Ipfs/DagResolve`, `Http/Cat` and what builds on them, name a block by the cid it is asked for with: that is the store on disk; `C20_memory` says when it is the store in memory as well) |
| `http/src/v0/dag.rs` `resolve`, `http/src/v0/refs.rs` | `Http/Refs` (paths of a request resolved one after another; texts of library errors as parameters) |
| `src/p2p/behaviour.rs` `inject_event` for `KademliaEvent`, the requests to the DHT, and the calls of `src/lib.rs` that wait for them | `Net/Kad` (`Kademlia` is the environment, its reports any that are possible; the registry of the behaviour is not shut down) |
| `src/repo/mod.rs`, `src/lib.rs`, `src/p2p/behaviour.rs` and `bitswap` together: nodes that exchange blocks | `Net/Exchange` (built of `Repo/Subs`, `Repo/MemBlocks` and `Bitswap/Behaviour`; frames on their way are bytes; the queries to Kademlia and dialling are left out) |
| `src/p2p/behaviour.rs` bootstrappers | `Net/Bootstrap` (the routing table of Kademlia is a parameter; the set is iterated in any order) |
| `http/src/v0/bootstrap.rs` | `Http/Bootstrap` (parser and texts of multiaddresses as parameters; requests are answered in time, too late or not at all as the environment likes) |
| `http/src/v0/dht.rs`, `bitswap.rs`, `swarm.rs`, `id.rs`, `ipns.rs` | `Http/Node` (what the node answers is a parameter; `format` of `id`, the DHT options of `resolve` and `verbose` of the DHT are parsed and ignored as in the code) |
| `http/src/v0.rs`, `support.rs` (`recover_as_message_response`), `version.rs` | `Http/Routes` (the combinators of `warp` are modelled with the part of the path that is left; the handlers are a parameter) |
| `http/src/config.rs`, `http/src/keys.proto`, decisions of `http/src/main.rs` | `Http/Config` (openssl and libp2p keys as parameters; the file system is one file and what the disk does) |
| `src/lib.rs` `IpfsFuture::poll`, `start`, `exit_daemon` as a task with its channels and wakers | `Ipfs/Task` (what is done about a message is a parameter) |
| `src/repo/fs.rs` `FsLock`, `src/repo/mod.rs` `Repo::init`, `LockError` | `Repo/Lock` (the lock of the operating system; handles of a `Repo` are counted) |
| `http/src/v0/pubsub.rs` lines of a response, `peers`, `ls` | `Http/PubsubHttp` (over the node of `Net/Pubsub`) |
| `src/lib.rs` `put_block`, `insert_pin`, `remove_pin`, `remove_block` with the stores on disk | `Ipfs/DiskNode` (the changes each request makes to the disk, which a crash may cut off; requests do not overlap; blocks that are not there are not fetched) |
| `src/unixfs/cat.rs` at a node of the network, `src/dag.rs` `resolve` without segments | `Net/Reader` (a reader that is polled in between anything that happens in `Net/Exchange`) |
| what loads blocks in `src/dag.rs`, `src/refs.rs`, `src/unixfs/cat.rs`, `http/src/v0/root_files.rs`, at a node of the network | `Net/Prog` (a program that calls `get_block`, polled in between anything that happens in `Net/Exchange`), `Net/Readers` (the programs) |
| `src/lib.rs` `insert_pin`, `remove_pin` with the pins in memory, at a node of the network | `Net/PinNet` (requests to pin wait for blocks side by side; a walk holds the lock of the pins; requests can be dropped; unpinning and removing are one step each) |
| `http/src/main.rs` `Options::Daemon` and `serve`, from the configuration to the end of the process | `Http/Daemon` (any number of processes with one `IPFS_PATH`, over `Repo/Lock`; writing the file `api` is two steps; ports are chosen by the environment) |
| `http/src/v0/support/timeout.rs` and its uses in `block.rs`, `dag.rs`, `root_files.rs`, `refs.rs`, `dht.rs`, `bootstrap.rs` | `Net/Timeout` (when blocks come is free and depends on when they were asked for; which part of a request is under its timeout; the paths of `refs` are resolved at the same time) |

Not modelled: parsing of the command line (`structopt`), logging, the
algorithm of Kademlia (what it reports is the environment of C72), mdns, ping and identify, transports and encryption, memory use, and
vector capacities. Timeouts are choices of the environment.
## Where the code differs from what one would expect

Each item is a theorem about the model (name in brackets) or is visible in the definition named.

Files, directories, walks
* A branching factor of 1 makes the adder loop for ever (`bf1_diverges`); a chunk size of 0 panics (`chunk0_panics`).
* Reading a file from hostile blocks can panic in four ways (C08 witnesses); the end of the last range need not be the size of the root.
* The directory builder's total of sizes overflows (`C12_overflow`). The walker panics on "." and on empty names
  (`C16_dot`, `C16_empty_name`), on some blocks from elsewhere (`C16_bad_part`, `C16_bad_name`), and on a
  bucket of a sharded directory that directly follows a plain directory (`C61_clash`). Buckets
  after a sharded root are reported with the cid of the root (`C61_bucket_cid`).
* Sharded lookup panics when a name cannot be cut after two bytes (`C15_panics`).

Paths, IPLD
* A version 0 cid written explicitly with a digest of another length does not print back (C18). `PartialEq` of paths is equality of a prefix.
* A sharded directory with several buckets is not counted in the remaining path (`C20_shard_miscounted`); empty `Data` at the end of a block panics (`C20_data`).
* dag-cbor: infinities, NaN, long strings, byte strings, lists and short links are written but not read back (C21). All NaN are the same
  bytes, 0.0 and -0.0 are not (C22). Trailing bytes are ignored, the last of duplicate keys wins.
* dag-pb: unknown fields of a document are dropped by put, `Tsize` wraps modulo 2^64 (C24); `Data` is written before `Links`.
* ipns: segments after a dnslink name are ignored (`C55_segments_lost`), an unusable first record hides later ones (`C55_first_only`),
  some stored paths cannot be read again (`C57_unreadable`, `C57_slash`). A cyclic name is returned as a success.
* refs: a dag-pb link named "/" panics (`C38_slash`); links to blocks that cannot be loaded are not reported; the largest depth limit overflows (`C39_max_limit`).

Repository
* Memory pins: a root pinned under both cid versions (`C30_v0_v1_fails`); a failing stream of descendants leaves half of a pin (C34).
* Key-value pins: shared descendants and descendants also pinned directly lose protection (C32). Filters of fs and kv differ from `is_pinned` (C33).
* Filesystem blocks: `put` may answer "existed" while the file is empty (`C26_torn_read`), a crash leaves an empty
  file that is never replaced (`C27_crash_leaves_empty`). Running writes are keyed by multihash, files by cid.
* Removing races pinning, and a block pinned under another cid of the same hash is removed (C29).
* Waiting for a block: lost wakeup between lookup and subscription (`C35_lost_wakeup`), other cid version (`C35_other_version`),
  cancel sent after the lock was released (`C36_race`), hidden last waiter (`C36_hidden`), creation during shutdown (`C37_race`).

Network
* Bitswap: a want cancelled before it was sent is sent (`C40_quick_cancel`), wants and cancels overtake (`C40_overtaken`), a second
  connection resets the ledger and closing one of two panics (`C44_reset`, `C44_second_connection`). A prefix may announce an empty digest (`C42_empty_digest`).
  Failed stores are not counted, bytes sent stay zero (`C56_failed_uncounted`, `C56_sent_data`). A failed dial is never retried (C59).
* Swarm: two connections with one address share an entry of the table (`C45_same_address`), disconnect ignores the peer
  (`C45_wrong_peer`); several ways a connect future is never completed (`C46_refused`, `C46_unhandled`, `C46_relay_address`).
* Pubsub: dropping an old stream unsubscribes the new one (`C47_stale_drop`), a repeated topic delivers twice (`C47_repeated`).
* Addresses: the relay marker is lost (`C49_relay`). Listening: ambiguous answers (`C50_ambiguous`), answer of another listener (`C50_wrong_listener`), panic on a shorter address (`C50_prefix`).

HTTP
* tar: contents are not compared with the declared size (`C53_injection`), panics for long paths with ".." (`C53_parent`, `C53_cut`), stale
  header bytes (`C53_stale`), no end-of-archive marker.
* add: a file of exactly one chunk makes the handler panic (`C54_accepted`).
* refs format: the index in an error counts from the previous tag (`C51_index`).
- **http/src/v0/pubsub.rs `shovel`**: after the timeout with no receivers `unsubscribed` stays true although the stream is still
  registered. If a client asks for the topic before the task has the mutex, subscribing again is refused and the `expect`
  panics; the entry stays in the table, so every later client gets a response on which nothing ever comes
  (`C62_shovel_refused`, `C62_deaf`, `C62_race_deaf`).
- **http/src/v0/pubsub.rs `inner_subscribe`**: between the end of a shovel and the next poll of the node the topic is still
  registered, and the `expect` of a new request for it panics (`C62_refused`, `C62_race_refused`).
- **http/src/v0/support/body.rs `try_only_named_multipart`**: a form with one value of the name asked for is refused for
  "multiple values" when any other field follows it, and accepted when that field precedes it (`C64_multiple`, `C64_trailing`).
- **http/src/v0/pubsub.rs**: `pubsub/pub` leaves '+' in the topic as it is while `pubsub/sub` reads it as a space, so with the
  same query argument the two use different topics (`C63_same_topic`). An empty message can be published in the query but
  not in the body (`C63_empty_message`).
- **src/ipld/dag_json.rs**: byte strings are written as lists of numbers and read back as lists (`C65_bytes`), infinities and
  NaN as null (`C65_not_finite`), integers outside of `i64`/`u64` come back as floats; a map whose only entry is `"/"` with a
  string is written like a link (`C65_link_lookalike`) and comes back as a link or not at all; documents of more than 127
  levels can be written but not read (`C65_deep`); anything may follow the JSON text (`C65_trailing`), since
  `Deserializer::end` is not called.
- **http/src/v0/root_files.rs** `cat_inner`: an offset without a length is not implemented (`C66_offset_only`); `start + len` is
  not checked: with a length such as `u64::MAX` a debug build panics and a release build answers with an empty, complete
  looking body (`C66_overflow`).
- **http/src/v0/root_files/add.rs**: with a wrapping directory, a file sent with an empty name gets a link with an empty name,
  while its line names it by its cid; no path reaches it (`C66_empty_name`).
- **http/src/v0/root_files/add.rs, unixfs/src/walk.rs**: add accepts segments that are a dot; `get` of the result then panics in a
  debug build and in a release build has files at other paths, even beside the root directory (`C67_dot`).
- **http/src/v0/block.rs** `rm_query`: `force` is documented as ignoring blocks that do not exist, but it hides every error: for a
  pinned block, which stays, the answer is that of a block that was removed (`C68_force`).
- **http/src/v0/block.rs, src/repo/mod.rs** `put_block`: if announcing a new block fails, the answer is an error although the block
  is stored (`C68_put_stores`).
- **http/src/v0/dag.rs** `put`: the data are stored under the codec asked for without being decoded (`C68_dag_put`).
- **unixfs/src/dir/builder**: the metadata given for directories (`set_metadata` of the tree builder) is stored and never rendered: `C13_metadata_ignored`.
- **src/repo/fs/pinstore.rs:87-91** `insert_recursive_pin` collects the descendants before it takes the lock, so that a block
  removed meanwhile is missing below a recursive pin that succeeds (`C69_overlap`); the in-memory store locks first.
- **src/repo/mem.rs** `insert_recursive_pin`, `remove_recursive_pin`: requests that fail change the pins; a direct pin is lost by a
  recursive pin and unpin both of which are answered with an error (`C69_memory_lost`).
- **src/lib.rs** `remove_pin`: the document is decoded even if it is only pinned directly, so blocks of unknown codecs cannot be
  unpinned with the default of `pin/rm` (`C69_unknown_codec`).
- **src/repo/kv.rs**: a block below two recursive pins can be removed once one of them is unpinned (`C69_kv_shared`).
- **http/src/v0/pin.rs** `ListRequest::try_from`: `stream` is set from the variable of "quiet", so that "stream=false" has no effect and
  "quiet=false" is answered with 501 (`C70_stream_ignored`).
- **http/src/v0/pin.rs**: `pin/ls` without a query is refused with 400 although no parameter is required (`C70_refused`).
- **http/src/v0/pin.rs**, **pin/add.rs**: `recursive` is false for `pin/add` and true for `pin/rm` if it is not given, so that a pin of a block
  of a codec that cannot be decoded is made but not removed by the same query (`C70_defaults`).
- **http/src/v0/pin/add.rs**: pins made before another one of the same request fails stay (`C70_partly`); with the in-memory store a cid
  given twice is pinned and answered with an error (`C70_twice`).
- **src/dag.rs**, **src/repo/mem.rs**: a path goes on with the cid of the block that was found, not the one asked for. The store in memory
  keeps blocks by multihash with the cid of the first put, so a directory whose bytes were put before as a raw block cannot be entered; on
  disk it can (`C20_alias`). `refs` and pins go on with the cid asked for.
- **http/src/v0/dag.rs**: `dag/resolve` with `local-resolve` answers with the root and what is left of the path after the first link, so
  the link that was taken is in neither part: `/a/b` and `/c/b` have the same answer, which names a path that may not exist
  (`C71_local_lost`).
- **http/src/v0/refs.rs**: a dag-pb link called "/" in a document that is named makes the request panic before a status is sent
  (`C71_slash`, from `C38_slash`).
- **src/p2p/behaviour.rs**: a query for the closest peers that times out is reported as "timed out while trying to get providers for the
  given key" (`Told.noClosest`, `C72_exact`).
- **bitswap/src/behaviour.rs, src/p2p/behaviour.rs**: a want for a block that is not there is looked up once and then forgotten; when the
  block comes later it is not sent, although the ledger has the want, and both sides are idle (`C73_too_late`).
- **bitswap/src/protocol.rs**: a block whose message is longer than 512 KiB is sent and dropped by the receiver without a word to either
  side (`C73_too_big`).
- **bitswap/src/prefix.rs**: a received v0 prefix with a digest length other than 32 makes a cid that nobody can read. Its `cancel` goes into the
  messages to all peers, which drop the whole message, wants included: one peer keeps a node from all others (`C73_poison`).
- **src/subscription.rs**: the assertion in `finish_subscription` fails in debug builds if a block is put, removed and put again before somebody
  who waited was polled (`C73_debug_panic`).
- **http/src/v0/refs.rs**: a path that ends in "Data" at a dag-pb block whose last field is an empty `Data` panics (`C71_refs_panics_met`, from `C20_data`).
- **src/p2p/behaviour.rs** `new`: Kademlia learns the configured bootstrap addresses with their `/p2p/...` part, but `remove_bootstrapper` and
  `clear_bootstrappers` tell it to forget them without: it never does (`C74_configured`). Configured addresses without that part are used but not
  listed (`C74_unlisted`).
- **src/p2p/behaviour.rs** `clear_bootstrappers`: answers only addresses for which Kademlia's `remove_address` returns something, so addresses taken
  off the list are left out of the answer (`C74_configured`, `C74_clear_silent`).
- **http/src/v0/swarm.rs** `disconnect_query` with src/lib.rs 1418: answers success also if there is no such connection, and looks only at the address,
  not at the peer (`Net/Swarm` `SwarmSt.disconnect`, `C45_disconnect_partial`). An address that does not parse is answered with 500 in `swarm`, with 400 in
  `bootstrap`.
- **http/src/v0/ipns.rs** `dns_query`: an empty `arg` is looked up as the empty name (example at `C75_dns_name`). `recursive` defaults to false, other than
  in go-ipfs.
- **http/src/v0/support.rs** `recover_as_message_response`: rejections it does not look for, such as a missing `content-type` or a body that is no form, are
  answered 500 "UNHANDLED REJECTION" although they are mistakes of the client (`C76_recover`); a request with another method than POST gets 404, not 405
  (`C76_unknown`).
- **http/src/config.rs** `init`: the file is created and then written, so that a full disk or a crash leaves a part of it, which neither `daemon` can load (it
  panics) nor `init` replaces (`C78_stuck`, `C78_full_false`). Several profiles are a panic although there is an error for it (`C77_refused`).
- **http/src/main.rs** `serve`: an address for the API that is not IPv4 and TCP is accepted by `load` and makes the daemon panic once the node has been
  started (`C77_daemon`).
- **src/lib.rs** `IpfsFuture::poll`: the swarm is polled until it has nothing before calls are looked at, so that a busy network keeps every call waiting,
  also the one to exit (`C79_starved`).
- **src/repo/fs**: blocking tasks that read and write files own no handle of the repository. If the request is cancelled and the node dropped, the lock is
  released while they run, and another node may start (`C80_outlives`).
- **src/repo/mod.rs** `Repo::init`: the lock file is opened in the directory of the repository before the stores make it, so that a node cannot be started on
  a path that does not exist (`C80_no_directory`); the message is "Failed to open repository lock file".
- **src/repo/fs/blocks.rs** `put`: the file of a block is created empty before its data is renamed onto it. A crash in between leaves an empty file that every
  later put takes for the block: it answers well and writes nothing, and the empty block can be pinned (`C83_torn`).
- **src/repo/fs/blocks.rs, pinstore.rs**: files of blocks are named by the cid as of version 1 and files of pins by the cid itself, so that a block pinned by its
  cid of version 0 is removed by the one of version 1 (`C83_alias`).
- **src/lib.rs** `insert_pin` documents that a crash leaves the pins inconsistent. With the store on disk it does not (`C83_atomic`, `C83_readable`).
- **unixfs/src/pb/merkledag.rs** does not look at the wire types of fields it knows. A block can be a file to `cat` that `refs`, recursive pins and `dag get`
  cannot decode (`C84_lenient`).
- **src/repo/fs/blocks.rs** A put that is cut off leaves an empty file. An empty block is a dag-pb document without links, so adding the file again and
  pinning it go well, and it cannot be read (`C85_torn`).
- **src/dag.rs** `into_unixfs_block` looks at the codec of the block that was found, and blocks are found by multihash. A node that has the bytes of
  the root of a file as a raw block refuses to read the file (`C88_alias`).
- **src/lib.rs** `insert_pin` loads the root before the pins are locked. A removal in between leaves a pin without its block (`C91_race`).
- **src/repo/mem.rs** A recursive pin holds the lock of the pins while it waits for blocks from the network. If a block never comes, no block can be
  removed and nothing can be pinned, unpinned or listed (`C91_locked`).
- **src/repo/mem.rs:238-244** A recursive pin that is dropped while it waits leaves its root and what had come pinned. This happens when a
  client goes away, and when another pin of the same request fails (`try_join_all` in http/src/v0/pin/add.rs). Nobody has been told that
  these blocks are pinned, and they cannot be removed. Unpinning the root frees them, but answers with an error (`C91_left`).
* The daemon handles no signal, so one that is ended with Ctrl-C or `kill` leaves the file `api` with the address it served at, and clients
  that look for a running daemon find one that is not there (`C93_killed`). One that is asked to end makes the file empty only after its
  server has ended and the lock of the repository may be free: a daemon started in between writes its address, which the first then
  removes (`C93_race`).
* `swarm/addrs` is not just a question. `Behaviour::addrs` calls `addresses_of_peer` of the whole behaviour, and that of `SwarmApi` gives the
  addresses of requests to connect out once, to be dialed. Asked between `swarm/connect` to a peer that was connected before and its
  dial, the answer lists the address, the dial fails for want of addresses, and the request is never answered (`C94_taken`, `C94_lost`).
  `SwarmApi` also keeps listing peers there that are not connected any more, until a ping to them times out (`C94_listed`).
* `get` of a well-formed directory in buckets in which an empty directory comes right before a bucket: the walker panics, and the client gets status 200 with an archive that breaks off there (`C95_clash`).
* A timeout bounds `cat`, `get` and `refs` only up to the status: with the first blocks at hand and any timeout, the rest of the answer takes as long as the next block does, or for ever (`C96_cat_late`, `C96_get_late`, `C96_refs_late`; the code has comments that say so). `pin/add` ignores a timeout (`C96_pin_ignored`).
* `refs` passes over a block that could not be loaded (`// TODO: yield error msg`): its line and everything below it are missing from an answer that ends as complete (`C97_refs_short`). A recursive pin does the same and is answered well without it (`C97_pin_short`). When the block is there later, unpinning the root ends in an error at it: the root is unpinned, but blocks after it stay pinned, and no unpin frees them (`C97_pin_stuck`) before the root is pinned again (`C97_pin_again`). `cat`, `get` and `dag/resolve` tell (`C97_cat`, `C97_get`, `C97_resolve`).

## Properties

Status, what is proved, and under which conditions. The theorem names are in `MANIFEST.json`.

| Property | Status | Remarks |
|---|---|---|
| C01 Adding a file and reading it back yields the same bytes | proved | Byte-level blocks; any split into pushes; any store containing the emitted blocks. Bounds: chunk 1..2^30, branching factor 2..2^27, content at most 2^54 bytes, so that all lengths fit the fields of the format. Branching factor 1 is accepted by the code and diverges (bf1_diverges), chunk size 0 panics (chunk0_panics). |
| C02 The root cid depends only on the content and the options | proved | For every two runs of pushes consuming the same bytes, empty and partly consumed pushes included; chunk >= 1, branching factor >= 1. |
| C03 Emitted file blocks form a closed DAG in bottom-up order | proved | Bounds: chunk 1..2^30, branching factor 2..2^27, content at most 2^54 bytes, so that all lengths fit the fields of the format. |
| C04 Recorded file sizes and cumulative sizes are exact | proved | FileDag decodes the blocks and states exact sizes for every node. Bounds: chunk 1..2^30, branching factor 2..2^27, content at most 2^54 bytes, so that all lengths fit the fields of the format. |
| C05 File trees are balanced and bounded | proved | Balance is by the type T d together with FileDag. Bounds: chunk 1..2^30, branching factor 2..2^27, content at most 2^54 bytes, so that all lengths fit the fields of the format. |
| C06 Each push makes progress and emits a bounded number of blocks | proved | Every state reachable by any pushes, chunk >= 1, branching factor >= 1. |
| C07 Reading a byte range yields exactly that range | proved | Every range, inverted ones included. Bounds: chunk 1..2^30, branching factor 2..2^27, content at most 2^54 bytes, so that all lengths fit the fields of the format. |
| C08 A file walk over arbitrary blocks never crashes and only delivers consistent ranges | partial | Consecutive declared ranges: proved for all blocks. "Never panics" is false of the code: the witnesses give a block for each of four panics; C08_panics_partial proves that without a range only two of them are possible. |
| C09 UnixFS and dag-pb messages survive encoding | proved | For messages whose byte strings and nested messages are shorter than 2^32 (the length prefix), names valid UTF-8. |
| C10 Every path put into a directory tree resolves to its cid, and no other path does | proved | For every history of calls, any hash of 32 bytes and any way to load the blocks that serves what was given; C10_serves: without collisions the blocks given are such a way. Arguments as the types of the code allow, sizes below 2^30 and totals below 2^64 (see C12_overflow). |
| C11 Rejected insertions into a directory tree change nothing | proved | For both operations and every history. C11_reasons is an equivalence between errors and reasons, C11_tree describes the tree by the accepted calls alone. |
| C12 Directory blocks are emitted children first with exact sizes and paths | proved | Totals below 2^64 are assumed; otherwise the sum panics or wraps (C12_overflow). Without a wrapping directory the root has no block. |
| C13 The built directory does not depend on insertion order | proved | Sorted links: in NodeFor of C12_nodes. Also for histories with rejected calls and with set_metadata, when the same calls were accepted. |
| C14 The directory block size limit is honoured | proved | Calling next again after the error panics when the parent is reached (C14_unfilled, C14_go_on). |
| C15 Sharded directory lookup finds an entry exactly when it is there | proved | The answers are right for any blocks whatever; the lookup ends with an answer in every finite tree of supported buckets. Names are non-empty. C15_panics: a name that cannot be cut after two bytes is a panic of the code. |
| C16 Walking a tree visits every entry once with its true path | partial | For every history of calls of the builder with leaves that are readable files or symlinks, with or without a wrapping directory and with any plain name for the root: the reports of all paths, each once, in the order parents first and then by name, files in segments that make up their content. False when a segment is "." (C16_dot: wrong path, or a panic when checked) or the path is empty (C16_empty_name: panic). C16_bad_part and C16_bad_name: blocks from elsewhere that make it panic. |
| C17 A symlink block carries its target exactly | proved | Targets below 2^31 bytes, any bytes and any contents of the buffer. |
| C18 Paths print and parse back to the same path | partial | Every accepted text whose root, if a version 0 cid, has a 32 byte digest; otherwise false (witness "bablree"). |
| C19 Parsed and extended paths never contain empty segments | proved | In full; Extends describes the accepted texts declaratively. |
| C20 Path resolution equals a step-by-step walk and reports the right remainder | partial | The node reached: in full, in both directions, with termination. The reported path: proved unless a sharded directory with several buckets was passed; there the code does not count the segment (witness C20_shard_miscounted). Over the store in memory documents are named, and decoded, by the cid they were stored with (C20_memory, C20_alias). |
| C21 dag-cbor documents survive storing | partial | Proved for every document the reader has limits for (finite floats, strings and links within the length limits of the reader, integers within 64 bits). False beyond: the witnesses give an infinity, NaN, long bytes and list, and short link that are written but not read back. |
| C22 dag-cbor encoding is canonical | partial | Key order and shortest heads in full. Injectivity for all documents without NaN (all NaN share one encoding, witness); equal bits give equal bytes, though 0.0 == -0.0 in Rust and they are encoded differently (witness). |
| C23 dag-pb documents survive conversion to and from IPLD | proved | Byte-level proto3 encoding. Byte lengths below 2^32, u64 sizes, UTF-8 names, cids that exist (Cid.Valid). Integers outside u64 are accepted for Tsize and taken modulo 2^64. |
| C24 Block validation accepts exactly authentic blocks of legal size | partial | validate: in full, with the hash functions as a parameter. put-then-decode: for raw bytes, documents within the limits of the dag-cbor reader and documents of dag-pb nodes; false for other dag-pb documents (witness); dag-json is a parameter assumed to round-trip. |
| C25 The in-memory block store behaves as a map keyed by content hash | proved | Every history; the specification looks the block up in the history itself. |
| C26 Concurrent puts of one block in the filesystem store never expose torn data | partial | False of the code: a put may answer "existed" while the file is still empty, and a get after it returns zero bytes (C26_torn_read); witnesses too for disk errors reported as "existed", a panic of a lagging waiter and a removal racing a put. Proved for any number of calls and every interleaving: at most/exactly one "new", a get after "new" returns the bytes, gets return nothing, zero bytes or all the bytes, no deadlock (also with removals, failures, dropped futures and crashes). |
| C27 A crash never makes the filesystem store return wrong bytes | partial | False of the code: a crash between create_new and rename leaves an empty file that get returns and put does not replace (witness). Proved: gets after crashes return nothing, zero bytes or all bytes; a block whose put answered "new" survives a crash; remove followed by put repairs a torn block. |
| C28 Block and pin file names identify their cid | proved | Byte-level: base32, base58, cid text and PathBuf operations. Blocks are named by the version 1 form, so a version 0 cid is listed as version 1; file name length limits are not modelled. |
| C29 A pinned block cannot be removed | partial | Proved for removals with nothing between the pin check and the removal and one cid per multihash. False otherwise (two witnesses). |
| C30 The in-memory pin store tracks exactly the pinned blocks | proved | For histories with complete descendant streams in which no root is pinned under both cid versions; C30_v0_v1_fails shows that restriction is needed. |
| C31 The filesystem pin store tracks exactly the pinned blocks | proved | Any history; file names are modelled as (cid, extension), see C28 for their injectivity. |
| C32 The key-value pin store keeps blocks pinned while some root needs them | partial | False of the code: the witnesses show a shared descendant and a descendant also pinned directly losing protection. Proved: soundness for all histories, completeness for histories whose roots do not share descendants. |
| C33 Listing and querying pins agree with is_pinned | partial | Memory: in full. Filesystem: exact characterisation, but the indirect filter also lists directly pinned blocks and the mode order differs (witnesses). Key-value: list in full relative to is_pinned; query never fails for unpinned blocks (witness). |
| C34 A failed pin operation leaves the pins unchanged | partial | Filesystem and key-value: in full. Memory: holds when the descendant stream completes; false when it fails midway (two witnesses), but then exactly the target and the descendants seen are pinned in addition, repeating the insertion repairs it, and removing what was seen takes it back. |
| C35 Storing a block wakes every waiter for it and nobody else | partial | The registry, for every schedule: finishing completes just the waiters of the kind, completions are not lost, a result comes only from a finish while waiting, at most once. get_block/put_block over the memory store: results are sound and a new block completes the waiters under its cid. False in full: a get that looks the block up before and subscribes after the put waits on (C35_lost_wakeup), and a waiter under another cid of the same hash is not completed (C35_other_version). |
| C36 The last dropped waiter cancels the network want exactly once | partial | Exact condition for an uninterrupted drop, and nothing but drops and shutdown sends the message. False in full: the message is sent after the lock is released (C36_race), and a completed waiter that was not polled hides the last pending one (C36_hidden). |
| C37 Shutdown cancels every waiter | partial | Every registered waiter is cancelled and woken, and from then on every poll of any waiter in every continuation gives cancelled, provided no creation was between reading the flag and taking the lock; without that it is false (C37_race). |
| C38 Listing references reports exactly the reachable links | partial | The stream is determined exactly, in order and with repetitions, for every graph; with unique exactly the first link to every destination, in the same order (C38_unique_order); termination without cycles, or with unique on any finite graph. Differs from the statement in that a link whose destination cannot be loaded or decoded is not reported, and that a dag-pb link named "/" is a panic (C38_slash). |
| C39 The depth limit of refs is exact | partial | Exact for every limit except the largest u64, where the code panics or stops after the first level (C39_max_limit); links to blocks that cannot be loaded are not reported. |
| C40 Both ends of a bitswap session agree on what is wanted | partial | Everything wanted is recorded with its priority, for all histories at both sides, with any other peers, once the messages are delivered in order (C40_recorded); nothing else is recorded if no want is cancelled before its message is handed out (C40_equal_partial). Otherwise false: C40_quick_cancel, C40_wanted_by_both, C40_overtaken. |
| C41 Bitswap messages survive the wire | proved | All well formed messages; C41_frame adds the length prefix and the size limit, above which a message is always refused. The flag "full" is not encoded; the code never sets it. |
| C42 A received bitswap block always matches its cid | proved | For arbitrary bytes and an arbitrary family of hash functions. C42_empty_digest: a prefix may announce a length of zero. |
| C43 A cid prefix survives encoding and rebuilds the cid | proved | For codecs of the cid crate and hash functions of the table; C43_rebuild is an equivalence. |
| C44 The bitswap session survives any connection history | partial | No panic with at most one connection per peer at a time; recorded wants change only by messages of the peer and its connections. False with several connections: a second one resets the record (C44_reset), closing one of two makes the next message panic (C44_second_connection). |
| C45 Reported connections are exactly the open ones | partial | reported addresses and listed peers are exact for every consistent history; roundtrip times and known peers as well; no panic without debug assertions. The table behind disconnect is exact only while no two open connections share an address (witness C45_same_address), and it ignores the peer asked for (C45_wrong_peer). |
| C46 Every connect request is completed | partial | every answer of a dial completes all futures it covers, with the right result. That no future is left without a dial is proved for runs where no dial is refused while an address is not being dialed, and fails otherwise (C46_refused, C46_unhandled, C46_relay_address, and C94_lost when the known addresses are asked for). |
| C47 Each topic has at most one live subscription and receives each message once | partial | every interleaving of calls, stream drops and reads, arrivals and rounds of poll. subscribe, unsubscribe, reads and the absence of failed assertions are exact. Delivery is once for every mention of the topic in a message, hence once for messages that do not repeat a topic (C47_repeated otherwise). A stream stays registered only if no other stream of the topic is dropped (C47_kept_partial; C47_stale_drop is the failure). Floodsub is abstract: its queue holds anything. |
| C48 Known pubsub peers are exactly those with a subscription | proved | every history of handled notices; after a poll without action all that arrived is handled. A peer that disconnects without a notice stays listed, as the statement says. |
| C49 Addresses with and without peer id convert losslessly | partial | For every sequence of components: acceptance and result of both conversions are characterised exactly, and the text of an address with a peer id is that of the plain address. The round trip needs an address without relay marker; C49_relay shows that the marker is lost, that an address through a relay is read as the address of the relay, and that a peer id before other components is moved to the end (or panics in debug builds). Texts of other components and the parser are those of the multiaddr crate. |
| C50 Every request to listen is answered at most once with the address actually bound | partial | Every history of requests, notices, removals and listeners that end, any iteration order of the map. At most one answer per request without conditions. C50_bound_partial needs that requests for any ip and reports of the same number of bytes have the same number of components, C50_no_abort_partial at most one port per requested address and no reported port 0; both hold for the ip/tcp addresses of the transport in use (tcp_distinct), and C50_ambiguous and C50_prefix show that they are needed. C50_wrong_listener: the notice of one listener can be taken as the answer to the request of another. |
| C51 The refs format string is substituted faithfully | proved | The formats accepted, what they render, and both kinds of rejection, in both directions. C51_index: the index in the message of an unterminated tag counts from the previous tag. |
| C52 Refs query options are read unambiguously | proved | The query is the list of keys and values that url::form_urlencoded makes; durations are read by an arbitrary function. |
| C53 The tar stream is well framed | partial | For every sequence of reports with plain paths, right sizes and sizes and times below 2^33, an independent reader of GNU tar finds the same entries (paths of any length, contents, modes, times, targets of links); for trees of the directory builder this is joined with C16. False otherwise: C53_injection (declared size not compared with the content: forged entries), C53_parent and C53_cut (panic for long paths with ".." or cut after ".."), C53_stale (time from 2^33 on spoils the next header). The tar crate is modelled after its source. |
| C54 The add endpoint reports the true cumulative size | partial | For every form of files and directories and every way of cutting the contents into pieces: whenever the request is answered without error, each file line carries the total bytes of all blocks of the file, the same number and cid are in the entry of the directory tree and (C54_listing) in the listing, the last report is the length, everything was stored, and (C54_read_back) following the path from the wrapping directory gives the content back. Not true of every file: C54_accepted shows that a file of exactly one chunk (262144 bytes) makes the handler panic, because the adder has nothing left to finish. C54_cumulative: the reports are running totals, not increments as the comment on the field says. |
| C55 Recursive ipns resolution stops at a fixed point | proved | Any answers of the resolver with finitely many different sets of records, for arbitrary byte strings; the records do not change during one resolution. Result and errors are characterised in both directions. C55_segments_lost: segments after a dnslink name are ignored. C55_first_only: an unusable first link hides later ones. |
| C56 Bitswap statistics add up | partial | Each received block is exactly once queued, with a task or dealt with; counters exist for exactly the peers ever connected and count what was dealt with; totals are the sums modulo 2^64 and never decrease below that. Differs in that a block that could not be stored is not counted (C56_failed_uncounted), and the bytes sent stay zero (C56_sent_data). |
| C57 Stored ipns records are returned until replaced or removed | partial | Every history of put, get, remove and wipe of the in-memory store, for paths with segments as parsing gives them and a root that is a valid cid, a peer id, or a name without slash that is no peer id. False otherwise: C57_unreadable, C57_slash. The filesystem and key-value stores answer "not implemented". |
| C58 A crash during a filesystem pin operation leaves it done or not done | proved | Crash granularity is one file creation, write, rename or removal; the rename is atomic; no reordering of disk steps. |
| C59 Bitswap reports everything in a message exactly once | proved | every history, from any state. The dial is made once per peer even if it fails: the set of peers asked for never shrinks. |
| C60 A block queued for a connected peer is sent exactly once | proved | every history while the peer stays connected; blocks for a peer that is not connected are dropped. |
| C61 Walking a tree with sharded directories reports every place once | partial | exact for every tree: what is reported and how the walk ends. The statement itself holds for trees in which no bucket directly follows a plain directory (C61_whole); otherwise the walk panics right there (C61_walk, witness C61_clash). Buckets between a sharded root and the first entry are reported with the root cid (C61_bucket_cid). |
| C62 A pubsub subscription over HTTP delivers every message and never just stops | partial | every interleaving. Responses are gap-free segments of their channel (C62_segment) which has only messages of the topic in order (C62_output); nothing is lost while the shovel is at work on the registered stream and no older stream of the topic is still to be dropped (C62_complete, C62_starts). The code does not meet the rest of the statement: a request panics when the notice of an older stream is pending (C62_refused, witness C62_race_refused), and a shovel that timed out panics when a client comes back in time (C62_shovel_refused), after which the topic is deaf for good (C62_deaf, witness C62_race_deaf). |
| C63 Publishing over HTTP takes topic and message byte by byte, and subscribing to the same argument finds them | partial | exact for every request: acceptance, topic and message (C63_publish), and every topic and message can be sent (C63_roundtrip). The last part of the statement holds just if the argument has no + (C63_same_topic): pub leaves it, sub turns it into a space. |
| C64 A form is accepted just if it has exactly one value, and the value is taken whole | partial | exact for every form. The code is stricter than the statement: the field must also be the last of the form (C64_accepts), any field after it is reported as multiple values (C64_multiple, witness C64_trailing). |
| C65 A document encoded as dag-json is decoded to itself | partial | exact for every document and every byte string, including the text format of serde_json. The code does not meet the statement: byte strings become lists of numbers (C65_bytes), floats that are not finite become null (C65_not_finite), integers beyond 64 bits become floats, maps that look like links become links or unreadable (C65_link_lookalike), more than 127 levels cannot be decoded (C65_deep); all other documents are read back (C65_exact). Anything may follow the JSON text (C65_trailing). How floats are written and read is a parameter. |
| C66 A file added over HTTP is served back byte by byte by cat | partial | proved for every file by its cid (C66_file) and by its path (C66_added) and every range that does not pass 2^64, through query, path, resolution and reader. The code does not meet the rest: an offset alone is not implemented (C66_offset_only), a range passing 2^64 panics or gives an empty body (C66_overflow), a file sent with an empty name has no path in the wrapping directory (C66_empty_name). Files of exactly one chunk are refused by add (C54). Sizes are assumed to fit as in C10 and C54. |
| C67 What is added over HTTP comes back from get as an archive of exactly that | partial | proved for every form whose paths can be written (PathsFit: no empty, . or .. segment, no NUL, and not cut at .. after 100 bytes) and files below 8 GiB. The code does not meet the statement for the other paths: add accepts them, but the archive ends with an error (C53_parent, C53_cut), and names that are a dot put files at other paths, even beside the root, or panic (C67_dot). Sizes are assumed to fit as in C10 and C54. |
| C68 A block put over HTTP is returned byte by byte until it is removed | partial | proved for every history (C68_integrity, C68_returned, C68_round_trip, C68_removed), with acceptance of every request exact. The code does not meet the last part of the statement: with force, what is answered for a pinned block, which stays, is what is answered for one that is removed (C68_force), and a put whose announcement fails is answered with an error although the block is stored (C68_put_stores). dag/put does not check that the data can be decoded (C68_dag_put). Requests are served one at a time; removals interleaved with pinning are in C29. |
| C69 What is pinned stays, with everything below it | partial | proved for the store on disk (C69_disk, C69_disk_answers) for every history of requests that do not overlap. For the in-memory store the same if everything below is there when something is pinned recursively (C69_memory, C69_memory_answers); whatever fails, what was pinned stays until it is asked to be unpinned (C69_memory_keeps), but a direct pin is lost by a recursive pin and unpin that both fail (C69_memory_lost). The key-value store does not meet the statement (C69_kv_shared, C32). With the store on disk a block removed during the walk of a pin is missing below it (C69_overlap). Blocks of unknown codecs cannot be unpinned recursively, the default over HTTP (C69_unknown_codec). No two cids in use have the same multihash. |
| C70 What pin/ls says is what was pinned over HTTP, and it stays | partial | proved for the store on disk (C70_disk, C70_disk_answers) for every history of requests served one at a time, and for the in-memory store if everything below what is asked to be pinned recursively is at hand (C70_memory, C70_memory_answers). A pin/add that fails may have pinned some of its cids (C70_partly), and fails in the in-memory store if a cid is given twice although it is pinned then (C70_twice). "stream" is read and ignored, "quiet" stands in for it (C70_stream_ignored). pin/add pins directly and pin/rm unpins recursively if nothing is said, which fails for blocks of codecs that cannot be decoded (C70_defaults). With the filter "indirect" the store on disk lists all that is below, also what is pinned itself, as C33. Queries of the same cid twice to the store on disk are left out (C33_fs_query_repeated). The key-value store is not covered (C69_kv_shared). No two cids in use have the same multihash. |
| C71 dag/resolve and refs answer for where a path leads | partial | proved for dag/resolve without local-resolve if no sharded directory of several buckets is passed (C71_resolve, C71_again; else the rest of the path is miscounted, C20), and for refs if no dag-pb link is called "/" (C71_refs, exact in lines and order, and C71_refs_answers). With local-resolve the answer is not a path to the same place (C71_resolve_local, witness C71_local_lost). A link called "/" is a panic without an answer (C71_slash). refs leaves out links to blocks that are not there. On disk refs/local lists cids as version 1 (C71_local_disk). |
| C72 A request to the DHT is answered with the outcome of its own query | proved | Kademlia is the environment: it reports about queries it has, of their kind, and only about bootstrapping more than once. A timeout of a query for the closest peers is told as one for providers (noClosest of the specification). |
| C73 A block that a connected peer has arrives | partial | proved for runs in which what peers send has cids that can be written and no block of the same multihash is stored under another cid (C73_arrives, C73_served), which C73_met meets. The nodes come to rest (C73_settles), and then nothing is left to do (C73_rests). Without the conditions it is false: a block that comes after the want is not sent (C73_too_late), frames over 512 KiB are dropped by the receiver and nobody is told (C73_too_big), and one peer can send a block with a cid that poisons the messages to all others (C73_poison). Every answer is authentic without these conditions (C73_authentic). Debug builds can panic (C73_debug_panic). |
| C74 The bootstrap list is what was configured, added and not removed, and the routing table follows it | partial | the list and the requests are exact for every history (C74_listed, C74_new, C74_request, C74_no_request, C74_list) and for what is added by requests the routing table follows it (C74_listed). The code does not meet the rest: configured addresses are learned with the part that names the peer and forgotten without, so the table keeps them (C74_configured), configured addresses that name no peer are not on the list (C74_unlisted), and removing everything answers only what the table says it knew (C74_answers, witness C74_clear_silent). The parser and the texts of addresses are parameters; C74_text_back assumes that they fit together. |
| C75 What a client reads about peers and names is what the node knows | proved | what the node answers to the handlers is a parameter of each request (the results of the calls modelled for C45, C55 and C72); the peers and cids it tells are as parsing gives them, and swarm/addrs gets each peer once. The text of a path that is answered is read by the parser of paths, which for cids that cannot be written (C57_unreadable) is not the same path. The parser and the texts of addresses are parameters. |
| C76 Every request reaches the handler of its name and no other | proved | the filters of warp are modelled as its documentation and source say; paths are those of requests, which begin with a slash (C76_unknown). Handlers are parameters; those that are modelled are in C43, C57 to C75. The names of arguments that are missing are written in the program and have nothing to escape. |
| C77 The configuration that init makes is the one the daemon starts with | proved | RSA keys, their DER and PKCS#8 forms and the parser and texts of addresses are parameters; LawfulKeys assumes that a key is read from its own DER text and the two kinds of addresses from their own texts. Values of fields that are ignored are read like any other, serde_json is more tolerant inside of them. Several profiles are a panic (C77_refused). |
| C78 An interrupted init can be repeated | partial | proved if the directory or the file could not be made, or everything was written (C78_partial). The code does not meet the rest: the file is created before it is written, and if writing is cut off anywhere, what is left is no configuration (C78_torn_file), the daemon panics, and init refuses to replace it for ever (C78_stuck, witness C78_full_false). |
| C79 The background task handles every call once and in order, and never sleeps while there is something to do | proved | what is done about a report, a call or an event is a parameter (it may give the swarm more to report). The task is not fair, and the property does not say it is: a swarm that always has something to report keeps calls, exit included, waiting (C79_starved). |
| C80 A repository on disk is used by one node at a time | partial | one node at a time is proved for every history (C80_one, C80_start, C80_released). That only this node touches the files is proved if no node is dropped while one of its blocking tasks runs (C80_partial); the code does not meet it without that, since blocking tasks do not keep the lock (C80_outlives). The file lock of the operating system is modelled, not its failures on network file systems. |
| C81 Documents put into the node are found again along every path | proved | documents are those their codec can represent (Kept; C21 to C24 say which, C81_json for dag-json), and no two of the blocks made have the same sha2-256. Names inside of dag-pb documents are in C20; here a dag-pb document is found as a whole. Paths have no empty segment, as those that are parsed. |
| C82 A subscriber over HTTP reads what was published, and the lists of peers and topics are right | proved | sources are peer ids that can exist and topics are texts, as in Rust. Which messages of its topic a client gets, and the panics and lags that cost it some, are in C62 (C62_complete, C62_deaf); here is that it gets no others. A subscribed topic is one for which a further subscription is refused (C82_topics). |
| C83 What was pinned on disk survives crashes and full disks, with everything below it | partial | everything is proved for every history and crash if no put of a block of the tree was cut off between the creation of its file and its data, and blocks are not removed by the cid of the other version; the code does not meet it without that (C83_torn, C83_alias). What is written is taken to stay written: loss of power with directories that were not synced is not modelled. |
| C84 The two readers of dag-pb agree | partial | what prost reads, quick-protobuf reads alike, for all bytes (C84_partial), and both read back what is written (C84_written). The other way round the code does not meet it: quick-protobuf does not check wire types (C84_lenient). |
| C85 A file that was added to disk and pinned is read for ever | partial | proved for all files, histories and crashes if no put of one of the blocks was cut off between the creation of its file and its data before (C85_torn shows that the code does not meet it without that), and blocks are not removed by the cid of the other version (C83_alias). No two of the blocks of the file have the same sha2-256. Requests do not overlap, as in C83. |
| C86 What was added over HTTP and pinned is served for ever | partial | proved for all forms, histories and crashes if no put of one of the blocks was cut off between the creation of its file and its data before (C85_torn shows that the code does not meet it without that), and blocks are not removed by the cid of the other version (C83_alias). cat and get are as in C66 and C67: files with a name, ranges that do not pass 2^64, paths that can be written. No two of the blocks have the same sha2-256, and sizes fit into 64 bits. Requests do not overlap, as in C83. |
| C87 Each request to a node on disk does what it says and nothing else, also after crashes | proved | proved for all histories, ends of requests and requests. That a recursive pin or unpin goes well also needs that the walk along links ends within the steps the model gives it (WalkEnds; C69_ends and C85 show that some number of steps is enough). An unpin that is recursive also needs the block itself to be there and readable. Blocks are told apart by their cid as of version 1, pins by the cid. Requests do not overlap, as in C83. |
| C88 A file that a connected peer has is read whole over the network | proved | proved for all files, ranges and interleavings. The hash is a parameter; no other data has the sha2-256 of a block of the file. The future of the reader is polled and dropped by the reader alone. C88_met is a run with three nodes in which a range is read from the second; C88_alias shows that the refusal of C88_reads is real. What C73 shows about frames that are too long and about poisoned cids is why C88_finishes leaves them out. |
| C89 What was added at one node is served by another | proved | proved for all programs that load blocks, forms and interleavings. The hash is a parameter; no other data has the sha2-256 of one of the blocks. The node does not store one of the blocks under another cid (C88_alias shows what happens then), and the two nodes are undisturbed as in C73 and C88. cat and get are as in C66 and C67: files with a name, ranges that do not pass 2^64, paths that can be written. What is yielded on the way is part of the result. C89_met are runs with three nodes that meet the hypotheses. |
| C90 What was read over the network is there afterwards, and can be read from there | proved | proved for all programs that load blocks, forms and interleavings, under the hypotheses of C89. The store is that in memory, which Net/Exchange has; the program runs after its start state with no removal of its blocks at that node. C90_met is a run with three nodes: the second removes its blocks and goes away, and the third gets them from the first. |
| C91 What is pinned at a node of the network is downloaded and stays | proved | proved for all graphs, numbers of requests and interleavings, with the store and the pins in memory. The hash is a parameter; the cids in use have no other data and no two of them the same hash, and the node stores none of them under another cid. Unpinning, and a removal with its look at the pins, are one step each. C91_race shows that the exception in the statement is needed, C91_locked that everything that looks at the pins waits for a walk, C91_left what a request that was given up leaves pinned. C91_met and C91_ends_met are runs with three nodes. |
| C92 What was added at one node and pinned at another is served there from then on | proved | proved for all forms and interleavings, under the conditions of C91 (nobody removes the root between its arrival and the answer of the pin; the node stores none of the blocks under another cid), C89 (the two nodes are undisturbed while the pin downloads) and C66 and C67 (files with a name, ranges that do not pass 2^64, paths that can be written). The store and the pins are those in memory. C92_met is a run with three nodes. |
| C93 The file api tells where the daemon serves, and nothing when there is none | partial | false of the code: a daemon that is killed leaves the file as it is (C93_killed; no signal is handled), and one that ends by itself has let go of the repository before it makes the file empty, so that it may empty the file of the next one (C93_race). Proved in full: one daemon at a time, no wrong address while one serves (C93_told: its own or nothing), no address nobody listened at (C93_never), starting again (C93_up, C93_init). C93_exact_partial: while a daemon serves the file tells its address, if no process lets go of the repository early; C93_ended_partial: no address without a daemon, if none is killed and the disk does not fail. Which port the system chooses is up to the environment. |
| C94 What a client reads about connections is what happened to them, and asking changes nothing | partial | false of the code: addrs asks the method that a dial asks for addresses, which gives the addresses of requests to connect out only once. If the known addresses are asked for between a request to connect to a known peer and its dial, the address is lost to the dial and the request is never answered unless somebody else connects to the peer (C94_taken for every such state, C94_lost from the start). Proved: what is listed, also over HTTP, and that asking changes nothing else; C94_harmless_partial: no harm is done while no request to a known peer waits for its dial. What other behaviours know of addresses is a parameter. |
| C95 Getting any part of any tree gives an archive of exactly that part | partial | false of the code: a bucket that follows a plain directory makes the walker panic, and the archive of a well-formed directory breaks off there under an answer with status 200 (C95_clash). Proved for every tree: one entry for each place before such a clash, and all of it without one (C95_tree); the builder of this project makes no buckets, so everything that was added over HTTP comes back in full (C95_file, C95_named, C95_part). Restrictions as in C53 and C67: names that are not empty, . or .., no NUL, not cut at .. after 100 bytes, sizes as declared, sizes and times below 2^33. |
| C96 A request over HTTP that was given a timeout is over when it has elapsed | partial | false of the code: cat, get and refs await only what comes before the status under the timeout, so the body takes as long as the blocks do, or for ever (C96_cat_late, C96_get_late, C96_refs_late, for every request whose next block is late); pin/add takes no timeout and ignores one that is given (C96_pin_ignored). Proved: the status of these comes in time (C96_begun), the others are over in time (C96_over, C96_block), what a timeout changes (C96_cutOff), when refs sends its status (C96_refs_when), and the answers (C96_answer, C96_dht, C96_bootstrap). Only waiting for blocks and for the node takes time in the model. |
| C97 What a client has received of an answer is its beginning, and it is complete only if it is all of it | partial | false of the code for refs: a block that fails to be loaded is passed over without a word, and the answer ends as complete without its line and everything below it (C97_refs_short; C97_refs_partial shows that the answer never tells, and that without unique what is sent are lines of the complete answer in order; C97_refs_true that with or without unique each line tells of a link that is there). A recursive pin walks the same way and is answered well without what could not be loaded (C97_pin_short); it pins nothing that is not below its root (C97_pin_true), but unpinning its root when the block is there later fails and leaves other blocks pinned (C97_pin_stuck) until the root is pinned and unpinned again (C97_pin_again). Proved for cat, get and dag/resolve: C97_cat, C97_get, C97_resolve, and C97_any_time for every moment, also while a block is awaited that never comes. What was sent while a block is awaited is what the model has sent when loading it fails. How the end of a stream in an error is carried over HTTP is left to hyper. |

## Mutation testing

The models are edited in a scratch copy from which the examples were removed, one edit at a time (changed operators and constants, exchanged
branches, dropped updates, swapped arguments), and the whole project is built. `seeded/LOG.jsonl` has one line per edit: the definition, the edit,
the theorems that failed, and, for edits that survived at first, the theorems written or tightened because of them. Edits that
remain alive were inspected; the line gives the reason why they do not change behaviour that matters.
