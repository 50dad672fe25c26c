{"id": "C01", "title": "FlatUnixFs serialisation round-trips", "statement": "Writing a FlatUnixFs (links + UnixFS data) with write_message and parsing the produced bytes with FlatUnixFs::try_parse yields a value equal in every field: same links in the same order, same type, data, filesize, blocksizes, hashType, fanout, mode and mtime.", "quantifier": "every FlatUnixFs whose integers fit their Rust types, whose names are UTF-8 and whose encoded parts are shorter than 2^32 bytes; any number of links and blocksizes", "why_tests_cant": "the value space is infinite (lists of links, arbitrary bytes, 64-bit integers); the bug of a codec hides at a varint or length boundary", "anchors": ["src/pb.rs:FlatUnixFs", "src/pb/merkledag.rs", "src/pb/unixfs.rs"]}
{"id": "C02", "title": "Declared message size equals bytes written", "statement": "For every message type (PBLink, PBNode, UnixTime, Metadata, UnixFs, FlatUnixFs and the directory builder's borrowed node) get_size() is exactly the number of bytes write_message() appends; nested length prefixes are therefore always right and a buffer of get_size() bytes is always enough.", "quantifier": "every message value which a memory of 2^64 bytes can hold, any field sizes and counts", "why_tests_cant": "sizes cross varint boundaries at 2^7, 2^14, ... for every nested field independently", "anchors": ["src/pb.rs:get_size", "src/pb/merkledag.rs:get_size", "src/pb/unixfs.rs:get_size", "src/dir/builder/custom_pb.rs:get_size"]}
{"id": "C03", "title": "PBNode round-trips and node_data returns its Data", "statement": "Parsing the bytes written for a PBNode gives the same links and Data, and dagpb::node_data on those bytes returns exactly the Data field.", "quantifier": "every PBNode value with encodable fields", "why_tests_cant": "infinite value space", "anchors": ["src/pb/merkledag.rs:PBNode", "src/dagpb.rs:node_data"]}
{"id": "C04", "title": "Readers accept fields in any order and skip unknown fields", "statement": "If a block is a concatenation of well-formed protobuf fields, parsing does not depend on how unknown fields are interleaved, and for dag-pb nodes moving the Data field before, after or between the links gives the same FlatUnixFs.", "quantifier": "every sequence of known and unknown well-formed fields", "why_tests_cant": "infinitely many interleavings and unknown payloads", "anchors": ["src/pb/merkledag.rs:from_reader", "src/pb/unixfs.rs:from_reader"]}
{"id": "C05", "title": "wrap_node_data exposes the same data as node_data and never panics", "statement": "For every block, wrap_node_data(block) fails exactly when node_data(block) fails and otherwise its node_data() equals the Data field (or is empty when there is none); it does not panic.", "quantifier": "every byte string", "why_tests_cant": "arbitrary blocks received from the network", "anchors": ["src/dagpb.rs:wrap_node_data", "src/dagpb.rs:subslice_to_range"]}
{"id": "C06", "title": "Symlink blocks decode to their target and only append", "statement": "serialize_symlink_block leaves the existing buffer contents in place, and the appended bytes parse as a linkless Symlink node whose data is the given target path.", "quantifier": "every target path shorter than 4 GiB (less 32 bytes) and every initial buffer", "why_tests_cant": "infinite strings", "anchors": ["src/symlink.rs:serialize_symlink_block"]}
{"id": "C07", "title": "push always makes progress", "statement": "FileAdder::push on a non-empty input consumes at least one byte, never more than given and never more than one chunk, so the documented feeding loop over any input terminates.", "quantifier": "every reachable adder state with positive chunk size, every input", "why_tests_cant": "reachable states are produced by arbitrary push histories", "anchors": ["src/file/adder.rs:push", "src/file/adder.rs:accept"]}
{"id": "C08", "title": "push returns at most two blocks", "statement": "Each call of FileAdder::push yields at most two blocks, as documented.", "quantifier": "every push history, chunk size > 0, branching factor > 0", "why_tests_cant": "holds for every reachable collector state", "anchors": ["src/file/adder.rs:push", "src/file/adder.rs:flush_links"]}
{"id": "C09", "title": "push never panics", "statement": "No push panics: none of the internal assertions about chunk production or link depth can fire.", "quantifier": "every push history with any chunk size and branching factor > 0 (the unguarded Chunker::Size(0) is part of the claim)", "why_tests_cant": "assertions depend on the history of previous pushes", "anchors": ["src/file/adder.rs:push", "src/file/adder.rs:flush_links"]}
{"id": "C10", "title": "finish terminates without panicking", "statement": "FileAdder::finish returns (terminates and does not panic) after any push history.", "quantifier": "every push history, every chunk size > 0, every branching factor > 0", "why_tests_cant": "non-termination and depth assertions depend on the number of leaves", "anchors": ["src/file/adder.rs:finish", "src/file/adder.rs:flush_links"]}
{"id": "C11", "title": "Result is independent of how input was segmented", "statement": "Feeding the same bytes in any segmentation produces the same sequence of blocks and Cids; in particular the same root.", "quantifier": "every content, every segmentation including empty segments, chunk size > 0", "why_tests_cant": "exponentially many segmentations", "anchors": ["src/file/adder.rs:push", "src/file/adder.rs:accept"]}
{"id": "C12", "title": "A root is always produced and it is the last block", "statement": "Adding any content (including the empty one) emits at least one block and the last emitted block is the root of a tree which contains every emitted block.", "quantifier": "every content, chunk size > 0, branching factor >= 2 (with emitted blocks below 4 GiB, see C94)", "why_tests_cant": "any number of leaves", "anchors": ["src/file/adder.rs:finish"]}
{"id": "C13", "title": "Children are emitted before parents", "statement": "In the emitted sequence, every link of every emitted block points to a block emitted earlier; persisting blocks in order never leaves a dangling link.", "quantifier": "every prefix of the emitted sequence, every content and configuration (with emitted blocks below 4 GiB, see C94)", "why_tests_cant": "crash points: every prefix", "anchors": ["src/file/adder.rs:flush_links"]}
{"id": "C14", "title": "Every emitted Cid is the CIDv1 dag-pb sha2-256 of its block", "statement": "Every (cid, block) pair produced by the adder and by the directory builder has cid = CIDv1(dag-pb, sha2-256(block)).", "quantifier": "all emitted blocks", "why_tests_cant": "all histories", "anchors": ["src/file/adder.rs:render_and_hash", "src/dir/builder/iter.rs:render_directory"]}
{"id": "C15", "title": "Leaves are the consecutive chunks of the content", "statement": "The leaf blocks, in emission order, carry the consecutive chunk-size pieces of the input; all but the last are full; there are ceil(n/chunk) of them (one for the empty file).", "quantifier": "every content and chunk size > 0 (with emitted blocks below 4 GiB, see C94)", "why_tests_cant": "every size", "anchors": ["src/file/adder.rs:push", "src/file/adder.rs:flush_buffered_leaf"]}
{"id": "C16", "title": "Tree is balanced and bounded in arity", "statement": "Every link block has between 1 and branching_factor links, all leaves are at the same depth.", "quantifier": "every content, chunk size > 0, branching factor >= 2 (with emitted blocks below 4 GiB, see C94)", "why_tests_cant": "every number of leaves", "anchors": ["src/file/adder.rs:flush_links"]}
{"id": "C17", "title": "Declared sizes are right at every node", "statement": "At every node of the produced tree filesize is the number of content bytes below it, blocksizes are the filesizes of its children in order, and each link's Tsize is the total length of all blocks in the linked subtree.", "quantifier": "every node of every produced tree (with emitted blocks below 4 GiB, see C94)", "why_tests_cant": "every shape", "anchors": ["src/file/adder.rs:partition_link", "src/file/adder.rs:flush_links"]}
{"id": "C18", "title": "Adding then reading returns the content", "statement": "Reading with IdleFileVisit::start / FileVisit::continue_walk from the root over a store holding the emitted blocks returns, concatenated, exactly the added bytes and terminates without error or panic.", "quantifier": "every content, segmentation, chunk size > 0, branching factor >= 2 (with emitted blocks below 4 GiB, see C94)", "why_tests_cant": "end-to-end over two state machines", "anchors": ["src/file/adder.rs", "src/file/visit.rs", "src/file/reader.rs", "examples/cat.rs"]}
{"id": "C19", "title": "Ranged reads return the requested slice", "statement": "with_target_range(s..e) over a well-formed file tree returns exactly the bytes of the content in [s,e) clipped to the file, terminates and never panics. So adjacent ranges read one after the other give the bytes of the joint range.", "quantifier": "every well-formed file tree of any shape (not only balanced ones), every range including empty, inverted and out-of-bounds ones", "why_tests_cant": "every tree shape and every boundary alignment", "anchors": ["src/file/visit.rs:target_slice", "src/file/visit.rs:block_is_in_target_range", "src/file/visit.rs:continue_walk"]}
{"id": "C20", "title": "Reported file size is the total size", "statement": "The size returned by IdleFileVisit::start is the root's filesize, which for a well-formed tree is the length of the content; FileVisit::file_size() returns the same total at every step of the visit, as documented.", "quantifier": "every well-formed tree, every step of a visit", "why_tests_cant": "every step of every visit", "anchors": ["src/file/visit.rs:file_size", "src/file/reader.rs:file_size"]}
{"id": "C21", "title": "Tree height is minimal", "statement": "The depth of the produced tree is the least d such that branching_factor^d >= number of leaves.", "quantifier": "every content, chunk size > 0, branching factor >= 2 (with emitted blocks below 4 GiB, see C94)", "why_tests_cant": "all leaf counts", "anchors": ["src/file/adder.rs:flush_links"]}
{"id": "C22", "title": "A ranged read only asks for blocks touching the range", "statement": "Every block requested after the root during a ranged visit covers a byte interval which overlaps or touches the requested range, and every block whose interval overlaps it is requested exactly once, in file order.", "quantifier": "every well-formed tree and range", "why_tests_cant": "every tree", "anchors": ["src/file/visit.rs:block_is_in_target_range"]}
{"id": "C23", "title": "Visit offsets never go backwards over arbitrary blocks", "statement": "Whatever blocks the caller supplies, a continuation whose predecessor was a leaf starts exactly at that leaf's end (no holes or overlaps between chunks are ever accepted).", "quantifier": "arbitrary, possibly malicious, block sequences", "why_tests_cant": "adversarial inputs", "anchors": ["src/file/reader.rs:check_is_suitable_next"]}
{"id": "C24", "title": "Metadata comes only from the root and is preserved", "statement": "The metadata reported at start is the mode/mtime of the root block and stays the same at every later step; a non-root block that defines mode or mtime is rejected with an error.", "quantifier": "every visit over arbitrary blocks", "why_tests_cant": "adversarial inputs", "anchors": ["src/file/reader.rs:from_continued"]}
{"id": "C25", "title": "Caches do not influence results", "statement": "Every outcome of a visit or walk or lookup is the same whatever cache value is passed in.", "quantifier": "every cache obtainable through the API, every block sequence", "why_tests_cant": "caches carry over between unrelated walks", "anchors": ["src/file/visit.rs:Cache", "src/dir/sharded_lookup.rs:Cache", "src/walk.rs"]}
{"id": "C26", "title": "The file reader accepts exactly the documented blocks and never panics", "statement": "Starting a visit on a block fails with the documented error exactly in the documented cases (unparsable, wrong type, mismatching links/blocksizes, no content, HAMT properties, link node without filesize) and otherwise succeeds; it does not panic.", "quantifier": "every byte string", "why_tests_cant": "arbitrary blocks", "anchors": ["src/file/reader.rs:from_parts"]}
{"id": "C27", "title": "Reading never panics on malformed continuation blocks", "statement": "Feeding FileVisit or Walker any bytes as the next block results in Ok or Err, never a panic.", "quantifier": "every byte string at every point of a walk", "why_tests_cant": "adversarial inputs", "anchors": ["src/walk.rs", "src/file/visit.rs"]}
{"id": "C28", "title": "Chunk slicing is exact", "statement": "Given a leaf's content and the byte interval it occupies, the part contributed to a ranged read is exactly the intersection of the interval with the target; the slice is in bounds whenever the content has the length of the interval.", "quantifier": "all block intervals, targets and contents", "why_tests_cant": "arithmetic on boundaries; the source says 'these must have bugs'", "anchors": ["src/file/visit.rs:target_slice"]}
{"id": "C29", "title": "Path grammar accepted by the directory builder", "statement": "put_link accepts or rejects a path exactly by its shape: leading slash, empty components (except the path \"\") and trailing slash are errors of the documented kinds.", "quantifier": "every path string, every builder state", "why_tests_cant": "infinite strings and states", "anchors": ["src/dir/builder/buffered.rs:modify_with"]}
{"id": "C30", "title": "A failed builder operation changes nothing", "statement": "When put_link or set_metadata returns an error, later operations and the built tree are as if it had not been called (apart from unobservable fresh identifiers).", "quantifier": "every builder state, every path", "why_tests_cant": "the source has a FIXME asking for exactly this", "anchors": ["src/dir/builder/buffered.rs:modify_with"]}
{"id": "C31", "title": "The builder behaves like a finite map from paths to links", "statement": "After any history, the set of (path, link) pairs in the tree is exactly that of the successful put_links; put_link succeeds iff no existing path is a prefix of, equal to, or extends the new one; the final tree does not depend on the order of the insertions.", "quantifier": "every operation history", "why_tests_cant": "every history", "anchors": ["src/dir/builder/buffered.rs"]}
{"id": "C32", "title": "Without wrapping there is at most one root entry", "statement": "Unless wrap_with_directory is set, at most one top level entry is ever held, and adding a second different one fails with TooManyRootLevelEntries.", "quantifier": "every history", "why_tests_cant": "every history", "anchors": ["src/dir/builder/buffered.rs:modify_with"]}
{"id": "C33", "title": "Building emits every directory exactly once, children first", "statement": "The iterator from build() yields one block per directory of the tree (plus the wrapper when configured), children before parents, each with its full path, and then ends.", "quantifier": "every builder state with a large enough block size limit", "why_tests_cant": "every tree shape", "anchors": ["src/dir/builder/iter.rs:next_borrowed"]}
{"id": "C34", "title": "Directory blocks list each entry once, sorted by name", "statement": "Every emitted directory block parses as a UnixFS Directory whose links are exactly the entries in increasing byte order of names, with the Cid and total size of the entry.", "quantifier": "every directory of every tree", "why_tests_cant": "any number of entries and names", "anchors": ["src/dir/builder/iter.rs:render_directory", "src/dir/builder/custom_pb.rs"]}
{"id": "C35", "title": "Paths put into a builder resolve from the built root", "statement": "After put_link(path, cid) in a wrapped builder, resolving the components of path from the root block over the emitted blocks leads to cid.", "quantifier": "every history of insertions with encodable cids, every path", "why_tests_cant": "end to end over builder and resolver", "anchors": ["src/dir/builder/iter.rs", "src/dir.rs:resolve"]}
{"id": "C36", "title": "Total sizes of directories are right", "statement": "total_size of an emitted directory is the length of its block plus the total sizes of its entries, recursively.", "quantifier": "every tree", "why_tests_cant": "every tree", "anchors": ["src/dir/builder/iter.rs:render_directory"]}
{"id": "C37", "title": "Block size limit is enforced exactly", "statement": "With a configured block size limit no larger directory block is ever yielded, and the TooLargeBlock error with the actual size is yielded iff the encoded block exceeds the limit.", "quantifier": "every tree and limit", "why_tests_cant": "every size", "anchors": ["src/dir/builder/iter.rs:render_directory"]}
{"id": "C38", "title": "Building never panics", "statement": "Calling next repeatedly on the iterator from build(), including after an error was returned, never panics.", "quantifier": "every tree, every limit, any number of calls", "why_tests_cant": "error histories", "anchors": ["src/dir/builder/iter.rs", "src/dir/builder/custom_pb.rs"]}
{"id": "C39", "title": "Metadata set on a directory appears in its block", "statement": "set_metadata(path, mode, mtime) is reflected in the emitted block of that directory.", "quantifier": "every builder state, path and metadata", "why_tests_cant": "all histories", "anchors": ["src/dir/builder/buffered.rs:set_metadata", "src/dir/builder/iter.rs"]}
{"id": "C40", "title": "Buffer reuse does not leak between blocks", "statement": "The bytes of an emitted directory block are a function of its entries only, independent of the blocks emitted before from the same iterator.", "quantifier": "every sequence of emitted blocks", "why_tests_cant": "depends on the history of buffer sizes", "anchors": ["src/dir/builder/iter.rs:render_directory"]}
{"id": "C41", "title": "resolve on plain directories finds the unique entry", "statement": "For a Directory block (or a dag-pb node which is not UnixFS) resolve(name) returns the Cid of the only link with that name, NotFound when there is none, and an error when several match or the Cid is invalid.", "quantifier": "every block and name", "why_tests_cant": "arbitrary blocks", "anchors": ["src/dir.rs:resolve", "src/dir/directory.rs", "src/dir.rs:try_convert_cid"]}
{"id": "C42", "title": "HAMT lookup finds exactly the entries of the shard tree", "statement": "Driving a sharded lookup to completion over a well-formed HAMT returns the Cid of the entry with the searched name if it is present anywhere in the shard tree and NotFound otherwise, and terminates.", "quantifier": "every well-formed shard tree of any depth, every name", "why_tests_cant": "every tree shape", "anchors": ["src/dir/sharded_lookup.rs"]}
{"id": "C43", "title": "HAMT lookup never panics on arbitrary blocks", "statement": "Looking up any name in arbitrary HAMT shard blocks gives a result or an error, never a panic.", "quantifier": "every block, every name", "why_tests_cant": "adversarial inputs", "anchors": ["src/dir/sharded_lookup.rs"]}
{"id": "C44", "title": "Resolving through a file or symlink is an error", "statement": "resolve on a block which is a UnixFS File, Raw, Metadata or Symlink node returns the unexpected type error and never a found link.", "quantifier": "every such block and name", "why_tests_cant": "arbitrary blocks", "anchors": ["src/dir.rs:resolve"]}
{"id": "C45", "title": "Walker visits the whole tree in order", "statement": "Walking a well-formed file system tree from its root yields, depth first and in link order, every directory, file and symlink with its full path, and the file bytes yielded are the contents of the files; then the walk ends.", "quantifier": "every well-formed tree of any depth and width (plain and sharded directories, files of any layout, symlinks)", "why_tests_cant": "every tree", "anchors": ["src/walk.rs:Walker"]}
{"id": "C46", "title": "pending_links names the block next expects", "statement": "The first Cid of pending_links is the Cid of the block that next must be given, at every step; the remaining Cids contain every other block known to be needed.", "quantifier": "every step of every walk", "why_tests_cant": "every step", "anchors": ["src/walk.rs:pending_links", "src/file/visit.rs:pending_links"]}
{"id": "C47", "title": "Walking sharded directories reports every bucket with its own Cid and does not panic", "statement": "Walking a well-formed HAMT directory never panics and each Bucket item carries the Cid of the bucket's block.", "quantifier": "every well-formed HAMT tree", "why_tests_cant": "every tree", "anchors": ["src/walk.rs:as_bucket"]}
{"id": "C48", "title": "File segments are flagged first and last exactly once", "statement": "Among the segments yielded for one file exactly the first has is_first and exactly the last has is_last.", "quantifier": "every file in every walk", "why_tests_cant": "every file shape", "anchors": ["src/walk.rs:FileSegment"]}
{"id": "C49", "title": "Unsupported node types are reported", "statement": "A block whose UnixFS type is not one of the known types is reported as an unsupported type and not treated as a file.", "quantifier": "every undefined type value", "why_tests_cant": "all integers", "anchors": ["src/pb/unixfs.rs:DataType::from", "src/walk.rs"]}
{"id": "C50", "title": "A failed walk stops", "statement": "After Walker::next returned an error, should_continue() is false.", "quantifier": "every walker state and block", "why_tests_cant": "every state and block", "anchors": ["src/walk.rs:next", "src/walk.rs:should_continue"]}
{"id": "C51", "title": "Parsing terminates and never reads out of bounds", "statement": "Parsing any byte string as PBNode / UnixFs / FlatUnixFs terminates with Ok or Err, without a panic; all returned slices are sub-slices of the block.", "quantifier": "every byte string", "why_tests_cant": "adversarial inputs", "anchors": ["src/pb.rs:try_parse", "src/pb/merkledag.rs", "src/pb/unixfs.rs"]}
{"id": "C52", "title": "Equal content gives equal root, different content gives different root", "statement": "For a fixed configuration two contents give the same root Cid only if they are equal (assuming no sha2-256 collision among the emitted blocks); the reverse is C11.", "quantifier": "every pair of contents", "why_tests_cant": "all pairs", "anchors": ["src/file/adder.rs"]}
{"id": "C53", "title": "Cid bytes round-trip", "statement": "Cid::try_from(cid.to_bytes()) gives back the Cid for every Cid the crate creates, so links written by the crate can always be followed by it. Bytes are read as a Cid exactly if they begin with one: version 0 (0x12, 0x20 and 32 bytes) or version 1 (numbers for version, codec, hash and length of the digest, at most 64, and the digest); what follows is ignored.", "quantifier": "every CIDv1 dag-pb sha2-256 and every CIDv0; every sequence of bytes", "why_tests_cant": "2^256 digests", "anchors": ["src/file/visit.rs:to_pending", "src/file/adder.rs:partition_link"]}
{"id": "C54", "title": "Builder calls never panic", "statement": "put_link and set_metadata on any builder obtained through the API return Ok or a documented error, for every path, target, size and metadata; they never panic.", "quantifier": "every history of builder calls and every next call", "why_tests_cant": "all histories and all strings", "anchors": ["src/dir/builder/buffered.rs:put_link", "src/dir/builder/buffered.rs:set_metadata", "src/dir/builder/buffered.rs:modify_with"]}
{"id": "C55", "title": "A push consumes up to the next chunk boundary and emits exactly what became ready", "statement": "Unless it panics (C09), push consumes the input up to the next multiple of the chunk size of everything consumed; it returns no block unless it gets there; when it does, the first block is the leaf with the last chunk-size bytes, followed by one link block with exactly branching_factor links precisely when this chunk opens a new group.", "quantifier": "every push in every history of pushes, every chunk size and branching factor", "why_tests_cant": "every history and split of the input", "anchors": ["src/file/adder.rs:push", "src/file/adder.rs:accept", "src/file/adder.rs:flush_links"]}
{"id": "C56", "title": "Size hint and defaults", "statement": "size_hint is the chunk size at every moment; a client which always pushes at least that much never uses the internal buffer and each push which returns consumes exactly one chunk; the default adder has 256 KiB chunks and 174 links per block; a branching factor of zero is refused with a panic, every other one is used as given.", "quantifier": "every history of pushes", "why_tests_cant": "every history", "anchors": ["src/file/adder.rs:size_hint", "src/file/adder.rs:default"]}
{"id": "C57", "title": "Building and then walking reports the whole tree", "statement": "Walking from the root of what a wrapping builder built, over a store which holds the built blocks and well-formed plain trees for the links, ends and reports exactly the directories of the builder and what the links lead to, depth first, all with their paths from the root.", "quantifier": "every history of builder calls whose paths can be walked, every tree behind the links, every cache", "why_tests_cant": "all trees, at all depths", "anchors": ["src/dir/builder/buffered.rs:build", "src/dir/builder/iter.rs:PostOrderIterator", "src/walk.rs:Walker"]}
{"id": "C58", "title": "Adding and then walking a file reports its content", "statement": "Walking from the last Cid returned by adding some content reports exactly the content in file segments, of which the first and only the first is flagged as first and the last and only the last as last, with size, Cid, name, and empty metadata.", "quantifier": "every content, chunk size, branching factor, split into pushes, and name", "why_tests_cant": "unbounded content and tree depth", "anchors": ["src/file/adder.rs:FileAdder", "src/walk.rs:Walker"]}
{"id": "C59", "title": "End to end: what was added and put can be resolved, read and walked", "statement": "When a client adds files, puts their Cids at paths, builds with wrapping and stores all blocks, then every file is found by its path from the root block and reads back its content, and walking the root reports files exactly at those paths with exactly that content, and directories exactly above them, at set_metadata paths and at the root.", "quantifier": "every set of files with any configuration, every history of builder calls whose paths can be walked", "why_tests_cant": "unbounded numbers of files, sizes, paths and histories", "anchors": ["src/file/adder.rs:FileAdder", "src/dir/builder/buffered.rs:put_link", "src/dir/builder/iter.rs:PostOrderIterator", "src/dir.rs:resolve", "src/file/visit.rs:FileVisit", "src/walk.rs:Walker"]}
{"id": "C60", "title": "Every answer of the directory iterator is determined by the tree and the options", "statement": "The answers to any number of calls of next on the iterator from build() are: for each directory, in post-order, its node; or TooLargeBlock with its size if the block exceeds the limit, after which the iteration goes on with the directories not above it; a panic when reaching a directory with an entry whose block was too large or with a total size of 2^64 or more; after the last directory None, forever.", "quantifier": "every history of builder calls, all options, any number of calls", "why_tests_cant": "error histories over unbounded trees", "anchors": ["src/dir/builder/iter.rs:next_borrowed", "src/dir/builder/iter.rs:render_directory"]}
{"id": "C61", "title": "Reported types, metadata accessors and error sources say what the block says", "statement": "The type in an UnexpectedType, UnexpectedBucketType or UnsupportedType error is the one the refused block declares, so is_directory and is_file answer for the block; the metadata of a visit has the mode and mtime of the first block; wrapped node data gives its block back and compares equal to exactly the data; a parsing error is the source of the error which reports it.", "quantifier": "every block, target range, needle, cache", "why_tests_cant": "arbitrary blocks", "anchors": ["src/lib.rs:UnexpectedNodeType", "src/lib.rs:Metadata", "src/dagpb.rs:NodeData", "src/dir.rs:ResolveError", "src/file.rs:FileReadFailed"]}
{"id": "C62", "title": "What is built depends only on the successful calls, not on their order", "statement": "Histories of builder calls (with the same options) whose successful calls want the same things at the same paths get the same answers from the iterator: the same nodes, blocks, errors. With wrapping, a set of calls can all be successful exactly when nothing is put at or below the path of a link, and then they are in every order.", "quantifier": "every pair of histories, any number of calls of the iterator", "why_tests_cant": "all orders of all sets of calls", "anchors": ["src/dir/builder/buffered.rs:put_link", "src/dir/builder/buffered.rs:set_metadata", "src/dir/builder/buffered.rs:build"]}
{"id": "C63", "title": "What is not in the tree is not found in the built blocks", "statement": "In every block built, resolve gives for each name the Cid which was put, the Cid of the subdirectory's block, or NotFound when the tree has no such entry. From the root block, every path resolves to what the tree has there; a path below a link goes on in whatever the link leads to.", "quantifier": "every history of builder calls, every directory, every name and path", "why_tests_cant": "all names and paths", "anchors": ["src/dir/builder/iter.rs:PostOrderIterator", "src/dir.rs:resolve"]}
{"id": "C64", "title": "A block is refused only for the stated reason, and accepted when there is none", "statement": "FileVisit::continue_walk and Walker::next return an error only when the block has the defect the error names (with the index, hash and name of the offending link, the offending properties or type), and accept every block with no such defect (unless they panic, see C26, C27 and C45).", "quantifier": "every history of a visit or a walk, every next block, every cache", "why_tests_cant": "arbitrary blocks at arbitrary depths", "anchors": ["src/file/visit.rs:continue_walk", "src/file/reader.rs:from_continued", "src/walk.rs:next", "src/walk.rs:convert_link", "src/walk.rs:convert_sharded_link"]}
{"id": "C65", "title": "Every answer of a lookup in a sharded directory is determined by the block and the pending links", "statement": "For resolve on a HAMT shard and every continue_walk after it: Found, NotFound, more to load, or the error, is exactly what the names and hashes of the links of the block say, whatever the block; shards are asked for in the order of their links, those already pending first. Making the needle owned in between changes nothing of this.", "quantifier": "every history of a lookup, every next block, every name, every cache", "why_tests_cant": "arbitrary blocks at arbitrary depths", "anchors": ["src/dir/sharded_lookup.rs:continue_walk", "src/dir/sharded_lookup.rs:lookup_or_start", "src/dir/sharded_lookup.rs:partition"]}
{"id": "C66", "title": "The root Cid of a built tree determines the tree", "statement": "If two wrapping builders end with the same root Cid (no sha2-256 collision among their blocks), then directories at the same path have the same block and names; and if no link of one leads to a directory built by the other, the trees are the same at every path. (A link to the block of a directory cannot be told from the directory.)", "quantifier": "every pair of histories of builder calls", "why_tests_cant": "all pairs of trees", "anchors": ["src/dir/builder/iter.rs:PostOrderIterator", "src/dir/builder/custom_pb.rs"]}
{"id": "C67", "title": "Release builds answer like checked builds unless those panic at a check", "statement": "With overflow checks and debug assertions off, starting and continuing visits, walking, pushing, finishing, and iterating over directories give the answers of a build with them on (or diverge alike), unless that one panics at such a check. In particular well-formed files, ranges and trees are read and walked alike, and files whose tree size is below 2^64 and directory trees with total sizes below 2^64 are added and built alike.", "quantifier": "every block, store, state, target range and history", "why_tests_cant": "arbitrary blocks and histories in two build profiles", "anchors": ["src/file/reader.rs:from_parts", "src/file/visit.rs:target_slice", "src/pb.rs:RangeLinks", "src/walk.rs:set_path", "src/file/adder.rs:push", "src/dir/builder/iter.rs:render_directory"]}
{"id": "C68", "title": "When exactly reading panics in a release build", "statement": "In a release build, start panics exactly for a block with no other defect which has no links and declares no file size. continue_walk panics exactly when nothing is pending, for such a block, or for a leaf shorter than the wanted part of its interval. Reading a whole file over any store whose leaves declare their size never panics.", "quantifier": "every block and every state of a visit, every store", "why_tests_cant": "arbitrary blocks with wrapping arithmetic", "anchors": ["src/file/reader.rs:from_parts", "src/file/visit.rs:start", "src/file/visit.rs:continue_walk", "src/file/visit.rs:target_slice"]}
{"id": "C69", "title": "Paths and total sizes reported by release builds", "statement": "A release build reports every entry of a directory with the path of the directory joined with its name, and every directory it builds with the total size of its block and its entries.", "quantifier": "every tree and every history of builder calls", "why_tests_cant": "all trees and names", "anchors": ["src/walk.rs:set_path", "src/dir/builder/iter.rs:render_directory"]}
{"id": "C70", "title": "The adder builds the balanced tree, and succeeds exactly when its size fits into 64 bits", "statement": "Adding a content returns blocks exactly if the balanced layout over its chunks (groups of branching-factor many, level by level until one is left) exists and the lengths of all its blocks add up to less than 2^64 (or there is a single chunk). The returned blocks are then those of that tree, each node once, the root last. This covers every content below 2^50 bytes and no content of 2^64 bytes or more in several chunks, which ends in the overflow panic.", "quantifier": "every content of any length, every chunk size > 0, every branching factor > 0, every history of pushes", "why_tests_cant": "tests cannot reach such sizes, and the shape must be right for every number of chunks", "anchors": ["src/file/adder.rs:push", "src/file/adder.rs:finish", "src/file/adder.rs:flush_links"]}
{"id": "C71", "title": "The cat example writes exactly the content", "statement": "For every well-formed file in the store, cat writes its content to stdout and reports the number of bytes read from blocks (each block once) and written. After adding a content with any configuration, cat of the root writes that content and reads every added block once. If blocks are missing it does the same, or writes a beginning of the same and reports that a block could not be opened, for arbitrary blocks.", "quantifier": "every file tree, every store, every subset of it", "why_tests_cant": "all trees and all sets of missing blocks", "anchors": ["examples/cat.rs:walk", "src/file/visit.rs:continue_walk"]}
{"id": "C72", "title": "The get example lists every entry of the tree", "statement": "For every well-formed tree (named entries, no bucket directly after a directory, symlink targets in UTF-8) get prints a line for each file, directory and symlink, in order, with its mode or the default, its modification time or zero and its path, and succeeds; with a target which is not UTF-8 it panics after the lines before the first such symlink; with missing blocks it prints the same or a beginning of it and reports that a block could not be opened.", "quantifier": "every tree of files, directories, sharded directories and symlinks; every store and subset of it", "why_tests_cant": "all trees and all sets of missing blocks", "anchors": ["examples/get.rs:walk", "src/walk.rs:next"]}
{"id": "C73", "title": "The resolve example follows a path", "statement": "Resolving a path from a root over well-formed plain and sharded directories prints the Cid the names lead to, or that nothing was found if an entry on the way does not exist. For arbitrary blocks: a Cid which is printed is reached by entries with these names; if nothing is found, a directory on the way has no entry of the next name; each segment is an independent lookup, whatever was left in the cache; with missing blocks the answer is the same or that a block could not be opened.", "quantifier": "every store, every root, every list of names", "why_tests_cant": "arbitrary blocks, all depths", "anchors": ["examples/resolve.rs:walk", "src/dir.rs:resolve", "src/dir/sharded_lookup.rs:continue_walk"]}
{"id": "C74", "title": "The add example adds its input and reports correct statistics", "statement": "However the input is split into reads, the add example adds exactly the bytes read with the default configuration and prints the number of blocks, the sum of their lengths, the root Cid and the number of bytes read; it panics only on the 64-bit overflow of the tree size.", "quantifier": "every sequence of reads of any total length", "why_tests_cant": "all ways of splitting all inputs", "anchors": ["examples/add.rs:main", "examples/add.rs:process", "src/file/adder.rs:push"]}
{"id": "C75", "title": "The block store of the examples has a distinct path for every Cid", "statement": "Every Cid is mapped, without a panic, to a directory with a name of two characters and a file ending in .data below it, using only A-Z and 2-7 otherwise; different Cids have different paths. Keys of fewer than two bytes panic.", "quantifier": "every Cid; every key", "why_tests_cant": "injectivity over all keys", "anchors": ["examples/cat.rs:as_path", "examples/get.rs:as_path", "examples/resolve.rs:as_path"]}
{"id": "C76", "title": "Tree options: the last limit counts, wrapping stays on", "statement": "After any sequence of calls of the setters of TreeOptions, a builder with these options refuses a second root entry exactly if wrap_with_directory was never called, yields a node for the root exactly if it was called, and limits blocks to the limit set last, or 512 KiB if none was set; with None nothing is too large.", "quantifier": "every sequence of setter calls, every history of builder calls", "why_tests_cant": "all orders and repetitions of calls", "anchors": ["src/dir/builder.rs:TreeOptions", "src/dir/builder.rs:block_size_limit", "src/dir/builder.rs:wrap_with_directory"]}
{"id": "C77", "title": "A lookup is right for arbitrary blocks", "statement": "Whatever the blocks in the store are (also when shards are shared, or Cids do not match blocks): when a lookup of a name, driven to its end, finds a Cid, the directory or one of the shards below has an entry of that name with that Cid; when it answers that nothing was found, there is none.", "quantifier": "every store, every directory block, every name", "why_tests_cant": "arbitrary graphs of blocks", "anchors": ["src/dir.rs:resolve", "src/dir/sharded_lookup.rs:continue_walk", "src/dir/sharded_lookup.rs:lookup_or_start"]}
{"id": "C78", "title": "The argument of the resolve example", "statement": "A path with or without the prefix /ipfs/ is read as its Cid and its non-empty segments, however many slashes are between or after them; exactly the empty text and those with /ipfs/ later than at the beginning are refused as paths.", "quantifier": "every text", "why_tests_cant": "all texts", "anchors": ["examples/resolve.rs:try_from"]}
{"id": "C79", "title": "The resolve example on what was built", "statement": "After a builder's directories were built and stored, resolving a path from any yielded directory's Cid prints: the yielded Cid for a directory, the Cid given to put_link for a link (and goes on from it if there are more segments), and that nothing was found if there is nothing at the path; in particular /ipfs/<root>/<path> prints exactly the Cid which was put at that path.", "quantifier": "every history of builder calls, every options, every store with the blocks, every path", "why_tests_cant": "all trees and all paths", "anchors": ["examples/resolve.rs:walk", "examples/resolve.rs:try_from", "src/dir.rs:resolve", "src/dir/builder/buffered.rs:build"]}
{"id": "C80", "title": "The get example on what was added and built", "statement": "When files were added, put with put_link under any walkable paths, and the directories built with wrapping, then the get example on the root's Cid ends without an error and writes exactly one line for every file which was put, with its path and its exact length, and one line for every directory which was set or is above something, each path once.", "quantifier": "every history of builder calls, every file contents and adder configuration, every store with the blocks", "why_tests_cant": "all trees and all contents", "anchors": ["examples/get.rs:walk", "src/walk.rs:next", "src/dir/builder/buffered.rs:build", "src/file/adder.rs:push"]}
{"id": "C81", "title": "Which blocks are accepted, and as what", "statement": "A block is accepted as a UnixFS node exactly if it is a sequence of well-formed dag-pb fields whose last Data field is a non-empty sequence of well-formed UnixFS fields (unknown fields, repeated fields, any order, over-long varints included), and the result has exactly the links and the last values of these; it is refused as not dag-pb, as having no data, or as not UnixFS exactly in the respective other cases, the links coming along with the latter two errors. UnixFs::try_from reads the same message from the node, and additionally accepts absent or empty data, as the default message.", "quantifier": "every byte string", "why_tests_cant": "adversarial inputs, all encodings", "anchors": ["src/pb.rs:try_parse", "src/pb/merkledag.rs:from_reader", "src/pb/unixfs.rs:from_reader", "src/dagpb.rs:node_data"]}
{"id": "C82", "title": "How a block is encoded does not matter", "statement": "Two blocks with the same links and the same UnixFS values, however encoded (order of fields, unknown fields, over-long varints), get the same answer from every function which takes a block: starting and continuing a file visit, a walk, resolving a name, continuing a sharded lookup.", "quantifier": "every pair of such blocks, every state", "why_tests_cant": "all encodings, all states", "anchors": ["src/file/visit.rs:start", "src/file/visit.rs:continue_walk", "src/walk.rs:next", "src/dir.rs:resolve", "src/dir/sharded_lookup.rs:continue_walk"]}
{"id": "C83", "title": "After a crash what is in the store is usable", "statement": "When a client stores the blocks in the order in which they are returned and crashes anywhere, during pushing, finishing or iterating, or between storing two blocks: every stored file block can be read to the end and gives a piece of the content which begins at a chunk boundary; the stored leaves carry a beginning of the content, and of what was pushed less than a chunk is not in returned blocks; every stored directory can be walked completely, given what was put below it; adding again begins with the same blocks.", "quantifier": "every content, configuration, history of pushes, tree, options, and every crash point", "why_tests_cant": "all crash points of all histories", "anchors": ["src/file/adder.rs:push", "src/file/adder.rs:finish", "src/dir/builder/iter.rs:next_borrowed"]}
{"id": "C84", "title": "Missing blocks", "statement": "Reading and walking over a store which lacks some blocks does what it does over the full store, up to the first missing block, whose Cid is named; so what was returned until then is a beginning of the full result. A read or walk which ends needs only the blocks it was given; a ranged read only the blocks touching the range.", "quantifier": "every pair of stores of which one is a part of the other, every visit and walker state", "why_tests_cant": "all stores, all states", "anchors": ["src/file/visit.rs:continue_walk", "src/file/visit.rs:pending_links", "src/walk.rs:next", "src/walk.rs:pending_links"]}
{"id": "C85", "title": "When finish returns no blocks", "statement": "finish returns no blocks if and only if exactly one chunk was pushed in total; then the pushes have returned one block, the whole file. In all other cases the last block of finish is the root from which the whole content hangs. So taking the root Cid from the blocks of finish alone, as the code's own benchmark does, fails for contents which are exactly one chunk long.", "quantifier": "every content, chunk size, branching factor and history of pushes", "why_tests_cant": "all lengths and all ways to push", "anchors": ["src/file/adder.rs:finish", "src/file/adder.rs:flush_buffered_leaf"]}
{"id": "C86", "title": "Ingesting an archive: adder, symlinks and directory builder together", "statement": "The program benches/ingest-tar.rs ends for every archive. It succeeds if and only if paths and link names are UTF-8, every path consists of components, nothing is at or below the path of a file or symlink, no file is exactly 262144 bytes long, and the sizes and directory blocks fit; otherwise it panics. On success the blocks are those of the entries in order followed by the directories, the last being the returned root; the returned total size is the length of all blocks; every file and symlink is found by its path from the root and reads back; walking from the root reports each entry with its content, each directory above once, and nothing else. The order of the entries and the sizes of the reads do not matter.", "quantifier": "every archive (list of entries), every way in which the files are read, every store which holds the blocks", "why_tests_cant": "all archives", "anchors": ["benches/ingest-tar.rs:ingest_tar", "src/file/adder.rs:push", "src/symlink.rs:serialize_symlink_block", "src/dir/builder/buffered.rs:put_link", "src/dir/builder/iter.rs:next_borrowed", "src/walk.rs:next"]}
{"id": "C87", "title": "Reading, walking and lookups end unless links go in circles", "statement": "If no endless chain of links starts at a Cid, then reading the file there (any range), walking the tree there, looking a name up there, and the example programs cat, get and resolve come to an end, whatever the blocks are. The number of blocks requested is at most the number of chains of links starting there. A block which links to itself makes reading and walking go on forever, so the condition is needed.", "quantifier": "every store, every block (also broken ones), every range, name, cache", "why_tests_cant": "all graphs of blocks", "anchors": ["src/file/visit.rs:continue_walk", "src/walk.rs:next", "src/dir/sharded_lookup.rs:continue_walk", "examples/cat.rs:walk", "examples/get.rs:walk", "examples/resolve.rs:walk"]}
{"id": "C88", "title": "What pending_links names is requested later", "statement": "When a read or a walk finishes, all Cids which pending_links named at any moment were requested after that moment: the first one at once, the others in the same order. The shards which pending_links of a lookup names are the next ones requested, in this order, and all of them are requested if the name is not found. So prefetching them never loads a block in vain unless something fails or the name is found.", "quantifier": "every store, every state of a visit, walk or lookup", "why_tests_cant": "all histories and continuations", "anchors": ["src/file/visit.rs:pending_links", "src/walk.rs:pending_links", "src/dir/sharded_lookup.rs:pending_links"]}
{"id": "C89", "title": "How many links are pending at a time", "statement": "If what is at a Cid is at most H links deep and its blocks have at most B links each, then pending_links of a read or of a walk from there never names more than H * (B - 1) + 1 Cids. For added files H is the smallest number for which branching factor ^ H chunks are enough, so the queue grows with the logarithm of the length.", "quantifier": "every store, every reachable state of a read or walk, every added file", "why_tests_cant": "all trees and all states", "anchors": ["src/file/visit.rs:pending_links", "src/walk.rs:pending_links", "src/file/adder.rs:flush_links"]}
{"id": "C90", "title": "What an adder keeps between pushes and leaves to finish", "statement": "After n whole chunks an adder keeps the bytes since the last chunk boundary, one link for each of the (n - 1) / bf link blocks it made and one for each chunk since then, and has returned n leaves and these link blocks. All link blocks of higher levels come from finish, so that its number of blocks and the memory of the adder grow in proportion to the content. (The comments in the code suggest that higher levels are compacted on the go; that expectation is refuted.)", "quantifier": "every content, chunk size, branching factor and history of pushes", "why_tests_cant": "all lengths and all ways to push", "anchors": ["src/file/adder.rs:push", "src/file/adder.rs:flush_buffered_links", "src/file/adder.rs:finish"]}
{"id": "C91", "title": "Strings are text, exactly", "statement": "Names in blocks (and paths and link targets where the programs demand text) pass the check for strings exactly if they are the UTF-8 encoding of a sequence of Unicode scalar values: no surrogates, no overlong forms, nothing above 0x10FFFF, nothing unfinished. All names of accepted blocks are text. The name of an entry of a sharded directory can be cut after the two byte label exactly if no character goes across.", "quantifier": "every byte string, every block, every position", "why_tests_cant": "all byte strings", "anchors": ["src/pb/merkledag.rs:from_reader", "src/dir/sharded_lookup.rs:partition", "src/walk.rs:convert_sharded_link", "examples/get.rs:walk"]}
{"id": "C92", "title": "A ranged read returns no more than was asked for", "statement": "Whatever blocks a client is given by the network, a read with a range never returns more bytes in total than the range has. (It holds if every leaf declares the size of its data, link blocks being arbitrary, and for every single call; it is false otherwise: a leaf which declares less than it has makes the following block overlap with it.) The total size reported at the start is only the claim of the root: a finished read may return more or fewer bytes.", "quantifier": "every range, every sequence of blocks accepted by a visit", "why_tests_cant": "arbitrary, also malicious, blocks", "anchors": ["src/file/visit.rs:continue_walk", "src/file/visit.rs:target_slice", "src/file/reader.rs:check_is_suitable_next"]}
{"id": "C93", "title": "Paths reported by a walk lead to somewhere below the root", "statement": "Whatever blocks a client is given by the network, the paths which a walk reports are safe to be joined to an output directory: they are relative and lead to somewhere below it. (They are always relative, and consist of the name of the root followed by names given by the blocks, none of which is empty or contains a slash; but an entry called `..` is reported as it is, so that the path may lead out of the directory. If no block names anything `..`, the paths lead to somewhere below the root.)", "quantifier": "every sequence of blocks accepted by a walk, every item it yielded", "why_tests_cant": "arbitrary, also malicious, blocks", "anchors": ["src/walk.rs:convert_link", "src/walk.rs:convert_sharded_link", "src/walk.rs:next"]}
{"id": "C94", "title": "Blocks are small", "statement": "No block returned by the adder is longer than one chunk of data (and at most the whole content) plus 35 bytes, or 64 bytes per link (at most branching_factor links, and at most one per chunk) plus 24; in the default configuration none is longer than 262158 bytes. So the blocks stay below 4 GiB unless the chunk size (or the branching factor) is of that order. Beyond 4 GiB a chunk is lost: no block can be read as carrying that much data, though the adder returns one.", "quantifier": "every content, every segmentation, every chunk size and branching factor, every moment of the addition", "why_tests_cant": "every content; sizes beyond memory", "anchors": ["src/file/adder.rs:flush_buffered_leaf", "src/file/adder.rs:flush_links", "src/file/adder.rs:Chunker", "src/pb.rs:try_parse"]}
{"id": "C95", "title": "A walk reads each file as a file visit of its own would", "statement": "The segments a walk reports for a file are, byte for byte, what a file visit of its own returns for the same blocks, with the same size and metadata; the first segment only is flagged first, and flagged last is the one at which the visit ends. To the next block of a file being read the walk answers what the visit answers: the same bytes or the same error, except that a block which cannot be parsed is a panic. Walking a store from the root of a file gives the bytes which reading it gives, fails if and as reading fails, and ends if reading ends.", "quantifier": "every root and root name, every sequence of supplied blocks (whatever they are), every next block and cache; every store (also with cycles or blocks missing)", "why_tests_cant": "every sequence of blocks and every store; the walk may never end", "anchors": ["src/walk.rs:Walker::next", "src/walk.rs:InnerEntry::as_file", "src/file/visit.rs:IdleFileVisit::start", "src/file/visit.rs:FileVisit::continue_walk"]}
{"id": "C96", "title": "Root names with slashes", "statement": "The first item of a walk is at the path which the root name is: absolute if it begins with a slash, its components being the nonempty pieces between slashes which are not '.', except for a '.' in front. If that path has one component (as '/a', 'a/' or './'), then the walk is the walk of the component: the same answers to the same blocks, the same pending links and the same end, only that paths are absolute if the name is. If it has none or several (as '/', 'a/b'), then a walk reports nothing but the root: the entries of a directory are never reached. Compared with a walk from a plain name, the answers about the root are the same, the same blocks are refused with the same errors, and in all other cases the walk panics.", "quantifier": "every root, every root name, every sequence of supplied blocks, every next block and cache", "why_tests_cant": "every root name and every sequence of blocks", "anchors": ["src/walk.rs:Walker::new", "src/walk.rs:InnerEntry::new_root_dir", "src/walk.rs:InnerEntry::set_path"]}
{"id": "C97", "title": "What Debug shows of a FileAdder", "statement": "Formatting a FileAdder with {:?} after any pushes shows the configured chunk size, the number of bytes since the last whole chunk, and how many links are pending: '[]' without a whole chunk, '[0: r]' with r leaves and no link blocks, '[1: g/0: r]' with g link blocks and r leaves, where g = (n - 1) / branching factor for n whole chunks and r = n - branching factor * g. It panics exactly if g or r is 2^31 or more.", "quantifier": "every chunk size and branching factor, every content, every sequence of pushes of it, every capacity of the buffer", "why_tests_cant": "every history of pushes; the panic needs 2^31 pending links", "anchors": ["src/file/adder.rs:impl Debug for FileAdder", "src/file/adder.rs:LinkFormatter"]}
{"id": "C98", "title": "The adder benchmark adds a balanced tree", "statement": "run_adder of benches/adder.rs, for every size below 2^50: it ends without a panic (its assertion holds), and the blocks it makes are those of the balanced tree over that many zero bytes in chunks of one byte with 174 links in a block, each node once, the root last.", "quantifier": "every size below 2^50", "why_tests_cant": "every size; tests and the benchmark use three", "anchors": ["benches/adder.rs:run_adder"]}
{"id": "C99", "title": "Messages are on one line", "statement": "The message of every error of the crate, whatever is in the block or path it is about, consists of printable characters: of ASCII those from space to tilde, and beyond ASCII only such as the standard library counts as printable. In particular there is no newline, no escape and no other control character in it, however hostile the names are; they are escaped.", "quantifier": "every error value: every name, hash, number, metadata, data and path in it; every table of printable characters beyond ASCII", "why_tests_cant": "every string in a block or path; a test tries a few", "anchors": ["src/lib.rs:impl Display for InvalidCidInLink", "src/file.rs:impl Display for FileReadFailed", "src/file.rs:impl Display for FileError", "src/pb.rs:impl Display for ParsingFailed", "src/dir.rs:impl Display for ResolveError", "src/dir/directory.rs:impl Display for UnexpectedDirectoryProperties", "src/dir/sharded_lookup.rs:impl Display for LookupError", "src/dir/sharded_lookup.rs:impl Display for ShardError", "src/walk.rs:impl Display for Error", "src/dir/builder.rs:impl Display for TreeBuildingFailed", "src/dir/builder.rs:impl Display for TreeConstructionFailed"]}
{"id": "C100", "title": "Messages tell errors apart", "statement": "Two errors of a walk have the same message exactly if they are the same error with the same contents, apart from the bytes of a link's hash, the single block sizes (their number is shown), and absent versus empty data. The message about a link which is not a Cid tells its index, its name and what is wrong. The message of an error of the tree builder tells the error and the whole path. No choice of names makes one message look like another. A name or path without double quotes, backslashes and hidden characters is shown as it is.", "quantifier": "every two errors of a walk, of a link, of the tree builder; every names and paths which are text", "why_tests_cant": "every pair of error values", "anchors": ["src/walk.rs:impl Display for Error", "src/lib.rs:impl Display for InvalidCidInLink", "src/dir/builder.rs:impl Display for TreeBuildingFailed", "src/file.rs:impl Display for FileError"]}
{"id": "C101", "title": "The listing printed by get cannot be forged", "statement": "What the example program get prints: each entry is on a line of its own, with printable characters only and a newline only at its end; and two runs on whatever blocks which print the same text have found the same entries, so that the text can be read back: no name of an entry or target of a symlink can look like another line or column.", "quantifier": "every store of blocks, every start, every way in which the run ends; every table of printable characters", "why_tests_cant": "every name and symlink target in every tree", "anchors": ["examples/get.rs:walk"]}
{"id": "C102", "title": "Debug output of errors is complete and on one line", "statement": "What {:?} prints of an error of the crate (with unwrap, or in a log) shows all that is in it: two errors which print the same are the same error with the same contents, including the hash of a link, all block sizes and, for an error of parsing, all links and the data of the node. The same holds for the items of a walk. All of it, and what is printed of results of lookups and of nodes of a tree, is on one line without control characters, whatever names are in it.", "quantifier": "every two errors of each type, every two items of a walk; every name and path which is text; every table of printable characters beyond ASCII", "why_tests_cant": "every pair of values, every string in a block", "anchors": ["src/file.rs:FileReadFailed", "src/file.rs:FileError", "src/pb.rs:ParsingFailed", "src/pb/merkledag.rs:PBNode", "src/dir.rs:ResolveError", "src/dir.rs:MultipleMatchingLinks", "src/dir/sharded_lookup.rs:LookupError", "src/dir/sharded_lookup.rs:ShardError", "src/dir/directory.rs:UnexpectedDirectoryProperties", "src/walk.rs:Error", "src/walk.rs:ContinuedWalk", "src/walk.rs:FileSegment", "src/dir/builder.rs:TreeBuildingFailed", "src/dir/builder/iter.rs:impl Debug for TreeNode"]}
{"id": "C103", "title": "The chain of causes of an error", "statement": "Calling source() again and again on any error of the crate ends, after at most two steps. What it gives is in the error, its message is the end of the message of the error, and if the error was caused by the decoder of protobuf or of Cids then the last cause is that decoder's error. Turning a LookupError into a ResolveError changes neither message nor cause.", "quantifier": "every error of every public error type, with any contents; every text of the errors of other crates", "why_tests_cant": "every error value", "anchors": ["src/lib.rs:InvalidCidInLink", "src/pb.rs:ParsingFailed", "src/file.rs:FileReadFailed", "src/dir.rs:ResolveError", "src/dir/sharded_lookup.rs:LookupError", "src/walk.rs:Error", "src/dir/builder.rs:TreeConstructionFailed"]}
{"id": "C104", "title": "Cids as text", "statement": "The text of a Cid, read again, gives the Cid, also behind /ipfs/ or behind anything which ends with the first /ipfs/, and as the root of a path; so different Cids have different texts. It consists of letters and digits: 46 beginning with Qm for version 0, the number of the bytes in base 58; a b and the bits of the bytes in base 32 for version 1, in particular 59 beginning with bafybei for every block this library makes. A text of the form of version 0 is read only as the Cid of which it is the text; a text of version 1 may have more digits, which are ignored. Exactly those texts are read as a Cid which are digits, in base 58 or in the base of their first letter, without excess bits, of bytes which begin with those of the Cid (C53).", "quantifier": "every Cid, every text, every text before it, every names behind it, every implementation of the other bases", "why_tests_cant": "all Cids", "anchors": ["examples/resolve.rs:try_from", "examples/resolve.rs:main", "examples/cat.rs:main", "examples/get.rs:main", "examples/add.rs:fmt"]}
{"id": "C105", "title": "The example programs as whole processes", "statement": "The programs cat, get and resolve take the text of a Cid (or a path) as argument, look for every block in exactly one file of the repository (blocks/, two letters of the Cid in base 32, the Cid in base 32 with .data), and different Cids have different files. cat writes the content and nothing else to standard output; if blocks are missing, a beginning of it; the exit code is 0 exactly if all of it was visited. What add printed as Cid can be given to cat, which writes what add read. resolve writes lines on its progress to standard output, so that it is never the Cid alone as its explanation says, and then the Cid as last line if and only if it was found; not finding it is exit code 0 with 'not found' on standard error. get lists the tree. After adding files, building directories and storing all blocks, the three programs agree: the last line of resolve with the path of a file, given to cat, writes the content of the file. Without argument they write nothing to standard output and exit with 0; without a repository or with an argument which is no Cid with 1.", "quantifier": "every argument, every repository and content of files, every input of add, every history of put_link and set_metadata", "why_tests_cant": "every content of every block store and every argument", "anchors": ["examples/resolve.rs:main", "examples/resolve.rs:walk", "examples/cat.rs:main", "examples/cat.rs:as_path", "examples/get.rs:main", "examples/add.rs:fmt"]}
{"id": "C106", "title": "The buffers a FileAdder reserves", "statement": "A FileAdder allocates its buffer for a part of a chunk with the first push which does not give a whole chunk, with room for a whole chunk, and its two buffers for links with the first completed chunk, with room for the links of one block; none of them is ever reallocated, so that the memory they take is bounded by the configuration and not by the content. If a chunk is larger than isize::MAX bytes, every push panics (capacity overflow), even one of no bytes; if the links of a block are, every push which completes a chunk and every finish does, so that no block is ever returned; with all other configurations no push or finish panics because of a buffer, and reserving changes nothing of what they return.", "quantifier": "every chunk size and branching factor, every content, every sequence of pushes of it, every size of a link", "why_tests_cant": "every configuration and every history of pushes; the panics need sizes which no test uses", "anchors": ["src/file/adder.rs:push", "src/file/adder.rs:flush_links", "src/file/adder.rs:size_hint"]}
{"id": "C107", "title": "Times of modification as FileTime", "statement": "For every file that is visited, mtime_as_filetime gives a FileTime iff the file's first block declares a time of modification, with the declared seconds since 1970-01-01 and the declared nanoseconds (0 if not given), and without panic; every pair of an i64 and a u32 is declared by some file. On Windows it panics iff the declared seconds are within 11644473600 of the largest i64. FileTimes of two files compare as the points in time which the files declare if both have less than a second of nanoseconds; nothing refuses more nanoseconds, and then the order may be wrong.", "quantifier": "every block, every target range, both kinds of platforms, every pair of files", "why_tests_cant": "every i64 and u32 can be declared; overflow on another platform than that of the tests", "anchors": ["src/lib.rs:mtime_as_filetime", "src/lib.rs:Metadata"]}
{"id": "C108", "title": "Reading blocks in a release build", "statement": "With overflow checks off, parsing a block gives the result of a build with them on, unless fields of a link, or of the modification time in its Data, go on behind their end until an unknown field with a length (C51); only such blocks can make parsing run forever, and behind any well-formed fields a link of 18 bytes, or a modification time of 15 bytes, does so; other such blocks are accepted although a checked build panics. Whatever is accepted, hashes, names and data are parts of the block, names are UTF-8, numbers are in the range of their type.", "quantifier": "every block below 2^63 bytes, every sequence of fields before and after the offending one", "why_tests_cant": "the reader may go back; whether it ends is a question about all runs", "anchors": ["src/pb.rs:try_parse", "src/pb/merkledag.rs:PBLink::from_reader", "src/pb/unixfs.rs:Data::from_reader"]}
{"id": "C109", "title": "Release builds on arbitrary blocks", "statement": "On blocks which nothing overruns (C51, C108), visits and walkers of a release build answer as C67-C69 say, and look-ups as in a checked build, step by step and over whole files and trees. On arbitrary blocks, start and continue_walk panic exactly for what C68 says of the message a release build reads from the block; reading a whole file over any store whose leaves declare their size never panics; a call does not return only for a block which is read forever, and then no reading, walk or look-up beginning with it ever ends.", "quantifier": "every block below 2^63 bytes, every state of a visit, walker or look-up, every store and every run over it", "why_tests_cant": "divergence and panics for all blocks and states", "anchors": ["src/file/visit.rs:continue_walk", "src/walk.rs:next", "src/dir.rs:resolve"]}
{"id": "C110", "title": "Blocks on platforms with 32 bits", "statement": "Where usize has 32 bits, a block is accepted as a UnixFS node exactly if it is a sequence of well-formed dag-pb fields whose last Data field is a non-empty sequence of well-formed UnixFS fields, where the lengths of unknown fields count modulo 2^32; the reasons for refusing are as for C81. So what a 64-bit build accepts is accepted as the same; what only the 32-bit build accepts has an unknown field whose length was cut, and there are such blocks. Exactly those blocks panic there which begin with proper fields followed by data, a link or a modification time whose end would lie at or behind 2^32 (a 64-bit build refuses many of them, and six bytes suffice), or by a link with such a field in it, or by a link or modification time whose fields go on behind its end until an unknown field with a length, as they make a 64-bit build panic too.", "quantifier": "every block shorter than 2^32 bytes", "why_tests_cant": "all blocks, on another platform than the one tests run on", "anchors": ["src/pb.rs:try_parse", "src/pb/merkledag.rs:from_reader", "src/pb/unixfs.rs:from_reader"]}
{"id": "C111", "title": "Reading files and trees on platforms with 32 bits", "statement": "Where usize has 32 bits, on every block which a 64-bit build accepts, starting a visit, looking a name up and a step of a walker do the same as there; continuing a visit with a target range does, too, unless the block has fewer bytes than the range asks for, where a 64-bit build panics. Reading a file or a range of it and walking a tree have the same outcome as on 64 bits over any store whose blocks are each shorter than 4 GiB, unless the 64-bit build ends with a block which is refused, or with that panic; so well-formed files of any size, and any range of them, read back. A crafted file for which the 64-bit build panics is read there with wrong bytes.", "quantifier": "every store of blocks shorter than 2^32 bytes, every target range, every walker and visit", "why_tests_cant": "all files, in particular those larger than 4 GiB, on another platform than the one tests run on", "anchors": ["src/file/visit.rs:target_slice", "src/file/visit.rs:continue_walk", "src/walk.rs:next", "src/dir.rs:resolve"]}
{"id": "C112", "title": "Where paths lead to in release builds", "statement": "In a release build, whatever blocks are given to a walker, every path it reports is absolute exactly if the root name is, and each of its components is one of the root name or a name which one of the blocks gave, not empty and without a slash. So no path leads out of where it starts unless the root name has `..` in it or a block names something `..`. That the paths lie below the root name is false even without `..`: after an entry called `.`, or one with only the two-byte label of a shard, which is not a shard, release builds drop components of the path, so that what is in `r` may be reported outside of it. Over stores without such entries the paths are the root name followed by names from the blocks.", "quantifier": "every sequence of blocks given to a walker, every root name; every store for what lies below the root", "why_tests_cant": "all blocks, also hostile ones, in builds without debug assertions (tests run with them)", "anchors": ["src/walk.rs:set_path", "src/walk.rs:as_bucket", "src/walk.rs:next", "src/walk.rs:convert_link", "src/walk.rs:convert_sharded_link"]}
{"id": "C113", "title": "When walking does not panic in release builds", "statement": "In a release build, over a store whose names are proper (entries of directories have one, it is not empty and has no slash; labels of shards have two bytes or more), in which nothing is called `.`, links of shards with a label only lead to shards, no directory inside of a sharded directory is empty, leaves of files declare their size and what files link to is not refused as a block, a walk never panics, whatever else is wrong with the blocks: neither at any step, nor while it is asked for what to load, with any cache which can be obtained. For each of these conditions there is a store which meets all others and over which the walk panics.", "quantifier": "every store of that kind, every root name without a slash, every history of the walk, every obtainable cache", "why_tests_cant": "all stores, also with damaged or missing blocks, in builds without debug assertions (tests run with them)", "anchors": ["src/walk.rs:next", "src/walk.rs:pending_links", "src/walk.rs:as_bucket", "src/walk.rs:set_path", "src/file/visit.rs:continue_walk", "src/file/reader.rs:from_parts"]}
{"id": "C114", "title": "With verified blocks a Cid stands for one thing", "statement": "A client which checks each block against the sha2-256 in its Cid reads the same from a file, finds the same names in directories and along paths, and is reported the same by a walk as any other such client, wherever the blocks come from, whatever they are, up to the first block which one of them lacks. So whoever has the root Cid of what was added reads exactly that content, or the requested part of it, or misses a block; whoever has the root Cid of a built tree is reported exactly its files with their contents at their paths and its directories, and finds by a path exactly what was put there, or misses a block.", "quantifier": "every pair of stores of verified blocks without a sha2-256 collision, every root, range, name, path and cache; every content, configuration and history of builder calls for what was published", "why_tests_cant": "all blocks and all stores, also of hostile peers", "anchors": ["src/file/visit.rs:continue_walk", "src/walk.rs:next", "src/dir/sharded_lookup.rs:continue_walk", "src/dir.rs:resolve", "src/file/adder.rs:finish", "examples/resolve.rs:walk"]}
{"id": "C115", "title": "In release builds reading, walking and look-ups end", "statement": "Also in a release build, where reading a block may never end, reading a file, a part of it, walking a tree and looking a name up come to an end, with no more steps than there are blocks below the root, unless links, as the release build reads them, go around in circles below it, or there is a block below it which is read forever; over blocks which nothing overruns, unless links go around in circles. Both conditions are needed.", "quantifier": "every store of arbitrary blocks, every root, range, name and cache", "why_tests_cant": "all stores, also with hostile blocks; unbounded numbers of steps", "anchors": ["src/file/visit.rs:continue_walk", "src/walk.rs:next", "src/dir/sharded_lookup.rs:continue_walk", "src/dir.rs:resolve", "src/pb.rs:try_from"]}
{"id": "C116", "title": "In release builds a ranged read returns no more than was asked for", "statement": "In a release build one call of a visit with a byte range never returns more bytes than the range has, whatever the blocks are. If every leaf declares the size of its data, then all calls together never return more than that either, provided no block is so long that, placed at the end of the range, it would reach byte 2^64. Without the proviso this is false, even of honest leaves: the end of such a leaf wraps around to a small number, and the range is read again.", "quantifier": "every byte range, every sequence of arbitrary blocks, every number of calls", "why_tests_cant": "all sequences of hostile blocks and wrapping offsets", "anchors": ["src/file/visit.rs:continue_walk", "src/file/visit.rs:target_slice", "src/file/reader.rs:from_parts", "src/file/reader.rs:check_is_suitable_next"]}
{"id": "C117", "title": "Added files share the blocks of equal pieces", "statement": "The blocks of an added file are exactly these: at every level, from the leaves to the first level where one block spans the whole content, one block for each piece of the content of as many bytes as a full block of that level spans. Each depends on the level and these bytes alone, so equal pieces have one block, in one file or in two. Their number follows from the length. Two contents with a common beginning share the blocks of its whole pieces; appending to a file replaces only, at each level, the block of an incomplete last piece; overwriting bytes in place changes only the blocks of pieces with such bytes, one at each level if they are all in one chunk.", "quantifier": "every chunk size, branching factor and content, every pair of contents", "why_tests_cant": "all contents, chunk sizes and depths", "anchors": ["src/file/adder.rs:push", "src/file/adder.rs:finish", "src/file/adder.rs:flush_buffered_links"]}
{"id": "C118", "title": "A call of the builder changes only the directories above its path", "statement": "The block, Cid and total size of a built directory depend only on what is at the paths below it: wherever the directory is, whichever builder it is in and however it got there. So after one more successful call everything built for directories which do not lead to its path is as before, and of the nodes built at most as many are new as the path has components (one more if the call makes a directory). The call does change all directories which lead to it, if there was nothing at its path: they get other Cids, the root among them, unless two blocks collide.", "quantifier": "every history of calls of the builder, every further successful call, every directory", "why_tests_cant": "all histories and trees of any depth", "anchors": ["src/dir/builder/buffered.rs:put_link", "src/dir/builder/buffered.rs:set_metadata", "src/dir/builder/iter.rs:next", "src/dir/builder/iter.rs:render_directory"]}
{"id": "C119", "title": "What a ranged read of an added file asks for", "statement": "Reading a range of bytes of an added file asks, at every level of the tree below the root, for the block of each piece of the content which the range touches (pieces which only end or begin where the range begins or ends included), once for each such piece, and for no others. So a range of no more bytes than a chunk has takes at most three blocks of each level, however large the file is. Without a range every block but the root is asked for once for each piece it stands for.", "quantifier": "every content, chunk size, branching factor and range", "why_tests_cant": "all contents, ranges and depths", "anchors": ["src/file/visit.rs:continue_walk", "src/file/visit.rs:start", "src/file/visit.rs:block_is_in_target_range", "src/file/adder.rs:finish"]}
{"id": "C120", "title": "What a walk asks for", "statement": "A walk which finishes, over whatever blocks, has asked for its root and everything below it depth first: each block, then what is below its first link, then what is below its second link, and so on. All links are followed, once for each time their block is visited; only the links of symlinks are not. A walk which stops before has asked for the first blocks in this order. Reading a whole file asks for its blocks in the same order. So the blocks asked for are exactly those to which a chain of links leads, and walking a well-formed tree gets them all.", "quantifier": "every store, root, name and cache; every way to stop", "why_tests_cant": "all shapes of trees and all ways in which links can share blocks", "anchors": ["src/walk.rs:next", "src/walk.rs:pending_links", "src/file/visit.rs:continue_walk", "src/file/visit.rs:pending_links"]}
{"id": "C121", "title": "Walking and looking up agree", "statement": "After a walk over whatever blocks has finished, a file, directory or symlink with a Cid was reported at a path exactly if the names of the path lead from the root to this Cid, through entries of plain or sharded directories, as name resolution follows them; nothing is reported elsewhere. So a Cid which the resolve example finds for a path was reported at this path; and if no path was reported for two different Cids, nothing was reported at a path for which it says that there is nothing.", "quantifier": "every store, root, root name without slashes and cache; every list of names", "why_tests_cant": "all trees, with shared blocks and repeated names", "anchors": ["src/walk.rs:next", "src/dir.rs:resolve", "src/dir/sharded_lookup.rs:continue_walk", "examples/resolve.rs:walk"]}
{"id": "C122", "title": "What can be walked can be resolved", "statement": "Over whatever blocks a walk was done to its end, looking up any names from the same root ends as well, without a panic, a missing block or an unreadable one: it finds a Cid, or says that there is nothing, or fails because one directory block has two entries of the name, which the walk has begun both, or because a name is to be looked up in a file or symlink. If the walk began no path twice, a Cid is found exactly if it was reported at this path; and it is said that there is nothing there, or that the names go through something other than a directory, exactly if nothing was reported there.", "quantifier": "every store, root, root name without slashes and cache; every list of names", "why_tests_cant": "all trees, with shared blocks and repeated names, all names", "anchors": ["src/walk.rs:next", "src/dir.rs:resolve", "src/dir/sharded_lookup.rs:continue_walk", "examples/resolve.rs:walk"]}
{"id": "C123", "title": "What can be read to the end can be read in parts", "statement": "A block is the root of a well-formed file exactly if it can be read to the end and the sizes in the blocks below it add up: a block without links declares the length of its data, a block with links declares the sum of the sizes it gives to its links and has no data of its own, and these sizes are those which the linked blocks declare. Any range of such a file can then be read as well, which gives the bytes in the range, asks only for blocks which the whole read asks for, in the same order, and the size reported at the start is the number of bytes of the whole read. Without the condition this fails: a root which declares less than its links can be read to the end, but not every range of it; and if a link is given a smaller size than the linked block has, a range can come out with bytes missing, without an error.", "quantifier": "every store, every root in it, every range", "why_tests_cant": "all trees of blocks, with shared blocks, all ranges", "anchors": ["src/file/visit.rs:start", "src/file/visit.rs:continue_walk", "src/file/reader.rs:from_parts", "src/file/visit.rs:with_target_range"]}
{"id": "C124", "title": "Written blocks have the form which dag-pb prescribes, byte by byte", "statement": "The blocks which the adder returns are those of the balanced tree of the content, with every byte prescribed: links first, each with a Cid of version 1, an empty name and the total size below, then the data with the type, the bytes (if any), the file size and one block size per link; all lengths and numbers are as short as possible and no other fields are there. The blocks of a built directory have exactly one link per entry, in the order of the names, and the two bytes of the directory type; what is appended for a symlink is its type and its target. A block in this form can be read in one way only, and its contents, or the tree, determine the block.", "quantifier": "every content, chunk size, branching factor, history of pushes; every builder state and options; every target", "why_tests_cant": "all contents, trees and sizes; readers in other implementations see only the bytes", "anchors": ["src/pb.rs:write_message", "src/pb/merkledag.rs:write_message", "src/pb/unixfs.rs:write_message", "src/dir/builder/custom_pb.rs:write_message", "src/file/adder.rs:render_and_hash", "src/symlink.rs:serialize_symlink_block"]}
{"id": "C125", "title": "Look-ups in sharded directories go level by level, and find the first entry", "statement": "However the shards of a directory hang together, a look-up asks for them level by level, from left to right within a level, following the order of the links; at every point, also of look-ups which are broken off or fail, what was asked for followed by the pending links is a beginning of that order, and no block seen so far has an entry of the name. What is found is the entry in the block asked for last, so of several entries of the same name in different shards it is the one first in that order; nothing is asked for if it is in the root. Not found is answered exactly after all shards were asked for, so that look-ups of any two absent names ask for the same shards in the same order. Directories which are not sharded are never asked about further.", "quantifier": "every store, root block, name, cache and history of look-up steps", "why_tests_cant": "shards of all shapes and stores, including repeated and cyclic ones", "anchors": ["src/dir/sharded_lookup.rs:continue_walk", "src/dir/sharded_lookup.rs:pending_links", "src/dir/sharded_lookup.rs:partition", "src/dir.rs:resolve"]}
{"id": "C126", "title": "Exporting an ingested archive and ingesting it again gives the same directory", "statement": "Ingest an archive (files added with the adder, symlinks serialised, all put into a wrapping directory builder), store the blocks, walk the root, and make an archive of what the walk reports: an entry for each directory, each symlink with its target, and each file with the bytes of its segments. That archive has every entry of the first, with the same content, besides those only directories above entries, and no path twice; and ingesting it succeeds, with the same root Cid, total size and length, and the same blocks.", "quantifier": "every archive which can be ingested and whose paths are not empty and have no component '.', every store with its blocks, every obtainable cache", "why_tests_cant": "all archives and trees; crosses all parts of the library", "anchors": ["benches/ingest-tar.rs:ingest_tar", "src/walk.rs:next", "src/file/adder.rs:push", "src/file/adder.rs:finish", "src/dir/builder/buffered.rs:put_link", "src/dir/builder/buffered.rs:set_metadata", "src/dir/builder/iter.rs:next_borrowed", "src/symlink.rs:serialize_symlink_block"]}
{"id": "C127", "title": "Storing a file costs at most 275 bytes a chunk more than its content, and moderate directories are never refused", "statement": "The blocks the adder returns for n bytes have together at least n bytes, and at most n plus 275 bytes for each chunk, whatever the branching factor from two up; in the default configuration at most 80 bytes for each chunk of 256 KiB and 24 more, so less than one byte in three thousand and 128 bytes. The block of a directory takes at most 44 bytes for each entry, besides its name and its Cid, and four more; so with the default limit directories of up to 1300 entries, with names of up to 255 bytes and Cids of up to 100 bytes, are never refused as too large.", "quantifier": "every content, chunk size, branching factor of at least two and way of pushing; every builder reachable by any calls", "why_tests_cant": "sums over trees of any depth and width", "anchors": ["src/file/adder.rs:push", "src/file/adder.rs:finish", "src/file/adder.rs:flush_buffered_leaf", "src/file/adder.rs:flush_buffered_links", "src/file/adder.rs:BalancedCollector", "src/dir/builder/iter.rs:render_directory", "src/dir/builder.rs:TreeOptions"]}
{"id": "C128", "title": "What is kept of untrusted blocks is no larger than the blocks", "statement": "What a block is read as (the hashes and names of its links, the data, the blocksizes) takes no more bytes than the block. A visit of a file keeps for its pending links no more bytes (digests and four for each Cid) than the blocks given to it had; a walk keeps for the current entry, its path, the ongoing file and all links not yet taken no more than the first Cid and name and the blocks given to it; a look-up in a sharded directory names no more than its blocks. So no input, however crafted, makes them keep more than a constant times what was fed to them.", "quantifier": "every sequence of blocks, also ones which are not the blocks asked for, steps which fail, every range, cache, name and root name", "why_tests_cant": "every list of byte strings of any length, in any order", "anchors": ["src/pb.rs:FlatUnixFs", "src/file/visit.rs:IdleFileVisit", "src/file/visit.rs:FileVisit", "src/walk.rs:Walker", "src/walk.rs:InnerEntry", "src/dir/sharded_lookup.rs:ShardedLookup"]}
{"id": "C129", "title": "In release builds what is kept of untrusted blocks is at most quadratic in their sizes", "statement": "In a release build, where the parser may go back in a block (C108), every field still takes two bytes of the block which no other link or blocksize takes, so that a block of n bytes (n < 2^63) is read as at most n/2 links and n/2 blocksizes, and as at most n(n+3) bytes in all. A visit of a file and a look-up keep at most 34 times what was given to them; a walk keeps at most the first Cid and name and n(n+1) bytes for every block of n bytes. The linear bound of C128 does not hold: there is a block of 311 bytes, with which a checked build panics, of which a walk of a release build keeps more than 750, because the names of its links overlap.", "quantifier": "every sequence of blocks, also ones which are not the blocks asked for, steps which fail, every range, cache, name and root name; release builds", "why_tests_cant": "every list of byte strings of any length, in any order", "anchors": ["src/pb.rs:FlatUnixFs", "src/pb/merkledag.rs:PBNode", "src/pb/merkledag.rs:PBLink", "src/pb/unixfs.rs:Data", "src/file/visit.rs:FileVisit", "src/walk.rs:Walker", "src/dir/sharded_lookup.rs:ShardedLookup"]}
{"id": "C130", "title": "Walking in a release build: what is asked for, what is reported, and when exactly it panics or never answers", "statement": "In a release build, walking from any Cid with any root name over any blocks, every block which was given determines what is asked for next: the links of a directory one level deeper, of a shard one level deeper or at the same level for those with two bytes for a name, of a file its parts, each before what was waiting. The walker goes on exactly while something is waited for, and asks for exactly these Cids in this order. What it reports of a block is determined by the block, by what was reported last and by how many levels were left since: the path is the last one without so many components and with the name of the link, where no name, and `.` unless in front, adds nothing; so paths can lose components (C112). With a block it panics exactly if the name of a link is missing, empty, has a slash or is shorter than a label before any link without a valid Cid; or if more components have to be removed from the last path than it has; or if a bucket follows a directory; or if the first block of a file is a leaf without a size; or if a further block of a file cannot be parsed or is such a leaf (C109). It never answers exactly if it parses the block and parsing it never ends. This makes the sufficient conditions of C113 exact.", "quantifier": "every root Cid, every root name, every sequence of blocks of any content, every cache which callers can have, at every step; release builds", "why_tests_cant": "every sequence of arbitrary blocks of any length", "anchors": ["src/walk.rs:Walker::next", "src/walk.rs:Walker::pending_links", "src/walk.rs:InnerEntry::as_bucket", "src/walk.rs:InnerEntry::as_directory", "src/walk.rs:convert_link", "src/walk.rs:convert_sharded_link"]}
{"id": "C131", "title": "Which blocks visits and walkers of a release build refuse, and why", "statement": "In a release build, when a visit of a file or a walker refuses a block, the error which it gives names a true reason: the block cannot be read (the error of the parser); or its type is not one of a file; or the numbers of links and sizes differ; or a leaf without content has a size which is not 0; or properties of a shard are there; or a node with links lacks the file size; or a part of the file which is wanted has a link without a valid Cid (with its number, its bytes and its name), where a part whose offsets wrap around at 2^64 is wanted only without a range; for later blocks also that the offsets do not follow the last ones, or that the block has metadata; for walkers also an unsupported type, directory or shard, or a link of one without a valid Cid. And a block is taken exactly if it is answered, does not panic (C109, C130), and there is no such reason. Debug builds: C64.", "quantifier": "every target range, every block, every state of a visit, every walk from any Cid with any root name, every cache which callers can have; release builds", "why_tests_cant": "every sequence of arbitrary blocks, and every number in them, including those whose sums wrap around", "anchors": ["src/file/reader.rs:FileReader::from_parts", "src/file/visit.rs:FileVisit::continue_walk", "src/file/visit.rs:IdleFileVisit::start", "src/walk.rs:Walker::next", "src/file/reader.rs:Ending::check_is_suitable_next"]}
{"id": "C132", "title": "Resolving and looking up in release builds", "statement": "In a release build, resolve does not return exactly if reading the block never ends; otherwise its answer is exactly what the message which is read says: for a directory, and for a dag-pb node which is not UnixFS, the link of that name if it is the only one and has a valid Cid, and otherwise not found or the error with the numbers of the first two such links; for a shard what its links say (C65); for other types, and directories with properties of other types, an error. The same holds for continue_walk in every state of a look-up. They panic exactly at a link of a shard whose name cannot be cut, all links before it being fine; a look-up can always be asked what it needs. At every point of a look-up what was asked for, followed by what is pending, is a beginning of the shards in the order of their levels, and no block seen so far has an entry of the name; what is found is an entry of the block which was asked for last; not found is answered after all levels.", "quantifier": "every block, name, cache which callers can have, store, and history of look-up steps; release builds", "why_tests_cant": "every sequence of arbitrary blocks, also those on which the parser of a release build goes back or never ends", "anchors": ["src/dir.rs:resolve", "src/dir/sharded_lookup.rs:ShardedLookup::continue_walk", "src/dir/sharded_lookup.rs:ShardedLookup::lookup_or_start", "src/dir/sharded_lookup.rs:ShardedLookup::pending_links"]}
{"id": "C133", "title": "What release builds build when total sizes wrap", "statement": "In a release build, all answers of the iterator over a directory tree, however often it is called and also after errors, are a function of the tree. When no directory is too large for the limit they are the nodes, one for each directory (and for the root when wrapping), each after those below it, then None forever. The block of each parses as a UnixFS directory whose links are the entries in the order of their names, with the Cids and total sizes which were put or those of the nodes built before; its total size is that of its own block and all blocks and links below it, modulo 2^64. No call ever panics exactly if every directory but the last one is within the limit: too large totals never make it panic. Whenever a checked build has no such panic, the answers of both are the same.", "quantifier": "every builder which can be obtained through the API (all histories of put_link and set_metadata, with any u64 total sizes, and all options), every number of calls of next; release builds", "why_tests_cant": "total sizes are arbitrary u64 values supplied by the caller, and wrapped ones are written into the blocks of all directories above", "anchors": ["src/dir/builder/iter.rs:PostOrderIterator::next_borrowed", "src/dir/builder/iter.rs:PostOrderIterator::render_directory", "src/dir/builder/iter.rs:PostOrderIterator::next"]}
{"id": "C134", "title": "What cat and get write when reading or writing fails", "statement": "Opening a block's file, reading it and writing to standard output may fail at any time, the last two after any part of what was to be read or written. Whatever fails during a run of the cat example: what arrives at standard output is a beginning of what would have been written without failures; it exits with 0 only if all of that arrived, and then both counters are right; a traversal error or a panic only happens if it would have happened anyway. For a file all of whose blocks are well-formed this means: a beginning of the content arrives, never anything else; the exit code is 0 or 1, and 0 only if the whole content arrived; 1 only for errors of reading or writing. The same holds of get, where what arrives consists of whole lines unless writing fails, in which case it panics (101). There is always a run in which nothing fails, where everything arrives.", "quantifier": "every block store, every starting Cid, every way in which opening, reading and writing succeed or fail", "why_tests_cant": "the properties quantify over every point at which reading or writing may fail and every part which may have been written by then", "anchors": ["examples/cat.rs:main", "examples/cat.rs:walk", "examples/get.rs:main", "examples/get.rs:walk"]}
{"id": "C135", "title": "The example programs in release builds", "statement": "Built for release, over a store all of whose blocks parse the same in release builds, the cat and get examples end with the same output, counters and result as in debug builds, unless the debug build stops at a checked arithmetic overflow or debug assertion; resolve always gives the same result. In particular a release build of cat writes the whole content of a well-formed file with both counters right. Over any store at all: cat writes what reading the file in a release build gives and ends with the same error; get writes the lines of what a release walk reports, up to the first symlink whose target is not text; resolve goes from name to name with what a release look-up finds, and stops at the first failure, missing block or name not found. None of them runs forever unless links lead around in a circle or there is a block whose parsing never ends (C108); with such a block none of them ever ends.", "quantifier": "every block store, every starting Cid and every path", "why_tests_cant": "the blocks a program meets and the places at which wrapped arithmetic matters are arbitrary, and 'does not end' cannot be observed by a test", "anchors": ["examples/cat.rs:walk", "examples/get.rs:walk", "examples/resolve.rs:walk"]}
{"id": "C136", "title": "What resolve writes when reading or writing fails", "statement": "In a run of the resolve example, opening a block's file, reading it and writing any line to standard output or standard error may fail at any time, writing after any part. Whatever fails: what arrives at standard output is a beginning of what would have been written without failures. The exit code is 0 only if it would have been 0 anyway, and then all of both outputs arrived: the path was resolved, and either the last line at standard output is the Cid it leads to, or it leads nowhere and standard error ends with 'not found'. A complete line which arrived and is the text of a Cid is always the one the path leads to. A failure of println! or eprintln! is a panic (101); an error of resolving, or another panic, only happens if it would have happened anyway; a run which would never end ends only by a failure. There is always a run in which nothing fails.", "quantifier": "every path, every block store, every way in which opening, reading and writing succeed or fail", "why_tests_cant": "the properties quantify over every point at which reading or writing may fail and every part which may have been written by then", "anchors": ["examples/resolve.rs:main", "examples/resolve.rs:walk"]}
{"id": "C137", "title": "The add example as a whole process", "statement": "In a run of the add example, reading standard input may fail at any time and so may writing any line to standard error, after any part of it. If a read fails before the end of the input, the program panics (101) with nothing said before. Otherwise it depends on the bytes which were read, not on how the reads divided them. If there are 2^31 or more groups of pending links, what is said of the adder panics (the counter of its Debug is an i32) and the program never finishes. If not, what arrives at standard error is a beginning of: 'finishing', the adder's Debug text, the number of the blocks of adding this input with the sum of their sizes and the root's Cid, and the lines about time and memory; the exit code is 0 exactly if all of it arrived. If the sizes of the tree do not fit into 64 bits the program panics at finishing. It can exit with 0 exactly if the input is read to its end, the counter does not overflow and the sizes fit; for all inputs below 2^50 bytes this is so.", "quantifier": "every input, every division of it into reads, every point at which a read or a write fails, every part written by then", "why_tests_cant": "the properties quantify over every input of any size and every point at which reading or writing fails", "anchors": ["examples/add.rs:main", "examples/add.rs:Stats", "src/file/adder.rs:FileAdder", "src/file/adder.rs:LinkFormatter"]}
{"id": "C138", "title": "What a walk and a read ask for in release builds", "statement": "In a release build (overflow checks and debug assertions off), whatever the blocks are: a walk which finishes has asked for its root and everything below it, depth first, following all links of each block in their order as a release build reads the block, except the links of symlinks; a block which can be reached in several ways is asked for each time. A walk which stops for any reason has asked for a beginning of this order, if there is one. Reading a whole file asks for the root and everything below it in the same order. There is at most one such order, and what is in it are exactly the Cids which chains of links lead to. Over blocks which nothing overruns it is the order of a checked build (C120).", "quantifier": "every store with any bytes in its blocks, every root, every cache a caller can have", "why_tests_cant": "the order and completeness are about every store of any size and depth, also with hostile blocks whose declared lengths overrun; tests only use well-formed fixtures and checked builds", "anchors": ["src/walk.rs:Walker::next", "src/file/visit.rs:FileVisit::continue_walk", "src/file/visit.rs:IdleFileVisit::start"]}
{"id": "C139", "title": "A walk in a release build reads each file as a file visit of its own would", "statement": "In a release build the segments a walk reports for a file are, byte for byte, what a file visit of its own returns for the same blocks, with the same size and metadata; the first segment only is flagged first, and flagged last is the one at which the visit ends. To the next block of a file being read the walk answers what the visit answers: the same bytes or the same error, except that a block which cannot be parsed is a panic; and it does not answer if the visit does not (if parsing the block never ends). Walking a store from the root of a file gives the bytes which reading it gives, fails if and as reading fails, and ends exactly if reading ends.", "quantifier": "every root and root name, every sequence of supplied blocks (whatever they are), every next block and cache; every store (also with cycles, hostile blocks or blocks missing); release builds", "why_tests_cant": "it relates two interfaces over all sequences of blocks, also those on which a release build's parser wraps or never ends", "anchors": ["src/walk.rs:Walker::next", "src/file/visit.rs:FileVisit::continue_walk", "src/file/visit.rs:IdleFileVisit::start"]}
