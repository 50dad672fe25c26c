head=open('/verif/DESIGN.md').read()
new='''# Formal model of ipfs-rust/unixfsv1 in Lean 4

`/verif/lean/Verif` holds (a) a function-by-function model of the Rust crate in `/repo/src`,
(b) small specifications that do not mention the model's helpers (`Verif/Spec/*.lean`), (c) the property theorems
(`Verif/Props/*.lean`) and (d) the lemmas behind them. `properties.jsonl` lists the English
properties, `MANIFEST.json` maps them to theorem names, `seeded/LOG.jsonl` records the wrong programs tried, `seeded/AUTO.jsonl` the mechanically made ones (every result, and a note for each which no theorem told apart).
Everything is written against core Lean only (no Mathlib import).

## Layout

The model (what is claimed to be like the code; every definition cites file and lines):

| file | models |
|---|---|
| `Basic.lean` | bytes, `Res` (ok / err / panic), one `Panic` constructor per panic site of the code |
| `Varint.lean`, `Pb.lean` | quick-protobuf 0.8 reader/writer as used by the crate (external) |
| `Utf8.lean` | UTF-8 validity (`str`), char boundaries |
| `Cid.lean` | `cid`/`multihash`: `Cid::{to_bytes,try_from}` (external) |
| `Messages.lean` | `src/pb/merkledag.rs`, `src/pb/unixfs.rs`, `src/pb.rs` |
| `DagPb.lean` | `src/dagpb.rs`, `src/symlink.rs` |
| `Adder.lean` | `src/file/adder.rs` |
| `FileReader.lean`, `Visit.lean` | `src/file/reader.rs`, `src/file/visit.rs`, `src/file.rs` |
| `Dir.lean` | `src/dir.rs`, `src/dir/directory.rs`, `src/dir/sharded_lookup.rs` |
| `Builder.lean`, `BuilderIter.lean` | `src/dir/builder.rs`, `builder/{buffered,dir_builder,custom_pb,iter}.rs` |
| `Walk.lean` | `src/walk.rs` (with a component model of `PathBuf`) |
| `Release.lean` | the release profile: all functions of the adder, reader, visits, walker and directory iterator with arithmetic or debug assertions |
| `Examples.lean` | the four programs in `/repo/examples` |
| `IoFail.lean` | `cat` and `get` when opening, reading or writing fails (`examples/cat.rs`, `examples/get.rs`) |
| `IoFailResolve.lean` | the same of `resolve` (`examples/resolve.rs`) |
| `AddProcess.lean` | `add` as a process (`examples/add.rs`) |
| `ExamplesRel.lean` | the loops of `cat`, `get` and `resolve` in the release profile |
| `Ingest.lean` | `ingest_tar` of `/repo/benches/ingest-tar.rs` |
| `ErrorText.lean` | the `Display` of every error of the crate and the derived `Debug`s they use (`src/lib.rs`, `src/file.rs`, `src/pb.rs`, `src/dir.rs`, `src/dir/directory.rs`, `src/dir/sharded_lookup.rs`, `src/dir/builder.rs`, `src/walk.rs`), `{:?}` of strings and paths, the lines which `examples/get.rs` prints |
| `DebugText.lean` | the derived and written `Debug`s of the errors, of `Metadata`, `PBLink`, `PBNode`, `ContinuedWalk`, `FileSegment`, `MaybeResolved`, `ShardedLookup`, `TreeNode` (`src/lib.rs`, `src/file.rs`, `src/pb.rs`, `src/pb/merkledag.rs`, `src/dir.rs`, `src/dir/directory.rs`, `src/dir/sharded_lookup.rs`, `src/dir/builder.rs`, `src/dir/builder/iter.rs`, `src/walk.rs`) |
| `ErrorSource.lean` | `Error::source` of all errors (`src/lib.rs`, `src/pb.rs`, `src/file.rs`, `src/dir.rs`, `src/dir/sharded_lookup.rs`, `src/dir/builder.rs`, `src/walk.rs`) |
| `CidText.lean` | `Cid::try_from(&str)` and `Display` of Cids (crates `cid`, `multibase`, `base-x`, `data-encoding`), as used by the examples |
| `Programs.lean` | `main` of `examples/{cat,get,resolve}.rs` as processes (arguments, `IPFS_PATH`, files, both outputs, exit code), the lines `resolve` writes, the line `add` writes |
| `Reserve.lean` | the reservations of `FileAdder` (`src/file/adder.rs:180-186,488-500`) with `Vec::reserve` |
| `FileTimes.lean` | `Metadata::mtime_as_filetime` (`src/lib.rs:161-166`), the used part of the crate `filetime` |
| `ReleaseParse.lean` | reading blocks in the release profile: `BytesReader` of quick-protobuf with wrapping arithmetic, the generated `from_reader` functions (`src/pb/merkledag.rs`, `src/pb/unixfs.rs`), `src/pb.rs:63-147` |
| `ReleaseRun.lean` | visits, walkers and look-ups in the release profile with blocks read as in `ReleaseParse.lean` (`src/file/reader.rs:75-100`, `src/file/visit.rs:32-35,152-196`, `src/walk.rs:121-305`, `src/dir.rs:36-77`, `src/dir/sharded_lookup.rs:57-99`) |
| `Narrow.lean` | the parser where `usize` has 32 bits (quick-protobuf, `src/pb.rs:63-83,121-147`, `src/pb/*.rs`) |
| `NarrowRun.lean` | visits, walkers and look-ups where `usize` has 32 bits (`src/file/visit.rs:251-278` and what calls it and the parser) |
| `ReleaseWalk.lean` | lemmas about single steps of a walker in a release build |
| `Display.lean` | `Debug` of `FileAdder` with `LinkFormatter` (`src/file/adder.rs:29-84`); `run_adder` of `/repo/benches/adder.rs` |
| `Sha256.lean`, `Fixtures.lean`, `Vectors.lean` | SHA-256 and the unit tests of `/repo/src` on the model |
| `Access.lean` | accessors and error conversions: `src/lib.rs`, parts of `src/dagpb.rs`, `src/walk.rs`, `sharded_lookup.rs` |

Specifications: `Spec/Wire` (protobuf fields as a list, minimally encoded), `Spec/Loose` (the same in all encodings), `Spec/FileTree`, `Spec/Adding`, `Spec/FileAt` (file trees, what a
history of pushes must yield, a file in a store), `Spec/Reading`, `Spec/Visiting`, `Spec/Panics` (client loop, histories of a
visit, when visits fail and panic), `Spec/Hamt` (shard trees), `Spec/DirTree`, `Spec/Building`, `Spec/Answers` (directory
trees as maps from paths; histories of a builder; what the iterator must answer), `Spec/Walking`, `Spec/FsTree`,
`Spec/Grafting`, `Spec/WalkPanics` (file system trees; what a walk must report; when it panics), `Spec/Refusals` (which
error a block is refused with), `Spec/ShardStep` (the answers of one step of a sharded lookup), `Spec/Resolving` (what a path leads to), `Spec/Listing` (the lines of a
tree), `Spec/Stores` (stores with missing blocks), `Spec/Logs` (the client loops, keeping what happened before they stopped), `Spec/AtPath` (what a walk reports for one path), `Spec/Archives` (archives, and what belongs to their entries), `Spec/Chains` (chains of links, depth and width of what hangs at a Cid), `Spec/Text` (text and its encoding), `Spec/Amounts` (how much a read returns), `Spec/Escaping` (paths leading out of a directory), `Spec/ReadAlone` (the segments of a walk as answers of a file visit of its own), `Spec/RootNames`, `Spec/OtherNames` (the path which a root name is), `Spec/Cids` (the bytes of Cids), `Spec/Overrun` (nested messages read beyond their end), `Spec/Debugging` (what an adder shows of itself), `Spec/ErrorTexts` (printable text; which errors are told apart), `Spec/Debugs` (what `{:?}` has to tell), `Spec/Causes` (which errors are in an error), `Spec/CidTexts` (digits and letters of texts of Cids), `Spec/Programs` (files of a repository, lines of an output), `Spec/Reserving` (an adder with its capacities), `Spec/Times` (points in time), `Spec/ReleaseParse` (blocks on which the reader goes back), `Spec/ReleaseRun` (clients of a release build over arbitrary blocks), `Spec/Narrow` (fields and cut lengths on platforms with 32 bits), `Spec/NarrowPanics` (what panics there), `Spec/NarrowRun` (clients there), `Spec/ReleaseWalk` (walks of release builds, what keeps them from panicking), `Spec/Verified` (stores of verified blocks), `Spec/ReleaseEnds` (chains of links as release builds read them), `Spec/ReleaseAmounts` (what a release build returned so far), `Spec/Sharing` (which piece of a content stands behind which block), `Spec/Asking` (which pieces a range touches), `Spec/DepthFirst` (all blocks below a block, in order), `Spec/Agreeing` (Cid and path of a reported item), `Spec/Opening` (what a walk begins), `Spec/AddingUp` (sizes which add up), `Spec/Strict` (the bytes of blocks), `Spec/LevelOrder` (shards level by level), `Spec/Exporting` (archives made from walks), `Spec/Holding` (what is kept of blocks), `Spec/HoldingRel` (the same in release builds), `Spec/ReleasePlaces` (walks of a release build), `Spec/ReleaseRefusals` (what a release build refuses), `Spec/ReleaseLookups` (look-ups in a release build), `Spec/ReleaseTrees` (all answers of the directory iterator of a release build), `Spec/AddProcess` (what was read of an input whose reads may fail), `Spec/ReleaseDepthFirst` (going through everything below a block, as a release build reads it), `Spec/ReleaseReadAlone` (reading a file by itself in a release build).

Theorems: `Props/Codec` C01-C06 C51 C53; `Props/Cids` C53; `Props/Parsing` C49 C51 C81 C82; `Props/Crash` C83; `Props/Missing` C84; `Props/AdderFinish` C85; `Props/Ingest*` C86; `Props/EachPath` C59; `Props/Ends` C87; `Props/Prefetch` C88; `Props/Pending` C89; `Props/AdderKeeps` C90; `Props/Text` C91; `Props/Amounts` C92; `Props/Escaping` C93; `Props/BlockSizes` C94; `Props/ReadAlone` C95; `Props/RootNames`, `Props/OtherNames` C96 (and C27, C64 for all root names); `Props/Debugging` C97 C98; `Props/ErrorTexts` C99, `Props/ErrorTells` C100, `Props/ListingText` C101; `Props/Debugs` C102; `Props/Causes` C103; `Props/CidText`, `Props/CidTextExact` C104; `Props/Programs` C105; `Props/Reserving` C106; `Props/Times` C107; `Props/ReleaseParse` C108; `Props/ReleaseRun` C109; `Props/Narrow` C110; `Props/NarrowRun` C111; `Props/ReleaseWalk` C112; `Props/ReleaseSafe` C113; `Props/Verified`, `Props/ReleaseVerified` C114; `Props/ReleaseEnds` C115; `Props/ReleaseAmounts` C116; `Props/Sharing` C117; `Props/Locality` C118; `Props/Asking` C119; `Props/DepthFirst` C120; `Props/Agreeing` C121; `Props/Lookable` C122; `Props/Parts` C123; `Props/Strict` C124; `Props/LevelOrder` C125; `Props/Exporting` C126; `Props/Overhead` C127; `Props/Holding` C128; `Props/HoldingRel` C129; `Props/ReleasePlaces` C130; `Props/ReleaseRefusals` C131; `Props/ReleaseLookups` C132; `Props/ReleaseTrees` C133; `Props/IoFail` C134; `Props/ExamplesRel` C135; `Props/IoFailResolve` C136; `Props/AddProcess` C137; `Props/ReleaseDepthFirst` C138; `Props/ReleaseReadAlone` C139; `Props/Adder`, `Props/AdderMore` C07-C17 C21 C52 C55 C56; `Props/Reader`,
`Props/ReaderExact` C18-C20 C22-C28 C46; `Props/Dir` C41-C44; `Props/Builder` C29-C32 C54; `Props/Build`, `Props/Built`,
`Props/BuildAll` C33-C40 C60; `Props/Walk`, `Props/WalkTrees`, `Props/WalkMore`, `Props/WalkExact` C45-C50 C27;
`Props/EndToEnd` C57-C59; `Props/Access` C61; `Props/Refusals` C64; `Props/DirExact` C43 C65;
`Props/Orders` C62; `Props/Absent` C63; `Props/DirRoot` C66; `Props/Release*` C67-C69; `Props/AdderExact` C70; the examples: `Props/Cat` C71, `Props/Get` C72, `Props/Resolve` C73 C77, `Props/AddExample` C74, `Props/StorePath` C75, `Props/IpfsPaths` C78, `Props/BuildExamples` C79 C80; `Props/Options` C76. Everything else (`*Lemmas`, `*Run`, `*Inv`, `Iter*`, `Adder*`, `Walk*`) is proof.

## Modelling conventions

* `Bytes = List UInt8`. `&str`/`String` are byte strings for which the model demands UTF-8 validity where
  Rust's type does. `BTreeMap<String,_>` is an association list kept sorted by byte-wise lexicographic key.
* `u64`/`usize`/`u32` are `Nat` in the model; statements carry explicit "fits its Rust type" hypotheses, and an
  addition that may overflow in the code is an explicit panic in the model (debug-build semantics, overflow checks on;
  `debug_assert!` is likewise active). The release profile (wrapping, no `debug_assert!`) is modelled separately in `Release.lean`, and compared in C67-C69
  (C108, C109 for the parser). `usize` is taken to have 64 bits; what changes with 32 is modelled in `Narrow*.lean` and compared in C110, C111.
* A panic (`panic!`, `unwrap`, `expect`, `assert!`, `todo!`, `unreachable!`, slice index) is an explicit outcome
  `Res.panic site`, so "never panics" is a statement about values.
* Loops which may diverge are defined with Lean's `partial_fixpoint` over `Option`, `none` being divergence.
  Consequently "terminates" is `≠ none`, proved, not assumed by construction.
* `&mut self` functions return the new state, also when they return an error.
* SHA-256 is a parameter `sha : Bytes → Bytes`; theorems assume only that digests are 32 bytes long (C52, and the
  injectivity parts, conclude "or here is a collision").
  `Sha256.lean` defines the real function and shows it qualifies.
* `Vectors.lean` runs the model, with the real SHA-256, on every unit test of `/repo/src` (adder, builder, reader, visits,
  lookups, walker, symlinks, `pb`, `dagpb`; expected blocks and Cids are the ones in the Rust tests, most made by go-ipfs). These
  are tests of the model's faithfulness evaluated at build time, not proofs, and no claim rests on them.
* A block store is a function `Cid → Option Bytes` which contains the emitted blocks.
* Where the code violates a property, the full statement is kept as `def Cxx_full : Prop`, refuted by `Cxx_full_false`, and
  the strongest true statement found is a theorem with suffix `_partial`; C10, C26, C27, C38, C45 have *exact* conditions.

## Trusted base

* Lean 4.33.0's kernel. Axioms: every theorem depends on a subset of `propext`, `Quot.sound`, `Classical.choice`
  (checked by `vcheck`); no `native_decide`, no `bv_decide`; `decide +kernel` is used only in examples and
  counterexamples on literals.
* My reading of `/repo` as text (the model); the Rust code is never run.
* External crates, modelled from knowledge of their behaviour: quick-protobuf 0.8.0 (`BytesReader`: varints with at most ten
  bytes for 64 bits and the 32-bit truncating read, `read_unknown` for wire types 0,1,2,5, unknown enum values become the
  default, `read_packed`; an underflow of `end - start` in `read_unknown` beyond the message, a panic with overflow checks, is modelled as the
  marker error `overflow`, see C51; for release builds see C108),
  `cid`/`multihash` (v0: 34 bytes `12 20 …`; v1: varints version, codec, hash code, length ≤ 64), `std`: `str::from_utf8`, `str::split('/')`, `Path::push/pop/ancestors` on
  Unix as lists of components, `Vec`, `VecDeque`, `BTreeMap`.
* Bounds in hypotheses, each far above what fits in memory: emitted blocks are below 2^32 bytes where
  blocks are parsed again (`BelowLimit`; C94 says when this is so and why it is needed; contents are unbounded, C70 says when adding succeeds), names and paths below 2^31 bytes and sizes which add up below 2^64 for the builder (`SizesFit`), ids in
  the builder and depths in the walker are `Nat`.

Not modelled: the `Debug`s of the types not listed with `DebugText.lean`, `ErrorText.lean` and `Display.lean`, allocation capacities (`reserve`,
`with_capacity`) other than those in `Reserve.lean`, arguments which are not UTF-8 and measuring time, reading Cids in other bases than 58 and 32 (a parameter), the rest of the benches, `test_support`, lifetimes
(`with_owned_needle`), `AsRef` impls (projections).

## Plan per property

Each property is modelled and proved as follows; none was found impossible to express.

| id | modelled | proof method |
|---|---|---|
'''
rows='''C01|all messages byte by byte, writer and reader|the writer's output is a concatenation of encoded fields; the reader on such is a fold (field-list theorem)
C02|get_size and write_message of all seven messages|length lemmas per field
C03|PBNode reader/writer, node_data|corollary of the field-list theorem
C04|readers on any list of fields|fold over fields; permutation argument for fields of different tags; unknown tags are no-ops
C05|subslices with offsets for pointer arithmetic|case analysis; the panic on `0a00` is a counterexample, so partial
C06|symlink writer appended to a buffer|corollary of C01
C07|`push` and the loop feeding input|case analysis; measure on the rest of the input
C08|`push`|invariant on pending links: one push makes at most one leaf and one link block
C09|`push` with any chunker size|invariant; counterexample Size 0, partial: exactly when it panics
C10|`finish` with any branching factor|termination measure over levels; divergence for factor 1 proved; exact condition
C11|`push` histories|state is a function of the concatenation (refinement to a one-shot adder)
C12|push histories and finish|tree refinement
C13|emitted blocks in order|tree refinement: post-order
C14|render_and_hash|by construction of the emitted pair, carried through histories
C15|chunker, leaves|refinement: leaves = chunks of the concatenation
C16|levels|refinement to the balanced tree
C17|declared sizes|mutual induction over the tree
C18|add, store, read loop|tree invariant of visits against the tree the adder emitted; any well-formed tree
C19|ranged reads|interval arithmetic over the tree
C20|file_size|counterexample for later steps, partial
C21|heights|arithmetic on the balanced tree
C22|requests|exact list of requested Cids
C23|visits over arbitrary blocks|invariant over histories
C24|metadata|invariant over histories
C25|caches|two runs with different caches compared
C26|start on arbitrary blocks|exact panic condition and error conditions (equivalences)
C27|continue_walk of visits and walkers on arbitrary blocks|exact panic conditions (equivalences); counterexamples
C28|target_slice|arithmetic
C29|paths|list lemmas on split
C30|failed operations|simulation: failed call leaves an observationally equal builder
C31|put_link, set_metadata|refinement to a finite map of paths
C32|without wrapping|invariant
C33|PostOrderIterator|stack invariant, induction over the directory tree
C34|directory blocks|sortedness of the BTreeMap carried through
C35|build, then resolve component-wise|C31 + C33 + C41
C36|total sizes|induction over the tree
C37|block size limit|iff on the rendered length
C38|iterator|exact condition for panics; overflow and after-error counterexamples
C39|metadata in blocks|counterexample (mode/mtime not both written), partial
C40|buffer reuse|answers are a function of the tree
C41|resolve on plain directories|case analysis + list lemmas
C42|ShardedLookup|queue invariant, measure = size of queued shard trees
C43|lookup on arbitrary blocks|only one panic site is reachable; counterexample
C44|resolve through other types|case analysis
C45|walker on trees|stack invariant over a relational specification of trees; exact outcome for every tree
C46|pending_links|invariants of visits and walkers
C47|sharded directories|counterexamples (wrong Cid, panic); exact partial
C48|file segments|from the exact list of items
C49|unsupported types|counterexample (undefined types parse as Raw), partial
C50|failed walk|case analysis over step
C51|parsers; `overflow` marks the panic in quick-protobuf's `read_unknown`|reader position invariant; fuel suffices; counterexample for the panic and the exact set of blocks causing it, partial
C52|root injectivity|tree equality or collision
C53|Cid codec|direct; exactness from that of the varint reader
C54|builder calls|invariant
C55|push exact|refinement
C56|size_hint and defaults|direct
C57|build then walk|C33 + C45 by grafting trees into one another
C58|add then walk|C18 + C45
C59|add, put, build, resolve, read, walk|composition
C60|iterator|every answer, including errors, given by a small specification
C61|accessors, error conversions|case analysis
C62|determinism of building|answers depend on the set of accepted paths only
C63|absent paths|converse of C35
C64|visit, walker: which error|reasons for refusal as an inductive specification, both directions
C65|sharded lookup, one step|specification of the answer as a relation, proved total and equal to the code
C66|two builders|blocks are injective in their entries (C01); induction over paths
C67|the functions affected by the build profile, twice|lock-step comparison, function by function; for loops fixpoint induction in both directions
C68|file visits in a release build|case analysis of each call; invariant that an unranged visit always asks for a block
C70|`Layered` specifies the balanced layout level by level; the adder's state is related to it by the invariant of C12-C17|an overflow in any group makes push or finish panic (AdderOver), otherwise they return (AdderRefine); the emitted root is the layered tree
C69|walking and building in a release build|counterexamples by computation; otherwise from C67
C71|`examples/cat.rs`: loop and statistics|from C18's reading lemma with the visited blocks; fixpoint induction comparing two stores
C72|`examples/get.rs`: loop and lines|from C46's report of a walk, line by line; fixpoint induction comparing two stores
C73|`examples/resolve.rs`: both loops|each segment is a single lookup (fixpoint induction); C41, C42 for well-formed directories, C77 for arbitrary blocks
C74|`examples/add.rs`: loop and statistics|invariant: the state is reached by pushing what was read; then C10, C12
C75|`as_path`: base 32 of the key|the number of digits determines the number of bytes; digits are injective
C76|the setters of `TreeOptions`|fold over the calls; C31 and C60
C77|`resolve` and `continue_walk` driven to the end|C65 for each step; fixpoint induction over the pending shards
C78|`IpfsPath::try_from`|induction over the text
C79|the builder, then `examples/resolve.rs`|induction over the segments, each by C63's single lookup; C31 for the history; C78 for the text
C80|the adder, the builder, then `examples/get.rs`|the built tree is a file system tree in the store (C57); C72; the lines of the tree by induction over it
C81|the parsers (`Spec/Loose`: the general wire format, independent of the reader)|every reader step consumes exactly one field in every encoding; induction over the loop, both ways
C82|all functions which take a block|they depend on the block only through the parse; C81
C83|the adder and the directory iterator; a prefix of what was returned is in the store|children come first in the emitted list, so all nodes below a stored one are stored; C18, C45 for it
C84|the client loops with a log (`Spec/Logs`), two stores|induction over the run of the loop
C85|the adder|the emitted trees are a function of content and configuration (C12); a single leaf is emitted by the push which completes it
C86|`benches/ingest-tar.rs`|one entry is one call of the builder or a panic; C70 for files, C62 for the calls, C60 for the directories; totals add up by induction over the tree; C59 path by path, C35, C18
C87|reader, walker, lookup and example programs over a store|the number of chains below the pending queue decreases with every block; ends-of-chains by accessibility
C88|the same loops with a log of requests|induction over the run; the queue is a sublist of the log
C89|the states reachable by reading and walking|an invariant which bounds the queue behind each entry by what is above it
C90|the adder|the emitted trees as a function of the chunks (C12); counting of inner nodes
C91|`core::str::from_utf8` and `is_char_boundary`, as used by the readers|the automaton against the encoder of Lean's prelude, character by character
C92|file visits given arbitrary blocks|an invariant: what was returned fits between the start of the range and the end of the last leaf; counterexamples by computation
C93|walks given arbitrary blocks|each awaited path is the root name followed by names given by the blocks; counterexample by computation
C94|adder, encoders, parser|lengths of the encodings of the emitted trees; exactness of the parser (C81) for the limit
C95|walker, visits|invariant over walk histories: the blocks since the first segment are a visit's history and the walker holds the visit; fixpoint induction both ways for whole stores
C96|walker, paths|bisimulation of the two walkers over histories; for other names an invariant that the current entry is the root with a depth which does not fit its path, and a simulation by the walk from a plain name up to the first entry
C97|`Debug` of the adder, `LinkFormatter`|the invariant of C90; runs of equal depths
C98|`run_adder`|induction over the pushes, C70
C99|all `Display`s of errors, `{:?}` of `str`|each part of a message is printable; escapes are ASCII
C100|the same|escapes and numbers are prefix free; literals differ; C64 and C91 for the names
C101|`println!`s of `get`|prefix free lines; an invariant of the walker: paths are of names which are text; induction over the run
C102|all derived `Debug`s of errors and of items|every part shows where it ends (numbers by what follows, lists by induction), so the whole can be read back
C103|`source` of every error type|case analysis over all error types; the relation 'is in the error' is specified separately
C104|reading and printing of Cids with both bases|reading iff written, for each base; arithmetic of digits in a base (uniqueness, bounds), bits; bounds of the numbers for the prefix `Qm`
C105|the `main`s as functions from arguments and files to outputs and exit code; the loops of `resolve` with what they write|the loops with output are related to those without (C71, C72, C78-C80) by fixpoint induction; uniqueness of the last line; base 32 is injective
C106|the three capacities beside the adder, `Vec::reserve`, the two methods with their reservations|invariant of pushes on capacities and lengths (fixpoint induction for the reused vectors); then each reservation is computed
C107|`FileTime` with the platform's epoch, checked 64-bit addition, the lexicographic order|ranges of parsed timestamps (ParserSafe) and the arithmetic of one addition; the order by cases
C108|`ReleaseParse`: the reader as a place in the block with wrapping `start`/`end`; divergence as `none`|step-by-step agreement with the checked reader as long as that does not overflow; a set of two states which is never left for the endless blocks; an invariant of the loop for what is accepted
C109|`ReleaseRun`: the functions of `Release` with the parser of `ReleaseParse`|equality with `Release` step by step (C108), lifted to whole runs by fixpoint induction in both directions; the panics as for C68 from the parsed message
C110|`Narrow`: the parser with positions and lengths of 32 bits; `Spec/Narrow`: fields with cut lengths|as C81, step by step: each reader is exact for its fields (`NarrowExact`), and for its panics as in C51 (`NarrowOverflow`, `Spec/NarrowPanics`); compared with C81 through the fields
C111|`NarrowRun`: `target_slice` with cut offsets, all callers of it and of the parser|arithmetic for the slice; equality step by step, lifted to whole runs by fixpoint induction in both directions
C112|`ReleaseRun`: the walker without assertions over arbitrary blocks; `Spec/ReleaseWalk`: its histories|what a step does to the path and the links (`ReleaseWalk`), induction over the history; for what lies below the root, depths never exceed the path's by more than one
C113|`ReleaseRun`: the walker without assertions over the blocks of a store; `Spec/ReleaseWalk`: the conditions `WalkSafe`|invariant of the walker (which links are pending after which kind of entry, what files still ask for), kept by every step; fixpoint induction for whole walks
C114|the client loops of `Spec/Reading`, `Spec/Logs`, `Spec/Hamt` and `Examples`, over two stores; `Spec/Verified`: verified stores|two such stores agree where both have a block, so by fixpoint induction the loops go the same way until one lacks a block; with C18, C19, C59, C79 for what was published
C115|`ReleaseRun` with the client loops; `Spec/ReleaseEnds`: chains of links as a release build reads them|the number of chains of links below what is waited for gets smaller with every step; it exists exactly if no chain is endless
C116|`ReleaseRun`: file visits given arbitrary blocks|the invariant of C92, with the intervals which wait touching the range, so that ends of leaves do not wrap; counterexample by computation
C117|`Adder`, through the trees of C70|levels of balanced trees by induction on the height; pieces as `take`/`drop`; counting filters
C118|`Builder`, `BuilderIter`, through the listings of C33|trees with the same at every path are equal; paths in a listing which lead to one path have decreasing lengths; descent of C66 to the first new component
C119|`Adder` and `Visit`, through C22 and the levels of C117|blocks below the root with their intervals, level by level up to order; counting the pieces which touch a range
C120|`Walk` and `Visit`, the client's loops|the invariant of C46: every accepted block has its links, all of them, put before what was awaited; induction over the run
C121|`Walk`, the client's loop; `Spec/Resolving` for names; `Examples`|the run visits everything beneath the root, each accepted block being as the look-up wants it; paths and visits by induction on each other
C122|`Walk`, `Dir`, `Examples`|the run gives, for every block beneath the root, readable links, acceptable properties and its entries in the log; the look-up of C65 over such blocks, by induction on the number of blocks below the pending ones; then over the names
C123|`Visit`, `FileReader`|the blocks asked for by the whole read, which are those of C120, with the sizes give the tree, by induction on the depth-first order; then C19, C20 and C22 apply. Back: what is linked from a file tree is one
C124|`Messages`, `Pb`, `Adder`, `BuilderIter`, `DagPb`|the writers give the prescribed bytes for every value that fits; then over the tree (C70) and the entries of a directory (C34). Unambiguous: the shortest numbers are prefix-free, by induction
C125|`Dir`|invariant over the history: what was asked for is some full levels and a part of the next, what is pending is the rest of that level and the children of the part; steps by C65
C126|`Ingest`, `Walk`, `Adder`, `Builder`|by C86 the walk shows each path once; so the exported archive has the same files and symlinks, and only more directories, which are there already; by C31 and C62 the tree of the builder is the same
C127|`Adder`, `BuilderIter`|by C70 the blocks are those of the balanced tree; by induction over its levels a linear function pays for each level of link blocks; directories by C34 and C37
C128|`Pb`, `Messages`, `Visit`, `Walk`, `Dir`|the parser's exact characterisation gives the size of a message; every step adds at most the links of its block; induction over the steps
C129|`ReleaseParse`, `ReleaseRun`|every link and every blocksize moves the outer reader at least two bytes on, and the lengths within a link are those of parts of the block (C108); induction over the steps; a fuel-bounded parser, proved to agree with the real one, for the case which needs more
C130|`Release`, `ReleaseRun`|an invariant of the walker relates its entry, its links and its visit to the places which the blocks lead to (`Spec/ReleasePlaces`); popping components while levels are too deep removes exactly the difference; every branch of a step is then compared with the specification
C131|`Release`, `ReleaseRun`|each error of the branches is traced to a clause of `Spec/ReleaseRefusals`, and each success shown to exclude all clauses; the walker by the invariant of C130
C132|`ReleaseRun`|what follows the parser is a total function of what was read, characterised as in C65; the levels by an invariant on what is pending, as in C125
C133|`renderDirectoryR`, `PostOrderIterator.nextR`|as C60, by mutual induction on the tree, with totals modulo 2^64; every entry can be encoded since all totals are below 2^64
C134|`Sink`, `CatRun`, `GetRun`: relations, one run for each combination of failures|induction on the run: what arrived and is buffered is a prefix of what the functions `catWalk`, `getWalk` write; a clean run by partial correctness of those
C135|`ExamplesRel`: the loops of the examples with the functions of `ReleaseRun`|partial correctness in both directions against the loops of C66 and against the client loops of `ReleaseRun`; ends with C115
C136|`ResolveRun`: a relation, one run for each combination of failures; the lines said at each place as functions|induction on the run: both streams are where the log of the run without failures is; the log only grows; a clean run by partial correctness
C137|`AddRun`: a relation, one run for each combination of failures, on the reads as a list|induction over the reads with the invariant of pushing (C74); then cases of what can fail, with the Debug text of C97
C138|`walkFromRel`, `readFromRel` (C108, C109) with a log of what is asked for|the pending links of the walker are the rest of the order at every step; induction over the run with a log, by partial correctness
C139|`Walker.stepRel`, `FileVisit.continueWalkRel`, `readFromRel`, `walkFromRel`|caches do not matter (C25 for release builds); invariant of the walker: the segments since the last first one are those of a visit; partial correctness both ways for whole files'''
import json,re
ids=[json.loads(l)['id'] for l in open('/verif/properties.jsonl')]
out=new
for r in rows.split('\n'):
    i,a,b=r.split('|')
    if i in ids: out+=f'| {i} | {a} | {b} |\n'
    ids=[x for x in ids if x!=i]
print('no row:',ids)
open('/verif/DESIGN.md','w').write(out)
