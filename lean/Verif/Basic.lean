/-
Common vocabulary of the model.
-/
namespace Verif

/-- `&[u8]`, `Vec<u8>`, and (together with a UTF-8 validity condition) `str`/`String`. (all of `src/*.rs`.) -/
abbrev Bytes := List UInt8

/-- Places at which the Rust code can panic; every constructor cites the source line. (all of `src/**/*.rs`.) -/
inductive Panic where
  /-- `src/dagpb.rs:27` `expect("this has to be in range")` -/
  | dagpbNotInRange
  /-- a Rust slice expression `x[a..b]` out of bounds in `src/dagpb.rs:80` -/
  | dagpbSlice
  /-- `src/file/adder.rs:173` or `:199` `assert!(leaf.is_some(), ..)` -/
  | adderNoLeaf
  /-- `src/file/adder.rs:341` `*max - buffered.len()` underflow -/
  | adderAcceptUnderflow
  /-- `src/file/adder.rs:549` `assert_eq!(link.depth, level, ..)` -/
  | adderDepth
  /-- `src/file/adder.rs:567` `debug_assert_eq!(reused_links.len(), reused_blocksizes.len())` -/
  | adderReused
  /-- `src/file/adder.rs:606` `debug_assert_eq!(pending.iter().position(..), None, ..)` -/
  | adderLevelLeft
  /-- `src/file/adder.rs:427` `assert!(branching_factor > 0)` -/
  | adderBranching
  /-- `src/file/adder.rs:535` `pending.drain((last_overwrite + 1)..first_at)` -/
  | adderDrain
  /-- `src/file/adder.rs:584` `pending[index] = ..` -/
  | adderIndex
  /-- u64 addition overflow in `src/file/adder.rs:587,636,637` -/
  | adderOverflow
  /-- `src/file/reader.rs:151` `inner.data.filesize.unwrap()` -/
  | readerFilesize
  /-- u64 addition overflow in `src/file/reader.rs:136,139` -/
  | readerOverflow
  /-- u64 addition overflow in `src/pb.rs:192,193` -/
  | rangeOverflow
  /-- `src/file/visit.rs:276` `&content[start..end]` out of bounds -/
  | visitSlice
  /-- u64 subtraction underflow in `src/file/visit.rs:265-273` -/
  | visitUnderflow
  /-- `src/file/visit.rs:144` `expect("the presence of links has been validated")` -/
  | visitNoPending
  /-- `src/file/visit.rs:161` `expect("User called continue_walk ..")` -/
  | visitNoNext
  /-- `src/dir/sharded_lookup.rs:52` or `:67` `expect("Already validated there are links")` -/
  | shardNoLinks
  /-- `src/dir/sharded_lookup.rs:141` `assert_eq!(hamt.data.Type, UnixFsType::HAMTShard)` -/
  | shardType
  /-- `src/dir/sharded_lookup.rs:172` `&name[2..]` not on a char boundary -/
  | shardBoundary
  /-- `src/dir/builder/dir_builder.rs:24` `assert_ne!(parent_id, id)` -/
  | dirBuilderIds
  /-- `src/dir/builder/dir_builder.rs:60` `id.take().unwrap()` -/
  | dirBuilderId
  /-- `src/dir/builder/buffered.rs:119,120,167` `unreachable!` -/
  | builderUnreachable
  /-- `src/dir/builder/custom_pb.rs:18` `.unwrap()` of a missing link -/
  | customPbMissing
  /-- `src/dir/builder/iter.rs:154` `.unwrap()` of a missing link -/
  | iterMissing
  /-- u64 overflow of `.sum::<u64>()` / `+` in `src/dir/builder/iter.rs:156,160` -/
  | iterOverflow
  /-- `src/dir/builder/iter.rs:203` `expect("only roots parent_id is None")` -/
  | iterParentId
  /-- `src/dir/builder/iter.rs:250` `panic!("leaves not found ..")` -/
  | iterNoParentLeaves
  /-- `src/dir/builder/iter.rs:255` index out of bounds -/
  | iterIndex
  /-- `src/dir/builder/iter.rs:257` `assert!(cell.is_none())` -/
  | iterCell
  /-- `src/dir/builder/iter.rs:384` `todo!("no last slash_at ..")` -/
  | iterNoSlash
  /-- `src/dir/builder/iter.rs:394` or `:404` assertions on `old_depth` -/
  | iterDepth
  /-- `src/dir/builder/iter.rs:452` `expect("leaves are either stashed or direct ..")` -/
  | iterStash
  /-- `src/walk.rs:44,66` `todo!("link cannot be empty")` -/
  | walkEmptyName
  /-- `src/walk.rs:47,69` `assert!(!name.contains('/'))` -/
  | walkSlash
  /-- `src/walk.rs:64` `s[2..]` not on a char boundary -/
  | walkBoundary
  /-- `src/walk.rs:109,159,195,241,280` `expect(..)` on `next` -/
  | walkNoNext
  /-- `src/walk.rs:692` `unreachable!("FileVisit does not parse any blocks")` -/
  | walkRead
  /-- `src/walk.rs:408` or `:421` `debug_assert_eq!` on path depth -/
  | walkPathDepth
  /-- `src/walk.rs:411,478` `assert!(self.path.pop())` -/
  | walkPathPop
  /-- `src/walk.rs:439,458,514,536` `unreachable!` in `as_*` -/
  | walkKind
  /-- `src/walk.rs:487` `unreachable!("bucket ..")` -/
  | walkBucketKind
  /-- `src/walk.rs:469,485` `assert_eq!(self.depth, depth)` -/
  | walkBucketDepth
  /-- `src/file/adder.rs:62` `count += 1` (an `i32`) and `:72` `steps_between - 1` (a `usize`) overflow -/
  | adderFormat
  /-- `benches/adder.rs:79` `assert_eq!(total, size)` -/
  | benchTotal
  /-- `examples/get.rs:91` `std::str::from_utf8(bytes).unwrap()` -/
  | exampleUtf8
  /-- `examples/add.rs:43` `assert_eq!(total, x.len())` -/
  | exampleTotal
  /-- `examples/add.rs:132` `self.last.as_ref().unwrap()` -/
  | exampleNoLast
  /-- `examples/cat.rs:148`, `examples/get.rs:147`, `examples/resolve.rs:274`: `&encoded[(len - 3)..(len - 1)]` -/
  | examplePath
  /-- `benches/ingest-tar.rs:42,48` `std::str::from_utf8(..).unwrap()`, `.expect(..)` -/
  | ingestUtf8
  /-- `benches/ingest-tar.rs:58,109,124` `tree.put_link(..).unwrap()`, `tree.set_metadata(..).unwrap()` -/
  | ingestBuilder
  /-- `benches/ingest-tar.rs:105` `expect("this is probably always present")` -/
  | ingestNoBlocks
  /-- usize addition overflow in `benches/ingest-tar.rs:101,107,117` -/
  | ingestOverflow
  /-- `benches/ingest-tar.rs:133` `res.unwrap()` -/
  | ingestIter
  /-- `benches/ingest-tar.rs:137` `last.unwrap()` -/
  | ingestNoLast
  deriving DecidableEq, Repr

/-- Outcome of a Rust call which may return `Ok`, return `Err`, or panic. (all fallible functions of `src/*.rs`.) -/
inductive Res (ε α : Type) where
  | ok (a : α)
  | err (e : ε)
  | panic (p : Panic)
  deriving Repr, DecidableEq

namespace Res

/-- Rust's `?` operator; a panic propagates. (everywhere in `src/*.rs`.) -/
@[inline] def bind {ε α β : Type} : Res ε α → (α → Res ε β) → Res ε β
  | ok a, f => f a
  | err e, _ => err e
  | panic p, _ => panic p

instance {ε : Type} : Monad (Res ε) where
  pure := Res.ok
  bind := Res.bind

@[simp] theorem bind_ok {ε α β : Type} (a : α) (f : α → Res ε β) : (Res.ok a >>= f) = f a := rfl
@[simp] theorem bind_err {ε α β : Type} (e : ε) (f : α → Res ε β) :
    ((Res.err e : Res ε α) >>= f) = Res.err e := rfl
@[simp] theorem bind_panic {ε α β : Type} (p : Panic) (f : α → Res ε β) :
    ((Res.panic p : Res ε α) >>= f) = Res.panic p := rfl
@[simp] theorem pure_eq {ε α : Type} (a : α) : (pure a : Res ε α) = Res.ok a := rfl

/-- `Result::map_err` / the `From` conversion applied by `?`. (e.g. `src/dir.rs:81`.) -/
def mapErr {ε δ α : Type} (f : ε → δ) : Res ε α → Res δ α
  | ok a => ok a
  | err e => err (f e)
  | panic p => panic p

/-- Turn a Rust `Result` which cannot panic into a `Res`. (no counterpart in `src/*.rs`.) -/
def ofExcept {ε α : Type} : Except ε α → Res ε α
  | .ok a => ok a
  | .error e => err e

/-- `Result::map`. (e.g. `src/dir/builder/iter.rs:308-309`.) -/
def map {ε α β : Type} (f : α → β) : Res ε α → Res ε β
  | ok a => ok (f a)
  | err e => err e
  | panic p => panic p

/-- The call does not panic. (not part of `src/*.rs`.) -/
def NoPanic {ε α : Type} (r : Res ε α) : Prop := ∀ p, r ≠ panic p

end Res

deriving instance DecidableEq for Except

/-- `u64` bound. (the type of sizes and offsets in `src/file/*.rs`.) -/
abbrev U64 : Nat := 2 ^ 64
/-- `u32` bound. (the type of lengths in `src/pb/*.rs`.) -/
abbrev U32 : Nat := 2 ^ 32

end Verif
