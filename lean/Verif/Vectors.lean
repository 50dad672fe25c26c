import Verif.Sha256
import Verif.Fixtures
import Verif.DagPb
import Verif.Adder
import Verif.BuilderIter
import Verif.Examples
import Verif.CidText
/-
The unit tests of `/repo`, run on the model with the real SHA-256. These are tests of the model's faithfulness (the expected
values are those the Rust code is tested against, most of them made by go-ipfs), not proofs; they are evaluated by the
interpreter at build time. `Verif/Sha256.lean` is used only here and where a concrete hash is wanted.
-/
namespace Verif.Vectors
open Verif

/-! ### helpers: hexadecimal, base32, base58 and strings -/

def hexDigit (c : Char) : Nat := if c.isDigit then c.toNat - 48 else c.toNat - 87

def hexGo : List Char → Bytes
  | ' ' :: t => hexGo t
  | a :: b :: t => UInt8.ofNat (hexDigit a * 16 + hexDigit b) :: hexGo t
  | _ => []

def hex (s : String) : Bytes := hexGo s.toList

def str (s : String) : Bytes := s.toUTF8.toList

/-- `Cid::try_from(&str)`. -/
def cid (s : String) : Cid :=
  match Cid.ofText (fun _ _ => none) (str s) with
  | .ok c => c
  | .error _ => ⟨.v0, 0, 0, []⟩

/-- `FakeBlockstore` with these blocks: found by the digest, whatever the version (`get_by_cid`, `src/test_support.rs:22-32`). -/
def storeOfHex (hs : List String) : Cid → Option Bytes :=
  let table := hs.map fun h => let b := hex h; (sha256 b, b)
  fun c => (table.find? fun (d, _) => d = c.digest).map (·.2)

def blocks : Cid → Option Bytes := storeOfHex fixtureHex

def got (s : String) : Bytes := (blocks (cid s)).getD []

/-! ### SHA-256 (FIPS 180-4 examples) -/

#guard sha256 [] = hex "e3b0c44298fc1c149afbf4c8996fb92427ae41e4649b934ca495991b7852b855"
#guard sha256 (str "abc") = hex "ba7816bf8f01cfea414140de5dae2223b00361a396177a9cb410ff61f20015ad"
#guard sha256 (str "abcdbcdecdefdefgefghfghighijhijkijkljklmklmnlmnomnopnopq")
  = hex "248d6a61d20638b8e5c026930c3e6039a33ce45964ff2167f6ecedd419db06c1"
/-- The same in the kernel. -/
example : sha256 [0x61, 0x62, 0x63] =
    [0xba, 0x78, 0x16, 0xbf, 0x8f, 0x01, 0xcf, 0xea, 0x41, 0x41, 0x40, 0xde, 0x5d, 0xae, 0x22, 0x23,
     0xb0, 0x03, 0x61, 0xa3, 0x96, 0x17, 0x7a, 0x9c, 0xb4, 0x10, 0xff, 0x61, 0xf2, 0x00, 0x15, 0xad] := by
  decide +kernel

/-! ### `src/file/adder.rs:651-880` -/

/-- `size_chunker_scenario`. -/
def chunkerScenario (max input existing : Nat) : Option (Nat × Bool) :=
  match chunkerAccept max (List.replicate input 0) (List.replicate existing 0) with
  | .ok (a, r) => some (a.length, r)
  | _ => none

#guard chunkerScenario 1 4 0 = some (1, true)
#guard chunkerScenario 2 4 0 = some (2, true)
#guard chunkerScenario 2 1 0 = some (1, false)
#guard chunkerScenario 2 1 1 = some (1, true)
#guard chunkerScenario 32 3 29 = some (3, true)
#guard chunkerScenario 32 4 29 = some (3, true)

def ran {α : Type} : Run α → Option α
  | some (.ok a) => some a
  | _ => none

/-- `collect_blocks`. -/
def collect (a : FileAdder) (content : Bytes) (amt : Nat) : List (Cid × Bytes) :=
  (ran (a.feed sha256 (fun _ => if amt = 0 then content.length else amt) 0 content)).getD []

def sized (n : Nat) : FileAdder := .build n { branching_factor := 174 }

def foobar : Bytes := str "foobar\n"

-- `favourite_single_block_file`
#guard (ran (FileAdder.default.push sha256 foobar)).map (·.2) = some ([], 7)
#guard (collect .default foobar 0).map (·.2) = [got "QmRgutAxd8t7oGkSm4wmeuByG6M51wcTso6cubDdQtuEfL"]
#guard (got "QmRgutAxd8t7oGkSm4wmeuByG6M51wcTso6cubDdQtuEfL").length = 15
#guard (cid "QmRgutAxd8t7oGkSm4wmeuByG6M51wcTso6cubDdQtuEfL").text = str "QmRgutAxd8t7oGkSm4wmeuByG6M51wcTso6cubDdQtuEfL"

-- `favourite_multi_block_file`
#guard collect (sized 2) foobar 0 =
  ["bafybeih67h7bqbeufm26dhqulib7tsovzkojs7o2bkkbn47vcwss6gz44e",
   "bafybeig7xffxllfsbd6uq46yjbzk6wf5mxdtc5ykpvga33vubchiooil7y",
   "bafybeiafisl24tujqewigj3kjdr6m6ibhj4iw7aowatrfxyvbfoafvwnfq",
   "bafybeigmgmwown66u7j5pqancojrc5ry2pwzmnlvqnwg2rfcjfi6irgplu",
   "bafybeicbvfcf3ys43v7u4obvdypbdzdsddiqvagpwldjvlj7kyrkwkpm3u"].map fun s => (cid s, got s)

def lorem : Bytes := str ("Lorem ipsum dolor sit amet, sit enim montes aliquam. Cras non lorem, " ++
  "rhoncus condimentum, irure et ante. Pulvinar suscipit odio ante, et tellus a enim, " ++
  "wisi ipsum, vel rhoncus eget faucibus varius, luctus turpis nibh vel odio nulla pede.")

-- `three_layers`
#guard (collect (sized 1) lorem 0).length = 240
#guard (collect (sized 1) lorem 0).getLast?.map (·.1) =
  some (cid "bafybeiedgegddvmfxlnikgwgxet6am5xkrhforeqb6wxyga3p7jmmge27u")

-- `three_layers_all_subchunks`
#guard (List.range 31).all fun i => (collect (sized 32) lorem (i + 1)).getLast?.map (·.1) =
  some (cid "bafybeiedxvsh3dwkublmenfbir3li4jf52opwcf5dgpi62h6yv4gd7klku")

-- `empty_file`
#guard collect .default [] 0 =
  [(cid "bafybeif7ztnhq65lumvvtr4ekcwd2ifwgm3awq4zfr3srh462rwyinlb4y", hex "0a0408021800")]

/-- Push `inputs` one by one, then finish: all blocks of the pushes, and those of `finish`. -/
def pushAll (a : FileAdder) : List Bytes → Option (List (Cid × Bytes) × List (Cid × Bytes))
  | [] => (ran (a.finish sha256)).map fun l => ([], l)
  | x :: xs =>
    match a.push sha256 x with
    | some (.ok (a', bs, n)) =>
      if n = x.length then (pushAll a' xs).map fun (bs', l) => (bs ++ bs', l) else none
    | _ => none

-- `full_link_block_and_a_byte`
#guard (pushAll (sized 2) (List.replicate 174 [0, 0] ++ [[0]])).map (fun (a, b) => (a.length + b.length, b.getLast?.map (·.1))) =
  some (174 + 1 + 1 + 1 + 1, some (cid "bafybeiai6dvlhomgaargeb677jd7bugp7pscqeakbvtapdlpvsfuedojqa"))

-- `full_link_block`
#guard (pushAll (sized 1) (List.replicate 174 [0])).map (fun (a, b) => (a.length, b.map (·.1))) =
  some (174, [cid "bafybeihkyby6yehjk25b3havpq4jxsfqxf54jizpjqodovxiuwav62uzpy"])

/-! ### `src/pb.rs:203-249` -/

-- `parse_content`
#guard FlatUnixFs.tryParse (hex "0a0d08021207636f6e74656e741807") =
  .ok { links := [], data := { Ty := .File, Data := some (str "content"), filesize := some 7 } }

-- `linux_tarxz_range_links`
#guard (match (FileReader.fromBlock (hex tarHex)).bind (fun r => .ok r.content.1) with
  | .ok (.Links base zipped) =>
    match collectLinks none 0 base zipped with
    | .ok ps => ps.map (·.2) == [⟨0, 45613056⟩, ⟨45613056, 91226112⟩, ⟨91226112, 111812744⟩]
    | _ => false
  | _ => false)

/-! ### `src/file.rs:183-330` -/

-- `just_content`, `empty_file`
#guard (match FileReader.fromBlock (hex "0a0d08021207636f6e74656e741807") with
  | .ok r => r.content.1 = .Bytes (str "content") | _ => false)
#guard (match FileReader.fromBlock (hex "0a0408021800") with | .ok r => r.content.1 = .Bytes [] | _ => false)

-- `visiting_just_content`, `visiting_too_large_range_of_singleblock_file`
#guard (match IdleFileVisit.start {} (hex "0a0d08021207636f6e74656e741807") with
  | .ok r => r.content = str "content" ∧ r.next = none | _ => false)
#guard (match (IdleFileVisit.withTargetRange {} ⟨500000, 600000⟩).start (hex "0a0d08021207636f6e74656e741807") with
  | .ok r => r.content = [] ∧ r.next = none | _ => false)

/-- The loop of `balanced_traversal`. -/
def traverse : Traversal → List Pending → Option Bytes
  | _, [] => some []
  | t, (c, rng) :: rest =>
    match t.continueWalk ((blocks c).getD []) rng with
    | .ok fr =>
      match fr.content with
      | (.Bytes b, t') => (traverse t' rest).map (b ++ ·)
      | _ => none
    | _ => none

-- `balanced_traversal`
#guard (match FileReader.fromBlock (got "QmRJHYTNvC3hmd9gJQARxLR1QMEincccBV53bBw524yyq6") with
  | .ok r =>
    match r.content with
    | (.Links base zipped, t) =>
      match collectLinks none 0 base zipped with
      | .ok ps => traverse t ps = some foobar
      | _ => false
    | _ => false
  | _ => false)

/-- `collect_bytes`. -/
def collectBytes (visit : IdleFileVisit) (start : String) : Option Bytes :=
  match visit.start (got start) with
  | .ok r => loop 20 r.content r.next
  | _ => none
where
  loop : Nat → Bytes → Option FileVisit → Option Bytes
  | _, ret, none => some ret
  | 0, _, _ => none
  | n + 1, ret, some v =>
    match v.pendingLinks with
    | .ok (first, _) =>
      match (v.continueWalk ((blocks first).getD []) none).1 with
      | .ok (content, next) => loop n (ret ++ content) next
      | _ => none
    | _ => none

-- `visitor_traversal`, `scoped_visitor_traversal_from_blockstore`, `less_than_block_scoped_traversal_from_blockstore`,
-- `scoped_traversal_out_of_bounds_from_blockstore`, `trickle_traversal`
#guard collectBytes {} "QmRJHYTNvC3hmd9gJQARxLR1QMEincccBV53bBw524yyq6" = some foobar
#guard collectBytes (IdleFileVisit.withTargetRange {} ⟨1, 6⟩) "QmRJHYTNvC3hmd9gJQARxLR1QMEincccBV53bBw524yyq6" = some (str "oobar")
#guard collectBytes (IdleFileVisit.withTargetRange {} ⟨0, 1⟩) "QmRJHYTNvC3hmd9gJQARxLR1QMEincccBV53bBw524yyq6" = some (str "f")
#guard collectBytes (IdleFileVisit.withTargetRange {} ⟨7, 20⟩) "QmRJHYTNvC3hmd9gJQARxLR1QMEincccBV53bBw524yyq6" = some []
#guard collectBytes {} "QmWfQ48ChJUj4vWKFsUDe4646xCBmXgdmNfhjz9T7crywd" = some foobar

/-! ### `src/file/reader.rs:273-348` -/

#guard (Ending.TreeCoverage 100).checkIsSuitableNext 0 ⟨0, 100⟩ = .ok ()
#guard (Ending.TreeCoverage 100).checkIsSuitableNext 0 ⟨0, 10⟩ = .ok ()
#guard (Ending.TreeCoverage 100).checkIsSuitableNext 0 ⟨0, 2⟩ = .ok ()
#guard (Ending.Chunk 2).checkIsSuitableNext 0 ⟨2, 10⟩ = .ok ()
#guard (Ending.TreeCoverage 10).checkIsSuitableNext 2 ⟨2, 10⟩ = .ok ()
#guard (Ending.TreeCoverage 10).checkIsSuitableNext 2 ⟨10, 20⟩ = .ok ()
#guard (Ending.Chunk 10).checkIsSuitableNext 2 ⟨10, 100⟩ = .ok ()
#guard (Ending.TreeCoverage 100).checkIsSuitableNext 10 ⟨0, 102⟩ = .error .TreeExpandsOnLinks
#guard (Ending.TreeCoverage 100).checkIsSuitableNext 0 ⟨0, 102⟩ = .error .TreeExpandsOnLinks
#guard (Ending.TreeCoverage 100).checkIsSuitableNext 10 ⟨88, 102⟩ = .error .TreeOverlapsBetweenLinks
#guard (Ending.Chunk 100).checkIsSuitableNext 0 ⟨101, 105⟩ = .error .TreeJumpsBetweenLinks
#guard (Ending.TreeCoverage 200).checkIsSuitableNext 100 ⟨0, 100⟩ = .error .EarlierLink
#guard (Ending.TreeCoverage 101).checkIsSuitableNext 100 ⟨0, 100⟩ = .error .EarlierLink
#guard (Ending.TreeCoverage 100).checkIsSuitableNext 100 ⟨0, 100⟩ = .error .EarlierLink

/-! ### `src/dir.rs:213-300` -/

def found (r : Res ResolveError MaybeResolved) : Option (Option Cid) :=
  match r with
  | .ok (.Found c) => some (some c)
  | .ok .NotFound => some none
  | _ => none

-- `resolve_paths_from_plain_dagpb`
#guard dagNodeData (hex plainHex) = .ok none
#guard [("african.txt", some "QmVX54jfjB8eRxLVxyQSod6b1FyDh7mR4mQie9j97i2Qk3"),
   ("americas.txt", some "QmfP6D9bRV4FEYDL4EHZtZG58kDwDfnzmyjuyK5d1pvzbM"),
   ("australian.txt", some "QmWEuXAjUGyndgr4MKqMBgzMW36XgPgvitt2jsXgtuc7JE"),
   ("not found", none), ("01african.txt", none)].all fun (s, t) =>
  found (resolve (hex plainHex) (str s) none).1 = some (t.map cid)

-- `errors_with_file`
#guard (match (resolve (hex "0a130802120d666f6f6261720a666f6f626172180d") (str "anything") none).1 with | .err _ => true | _ => false)

-- `sharded_directory_linking_to_non_sharded`
#guard (match found (resolve (got "QmQXUANxYGpkwMTWQUdZBPx9jqfFP7acNgL4FHRWkndKCe") (str "non_sharded_dir") none).1 with
  | some (some c) => found (resolve ((blocks c).getD []) (str "foobar") none).1 =
      some (some (cid "QmRgutAxd8t7oGkSm4wmeuByG6M51wcTso6cubDdQtuEfL"))
  | _ => false)

/-! ### `src/dir/sharded_lookup.rs:337-460` -/

-- `direct_hit`, `found_in_the_other_bucket`
#guard found (resolve (hex shardHex) (str "bin") none).1 = some (some (cid "QmQRA3JX9JNSccQpXjuKzMVCpfTaP4XpHbrrefqaQFWf5Z"))
#guard (match (resolve (hex shardHex) (str "formal") none).1 with
  | .ok (.NeedToLoadMore next) =>
    (match next.pendingLinks with
      | .ok (c, rest) => c = cid "QmfQgmYMYmGQP4X6V3JhTELkQmGVP9kpJgv9duejQ8vWez" ∧ rest = [] | _ => false) &&
    (match (next.continueWalk (hex "0a130802120d666f6f6261720a666f6f626172180d") none).1 with
      | .err (.UnexpectedBucketType t) => t = .File | _ => false)
  | _ => false)

-- `unsupported_hash_type_or_fanout`, `unexpected_properties`
#guard (match (ShardedLookup.lookupOrStart
    { data := { Ty := .HAMTShard, Data := some (str "this"), hashType := some 33, fanout := some 255 } } (str "doesnt matter") none).1 with
  | .err (.Shard (.UnsupportedProperties _ _)) => true | _ => false)
#guard (match (ShardedLookup.lookupOrStart
    { data := { Ty := .HAMTShard, Data := some (str "this"), filesize := some 1, blocksizes := [1], hashType := some 34,
                fanout := some 256 } } (str "doesnt matter") none).1 with
  | .err (.Shard (.UnexpectedProperties _ _)) => true | _ => false)

/-! ### `src/dagpb.rs:104-140` -/

-- `subslice_ranges`
#guard (List.range 4).all fun start => (List.range 4).all fun stop =>
  start ≤ stop → subsliceToRange (str "01234") ⟨start, ((str "01234").take stop).drop start⟩ = some (start, stop)

/-! ### `src/dir/builder/buffered.rs:187-410` -/

/-- `put_link(..).unwrap()` for each. -/
def puts (b : BufferingTreeBuilder) : List (String × Cid × Nat) → Option BufferingTreeBuilder
  | [] => some b
  | (p, c, n) :: rest =>
    match b.putLink (str p) c n with
    | (.ok (), b') => puts b' rest
    | _ => none

/-- `build().collect::<Result<Vec<_>, _>>()`. -/
def built (it : PostOrderIterator) : Nat → Option (List TreeNode)
  | 0 => none
  | n + 1 =>
    match it.next sha256 with
    | some (.item x, it') => (built it' n).map (x :: ·)
    | some (.finished, _) => some []
    | _ => none

def plain : BufferingTreeBuilder := .new {}
def wrapped : BufferingTreeBuilder := .new { wrap_with_directory := true }

def results (b : BufferingTreeBuilder) (links : List (String × Cid × Nat)) : Option (List (Bytes × Cid)) :=
  (puts b links).bind fun b => (built b.build 50).map (List.map fun n => (n.path, n.cid))

def five : Cid := cid "QmRJHYTNvC3hmd9gJQARxLR1QMEincccBV53bBw524yyq6"

def leBytes (n : Nat) : Bytes := (List.range 8).map fun i => UInt8.ofNat (n / 256 ^ i)
def someCid (n : Nat) : Cid := cidOf sha256 (leBytes n)

-- `some_directories`
#guard results plain [("a/b/c/d/e/f/g.txt", five, 221), ("a/b/c/d/e/h.txt", five, 221), ("a/b/c/d/e/i.txt", five, 221)] =
  some ([("a/b/c/d/e/f", "bafybeiggi7xxndgcvvn776odlzbyo42os3m2ns7flmd2zoqjdtxhxjj5pm"),
    ("a/b/c/d/e", "bafybeienpcl75unpkin7sublc6b4liop2efhscxxlxgipncfvnxydsu6ya"),
    ("a/b/c/d", "bafybeigwwu5zfiu7trjhnulcejlpo7ytinr4iyqasetnmw3sko5l36wjqm"),
    ("a/b/c", "bafybeig7jp4rbhaejauys6drkl66c7gcsp26gn3hdryezex5j4jng4ppda"),
    ("a/b", "bafybeiethbkivdfv6yvvl4ho4tv2ogbyn4uzblvtkjuqksu2acbk32gwf4"),
    ("a", "bafybeiaadgmref7r6eqwxv66nmwfoy3qxv57gdwmk4xnierff5bobsvsny")].map fun (p, c) => (str p, cid c))

-- `empty_path`
#guard results plain [("", someCid 0, 1)] = some []

-- `rooted_path`, `successive_slashes`, `denied_multiple_root_dirs`, `denied_multiple_root_files`, `using_leaf_as_node`
#guard (puts plain [("/a", someCid 0, 1)]).isNone
#guard (puts plain [("a//b", someCid 0, 1)]).isNone
#guard (puts plain [("a/c.txt", someCid 0, 1)]).isSome
#guard (puts plain [("a/c.txt", someCid 0, 1), ("b/d.txt", someCid 1, 1)]).isNone
#guard (puts plain [("a.txt", someCid 0, 1)]).isSome
#guard (puts plain [("a.txt", someCid 0, 1), ("b.txt", someCid 1, 1)]).isNone
#guard (puts plain [("a.txt", someCid 0, 1), ("a.txt/b.txt", someCid 1, 1)]).isNone

-- `multiple_roots`, `single_wrapped_root`
#guard results wrapped [("a", five, 221), ("b", five, 221)] =
  some [([], cid "bafybeihcvyze4cpjen52osvvcqyhlgtbe456g6lyudqa37tcbctkl4x6kq")]
#guard results wrapped [("a", five, 221)] = some [([], cid "bafybeia3o7eaqkxuxpdotmu5su3rmdvmuimpo7vpb23ulpzg7od7j3nlte")]

-- `set_metadata_before_files`
#guard (match plain.setMetadata (str "a/b/c/d") {} with
  | (.ok (), b) => (results b [("a/b/c/d/e.txt", someCid 1, 1), ("a/b/c/d/f.txt", someCid 2, 1)]).map (List.map (·.1)) =
      some (["a/b/c/d", "a/b/c", "a/b", "a"].map str)
  | _ => false)

-- `set_metadata_on_file`
#guard (match puts plain [("a/a.txt", someCid 0, 1)] with
  | some b => match (b.setMetadata (str "a/a.txt") {}).1 with | .err (.LeafAsDirectory _) => true | _ => false
  | none => false)

-- `dir_with_cidv1_link`
#guard results plain [("a/b", cid "bafyreihakpd7te5nbmlhdk5ntvcvhf2hmfgrvcwna2sddq5zz5342mcbli", 12)] =
  some [(str "a", cid "bafybeiapacmj5oggpmkv7c4d2ujfokpdmnczg2gtr5ddumhz7j4sdy7734")]

/-! ### `src/symlink.rs:33-200` -/

-- `simple_symlink`
#guard cidOf sha256 (serializeSymlinkBlock (str "b") []) = cid "bafybeih4p6wgtxnujy4wq3wp2hwmnrjkwzj7iit6km7oosroeohywikd2m"

def car : Cid := cid "QmNYVgoDXh3dqC1jjCuYqQ9w4XfiocehPZjEPiQiCVYv33"
def toB : Cid := cid "QmfLJN6HLyREnWr7QQNmgmuNziUhcbwUopkHQ8gD3pMfp6"

-- `symlinks_in_trees_rooted`, `symlinks_in_trees_wrapped`
#guard ((results plain [("foo_directory/b/car", car, 12), ("foo_directory/a", toB, 7)]).bind (·.getLast?)).map (·.2) =
  some (cid "bafybeibsalmqatls4cakc5ivjn3yawtb66h5ztg33w2us7oomnlt2ugzgu")
#guard ((results wrapped [("b/car", car, 12), ("a", toB, 7)]).bind (·.getLast?)).map (·.2) =
  some (cid "bafybeibsalmqatls4cakc5ivjn3yawtb66h5ztg33w2us7oomnlt2ugzgu")

/-! ### the walker: `src/symlink.rs:121-200`, `src/walk.rs:731-946` -/

/-- `walk_everything`: all answers, in order. -/
def walkAll (get : Cid → Option Bytes) (w : Walker) (cache : Option VisitCache) : Nat → Option (List ContinuedWalk)
  | 0 => none
  | n + 1 =>
    if w.shouldContinue = false then some []
    else match w.pendingLinks with
    | .ok (next, _) =>
      match get next with
      | none => none
      | some b =>
        match w.step b cache with
        | (.ok item, w', cache') => (walkAll get w' cache' n).map (item :: ·)
        | _ => none
    | _ => none

def pathOf : ContinuedWalk → List Bytes
  | .Bucket _ p | .Directory _ p _ | .File _ _ p _ _ | .RootDirectory _ p _ | .Symlink _ _ p _ => p.comps

-- `walking_symlink_containing_tree`
#guard symlinkHex.map (fun h => sha256 (hex h)) = symlinkNames.map (fun s => (cid s).digest)
#guard (walkAll (storeOfHex symlinkHex) (.new (cid "QmZDVQHwjHwA4SyzEDtJLNxmZeJVK1W8BWFAHV61x2Rs19") []) none 20).map
    (List.map fun
      | .File _ _ p _ _ => ("file", p.comps, [])
      | .RootDirectory _ p _ => ("dir", p.comps, [])
      | .Directory _ p _ => ("dir", p.comps, [])
      | .Bucket _ p => ("bucket", p.comps, [])
      | .Symlink t _ p _ => ("symlink", p.comps, t)) =
  some [("dir", [], []), ("symlink", [str "a"], str "b"), ("dir", [str "b"], []), ("file", [str "b", str "car"], [])]

/-- How often each path is reported. -/
def counts (root : String) (start : String) : Option (List (List Bytes × Nat)) :=
  (walkAll blocks (.new (cid start) (str root)) none 50).map fun items =>
    let ps := items.map pathOf
    ps.eraseDups.map fun p => (p, ps.count p)

def rootComps (root : String) : List Bytes := if root = "" then [] else [str root]

-- `walk_two_file_directory_empty`, `walk_two_file_directory_named`
#guard ["", "foo"].all fun r =>
  let d := rootComps r ++ [str "QmVkvLsSEm2uJx1h5Fqukje8mMPYg393o5C2kMCkF2bBTA"]
  counts r "QmPTotyhVnnfCu9R4qwR4cdhpi5ENaiP8ZJfdqsm8Dw2jB" =
    some [(rootComps r, 1), (d, 1), (d ++ [str "foobar.balanced"], 5), (d ++ [str "foobar.trickle"], 5)]

-- `sharded_dir_different_root_empty`, `sharded_dir_different_root_named`
#guard ["", "foo"].all fun r =>
  match counts r "QmZbFPTnDBMWbQ6iBxQAhuhLz8Nu9XptYS96e7cuf5wvbk" with
  | some l =>
    l.length = 17 ∧ (rootComps r, 9) ∈ l ∧
      (["038", "048", "050", "058", "009", "033", "004", "034", "017", "037", "040", "016", "041", "003", "025", "049"].all
        fun i => (rootComps r ++ [str ("long-named-file-" ++ i)], 1) ∈ l) = true
  | none => false

-- `top_level_single_block_file_*`, `top_level_symlink_*`, `top_level_multiblock_file_*`
#guard ["", "empty.txt"].all fun r => counts r "QmbFMke1KXqnYyBBWxB74N4c5SBnJMVAiMNRcGu6x1AwQH" = some [(rootComps r, 1)]
#guard ["", "this_links_to_foobar"].all fun r =>
  counts r "QmNgQEdXVdLw79nH2bnxLMxnyWMaXrijfqMTiDVat3iyuz" = some [(rootComps r, 1)]
#guard ["", "foobar_and_newline.txt"].all fun r =>
  counts r "QmWfQ48ChJUj4vWKFsUDe4646xCBmXgdmNfhjz9T7crywd" = some [(rootComps r, 5)]

-- `test_walked_file_segments`
#guard (walkAll blocks (.new (cid "QmWfQ48ChJUj4vWKFsUDe4646xCBmXgdmNfhjz9T7crywd") []) none 20).map
    (List.map fun
      | .File s _ _ _ _ => (s.asBytes.length, s.isFirst, s.isLast)
      | _ => (99, false, false)) =
  some [(0, true, false), (2, false, false), (2, false, false), (2, false, false), (1, false, true)]

end Verif.Vectors
