import Verif.FileReader
/-
Model of `/repo/src/dir/builder.rs`, `/repo/src/dir/builder/dir_builder.rs` and `/repo/src/dir/builder/buffered.rs`.
-/
namespace Verif

/-- `'/'` (`src/dir/builder/buffered.rs:85`.) -/
abbrev slash : UInt8 := 0x2F

/-- An entry of a `DirBuilder`'s `BTreeMap<String, Entry>` together with its key: `Entry::Leaf(Leaf)` or
`Entry::Directory(DirBuilder)`, `src/dir/builder.rs:16-19,42-45`, `src/dir/builder/dir_builder.rs:10-21`. -/
inductive DNode where
  | leaf (key : Bytes) (link : Cid) (total_size : Nat)
  | dir (key : Bytes) (nodes : List DNode) (metadata : Metadata) (parent_id : Option Nat) (id : Nat)
  deriving Repr

/-- The key in the map. (`src/dir/builder/dir_builder.rs:11-20`.) -/
def DNode.key : DNode → Bytes
  | .leaf k _ _ => k
  | .dir k _ _ _ _ => k

/-- `DirBuilder`, `src/dir/builder/dir_builder.rs:12-21`. The `BTreeMap` is the list of its entries in iteration order,
that is in increasing (byte-wise lexicographic) order of the keys. -/
structure DirBuilder where
  nodes : List DNode := []
  metadata : Metadata := {}
  parent_id : Option Nat
  id : Nat
  deriving Repr

/-- `BTreeMap::get`. (`src/dir/builder/dir_builder.rs:43`, `:57`, `src/dir/builder/buffered.rs:150`.) -/
def mapFind (key : Bytes) : List DNode → Option DNode
  | [] => none
  | x :: xs => if x.key = key then some x else mapFind key xs

/-- `BTreeMap::insert`, also the effect of writing through a `&mut` to the value of an existing key.
(`src/dir/builder/dir_builder.rs:46`, `:61`, `src/dir/builder/buffered.rs:158`.) -/
def mapSet (n : DNode) : List DNode → List DNode
  | [] => [n]
  | x :: xs => if n.key < x.key then n :: x :: xs else if n.key = x.key then n :: xs else x :: mapSet n xs

/-- `DirBuilder::new`, `src/dir/builder/dir_builder.rs:23-31`. -/
def DirBuilder.new {ε : Type} (parent_id id : Nat) : Res ε DirBuilder :=
  if parent_id = id then .panic .dirBuilderIds else .ok { parent_id := some parent_id, id := id }

/-- `DirBuilder::root`, `src/dir/builder/dir_builder.rs:33-40`. -/
def DirBuilder.root (id : Nat) : DirBuilder := { parent_id := none, id := id }

/-- `Entry::Directory(d)` under a key. (`src/dir/builder.rs:16-19`.) -/
def DirBuilder.asNode (d : DirBuilder) (key : Bytes) : DNode := .dir key d.nodes d.metadata d.parent_id d.id

/-- `TreeOptions`, `src/dir/builder.rs:55-67`. -/
structure TreeOptions where
  block_size_limit : Option Nat := some (512 * 1024)
  wrap_with_directory : Bool := false
  deriving DecidableEq, Repr

/-- `TreeBuildingFailed`, `src/dir/builder.rs:85-100`. -/
inductive TreeBuildingFailed where
  | RootedPath (p : Bytes)
  | RepeatSlashesInPath (p : Bytes)
  | PathEndsInSlash (p : Bytes)
  | TooManyRootLevelEntries
  | DuplicatePath (p : Bytes)
  | LeafAsDirectory (p : Bytes)
  deriving DecidableEq, Repr

/-- `str::split('/')`. (`src/dir/builder/buffered.rs:85`.) -/
def splitSlash : Bytes → List Bytes
  | [] => [[]]
  | b :: t =>
    if b = slash then [] :: splitSlash t
    else match splitSlash t with
      | [] => [[b]]
      | x :: xs => (b :: x) :: xs

/-- `str::ends_with('/')`. (`src/dir/builder/buffered.rs:90`.) -/
def endsWithSlash (p : Bytes) : Bool := p.getLast? == some slash

/-- `str::contains("//")`. (`src/dir/builder/buffered.rs:94`.) -/
def hasRepeatSlash : Bytes → Bool
  | a :: b :: t => (a == slash && b == slash) || hasRepeatSlash (b :: t)
  | _ => false

/-- `BufferingTreeBuilder`, `src/dir/builder/buffered.rs:8-18`. `counter: u64` is a natural number: it counts the
directories created, so it cannot reach `2^64`. -/
structure BufferingTreeBuilder where
  root_builder : DirBuilder
  longest_path : Nat
  counter : Nat
  opts : TreeOptions
  deriving Repr

/-- `BufferingTreeBuilder::new`, `src/dir/builder/buffered.rs:28-35`. -/
def BufferingTreeBuilder.new (opts : TreeOptions) : BufferingTreeBuilder :=
  { root_builder := DirBuilder.root 0, longest_path := 0, counter := 1, opts := opts }

/-- The closures given to `modify_with`. (`src/dir/builder/buffered.rs:50-54`, `:67-73`.) -/
inductive Modification where
  /-- `src/dir/builder/buffered.rs:51-55` -/
  | putLink (target : Cid) (total_size : Nat)
  /-- `src/dir/builder/buffered.rs:68-74` -/
  | setMetadata (metadata : Metadata)
  deriving DecidableEq, Repr

/-- Calling the closure on the last directory: the result, the directory afterwards, and whether `next_id` was taken.
`DirBuilder::put_leaf` is `src/dir/builder/dir_builder.rs:42-50`, `DirBuilder::add_or_get_node` is `:52-65`,
`DirBuilder::set_metadata` is `:75-77`. -/
def Modification.apply (f : Modification) (full_path : Bytes) (parent : DirBuilder) (basename : Bytes) (next_id : Nat) :
    Res TreeBuildingFailed Unit × DirBuilder × Bool :=
  match f with
  | .putLink target total_size =>
    match mapFind basename parent.nodes with
    | some _ => (.err (.DuplicatePath full_path), parent, false)
    | none => (.ok (), { parent with nodes := mapSet (.leaf basename target total_size) parent.nodes }, false)
  | .setMetadata metadata =>
    match mapFind basename parent.nodes with
    | some (.leaf _ _ _) => (.err (.LeafAsDirectory full_path), parent, false)
    | some (.dir k nodes _ pid id) =>
      (.ok (), { parent with nodes := mapSet (.dir k nodes metadata pid id) parent.nodes }, false)
    | none =>
      match DirBuilder.new parent.id next_id with
      | .err e => (.err e, parent, true)
      | .panic p => (.panic p, parent, true)
      | .ok d =>
        (.ok (), { parent with nodes := mapSet (({ d with metadata := metadata } : DirBuilder).asNode basename) parent.nodes }, true)

/-- The loop of `modify_with`, `src/dir/builder/buffered.rs:101-163`, from the given depth on the remaining components:
the result, `dir_builder` afterwards (`&mut` references into the tree are modelled by rebuilding the path), and the
counter. -/
def modifyLoop (full_path : Bytes) (wrap : Bool) (f : Modification) :
    Nat → List Bytes → DirBuilder → Nat → Res TreeBuildingFailed Unit × DirBuilder × Nat
  | _, [], dir_builder, counter => (.panic .builderUnreachable, dir_builder, counter)
  | depth, next :: rest, dir_builder, counter =>
    if next = [] ∧ depth = 0 ∧ rest ≠ [] then (.err (.RootedPath full_path), dir_builder, counter)
    else if next = [] ∧ depth ≠ 0 then (.panic .builderUnreachable, dir_builder, counter)
    else
      let full := depth = 0 ∧ wrap = false ∧ dir_builder.nodes ≠ []
      if rest = [] then
        if full then (.err .TooManyRootLevelEntries, dir_builder, counter)
        else
          let (ret, d, taken) := f.apply full_path dir_builder next counter
          (ret, d, if taken then counter + 1 else counter)
      else
        match mapFind next dir_builder.nodes with
        | some (.leaf _ _ _) => (.err (.LeafAsDirectory full_path), dir_builder, counter)
        | some (.dir _ nodes md pid id) =>
          let (ret, d, c) := modifyLoop full_path wrap f (depth + 1) rest ⟨nodes, md, pid, id⟩ counter
          (ret, { dir_builder with nodes := mapSet (d.asNode next) dir_builder.nodes }, c)
        | none =>
          if full then (.err .TooManyRootLevelEntries, dir_builder, counter)
          else
            match DirBuilder.new dir_builder.id counter with
            | .err e => (.err e, dir_builder, counter)
            | .panic p => (.panic p, dir_builder, counter + 1)
            | .ok d =>
              let (ret, d, c) := modifyLoop full_path wrap f (depth + 1) rest d (counter + 1)
              (ret, { dir_builder with nodes := mapSet (d.asNode next) dir_builder.nodes }, c)

/-- `BufferingTreeBuilder::modify_with`, `src/dir/builder/buffered.rs:77-170`. -/
def BufferingTreeBuilder.modifyWith (self : BufferingTreeBuilder) (full_path : Bytes) (f : Modification) :
    Res TreeBuildingFailed Unit × BufferingTreeBuilder :=
  let self := { self with longest_path := max full_path.length self.longest_path }
  if endsWithSlash full_path then (.err (.PathEndsInSlash full_path), self)
  else if hasRepeatSlash full_path then (.err (.RepeatSlashesInPath full_path), self)
  else
    let (ret, d, c) :=
      modifyLoop full_path self.opts.wrap_with_directory f 0 (splitSlash full_path) self.root_builder self.counter
    (ret, { self with root_builder := d, counter := c })

/-- `BufferingTreeBuilder::put_link`, `src/dir/builder/buffered.rs:40-56`. -/
def BufferingTreeBuilder.putLink (self : BufferingTreeBuilder) (full_path : Bytes) (target : Cid) (total_size : Nat) :
    Res TreeBuildingFailed Unit × BufferingTreeBuilder :=
  self.modifyWith full_path (.putLink target total_size)

/-- `BufferingTreeBuilder::set_metadata`, `src/dir/builder/buffered.rs:60-75`. -/
def BufferingTreeBuilder.setMetadata (self : BufferingTreeBuilder) (full_path : Bytes) (metadata : Metadata) :
    Res TreeBuildingFailed Unit × BufferingTreeBuilder :=
  self.modifyWith full_path (.setMetadata metadata)

end Verif
