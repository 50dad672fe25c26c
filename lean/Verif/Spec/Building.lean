import Verif.Spec.DirTree
/-
Specification of the directory builder as a finite map from paths to links and directories.
-/
namespace Verif.Spec
open Verif

mutual
/-- Forgetting identifiers and metadata. -/
def _root_.Verif.DNode.strip : DNode → DTree
  | .leaf k c s => .link k c s
  | .dir k ns _ _ _ => .dir k (stripL ns)
def stripL : List DNode → List DTree
  | [] => []
  | n :: ns => n.strip :: stripL ns
end

/-- The tree held by a builder. -/
def contents (b : BufferingTreeBuilder) : List DTree := stripL b.root_builder.nodes

/-- A UTF-8 name of less than 2^31 bytes. -/
def NameOk (n : Bytes) : Prop := n.length < 2 ^ 31 ∧ validUtf8 n = true

/-- A call of the builder. -/
inductive Op where
  | putLink (path : Bytes) (target : Cid) (total : Nat)
  | setMetadata (path : Bytes) (md : Metadata)

/-- Making the call. -/
def Op.run (b : BufferingTreeBuilder) : Op → Res TreeBuildingFailed Unit × BufferingTreeBuilder
  | .putLink p c s => b.putLink p c s
  | .setMetadata p md => b.setMetadata p md

def Op.path : Op → Bytes
  | .putLink p _ _ => p
  | .setMetadata p _ => p

/-- What the call wants at its path. -/
def Op.thing : Op → Thing
  | .putLink _ c s => .link c s
  | .setMetadata _ _ => .dir

/-- The arguments are values of the Rust types: `&str` (of less than 2^31 bytes), `Cid` and `u64`. -/
def Op.Ok : Op → Prop
  | .putLink p c s => NameOk p ∧ c.Fits ∧ s < U64
  | .setMetadata p _ => NameOk p

/-- Making a series of calls: what they return, and the builder afterwards. -/
def runOps (b : BufferingTreeBuilder) : List Op → List (Res TreeBuildingFailed Unit) × BufferingTreeBuilder
  | [] => ([], b)
  | op :: ops => let r := op.run b; let rs := runOps r.2 ops; (r.1 :: rs.1, rs.2)

/-- The calls which were successful. -/
def successes (b : BufferingTreeBuilder) : List Op → List Op
  | [] => []
  | op :: ops => (if (op.run b).1 = .ok () then [op] else []) ++ successes (op.run b).2 ops

/-- The path with components `cs`: at least one, without slashes; none is empty except for that of the empty path. -/
def PathOf (p : Bytes) (cs : List Bytes) : Prop :=
  p = joinSlash cs ∧ cs ≠ [] ∧ (∀ c ∈ cs, slash ∉ c) ∧ (cs = [[]] ∨ ∀ c ∈ cs, c ≠ [])

/-- A link. -/
def isLink : Option Thing → Prop
  | some (.link _ _) => True
  | _ => False

instance : DecidablePred isLink := fun t => by
  cases t with
  | none => exact .isFalse id
  | some t => cases t with
    | link => exact .isTrue trivial
    | dir => exact .isFalse id

/-- When and why `op` at the path with components `cs` must be refused, given what is in the tree: because the root level
can have only one entry; because there is a link above the path; or because of what is at the path already. -/
def refusal (wrap : Bool) (ks : List DTree) (op : Op) (cs : List Bytes) : Option TreeBuildingFailed :=
  if wrap = false ∧ ks ≠ [] ∧ (cs.length = 1 ∨ lookupPath (cs.take 1) ks = none) then some .TooManyRootLevelEntries
  else if ∃ i < cs.length, isLink (lookupPath (cs.take i) ks) then some (.LeafAsDirectory op.path)
  else match op, lookupPath cs ks with
    | .putLink p _ _, some _ => some (.DuplicatePath p)
    | .setMetadata p _, some (.link _ _) => some (.LeafAsDirectory p)
    | _, _ => none

/-- What must be at `q` after `thing` was stored at `cs`. -/
def after (thing : Thing) (cs : List Bytes) (ks : List DTree) (q : List Bytes) : Option Thing :=
  if q = cs then some thing else if q <+: cs then some .dir else lookupPath q ks

/-- The builders which can be obtained through the API. -/
def Obtainable (b : BufferingTreeBuilder) : Prop :=
  ∃ opts ops, (∀ op ∈ ops, op.Ok) ∧ b = (runOps (.new opts) ops).2

/-- The entries of the directory at a path. -/
def entriesAt : List Bytes → List DTree → Option (List DTree)
  | [], ks => some ks
  | n :: p, ks =>
    match kid n ks with
    | some (.dir _ ks') => entriesAt p ks'
    | _ => none

/-- The node which must be built for the directory at the path with components `cs`. -/
def NodeAt (sha : Bytes → Bytes) (ks : List DTree) (cs : List Bytes) (x : TreeNode) : Prop :=
  ∃ es, entriesAt cs ks = some es ∧ x = nodeOf sha cs es

/-- No total size overflows 64 bits. -/
def SizesFit (sha : Bytes → Bytes) (b : BufferingTreeBuilder) : Prop :=
  ∀ x ∈ allNodes sha b.opts.wrap_with_directory (contents b), x.total_size < U64

/-- The directories for which blocks are built: all except the root, and the root when wrapping. -/
def BuiltDir (b : BufferingTreeBuilder) (cs : List Bytes) : Prop :=
  lookupPath cs (contents b) = some .dir ∧ (cs = [] → b.opts.wrap_with_directory = true)

/-- The answers to `n` calls of `next`, unless one of them panics or never returns. -/
def nexts (sha : Bytes → Bytes) : Nat → PostOrderIterator → Option (List IterNext)
  | 0, _ => some []
  | n + 1, it =>
    match PostOrderIterator.next sha it with
    | none => none
    | some (.panic _, _) => none
    | some (a, it) => (nexts sha n it).map (a :: ·)

/-- The same builder without a limit on the size of blocks. -/
def unlimited (b : BufferingTreeBuilder) : BufferingTreeBuilder :=
  { b with opts := { b.opts with block_size_limit := none } }

/-- Nodes, each with the components of the directory it is for: the paths are right, every directory comes once, after all
those below it, and none below it is missing. -/
structure Listing (b : BufferingTreeBuilder) (built : List (List Bytes × TreeNode)) : Prop where
  dirs : ∀ p ∈ built, BuiltDir b p.1
  paths : ∀ p ∈ built, p.2.path = joinSlash p.1
  once : (built.map (·.1)).Nodup
  order : (built.map (·.1)).Pairwise (fun first second => ¬ first <+: second)
  below : ∀ p ∈ built, ∀ cs, BuiltDir b cs → p.1 <+: cs → cs ∈ built.map (·.1)

end Verif.Spec
