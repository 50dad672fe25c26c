import Verif.DebugText
import Verif.Spec.ErrorTexts
/-
What `{:?}` prints, and what it has to tell.
-/
namespace Verif.Spec
open Verif

/-- What is printed of a value tells which value it is, and where it ends, whatever is printed after it. -/
def Cuts {α : Type} (f : α → Text) : Prop := ∀ a b x y, f a ++ x = f b ++ y → a = b ∧ x = y

/-- What the other crates print is on one line, and tells what it is of. -/
structure TellingTexts (env : DebugEnv) : Prop extends TidyTexts env.toFmtEnv where
  pbDebug (e : PbError) : OneLine env.printable (env.pbDebug e)
  cidDisplay (c : Cid) : OneLine env.printable (env.cidDisplay c)
  pb_cuts : Cuts env.pbDebug
  cid_cuts : Cuts env.cid
  cidError_cuts : Cuts env.cidErrorDebug

/-- What `{:?}` prints of the errors of the crate, of the items of a walk, of the results of a lookup and of the nodes of a tree. -/
inductive Debugged (env : DebugEnv) : Text → Prop
  | link (e : InvalidCidInLink) : Debugged env (e.debugText env.toFmtEnv)
  | file (e : FileError) : Debugged env e.debugText
  | read (e : FileReadFailed) : Debugged env (e.debugText env)
  | parse (e : ParsingFailed) : Debugged env (e.debugText env)
  | directory (e : UnexpectedDirectoryProperties) : Debugged env e.debugText
  | shard (e : ShardError) : Debugged env e.debugText
  | lookup (e : LookupError) : Debugged env (e.debugText env)
  | resolve (e : ResolveError) : Debugged env (e.debugText env)
  | walk (e : WalkError) : Debugged env (e.debugText env)
  | building (e : TreeBuildingFailed) : Debugged env (e.debugText env)
  | construction (e : TreeConstructionFailed) : Debugged env (e.debugText env)
  | metadata (m : Metadata) : Debugged env m.debugText
  | item (i : ContinuedWalk) : Debugged env (i.debugText env)
  | resolved (r : MaybeResolved) : Debugged env (r.debugText env)
  | node (n : TreeNode) : Debugged env (n.debugText env)

/-- The names of the links are text (in Rust they are `str`s). -/
def _root_.Verif.PBNode.TextNames (n : PBNode) : Prop := ∀ l ∈ n.Links, ∀ s, l.Name = some s → IsText s

/-- The names in the error are text. -/
def _root_.Verif.ParsingFailed.TextNames : ParsingFailed → Prop
  | .InvalidDagPb _ => True
  | .NoData n => n.TextNames
  | .InvalidUnixFs _ n => n.TextNames

/-- The name in the error is text. -/
def _root_.Verif.FileReadFailed.TextName : FileReadFailed → Prop
  | .InvalidCid e => IsText e.name
  | _ => True

/-- The name in the error is text. -/
def _root_.Verif.ResolveError.TextName : ResolveError → Prop
  | .Lookup (.InvalidCid e) => IsText e.name
  | .Lookup (.Multiple (.OneValid _ e)) => IsText e.name
  | _ => True

/-- The same links and bytes, wherever they were read from. -/
def SameNode (a b : PBNode) : Prop := a.Links = b.Links ∧ a.Data.map (·.val) = b.Data.map (·.val)

/-- The same error, with the same node. -/
def SameParsing : ParsingFailed → ParsingFailed → Prop
  | .InvalidDagPb e, .InvalidDagPb e' => e = e'
  | .NoData n, .NoData n' => SameNode n n'
  | .InvalidUnixFs e n, .InvalidUnixFs e' n' => e = e' ∧ SameNode n n'
  | _, _ => False

end Verif.Spec
