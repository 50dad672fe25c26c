import Verif.ErrorText
import Verif.Spec.Text
/-
What may be in a printed message, and what a message tells.
-/
namespace Verif.Spec
open Verif Verif.Examples

/-- A printable character of ASCII, or one of those beyond which `printable` has. In particular no newline, no escape and no other control
character of ASCII. -/
def Visible (printable : Char → Bool) (c : Char) : Prop :=
  (' '.toNat ≤ c.toNat ∧ c.toNat ≤ '~'.toNat) ∨ (0x7F ≤ c.toNat ∧ printable c = true)

/-- All on one line, nothing hidden. -/
def OneLine (printable : Char → Bool) (t : Text) : Prop := ∀ c ∈ t, Visible printable c

/-- A character which need not be escaped between double quotes. -/
def AsIs (printable : Char → Bool) (c : Char) : Prop := Visible printable c ∧ c ≠ '"' ∧ c ≠ '\\'

/-- What the other crates print is on one line. -/
structure TidyTexts (env : FmtEnv) : Prop where
  pb (e : PbError) : OneLine env.printable (env.pb e)
  cidError (e : CidError) : OneLine env.printable (env.cidError e)
  cidErrorDebug (e : CidError) : OneLine env.printable (env.cidErrorDebug e)
  cid (c : Cid) : OneLine env.printable (env.cid c)

/-- The messages of the errors of the crate. -/
inductive Message (env : FmtEnv) : Text → Prop
  | link (e : InvalidCidInLink) : Message env (e.display env)
  | linkDebug (e : InvalidCidInLink) : Message env (e.debugText env)
  | file (e : FileError) : Message env e.display
  | read (e : FileReadFailed) : Message env (e.display env)
  | parse (e : ParsingFailed) : Message env (e.display env)
  | directory (e : UnexpectedDirectoryProperties) : Message env e.display
  | shard (e : ShardError) : Message env e.display
  | lookup (e : LookupError) : Message env (e.display env)
  | resolve (e : ResolveError) : Message env (e.display env)
  | walk (e : WalkError) : Message env (e.display env)
  | building (e : TreeBuildingFailed) : Message env (e.display env)
  | construction (e : TreeConstructionFailed) : Message env (e.display env)

/-! ### what a message tells -/

/-- The same link, with the same complaint; the bytes of the hash are not shown. -/
def SameLink (env : FmtEnv) (a b : InvalidCidInLink) : Prop :=
  a.nth = b.nth ∧ a.name = b.name ∧ env.cidError a.source = env.cidError b.source

/-- The same properties; of the blocksizes only the number is shown, and empty data are like none. -/
def SameProperties (a b : UnexpectedDirectoryProperties) : Prop :=
  a.filesize = b.filesize ∧ a.blocksizes.length = b.blocksizes.length ∧ a.hash_type = b.hash_type ∧ a.fanout = b.fanout ∧
    a.data.getD [] = b.data.getD []

/-- The same properties; of the blocksizes only the number is shown. -/
def SameShard : ShardError → ShardError → Prop
  | .UnsupportedProperties h f, .UnsupportedProperties h' f' => h = h' ∧ f = f'
  | .UnexpectedProperties f b, .UnexpectedProperties f' b' => f = f' ∧ b.length = b'.length
  | _, _ => False

/-- The same error of a walk, as far as it is shown. -/
def SameWalkError (env : FmtEnv) : WalkError → WalkError → Prop
  | .UnsupportedType t, .UnsupportedType t' => t = t'
  | .UnexpectedType t, .UnexpectedType t' => t = t'
  | .DagPbParsingFailed e, .DagPbParsingFailed e' => env.pb e = env.pb e'
  | .UnixFsParsingFailed e, .UnixFsParsingFailed e' => env.pb e = env.pb e'
  | .EmptyDagPbNode, .EmptyDagPbNode => True
  | .InvalidCid e, .InvalidCid e' => SameLink env e e'
  | .File e, .File e' => e = e'
  | .UnsupportedDirectory e, .UnsupportedDirectory e' => SameProperties e e'
  | .UnsupportedHAMTShard e, .UnsupportedHAMTShard e' => SameShard e e'
  | _, _ => False

/-- The name of the link, if there is one in the error, is text (in Rust it is a `str`). -/
def _root_.Verif.WalkError.TextName : WalkError → Prop
  | .InvalidCid e => IsText e.name
  | _ => True

/-- The path in the error, if there is one, is text (in Rust it is a `String`). -/
def _root_.Verif.TreeBuildingFailed.TextPath : TreeBuildingFailed → Prop
  | .RootedPath s | .RepeatSlashesInPath s | .PathEndsInSlash s | .DuplicatePath s | .LeafAsDirectory s => IsText s
  | .TooManyRootLevelEntries => True

/-! ### listings -/

/-- A relative path of names: none is empty or has a slash in it, and all are text. -/
def NamePath (p : PathBuf) : Prop := p.absolute = false ∧ ∀ n ∈ p.comps, n ≠ [] ∧ slash ∉ n ∧ IsText n

/-- A line with such a path, and a target which is text. -/
def _root_.Verif.Examples.Line.Printable : Line → Prop
  | .f _ _ _ path => NamePath path
  | .d _ _ path => NamePath path
  | .s _ _ path target => NamePath path ∧ IsText target

end Verif.Spec
