import Verif.ErrorSource
/-
What is the cause of an error.
-/
namespace Verif.Spec
open Verif

/-- The error has another error in it, as documented with the variants of its type. -/
inductive ContainsError : AnyError → AnyError → Prop
  | link (e : InvalidCidInLink) : ContainsError (.link e) (.cid e.source)
  | readFile (e : FileError) : ContainsError (.read (.File e)) (.file e)
  | read (e : PbError) : ContainsError (.read (.Read (some e))) (.pb e)
  | readLink (e : InvalidCidInLink) : ContainsError (.read (.InvalidCid e)) (.link e)
  | dagPb (e : PbError) : ContainsError (.parse (.InvalidDagPb e)) (.pb e)
  | unixFs (e : PbError) (n : PBNode) : ContainsError (.parse (.InvalidUnixFs e n)) (.pb e)
  | second (first : Nat × Cid) (e : InvalidCidInLink) : ContainsError (.lookup (.Multiple (.OneValid first e))) (.link e)
  | lookupLink (e : InvalidCidInLink) : ContainsError (.lookup (.InvalidCid e)) (.link e)
  | lookupShard (e : ShardError) : ContainsError (.lookup (.Shard e)) (.shard e)
  | lookupRead (e : PbError) : ContainsError (.lookup (.Read (some e))) (.pb e)
  | resolveRead (e : PbError) : ContainsError (.resolve (.Read e)) (.pb e)
  | resolve (e : LookupError) : ContainsError (.resolve (.Lookup e)) (.lookup e)
  | walkDagPb (e : PbError) : ContainsError (.walk (.DagPbParsingFailed e)) (.pb e)
  | walkUnixFs (e : PbError) : ContainsError (.walk (.UnixFsParsingFailed e)) (.pb e)
  | walkLink (e : InvalidCidInLink) : ContainsError (.walk (.InvalidCid e)) (.link e)
  | walkFile (e : FileError) : ContainsError (.walk (.File e)) (.file e)
  | walkShard (e : ShardError) : ContainsError (.walk (.UnsupportedHAMTShard e)) (.shard e)
  | construction : ContainsError (.construction .Protobuf) (.pb .outputBufferTooSmall)

/-- In the error, or in one which is in it, and so on. -/
inductive ContainsDeep : AnyError → AnyError → Prop
  | here {a b : AnyError} : ContainsError a b → ContainsDeep a b
  | deeper {a b c : AnyError} : ContainsError a b → ContainsDeep b c → ContainsDeep a c

/-- The errors which are reached by calling `source()` again and again, nearest first. -/
inductive Causes : AnyError → List AnyError → Prop
  | last {e : AnyError} : e.source = none → Causes e []
  | more {e c : AnyError} {cs : List AnyError} : e.source = some c → Causes c cs → Causes e (c :: cs)

/-- An error of the decoder of protobuf or of the decoder of Cids: what is at the bottom. -/
def Bottom : AnyError → Prop
  | .pb _ | .cid _ => True
  | _ => False

/-- Errors which hold an error of a decoder but do not give it as a cause: those of walks and of building trees, and those of lookups about a
link which is no Cid. -/
def Silent : AnyError → Prop
  | .walk _ | .construction _ => True
  | .lookup (.InvalidCid _) | .lookup (.Multiple _) => True
  | .resolve (.Lookup (.InvalidCid _)) | .resolve (.Lookup (.Multiple _)) => True
  | _ => False

end Verif.Spec
