import Verif.Spec.ShardStep
/-
What a path through directories, plain and sharded, leads to: in terms of the blocks of a store alone.
-/
namespace Verif.Spec
open Verif

/-- `InShard get name links c`: among the links of a shard, or of a shard below it, is an entry `name` with the Cid `c`. -/
inductive InShard (get : Cid → Option Bytes) (name : Bytes) : List PBLink → Cid → Prop
  | here {links : List PBLink} {l : PBLink} {c : Cid} : l ∈ links → IsHit name l → Cid.tryFrom (l.Hash.getD []) = .ok c →
      InShard get name links c
  | bucket {links : List PBLink} {l : PBLink} {b : Cid} {block : Bytes} {m : FlatUnixFs} {c : Cid} : l ∈ links → IsBucket l →
      Cid.tryFrom (l.Hash.getD []) = .ok b → get b = some block → FlatUnixFs.tryParse block = .ok m → ShardNode m →
      InShard get name m.links c → InShard get name links c

/-- `EntryOf get d name c`: the directory with Cid `d` has an entry `name` with the Cid `c`. -/
inductive EntryOf (get : Cid → Option Bytes) (d : Cid) (name : Bytes) (c : Cid) : Prop
  | plain {block : Bytes} {links : List PBLink} {l : PBLink} : get d = some block → PlainDir block links → l ∈ links →
      l.Name.getD [] = name → Cid.tryFrom (l.Hash.getD []) = .ok c → EntryOf get d name c
  | sharded {block : Bytes} {m : FlatUnixFs} : get d = some block → FlatUnixFs.tryParse block = .ok m → ShardNode m →
      InShard get name m.links c → EntryOf get d name c

/-- `Path get d names c`: following the names, one after the other, from `d` leads to `c`. -/
inductive Path (get : Cid → Option Bytes) : Cid → List Bytes → Cid → Prop
  | here (d : Cid) : Path get d [] d
  | step {d d' c : Cid} {name : Bytes} {names : List Bytes} : EntryOf get d name d' → Path get d' names c → Path get d (name :: names) c

/-- `Lists get d es`: `d` is a well-formed directory of either kind with exactly the entries `es`, no two of the same name. -/
def Lists (get : Cid → Option Bytes) (d : Cid) (es : List (Bytes × Cid)) : Prop :=
  (es.map (·.1)).Nodup ∧ ∃ block, get d = some block ∧
    ((∃ links, PlainDir block links ∧
        links.map (fun l => (l.Name.getD [], Cid.tryFrom (l.Hash.getD []))) = es.map (fun e => (e.1, .ok e.2))) ∨
     (∃ t, ShardAt get t block ∧ t.entries = es))

/-- What the names lead to in well-formed directories: a Cid, or nothing if an entry on the way does not exist. -/
inductive Leads (get : Cid → Option Bytes) : Cid → List Bytes → Option Cid → Prop
  | here (d : Cid) : Leads get d [] (some d)
  | step {d d' : Cid} {es : List (Bytes × Cid)} {name : Bytes} {names : List Bytes} {r : Option Cid} : Lists get d es → (name, d') ∈ es →
      Leads get d' names r → Leads get d (name :: names) r
  | absent {d : Cid} {es : List (Bytes × Cid)} {name : Bytes} {names : List Bytes} : Lists get d es → name ∉ es.map (·.1) →
      Leads get d (name :: names) none

/-! Paths as text, for the program `resolve`. -/

/-- The text `/ipfs/` in UTF-8: `/`, `i`, `p`, `f`, `s`, `/`. -/
def ipfsText : Bytes := [47, 105, 112, 102, 115, 47]

/-- `sep` occurs in `s`. -/
def Occurs (sep s : Bytes) : Prop := ∃ u v, s = u ++ sep ++ v

/-- A root and names behind it, before each of which are one or more slashes (`k + 1` of them), and slashes at the end. -/
def pathText (root : Bytes) (pieces : List (Nat × Bytes)) (trailing : Nat) : Bytes :=
  root ++ pieces.flatMap (fun (k, n) => List.replicate (k + 1) slash ++ n) ++ List.replicate trailing slash

end Verif.Spec
