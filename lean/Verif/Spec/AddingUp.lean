import Verif.Spec.DepthFirst
/-
Files whose blocks declare the sizes they have.
-/
namespace Verif.Spec
open Verif

/-- The sizes declared by the blocks below `c`, itself included, add up. A block without links declares the length of its data. A block with
links has no data, and declares the sum of the sizes it assigns to its links, one after the other; each of these is the size which the
linked block declares itself. -/
structure SizesAddUp (get : Cid → Option Bytes) (c : Cid) : Prop where
  leaf : ∀ d block m, LinkedTo get c d → get d = some block → FlatUnixFs.tryParse block = .ok m → m.links = [] →
    m.data.filesize = some (m.data.Data.getD []).length
  inner : ∀ d block m, LinkedTo get c d → get d = some block → FlatUnixFs.tryParse block = .ok m → m.links ≠ [] →
    m.data.Data.getD [] = [] ∧ m.data.filesize = some m.data.blocksizes.sum
  link : ∀ d block m, LinkedTo get c d → get d = some block → FlatUnixFs.tryParse block = .ok m →
    ∀ l n, (l, n) ∈ m.links.zip m.data.blocksizes → ∀ k block' m', Cid.tryFrom (l.Hash.getD []) = .ok k → get k = some block' →
      FlatUnixFs.tryParse block' = .ok m' → m'.data.filesize = some n

end Verif.Spec
