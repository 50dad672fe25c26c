import Verif.Examples
import Verif.BuilderRun
import Verif.Spec.Resolving
/-
Property C78: how `examples/resolve.rs` reads its argument.
-/
namespace Verif.Props
open Verif Verif.Spec Verif.Examples

theorem ipfsSep_eq : ipfsSep = ipfsText := rfl

theorem splitOnce_none {sep : Bytes} : ∀ {s : Bytes}, ¬ Occurs sep s → splitOnce sep s = (s, none)
  | [], h => by
    rw [splitOnce, if_neg]
    intro hp
    obtain ⟨t, ht⟩ := List.isPrefixOf_iff_prefix.1 hp
    exact h ⟨[], t, by rw [List.nil_append, ht]⟩
  | b :: t, h => by
    rw [splitOnce, if_neg, splitOnce_none (s := t)]
    · rintro ⟨u, v, rfl⟩; exact h ⟨b :: u, v, rfl⟩
    · intro hp
      obtain ⟨t', ht⟩ := List.isPrefixOf_iff_prefix.1 hp
      exact h ⟨[], t', by rw [List.nil_append, ht]⟩

theorem splitOnce_prefix (sep s : Bytes) : splitOnce sep (sep ++ s) = ([], some s) := by
  cases h : sep ++ s with
  | nil =>
    obtain ⟨rfl, rfl⟩ := List.append_eq_nil_iff.1 h
    rfl
  | cons b t =>
    rw [splitOnce, if_pos (List.isPrefixOf_iff_prefix.2 ⟨s, h⟩), ← h, List.drop_left]

theorem splitOnce_later {sep : Bytes} : ∀ {s : Bytes}, Occurs sep s → ¬ sep <+: s →
    ∃ b a r, splitOnce sep s = (b :: a, some r)
  | [], h, hn => by
    obtain ⟨u, v, h⟩ := h
    have h1 := List.append_eq_nil_iff.1 h.symm
    have h2 := (List.append_eq_nil_iff.1 h1.1).2
    exact absurd (by rw [h2]; exact List.nil_prefix) hn
  | b :: t, h, hn => by
    obtain ⟨u, v, h⟩ := h
    have ht : Occurs sep t := by
      cases u with
      | nil => exact absurd ⟨v, h.symm⟩ hn
      | cons x u => simp only [List.cons_append, List.cons.injEq] at h; exact ⟨u, v, h.2⟩
    rw [splitOnce, if_neg (fun hp => hn (List.isPrefixOf_iff_prefix.1 hp))]
    by_cases hp : sep <+: t
    · obtain ⟨w, rfl⟩ := hp
      rw [splitOnce_prefix]
      exact ⟨b, [], w, rfl⟩
    · obtain ⟨b', a, r, hr⟩ := splitOnce_later ht hp
      rw [hr]
      exact ⟨b, b' :: a, r, rfl⟩

theorem splitSlash_slashes (k : Nat) (t : Bytes) :
    (splitSlash (List.replicate k slash ++ t)).filter (fun x => x ≠ []) = (splitSlash t).filter (fun x => x ≠ []) := by
  induction k with
  | zero => rfl
  | succ k ih =>
    rw [List.replicate_succ, List.cons_append, splitSlash_slash, List.filter_cons]
    simpa using ih

theorem splitSlash_name {n : Bytes} (h : slash ∉ n) (hne : n ≠ []) (t : Bytes) (ht : t = [] ∨ ∃ t', t = slash :: t') :
    (splitSlash (n ++ t)).filter (fun x => x ≠ []) = n :: (splitSlash t).filter (fun x => x ≠ []) := by
  rcases ht with rfl | ⟨t', rfl⟩
  · rw [List.append_nil, splitSlash_single h]
    simp [hne, splitSlash]
  · rw [splitSlash_append h, splitSlash_slash, List.filter_cons, List.filter_cons]
    simp [hne]

theorem tail_shape (pieces : List (Nat × Bytes)) (j : Nat) :
    pieces.flatMap (fun (k, n) => List.replicate (k + 1) slash ++ n) ++ List.replicate j slash = [] ∨
    ∃ t', pieces.flatMap (fun (k, n) => List.replicate (k + 1) slash ++ n) ++ List.replicate j slash = slash :: t' := by
  cases pieces with
  | nil =>
    cases j with
    | zero => exact .inl rfl
    | succ j => exact .inr ⟨_, by rw [List.replicate_succ]; rfl⟩
  | cons p ps =>
    right
    obtain ⟨k, n⟩ := p
    simp only [List.flatMap_cons, List.replicate_succ, List.cons_append]
    exact ⟨_, rfl⟩

theorem split_pieces (pieces : List (Nat × Bytes)) (j : Nat) (h : ∀ p ∈ pieces, p.2 ≠ [] ∧ slash ∉ p.2) :
    (splitSlash (pieces.flatMap (fun (k, n) => List.replicate (k + 1) slash ++ n) ++ List.replicate j slash)).filter (fun x => x ≠ []) =
      pieces.map (·.2) := by
  induction pieces with
  | nil =>
    have := splitSlash_slashes j []
    rw [List.append_nil] at this
    simpa [splitSlash] using this
  | cons p ps ih =>
    obtain ⟨k, n⟩ := p
    have hp := h (k, n) (by simp)
    rw [List.flatMap_cons, List.append_assoc, List.append_assoc, splitSlash_slashes,
      splitSlash_name hp.2 hp.1 _ (tail_shape ps j), ih (fun p hp => h p (by simp [hp]))]
    rfl

theorem go_pathText (parse : Bytes → Option Cid) (root : Bytes) (hroot : slash ∉ root) (pieces : List (Nat × Bytes)) (j : Nat)
    (h : ∀ p ∈ pieces, p.2 ≠ [] ∧ slash ∉ p.2) :
    IpfsPath.tryFrom.go parse (pathText root pieces j) =
      match parse root with
      | none => .error .InvalidCid
      | some c => .ok ⟨c, pieces.map (·.2)⟩ := by
  have hsp : splitOnce [slash] (pathText root pieces j) = (root, none) ∧ pieces = [] ∨
      ∃ r, splitOnce [slash] (pathText root pieces j) = (root, some r) ∧ (splitSlash r).filter (fun x => x ≠ []) = pieces.map (·.2) := by
    have first : ∀ (root t : Bytes), slash ∉ root → splitOnce [slash] (root ++ slash :: t) = (root, some t) := by
      intro root t hr
      induction root with
      | nil => exact splitOnce_prefix [slash] t
      | cons b root ih =>
        simp only [List.mem_cons, not_or] at hr
        rw [List.cons_append, splitOnce, if_neg, ih hr.2]
        intro hp
        obtain ⟨w, hw⟩ := List.isPrefixOf_iff_prefix.1 hp
        simp only [List.cons_append, List.nil_append, List.cons.injEq] at hw
        exact hr.1 hw.1
    have e : pathText root pieces j =
        root ++ (pieces.flatMap (fun (k, n) => List.replicate (k + 1) slash ++ n) ++ List.replicate j slash) := by
      rw [pathText, List.append_assoc]
    rw [e]
    have hs := split_pieces pieces j h
    rcases tail_shape pieces j with ht | ⟨t', ht⟩
    · left
      rw [ht] at hs ⊢
      rw [List.append_nil]
      refine ⟨splitOnce_none ?_, ?_⟩
      · rintro ⟨u, v, rfl⟩
        exact hroot (by simp)
      · have h0 : (splitSlash []).filter (fun x => x ≠ []) = [] := rfl
        rw [h0] at hs
        exact List.map_eq_nil_iff.1 hs.symm
    · right
      rw [ht] at hs ⊢
      refine ⟨t', first root t' hroot, ?_⟩
      rw [← hs, splitSlash_slash, List.filter_cons]
      simp
  rw [IpfsPath.tryFrom.go]
  rcases hsp with ⟨h1, rfl⟩ | ⟨r, h1, h2⟩
  · rw [h1]
    simp only [Option.map_none, Option.getD_none]
    cases hpr : parse root <;> simp only [hpr] <;> rfl
  · rw [h1]
    simp only [Option.map_some, Option.getD_some, h2]
    cases hpr : parse root <;> simp only [hpr]

/-- C78. A path which starts with `/ipfs/`: the Cid behind it and the names which follow; how many slashes there are between and
after the names does not matter. -/
theorem C78_prefixed (parse : Bytes → Option Cid) (root : Bytes) (hroot : slash ∉ root) (pieces : List (Nat × Bytes)) (trailing : Nat)
    (h : ∀ p ∈ pieces, p.2 ≠ [] ∧ slash ∉ p.2) :
    IpfsPath.tryFrom parse (ipfsText ++ pathText root pieces trailing) =
      match parse root with
      | none => .error .InvalidCid
      | some c => .ok ⟨c, pieces.map (·.2)⟩ := by
  rw [IpfsPath.tryFrom, ipfsSep_eq, splitOnce_prefix]
  exact go_pathText parse root hroot pieces trailing h

/-- C78. The same without the prefix, unless `/ipfs/` occurs later. -/
theorem C78_plain (parse : Bytes → Option Cid) (root : Bytes) (hne : root ≠ []) (hroot : slash ∉ root) (pieces : List (Nat × Bytes))
    (trailing : Nat) (h : ∀ p ∈ pieces, p.2 ≠ [] ∧ slash ∉ p.2) (hno : ¬ Occurs ipfsText (pathText root pieces trailing)) :
    IpfsPath.tryFrom parse (pathText root pieces trailing) =
      match parse root with
      | none => .error .InvalidCid
      | some c => .ok ⟨c, pieces.map (·.2)⟩ := by
  have hg := go_pathText parse root hroot pieces trailing h
  have hs := splitOnce_none hno
  have hp : pathText root pieces trailing ≠ [] := by
    intro h0
    rw [pathText, List.append_assoc] at h0
    exact hne (List.append_eq_nil_iff.1 h0).1
  rw [IpfsPath.tryFrom, ipfsSep_eq, hs]
  cases ht : pathText root pieces trailing with
  | nil => exact absurd ht hp
  | cons b t => rw [ht] at hg; exact hg

/-- C78. Refused as a path: exactly the empty text and those in which `/ipfs/` occurs but not at the beginning. -/
theorem C78_invalid (parse : Bytes → Option Cid) (text : Bytes) :
    IpfsPath.tryFrom parse text = .error .InvalidPath ↔ text = [] ∨ (Occurs ipfsText text ∧ ¬ ipfsText <+: text) := by
  have gono : ∀ x, IpfsPath.tryFrom.go parse x ≠ .error .InvalidPath := by
    intro x
    unfold IpfsPath.tryFrom.go
    cases hpr : parse (splitOnce [slash] x).1 <;> simp [hpr]
  by_cases hp : ipfsText <+: text
  · obtain ⟨t, rfl⟩ := hp
    rw [IpfsPath.tryFrom, ipfsSep_eq, splitOnce_prefix]
    constructor
    · intro h; exact absurd h (gono _)
    · rintro (h | h)
      · cases h
      · exact absurd (List.prefix_append _ _) h.2
  · by_cases ho : Occurs ipfsText text
    · obtain ⟨b, a, r, hs⟩ := splitOnce_later ho hp
      rw [IpfsPath.tryFrom, ipfsSep_eq, hs]
      simp [ho, hp]
    · rw [IpfsPath.tryFrom, ipfsSep_eq, splitOnce_none ho]
      cases text with
      | nil => simp
      | cons b t =>
        constructor
        · intro h; exact absurd h (gono _)
        · rintro (h | h)
          · cases h
          · exact absurd h.1 ho

/-- `/ipfs/Q//a/b/` and `Q/a/b` are the same path (with `Q` for a Cid); `Q/ipfs/a` is none. -/
example : let parse : Bytes → Option Cid := fun x => if x = [0x51] then some ⟨.v1, 0x70, 0x12, []⟩ else none
    IpfsPath.tryFrom parse (ipfsText ++ [0x51, 0x2F, 0x2F, 0x61, 0x2F, 0x62, 0x2F]) = .ok ⟨⟨.v1, 0x70, 0x12, []⟩, [[0x61], [0x62]]⟩ ∧
    IpfsPath.tryFrom parse [0x51, 0x2F, 0x61, 0x2F, 0x62] = .ok ⟨⟨.v1, 0x70, 0x12, []⟩, [[0x61], [0x62]]⟩ ∧
    IpfsPath.tryFrom parse (0x51 :: ipfsText ++ [0x61]) = .error .InvalidPath := by
  refine ⟨?_, ?_, ?_⟩ <;> rfl

end Verif.Props
