import Verif.Spec.Causes
/-
Property C103: the causes of errors.
-/
namespace Verif.Props
open Verif Verif.Spec

theorem source_cases {e c : AnyError} (h : e.source = some c) :
    (∃ x, e = .link x ∧ c = .cid x.source) ∨ (∃ x, e = .read (.InvalidCid x) ∧ c = .link x) ∨
    (∃ x, e = .read (.Read (some x)) ∧ c = .pb x) ∨ (∃ x, e = .parse (.InvalidDagPb x) ∧ c = .pb x) ∨
    (∃ x n, e = .parse (.InvalidUnixFs x n) ∧ c = .pb x) ∨ (∃ x, e = .lookup (.Read (some x)) ∧ c = .pb x) ∨
    (∃ x, e = .resolve (.Read x) ∧ c = .pb x) ∨ (∃ x, e = .resolve (.Lookup (.Read (some x))) ∧ c = .pb x) := by
  cases e with
  | link x => cases h; exact .inl ⟨x, rfl, rfl⟩
  | read x =>
    cases x with
    | InvalidCid y => cases h; exact .inr (.inl ⟨y, rfl, rfl⟩)
    | Read o =>
      cases o with
      | none => cases h
      | some y => cases h; exact .inr (.inr (.inl ⟨y, rfl, rfl⟩))
    | _ => cases h
  | parse x =>
    cases x with
    | InvalidDagPb y => cases h; exact .inr (.inr (.inr (.inl ⟨y, rfl, rfl⟩)))
    | InvalidUnixFs y n => cases h; exact .inr (.inr (.inr (.inr (.inl ⟨y, n, rfl, rfl⟩))))
    | NoData _ => cases h
  | lookup x =>
    cases x with
    | Read o =>
      cases o with
      | none => cases h
      | some y => cases h; exact .inr (.inr (.inr (.inr (.inr (.inl ⟨y, rfl, rfl⟩)))))
    | _ => cases h
  | resolve x =>
    cases x with
    | Read y => cases h; exact .inr (.inr (.inr (.inr (.inr (.inr (.inl ⟨y, rfl, rfl⟩))))))
    | Lookup l =>
      cases l with
      | Read o =>
        cases o with
        | none => cases h
        | some y => cases h; exact .inr (.inr (.inr (.inr (.inr (.inr (.inr ⟨y, rfl, rfl⟩))))))
      | _ => cases h
    | _ => cases h
  | _ => cases h

/-- C103. The cause given by `source()` is an error which is in the error, at some depth; nothing is made up. -/
theorem C103_held (e c : AnyError) (h : e.source = some c) : ContainsDeep e c := by
  rcases source_cases h with ⟨x, rfl, rfl⟩ | ⟨x, rfl, rfl⟩ | ⟨x, rfl, rfl⟩ | ⟨x, rfl, rfl⟩ | ⟨x, n, rfl, rfl⟩ | ⟨x, rfl, rfl⟩ |
    ⟨x, rfl, rfl⟩ | ⟨x, rfl, rfl⟩
  · exact .here (.link x)
  · exact .here (.readLink x)
  · exact .here (.read x)
  · exact .here (.dagPb x)
  · exact .here (.unixFs x n)
  · exact .here (.lookupRead x)
  · exact .here (.resolveRead x)
  · exact .deeper (.resolve _) (.here (.lookupRead x))

theorem suffix_r {a b c : Text} (h : c <:+ b) : c <:+ a ++ b := h.trans ⟨a, rfl⟩

/-- C103. The message of a cause is the end of the message of the error, so a program which prints the chain prints nothing new; and one
which prints only the error loses nothing. -/
theorem C103_message (env : FmtEnv) (e c : AnyError) (h : e.source = some c) : c.display env <:+ e.display env := by
  rcases source_cases h with ⟨x, rfl, rfl⟩ | ⟨x, rfl, rfl⟩ | ⟨x, rfl, rfl⟩ | ⟨x, rfl, rfl⟩ | ⟨x, n, rfl, rfl⟩ | ⟨x, rfl, rfl⟩ |
    ⟨x, rfl, rfl⟩ | ⟨x, rfl, rfl⟩
  · exact suffix_r (List.suffix_refl _)
  · exact List.suffix_refl _
  all_goals exact suffix_r (List.suffix_refl _)

/-- C103. Calling `source()` again and again ends, after at most two steps, for every error. -/
theorem C103_ends (e : AnyError) : ∃ cs, Causes e cs ∧ cs.length ≤ 2 := by
  cases h : e.source with
  | none => exact ⟨[], .last h, by decide⟩
  | some c =>
    rcases source_cases h with ⟨x, rfl, rfl⟩ | ⟨x, rfl, rfl⟩ | ⟨x, rfl, rfl⟩ | ⟨x, rfl, rfl⟩ | ⟨x, n, rfl, rfl⟩ | ⟨x, rfl, rfl⟩ |
      ⟨x, rfl, rfl⟩ | ⟨x, rfl, rfl⟩
    case inr.inl => exact ⟨[.link x, .cid x.source], .more h (.more rfl (.last rfl)), Nat.le_refl 2⟩
    all_goals exact ⟨[_], .more h (.last rfl), Nat.le_succ 1⟩

/-- The chain is determined by the error. -/
theorem Causes.unique {e : AnyError} {a b : List AnyError} (ha : Causes e a) (hb : Causes e b) : a = b := by
  induction ha generalizing b with
  | last h => cases hb with
    | last _ => rfl
    | more h' _ => rw [h] at h'; cases h'
  | more h _ ih => cases hb with
    | last h' => rw [h] at h'; cases h'
    | more h' hb =>
      rw [h] at h'
      cases h'
      rw [ih hb]

/-- C103, the full statement: an error of one of the decoders which is in an error of the crate, at any depth, is found by calling `source()`
again and again. -/
def C103_full : Prop := ∀ e b : AnyError, ContainsDeep e b → Bottom b → ∃ cs, Causes e cs ∧ cs.getLast? = some b

/-- It is false: the errors of a walk do not give their cause, although they hold it and show it. -/
theorem C103_full_false : ¬ C103_full := by
  intro h
  obtain ⟨cs, hc, hl⟩ := h (.walk (.DagPbParsingFailed .varint)) (.pb .varint) (.here (.walkDagPb _)) trivial
  cases Causes.unique hc (.last rfl)
  cases hl

theorem bottom_end {b c : AnyError} (hb : Bottom b) : ¬ ContainsError b c := by
  intro h
  cases h <;> exact hb

theorem ContainsError.shard_none {s : ShardError} {c : AnyError} : ¬ ContainsError (.shard s) c := nofun
theorem ContainsError.file_none {s : FileError} {c : AnyError} : ¬ ContainsError (.file s) c := nofun

theorem deep_bottom {a b : AnyError} (h : ContainsDeep a b) (ha : Bottom a) : False := by
  cases h with
  | here h => exact bottom_end ha h
  | deeper h _ => exact bottom_end ha h

theorem deep_leaf {a b : AnyError} (h : ContainsDeep a b) (ha : ∀ c, ¬ ContainsError a c) : False := by
  cases h with
  | here h => exact ha _ h
  | deeper h _ => exact ha _ h

/-- C103, what is true of it: for every error except those of walks, of building trees and of a lookup about links, the error of the decoder
in it is the last cause. -/
theorem C103_bottom_partial (e b : AnyError) (hs : ¬ Silent e) (h : ContainsDeep e b) (hb : Bottom b) :
    ∃ cs, Causes e cs ∧ cs.getLast? = some b := by
  have link (x : InvalidCidInLink) (h : ContainsDeep (.link x) b) : b = .cid x.source := by
    cases h with
    | here h => cases h; rfl
    | deeper h h' => cases h; exact (deep_bottom h' trivial).elim
  cases h with
  | here h =>
    cases h with
    | link x => exact ⟨_, .more rfl (.last rfl), rfl⟩
    | read x => exact ⟨_, .more rfl (.last rfl), rfl⟩
    | dagPb x => exact ⟨_, .more rfl (.last rfl), rfl⟩
    | unixFs x n => exact ⟨_, .more rfl (.last rfl), rfl⟩
    | lookupRead x => exact ⟨_, .more rfl (.last rfl), rfl⟩
    | resolveRead x => exact ⟨_, .more rfl (.last rfl), rfl⟩
    | walkDagPb x => exact (hs trivial).elim
    | walkUnixFs x => exact (hs trivial).elim
    | construction => exact (hs trivial).elim
    | _ => exact hb.elim
  | deeper h h' =>
    cases h with
    | readLink x =>
      cases link x h'
      exact ⟨_, .more rfl (.more rfl (.last rfl)), rfl⟩
    | second f x => exact (hs trivial).elim
    | lookupLink x => exact (hs trivial).elim
    | walkLink x => exact (hs trivial).elim
    | walkFile x => exact (hs trivial).elim
    | walkShard x => exact (hs trivial).elim
    | walkDagPb x => exact (hs trivial).elim
    | walkUnixFs x => exact (hs trivial).elim
    | construction => exact (hs trivial).elim
    | resolve x =>
      cases h' with
      | here h' =>
        cases h' with
        | lookupRead y => exact ⟨_, .more rfl (.last rfl), rfl⟩
        | _ => exact hb.elim
      | deeper h1 h2 =>
        cases h1 with
        | lookupRead y => exact (deep_bottom h2 trivial).elim
        | lookupShard y => exact (deep_leaf h2 nofun).elim
        | lookupLink y => exact (hs trivial).elim
        | second f y => exact (hs trivial).elim
    | readFile x => exact (deep_leaf h' nofun).elim
    | lookupShard x => exact (deep_leaf h' nofun).elim
    | link x => exact (deep_bottom h' trivial).elim
    | read x => exact (deep_bottom h' trivial).elim
    | dagPb x => exact (deep_bottom h' trivial).elim
    | unixFs x n => exact (deep_bottom h' trivial).elim
    | lookupRead x => exact (deep_bottom h' trivial).elim
    | resolveRead x => exact (deep_bottom h' trivial).elim

/-- C103. The exceptions really are: such an error never gives any cause. -/
theorem C103_silent (e : AnyError) (h : Silent e) : e.source = none := by
  cases e with
  | walk _ | construction _ => rfl
  | lookup x => cases x <;> first | rfl | exact h.elim
  | resolve x =>
    cases x with
    | Lookup y => cases y <;> first | rfl | exact h.elim
    | _ => exact h.elim
  | _ => exact h.elim

/-- C103. Turning the error of a lookup into one of resolving changes neither the message nor the cause. -/
theorem C103_conversion (env : FmtEnv) (e : LookupError) :
    (AnyError.resolve e.intoResolveError).display env = (AnyError.lookup e).display env ∧
      (AnyError.resolve e.intoResolveError).source = (AnyError.lookup e).source := by
  refine ⟨rfl, ?_⟩
  cases e with
  | Read o => cases o <;> rfl
  | _ => rfl

/-- A link which is no Cid, met while reading a file: the chain is the complaint about the link, then that of the decoder of Cids. -/
theorem C103_example (x : InvalidCidInLink) :
    Causes (.read (.InvalidCid x)) [.link x, .cid x.source] ∧ ContainsDeep (.read (.InvalidCid x)) (.cid x.source) ∧
      ¬ Silent (.read (.InvalidCid x)) ∧ ContainsDeep (.walk (.InvalidCid x)) (.cid x.source) ∧ Silent (.walk (.InvalidCid x)) :=
  ⟨.more rfl (.more rfl (.last rfl)), .deeper (.readLink x) (.here (.link x)), id, .deeper (.walkLink x) (.here (.link x)), trivial⟩

end Verif.Props
