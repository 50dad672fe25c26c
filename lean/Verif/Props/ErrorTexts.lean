import Verif.TextShown
import Verif.Spec.ErrorTexts
/-
C99: messages are on one line. C100: messages tell errors apart.
-/
namespace Verif.Props
open Verif Verif.Spec

/-! ### one line -/

theorem oneLine_append {p : Char → Bool} {a b : Text} : OneLine p (a ++ b) ↔ OneLine p a ∧ OneLine p b := by
  simp only [OneLine, List.mem_append]
  exact ⟨fun h => ⟨fun c hc => h c (.inl hc), fun c hc => h c (.inr hc)⟩, fun h c hc => hc.elim (h.1 c) (h.2 c)⟩

theorem oneLine_cons {p : Char → Bool} {a : Char} {b : Text} : OneLine p (a :: b) ↔ Visible p a ∧ OneLine p b := by
  simp [OneLine]

theorem oneLine_nil {p : Char → Bool} : OneLine p [] := nofun

theorem oneLine_ascii {p : Char → Bool} {t : Text} (h : ∀ c ∈ t, 0x20 ≤ c.toNat ∧ c.toNat ≤ 0x7E) : OneLine p t := fun c hc => .inl (h c hc)

theorem oneLine_digits {p : Char → Bool} {b : Nat} (hb : 1 < b) (hb' : b ≤ 16) (n : Nat) : OneLine p (Nat.toDigits b n) :=
  oneLine_ascii fun c hc => by have := digits_hex hb hb' n c hc; unfold IsHex at this; omega

theorem oneLine_num {p : Char → Bool} (n : Nat) : OneLine p (numText n) := oneLine_digits (by omega) (by omega) n

theorem oneLine_int {p : Char → Bool} (i : Int) : OneLine p (intText i) := by
  cases i with
  | ofNat n => exact oneLine_num n
  | negSucc n => exact oneLine_cons.2 ⟨.inl (by decide), oneLine_num _⟩

theorem oneLine_escape {p : Char → Bool} {s : Bool} (c : Char) : OneLine p (escapeChar p s c) := by
  rcases escape_cases p s c with ⟨e, -, -, h⟩ | ⟨k, e, -, -, h1, h2⟩ | e <;> rw [e]
  · refine oneLine_cons.2 ⟨?_, oneLine_nil⟩
    rcases h with h | h
    · exact .inl ⟨h.1, Nat.le_of_lt_succ h.2⟩
    · exact .inr h
  · exact oneLine_cons.2 ⟨.inl (by decide), oneLine_cons.2 ⟨.inl ⟨h1, Nat.le_of_lt_succ h2⟩, oneLine_nil⟩⟩
  · exact oneLine_cons.2 ⟨.inl (by decide), oneLine_cons.2 ⟨.inl (by decide), oneLine_cons.2 ⟨.inl (by decide),
      oneLine_append.2 ⟨oneLine_digits (by omega) (by omega) _, oneLine_cons.2 ⟨.inl (by decide), oneLine_nil⟩⟩⟩⟩⟩

theorem oneLine_escaped {p : Char → Bool} {s : Bool} (cs : Text) : OneLine p (escaped p s cs) := by
  induction cs with
  | nil => exact oneLine_nil
  | cons c cs ih => exact oneLine_append.2 ⟨oneLine_escape c, ih⟩

theorem oneLine_quoted {p : Char → Bool} {s : Bool} (cs : Text) : OneLine p (['"'] ++ escaped p s cs ++ ['"']) := by
  have hq : OneLine p ['"'] := oneLine_cons.2 ⟨.inl (by decide), oneLine_nil⟩
  exact oneLine_append.2 ⟨oneLine_append.2 ⟨hq, oneLine_escaped cs⟩, hq⟩

theorem oneLine_str {env : FmtEnv} (s : Bytes) : OneLine env.printable (env.str s) := oneLine_quoted _

/-- Literal parts are ASCII. -/
theorem oneLine_lit {p : Char → Bool} {s : String} (h : s.toList.all (fun c => 0x20 ≤ c.toNat && c.toNat ≤ 0x7E) = true) : OneLine p (lit s) :=
  oneLine_ascii fun c hc => by have := List.all_eq_true.1 h c hc; simpa using this

attribute [local irreducible] lit

theorem oneLine_opt {p : Char → Bool} (o : Option Nat) : OneLine p (optText o) := by
  cases o with
  | none => exact oneLine_lit (by decide +kernel)
  | some n => exact oneLine_append.2 ⟨oneLine_append.2 ⟨oneLine_lit (by decide +kernel), oneLine_num n⟩, oneLine_lit (by decide +kernel)⟩

theorem oneLine_commas {p : Char → Bool} : ∀ {ts : List Text}, (∀ t ∈ ts, OneLine p t) → OneLine p (commas ts)
  | [], _ => oneLine_nil
  | [x], h => h x (by simp)
  | x :: y :: ys, h => by
    rw [commas]
    · exact oneLine_append.2 ⟨oneLine_append.2 ⟨h x (by simp), oneLine_lit (by decide +kernel)⟩, oneLine_commas fun t ht => h t (by simp at ht ⊢; simp [ht])⟩
    · exact nofun

theorem oneLine_bytes {p : Char → Bool} (b : Bytes) : OneLine p (bytesText b) := by
  refine oneLine_append.2 ⟨oneLine_append.2 ⟨oneLine_lit (by decide +kernel), oneLine_commas ?_⟩, oneLine_lit (by decide +kernel)⟩
  intro t ht
  obtain ⟨x, -, rfl⟩ := List.mem_map.1 ht
  exact oneLine_num _

theorem oneLine_hex {p : Char → Bool} (b : UInt8) : OneLine p (hexByte b) := by
  have h := b.toNat_lt
  have key : ∀ n < 16, Visible p (Nat.digitChar n) := fun n hn => by
    have := isHex_digitChar n hn; unfold IsHex at this
    refine .inl ⟨?_, ?_⟩
    · show 0x20 ≤ _; omega
    · show _ ≤ 0x7E; omega
  exact oneLine_cons.2 ⟨key _ (by omega), oneLine_cons.2 ⟨key _ (by omega), oneLine_nil⟩⟩

theorem oneLine_hexes {p : Char → Bool} (b : Bytes) : OneLine p (b.flatMap hexByte) := by
  induction b with
  | nil => exact oneLine_nil
  | cons x b ih => exact oneLine_append.2 ⟨oneLine_hex x, ih⟩

theorem typeText_eq (t : DataType) : typeText t = lit (match t with
    | .Raw => "0 or Raw" | .Directory => "1 or Directory" | .File => "2 or File" | .Metadata => "3 or Metadata"
    | .Symlink => "4 or Symlink" | .HAMTShard => "5 or HAMTShard") := by
  cases t <;> decide +kernel

theorem oneLine_type {p : Char → Bool} (t : DataType) : OneLine p (typeText t) := by
  rw [typeText_eq]; cases t <;> exact oneLine_lit (by decide +kernel)

theorem oneLine_metadata {p : Char → Bool} (m : Metadata) : OneLine p m.debugText := by
  unfold Metadata.debugText
  refine oneLine_append.2 ⟨oneLine_append.2 ⟨oneLine_append.2 ⟨oneLine_append.2 ⟨oneLine_lit (by decide +kernel), oneLine_opt _⟩,
    oneLine_lit (by decide +kernel)⟩, ?_⟩, oneLine_lit (by decide +kernel)⟩
  cases m.mtime with
  | none => exact oneLine_lit (by decide +kernel)
  | some x => exact oneLine_append.2 ⟨oneLine_append.2 ⟨oneLine_append.2 ⟨oneLine_append.2 ⟨oneLine_lit (by decide +kernel), oneLine_int _⟩,
      oneLine_lit (by decide +kernel)⟩, oneLine_num _⟩, oneLine_lit (by decide +kernel)⟩

/-- Closes `OneLine` of what is put together from parts. -/
syntax "one_line" : tactic
macro_rules
  | `(tactic| one_line) => `(tactic| repeat' first
      | assumption | exact oneLine_lit (by decide +kernel) | exact oneLine_opt _ | exact oneLine_num _ | exact oneLine_str _ | exact oneLine_bytes _
      | exact oneLine_type _ | exact oneLine_metadata _ | exact oneLine_hexes _ | apply TidyTexts.pb | apply TidyTexts.cidError | apply TidyTexts.cidErrorDebug
      | apply TidyTexts.cid | (refine oneLine_append.2 ⟨?_, ?_⟩))

theorem oneLine_link {env : FmtEnv} (h : TidyTexts env) (e : InvalidCidInLink) : OneLine env.printable (e.display env) := by
  unfold InvalidCidInLink.display; one_line

theorem oneLine_linkDebug {env : FmtEnv} (h : TidyTexts env) (e : InvalidCidInLink) : OneLine env.printable (e.debugText env) := by
  unfold InvalidCidInLink.debugText; one_line

theorem oneLine_file {p : Char → Bool} (e : FileError) : OneLine p e.display := by
  cases e <;> simp only [FileError.display] <;> one_line

theorem oneLine_props {p : Char → Bool} (e : UnexpectedDirectoryProperties) : OneLine p e.display := by
  unfold UnexpectedDirectoryProperties.display; one_line

theorem oneLine_shard {p : Char → Bool} (e : ShardError) : OneLine p e.display := by
  cases e <;> simp only [ShardError.display] <;> one_line

theorem oneLine_indexed {env : FmtEnv} (h : TidyTexts env) (x : Nat × Cid) : OneLine env.printable (env.indexed x) := by
  unfold FmtEnv.indexed; one_line

theorem oneLine_lookup {env : FmtEnv} (h : TidyTexts env) (e : LookupError) : OneLine env.printable (e.display env) := by
  cases e with
  | Multiple m =>
    simp only [LookupError.display]
    refine oneLine_append.2 ⟨oneLine_lit (by decide +kernel), ?_⟩
    cases m with
    | Two a b =>
      have h1 := oneLine_indexed h a
      have h2 := oneLine_indexed h b
      simp only [MultipleMatchingLinks.debugText]; one_line
    | OneValid a b =>
      have h1 := oneLine_indexed h a
      have h2 := oneLine_linkDebug h b
      simp only [MultipleMatchingLinks.debugText]; one_line
  | InvalidCid e => have := oneLine_linkDebug h e; simp only [LookupError.display]; one_line
  | UnexpectedBucketType t => simp only [LookupError.display]; one_line
  | Shard e => exact oneLine_shard e
  | Read e => cases e <;> simp only [LookupError.display] <;> one_line

theorem oneLine_building {env : FmtEnv} (e : TreeBuildingFailed) : OneLine env.printable (e.display env) := by
  cases e <;> simp only [TreeBuildingFailed.display] <;> one_line

theorem oneLine_construction {env : FmtEnv} (h : TidyTexts env) (e : TreeConstructionFailed) : OneLine env.printable (e.display env) := by
  cases e <;> simp only [TreeConstructionFailed.display] <;> one_line

theorem oneLine_walk {env : FmtEnv} (h : TidyTexts env) (e : WalkError) : OneLine env.printable (e.display env) := by
  cases e with
  | InvalidCid e => have := oneLine_link h e; simp only [WalkError.display]; one_line
  | File e => have := oneLine_file (p := env.printable) e; simp only [WalkError.display]; one_line
  | UnsupportedDirectory e => have := oneLine_props (p := env.printable) e; simp only [WalkError.display]; one_line
  | UnsupportedHAMTShard e => have := oneLine_shard (p := env.printable) e; simp only [WalkError.display]; one_line
  | _ => simp only [WalkError.display]; one_line

/-- C99: whatever is in a block or path, a message about it is on one line and has no control characters; they and everything else which
is not printable, like the quotes around a name, are escaped. -/
theorem C99_one_line (env : FmtEnv) (henv : TidyTexts env) (t : Text) (h : Message env t) : OneLine env.printable t := by
  cases h with
  | link e => exact oneLine_link henv e
  | linkDebug e => exact oneLine_linkDebug henv e
  | file e => exact oneLine_file e
  | read e =>
    cases e with
    | File e => exact oneLine_file e
    | UnexpectedType t => simp only [FileReadFailed.display]; one_line
    | Read e => cases e <;> simp only [FileReadFailed.display] <;> one_line
    | InvalidCid e => exact oneLine_link henv e
  | parse e => cases e <;> simp only [ParsingFailed.display] <;> one_line
  | directory e => exact oneLine_props e
  | shard e => exact oneLine_shard e
  | lookup e => exact oneLine_lookup henv e
  | resolve e =>
    cases e with
    | UnexpectedType t => simp only [ResolveError.display]; one_line
    | UnexpectedDirProperties e => have := oneLine_props (p := env.printable) e; simp only [ResolveError.display]; one_line
    | Read e => simp only [ResolveError.display]; one_line
    | Lookup e => exact oneLine_lookup henv e
  | walk e => exact oneLine_walk henv e
  | building e => exact oneLine_building e
  | construction e => exact oneLine_construction henv e

end Verif.Props
