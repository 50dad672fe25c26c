import Verif.Props.ErrorTexts
import Verif.Props.Text
import Verif.Props.Refusals
/-
C100: messages tell errors apart.
-/
namespace Verif.Props
open Verif Verif.Spec

theorem opt_cut {a b : Option Nat} {x y : Text} (h : optText a ++ x = optText b ++ y) : a = b ∧ x = y := by
  cases a <;> cases b <;> simp only [optText, lit, List.append_assoc] at h
  · exact ⟨rfl, List.append_cancel_left h⟩
  · simp at h
  · simp at h
  · obtain ⟨e1, e2⟩ := num_cut (s := ')') (by decide) (List.append_cancel_left h)
    exact ⟨by rw [e1], e2⟩

theorem hex_inj : ∀ {a b : Bytes}, a.flatMap hexByte = b.flatMap hexByte → a = b
  | [], [], _ => rfl
  | [], _ :: _, h => by simp [hexByte] at h
  | _ :: _, [], h => by simp [hexByte] at h
  | x :: a, y :: b, h => by
    simp only [List.flatMap_cons, hexByte, List.cons_append, List.nil_append, List.cons.injEq] at h
    have hx := x.toNat_lt
    have hy := y.toNat_lt
    have e1 := congrArg digitVal h.1
    have e2 := congrArg digitVal h.2.1
    rw [digitVal_digitChar _ (by omega), digitVal_digitChar _ (by omega)] at e1 e2
    rw [hex_inj h.2.2, UInt8.toNat_inj.1 (show x.toNat = y.toNat by omega)]

theorem hex_not_mem (b : Bytes) {c : Char} (hc : ¬ IsHex c) : c ∉ b.flatMap hexByte := by
  intro h
  obtain ⟨x, -, hx⟩ := List.mem_flatMap.1 h
  have := x.toNat_lt
  simp only [hexByte, List.mem_cons, List.not_mem_nil, or_false] at hx
  rcases hx with e | e
  · exact hc (e ▸ isHex_digitChar _ (by omega))
  · exact hc (e ▸ isHex_digitChar _ (by omega))

theorem type_inj {t u : DataType} (h : typeText t = typeText u) : t = u := by
  rw [typeText_eq, typeText_eq] at h
  cases t <;> cases u <;> first | rfl | (simp [lit] at h)

theorem metadata_inj {m n : Metadata} (h : m.debugText = n.debugText) : m = n := by
  obtain ⟨a, b⟩ := m
  obtain ⟨a', b'⟩ := n
  simp only [Metadata.debugText, List.append_assoc] at h
  obtain ⟨e0, h1⟩ := opt_cut (List.append_cancel_left h)
  have h2 := List.append_cancel_left h1
  clear h h1
  cases b with
  | none => cases b' with
    | none => rw [e0]
    | some x => simp [lit] at h2
  | some x => cases b' with
    | none => simp [lit] at h2
    | some y =>
      obtain ⟨s, n⟩ := x
      obtain ⟨s', n'⟩ := y
      simp only [List.append_assoc] at h2
      obtain ⟨e1, h3⟩ := cut_at (s := ',') (not_mem_intText s (by decide) (by decide)) (not_mem_intText s' (by decide) (by decide))
        (List.append_cancel_left h2)
      have e1 := intText_inj e1
      obtain ⟨e2, -⟩ := num_cut (s := ')') (by decide) (List.append_cancel_left (as := [' ']) h3)
      subst e0; subst e1; subst e2; rfl

theorem file_inj {a b : FileError} (h : a.display = b.display) : a = b := by
  cases a <;> cases b <;> simp only [FileError.display] at h <;> first
    | rfl
    | (exfalso; simp [lit] at h; done)
    | (rw [metadata_inj (List.append_cancel_left h)])
    | skip
  simp only [List.append_assoc] at h
  obtain ⟨rfl, h⟩ := opt_cut (List.append_cancel_left h)
  have h := List.append_cancel_left h
  obtain ⟨rfl, -⟩ := opt_cut (x := []) (y := []) (by simpa using h)
  rfl

/-- C100: the message about a link tells which link it is, what it is called and what is wrong with its Cid. -/
theorem C100_link (env : FmtEnv) (a b : InvalidCidInLink) (ha : IsText a.name) (hb : IsText b.name) :
    a.display env = b.display env ↔ SameLink env a b := by
  constructor
  · intro h
    simp only [InvalidCidInLink.display, List.append_assoc] at h
    obtain ⟨e1, h⟩ := num_cut (s := ' ') (by decide) (List.append_cancel_left h)
    have h : lit "(" ++ (env.str a.name ++ (lit ") to Cid: " ++ env.cidError a.source)) =
      lit "(" ++ (env.str b.name ++ (lit ") to Cid: " ++ env.cidError b.source)) := h
    obtain ⟨e2, h⟩ := str_cut ha hb (List.append_cancel_left h)
    exact ⟨e1, e2, List.append_cancel_left h⟩
  · rintro ⟨e1, e2, e3⟩
    simp only [InvalidCidInLink.display, e1, e2, e3]

theorem props_tell (a b : UnexpectedDirectoryProperties) : a.display = b.display ↔ SameProperties a b := by
  constructor
  · intro h
    simp only [UnexpectedDirectoryProperties.display, List.append_assoc] at h
    obtain ⟨e1, h⟩ := opt_cut (List.append_cancel_left h)
    obtain ⟨e2, h⟩ := num_cut (s := ' ') (by decide) (List.append_cancel_left h)
    obtain ⟨e3, h⟩ := opt_cut (List.append_cancel_left (as := lit "blocksizes, hash_type=") h)
    obtain ⟨e4, h⟩ := opt_cut (List.append_cancel_left h)
    obtain ⟨e5, -⟩ := cut_at (s := ']') (hex_not_mem _ (by decide)) (hex_not_mem _ (by decide)) (List.append_cancel_left h)
    exact ⟨e1, e2, e3, e4, hex_inj e5⟩
  · rintro ⟨e1, e2, e3, e4, e5⟩
    simp only [UnexpectedDirectoryProperties.display, e1, e2, e3, e4, e5]

theorem shard_tell (a b : ShardError) : a.display = b.display ↔ SameShard a b := by
  constructor
  · intro h
    cases a <;> cases b <;> simp only [ShardError.display, List.append_assoc] at h
    · obtain ⟨e1, h⟩ := opt_cut (List.append_cancel_left h)
      obtain ⟨e2, -⟩ := opt_cut (x := []) (y := []) (by simpa using List.append_cancel_left h)
      exact ⟨e1, e2⟩
    · simp [lit] at h
    · simp [lit] at h
    · obtain ⟨e1, h⟩ := opt_cut (List.append_cancel_left h)
      obtain ⟨e2, -⟩ := num_cut (s := ' ') (by decide) (List.append_cancel_left h)
      exact ⟨e1, e2⟩
  · intro h
    cases a <;> cases b <;> simp only [SameShard] at h <;> simp only [ShardError.display, h.1, h.2]

/-- Two texts which start differently. -/
theorem zip_ne : ∀ {p q x y : Text}, (p.zip q).any (fun c => c.1 != c.2) = true → p ++ x ≠ q ++ y
  | [], _, _, _, h => by simp at h
  | _ :: _, [], _, _, h => by simp at h
  | a :: p, b :: q, x, y, h => by
    intro e
    simp only [List.cons_append, List.cons.injEq] at e
    simp only [List.zip_cons_cons, List.any_cons, e.1, bne_self_eq_false, Bool.false_or] at h
    exact zip_ne h e.2

theorem lit_ne {p q : String} {x y : Text} (h : (p.toList.zip q.toList).any (fun c => c.1 != c.2) = true) : lit p ++ x ≠ lit q ++ y := zip_ne h
theorem lit_ne_left {p q : String} {y : Text} (h : (p.toList.zip q.toList).any (fun c => c.1 != c.2) = true) : lit p ≠ lit q ++ y := by
  have := lit_ne (x := []) (y := y) h; rwa [List.append_nil] at this
theorem lit_ne_right {p q : String} {x : Text} (h : (p.toList.zip q.toList).any (fun c => c.1 != c.2) = true) : lit p ++ x ≠ lit q := by
  have := lit_ne (x := x) (y := []) h; rwa [List.append_nil] at this

theorem no_data_eq : lit "failed to parse the inner UnixFs: no data" = lit "failed to parse the inner UnixFs: " ++ lit "no data" := by
  decide +kernel

attribute [local irreducible] lit

set_option maxHeartbeats 1600000 in
/-- C100: the message of an error of a walk tells which error it is and all that is in it, apart from the hash of a link, the single block
sizes, and whether absent data are empty. (The text of a parser's error must not be `no data`.) -/
theorem C100_walk (env : FmtEnv) (hpb : ∀ e, env.pb e ≠ lit "no data") (a b : WalkError) (ha : a.TextName) (hb : b.TextName) :
    a.display env = b.display env ↔ SameWalkError env a b := by
  constructor
  · intro h
    cases a <;> cases b <;> simp only [WalkError.display] at h <;> first
      | trivial
      | exact (lit_ne (by decide +kernel) h).elim
      | exact (lit_ne_left (by decide +kernel) h).elim
      | exact (lit_ne_right (by decide +kernel) h).elim
      | exact type_inj (List.append_cancel_left h)
      | exact (C100_link env _ _ ha hb).1 (List.append_cancel_left h)
      | exact file_inj (List.append_cancel_left h)
      | exact (props_tell _ _).1 (List.append_cancel_left h)
      | exact (shard_tell _ _).1 (List.append_cancel_left h)
      | exact List.append_cancel_left h
      | skip
    · rw [no_data_eq] at h; exact absurd (List.append_cancel_left h) (hpb _)
    · rw [no_data_eq] at h; exact absurd (List.append_cancel_left h).symm (hpb _)
  · intro h
    cases a <;> cases b <;> simp only [SameWalkError] at h <;> simp only [WalkError.display]
    · rw [h]
    · rw [h]
    · rw [h]
    · rw [h]
    · rw [(C100_link env _ _ ha hb).2 h]
    · rw [h]
    · rw [(props_tell _ _).2 h]
    · rw [(shard_tell _ _).2 h]

/-- C100: the message of an error of the tree builder tells which error it is and the whole path. -/
theorem C100_building (env : FmtEnv) (a b : TreeBuildingFailed) (ha : a.TextPath) (hb : b.TextPath) (h : a.display env = b.display env) :
    a = b := by
  have cut : ∀ {s t : Bytes}, IsText s → IsText t → env.str s = env.str t → s = t := fun hs ht h =>
    (str_cut (x := []) (y := []) hs ht (by rw [h])).1
  cases a <;> cases b <;> simp only [TreeBuildingFailed.display] at h <;> first
    | rfl
    | (rw [cut ha hb (List.append_cancel_left h)])
    | exact (lit_ne (by decide +kernel) h).elim
    | exact (lit_ne_left (by decide +kernel) h).elim
    | exact (lit_ne_right (by decide +kernel) h).elim

/-! ### names are shown as they are -/

theorem escape_asIs {p : Char → Bool} {c : Char} (h : AsIs p c) : escapeChar p false c = [c] := by
  obtain ⟨hv, hq, hb⟩ := h
  have hn : 0x20 ≤ c.toNat := by
    rcases hv with h | h
    · exact h.1
    · omega
  have ne : ∀ d : Char, d.toNat < 0x20 → c ≠ d := by rintro d hd rfl; omega
  unfold escapeChar
  rw [if_neg (ne _ (by decide)), if_neg (ne _ (by decide)), if_neg (ne _ (by decide)), if_neg (ne _ (by decide)),
    if_neg (by rintro (h | h | h); exact hb h; exact hq h; exact nomatch h.2), if_pos]
  rcases hv with h | h
  · exact .inl ⟨h.1, Nat.lt_succ_of_le h.2⟩
  · exact .inr h

theorem str_asIs {env : FmtEnv} {cs : Text} (h : ∀ c ∈ cs, AsIs env.printable c) : env.str (encodeText cs) = lit "\"" ++ cs ++ lit "\"" := by
  have e : escaped env.printable false cs = cs := by
    unfold escaped
    induction cs with
    | nil => rfl
    | cons c cs ih =>
      rw [List.flatMap_cons, escape_asIs (h c (List.mem_cons_self ..)), ih (fun d hd => h d (List.mem_cons_of_mem _ hd))]
      rfl
  unfold FmtEnv.str
  rw [decode_encode, e, show lit "\"" = ['"'] from by decide +kernel]

/-- C100: a name or path without quotes, backslashes and hidden characters is shown as it is, between double quotes. -/
theorem C100_shown (env : FmtEnv) (cs : Text) (h : ∀ c ∈ cs, AsIs env.printable c) :
    (∀ nth hash source, (InvalidCidInLink.mk nth hash (encodeText cs) source).display env =
      lit "failed to convert link #" ++ Nat.toDigits 10 nth ++ lit " (\"" ++ cs ++ lit "\") to Cid: " ++ env.cidError source) ∧
    (TreeBuildingFailed.RootedPath (encodeText cs)).display env = lit "path is rooted: \"" ++ cs ++ lit "\"" ∧
    (TreeBuildingFailed.RepeatSlashesInPath (encodeText cs)).display env = lit "path contains repeat slashes: \"" ++ cs ++ lit "\"" ∧
    (TreeBuildingFailed.PathEndsInSlash (encodeText cs)).display env = lit "path ends in a slash: \"" ++ cs ++ lit "\"" ∧
    (TreeBuildingFailed.DuplicatePath (encodeText cs)).display env = lit "path exists already: \"" ++ cs ++ lit "\"" ∧
    (TreeBuildingFailed.LeafAsDirectory (encodeText cs)).display env =
      lit "attempted to use already added leaf as a subdirectory: \"" ++ cs ++ lit "\"" := by
  have j : ∀ a b c : String, a ++ b = c → ∀ t, lit a ++ (lit b ++ t) = lit c ++ t := by
    rintro a b _ rfl t
    simp [lit]
  have e := str_asIs h
  refine ⟨fun nth hash source => ?_, ?_, ?_, ?_, ?_, ?_⟩
  · unfold InvalidCidInLink.display numText
    simp only [e, List.append_assoc]
    rw [j " (" "\"" " (\"" rfl, j "\"" ") to Cid: " "\") to Cid: " rfl]
  all_goals
    unfold TreeBuildingFailed.display
    simp only [e, List.append_assoc]
    exact j _ _ _ rfl _

/-- C100: the error without a path says what the matter is, and how it was configured. -/
theorem C100_wrap (env : FmtEnv) : TreeBuildingFailed.TooManyRootLevelEntries.display env =
    lit "multiple root level entries while configured wrap_with_directory = false" := rfl

/-- A name with an apostrophe, an ampersand and a space. -/
theorem C100_shown_example : ∀ c ∈ lit "it's a & b", AsIs (fun _ => false) c := by
  have : ∀ c ∈ lit "it's a & b", (0x20 ≤ c.toNat ∧ c.toNat ≤ 0x7E) ∧ c ≠ '"' ∧ c ≠ '\\' := by decide +kernel
  exact fun c hc => ⟨.inl (this c hc).1, (this c hc).2⟩

/-! ### the names are text -/

theorem link_text {b : Bytes} {m : FlatUnixFs} (hm : FlatUnixFs.tryParse b = .ok m) {l : PBLink} (hl : l ∈ m.links) : IsText (l.Name.getD []) := by
  cases hn : l.Name with
  | none => exact isText_nil
  | some n => exact C91_names b m hm l hl n hn

/-- C100: the names in the errors of a walk are text. -/
theorem C100_names (cid : Cid) (name : Bytes) (h : List (Bytes × ContinuedWalk)) (w : Walker) (hw : Walked cid name h w)
    (hname : slash ∉ name) (hgo : w.shouldContinue = true) (block : Bytes) (cache : Option VisitCache)
    (hc : ∀ k, cache = some k → CacheObtainable k) (e : WalkError) (he : (w.step block cache).1 = .err e) : e.TextName := by
  obtain ⟨fb, rest, haw, hinv⟩ := walked_inv hw
  cases ha : awaited cid name (h.map (·.1)) with
  | nil =>
    rw [ha] at haw
    have := hinv.cont
    rw [← haw] at this
    rw [Walker.shouldContinue, this] at hgo
    simp at hgo
  | cons a aw =>
    have hr := (C64_walk cid name h w hw hname a aw ha block cache hc).1 e he
    unfold WalkRefused at hr
    split at hr
    · obtain ⟨v, i, e', -, -, h1, h2⟩ := hr
      cases h2 with
      | file => trivial
      | type => trivial
      | cid =>
        cases h1 with
        | cid hm hl _ _ => exact link_text hm (List.mem_of_getElem? hl)
    · cases hr with
      | directoryLink hm _ ht =>
        obtain ⟨x, y, e1, -⟩ := ht
        exact link_text hm (by rw [e1]; simp)
      | shardLink hm _ ht =>
        obtain ⟨x, y, e1, -⟩ := ht
        exact link_text hm (by rw [e1]; simp)
      | file hm _ h1 h2 =>
        cases h2 with
        | file => trivial
        | type => trivial
        | cid =>
          cases h1 with
          | cid hm' hl _ _ => exact link_text hm' (List.mem_of_getElem? hl)
      | _ => trivial

/-! ### examples -/

/-- Nothing beyond ASCII is printable, and all other texts are short. -/
def env0 : FmtEnv := ⟨fun _ => false, true, fun _ => lit "wrong", fun _ => lit "bad", fun _ => lit "Bad", fun _ => lit "Qm"⟩

theorem env0_tidy : TidyTexts env0 :=
  ⟨fun _ => oneLine_lit (by decide +kernel), fun _ => oneLine_lit (by decide +kernel), fun _ => oneLine_lit (by decide +kernel),
    fun _ => oneLine_lit (by decide +kernel)⟩

/-- The message about a link whose name has a newline, an escape character, a quote and an `é` in it. -/
theorem C99_example : (InvalidCidInLink.mk 3 [1] [0x61, 0x0A, 0x1B, 0x22, 0xC3, 0xA9] .parse).display env0 =
    lit "failed to convert link #3 (\"a\\n\\u{1b}\\\"\\u{e9}\") to Cid: bad" := by decide +kernel

example : OneLine env0.printable (lit "failed to convert link #3 (\"a\\n\\u{1b}\\\"\\u{e9}\") to Cid: bad") :=
  C99_one_line env0 env0_tidy _ (C99_example ▸ .link _)

example : ∀ e, env0.pb e ≠ lit "no data" := fun _ => by show lit "wrong" ≠ lit "no data"; decide +kernel

end Verif.Props
