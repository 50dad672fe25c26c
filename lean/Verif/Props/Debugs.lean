import Verif.Props.ListingText
import Verif.Spec.Debugs
/-
C102: what `{:?}` prints of errors and results.
-/
namespace Verif.Props
open Verif Verif.Spec

/-! ### where it ends -/

/-- What consists of digits ends where something else starts. -/
theorem hex_cut : ∀ {a b x y : Text} {c d : Char}, (∀ k ∈ a, IsHex k) → (∀ k ∈ b, IsHex k) → ¬ IsHex c → ¬ IsHex d →
    a ++ c :: x = b ++ d :: y → a = b ∧ c :: x = d :: y
  | [], [], _, _, _, _, _, _, _, _, h => ⟨rfl, h⟩
  | [], k :: b, _, _, _, _, _, hb, hc, _, h => by
    simp only [List.nil_append, List.cons_append, List.cons.injEq] at h
    exact absurd (hb k (by simp)) (h.1 ▸ hc)
  | k :: a, [], _, _, _, _, ha, _, _, hd, h => by
    simp only [List.nil_append, List.cons_append, List.cons.injEq] at h
    exact absurd (ha k (by simp)) (h.1 ▸ hd)
  | k :: a, l :: b, x, y, c, d, ha, hb, hc, hd, h => by
    simp only [List.cons_append, List.cons.injEq] at h
    obtain ⟨e1, e2⟩ := hex_cut (fun k hk => ha k (by simp [hk])) (fun k hk => hb k (by simp [hk])) hc hd h.2
    exact ⟨by rw [h.1, e1], e2⟩

/-- Before a comma or the end of a list. -/
def CutsIn {α : Type} (f : α → Text) : Prop :=
  (∀ a, ∃ k t, f a = k :: t ∧ k ≠ ']') ∧
  ∀ a b x y c d, (c = ',' ∨ c = ']') → (d = ',' ∨ d = ']') → f a ++ c :: x = f b ++ d :: y → a = b ∧ c :: x = d :: y

theorem num_cutsIn : CutsIn numText := by
  refine ⟨fun n => ?_, fun a b x y c d hc hd h => ?_⟩
  · cases hn : numText n with
    | nil => exact absurd (congrArg List.length hn) (by have := Nat.length_toDigits_pos (b := 10) (n := n); simp only [numText, List.length_nil]; omega)
    | cons k t =>
      refine ⟨k, t, rfl, ?_⟩
      have := digits_hex (b := 10) (by omega) (by omega) n k (by rw [← numText, hn]; simp)
      rintro rfl
      revert this; decide
  · have nc : ∀ {c : Char}, (c = ',' ∨ c = ']') → ¬ IsHex c := by rintro c (rfl | rfl) <;> decide
    obtain ⟨e, e'⟩ := hex_cut (digits_hex (by omega) (by omega) a) (digits_hex (by omega) (by omega) b) (nc hc) (nc hd) h
    exact ⟨digits_inj (by omega) (by omega) e, e'⟩

theorem cutsIn_of {α : Type} {f : α → Text} (h : Cuts f) (h' : ∀ a, ∃ k t, f a = k :: t ∧ k ≠ ']') : CutsIn f :=
  ⟨h', fun a b x y c d _ _ e => h a b _ _ e⟩

theorem commas_cons {a : Text} {l : List Text} (h : l ≠ []) : commas (a :: l) = a ++ lit ", " ++ commas l := by
  cases l with
  | nil => exact absurd rfl h
  | cons b l => rfl

theorem commas_cut {α : Type} {f : α → Text} (hf : CutsIn f) : ∀ {as bs : List α} {x y : Text},
    commas (as.map f) ++ ']' :: x = commas (bs.map f) ++ ']' :: y → as = bs ∧ x = y
  | [], [], _, _, h => by simpa [commas] using h
  | [], b :: bs, x, y, h => by
    obtain ⟨k, t, e, hk⟩ := hf.1 b
    cases bs with
    | nil => simp [commas, e] at h; exact absurd h.1.symm hk
    | cons c cs => simp [commas, e] at h; exact absurd h.1.symm hk
  | a :: as, [], x, y, h => by
    obtain ⟨k, t, e, hk⟩ := hf.1 a
    cases as with
    | nil => simp [commas, e] at h; exact absurd h.1 hk
    | cons c cs => simp [commas, e] at h; exact absurd h.1 hk
  | [a], [b], x, y, h => by
    simp only [List.map_cons, List.map_nil, commas] at h
    obtain ⟨rfl, e⟩ := hf.2 a b x y ']' ']' (.inr rfl) (.inr rfl) h
    exact ⟨rfl, (List.cons.inj e).2⟩
  | [a], b :: c :: bs, x, y, h => by
    simp only [List.map_cons, List.map_nil, commas, lit, List.append_assoc] at h
    obtain ⟨rfl, e⟩ := hf.2 a b x _ ']' ',' (.inr rfl) (.inl rfl) h
    simp at e
  | a :: c :: as, [b], x, y, h => by
    simp only [List.map_cons, List.map_nil, commas, lit, List.append_assoc] at h
    obtain ⟨rfl, e⟩ := hf.2 a b _ y ',' ']' (.inl rfl) (.inr rfl) h
    simp at e
  | a :: c :: as, b :: d :: bs, x, y, h => by
    rw [List.map_cons, List.map_cons (l := d :: bs), commas_cons (l := List.map f (c :: as)) (by simp),
      commas_cons (l := List.map f (d :: bs)) (by simp)] at h
    simp only [lit, List.append_assoc] at h
    obtain ⟨rfl, e⟩ := hf.2 a b _ _ ',' ',' (.inl rfl) (.inl rfl) h
    obtain ⟨e1, e2⟩ := commas_cut (as := c :: as) (bs := d :: bs) hf (List.append_cancel_left (as := [',', ' ']) e)
    exact ⟨by rw [e1], e2⟩

theorem list_cuts {α : Type} {f : α → Text} (hf : CutsIn f) : Cuts (listText f) := fun as bs x y h => by
  simp only [listText, List.append_assoc] at h
  exact commas_cut hf (List.append_cancel_left h)

theorem bytes_cuts : Cuts bytesText := fun a b x y h => by
  have e : ∀ a : Bytes, bytesText a = listText numText (a.map UInt8.toNat) := fun a => by
    simp [bytesText, listText, List.map_map, Function.comp_def]
  rw [e, e] at h
  obtain ⟨h1, h2⟩ := list_cuts num_cutsIn _ _ _ _ h
  exact ⟨(List.map_inj_right fun _ _ => UInt8.toNat_inj.1).1 h1, h2⟩

theorem opt_cuts : Cuts optText := fun _ _ _ _ h => opt_cut h

attribute [local irreducible] lit

theorem num_lit {s : String} (hs : (s.toList.head?.any (fun c => !decide (IsHex c))) = true) {n m : Nat} {x y : Text}
    (h : numText n ++ (lit s ++ x) = numText m ++ (lit s ++ y)) : n = m ∧ x = y := by
  have e : lit s = s.toList := by unfold lit; rfl
  cases hl : s.toList with
  | nil => rw [hl] at hs; cases hs
  | cons c t =>
    rw [hl] at hs
    have hs : ¬ IsHex c := by simpa using hs
    rw [e, hl] at h
    obtain ⟨h1, h2⟩ := num_cut hs h
    exact ⟨h1, List.append_cancel_left h2⟩

theorem some_cuts {α : Type} {f : α → Text} (hf : Cuts f) : Cuts (someText f) := fun a b x y h => by
  cases a <;> cases b <;> simp only [someText, List.append_assoc] at h
  · exact ⟨rfl, List.append_cancel_left h⟩
  · exact (lit_ne (by decide +kernel) h).elim
  · exact (lit_ne (by decide +kernel) h).elim
  · obtain ⟨rfl, h'⟩ := hf _ _ _ _ (List.append_cancel_left h)
    exact ⟨rfl, List.append_cancel_left h'⟩

theorem bool_cuts : Cuts boolText := fun a b x y h => by
  cases a <;> cases b <;> simp only [boolText, if_true, Bool.false_eq_true, if_false] at h
  · exact ⟨rfl, List.append_cancel_left h⟩
  · exact (lit_ne (by decide +kernel) h).elim
  · exact (lit_ne (by decide +kernel) h).elim
  · exact ⟨rfl, List.append_cancel_left h⟩

theorem type_cuts : Cuts typeText := fun a b x y h => by
  rw [typeText_eq, typeText_eq] at h
  cases a <;> cases b <;> first
    | exact ⟨rfl, List.append_cancel_left h⟩
    | exact (lit_ne (by decide +kernel) h).elim

theorem metadata_cuts : Cuts Metadata.debugText := fun a b x y h => by
  obtain ⟨a1, a2⟩ := a
  obtain ⟨b1, b2⟩ := b
  simp only [Metadata.debugText, List.append_assoc] at h
  obtain ⟨rfl, h1⟩ := opt_cut (List.append_cancel_left h)
  have h2 := List.append_cancel_left h1
  clear h h1
  cases a2 with
  | none => cases b2 with
    | none => exact ⟨rfl, List.append_cancel_left (List.append_cancel_left h2)⟩
    | some q => simp only [List.append_assoc] at h2; exact (lit_ne (by decide +kernel) h2).elim
  | some p => cases b2 with
    | none => simp only [List.append_assoc] at h2; exact (lit_ne (by decide +kernel) h2).elim
    | some q =>
      obtain ⟨s, n⟩ := p
      obtain ⟨s', n'⟩ := q
      simp only [List.append_assoc] at h2
      have h1 := List.append_cancel_left h2
      have e : lit ", " = [',', ' '] := by unfold lit; rfl
      rw [e] at h1
      obtain ⟨e1, h3⟩ := cut_at (s := ',') (not_mem_intText s (by decide) (by decide)) (not_mem_intText s' (by decide) (by decide)) h1
      have e1 := intText_inj e1
      obtain ⟨e2, h4⟩ := num_lit (by decide +kernel) (List.append_cancel_left (as := [' ']) h3)
      subst e1; subst e2
      exact ⟨rfl, List.append_cancel_left h4⟩

theorem file_cuts : Cuts FileError.debugText := fun a b x y h => by
  cases a <;> cases b <;> simp only [FileError.debugText, List.append_assoc] at h <;> first
    | exact (lit_ne (by decide +kernel) h).elim
    | exact ⟨rfl, List.append_cancel_left h⟩
    | skip
  · obtain ⟨rfl, h'⟩ := metadata_cuts _ _ _ _ (List.append_cancel_left h)
    exact ⟨rfl, List.append_cancel_left h'⟩
  · obtain ⟨rfl, h1⟩ := opt_cut (List.append_cancel_left h)
    obtain ⟨rfl, h2⟩ := opt_cut (List.append_cancel_left h1)
    exact ⟨rfl, List.append_cancel_left h2⟩

theorem link_cut {env : DebugEnv} (henv : TellingTexts env) {a b : InvalidCidInLink} (ha : IsText a.name) (hb : IsText b.name) {x y : Text}
    (h : a.debugText env.toFmtEnv ++ x = b.debugText env.toFmtEnv ++ y) : a = b ∧ x = y := by
  obtain ⟨a1, a2, a3, a4⟩ := a
  obtain ⟨b1, b2, b3, b4⟩ := b
  simp only [InvalidCidInLink.debugText, List.append_assoc] at h
  obtain ⟨rfl, h1⟩ := num_lit (by decide +kernel) (List.append_cancel_left h)
  obtain ⟨rfl, h2⟩ := bytes_cuts _ _ _ _ h1
  obtain ⟨rfl, h3⟩ := str_cut ha hb (List.append_cancel_left h2)
  obtain ⟨rfl, h4⟩ := henv.cidError_cuts _ _ _ _ (List.append_cancel_left h3)
  exact ⟨rfl, List.append_cancel_left h4⟩

theorem props_cuts : Cuts UnexpectedDirectoryProperties.debugText := fun a b x y h => by
  obtain ⟨a1, a2, a3, a4, a5⟩ := a
  obtain ⟨b1, b2, b3, b4, b5⟩ := b
  simp only [UnexpectedDirectoryProperties.debugText, List.append_assoc] at h
  obtain ⟨rfl, h1⟩ := opt_cut (List.append_cancel_left h)
  obtain ⟨rfl, h2⟩ := list_cuts num_cutsIn _ _ _ _ (List.append_cancel_left h1)
  obtain ⟨rfl, h3⟩ := opt_cut (List.append_cancel_left h2)
  obtain ⟨rfl, h4⟩ := opt_cut (List.append_cancel_left h3)
  obtain ⟨rfl, h5⟩ := some_cuts bytes_cuts _ _ _ _ (List.append_cancel_left h4)
  exact ⟨rfl, List.append_cancel_left h5⟩

theorem shard_cuts : Cuts ShardError.debugText := fun a b x y h => by
  cases a <;> cases b <;> simp only [ShardError.debugText, List.append_assoc] at h <;> first
    | exact (lit_ne (by decide +kernel) h).elim
    | skip
  · obtain ⟨rfl, h1⟩ := opt_cut (List.append_cancel_left h)
    obtain ⟨rfl, h2⟩ := opt_cut (List.append_cancel_left h1)
    exact ⟨rfl, List.append_cancel_left h2⟩
  · obtain ⟨rfl, h1⟩ := opt_cut (List.append_cancel_left h)
    obtain ⟨rfl, h2⟩ := list_cuts num_cutsIn _ _ _ _ (List.append_cancel_left h1)
    exact ⟨rfl, List.append_cancel_left h2⟩

theorem indexed_cuts {env : DebugEnv} (henv : TellingTexts env) : Cuts env.toFmtEnv.indexed := fun a b x y h => by
  obtain ⟨a1, a2⟩ := a
  obtain ⟨b1, b2⟩ := b
  simp only [FmtEnv.indexed, List.append_assoc] at h
  obtain ⟨rfl, h1⟩ := num_lit (by decide +kernel) (List.append_cancel_left h)
  obtain ⟨rfl, h2⟩ := henv.cid_cuts _ _ _ _ h1
  exact ⟨rfl, List.append_cancel_left h2⟩

theorem multiple_cut {env : DebugEnv} (henv : TellingTexts env) {a b : LookupError} (ha : (ResolveError.Lookup a).TextName)
    (hb : (ResolveError.Lookup b).TextName) {x y : Text} (h : a.debugText env ++ x = b.debugText env ++ y) : a = b ∧ x = y := by
  cases a <;> cases b <;> simp only [LookupError.debugText, List.append_assoc] at h <;> first
    | exact (lit_ne (by decide +kernel) h).elim
    | skip
  · next m n =>
    have h := List.append_cancel_left h
    cases m <;> cases n <;> simp only [MultipleMatchingLinks.debugText, List.append_assoc] at h <;> first
      | exact (lit_ne (by decide +kernel) h).elim
      | skip
    · obtain ⟨rfl, h1⟩ := indexed_cuts henv _ _ _ _ (List.append_cancel_left h)
      obtain ⟨rfl, h2⟩ := indexed_cuts henv _ _ _ _ (List.append_cancel_left h1)
      exact ⟨rfl, List.append_cancel_left (List.append_cancel_left h2)⟩
    · obtain ⟨rfl, h1⟩ := indexed_cuts henv _ _ _ _ (List.append_cancel_left h)
      obtain ⟨rfl, h2⟩ := link_cut henv ha hb (List.append_cancel_left h1)
      exact ⟨rfl, List.append_cancel_left (List.append_cancel_left h2)⟩
  · obtain ⟨rfl, h1⟩ := link_cut henv ha hb (List.append_cancel_left h)
    exact ⟨rfl, List.append_cancel_left h1⟩
  · obtain ⟨rfl, h1⟩ := type_cuts _ _ _ _ (List.append_cancel_left h)
    exact ⟨rfl, List.append_cancel_left h1⟩
  · obtain ⟨rfl, h1⟩ := shard_cuts _ _ _ _ (List.append_cancel_left h)
    exact ⟨rfl, List.append_cancel_left h1⟩
  · obtain ⟨rfl, h1⟩ := some_cuts henv.pb_cuts _ _ _ _ (List.append_cancel_left h)
    exact ⟨rfl, List.append_cancel_left h1⟩

theorem opt_str_cut {env : FmtEnv} {a b : Option Bytes} (ha : ∀ s, a = some s → IsText s) (hb : ∀ s, b = some s → IsText s) {x y : Text}
    (h : someText env.str a ++ x = someText env.str b ++ y) : a = b ∧ x = y := by
  cases a <;> cases b <;> simp only [someText, List.append_assoc] at h
  · exact ⟨rfl, List.append_cancel_left h⟩
  · exact (lit_ne (by decide +kernel) h).elim
  · exact (lit_ne (by decide +kernel) h).elim
  · obtain ⟨rfl, h'⟩ := str_cut (ha _ rfl) (hb _ rfl) (List.append_cancel_left h)
    exact ⟨rfl, List.append_cancel_left h'⟩

theorem lit_head {s : String} {c : Char} {t x : Text} (h : s.toList = c :: t) : lit s ++ x = c :: (t ++ x) := by
  unfold lit; rw [h]; rfl

theorem num_end {n m : Nat} (h : numText n ++ lit ")" = numText m ++ lit ")") : n = m :=
  (num_lit (s := ")") (x := []) (y := []) (by decide +kernel) (by simpa using h)).1

/-- Links the names of which are text. -/
def TextLink : Type := { l : PBLink // ∀ s, l.Name = some s → IsText s }

theorem links_cutsIn (env : DebugEnv) : CutsIn (fun l : TextLink => l.1.debugText env) := by
  refine cutsIn_of (fun a b x y h => ?_) (fun l => ?_)
  · obtain ⟨⟨a1, a2, a3⟩, ha⟩ := a
    obtain ⟨⟨b1, b2, b3⟩, hb⟩ := b
    simp only [PBLink.debugText, List.append_assoc] at h
    obtain ⟨rfl, h1⟩ := some_cuts bytes_cuts _ _ _ _ (List.append_cancel_left h)
    obtain ⟨rfl, h2⟩ := opt_str_cut ha hb (List.append_cancel_left h1)
    obtain ⟨rfl, h3⟩ := opt_cut (List.append_cancel_left h2)
    exact ⟨rfl, List.append_cancel_left h3⟩
  · exact ⟨'P', _, by simp only [PBLink.debugText, List.append_assoc]; exact lit_head (t := "BLink { Hash: ".toList) (by decide +kernel), by decide⟩

theorem attach_links {α : Type} {P : α → Prop} : ∀ {l : List α}, (∀ x ∈ l, P x) → ∃ m : List { x // P x }, m.map (·.1) = l
  | [], _ => ⟨[], rfl⟩
  | a :: l, h => by
    obtain ⟨m, e⟩ := attach_links (l := l) fun x hx => h x (by simp [hx])
    exact ⟨⟨a, h a (by simp)⟩ :: m, by simp [e]⟩

theorem node_cut {env : DebugEnv} {a b : PBNode} (ha : a.TextNames) (hb : b.TextNames) {x y : Text}
    (h : a.debugText env ++ x = b.debugText env ++ y) : SameNode a b ∧ x = y := by
  simp only [PBNode.debugText, List.append_assoc] at h
  have h := List.append_cancel_left h
  obtain ⟨la, ea⟩ := attach_links ha
  obtain ⟨lb, eb⟩ := attach_links hb
  have key : ∀ (l : List TextLink) (l' : List PBLink), l.map (·.1) = l' →
      listText (PBLink.debugText env) l' = listText (fun l : TextLink => l.1.debugText env) l := fun l l' e => by
    subst e; simp only [listText, List.map_map]; rfl
  rw [key la _ ea, key lb _ eb] at h
  obtain ⟨e1, h1⟩ := list_cuts (links_cutsIn env) _ _ _ _ h
  obtain ⟨e2, h2⟩ := some_cuts bytes_cuts _ _ _ _ (List.append_cancel_left h1)
  exact ⟨⟨by rw [← ea, ← eb, e1], e2⟩, List.append_cancel_left h2⟩

/-! ### the errors -/

/-- C102: `{:?}` of a link which is no Cid shows all of it. -/
theorem C102_link (env : DebugEnv) (henv : TellingTexts env) (a b : InvalidCidInLink) (ha : IsText a.name) (hb : IsText b.name)
    (h : a.debugText env.toFmtEnv = b.debugText env.toFmtEnv) : a = b :=
  (link_cut (x := []) (y := []) henv ha hb (by rw [h])).1

/-- C102: the seconds of a time are shown in decimal digits, after a minus sign if they are before the epoch. -/
theorem C102_mtime (mode : Option Nat) (s : Int) (n : Nat) : (Metadata.mk mode (some (s, n))).debugText =
    lit "Metadata { mode: " ++ (match mode with | none => lit "None" | some m => lit "Some(" ++ Nat.toDigits 10 m ++ lit ")") ++ lit ", mtime: " ++
      (lit "Some((" ++ ((if s < 0 then ['-'] else []) ++ Nat.toDigits 10 s.natAbs) ++ lit ", " ++ Nat.toDigits 10 n ++ lit "))") ++ lit " }" := by
  have e : intText s = (if s < 0 then ['-'] else []) ++ Nat.toDigits 10 s.natAbs := by
    cases s with
    | ofNat k => rw [if_neg (show ¬ Int.ofNat k < 0 from Int.not_lt.2 (Int.natCast_nonneg k))]; rfl
    | negSucc k => rw [if_pos (Int.negSucc_lt_zero k)]; rfl
  unfold Metadata.debugText
  simp only [e, numText]
  cases mode <;> rfl

/-- C102: whether a segment of a file is the first and the last one is said in words. -/
theorem C102_segment (s : FileSegment) : s.debugText = lit "FileSegment { bytes: " ++ bytesText s.bytes ++
    (match s.first_block, s.last_block with
     | true, true => lit ", first_block: true, last_block: true }"
     | true, false => lit ", first_block: true, last_block: false }"
     | false, true => lit ", first_block: false, last_block: true }"
     | false, false => lit ", first_block: false, last_block: false }") := by
  obtain ⟨b, f, l⟩ := s
  cases f <;> cases l <;> (unfold FileSegment.debugText; simp only [List.append_assoc]; refine congrArg _ (congrArg _ ?_); decide +kernel)

/-- C102: so does that of an error of reading a file. -/
theorem C102_read (env : DebugEnv) (henv : TellingTexts env) (a b : FileReadFailed) (ha : a.TextName) (hb : b.TextName)
    (h : a.debugText env = b.debugText env) : a = b := by
  cases a <;> cases b <;> simp only [FileReadFailed.debugText, List.append_assoc] at h <;> first
    | exact (lit_ne (by decide +kernel) h).elim
    | skip
  · rw [(file_cuts _ _ _ _ (List.append_cancel_left h)).1]
  · rw [(type_cuts _ _ _ _ (List.append_cancel_left h)).1]
  · rw [(some_cuts henv.pb_cuts _ _ _ _ (List.append_cancel_left h)).1]
  · rw [(link_cut henv ha hb (List.append_cancel_left h)).1]

/-- C102: so does that of an error of parsing, with all the links and data of the node in it. -/
theorem C102_parse (env : DebugEnv) (henv : TellingTexts env) (a b : ParsingFailed) (ha : a.TextNames) (hb : b.TextNames)
    (h : a.debugText env = b.debugText env) : SameParsing a b := by
  cases a <;> cases b <;> simp only [ParsingFailed.debugText, List.append_assoc] at h <;> first
    | exact (lit_ne (by decide +kernel) h).elim
    | skip
  · exact (henv.pb_cuts _ _ _ _ (List.append_cancel_left h)).1
  · exact (node_cut ha hb (List.append_cancel_left h)).1
  · obtain ⟨e, h1⟩ := henv.pb_cuts _ _ _ _ (List.append_cancel_left h)
    exact ⟨e, (node_cut ha hb (List.append_cancel_left h1)).1⟩

/-- C102: so does that of an error of resolving a name, also within sharded directories. -/
theorem C102_resolve (env : DebugEnv) (henv : TellingTexts env) (a b : ResolveError) (ha : a.TextName) (hb : b.TextName)
    (h : a.debugText env = b.debugText env) : a = b := by
  cases a <;> cases b <;> simp only [ResolveError.debugText, List.append_assoc] at h <;> first
    | exact (lit_ne (by decide +kernel) h).elim
    | skip
  · rw [(type_cuts _ _ _ _ (List.append_cancel_left h)).1]
  · rw [(props_cuts _ _ _ _ (List.append_cancel_left h)).1]
  · rw [(henv.pb_cuts _ _ _ _ (List.append_cancel_left h)).1]
  · rw [(multiple_cut henv ha hb (List.append_cancel_left h)).1]

set_option maxHeartbeats 1600000 in
/-- C102: so does that of an error of a walk. -/
theorem C102_walk (env : DebugEnv) (henv : TellingTexts env) (a b : WalkError) (ha : a.TextName) (hb : b.TextName)
    (h : a.debugText env = b.debugText env) : a = b := by
  cases a <;> cases b <;> simp only [WalkError.debugText, List.append_assoc] at h <;> first
    | rfl
    | exact (lit_ne (by decide +kernel) h).elim
    | exact (lit_ne_left (by decide +kernel) h).elim
    | exact (lit_ne_right (by decide +kernel) h).elim
    | skip
  · rw [(type_cuts _ _ _ _ (List.append_cancel_left h)).1]
  · rw [(type_cuts _ _ _ _ (List.append_cancel_left h)).1]
  · rw [(henv.pb_cuts _ _ _ _ (List.append_cancel_left h)).1]
  · rw [(henv.pb_cuts _ _ _ _ (List.append_cancel_left h)).1]
  · rw [(link_cut henv ha hb (List.append_cancel_left h)).1]
  · rw [(file_cuts _ _ _ _ (List.append_cancel_left h)).1]
  · rw [(props_cuts _ _ _ _ (List.append_cancel_left h)).1]
  · rw [(shard_cuts _ _ _ _ (List.append_cancel_left h)).1]

/-- C102: so does that of an error of building a tree. -/
theorem C102_building (env : DebugEnv) (a b : TreeBuildingFailed) (ha : a.TextPath) (hb : b.TextPath)
    (h : a.debugText env = b.debugText env) : a = b := by
  cases a <;> cases b <;> simp only [TreeBuildingFailed.debugText, List.append_assoc] at h <;> first
    | rfl
    | (rw [(str_cut ha hb (List.append_cancel_left h)).1])
    | exact (lit_ne (by decide +kernel) h).elim
    | exact (lit_ne_left (by decide +kernel) h).elim
    | exact (lit_ne_right (by decide +kernel) h).elim

/-- C102: so does that of an error of constructing its blocks. -/
theorem C102_construction (env : DebugEnv) (a b : TreeConstructionFailed) (h : a.debugText env = b.debugText env) : a = b := by
  cases a <;> cases b <;> simp only [TreeConstructionFailed.debugText, List.append_assoc] at h <;> first
    | rfl
    | exact (lit_ne (by decide +kernel) h).elim
    | skip
  rw [num_end (List.append_cancel_left h)]

theorem path_buf_cut {env : FmtEnv} {p q : PathBuf} (hp : NamePath p) (hq : NamePath q) {x y : Text}
    (h : env.path p.bytes ++ x = env.path q.bytes ++ y) : p = q ∧ x = y := by
  obtain ⟨e, h'⟩ := path_cut (path_text hp) (path_text hq) h
  exact ⟨path_inj hp hq e, h'⟩

theorem segment_cuts : Cuts FileSegment.debugText := fun a b x y h => by
  obtain ⟨a1, a2, a3⟩ := a
  obtain ⟨b1, b2, b3⟩ := b
  simp only [FileSegment.debugText, List.append_assoc] at h
  obtain ⟨rfl, h1⟩ := bytes_cuts _ _ _ _ (List.append_cancel_left h)
  obtain ⟨rfl, h2⟩ := bool_cuts _ _ _ _ (List.append_cancel_left h1)
  obtain ⟨rfl, h3⟩ := bool_cuts _ _ _ _ (List.append_cancel_left h2)
  exact ⟨rfl, List.append_cancel_left h3⟩

/-- C102: so does that of an item of a walk. -/
theorem C102_item (env : DebugEnv) (henv : TellingTexts env) (a b : ContinuedWalk) (ha : NamePath (itemPath a)) (hb : NamePath (itemPath b))
    (h : a.debugText env = b.debugText env) : a = b := by
  cases a <;> cases b <;> simp only [ContinuedWalk.debugText, List.append_assoc] at h <;> first
    | exact (lit_ne (by decide +kernel) h).elim
    | skip
  · obtain ⟨rfl, h1⟩ := henv.cid_cuts _ _ _ _ (List.append_cancel_left h)
    obtain ⟨rfl, -⟩ := path_buf_cut ha hb (List.append_cancel_left h1)
    rfl
  · obtain ⟨rfl, h1⟩ := henv.cid_cuts _ _ _ _ (List.append_cancel_left h)
    obtain ⟨rfl, h2⟩ := path_buf_cut ha hb (List.append_cancel_left h1)
    obtain ⟨rfl, -⟩ := metadata_cuts _ _ _ _ (List.append_cancel_left h2)
    rfl
  · obtain ⟨rfl, h0⟩ := segment_cuts _ _ _ _ (List.append_cancel_left h)
    obtain ⟨rfl, h1⟩ := henv.cid_cuts _ _ _ _ (List.append_cancel_left h0)
    obtain ⟨rfl, h2⟩ := path_buf_cut ha hb (List.append_cancel_left h1)
    obtain ⟨rfl, h3⟩ := metadata_cuts _ _ _ _ (List.append_cancel_left h2)
    have e := num_end (List.append_cancel_left h3)
    subst e; rfl
  · obtain ⟨rfl, h1⟩ := henv.cid_cuts _ _ _ _ (List.append_cancel_left h)
    obtain ⟨rfl, h2⟩ := path_buf_cut ha hb (List.append_cancel_left h1)
    obtain ⟨rfl, -⟩ := metadata_cuts _ _ _ _ (List.append_cancel_left h2)
    rfl
  · obtain ⟨rfl, h0⟩ := bytes_cuts _ _ _ _ (List.append_cancel_left h)
    obtain ⟨rfl, h1⟩ := henv.cid_cuts _ _ _ _ (List.append_cancel_left h0)
    obtain ⟨rfl, h2⟩ := path_buf_cut ha hb (List.append_cancel_left h1)
    obtain ⟨rfl, -⟩ := metadata_cuts _ _ _ _ (List.append_cancel_left h2)
    rfl

/-- C102: the names in an error of parsing are text. -/
theorem C102_parse_names (block : Bytes) (e : ParsingFailed) (h : FlatUnixFs.tryParse block = .error e) : e.TextNames := by
  have names : ∀ n, PBNode.tryFrom block = .ok n → n.TextNames := fun n hn l hl s hs =>
    (C91_text s).1 ((((C51_node block).2 n hn).2 l hl).2.1 s hs).2
  unfold FlatUnixFs.tryParse at h
  cases hn : PBNode.tryFrom block with
  | error e' => simp only [hn, Except.error.injEq] at h; subst h; trivial
  | ok n =>
    simp only [hn] at h
    split at h
    · split at h
      · cases h; exact names n hn
      · split at h
        · cases h
        · cases h; exact names n hn
    · cases h; exact names n hn

/-! ### one line -/

theorem oneLine_some {α : Type} {p : Char → Bool} {f : α → Text} (hf : ∀ a, OneLine p (f a)) (o : Option α) : OneLine p (someText f o) := by
  cases o with
  | none => exact oneLine_lit (by decide +kernel)
  | some a => exact oneLine_append.2 ⟨oneLine_append.2 ⟨oneLine_lit (by decide +kernel), hf a⟩, oneLine_lit (by decide +kernel)⟩

theorem oneLine_list {α : Type} {p : Char → Bool} {f : α → Text} (hf : ∀ a, OneLine p (f a)) (l : List α) : OneLine p (listText f l) := by
  refine oneLine_append.2 ⟨oneLine_append.2 ⟨oneLine_lit (by decide +kernel), oneLine_commas fun t ht => ?_⟩, oneLine_lit (by decide +kernel)⟩
  obtain ⟨a, -, rfl⟩ := List.mem_map.1 ht
  exact hf a

theorem oneLine_nums {p : Char → Bool} (l : List Nat) : OneLine p (listText numText l) := oneLine_list oneLine_num l

theorem oneLine_someBytes {p : Char → Bool} (o : Option Bytes) : OneLine p (someText bytesText o) := oneLine_some oneLine_bytes o

theorem oneLine_someStr {env : FmtEnv} (o : Option Bytes) : OneLine env.printable (someText env.str o) := oneLine_some oneLine_str o

theorem oneLine_bool {p : Char → Bool} (b : Bool) : OneLine p (boolText b) := by
  cases b <;> exact oneLine_lit (by decide +kernel)

theorem oneLine_path {env : FmtEnv} (b : Bytes) : OneLine env.printable (env.path b) := oneLine_quoted _

theorem oneLine_pbLink {env : DebugEnv} (l : PBLink) : OneLine env.printable (l.debugText env) := by
  have h1 := oneLine_someBytes (p := env.printable) l.Hash
  have h2 := oneLine_someStr (env := env.toFmtEnv) l.Name
  unfold PBLink.debugText; one_line

theorem oneLine_pbNode {env : DebugEnv} (n : PBNode) : OneLine env.printable (n.debugText env) := by
  have h1 := oneLine_list (p := env.printable) (oneLine_pbLink (env := env)) n.Links
  have h2 := oneLine_someBytes (p := env.printable) (n.Data.map (·.val))
  unfold PBNode.debugText; one_line

theorem oneLine_fileDebug {p : Char → Bool} (e : FileError) : OneLine p e.debugText := by
  cases e <;> simp only [FileError.debugText] <;> one_line

theorem oneLine_propsDebug {p : Char → Bool} (e : UnexpectedDirectoryProperties) : OneLine p e.debugText := by
  have h1 := oneLine_nums (p := p) e.blocksizes
  have h2 := oneLine_someBytes (p := p) e.data
  unfold UnexpectedDirectoryProperties.debugText; one_line

theorem oneLine_shardDebug {p : Char → Bool} (e : ShardError) : OneLine p e.debugText := by
  cases e with
  | UnsupportedProperties a b => simp only [ShardError.debugText]; one_line
  | UnexpectedProperties a b => have h1 := oneLine_nums (p := p) b; simp only [ShardError.debugText]; one_line

theorem oneLine_multipleDebug {env : FmtEnv} (h : TidyTexts env) (m : MultipleMatchingLinks) : OneLine env.printable (m.debugText env) := by
  have := oneLine_lookup h (.Multiple m)
  exact (oneLine_append.1 this).2

theorem oneLine_lookupDebug {env : DebugEnv} (h : TellingTexts env) (e : LookupError) : OneLine env.printable (e.debugText env) := by
  cases e with
  | Multiple m => have := oneLine_multipleDebug h.toTidyTexts m; simp only [LookupError.debugText]; one_line
  | InvalidCid e => have := oneLine_linkDebug h.toTidyTexts e; simp only [LookupError.debugText]; one_line
  | UnexpectedBucketType t => simp only [LookupError.debugText]; one_line
  | Shard e => have := oneLine_shardDebug (p := env.printable) e; simp only [LookupError.debugText]; one_line
  | Read e => have := oneLine_some h.pbDebug e; simp only [LookupError.debugText]; one_line

theorem oneLine_segment {p : Char → Bool} (s : FileSegment) : OneLine p s.debugText := by
  have h1 := oneLine_bool (p := p) s.first_block
  have h2 := oneLine_bool (p := p) s.last_block
  unfold FileSegment.debugText; one_line

attribute [local irreducible] optText numText FmtEnv.str bytesText typeText Metadata.debugText FmtEnv.path boolText someText listText FileSegment.debugText

theorem oneLine_item {env : DebugEnv} (h : TellingTexts env) (i : ContinuedWalk) : OneLine env.printable (i.debugText env) := by
  have hp := fun p : PathBuf => oneLine_path (env := env.toFmtEnv) p.bytes
  cases i with
  | Bucket c p => have h1 := hp p; have h2 := h.cid c; simp only [ContinuedWalk.debugText]; one_line
  | Directory c p m => have h1 := hp p; have h2 := h.cid c; simp only [ContinuedWalk.debugText]; one_line
  | File s c p m n =>
    have h1 := hp p; have h2 := h.cid c; have h3 := oneLine_segment (p := env.printable) s; simp only [ContinuedWalk.debugText]; one_line
  | RootDirectory c p m => have h1 := hp p; have h2 := h.cid c; simp only [ContinuedWalk.debugText]; one_line
  | Symlink t c p m => have h1 := hp p; have h2 := h.cid c; simp only [ContinuedWalk.debugText]; one_line

/-- C102: all of this is on one line, whatever is in the block, path or name. -/
theorem C102_one_line (env : DebugEnv) (henv : TellingTexts env) (t : Text) (h : Debugged env t) : OneLine env.printable t := by
  have hpb := henv.pbDebug
  cases h with
  | link e => exact oneLine_linkDebug henv.toTidyTexts e
  | file e => exact oneLine_fileDebug e
  | read e =>
    cases e with
    | File e => have := oneLine_fileDebug (p := env.printable) e; simp only [FileReadFailed.debugText]; one_line
    | UnexpectedType t => simp only [FileReadFailed.debugText]; one_line
    | Read e => have := oneLine_some hpb e; simp only [FileReadFailed.debugText]; one_line
    | InvalidCid e => have := oneLine_linkDebug henv.toTidyTexts e; simp only [FileReadFailed.debugText]; one_line
  | parse e =>
    cases e with
    | InvalidDagPb e => have := hpb e; simp only [ParsingFailed.debugText]; one_line
    | NoData n => have := oneLine_pbNode (env := env) n; simp only [ParsingFailed.debugText]; one_line
    | InvalidUnixFs e n => have := hpb e; have := oneLine_pbNode (env := env) n; simp only [ParsingFailed.debugText]; one_line
  | directory e => exact oneLine_propsDebug e
  | shard e => exact oneLine_shardDebug e
  | lookup e => exact oneLine_lookupDebug henv e
  | resolve e =>
    cases e with
    | UnexpectedType t => simp only [ResolveError.debugText]; one_line
    | UnexpectedDirProperties e => have := oneLine_propsDebug (p := env.printable) e; simp only [ResolveError.debugText]; one_line
    | Read e => have := hpb e; simp only [ResolveError.debugText]; one_line
    | Lookup e => have := oneLine_lookupDebug henv e; simp only [ResolveError.debugText]; one_line
  | walk e =>
    cases e with
    | UnsupportedType t => simp only [WalkError.debugText]; one_line
    | UnexpectedType t => simp only [WalkError.debugText]; one_line
    | DagPbParsingFailed e => have := hpb e; simp only [WalkError.debugText]; one_line
    | UnixFsParsingFailed e => have := hpb e; simp only [WalkError.debugText]; one_line
    | EmptyDagPbNode => simp only [WalkError.debugText]; one_line
    | InvalidCid e => have := oneLine_linkDebug henv.toTidyTexts e; simp only [WalkError.debugText]; one_line
    | File e => have := oneLine_fileDebug (p := env.printable) e; simp only [WalkError.debugText]; one_line
    | UnsupportedDirectory e => have := oneLine_propsDebug (p := env.printable) e; simp only [WalkError.debugText]; one_line
    | UnsupportedHAMTShard e => have := oneLine_shardDebug (p := env.printable) e; simp only [WalkError.debugText]; one_line
  | building e => cases e <;> simp only [TreeBuildingFailed.debugText] <;> one_line
  | construction e =>
    have := hpb .outputBufferTooSmall
    cases e <;> simp only [TreeConstructionFailed.debugText] <;> one_line
  | metadata m => exact oneLine_metadata m
  | item i => exact oneLine_item henv i
  | resolved r =>
    cases r with
    | Found c => have := henv.cid c; simp only [MaybeResolved.debugText]; one_line
    | NeedToLoadMore l => simp only [MaybeResolved.debugText, ShardedLookup.debugText]; one_line
    | NotFound => simp only [MaybeResolved.debugText]; one_line
  | node n => have := henv.cidDisplay n.cid; unfold TreeNode.debugText; one_line

attribute [local semireducible] optText numText FmtEnv.str bytesText typeText Metadata.debugText FmtEnv.path boolText someText listText FileSegment.debugText

/-! ### an instance -/

/-- Some texts of Cids and errors. -/
def env1 : DebugEnv where
  toFmtEnv := { env0 with
    cidErrorDebug := fun e => match e with
      | .parse => lit "ParsingError"
      | .invalidVersion => lit "InvalidCidVersion"
      | .invalidV0 => lit "InvalidCidV0Multihash"
    cid := fun c => lit "Cid(" ++ boolText (c.version = .v0) ++ lit ", " ++ numText c.codec ++ lit ", " ++ numText c.code ++ lit ", " ++
      bytesText c.digest ++ lit ")" }
  pbDebug := fun e => match e with
    | .unexpectedEnd => lit "UnexpectedEndOfBuffer"
    | .varint => lit "Varint"
    | .utf8 => lit "Utf8(..)"
    | .deprecated => lit "Deprecated(\"group\")"
    | .unknownWireType => lit "UnknownWireType(..)"
    | .outputBufferTooSmall => lit "OutputBufferTooSmall"
    | .overflow => lit "(overflow)"
    | .fuel => lit "(fuel)"
  cidDisplay := fun _ => lit "Qm"

theorem env1_tells : TellingTexts env1 where
  pb := env0_tidy.pb
  cidError := env0_tidy.cidError
  cidErrorDebug e := by cases e <;> exact oneLine_lit (by decide +kernel)
  cid c := by
    have h := oneLine_bool (p := env1.printable) (c.version = .v0)
    show OneLine env1.printable (lit "Cid(" ++ boolText (c.version = .v0) ++ lit ", " ++ numText c.codec ++ lit ", " ++ numText c.code ++ lit ", " ++
      bytesText c.digest ++ lit ")")
    repeat' first
      | assumption
      | exact oneLine_lit (by decide +kernel)
      | exact oneLine_num _
      | exact oneLine_bytes _
      | refine oneLine_append.2 ⟨?_, ?_⟩
  pbDebug e := by cases e <;> exact oneLine_lit (by decide +kernel)
  cidDisplay _ := oneLine_lit (by decide +kernel)
  pb_cuts a b x y h := by
    cases a <;> cases b <;> first
      | exact ⟨rfl, List.append_cancel_left h⟩
      | exact (lit_ne (by decide +kernel) h).elim
  cidError_cuts a b x y h := by
    cases a <;> cases b <;> first
      | exact ⟨rfl, List.append_cancel_left h⟩
      | exact (lit_ne (by decide +kernel) h).elim
  cid_cuts a b x y h := by
    obtain ⟨a1, a2, a3, a4⟩ := a
    obtain ⟨b1, b2, b3, b4⟩ := b
    simp only [env1, List.append_assoc] at h
    obtain ⟨e1, h1⟩ := bool_cuts _ _ _ _ (List.append_cancel_left h)
    obtain ⟨rfl, h2⟩ := num_lit (by decide +kernel) (List.append_cancel_left h1)
    obtain ⟨rfl, h3⟩ := num_lit (by decide +kernel) h2
    obtain ⟨rfl, h4⟩ := bytes_cuts _ _ _ _ h3
    have : a1 = b1 := by cases a1 <;> cases b1 <;> simp at e1 <;> rfl
    subst this
    exact ⟨rfl, List.append_cancel_left h4⟩

/-- `{:?}` of the error of a block without data, with a link whose name has a newline in it. -/
theorem C102_example : (ParsingFailed.NoData { Links := [{ Hash := some [1, 255], Name := some [0x61, 0x0A], Tsize := some 3 }, {}], Data := some ⟨7, []⟩ }).debugText env1 =
    lit "NoData(PBNode { Links: [PBLink { Hash: Some([1, 255]), Name: Some(\"a\\n\"), Tsize: Some(3) }, PBLink { Hash: None, Name: None, Tsize: None }], Data: Some([]) })" := by
  decide +kernel

end Verif.Props
