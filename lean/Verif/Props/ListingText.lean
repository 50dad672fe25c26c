import Verif.Props.ErrorTells
import Verif.Spec.AtPath
import Verif.Props.Text
import Verif.Props.Get
import Verif.Props.Escaping
/-
C101: the listing which the example program `get` prints.
-/
namespace Verif.Props
open Verif Verif.Spec Verif.Examples

/-! ### paths -/

theorem isText_slash : IsText [slash] := (C91_text _).1 (by decide)

theorem isText_join : ∀ {cs : List Bytes}, (∀ c ∈ cs, IsText c) → IsText (joinSlash cs)
  | [], _ => isText_nil
  | [c], h => by simpa [joinSlash] using h c (by simp)
  | c :: d :: cs, h => by
    rw [joinSlash_cons (by simp)]
    exact (h c (by simp)).append (isText_slash.append (isText_join fun x hx => h x (List.mem_cons_of_mem _ hx)))

theorem join_eq : ∀ cs : List Bytes, (cs.intersperse [slash]).flatten = joinSlash cs
  | [] => rfl
  | [c] => by simp [joinSlash]
  | c :: d :: cs => by
    rw [joinSlash, ← join_eq (d :: cs)]
    simp [List.intersperse]

theorem path_text {p : PathBuf} (h : NamePath p) : IsText p.bytes := by
  unfold PathBuf.bytes
  rw [h.1, join_eq]
  exact isText_join fun c hc => (h.2 c hc).2.2

theorem path_inj {p q : PathBuf} (hp : NamePath p) (hq : NamePath q) (h : p.bytes = q.bytes) : p = q := by
  obtain ⟨a, cs⟩ := p
  obtain ⟨b, ds⟩ := q
  obtain ⟨ha, hp⟩ := hp
  obtain ⟨hb, hq⟩ := hq
  simp only at ha hb hp hq
  subst ha; subst hb
  simp only [PathBuf.bytes, Bool.false_eq_true, if_false, List.nil_append, join_eq] at h
  have hne : ∀ {cs : List Bytes}, cs ≠ [] → (∀ n ∈ cs, n ≠ [] ∧ slash ∉ n ∧ IsText n) → joinSlash cs ≠ [] := by
    intro cs hne hcs e
    have := split_joinSlash hne (fun c hc => (hcs c hc).2.1)
    rw [e] at this
    have h0 : [] ∈ cs := by rw [← this]; decide
    exact (hcs _ h0).1 rfl
  by_cases h1 : cs = []
  · by_cases h2 : ds = []
    · rw [h1, h2]
    · exact absurd (by rw [← h, h1]; rfl) (hne h2 hq)
  · by_cases h2 : ds = []
    · exact absurd (by rw [h, h2]; rfl) (hne h1 hp)
    · rw [← split_joinSlash h1 (fun c hc => (hp c hc).2.1), h, split_joinSlash h2 (fun c hc => (hq c hc).2.1)]

/-! ### the printed lines -/

theorem space_not_hex : ¬ IsHex ' ' := by decide

/-- The text of a line shows where it ends, and what was in it. -/
theorem line_cut {env : FmtEnv} {a b : Line} (ha : a.Printable) (hb : b.Printable) {x y : Text} (h : a.text env ++ x = b.text env ++ y) :
    a = b ∧ x = y := by
  have dash : ' ' ∉ lit "-" := by decide
  have dash' : lit "-" ≠ [] := by decide
  cases a with
  | f mode sec size path =>
    cases b with
    | f mode' sec' size' path' =>
      simp only [Line.text, List.append_assoc] at h
      obtain ⟨e1, h⟩ := oct_cut (s := ' ') space_not_hex (List.append_cancel_left h)
      obtain ⟨e2, h⟩ := pad_cut (not_mem_intText _ space_not_hex (by decide)) (not_mem_intText _ space_not_hex (by decide)) (intText_ne_nil _) (intText_ne_nil _) h
      obtain ⟨e3, h⟩ := pad_cut (not_mem_digits (by omega) (by omega) _ space_not_hex) (not_mem_digits (by omega) (by omega) _ space_not_hex)
        Nat.toDigits_ne_nil Nat.toDigits_ne_nil h
      obtain ⟨e4, hz⟩ := path_cut (path_text ha) (path_text hb) h
      have e2 := intText_inj e2
      have e3 := digits_inj (by omega) (by omega) e3
      have e4 := path_inj ha hb e4
      subst e1; subst e2; subst e3; subst e4
      exact ⟨rfl, List.append_cancel_left hz⟩
    | d mode' sec' path' => simp [Line.text, lit] at h
    | s mode' sec' path' target' => simp [Line.text, lit] at h
  | d mode sec path =>
    cases b with
    | f mode' sec' size' path' => simp [Line.text, lit] at h
    | d mode' sec' path' =>
      simp only [Line.text, List.append_assoc] at h
      obtain ⟨e1, h⟩ := oct_cut (s := ' ') space_not_hex (List.append_cancel_left h)
      obtain ⟨e2, h⟩ := pad_cut (not_mem_intText _ space_not_hex (by decide)) (not_mem_intText _ space_not_hex (by decide)) (intText_ne_nil _) (intText_ne_nil _) h
      obtain ⟨-, h⟩ := pad_cut dash dash dash' dash' h
      obtain ⟨e4, hz⟩ := path_cut (path_text ha) (path_text hb) h
      have e2 := intText_inj e2
      have e4 := path_inj ha hb e4
      subst e1; subst e2; subst e4
      exact ⟨rfl, List.append_cancel_left hz⟩
    | s mode' sec' path' target' => simp [Line.text, lit] at h
  | s mode sec path target =>
    cases b with
    | f mode' sec' size' path' => simp [Line.text, lit] at h
    | d mode' sec' path' => simp [Line.text, lit] at h
    | s mode' sec' path' target' =>
      simp only [Line.text, List.append_assoc] at h
      obtain ⟨e1, h⟩ := oct_cut (s := ' ') space_not_hex (List.append_cancel_left h)
      obtain ⟨e2, h⟩ := pad_cut (not_mem_intText _ space_not_hex (by decide)) (not_mem_intText _ space_not_hex (by decide)) (intText_ne_nil _) (intText_ne_nil _) h
      obtain ⟨-, h⟩ := pad_cut dash dash dash' dash' h
      obtain ⟨e4, h⟩ := path_cut (path_text ha.1) (path_text hb.1) h
      obtain ⟨e5, hz⟩ := path_cut ha.2 hb.2 (List.append_cancel_left h)
      have e2 := intText_inj e2
      have e4 := path_inj ha.1 hb.1 e4
      subst e1; subst e2; subst e4; subst e5
      exact ⟨rfl, List.append_cancel_left hz⟩

theorem text_ne_nil (env : FmtEnv) (a : Line) : a.text env ≠ [] := by
  cases a <;> simp [Line.text, lit]

/-- C101: the listing can be read back: no two listings print the same text. -/
theorem C101_readable (env : FmtEnv) : ∀ (as bs : List Line), (∀ a ∈ as, a.Printable) → (∀ b ∈ bs, b.Printable) →
    output env as = output env bs → as = bs
  | [], [], _, _, _ => rfl
  | [], b :: bs, _, _, h => by
    simp [output, text_ne_nil] at h
  | a :: as, [], _, _, h => by
    simp [output, text_ne_nil] at h
  | a :: as, b :: bs, ha, hb, h => by
    simp only [output, List.flatMap_cons] at h
    obtain ⟨e1, e2⟩ := line_cut (ha a (by simp)) (hb b (by simp)) h
    rw [e1, C101_readable env as bs (fun x hx => ha x (List.mem_cons_of_mem _ hx)) (fun x hx => hb x (List.mem_cons_of_mem _ hx)) e2]

theorem oneLine_pad {p : Char → Bool} {w : Nat} {t : Text} (h : OneLine p t) : OneLine p (padLeft w t) := by
  refine oneLine_append.2 ⟨fun c hc => ?_, h⟩
  rw [(List.mem_replicate.1 hc).2]
  exact .inl (by decide)

/-- C101: every line of the listing is one line: nothing which is hidden, and a newline only at its end. -/
theorem C101_one_line (env : FmtEnv) (a : Line) : ∃ t, a.text env = t ++ ['\n'] ∧ OneLine env.printable t := by
  have hp : ∀ s, OneLine env.printable (env.path s) := fun s => oneLine_quoted _
  have hi : ∀ i, OneLine env.printable (padLeft 12 (intText i)) := fun i => oneLine_pad (oneLine_int i)
  have hn : ∀ n, OneLine env.printable (padLeft 16 (numText n)) := fun n => oneLine_pad (oneLine_num n)
  have hd : OneLine env.printable (padLeft 16 (lit "-")) := oneLine_pad (oneLine_lit (by decide +kernel))
  have ho : ∀ n, OneLine env.printable (Nat.toDigits 8 n) := fun n => oneLine_digits (by omega) (by omega) n
  have hs : OneLine env.printable (lit " ") := oneLine_lit (by decide +kernel)
  have ha : OneLine env.printable (lit " -> ") := oneLine_lit (by decide +kernel)
  have h1 : OneLine env.printable (lit "f ") := oneLine_lit (by decide +kernel)
  have h2 : OneLine env.printable (lit "d ") := oneLine_lit (by decide +kernel)
  have h3 : OneLine env.printable (lit "s ") := oneLine_lit (by decide +kernel)
  cases a <;> exact ⟨_, rfl, by simp only [oneLine_append, *, and_self]⟩

/-! ### what is printed -/

/-- A name which can be pushed onto a path: none, or one which is text and has no slash. -/
def OkName (n : Bytes) : Prop := n = [] ∨ (slash ∉ n ∧ IsText n)

theorem _root_.Verif.Spec.NamePath.push {p : PathBuf} {n : Bytes} (hp : NamePath p) (hn : OkName n) : NamePath (p.push n) := by
  rcases hn with rfl | ⟨h1, h2⟩
  · rw [push_empty]; exact hp
  · unfold PathBuf.push
    rw [if_neg (head_ne_slash h1), splitSlash_single h1]
    refine ⟨hp.1, fun c hc => ?_⟩
    simp only [List.mem_append] at hc
    rcases hc with hc | hc
    · exact hp.2 c hc
    · simp only [pathComps, List.filter_nil, List.append_nil] at hc
      split at hc
      · simp at hc
      next h' =>
        cases List.mem_singleton.1 hc
        exact ⟨fun e => h' (.inl e), h1, h2⟩

theorem _root_.Verif.Spec.NamePath.pop {p q : PathBuf} (hp : NamePath p) (h : p.pop = some q) : NamePath q := by
  unfold PathBuf.pop at h
  split at h
  · cases h
  · cases h
    exact ⟨hp.1, fun c hc => hp.2 c (List.dropLast_subset _ hc)⟩

theorem popGe_names {ε : Type} {depth : Nat} : ∀ {d : Nat} {p q : PathBuf}, NamePath p → (popWhileGe depth d p : Res ε PathBuf) = .ok q → NamePath q
  | 0, p, q, hp, h => by cases h; exact hp
  | d + 1, p, q, hp, h => by
    unfold popWhileGe at h
    split at h
    · split at h
      · cases h
      next hq => exact popGe_names (hp.pop hq) h
    · cases h; exact hp

theorem popGt_names {ε : Type} {depth : Nat} : ∀ {d : Nat} {p : PathBuf} {q : Nat × PathBuf}, NamePath p →
    (popWhileGt depth d p : Res ε (Nat × PathBuf)) = .ok q → NamePath q.2
  | 0, p, q, hp, h => by cases h; exact hp
  | d + 1, p, q, hp, h => by
    unfold popWhileGt at h
    split at h
    · split at h
      · cases h
      next hq => exact popGt_names (hp.pop hq) h
    · cases h; exact hp

theorem setPath_names {ε : Type} {ie ie' : InnerEntry} {n : Bytes} {d : Nat} (hp : NamePath ie.path) (hn : OkName n)
    (h : (ie.setPath n d : Res ε InnerEntry) = .ok ie') : NamePath ie'.path := by
  unfold InnerEntry.setPath at h
  split at h
  · cases h
  · rw [Res.bind_ok_iff] at h
    obtain ⟨q, hq, h⟩ := h
    dsimp only at h
    split at h
    · cases h
    · cases h; exact (popGe_names hp hq).push hn

theorem asKind_names {ε : Type} {ie ie' : InnerEntry} {k : InnerKind} {c : Cid} {n : Bytes} {d : Nat} {md : Metadata} (hp : NamePath ie.path)
    (hn : OkName n) (h : (ie.asKind k c n d md : Res ε InnerEntry) = .ok ie') : NamePath ie'.path := by
  unfold InnerEntry.asKind at h
  split at h
  · cases h
  · rw [Res.bind_ok_iff] at h
    obtain ⟨q, hq, h⟩ := h
    have hz := setPath_names (ie := { ie with cid := c, kind := k }) hp hn hq
    cases h
    exact hz

theorem asBucket_names {ε : Type} {ie ie' : InnerEntry} {c : Cid} {d : Nat} (hp : NamePath ie.path)
    (h : (ie.asBucket c d : Res ε InnerEntry) = .ok ie') : NamePath ie'.path := by
  unfold InnerEntry.asBucket at h
  split at h
  · split at h
    · cases h
    · cases h; exact hp
  all_goals first
    | (cases h; done)
    | (rw [Res.bind_ok_iff] at h
       obtain ⟨q, hq, h⟩ := h
       dsimp only at h
       split at h
       · cases h
       · cases h; exact popGt_names hp hq)

/-- All paths and names which the walker holds are fine. -/
structure FineNames (w : Walker) : Prop where
  cur : ∀ ie, w.current = some ie → NamePath ie.path
  links : ∀ l ∈ w.links, OkName l.name

theorem namePath_empty : NamePath {} := ⟨rfl, nofun⟩

theorem newRoot_names {k : InnerKind} {c : Cid} {md : Metadata} {n : Bytes} {d : Nat} (hn : OkName n) :
    NamePath (InnerEntry.newRoot k c md n d).path := namePath_empty.push hn

theorem enterLeaf_names {w : Walker} {k : InnerKind} {md : Metadata} {n : WalkLink} {ie : InnerEntry} (hw : FineNames w) (hn : OkName n.name)
    (h : w.enterLeaf k md n = .ok ie) : NamePath ie.path := by
  unfold Walker.enterLeaf at h
  split at h
  · cases h; exact newRoot_names hn
  next hc => exact asKind_names (hw.cur _ hc) hn h

theorem enterDirectory_names {w : Walker} {md : Metadata} {n : WalkLink} {ie : InnerEntry} {item : ContinuedWalk} (hw : FineNames w) (hn : OkName n.name)
    (h : w.enterDirectory md n = .ok (ie, item)) : NamePath ie.path ∧ itemPath item = ie.path := by
  unfold Walker.enterDirectory at h
  split at h
  · cases h; exact ⟨newRoot_names hn, rfl⟩
  next hc =>
    rw [Res.bind_ok_iff] at h
    obtain ⟨q, hq, h⟩ := h
    cases h
    exact ⟨asKind_names (hw.cur _ hc) hn hq, rfl⟩

theorem enterShard_names {w : Walker} {md : Metadata} {n : WalkLink} {ie : InnerEntry} {item : ContinuedWalk} (hw : FineNames w) (hn : OkName n.name)
    (h : w.enterShard md n = .ok (ie, item)) : NamePath ie.path ∧ itemPath item = ie.path := by
  unfold Walker.enterShard at h
  split at h
  · cases h; exact ⟨newRoot_names hn, rfl⟩
  next hc =>
    split at h
    · rw [Res.bind_ok_iff] at h
      obtain ⟨q, hq, h⟩ := h
      cases h
      exact ⟨asBucket_names (hw.cur _ hc) hq, rfl⟩
    · rw [Res.bind_ok_iff] at h
      obtain ⟨q, hq, h⟩ := h
      cases h
      exact ⟨asKind_names (hw.cur _ hc) hn hq, rfl⟩

theorem drop_text {n : Bytes} (hn : IsText n) (h : isCharBoundary n 2 = true) : IsText (n.drop 2) := by
  obtain ⟨l, r, e, hl⟩ := (C91_boundary n hn 2).1 h
  refine ⟨r, ?_⟩
  rw [e, ← hl]
  simp [encodeText]

theorem converted_mem {conv : Nat → PBLink → Res InvalidCidInLink WalkLink} {links : List PBLink} {ls : List WalkLink}
    (h : links.zipIdx.map (fun x => conv x.2 x.1) = ls.map .ok) {w : WalkLink} (hw : w ∈ ls) : ∃ l ∈ links, ∃ i, conv i l = .ok w := by
  have : (Res.ok w : Res InvalidCidInLink WalkLink) ∈ links.zipIdx.map (fun x => conv x.2 x.1) := by
    rw [h]; exact List.mem_map_of_mem hw
  obtain ⟨x, hx, e⟩ := List.mem_map.1 this
  exact ⟨x.1, List.fst_mem_of_mem_zipIdx hx, x.2, e⟩

theorem FineNames.pop {w : Walker} (hw : FineNames w) {ie : InnerEntry} (hie : NamePath ie.path) {ls : List WalkLink} (hls : ∀ l ∈ ls, OkName l.name) :
    FineNames (Walker.popNext (some ie) (w.pending ++ ls)) := by
  constructor
  · intro ie' h
    rw [popNext_current] at h
    cases h; exact hie
  · intro l hl
    rw [popNext_wlinks] at hl
    simp only [List.mem_reverse, List.mem_append] at hl
    rcases hl with hl | hl
    · exact hw.links l (by simp [Walker.links, hl])
    · exact hls l hl

/-- A step keeps the names fine, and reports such a path. -/
theorem FineNames.step {w w' : Walker} {b : Bytes} {cache : Option VisitCache} {item : ContinuedWalk} (hw : FineNames w) (h : WStep w b cache item w') :
    FineNames w' ∧ NamePath (itemPath item) := by
  have hnext : ∀ n, w.next = some n → OkName n.name := fun n hn => hw.links n (by simp [Walker.links, hn])
  cases h with
  | later ie v sz c next hc hk _ hi hw' =>
    subst hi; subst hw'
    refine ⟨⟨fun ie' h => ?_, hw.links⟩, hw.cur ie hc⟩
    cases h; exact hw.cur ie hc
  | directory m n ls ie _ hm _ _ hn hls he hw' =>
    obtain ⟨h1, h2⟩ := enterDirectory_names hw (hnext n hn) he
    subst hw'
    refine ⟨hw.pop h1 ?_, h2 ▸ h1⟩
    intro l hl
    obtain ⟨x, hx, i, hi⟩ := converted_mem (conv := fun i l => convertLink (n.depth + 1) i l) hls (List.mem_reverse.1 hl)
    obtain ⟨s, hs, -, -, h5, h6⟩ := convertLink_cid hi
    rw [h6]
    exact .inr ⟨h5, C91_names b m hm x hx s hs⟩
  | shard m n ls ie _ hm _ _ hn hls he hw' =>
    obtain ⟨h1, h2⟩ := enterShard_names hw (hnext n hn) he
    subst hw'
    refine ⟨hw.pop h1 ?_, h2 ▸ h1⟩
    intro l hl
    obtain ⟨x, hx, i, hi⟩ := converted_mem (conv := fun i l => convertShardedLink (n.depth + 1) n.depth i l) hls (List.mem_reverse.1 hl)
    obtain ⟨s, hs, -, h5⟩ := convertShardedLink_cid hi
    rcases h5 with ⟨h5, h6, h7⟩ | ⟨-, h7⟩
    · rw [h7]
      refine .inr ⟨h6, drop_text (C91_names b m hm x hx s hs) ?_⟩
      simp only [convertShardedLink, hs] at hi
      split at hi
      · cases hi
      · rw [if_pos h5] at hi
        split at hi
        · cases hi
        next h => simpa using h
    · rw [h7]; exact .inl rfl
  | first m n r ie _ _ _ _ hn he hi hw' =>
    have h1 := enterLeaf_names hw (hnext n hn) he
    subst hi; subst hw'
    have h2 := hw.pop (ls := []) h1 nofun
    rw [List.append_nil] at h2
    exact ⟨⟨h2.cur, h2.links⟩, h1⟩
  | symlink m n ie _ _ _ hn he hi hw' =>
    have h1 := enterLeaf_names hw (hnext n hn) he
    subst hi; subst hw'
    have h2 := hw.pop (ls := []) h1 nofun
    rw [List.append_nil] at h2
    exact ⟨h2, h1⟩

theorem named_new (cid : Cid) : FineNames (Walker.new cid []) :=
  ⟨nofun, fun l hl => by cases List.mem_singleton.1 hl; exact .inl rfl⟩

theorem getItem_printable {item : ContinuedWalk} {lines : List Line} (h : getItem item = .ok lines) (hp : NamePath (itemPath item)) :
    ∀ l ∈ lines, l.Printable := by
  cases item with
  | Bucket c p => cases h; exact nofun
  | File s c p md size =>
    simp only [getItem] at h
    split at h
    · cases h; intro l hl; cases List.mem_singleton.1 hl; exact hp
    · cases h; exact nofun
  | Directory c p md => cases h; intro l hl; cases List.mem_singleton.1 hl; exact hp
  | RootDirectory c p md => cases h; intro l hl; cases List.mem_singleton.1 hl; exact hp
  | Symlink t c p md =>
    simp only [getItem] at h
    split at h
    · cases h
    next hv => cases h; intro l hl; cases List.mem_singleton.1 hl; exact ⟨hp, (C91_text t).1 (by simpa using hv)⟩

theorem getLoop_printable {get : Cid → Option Bytes} (out : List Line) (w : Walker) (cache) (r) (h : getLoop get out w cache = some r) :
    FineNames w → (∀ l ∈ out, l.Printable) → ∀ l ∈ r.1, l.Printable := by
  refine getLoop.partial_correctness get (fun out w _ r => FineNames w → (∀ l ∈ out, l.Printable) → ∀ l ∈ r.1, l.Printable) ?_ out w cache r h
  intro rec ih out w cache r hr hw hout
  by_cases hs : w.shouldContinue = false
  · rw [if_pos hs] at hr; cases hr; exact hout
  rw [if_neg hs] at hr
  cases hp : w.pendingLinks with
  | panic p => rw [hp] at hr; cases hr; exact hout
  | err e => rw [hp] at hr; cases hr; exact hout
  | ok fl =>
    rw [hp] at hr
    simp only at hr
    cases hg : get fl.1 with
    | none => rw [hg] at hr; cases hr; exact hout
    | some block =>
      rw [hg] at hr
      simp only at hr
      rcases hst : w.step block cache with ⟨a, w', cache'⟩
      rw [hst] at hr
      cases a with
      | panic p => cases hr; exact hout
      | err e => cases hr; exact hout
      | ok item =>
        simp only at hr
        obtain ⟨h1, h2⟩ := hw.step (step_ok hst)
        cases hi : getItem item with
        | panic p => rw [hi] at hr; cases hr; exact hout
        | err e => rw [hi] at hr; cases hr; exact hout
        | ok lines =>
          rw [hi] at hr
          refine ih _ _ _ _ hr h1 ?_
          intro l hl
          rcases List.mem_append.1 hl with hl | hl
          · exact hout l hl
          · exact getItem_printable hi h2 l hl

/-- C101: what `get` prints, whatever the blocks are and however it ends, are such lines: their paths are of names which are text, and so
are the targets of symlinks. -/
theorem C101_printed (get : Cid → Option Bytes) (start : Cid) (lines : List Line) (end_ : Res GetError Unit)
    (h : getWalk get start = some (lines, end_)) : ∀ l ∈ lines, l.Printable :=
  getLoop_printable _ _ _ _ h (named_new start) nofun

/-- C101: so the text which `get` prints tells what it found: two runs, on whatever blocks, which print the same have found the same. -/
theorem C101_forge (env : FmtEnv) (get get' : Cid → Option Bytes) (start start' : Cid) (r r' : List Line × Res GetError Unit)
    (h : getWalk get start = some r) (h' : getWalk get' start' = some r') (he : output env r.1 = output env r'.1) : r.1 = r'.1 :=
  C101_readable env _ _ (C101_printed get start r.1 r.2 h) (C101_printed get' start' r'.1 r'.2 h') he

/-! ### an example -/

/-- A directory with a file whose name tries to look like another line. -/
def forgedDir : Bytes :=
  (FlatUnixFs.mk [⟨some (cidN 1).toBytes, some [0x61, 0x22, 0x0A, 0x64], some 7⟩] { Ty := .Directory }).write

/-- Numbers are shown in decimal, as Lean shows them. -/
theorem C101_decimal : (∀ i, intText i = (toString i).toList) ∧ ∀ n, numText n = (toString n).toList := by
  constructor
  · intro i
    cases i with
    | ofNat n => simp [intText, numText, toString, Int.repr, Nat.repr]
    | negSucc n => simp [intText, numText, toString, Int.repr, Nat.repr]
  · intro n
    simp [numText, toString, Nat.repr]

/-- It is listed on one line. -/
theorem C101_example : ∃ lines, getWalk (fun c => if c = cidN 0 then some forgedDir else if c = cidN 1 then some upFile else none) (cidN 0) =
      some (lines, .ok ()) ∧ output env0 lines = lit "d 755            0                - \"\"\nf 644            0                1 \"a\\\"\\nd\"\n" := by
  refine ⟨[.d 0o755 0 ⟨false, []⟩, .f 0o644 0 1 ⟨false, [[0x61, 0x22, 0x0A, 0x64]]⟩], ?_, by decide +kernel⟩
  let w1 : Walker := ((Walker.new (cidN 0) []).step forgedDir none).2.1
  have h1 : (Walker.new (cidN 0) []).step forgedDir none = (.ok (.RootDirectory (cidN 0) ⟨false, []⟩ {}), w1, none) := by decide +kernel
  let w2 : Walker := (w1.step upFile none).2.1
  let k2 : Option VisitCache := (w1.step upFile none).2.2
  have h2 : w1.step upFile none =
    (.ok (.File ⟨[1], true, true⟩ (cidN 1) ⟨false, [[0x61, 0x22, 0x0A, 0x64]]⟩ {} 1), w2, k2) := by decide +kernel
  have p0 : (Walker.new (cidN 0) []).pendingLinks = .ok (cidN 0, []) := by decide +kernel
  have p1 : w1.pendingLinks = .ok (cidN 1, []) := by decide +kernel
  have s1 : w1.shouldContinue = true := by decide +kernel
  have s2 : w2.shouldContinue = false := by decide +kernel
  unfold getWalk
  rw [getLoop.eq_1, if_neg (by decide), p0]
  simp only [if_true, h1, getItem]
  rw [getLoop.eq_1, if_neg (by simp [s1]), p1]
  have hne : cidN 1 ≠ cidN 0 := by decide +kernel
  simp only [hne, if_false, if_true, h2, getItem, FileSegment.isLast]
  rw [getLoop.eq_1, if_pos s2]
  rfl

end Verif.Props
