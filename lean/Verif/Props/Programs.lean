import Verif.Spec.Programs
import Verif.Props.CidText
import Verif.Props.ErrorTexts
import Verif.Props.AddExample
import Verif.Props.Cat
import Verif.Props.BuildExamples
import Verif.Props.BlockSizes
/-
Property C105: the example programs as whole processes.
-/
namespace Verif.Props
open Verif Verif.Spec Verif.Examples

/-! ### texts -/

theorem encode58_alnum (b : Bytes) : ∀ x ∈ encode58 b, Alphanumeric x := by
  intro x hx
  unfold encode58 at hx
  simp only at hx
  obtain ⟨d, hd, rfl⟩ := List.mem_map.1 hx
  have : d < 58 := by
    rcases List.mem_append.1 hd with hd | hd
    · obtain ⟨_, -, rfl⟩ := List.mem_map.1 hd
      decide
    · split at hd
      · simp only [List.mem_singleton] at hd
        omega
      · exact digitsLE_lt 58 (by decide) _ _ d (List.mem_reverse.1 hd)
  exact alphabet58_alnum ⟨d, this⟩

theorem text_alnum (c : Cid) : ∀ x ∈ c.text, Alphanumeric x := by
  intro x hx
  cases hv : c.version with
  | v0 =>
    simp only [Cid.text, hv] at hx
    exact encode58_alnum _ x hx
  | v1 =>
    simp only [Cid.text, hv] at hx
    rcases List.mem_cons.1 hx with rfl | hx
    · decide
    · obtain ⟨ds, p, h1, -, h3, -⟩ := encode32_digits c.toBytes
      rw [h3] at hx
      obtain ⟨d, hd, rfl⟩ := List.mem_map.1 hx
      exact alphabet32_alnum ⟨d, h1 d hd⟩

theorem alnum_ascii {x : UInt8} (h : Alphanumeric x) : x.toNat < 128 := by
  rcases h with ⟨-, h⟩ | ⟨-, h⟩ | ⟨-, h⟩ <;> exact Nat.lt_of_le_of_lt h (by decide)

theorem encode_ascii : ∀ n : Fin 128, String.utf8EncodeChar (Char.ofNat n.val) = [UInt8.ofNat n.val] := by decide +kernel

theorem decode_ascii : ∀ {t : Bytes}, (∀ x ∈ t, x.toNat < 128) → decodeText t = t.map (fun x => Char.ofNat x.toNat) ∧ utf8 (decodeText t) = t
  | [], _ => ⟨rfl, rfl⟩
  | x :: t, h => by
    obtain ⟨h1, h2⟩ := decode_ascii (t := t) (fun y hy => h y (by simp [hy]))
    have hx := h x (by simp)
    have hd : decodeText (x :: t) = Char.ofNat x.toNat :: decodeText t := by
      rw [decodeText.eq_def]
      exact if_pos hx
    refine ⟨by rw [hd, h1]; rfl, ?_⟩
    rw [hd, utf8, List.flatMap_cons, encode_ascii ⟨x.toNat, hx⟩]
    change _ ++ utf8 (decodeText t) = _
    rw [h2]
    simp

theorem utf8_shown (c : Cid) : utf8 (shown c) = c.text := (decode_ascii (fun x hx => alnum_ascii (text_alnum c x hx))).2

theorem utf8_append (a b : Text) : utf8 (a ++ b) = utf8 a ++ utf8 b := by simp [utf8]

theorem utf8_encodeText (t : Text) : utf8 t = encodeText t := rfl

theorem newline_hidden {p : Char → Bool} {t : Text} (h : OneLine p t) : '\n' ∉ t := by
  intro hm
  rcases h _ hm with ⟨h1, -⟩ | ⟨h1, -⟩ <;> exact absurd h1 (by decide)

theorem newline_code : ∀ n : Fin 128, Char.ofNat n.val = '\n' → n.val = 10 := by decide +kernel

theorem newline_shown (c : Cid) : '\n' ∉ shown c := by
  rw [shown, (decode_ascii (fun x hx => alnum_ascii (text_alnum c x hx))).1]
  intro hm
  obtain ⟨x, hx, h⟩ := List.mem_map.1 hm
  have ha := text_alnum c x hx
  have : x.toNat = 10 := newline_code ⟨x.toNat, alnum_ascii ha⟩ h
  rw [show x = 10 from UInt8.toNat_inj.1 this] at ha
  exact absurd ha (by decide)

/-! ### what `resolve` writes on the way -/

/-- More has been written, and it is chatter. -/
def More (a b : Log) : Prop := ∃ lines, (∀ l ∈ lines, Chatter l) ∧ utf8 b.out = utf8 a.out ++ asLines lines

theorem More.refl (a : Log) : More a a := ⟨[], nofun, by simp [asLines]⟩

theorem More.trans {a b c : Log} (h : More a b) (h' : More b c) : More a c := by
  obtain ⟨ls, h1, h2⟩ := h
  obtain ⟨ls', h3, h4⟩ := h'
  refine ⟨ls ++ ls', ?_, by rw [h4, h2, List.append_assoc, asLines, asLines, asLines, List.flatMap_append]⟩
  intro l hl
  rcases List.mem_append.1 hl with hl | hl
  · exact h1 l hl
  · exact h3 l hl

theorem more_eprint (a : Log) (t : Text) : More a (a.eprint t) := ⟨[], nofun, by simp [asLines, Log.eprint]⟩

/-- The line about the cache. -/
def cacheLine (m : Machine) (a : Log) (cache : Option LookupCache) : Text :=
  lit "cache " ++ someText (fun _ => lit "Cache { buffer: " ++ numText (m.capacity a.out) ++ lit " }") cache

theorem newline_lit {s : String} (h : s.toList.all (fun c => 0x20 ≤ c.toNat && c.toNat ≤ 0x7E) = true) : '\n' ∉ lit s :=
  newline_hidden (p := fun _ => false) (oneLine_lit h)

theorem newline_num (n : Nat) : '\n' ∉ numText n := newline_hidden (p := fun _ => false) (oneLine_num n)

theorem chatter_cache (m : Machine) (a : Log) (cache : Option LookupCache) : Chatter (cacheLine m a cache) := by
  refine ⟨?_, .inl ⟨_, rfl⟩⟩
  have h1 := newline_lit (s := "cache ") (by decide)
  have h2 := newline_lit (s := "None") (by decide)
  have h3 := newline_lit (s := "Some(") (by decide)
  have h4 := newline_lit (s := "Cache { buffer: ") (by decide)
  have h5 := newline_num (m.capacity a.out)
  have h6 := newline_lit (s := " }") (by decide)
  have h7 := newline_lit (s := ")") (by decide)
  cases cache <;> simp only [cacheLine, someText, List.mem_append, not_or] <;> simp only [h1, h2, h3, h4, h5, h6, h7, not_false_eq_true, and_self]

theorem cache_out (m : Machine) (a : Log) (cache : Option LookupCache) :
    utf8 (a.cache m cache).out = utf8 a.out ++ asLines [cacheLine m a cache] := by
  simp only [Log.cache, List.append_assoc]
  rw [utf8_append, ← List.append_assoc (lit "cache "), utf8_append _ (lit "\n")]
  simp [asLines, cacheLine, utf8_encodeText]
  rfl

theorem more_cache (m : Machine) (a : Log) (cache : Option LookupCache) : More a (a.cache m cache) :=
  ⟨[cacheLine m a cache], by intro l hl; rw [List.mem_singleton.1 hl]; exact chatter_cache m a cache, cache_out m a cache⟩

theorem more_lucky (m : Machine) (a : Log) (cid : Cid) (segment : Bytes) :
    More a { a with out := a.out ++ lit "got lucky: found " ++ shown cid ++ lit " for " ++ m.env.str segment ++ lit "\n" } := by
  refine ⟨[lit "got lucky: found " ++ shown cid ++ lit " for " ++ m.env.str segment], ?_, ?_⟩
  · intro l hl
    rw [List.mem_singleton.1 hl]
    refine ⟨?_, .inr ⟨shown cid ++ lit " for " ++ m.env.str segment, by simp [lit]⟩⟩
    have h1 := newline_lit (s := "got lucky: found ") (by decide)
    have h2 := newline_lit (s := " for ") (by decide)
    have h3 := newline_shown cid
    have h4 : '\n' ∉ m.env.str segment := newline_hidden (oneLine_str (env := m.env.toFmtEnv) segment)
    simp only [List.mem_append, not_or]
    exact ⟨⟨⟨h1, h3⟩, h2⟩, h4⟩
  · simp only [List.append_assoc]
    rw [utf8_append]
    congr 1
    simp only [← List.append_assoc]
    rw [utf8_append _ (lit "\n")]
    simp [asLines, utf8_encodeText]
    rfl

theorem loop_log (m : Machine) (get : Cid → Option Bytes) (segment : Bytes) (root : Cid) (w : ShardedLookup) (cache : Option LookupCache) (r)
    (h : resolveLoop get w cache = some r) : ∀ n log, ∃ log', resolveLoopLog m get segment root n log w cache = some (r.1, r.2, log') ∧ More log log' := by
  refine resolveLoop.partial_correctness get
    (fun w cache r => ∀ n log, ∃ log', resolveLoopLog m get segment root n log w cache = some (r.1, r.2, log') ∧ More log log') ?_ w cache r h
  intro rec ih w cache r h n log
  rw [resolveLoopLog.eq_1]
  cases hp : w.pendingLinks with
  | panic p =>
    simp only [hp, Option.some.injEq] at h
    subst h
    exact ⟨log, rfl, .refl log⟩
  | err e =>
    simp only [hp, Option.some.injEq] at h
    subst h
    exact ⟨log, rfl, .refl log⟩
  | ok fr =>
    obtain ⟨first, rest⟩ := fr
    simp only [hp] at h ⊢
    generalize hl : log.eprint _ = log1
    have hm : More log log1 := hl ▸ more_eprint log _
    cases hg : get first with
    | none =>
      simp only [hg, Option.some.injEq] at h ⊢
      subst h
      exact ⟨log1, rfl, hm⟩
    | some buf =>
      simp only [hg] at h ⊢
      generalize w.continueWalk buf cache = cw at h ⊢
      obtain ⟨a, c⟩ := cw
      match a with
      | .panic p =>
        simp only [Option.some.injEq] at h ⊢
        subst h
        exact ⟨log1, rfl, hm⟩
      | .err e =>
        simp only [Option.some.injEq] at h ⊢
        subst h
        exact ⟨log1, rfl, hm⟩
      | .ok .NotFound =>
        simp only [Option.some.injEq] at h ⊢
        subst h
        exact ⟨_, rfl, hm.trans (more_cache ..)⟩
      | .ok (.Found cid) =>
        simp only [Option.some.injEq] at h ⊢
        subst h
        exact ⟨_, rfl, hm.trans (more_eprint ..)⟩
      | .ok (.NeedToLoadMore next) =>
        simp only at h ⊢
        obtain ⟨log', h1, h2⟩ := ih next c r h (n + 1) log1
        exact ⟨log', h1, hm.trans h2⟩

theorem loop_unlog (m : Machine) (get : Cid → Option Bytes) (segment : Bytes) (root : Cid) (n : Nat) (log : Log) (w : ShardedLookup)
    (cache : Option LookupCache) (r) (h : resolveLoopLog m get segment root n log w cache = some r) : resolveLoop get w cache ≠ none := by
  refine resolveLoopLog.partial_correctness m get segment root (fun n log w cache r => resolveLoop get w cache ≠ none) ?_ n log w cache r h
  intro rec ih n log w cache r h
  rw [resolveLoop.eq_1]
  cases hp : w.pendingLinks with
  | panic p => simp
  | err e => simp
  | ok fr =>
    obtain ⟨first, rest⟩ := fr
    simp only [hp] at h ⊢
    cases hg : get first with
    | none => simp
    | some buf =>
      simp only [hg] at h ⊢
      generalize w.continueWalk buf cache = cw at h ⊢
      obtain ⟨a, c⟩ := cw
      match a with
      | .panic p => simp
      | .err e => simp
      | .ok .NotFound => simp
      | .ok (.Found cid) => simp
      | .ok (.NeedToLoadMore next) =>
        simp only at h ⊢
        exact ih _ _ _ _ r h

theorem segments_log (m : Machine) (get : Cid → Option Bytes) : ∀ (segments : List Bytes) (root : Cid) (cache : Option LookupCache) (log : Log),
    match resolveSegments get root cache segments with
    | some r => ∃ log', resolveSegmentsLog m get root cache log segments = some (r, log') ∧ More (log.cache m cache) log'
    | none => resolveSegmentsLog m get root cache log segments = none
  | [], root, cache, log => ⟨_, rfl, .refl _⟩
  | segment :: rest, root, cache, log => by
    rw [resolveSegments, resolveSegmentsLog]
    simp only
    generalize hl : (log.cache m cache).eprint _ = log1
    have hm : More (log.cache m cache) log1 := hl ▸ more_eprint _ _
    cases hg : get root with
    | none => exact ⟨log1, rfl, hm⟩
    | some buf =>
      simp only
      generalize resolve buf segment cache = rs
      obtain ⟨a, c⟩ := rs
      match a with
      | .panic p => exact ⟨log1, rfl, hm⟩
      | .err e => exact ⟨log1, rfl, hm⟩
      | .ok .NotFound => exact ⟨log1, rfl, hm⟩
      | .ok (.Found cid) =>
        simp only
        have hk := more_lucky m log1 cid segment
        generalize ({ log1 with out := log1.out ++ lit "got lucky: found " ++ shown cid ++ lit " for " ++ m.env.str segment ++ lit "\n" } : Log) =
          log2 at hk ⊢
        have ih := segments_log m get rest cid c (log2.cache m c)
        revert ih
        cases resolveSegments get cid c rest with
        | none => exact id
        | some r =>
          rintro ⟨log', h1, h2⟩
          exact ⟨log', h1, ((hm.trans hk).trans (more_cache m log2 c)).trans ((more_cache m _ c).trans h2)⟩
      | .ok (.NeedToLoadMore walker) =>
        simp only
        generalize hl2 : log1.eprint _ = log2
        have hm2 : More (log.cache m cache) log2 := hm.trans (hl2 ▸ more_eprint _ _)
        cases hr : resolveLoop get walker c with
        | none =>
          cases hx : resolveLoopLog m get segment root 1 log2 walker c with
          | none => rfl
          | some x => exact absurd hr (loop_unlog m get segment root 1 log2 walker c x hx)
        | some x =>
          obtain ⟨log3, h1, h2⟩ := loop_log m get segment root walker c x hr 1 log2
          rw [h1]
          obtain ⟨r, c'⟩ := x
          match r with
          | .panic p => exact ⟨log3, rfl, hm2.trans h2⟩
          | .err e => exact ⟨log3, rfl, hm2.trans h2⟩
          | .ok none => exact ⟨log3, rfl, hm2.trans h2⟩
          | .ok (some cid) =>
            simp only
            have ih := segments_log m get rest cid c' log3
            revert ih
            cases resolveSegments get cid c' rest with
            | none => exact id
            | some r =>
              rintro ⟨log', h3, h4⟩
              exact ⟨log', h3, (hm2.trans h2).trans ((more_cache m log3 c').trans h4)⟩

/-! ### files of a repository -/

theorem digit32_letters : ∀ n : Fin 32, digit32 n.val = (asciiOf "ABCDEFGHIJKLMNOPQRSTUVWXYZ234567").getD n.val 0 := by decide +kernel

theorem blocksDir_eq : blocksDir = asciiOf "blocks" := by decide +kernel

theorem dotData_eq : dotData = asciiOf ".data" := by decide +kernel

theorem encodeKey_inBase32 (k : Bytes) : InBase32 "ABCDEFGHIJKLMNOPQRSTUVWXYZ234567" k (encodeKey k) := by
  obtain ⟨ds, p, h1, h2, h3, h4⟩ := encodeBits_digits (k.flatMap bitsOf)
  refine inBase32 h1 h2 h4 ?_
  rw [encodeKey, h3, List.map_congr_left (g := fun d => (asciiOf "ABCDEFGHIJKLMNOPQRSTUVWXYZ234567").getD d 0)
    (fun d hd => digit32_letters ⟨d, h1 d hd⟩)]
  exact written_of h1

theorem two_toBytes (c : Cid) : 2 ≤ c.toBytes.length := by
  have h1 := encVarint_pos c.code
  have h2 := encVarint_pos c.digest.length
  have h3 : 2 ≤ c.hashBytes.length := by
    rw [Cid.hashBytes]; simp only [List.length_append]; omega
  rw [Cid.toBytes]
  cases c.version <;> simp only [List.length_append] <;> omega

/-- Numbers with the same digits. -/
theorem ofDigits_inj {base : Nat} : ∀ {a b : List Nat}, (∀ d ∈ a, d < base) → (∀ d ∈ b, d < base) → a.length = b.length →
    ofDigits base a = ofDigits base b → a = b
  | [], [], _, _, _, _ => rfl
  | [], _ :: _, _, _, h, _ => by simp at h
  | _ :: _, [], _, _, h, _ => by simp at h
  | x :: a, y :: b, ha, hb, hl, h => by
    have hlt : ∀ {l : List Nat}, (∀ d ∈ l, d < base) → ofDigits base l < base ^ l.length := by
      intro l hl
      rw [ofDigits_eq, valueBE_eq]
      have := valueLE_lt base l.reverse (fun d hd => hl d (List.mem_reverse.1 hd))
      simpa using this
    have h1 := hlt (fun d hd => ha d (by simp [hd]) : ∀ d ∈ a, d < base)
    have h2 := hlt (fun d hd => hb d (by simp [hd]) : ∀ d ∈ b, d < base)
    have hl' : a.length = b.length := by simpa using hl
    rw [ofDigits, ofDigits, ← hl'] at h
    rw [← hl'] at h2
    have hpos : 0 < base ^ a.length := Nat.lt_of_le_of_lt (Nat.zero_le _) h1
    have hxy : x = y := by
      have e1 := Nat.div_eq_of_lt h1
      have e2 := Nat.div_eq_of_lt h2
      have : (x * base ^ a.length + ofDigits base a) / base ^ a.length = x := by
        rw [Nat.add_comm, Nat.add_mul_div_right _ _ hpos, e1, Nat.zero_add]
      rw [h, Nat.add_comm, Nat.add_mul_div_right _ _ hpos, e2, Nat.zero_add] at this
      exact this.symm
    subst hxy
    rw [ofDigits_inj (a := a) (b := b) (fun d hd => ha d (by simp [hd])) (fun d hd => hb d (by simp [hd])) hl' (by omega)]

theorem written_unique {letters : String} {ds : List Nat} {t t' : Bytes} (h : Written letters ds t) (h' : Written letters ds t') : t = t' := by
  have := h.2.trans h'.2.symm
  exact List.map_inj_right (fun _ _ => Option.some.inj) |>.1 this

theorem inBase32_unique {letters : String} (hl : (asciiOf letters).length = 32) {k t t' : Bytes} (h : InBase32 letters k t)
    (h' : InBase32 letters k t') : t = t' := by
  obtain ⟨ds, p, h1, h2, h3, h4⟩ := h
  obtain ⟨ds', p', h1', h2', h3', h4'⟩ := h'
  have hp : p = p' := by omega
  subst hp
  have := ofDigits_inj (base := 32) (a := ds) (b := ds') (hl ▸ h1.1) (hl ▸ h1'.1) (by omega) (by rw [h4, h4'])
  subst this
  exact written_unique h1 h1'

theorem three_parts {t : Bytes} (h : 3 ≤ t.length) : ∃ front dir last, dir.length = 2 ∧ last.length = 1 ∧ t = front ++ dir ++ last ∧
    dir = (t.take (t.length - 1)).drop (t.length - 3) := by
  refine ⟨(t.take (t.length - 1)).take (t.length - 3), (t.take (t.length - 1)).drop (t.length - 3), t.drop (t.length - 1), ?_, ?_, ?_, rfl⟩
  · simp only [List.length_drop, List.length_take]; omega
  · simp only [List.length_drop]; omega
  · rw [List.take_append_drop, List.take_append_drop]

/-- Where the examples look for a block. -/
theorem asPath_flatfs (c : Cid) : ∃ p, asPath c.toBytes = .ok p ∧ FlatfsPath c (blocksDir :: p) := by
  have hk := two_toBytes c
  have hlen := encodeKey_length c.toBytes
  have hb := encodeKey_inBase32 c.toBytes
  obtain ⟨front, dir, last, h1, h2, h3, h4⟩ := three_parts (t := encodeKey c.toBytes) (by omega)
  refine ⟨[dir, encodeKey c.toBytes ++ dotData], ?_, front, dir, last, h1, h2, h3 ▸ hb, by rw [blocksDir_eq, dotData_eq, h3]⟩
  unfold asPath
  simp only
  rw [if_neg (by omega), ← h4, if_neg (by omega)]

theorem flatfs_unique {c : Cid} {p q : List Bytes} (h : FlatfsPath c p) (h' : FlatfsPath c q) : p = q := by
  obtain ⟨f, d, l, h1, h2, h3, rfl⟩ := h
  obtain ⟨f', d', l', h1', h2', h3', rfl⟩ := h'
  have he := inBase32_unique (by decide +kernel) h3 h3'
  have e1 := List.append_inj_right' he (by omega)
  have e2 := List.append_inj_left' he (by omega)
  have e3 := List.append_inj_right' e2 (by omega)
  rw [he, e3]

/-- C105. Every Cid has exactly one file, different Cids have different files, and the three programs read this one. -/
theorem C105_files (m : Machine) (root : Bytes) (c : Cid) :
    (∃ p, FlatfsPath c p ∧ (∀ q, FlatfsPath c q → q = p) ∧ m.store root c = m.file root p) ∧
    (∀ c' : Cid, ∀ p, c.Fits → c'.Fits → FlatfsPath c p → FlatfsPath c' p → c = c') := by
  obtain ⟨p, h1, h2⟩ := asPath_flatfs c
  refine ⟨⟨_, h2, fun q hq => flatfs_unique hq h2, by rw [Machine.store, h1]⟩, fun c' q hc hc' hq hq' => ?_⟩
  obtain ⟨p', h1', h2'⟩ := asPath_flatfs c'
  obtain rfl := flatfs_unique hq h2
  have := flatfs_unique hq' h2'
  simp only [List.cons.injEq, true_and] at this
  subst this
  exact C53_injective c c' hc hc' (C75_injective _ _ _ h1 h1')

theorem onDisk_holds {m : Machine} {root : Bytes} {blocks : List (Cid × Bytes)} (h : OnDisk m root blocks) : Holds (m.store root) blocks := by
  intro e he
  obtain ⟨p, h1, h2⟩ := asPath_flatfs e.1
  rw [Machine.store, h1]
  exact h e he _ h2

/-! ### without a result -/

/-- C105. Without an argument a program explains itself on standard error, writes nothing to standard output, and exits with 0. -/
theorem C105_usage (m : Machine) (name : Text) : ∀ prog ∈ [catMain, getMain, resolveMain],
    ∃ p, prog m name none = some p ∧ p.stdout = [] ∧ p.code = 0 ∧ "USAGE: ".toList ++ name <+: p.stderr := by
  intro prog h
  simp only [List.mem_cons, List.not_mem_nil, or_false] at h
  rcases h with rfl | rfl | rfl <;> exact ⟨_, rfl, rfl, rfl, _, rfl⟩

/-- C105. Without a repository a program writes nothing to standard output, something to standard error, and exits with 1. -/
theorem C105_no_repository (m : Machine) (name : Text) (arg : Bytes) (e : Text) (h : m.ipfsPath = .error e) :
    ∀ prog ∈ [catMain, getMain, resolveMain], ∃ p, prog m name (some arg) = some p ∧ p.stdout = [] ∧ p.code = 1 ∧ p.stderr ≠ [] := by
  intro prog hp
  simp only [List.mem_cons, List.not_mem_nil, or_false] at hp
  rcases hp with rfl | rfl | rfl
  · simp only [catMain, Option.map_some]
    cases Cid.ofText m.other arg with
    | error e => exact ⟨_, rfl, rfl, rfl, by simp [lit]⟩
    | ok c => rw [h]; exact ⟨_, rfl, rfl, rfl, by simp [lit, noIpfsPath]⟩
  · simp only [getMain, Option.map_some]
    cases Cid.ofText m.other arg with
    | error e => exact ⟨_, rfl, rfl, rfl, by simp [lit]⟩
    | ok c => rw [h]; exact ⟨_, rfl, rfl, rfl, by simp [lit, noIpfsPath]⟩
  · simp only [resolveMain, Option.map_some]
    cases IpfsPath.tryFrom (fun t => (Cid.ofText m.other t).toOption) arg with
    | error e => exact ⟨_, rfl, rfl, rfl, by simp [lit]⟩
    | ok c => rw [h]; exact ⟨_, rfl, rfl, rfl, by simp [lit, noIpfsPath]⟩

/-- C105. So it does if the argument is no Cid (`cat`, `get`) or no path (`resolve`), whatever the files are. -/
theorem C105_no_cid (m : Machine) (name : Text) (arg : Bytes) :
    ((∀ c, Cid.ofText m.other arg ≠ .ok c) → ∀ prog ∈ [catMain, getMain],
      ∃ p, prog m name (some arg) = some p ∧ p.stdout = [] ∧ p.code = 1 ∧ p.stderr ≠ []) ∧
    ((∀ path, IpfsPath.tryFrom (fun t => (Cid.ofText m.other t).toOption) arg ≠ .ok path) →
      ∃ p, resolveMain m name (some arg) = some p ∧ p.stdout = [] ∧ p.code = 1 ∧ p.stderr ≠ []) := by
  refine ⟨fun h prog hp => ?_, fun h => ?_⟩
  · simp only [List.mem_cons, List.not_mem_nil, or_false] at hp
    rcases hp with rfl | rfl
    · simp only [catMain, Option.map_some]
      cases hc : Cid.ofText m.other arg with
      | error e => exact ⟨_, rfl, rfl, rfl, by simp [lit]⟩
      | ok c => exact absurd hc (h c)
    · simp only [getMain, Option.map_some]
      cases hc : Cid.ofText m.other arg with
      | error e => exact ⟨_, rfl, rfl, rfl, by simp [lit]⟩
      | ok c => exact absurd hc (h c)
  · simp only [resolveMain, Option.map_some]
    cases hc : IpfsPath.tryFrom (fun t => (Cid.ofText m.other t).toOption) arg with
    | error e => exact ⟨_, rfl, rfl, rfl, by simp [lit]⟩
    | ok c => exact absurd hc (h c)

/-! ### `cat` -/

theorem cat_run {m : Machine} {name : Text} {arg : Bytes} {c : Cid} {dir : Bytes} (ha : Cid.ofText m.other arg = .ok c)
    (hd : m.ipfsPath = .ok dir) {r} (h : catWalk (m.store dir) c = some r) : ∃ p, catMain m name (some arg) = some p ∧ p.stdout = r.1.stdout ∧
      (r.2 = .ok () → p.code = 0 ∧ p.stderr = lit "Content bytes: " ++ numText r.1.content_bytes ++ lit "\nTotal bytes:   " ++
        numText r.1.read_bytes ++ lit "\n") ∧
      (∀ e, r.2 = .err e → p.code = 1 ∧ p.stderr ≠ []) ∧ (∀ x, r.2 = .panic x → p.code = 101) := by
  simp only [catMain, Option.map_some, ha, hd, h]
  obtain ⟨s, r⟩ := r
  cases r with
  | ok u => exact ⟨_, rfl, rfl, fun _ => ⟨rfl, rfl⟩, nofun, nofun⟩
  | err e =>
    cases e with
    | OpeningFailed => exact ⟨_, rfl, rfl, nofun, fun _ _ => ⟨rfl, by simp [openHelp, lit]⟩, nofun⟩
    | Traversal e => exact ⟨_, rfl, rfl, nofun, fun _ _ => ⟨rfl, by simp [lit]⟩, nofun⟩
  | panic x => exact ⟨_, rfl, rfl, nofun, nofun, fun _ _ => rfl⟩

/-- The text of a Cid, possibly behind `/ipfs/`. -/
theorem named_by (other : UInt8 → Bytes → Option Bytes) {c : Cid} (hc : c.Fits) {pre : Bytes} (hp : pre = [] ∨ pre = ipfsText) :
    Cid.ofText other (pre ++ c.text) = .ok c := by
  refine ofText_text other c hc pre ?_
  rcases hp with rfl | rfl
  · exact .inl rfl
  · refine .inr ⟨[], rfl, ?_⟩
    rintro ⟨u, v, h⟩
    have := congrArg List.length h
    simp [ipfsText] at this
    omega

/-- C105. `cat` with the text of the Cid of a well-formed file, with or without `/ipfs/` before it: writes the content to standard output and
nothing else, the numbers of bytes of the content and of all blocks which were read to standard error, and exits with 0. -/
theorem C105_cat (m : Machine) (name : Text) (dir : Bytes) (hd : m.ipfsPath = .ok dir) (c : Cid) (hc : c.Fits) (pre : Bytes)
    (hp : pre = [] ∨ pre = ipfsText) (t : FTree) (root : Bytes) (hg : m.store dir c = some root) (h : FileAt (m.store dir) t root) :
    catMain m name (some (pre ++ c.text)) = some ⟨t.content,
      lit "Content bytes: " ++ numText t.content.length ++ lit "\nTotal bytes:   " ++
        numText ((c :: (below (m.store dir) t root 0).map (·.1)).map (sizeOf (m.store dir))).sum ++ lit "\n", 0⟩ := by
  have hw := C71_cat (m.store dir) t c root hg h
  obtain ⟨p, h1, h2, h3, -⟩ := cat_run (name := name) (named_by m.other hc hp) hd hw
  refine h1.trans (congrArg some ?_)
  obtain ⟨o, e, k⟩ := p
  obtain ⟨h4, h5⟩ := h3 rfl
  simp only at h2 h4 h5
  rw [h2, h4, h5]

/-- C105. If blocks of the file are missing, or cannot be opened, `cat` writes a beginning of the content, and exits with 0 only if that is all of it:
the exit code tells whether the output is complete. -/
theorem C105_cat_missing (m : Machine) (name : Text) (dir : Bytes) (hd : m.ipfsPath = .ok dir) (c : Cid) (hc : c.Fits)
    (full : Cid → Option Bytes) (hpart : PartOf (m.store dir) full) (t : FTree) (root : Bytes) (hg : full c = some root) (h : FileAt full t root) :
    ∃ p, catMain m name (some c.text) = some p ∧ p.stdout <+: t.content ∧
      ((p.code = 0 ∧ p.stdout = t.content) ∨ (p.code = 1 ∧ p.stderr ≠ [])) := by
  obtain ⟨s, e, h1, h2, h3, h4⟩ := C71_missing_wellformed _ full hpart t c root hg h
  obtain ⟨p, h5, h6, h7, h8, -⟩ := cat_run (name := name) (C104_roundtrip m.other c hc) hd h1
  refine ⟨p, h5, h6 ▸ h2, ?_⟩
  rcases h4 with rfl | rfl
  · exact .inl ⟨(h7 rfl).1, h6.trans (h3 rfl)⟩
  · exact .inr (h8 _ rfl)

/-- C105. Whatever the blocks are: if `cat` with an argument ends at all, the exit code is 0 exactly if the whole file was visited. -/
theorem C105_cat_code (m : Machine) (name : Text) (arg : Bytes) (p : Process) (h : catMain m name (some arg) = some p) :
    (p.code = 0 ↔ ∃ c dir s, Cid.ofText m.other arg = .ok c ∧ m.ipfsPath = .ok dir ∧ catWalk (m.store dir) c = some (s, .ok ()) ∧
      p.stdout = s.stdout) ∧ (p.code ≠ 0 → p.code = 1 ∨ p.code = 101) := by
  cases hc : Cid.ofText m.other arg with
  | error e =>
    simp only [catMain, Option.map_some, hc, Option.some.injEq] at h
    subst h
    exact ⟨⟨nofun, by rintro ⟨c, dir, s, h, -⟩; cases h⟩, fun _ => .inl rfl⟩
  | ok c =>
    cases hd : m.ipfsPath with
    | error e =>
      simp only [catMain, Option.map_some, hc, hd, Option.some.injEq] at h
      subst h
      exact ⟨⟨nofun, by rintro ⟨c, dir, s, -, h, -⟩; cases h⟩, fun _ => .inl rfl⟩
    | ok dir =>
      cases hw : catWalk (m.store dir) c with
      | none => simp only [catMain, Option.map_some, hc, hd, hw] at h; cases h
      | some r =>
        obtain ⟨q, h1, h2, h3, h4, h5⟩ := cat_run (name := name) hc hd hw
        rw [h] at h1
        cases h1
        obtain ⟨s, r⟩ := r
        cases r with
        | ok u => exact ⟨⟨fun _ => ⟨c, dir, s, rfl, rfl, hw, h2⟩, fun _ => (h3 rfl).1⟩, fun hn => absurd (h3 rfl).1 hn⟩
        | err e =>
          have := (h4 e rfl).1
          refine ⟨⟨fun h0 => by omega, ?_⟩, fun _ => .inl this⟩
          rintro ⟨c', dir', s', hc', hd', hw', -⟩
          cases hc'; cases hd'
          rw [hw] at hw'
          cases hw'
        | panic x =>
          have := h5 x rfl
          refine ⟨⟨fun h0 => by omega, ?_⟩, fun _ => .inr this⟩
          rintro ⟨c', dir', s', hc', hd', hw', -⟩
          cases hc'; cases hd'
          rw [hw] at hw'
          cases hw'

theorem utf8_lit_or : utf8 (lit " or ") = asciiOf " or " := by decide +kernel

/-- C105. `add` reads some input and writes a line which ends with the same text twice. When all blocks are in the repository, `cat` with this
text writes exactly the input. -/
theorem C105_add_cat (sha : Bytes → Bytes) (hsha : ∀ b, (sha b).length = 32) (reads : List Bytes) (hx : (inputOf reads).length < maxContent) :
    ∃ blocks text, Adds sha 262144 174 (inputOf reads) blocks ∧
      (∃ printed n front, addMain sha reads = some (.ok (printed, n)) ∧ utf8 (statsLine printed) = front ++ text ++ asciiOf " or " ++ text ∧
        n = (inputOf reads).length) ∧
      ∀ (m : Machine) (name : Text) (dir : Bytes), m.ipfsPath = .ok dir → OnDisk m dir blocks →
        ∃ p, catMain m name (some text) = some p ∧ p.stdout = inputOf reads ∧ p.code = 0 := by
  obtain ⟨blocks, root, h1, h2, h3⟩ := C74_add_succeeds sha hsha reads hx
  refine ⟨blocks, root.1.text, h1, ⟨_, _, utf8 (numText blocks.length ++ lit " blocks, " ++ numText (blocks.map (·.2.length)).sum ++
    lit " block bytes, "), h3, ?_, rfl⟩, ?_⟩
  · simp only [statsLine]
    rw [utf8_append, utf8_append, utf8_append _ (shown root.1), utf8_shown, utf8_lit_or]
  · intro m name dir hd hon
    have hsmall := C94_below_limit sha hsha 262144 174 (by decide) (by decide) _ _ (.inr h1) (.inl (by decide)) (.inl (by decide))
    obtain ⟨root', h4, h5, -⟩ := C71_add_then_cat sha hsha 262144 174 (by decide) (by decide) _ _ h1 hsmall _ (onDisk_holds hon)
    rw [h2] at h4
    cases h4
    have hf : root.1.Fits := by
      rw [C14_adder_cids sha 262144 174 (by decide) (by decide) _ _ h1 root (List.mem_of_getLast? h2)]
      exact cidOf_fits hsha _
    obtain ⟨p, h6, h7, h8, -⟩ := cat_run (name := name) (C104_roundtrip m.other root.1 hf) hd h5
    exact ⟨p, h6, h7, (h8 rfl).1⟩

/-! ### `resolve` -/

theorem resolve_run {m : Machine} {name : Text} {arg dir : Bytes} {path : IpfsPath}
    (ha : IpfsPath.tryFrom (fun t => (Cid.ofText m.other t).toOption) arg = .ok path) (hd : m.ipfsPath = .ok dir) :
    (resolveWalk (m.store dir) path = none → resolveMain m name (some arg) = none) ∧
    (∀ r, resolveWalk (m.store dir) path = some r → ∃ lines p, lines ≠ [] ∧ (∀ l ∈ lines, Chatter l) ∧
      resolveMain m name (some arg) = some p ∧
      (∀ c, r = .ok (some c) → p.stdout = asLines lines ++ c.text ++ [10] ∧ p.code = 0) ∧
      (r = .ok none → p.stdout = asLines lines ∧ p.code = 0 ∧ "not found\n".toList <:+ p.stderr) ∧
      (∀ e, r = .err e → p.stdout = asLines lines ∧ p.code = 1) ∧
      (∀ x, r = .panic x → p.stdout = asLines lines ∧ p.code = 101)) := by
  have hs := segments_log m (m.store dir) path.path path.root none {}
  unfold resolveWalk
  cases hr : resolveSegments (m.store dir) path.root none path.path with
  | none =>
    rw [hr] at hs
    simp only at hs
    refine ⟨fun _ => ?_, nofun⟩
    simp only [resolveMain, Option.map_some, ha, hd, hs]
  | some r =>
    rw [hr] at hs
    simp only at hs
    refine ⟨nofun, fun r' h' => ?_⟩
    cases h'
    obtain ⟨log, h1, lines, h2, h3⟩ := hs
    rw [cache_out] at h3
    have h4 : utf8 log.out = asLines (cacheLine m {} none :: lines) := by
      rw [h3]
      simp [asLines, utf8]
    have h5 : ∀ l ∈ cacheLine m {} none :: lines, Chatter l := by
      intro l hl
      rcases List.mem_cons.1 hl with rfl | hl
      · exact chatter_cache _ _ _
      · exact h2 l hl
    have h6 : cacheLine m {} none :: lines ≠ [] := by simp
    generalize cacheLine m {} none :: lines = ls at h4 h5 h6
    have nl : utf8 (lit "\n") = [10] := by decide +kernel
    have hm : resolveMain m name (some arg) = resolveMain m name (some arg) := rfl
    conv at hm => rhs; simp only [resolveMain, Option.map_some, ha, hd, h1]
    match r, hm with
    | .ok (some c), hm =>
      refine ⟨ls, _, h6, h5, hm, ?_, nofun, nofun, nofun⟩
      intro c' hc
      cases hc
      exact ⟨by rw [utf8_append, utf8_append, utf8_shown, h4, nl], rfl⟩
    | .ok none, hm => exact ⟨ls, _, h6, h5, hm, nofun, fun _ => ⟨h4, rfl, _, rfl⟩, nofun, nofun⟩
    | .err .OpeningFailed, hm => exact ⟨ls, _, h6, h5, hm, nofun, nofun, fun _ _ => ⟨h4, rfl⟩, nofun⟩
    | .err (.Traversal e), hm => exact ⟨ls, _, h6, h5, hm, nofun, nofun, fun _ _ => ⟨h4, rfl⟩, nofun⟩
    | .panic x, hm => exact ⟨ls, _, h6, h5, hm, nofun, nofun, nofun, fun _ _ => ⟨h4, rfl⟩⟩

/-- C105. `resolve` with a path, whatever the blocks are: it ends like the resolving of the path in the store. Lines on what it is doing go to
standard output, at least one; if a Cid is found, its text is one more line, and the exit code is 0; if nothing is found, the exit code is 0 as
well, and standard error ends with `not found`; an error is exit code 1. -/
theorem C105_resolve (m : Machine) (name : Text) (arg dir : Bytes) (path : IpfsPath)
    (ha : IpfsPath.tryFrom (fun t => (Cid.ofText m.other t).toOption) arg = .ok path) (hd : m.ipfsPath = .ok dir) :
    (resolveWalk (m.store dir) path = none → resolveMain m name (some arg) = none) ∧
    (∀ r, resolveWalk (m.store dir) path = some r → ∃ lines p, lines ≠ [] ∧ (∀ l ∈ lines, Chatter l) ∧
      resolveMain m name (some arg) = some p ∧
      (∀ c, r = .ok (some c) → p.stdout = asLines lines ++ c.text ++ [10] ∧ p.code = 0) ∧
      (r = .ok none → p.stdout = asLines lines ∧ p.code = 0 ∧ "not found\n".toList <:+ p.stderr) ∧
      (∀ e, r = .err e → p.stdout = asLines lines ∧ p.code = 1) ∧
      (∀ x, r = .panic x → p.stdout = asLines lines ∧ p.code = 101)) := resolve_run ha hd

theorem asLines_end : ∀ (lines : List Text), asLines lines = [] ∨ [10] <:+ asLines lines
  | [] => .inl rfl
  | l :: ls => by
    have hnl : asciiOf "\n" = [10] := by decide
    rcases asLines_end ls with h | ⟨u, h⟩
    · refine .inr ⟨encodeText l, ?_⟩
      show _ = (encodeText l ++ asciiOf "\n") ++ asLines ls
      rw [h, hnl, List.append_nil]
    · refine .inr ⟨encodeText l ++ asciiOf "\n" ++ u, ?_⟩
      show _ = (encodeText l ++ asciiOf "\n") ++ asLines ls
      rw [← h, List.append_assoc]

theorem ends_at {a b x y : Bytes} (ha : a = [] ∨ [10] <:+ a) (hy : (10 : UInt8) ∉ y) (hl : x.length ≤ y.length)
    (h : a ++ x = b ++ y) : x = y := by
  have h' : a = b ++ y.take (y.length - x.length) ∧ x = y.drop (y.length - x.length) := by
    have : a ++ x = (b ++ y.take (y.length - x.length)) ++ y.drop (y.length - x.length) := by
      rw [List.append_assoc, List.take_append_drop, h]
    exact List.append_inj' this (by rw [List.length_drop]; omega)
  obtain ⟨h1, h2⟩ := h'
  rcases ha with h0 | ⟨u, hu⟩
  · rw [h0] at h1
    have hlen := congrArg List.length h1
    simp only [List.length_nil, List.length_append, List.length_take] at hlen
    rw [show y.length - x.length = 0 by omega] at h2
    simpa using h2
  · by_cases hz : y.length - x.length = 0
    · rw [hz] at h2
      simpa using h2
    · exfalso
      apply hy
      have hne : y.take (y.length - x.length) ≠ [] := by
        intro h0
        have := congrArg List.length h0
        simp at this
        omega
      have h3 : (b ++ y.take (y.length - x.length)).getLast? = some 10 := by rw [← h1, ← hu]; simp
      rw [List.getLast?_append, List.getLast?_eq_getLast hne, Option.some_or, ← List.getLast?_eq_getLast hne] at h3
      exact (List.take_subset _ _) (List.mem_of_getLast? h3)

/-- There is only one last line. -/
theorem lastLine_unique {out x y : Bytes} (h : LastLine out x) (h' : LastLine out y) : x = y := by
  obtain ⟨h1, a, h2, h3⟩ := h
  obtain ⟨h1', b, h2', h3'⟩ := h'
  have he : a ++ x = b ++ y := List.append_cancel_right (h3.symm.trans h3')
  rcases Nat.le_total x.length y.length with hl | hl
  · exact ends_at h2 h1' hl he
  · exact (ends_at h2' h1 hl he.symm).symm

theorem newline_bytes {t : Text} (h : '\n' ∉ t) : (10 : UInt8) ∉ encodeText t := by
  intro hm
  obtain ⟨c, hc, hx⟩ := List.mem_flatMap.1 hm
  apply h
  have hn : ∀ n, (10 : UInt8) = UInt8.ofNat n → n % 256 = 10 := fun n e => by
    have := congrArg UInt8.toNat e
    simpa using this.symm
  have : c.val.toNat = 10 := by
    by_cases h1 : c.val.toNat ≤ 0x7f
    · rw [encode_le1 c h1, List.mem_singleton] at hx
      have := hn _ hx
      omega
    exfalso
    by_cases h2 : c.val.toNat ≤ 0x7ff
    · rw [encode_le2 c (by omega) h2] at hx
      simp only [List.mem_cons, List.not_mem_nil, or_false] at hx
      rcases hx with hx | hx <;> (have := hn _ hx; omega)
    by_cases h3 : c.val.toNat ≤ 0xffff
    · rw [encode_le3 c (by omega) h3] at hx
      simp only [List.mem_cons, List.not_mem_nil, or_false] at hx
      rcases hx with hx | hx | hx <;> (have := hn _ hx; omega)
    · rw [encode_le4 c (by omega)] at hx
      simp only [List.mem_cons, List.not_mem_nil, or_false] at hx
      rcases hx with hx | hx | hx | hx <;> (have := hn _ hx; omega)
  rw [show '\n' = c from Char.ext (UInt32.toNat_inj.1 this.symm)]
  exact hc

theorem asLines_append (a b : List Text) : asLines (a ++ b) = asLines a ++ asLines b := by simp [asLines]

/-- The last of some lines. -/
theorem lastLine_asLines {lines : List Text} (hne : lines ≠ []) (h : ∀ l ∈ lines, Chatter l) :
    ∃ l, Chatter l ∧ LastLine (asLines lines) (encodeText l) := by
  refine ⟨lines.getLast hne, h _ (List.getLast_mem hne), newline_bytes (h _ (List.getLast_mem hne)).1, asLines lines.dropLast, asLines_end _, ?_⟩
  conv => lhs; rw [← List.dropLast_concat_getLast hne, asLines_append]
  simp [asLines, asciiOf]

theorem newline_text (c : Cid) : (10 : UInt8) ∉ c.text := fun h => absurd (text_alnum c _ h) (by decide)

/-- A line on what `resolve` is doing is no text of a Cid: there is a space in it. -/
theorem chatter_text {l : Text} (h : Chatter l) (c : Cid) : encodeText l ≠ c.text := by
  intro he
  have hs : (0x20 : UInt8) ∈ encodeText l := by
    have : ' ' ∈ l := by
      rcases h.2 with h | h <;> exact h.subset (by decide)
    exact List.mem_flatMap.2 ⟨' ', this, by decide⟩
  rw [he] at hs
  exact absurd (text_alnum c _ hs) (by decide)

/-- C105. The last line on standard output tells what was found: if it is the text of a Cid, this is what the path leads to, and the other way
around. -/
theorem C105_last_line (m : Machine) (name : Text) (arg dir : Bytes) (path : IpfsPath)
    (ha : IpfsPath.tryFrom (fun t => (Cid.ofText m.other t).toOption) arg = .ok path) (hd : m.ipfsPath = .ok dir) (p : Process)
    (hp : resolveMain m name (some arg) = some p) (text : Bytes) :
    (∃ c : Cid, c.text = text ∧ LastLine p.stdout text) ↔ ∃ c : Cid, c.text = text ∧ resolveWalk (m.store dir) path = some (.ok (some c)) := by
  obtain ⟨h1, h2⟩ := resolve_run (name := name) ha hd
  cases hr : resolveWalk (m.store dir) path with
  | none => rw [h1 hr] at hp; cases hp
  | some r =>
    obtain ⟨lines, q, h3, h4, h5, h6, h7, h8, h9⟩ := h2 r hr
    rw [hp] at h5
    cases h5
    have hno : p.stdout = asLines lines → (∃ c : Cid, c.text = text ∧ LastLine p.stdout text) → False := by
      rintro h ⟨c, rfl, hl⟩
      obtain ⟨l, hc, hl'⟩ := lastLine_asLines h3 h4
      rw [h] at hl
      exact chatter_text hc c (lastLine_unique hl' hl)
    match r with
    | .ok (some c) =>
      have hl : LastLine p.stdout c.text := ⟨newline_text c, _, asLines_end lines, (h6 c rfl).1⟩
      constructor
      · rintro ⟨c', rfl, hl'⟩
        exact ⟨c, lastLine_unique hl hl', rfl⟩
      · rintro ⟨c', rfl, h⟩
        cases h
        exact ⟨c, rfl, hl⟩
    | .ok none => exact ⟨fun h => (hno (h7 rfl).1 h).elim, by rintro ⟨c, -, h⟩; cases h⟩
    | .err e => exact ⟨fun h => (hno (h8 e rfl).1 h).elim, by rintro ⟨c, -, h⟩; cases h⟩
    | .panic x => exact ⟨fun h => (hno (h9 x rfl).1 h).elim, by rintro ⟨c, -, h⟩; cases h⟩

/-- C105. Standard output is never the Cid alone, although the program's explanation says that the Cid is written there: the first line is
another one. -/
theorem C105_never_alone (m : Machine) (name : Text) (arg : Option Bytes) (p : Process) (hp : resolveMain m name arg = some p) (c : Cid) :
    p.stdout ≠ c.text ++ [10] := by
  intro he
  cases arg with
  | none =>
    obtain ⟨q, h1, h2, -⟩ := C105_usage m name resolveMain (by simp)
    rw [hp] at h1
    cases h1
    rw [h2] at he
    simp at he
  | some arg =>
    cases ha : IpfsPath.tryFrom (fun t => (Cid.ofText m.other t).toOption) arg with
    | error e =>
      obtain ⟨q, h1, h2, -⟩ := (C105_no_cid m name arg).2 (by rw [ha]; nofun)
      rw [hp] at h1
      cases h1
      rw [h2] at he
      simp at he
    | ok path =>
      cases hd : m.ipfsPath with
      | error e =>
        obtain ⟨q, h1, h2, -⟩ := C105_no_repository m name arg e hd resolveMain (by simp)
        rw [hp] at h1
        cases h1
        rw [h2] at he
        simp at he
      | ok dir =>
        obtain ⟨h1, h2⟩ := resolve_run (name := name) ha hd
        cases hr : resolveWalk (m.store dir) path with
        | none => rw [h1 hr] at hp; cases hp
        | some r =>
          obtain ⟨lines, q, h3, h4, h5, h6, h7, h8, h9⟩ := h2 r hr
          rw [hp] at h5
          cases h5
          obtain ⟨more, hm⟩ : ∃ more, p.stdout = asLines lines ++ more := by
            match r with
            | .ok (some c) => exact ⟨_, (h6 c rfl).1.trans (List.append_assoc ..)⟩
            | .ok none => exact ⟨[], by rw [(h7 rfl).1, List.append_nil]⟩
            | .err e => exact ⟨[], by rw [(h8 e rfl).1, List.append_nil]⟩
            | .panic x => exact ⟨[], by rw [(h9 x rfl).1, List.append_nil]⟩
          rw [hm] at he
          cases lines with
          | nil => exact h3 rfl
          | cons l ls =>
            have hs : (0x20 : UInt8) ∈ encodeText l := by
              have : ' ' ∈ l := by
                rcases (h4 l (by simp)).2 with h | h <;> exact h.subset (by decide)
              exact List.mem_flatMap.2 ⟨' ', this, by decide⟩
            have hs' : (0x20 : UInt8) ∈ c.text ++ [10] := by
              rw [← he]
              simp only [asLines, List.flatMap_cons, List.mem_append]
              exact .inl (.inl (.inl hs))
            rcases List.mem_append.1 hs' with h | h
            · exact absurd (text_alnum c _ h) (by decide)
            · exact absurd h (by decide)

/-- C105. A Cid alone is resolved to itself, whether there is such a block or not: two lines are written. -/
theorem C105_resolve_root (m : Machine) (name : Text) (dir : Bytes) (hd : m.ipfsPath = .ok dir) (c : Cid) (hc : c.Fits) :
    resolveMain m name (some (ipfsText ++ c.text)) = some ⟨asciiOf "cache None\n" ++ c.text ++ asciiOf "\n", [], 0⟩ := by
  have ha := (C104_path m.other c hc [] nofun).1
  simp only [List.flatMap_nil, List.append_nil] at ha
  simp only [resolveMain, Option.map_some, ha, hd, resolveSegmentsLog]
  refine congrArg some ?_
  congr 1
  rw [utf8_append, utf8_append, utf8_shown]
  congr 1

/-! ### `get` -/

theorem get_run {m : Machine} {name : Text} {arg : Bytes} {c : Cid} {dir : Bytes} (ha : Cid.ofText m.other arg = .ok c)
    (hd : m.ipfsPath = .ok dir) {r} (h : getWalk (m.store dir) c = some r) : ∃ p, getMain m name (some arg) = some p ∧
      p.stdout = utf8 (output m.env.toFmtEnv r.1) ∧ (r.2 = .ok () → p.code = 0 ∧ p.stderr = []) ∧
      (∀ e, r.2 = .err e → p.code = 1 ∧ p.stderr ≠ []) ∧ (∀ x, r.2 = .panic x → p.code = 101) := by
  simp only [getMain, Option.map_some, ha, hd, h]
  obtain ⟨s, r⟩ := r
  cases r with
  | ok u => exact ⟨_, rfl, rfl, fun _ => ⟨rfl, rfl⟩, nofun, nofun⟩
  | err e =>
    cases e with
    | OpeningFailed => exact ⟨_, rfl, rfl, nofun, fun _ _ => ⟨rfl, by simp [openHelp, lit]⟩, nofun⟩
    | Walk e => exact ⟨_, rfl, rfl, nofun, fun _ _ => ⟨rfl, by simp [lit]⟩, nofun⟩
  | panic x => exact ⟨_, rfl, rfl, nofun, nofun, fun _ _ => rfl⟩

/-- C105. `get`, whatever the blocks are: the listing of what was visited, and the exit code 0 exactly if everything was. -/
theorem C105_get (m : Machine) (name : Text) (dir : Bytes) (hd : m.ipfsPath = .ok dir) (c : Cid) (hc : c.Fits) (pre : Bytes)
    (hp : pre = [] ∨ pre = ipfsText) (lines : List Line) (r : Res GetError Unit) (h : getWalk (m.store dir) c = some (lines, r)) :
    ∃ p, getMain m name (some (pre ++ c.text)) = some p ∧ p.stdout = utf8 (output m.env.toFmtEnv lines) ∧
      (p.code = 0 ↔ r = .ok ()) ∧ (p.code = 0 → p.stderr = []) ∧ (p.code = 1 ↔ ∃ e, r = .err e) ∧ (p.code = 101 ↔ ∃ x, r = .panic x) := by
  obtain ⟨p, h1, h2, h3, h4, h5⟩ := get_run (name := name) (named_by m.other hc hp) hd h
  refine ⟨p, h1, h2, ?_⟩
  cases r with
  | ok u =>
    have := h3 rfl
    exact ⟨⟨fun _ => rfl, fun _ => this.1⟩, fun _ => this.2, ⟨fun h => by omega, nofun⟩, ⟨fun h => by omega, nofun⟩⟩
  | err e =>
    have := (h4 e rfl).1
    exact ⟨⟨fun h => by omega, nofun⟩, fun h => by omega, ⟨fun _ => ⟨e, rfl⟩, fun _ => this⟩, ⟨fun h => by omega, nofun⟩⟩
  | panic x =>
    have := h5 x rfl
    exact ⟨⟨fun h => by omega, nofun⟩, fun h => by omega, ⟨fun h => by omega, nofun⟩, ⟨fun _ => ⟨x, rfl⟩, fun _ => this⟩⟩

/-! ### all together -/

/-- The Cid of an added file has a text with which `cat` writes the content. -/
theorem cat_added {sha : Bytes → Bytes} (hsha : ∀ b, (sha b).length = 32) {m : Machine} {name : Text} {dir : Bytes} (hd : m.ipfsPath = .ok dir)
    {c : Cid} {x : Bytes} (h : AddedAs sha (m.store dir) c x) : ∃ p, catMain m name (some c.text) = some p ∧ p.stdout = x ∧ p.code = 0 := by
  obtain ⟨chunk, bf, blocks, root, h1, h2, h3, h4, h5, h6, rfl⟩ := h
  obtain ⟨root', h7, h8, -⟩ := C71_add_then_cat sha hsha chunk bf h1 h2 _ _ h4 h3 _ h5
  rw [h6] at h7
  cases h7
  have hf : root.1.Fits := by
    rw [C14_adder_cids sha chunk bf h1 h2 _ _ h4 root (List.mem_of_getLast? h6)]
    exact cidOf_fits hsha _
  obtain ⟨p, h9, h10, h11, -⟩ := cat_run (name := name) (C104_roundtrip m.other root.1 hf) hd h8
  exact ⟨p, h9, h10, (h11 rfl).1⟩

/-- C105. A client adds any files, puts the Cids of their last blocks under any paths which can be walked, builds with wrapping, and writes all
blocks to the files of a repository. `resolve` with `/ipfs/`, the root directory's Cid as text and the path of a file writes the text of the file's
Cid as its last line, and `cat` with this line writes the content of the file. For a path at which there is nothing, `resolve` says so on standard
error, and its last line is no Cid. `get` with the root directory's Cid as text lists exactly the files and the directories. -/
theorem C105_built (sha : Bytes → Bytes) (hsha : ∀ b, (sha b).length = 32) (opts : TreeOptions)
    (hw : opts.wrap_with_directory = true) (ops : List Op) (hops : ∀ op ∈ ops, op.Ok)
    (hpaths : ∀ op ∈ successes (.new opts) ops, Walkable op)
    (hfit : SizesFit sha (runOps (.new opts) ops).2) (nodes : List TreeNode) (it : PostOrderIterator)
    (hbuild : drainAll sha (runOps (.new opts) ops).2.build = some (nodes, .finished, it))
    (root : TreeNode) (hroot : nodes.getLast? = some root)
    (m : Machine) (name : Text) (dir : Bytes) (hd : m.ipfsPath = .ok dir)
    (hdisk : OnDisk m dir (nodes.map (fun x => (x.cid, x.block))))
    (content : Cid → Bytes) (hadd : ∀ p c s, Op.putLink p c s ∈ successes (.new opts) ops → AddedAs sha (m.store dir) c (content c)) :
    (∀ p cs, PathOf p cs → p ≠ [] →
      (∀ c s, Op.putLink p c s ∈ successes (.new opts) ops →
        (∃ q, resolveMain m name (some (ipfsText ++ (root.cid.text ++ slash :: p))) = some q ∧ q.code = 0 ∧ LastLine q.stdout c.text) ∧
        (∃ q, catMain m name (some c.text) = some q ∧ q.stdout = content c ∧ q.code = 0)) ∧
      ((∀ op ∈ successes (.new opts) ops, ∀ ds, PathOf op.path ds → ¬ cs <+: ds ∧ (ds <+: cs → op.thing = .dir)) →
        ∃ q, resolveMain m name (some (ipfsText ++ (root.cid.text ++ slash :: p))) = some q ∧ q.code = 0 ∧
          "not found\n".toList <:+ q.stderr ∧ ∀ c : Cid, ¬ LastLine q.stdout c.text)) ∧
    ∃ lines q, getMain m name (some root.cid.text) = some q ∧ q.code = 0 ∧ q.stderr = [] ∧ q.stdout = utf8 (output m.env.toFmtEnv lines) ∧
      ∀ l, l ∈ lines ↔
        (∃ p c s cs, Op.putLink p c s ∈ successes (.new opts) ops ∧ PathOf p cs ∧ l = .f 0o644 0 (content c).length ⟨false, cs⟩) ∨
        (∃ cs, l = .d 0o755 0 ⟨false, cs⟩ ∧ (cs = [] ∨
          ∃ op ∈ successes (.new opts) ops, ∃ ds, PathOf op.path ds ∧ cs <+: ds ∧ (cs ≠ ds ∨ op.thing = .dir))) := by
  have hget : ∀ x ∈ nodes, m.store dir x.cid = some x.block := fun x hx => onDisk_holds hdisk _ (List.mem_map.2 ⟨x, hx, rfl⟩)
  have hf : root.cid.Fits := by
    have hb : Obtainable (runOps (.new opts) ops).2 := ⟨opts, ops, hops, rfl⟩
    have hn := drained_nodes hsha hb hfit hbuild
    have hr : root = nodeOf sha [] (contents (runOps (.new opts) ops).2) := by
      rw [opts_run (opts := opts) hops, hw] at hn
      exact root_node (hn ▸ hroot)
    rw [hr]
    exact cidOf_fits hsha _
  refine ⟨fun p cs hp hne => ?_, ?_⟩
  · obtain ⟨h1, h2⟩ := C79_text sha hsha opts hw ops hops hfit nodes it hbuild (m.store dir) hget root hroot
      (fun t => (Cid.ofText m.other t).toOption) root.cid.text (text_no_slash hf) (by rw [C104_roundtrip m.other root.cid hf]; rfl) p cs hp hne
    refine ⟨fun c s hput => ⟨?_, cat_added hsha hd (hadd p c s hput)⟩, fun hno => ?_⟩
    · obtain ⟨path, h3, h4⟩ := h1 c s hput
      obtain ⟨lines, q, -, -, h5, h6, -⟩ := (resolve_run (name := name) h3 hd).2 _ h4
      exact ⟨q, h5, (h6 c rfl).2, newline_text c, _, asLines_end lines, (h6 c rfl).1⟩
    · obtain ⟨path, h3, h4⟩ := h2 hno
      obtain ⟨lines, q, h5, h6, h7, -, h8, -⟩ := (resolve_run (name := name) h3 hd).2 _ h4
      refine ⟨q, h7, (h8 rfl).2.1, (h8 rfl).2.2, fun c hl => ?_⟩
      obtain ⟨c', -, h'⟩ := (C105_last_line m name _ dir path h3 hd q h7 c.text).1 ⟨c, rfl, hl⟩
      rw [h4] at h'
      cases h'
  · obtain ⟨out, h1, -, h2⟩ := C80_get_added sha hsha opts hw ops hops hpaths hfit nodes it hbuild (m.store dir) hget content hadd root hroot
    obtain ⟨q, h3, h4, h5, -⟩ := get_run (name := name) (C104_roundtrip m.other root.cid hf) hd h1
    exact ⟨out, q, h3, (h5 rfl).1, (h5 rfl).2, h4, h2⟩

/-! ### a case -/

/-- Files which hold these blocks. -/
def sampleDisk (blocks : List (Cid × Bytes)) (p : List Bytes) : Option Bytes :=
  match p with
  | b :: q => if b = blocksDir then (blocks.find? (fun e => decide (asPath e.1.toBytes = .ok q))).map (·.2) else none
  | [] => none

/-- A machine with a repository of the sample's blocks. -/
def sampleMachine : Machine where
  env := ⟨⟨fun _ => true, false, fun _ => [], fun _ => [], fun _ => [], shown⟩, fun _ => [], shown⟩
  cidError := fun _ => []
  openError := []
  panicText := fun _ => []
  other := fun _ _ => none
  ipfsPath := .ok [114]
  file := fun root p => if root = [114] then
    sampleDisk (fileBlocks ++ (allNodes toySha true (contents fileBuilder)).map (fun n => (n.cid, n.block))) p else none
  capacity := fun _ => 4

theorem holds_onDisk {m : Machine} {root : Bytes} {blocks : List (Cid × Bytes)} (h : Holds (m.store root) blocks) : OnDisk m root blocks := by
  intro e he p hp
  obtain ⟨q, h1, h2⟩ := asPath_flatfs e.1
  have := h e he
  rw [Machine.store, h1] at this
  rw [flatfs_unique hp h2]
  exact this

theorem sample_disk : Holds (sampleMachine.store [114]) (fileBlocks ++ (allNodes toySha true (contents fileBuilder)).map (fun n => (n.cid, n.block))) := by
  have : ∀ e ∈ fileBlocks ++ (allNodes toySha true (contents fileBuilder)).map (fun n => (n.cid, n.block)),
    sampleMachine.store [114] e.1 = some e.2 := by decide +kernel
  exact this

/-- All hypotheses of `C105_built` are met by the sample, a file of three bytes at `a/b` beside an empty directory `c`: `resolve` with the path of
the file has its Cid as last line, and finds nothing at `d`; `cat` of the Cid writes the three bytes; and the listing of `get` has the file's line. -/
theorem C105_example : ∃ root : Cid,
    (∃ q, resolveMain sampleMachine [] (some (ipfsText ++ (root.text ++ slash :: [97, 47, 98]))) = some q ∧ q.code = 0 ∧ LastLine q.stdout fileCid.text) ∧
    (∃ q, resolveMain sampleMachine [] (some (ipfsText ++ (root.text ++ slash :: [100]))) = some q ∧ q.code = 0 ∧
      "not found\n".toList <:+ q.stderr ∧ ∀ c : Cid, ¬ LastLine q.stdout c.text) ∧
    (∃ q, catMain sampleMachine [] (some fileCid.text) = some q ∧ q.stdout = [1, 2, 3] ∧ q.code = 0) ∧
    (∃ lines q, getMain sampleMachine [] (some root.text) = some q ∧ q.code = 0 ∧ q.stdout = utf8 (output sampleMachine.env.toFmtEnv lines) ∧
      Line.f 0o644 0 3 ⟨false, [[97], [98]]⟩ ∈ lines) := by
  obtain ⟨it, root, k⟩ := fileCase
  have hfiles : ∀ p c s, Op.putLink p c s ∈ successes (.new wrapping) fileOps → AddedAs toySha (sampleMachine.store [114]) c [1, 2, 3] := by
    intro p c s h
    rw [k.succ] at h
    simp only [fileOps, List.mem_cons, List.not_mem_nil, or_false] at h
    rcases h with h | h
    · cases h
      exact ⟨2, 2, fileBlocks, _, by decide, by decide, by unfold BelowLimit; decide +kernel,
        adds_exists toySha_length (by decide) (by decide) _ (by decide), fun e he => sample_disk e (List.mem_append_left _ he),
        (by rfl : fileBlocks.getLast? = some (fileBlocks.getLast (by decide +kernel))), by decide +kernel⟩
    · cases h
  obtain ⟨h1, lines, q, h2, h3, -, h4, h5⟩ := C105_built toySha toySha_length wrapping rfl fileOps k.ops k.walkable k.fit _ it k.build root k.root
    sampleMachine [] [114] rfl (holds_onDisk fun e he => sample_disk e (List.mem_append_right _ he)) (fun _ => [1, 2, 3]) hfiles
  have hput : Op.putLink [97, 47, 98] fileCid 100 ∈ successes (.new wrapping) fileOps := by rw [k.succ]; exact List.mem_cons_self ..
  refine ⟨root.cid, ((h1 _ _ path_ab (by decide)).1 _ _ hput).1, ?_, ((h1 _ _ path_ab (by decide)).1 _ _ hput).2, lines, q, h2, h3, h4,
    (h5 _).2 (.inl ⟨_, _, _, _, hput, path_ab, rfl⟩)⟩
  refine (h1 [100] [[100]] (by refine ⟨?_, by decide, by decide⟩ <;> decide) (by decide)).2 fun op hop ds hds => ?_
  rw [k.succ] at hop
  simp only [fileOps, List.mem_cons, List.not_mem_nil, or_false] at hop
  rcases hop with rfl | rfl
  · rw [← pathOf_unique hds]; exact ⟨by decide, fun h => absurd h (by decide)⟩
  · rw [← pathOf_unique hds]; exact ⟨by decide, fun h => absurd h (by decide)⟩

end Verif.Props
