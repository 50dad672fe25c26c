import Verif.AddProcess
import Verif.Spec.AddProcess
import Verif.Props.AddExample
import Verif.Props.Debugging
import Verif.Props.IoFailResolve
/-
The example program `add` as a whole process, when reading and writing may fail: C137.
-/
namespace Verif.Props
open Verif Verif.Spec Verif.Examples

theorem addReads_eq {sha : Bytes → Bytes} (hsha : ∀ b, (sha b).length = 32) : ∀ (reads : List (Option Bytes)) (y : Bytes)
    (bs : List (Cid × Bytes)) (a : FileAdder), Reaches sha 262144 174 y bs a →
      (inputRead reads = none → addReads sha ⟨a, statsOf bs, y.length⟩ reads = some (.ok none)) ∧
      ∀ x, inputRead reads = some x → ∃ bs' a', Reaches sha 262144 174 (y ++ x) bs' a' ∧
        addReads sha ⟨a, statsOf bs, y.length⟩ reads = some (.ok (some ⟨a', statsOf bs', (y ++ x).length⟩))
  | [], y, bs, a, h => by
    refine ⟨nofun, fun x hx => ?_⟩
    cases hx
    exact ⟨bs, a, by rw [List.append_nil]; exact h, by rw [List.append_nil]; rfl⟩
  | none :: _, y, bs, a, h => ⟨fun _ => rfl, nofun⟩
  | some [] :: _, y, bs, a, h => by
    refine ⟨nofun, fun x hx => ?_⟩
    cases hx
    exact ⟨bs, a, by rw [List.append_nil]; exact h, by rw [List.append_nil]; rfl⟩
  | some (b :: z) :: rest, y, bs, a, h => by
    obtain ⟨bs1, a1, h1, h2⟩ := addBuffer_ok hsha _ (b :: z) (Nat.le_refl _) y bs a h
    obtain ⟨g1, g2⟩ := addReads_eq hsha rest _ _ _ h1
    simp only [inputRead, addReads, h2, reduceCtorEq, if_false]
    refine ⟨fun hn => g1 (Option.map_eq_none_iff.1 hn), fun x hx => ?_⟩
    obtain ⟨x', h3, rfl⟩ := Option.map_eq_some_iff.1 hx
    obtain ⟨bs2, a2, h4, h5⟩ := g2 x' h3
    rw [List.append_assoc] at h4 h5
    exact ⟨bs2, a2, h4, h5⟩

/-- Standard error takes text, or a beginning of it. -/
theorem says_err {ls : List Say} {s s' : Streams} {b} (h : Says ls s b s') (hl : ∀ t, Say.out t ∉ ls) : ∀ text : Bytes,
    utf8 ((Log.says {} ls).err) = text → (b = true → s'.err = s.err ++ text) ∧ ∃ part, part <+: text ∧ s'.err = s.err ++ part := by
  have key : ∀ (ls : List Say) (log : Log), (log.says ls).err = log.err ++ (Log.says {} ls).err := by
    intro ls
    induction ls with
    | nil => intro log; simp [Log.says]
    | cons x ls ih =>
      intro log
      show ((log.say x).says ls).err = log.err ++ ((Log.say {} x).says ls).err
      rw [ih, ih (Log.say {} x)]
      cases x <;> simp [Log.say]
  induction h with
  | none s => rintro text rfl; exact ⟨fun _ => by simp [Log.says, utf8], [], List.nil_prefix, by simp⟩
  | outFail _ => exact absurd List.mem_cons_self (hl _)
  | out _ _ => exact absurd List.mem_cons_self (hl _)
  | @errFail t ls s part hp =>
    rintro text rfl
    refine ⟨nofun, part, ?_, rfl⟩
    show part <+: utf8 ((Log.say {} (.err t)).says ls).err
    rw [key, utf8_append]
    simp only [Log.say, List.nil_append]
    exact hp.trans (List.prefix_append _ _)
  | @err t ls s b s' _ ih =>
    rintro text rfl
    obtain ⟨h1, part, h2, h3⟩ := ih (fun t ht => hl t (List.mem_cons_of_mem _ ht)) _ rfl
    have hk : utf8 ((Log.says {} (.err t :: ls)).err) = utf8 t ++ utf8 ((Log.says {} ls).err) := by
      show utf8 ((Log.say {} (.err t)).says ls).err = _
      rw [key, utf8_append]
      simp only [Log.say, List.nil_append]
    rw [hk]
    refine ⟨fun hb => by rw [h1 hb, List.append_assoc], utf8 t ++ part, ?_, by rw [h3, List.append_assoc]⟩
    obtain ⟨r, hr⟩ := h2
    exact ⟨r, by rw [List.append_assoc, hr]⟩

/-- What `add` says of `x` before it finishes. -/
def beforeText (capacity : Nat) (x : Bytes) : Text :=
  lit "finishing\n" ++ lit (adderText 262144 (x.length % 262144) capacity (pendingGroups 174 (x.length / 262144)) (pendingLeaves 174 (x.length / 262144))) ++
    lit "\n"

/-- What it says of the blocks. -/
def blocksText (blocks : List (Cid × Bytes)) (root : Cid) : Text :=
  numText blocks.length ++ lit " blocks, " ++ numText (blocks.map (·.2.length)).sum ++ lit " block bytes, " ++ decodeText root.text ++ lit " or " ++
    decodeText root.text ++ lit "\n"

theorem leaves_small (n : Nat) : pendingLeaves 174 n < 2 ^ 31 := by
  unfold pendingLeaves pendingGroups
  omega

theorem only_err {ls : List Say} (h : ls.all (fun s => match s with | .out _ => false | .err _ => true) = true) : ∀ t, Say.out t ∉ ls := by
  intro t ht
  exact absurd (List.all_eq_true.1 h _ ht) nofun

/-- If a read fails before the end of the input, `add` ends with that: nothing is said but the message of the panic. -/
theorem C137_read (sha : Bytes → Bytes) (hsha : ∀ b, (sha b).length = 32) (capacity : Nat) (tail : Text) (reads : List (Option Bytes))
    (h : inputRead reads = none) : (∀ err e, AddRun sha capacity tail reads err e → e = .read ∧ err = []) ∧ AddRun sha capacity tail reads [] .read := by
  have hr := (addReads_eq hsha reads [] [] _ .start).1 h
  have hr : addReads sha ⟨FileAdder.default, {}, 0⟩ reads = some (.ok none) := hr
  refine ⟨fun err e hrun => ?_, .read hr⟩
  cases hrun with
  | read _ => exact ⟨rfl, rfl⟩
  | pushing h => rw [hr] at h; cases h
  | finishing h _ => rw [hr] at h; cases h
  | debug _ h _ _ => rw [hr] at h; cases h
  | debugging h _ _ => rw [hr] at h; cases h
  | finish h _ _ _ => rw [hr] at h; cases h
  | last h _ _ _ _ => rw [hr] at h; cases h
  | stats h _ _ _ _ => rw [hr] at h; cases h

/-- If so many chunks were read that the counter of `FileAdder`'s `Debug` overflows, `add` panics at saying so: it never finishes. -/
theorem C137_debug (sha : Bytes → Bytes) (hsha : ∀ b, (sha b).length = 32) (capacity : Nat) (tail : Text) (reads : List (Option Bytes)) (x : Bytes)
    (h : inputRead reads = some x) (hx : 2 ^ 31 ≤ pendingGroups 174 (x.length / 262144)) (err : Bytes) (e : AddEnd)
    (hrun : AddRun sha capacity tail reads err e) : e = .panic .adderFormat ∨ e = .print := by
  obtain ⟨bs, a, h1, hr⟩ := (addReads_eq hsha reads [] [] _ .start).2 x h
  rw [List.nil_append] at h1 hr
  have hr : addReads sha ⟨FileAdder.default, {}, 0⟩ reads = some (.ok (some ⟨a, statsOf bs, x.length⟩)) := hr
  have hd := C97_debug sha 262144 174 (by decide) (by decide) x bs a h1 capacity
  rw [if_neg (by omega)] at hd
  cases hrun with
  | read h => rw [hr] at h; cases h
  | pushing h => rw [hr] at h; cases h
  | finishing h _ => exact .inr rfl
  | debug _ h _ h2 => rw [hr] at h; cases h; rw [hd] at h2; cases h2; exact .inl rfl
  | debugging h _ _ => exact .inr rfl
  | finish h h2 _ _ => rw [hr] at h; cases h; rw [hd] at h2; cases h2
  | last h h2 _ _ _ => rw [hr] at h; cases h; rw [hd] at h2; cases h2
  | stats h h2 _ _ _ => rw [hr] at h; cases h; rw [hd] at h2; cases h2

/-- The input was read to its end and the counter does not overflow. If the size of the tree fits into 64 bits: whatever fails in writing, what
arrives at standard error is a beginning of what is to be said of the adder and of the blocks with the root's Cid, and the exit code is 0
exactly if all of that arrived and nothing failed; there is such a run. If it does not fit, `add` panics at finishing, after saying what is to be said
of the adder. -/
theorem C137_add (sha : Bytes → Bytes) (hsha : ∀ b, (sha b).length = 32) (capacity : Nat) (tail : Text) (reads : List (Option Bytes)) (x : Bytes)
    (h : inputRead reads = some x) (hx : pendingGroups 174 (x.length / 262144) < 2 ^ 31) :
    ∃ T, BalancedTree 262144 174 x T ∧
      ((Fits sha T ∧ ∃ blocks root, Adds sha 262144 174 x blocks ∧ blocks.getLast? = some root ∧
        (∀ err e, AddRun sha capacity tail reads err e →
          err <+: utf8 (beforeText capacity x ++ blocksText blocks root.1 ++ tail) ∧ (e = .done ∨ e = .print) ∧
          (e = .done → err = utf8 (beforeText capacity x ++ blocksText blocks root.1 ++ tail))) ∧
        AddRun sha capacity tail reads (utf8 (beforeText capacity x ++ blocksText blocks root.1 ++ tail)) .done) ∨
       (¬ Fits sha T ∧ (∀ err e, AddRun sha capacity tail reads err e →
          err <+: utf8 (beforeText capacity x) ∧ (e = .panic .adderOverflow ∨ e = .print)) ∧
        AddRun sha capacity tail reads (utf8 (beforeText capacity x)) (.panic .adderOverflow))) := by
  obtain ⟨bs, a, h1, hr⟩ := (addReads_eq hsha reads [] [] _ .start).2 x h
  rw [List.nil_append] at h1 hr
  have hr : addReads sha ⟨FileAdder.default, {}, 0⟩ reads = some (.ok (some ⟨a, statsOf bs, x.length⟩)) := hr
  have hd := C97_debug sha 262144 174 (by decide) (by decide) x bs a h1 capacity
  rw [if_pos ⟨hx, leaves_small _⟩] at hd
  obtain ⟨T, ht, -⟩ := C07_feed_exact sha 262144 174 (by decide) (by decide) (fun _ => 1) x
  refine ⟨T, ht, ?_⟩
  generalize hdt : adderText 262144 (x.length % 262144) capacity (pendingGroups 174 (x.length / 262144)) (pendingLeaves 174 (x.length / 262144)) = dt at hd
  have hb : beforeText capacity x = lit "finishing\n" ++ lit dt ++ lit "\n" := by rw [beforeText, hdt]
  have t1 : (Log.says {} [.err (lit "finishing\n")]).err <+: beforeText capacity x := by
    rw [hb, List.append_assoc]; exact List.prefix_append _ _
  have t2 : (Log.says {} [.err (lit "finishing\n"), .err (lit dt ++ lit "\n")]).err = beforeText capacity x := by
    rw [hb]; simp [Log.says, Log.say]
  have fin1 : ∀ {b s1}, Says [.err (lit "finishing\n")] {} b s1 → s1.err <+: utf8 (beforeText capacity x) := by
    intro b s1 hs
    obtain ⟨-, part, h2, h3⟩ := says_err hs (only_err rfl) _ rfl
    rw [h3]
    exact h2.trans (utf8_mono t1)
  have fin2 : ∀ {b s1}, Says [.err (lit "finishing\n"), .err (lit dt ++ lit "\n")] {} b s1 → s1.err <+: utf8 (beforeText capacity x) := by
    intro b s1 hs
    obtain ⟨-, part, h2, h3⟩ := says_err hs (only_err rfl) _ rfl
    rw [h3, ← t2]
    exact h2
  by_cases hf : Fits sha T
  · refine .inl ⟨hf, ?_⟩
    obtain ⟨bs', h3⟩ := (C10_finish_exact_partial sha 262144 174 (by decide) (by decide) _ _ _ h1).2 ⟨T, ht, hf⟩
    have ha : Adds sha 262144 174 x (bs ++ bs') := ⟨bs, a, bs', h1, h3, rfl⟩
    obtain ⟨T', -, hl, -⟩ := C12_tree sha 262144 174 (by decide) (by decide) _ _ ha
    have hc := C14_adder_cids sha 262144 174 (by decide) (by decide) _ _ ha _ (List.mem_of_getLast? hl)
    refine ⟨_, _, ha, hl, ?_⟩
    generalize FTree.entry sha T' = root at hl hc
    have hp : (statsOf (bs ++ bs')).printed = .ok ((bs ++ bs').length, ((bs ++ bs').map (·.2.length)).sum, root.1, root.1) := by
      simp only [statsOf, hl, Stats.printed, Option.map_some]
      rw [hc]
    have hst : ((statsOf bs).process bs').printed = .ok ((bs ++ bs').length, ((bs ++ bs').map (·.2.length)).sum, root.1, root.1) := by
      rw [statsOf_process]; exact hp
    have t3 : (Log.says {} [.err (lit "finishing\n"), .err (lit dt ++ lit "\n"),
        .err (statsText ((bs ++ bs').length, ((bs ++ bs').map (·.2.length)).sum, root.1, root.1)), .err tail]).err =
        beforeText capacity x ++ blocksText (bs ++ bs') root.1 ++ tail := by
      rw [hb]
      simp [Log.says, Log.say, statsText, blocksText, shown]
    have more : utf8 (beforeText capacity x) <+: utf8 (beforeText capacity x ++ blocksText (bs ++ bs') root.1 ++ tail) := by
      rw [List.append_assoc]; exact utf8_mono (List.prefix_append _ _)
    constructor
    · intro err e hrun
      cases hrun with
      | read h => rw [hr] at h; cases h
      | pushing h => rw [hr] at h; cases h
      | finishing _ hs => exact ⟨(fin1 hs).trans more, .inr rfl, nofun⟩
      | debug _ h _ h2 => rw [hr] at h; cases h; rw [hd] at h2; cases h2
      | debugging h h2 hs => rw [hr] at h; cases h; rw [hd] at h2; cases h2; exact ⟨(fin2 hs).trans more, .inr rfl, nofun⟩
      | finish h h2 _ h4 => rw [hr] at h; cases h; rw [h3] at h4; cases h4
      | last h h2 _ h4 h5 => rw [hr] at h; cases h; rw [h3] at h4; cases h4; rw [hst] at h5; cases h5
      | @stats s d s1 blocks printed b h h2 h4 h5 hs =>
        rw [hr] at h; cases h; rw [hd] at h2; cases h2; rw [h3] at h4; cases h4; rw [hst] at h5; cases h5
        obtain ⟨g1, part, g2, g3⟩ := says_err hs (only_err rfl) _ rfl
        rw [t3] at g1 g2
        refine ⟨by rw [g3]; exact g2, ?_, ?_⟩
        · cases b
          · exact .inr rfl
          · exact .inl rfl
        · cases b
          · nofun
          · intro _; exact g1 rfl
    · obtain ⟨s', g1, g2⟩ := says_all [.err (lit "finishing\n"), .err (lit dt ++ lit "\n"),
        .err (statsText ((bs ++ bs').length, ((bs ++ bs').map (·.2.length)).sum, root.1, root.1)), .err tail] {} {} inStep_start
        (fun t ht => absurd ht (only_err rfl t))
      have := AddRun.stats hr hd h3 hst g1
      rw [g2, t3] at this
      exact this
  · refine .inr ⟨hf, ?_⟩
    have h3 := (C10_finish_overflow_partial sha 262144 174 (by decide) (by decide) _ _ _ h1).2 ⟨T, ht, hf⟩
    constructor
    · intro err e hrun
      cases hrun with
      | read h => rw [hr] at h; cases h
      | pushing h => rw [hr] at h; cases h
      | finishing _ hs => exact ⟨fin1 hs, .inr rfl⟩
      | debug _ h _ h2 => rw [hr] at h; cases h; rw [hd] at h2; cases h2
      | debugging h h2 hs => rw [hr] at h; cases h; rw [hd] at h2; cases h2; exact ⟨fin2 hs, .inr rfl⟩
      | finish h h2 hs h4 =>
        rw [hr] at h; cases h; rw [hd] at h2; cases h2; rw [h3] at h4; cases h4
        exact ⟨fin2 hs, .inl rfl⟩
      | last h h2 _ h4 h5 => rw [hr] at h; cases h; rw [h3] at h4; cases h4
      | stats h h2 h4 _ _ => rw [hr] at h; cases h; rw [h3] at h4; cases h4
    · obtain ⟨s', g1, g2⟩ := says_all [.err (lit "finishing\n"), .err (lit dt ++ lit "\n")] {} {} inStep_start
        (fun t ht => absurd ht (only_err rfl t))
      have := AddRun.finish (tail := tail) hr hd g1 h3
      rw [g2, t2] at this
      exact this

/-- When `add` can exit with 0. -/
theorem C137_exit (sha : Bytes → Bytes) (hsha : ∀ b, (sha b).length = 32) (capacity : Nat) (tail : Text) (reads : List (Option Bytes)) :
    (∃ err e, AddRun sha capacity tail reads err e ∧ e.code = 0) ↔
    ∃ x T, inputRead reads = some x ∧ pendingGroups 174 (x.length / 262144) < 2 ^ 31 ∧ BalancedTree 262144 174 x T ∧ Fits sha T := by
  constructor
  · rintro ⟨err, e, hrun, he⟩
    cases h : inputRead reads with
    | none =>
      obtain ⟨rfl, -⟩ := (C137_read sha hsha capacity tail reads h).1 _ _ hrun
      cases he
    | some x =>
      by_cases hx : pendingGroups 174 (x.length / 262144) < 2 ^ 31
      · obtain ⟨T, ht, ⟨hf, -⟩ | ⟨-, h2, -⟩⟩ := C137_add sha hsha capacity tail reads x h hx
        · exact ⟨x, T, rfl, hx, ht, hf⟩
        · rcases (h2 _ _ hrun).2 with rfl | rfl <;> cases he
      · rcases C137_debug sha hsha capacity tail reads x h (by omega) _ _ hrun with rfl | rfl <;> cases he
  · rintro ⟨x, T, h, hx, ht, hf⟩
    obtain ⟨T', ht', ⟨-, blocks, root, -, -, -, h2⟩ | ⟨hn, -⟩⟩ := C137_add sha hsha capacity tail reads x h hx
    · exact ⟨_, _, h2, rfl⟩
    · obtain rfl := layered_unique ht ht'
      exact absurd hf hn

/-- Inputs below 2^50 bytes: there is a run which says the root's Cid and exits with 0. -/
theorem C137_small (sha : Bytes → Bytes) (hsha : ∀ b, (sha b).length = 32) (capacity : Nat) (tail : Text) (reads : List (Option Bytes)) (x : Bytes)
    (h : inputRead reads = some x) (hx : x.length < maxContent) :
    ∃ blocks root, Adds sha 262144 174 x blocks ∧ blocks.getLast? = some root ∧
      AddRun sha capacity tail reads (utf8 (beforeText capacity x ++ blocksText blocks root.1 ++ tail)) .done := by
  have hg : pendingGroups 174 (x.length / 262144) < 2 ^ 31 := by
    unfold pendingGroups
    unfold maxContent at hx
    omega
  obtain ⟨T, ht, ⟨-, blocks, root, h1, h2, -, h3⟩ | ⟨hn, -⟩⟩ := C137_add sha hsha capacity tail reads x h hg
  · exact ⟨blocks, root, h1, h2, h3⟩
  · obtain ⟨T', h2, h3⟩ := (adds_iff (sha := sha) (c := 262144) (bf := 174) (by decide) (by decide) x).1
      ⟨_, adds_exists hsha (by decide) (by decide) _ hx⟩
    obtain rfl := layered_unique ht h2
    exact absurd h3 hn

theorem pendingGroups_large : 2 ^ 31 ≤ pendingGroups 174 ((262144 * (174 * 2 ^ 31 + 1)) / 262144) := by
  unfold pendingGroups
  omega

/-- Three bytes in two reads; an error in between; and an input for which nothing but a panic is possible. -/
theorem C137_example :
    (∃ blocks root, Adds toySha 262144 174 [1, 2, 3] blocks ∧ blocks.getLast? = some root ∧
      AddRun toySha 0 [] [some [1], some [2, 3], some [], some [9]] (utf8 (beforeText 0 [1, 2, 3] ++ blocksText blocks root.1 ++ [])) .done) ∧
    beforeText 0 [1, 2, 3] = lit "finishing\nFileAdder { chunker: Size(262144), block_buffer: 3/0, unflushed_links: [] }\n" ∧
    (∀ err e, AddRun toySha 0 [] [some [1], none, some [2, 3]] err e → e = .read ∧ err = []) ∧
    ∃ x, ∀ err e, AddRun toySha 0 [] [some x] err e → e = .panic .adderFormat ∨ e = .print := by
  have hn : ∃ n, 2 ^ 31 ≤ pendingGroups 174 (n / 262144) := ⟨_, pendingGroups_large⟩
  obtain ⟨n, hn⟩ := hn
  refine ⟨C137_small toySha toySha_length 0 [] _ [1, 2, 3] rfl (by unfold maxContent; show 3 < _; omega), by decide +kernel, (C137_read toySha toySha_length 0 [] _ rfl).1,
    List.replicate n 0, ?_⟩
  refine C137_debug toySha toySha_length 0 [] _ (List.replicate n 0) ?_ ?_
  · rw [inputRead]
    split
    · next h => rw [h]
    · simp [inputRead]
  · rw [List.length_replicate]
    exact hn

end Verif.Props
