import Verif.Spec.Escaping
import Verif.Props.WalkTrees
/-
C93: where the paths reported by a walk lead to.
-/
namespace Verif.Props
open Verif Verif.Spec

/-- The full statement: the paths reported by a walk lead to somewhere below the root, whatever the blocks are. -/
def C93_full : Prop := ∀ (cid : Cid) (name : Bytes) (h : List (Bytes × ContinuedWalk)) (w : Walker), Walked cid name h w → slash ∉ name →
  ∀ x ∈ h, ∀ below, (itemPath x.2).comps = rootPath name ++ below → ¬ Escapes 0 below

theorem Stack_last {cur : List Bytes} {ls : List WalkLink} {ts : List Awaited} (h : Stack cur ls ts) :
    ∀ t ∈ ts, t.what = .entry → ∃ p n, t.path = p ++ [n] ∧ n ≠ [] ∧ slash ∉ n := by
  induction h with
  | nil => nofun
  | entry _ h1 h2 _ hp _ _ _ ih =>
    intro t ht hw
    rcases List.mem_cons.1 ht with rfl | ht
    · exact ⟨_, _, hp, h1, h2⟩
    · exact ih t ht hw
  | bucket _ _ _ _ _ hwh _ ih =>
    intro t ht hw
    rcases List.mem_cons.1 ht with rfl | ht
    · rw [hwh] at hw; cases hw
    · exact ih t ht hw

/-- A component of a path below the root. -/
def GoodComponent (blocks : List Bytes) (c : Bytes) : Prop := c ≠ [] ∧ slash ∉ c ∧ ∃ b ∈ blocks, GivesName b c

theorem linkTo_some {path : List Bytes} {what : What} {l : PBLink} {x : Awaited} (h : linkTo path what l = some x) : x.path = path ∧ x.what = what := by
  unfold linkTo at h
  split at h
  · cases h; exact ⟨rfl, rfl⟩
  · cases h

theorem follow_path {a : Awaited} {m : FlatUnixFs} {l : PBLink} {x : Awaited} (h : follow a m l = some x) :
    x.path = a.path ∨ (x.what = .entry ∧ ((m.data.Ty = .Directory ∧ x.path = a.path ++ [l.Name.getD []]) ∨
      (m.data.Ty = .HAMTShard ∧ x.path = a.path ++ [(l.Name.getD []).drop 2]))) := by
  unfold follow at h
  dsimp only at h
  split at h
  · exact .inl (linkTo_some h).1
  split at h
  · next hty => exact .inr ⟨(linkTo_some h).2, .inl ⟨hty, (linkTo_some h).1⟩⟩
  · next hty =>
    split at h
    · exact .inl (linkTo_some h).1
    · exact .inr ⟨(linkTo_some h).2, .inr ⟨hty, (linkTo_some h).1⟩⟩
  · exact .inl (linkTo_some h).1
  · exact .inl (linkTo_some h).1
  · cases h

theorem walked_paths {cid : Cid} {name : Bytes} {h : List (Bytes × ContinuedWalk)} {w : Walker} (hw : Walked cid name h w) (hname : slash ∉ name) :
    ∀ t ∈ awaited cid name (h.map (·.1)), ∃ below, t.path = rootPath name ++ below ∧ ∀ c ∈ below, GoodComponent (h.map (·.1)) c := by
  induction hw with
  | new =>
    intro t ht
    simp only [List.map_nil, awaited, List.foldl_nil, List.mem_singleton] at ht
    exact ⟨[], by rw [ht]; simp, nofun⟩
  | @next h w w' block cache cache' item hw hsc hc hs ih =>
    obtain ⟨fb, rest, h1, h2, h3⟩ := walked_both hw hname
    obtain ⟨m, a, aw, fb', rest', hm, h4, h5, h6⟩ := h2.step hc (step_ok hs)
    have h7 := (h3.step h2 hname hc (step_ok hs) hm h4 h5 h6).1
    rw [h4] at h1
    rw [List.map_append, List.map_cons, List.map_nil, awaited_snoc h1 hm]
    intro t ht
    have weaken : ∀ {c}, GoodComponent (h.map (·.1)) c → GoodComponent (h.map (·.1) ++ [block]) c := by
      rintro c ⟨g1, g2, b, hb, g3⟩
      exact ⟨g1, g2, b, by simp [hb], g3⟩
    rw [h1] at ih
    have ha := ih a (by simp)
    rcases List.mem_append.1 ht with hk | hr
    · obtain ⟨l, hl, hf⟩ := List.mem_filterMap.1 hk
      obtain ⟨below, hb1, hb2⟩ := ha
      rcases follow_path hf with hp | ⟨hwhat, hp⟩
      · exact ⟨below, by rw [hp, hb1], fun c hc => weaken (hb2 c hc)⟩
      · have hlast : ∃ p n, t.path = p ++ [n] ∧ n ≠ [] ∧ slash ∉ n := by
          have hin : t ∈ fb' ++ rest' := by rw [← h5]; exact ht
          rcases List.mem_append.1 hin with hin | hin
          · have := h6.file.what t hin
            rw [hwhat] at this; cases this
          · rcases h7 with hn | ⟨ie, _, hp'⟩
            · have := hn.nil
              simp at this
            · exact Stack_last hp'.stack t hin hwhat
        obtain ⟨p, n, hpn, g1, g2⟩ := hlast
        have key : ∀ y, t.path = a.path ++ [y] → n = y := by
          intro y hy
          rw [hpn] at hy
          exact (List.append_inj' hy rfl).2 |> List.singleton_inj.1
        rcases hp with ⟨hty, hp⟩ | ⟨hty, hp⟩
        · have := key _ hp
          refine ⟨below ++ [n], by rw [hp, hb1, this, List.append_assoc], ?_⟩
          intro c hc
          rcases List.mem_append.1 hc with hc | hc
          · exact weaken (hb2 c hc)
          · rw [List.mem_singleton.1 hc]
            refine ⟨g1, g2, block, by simp, m, l, n, hm, hl, ?_, .inl ⟨hty, rfl⟩⟩
            cases hln : l.Name with
            | none => rw [hln] at this; exact absurd this g1
            | some x => rw [hln] at this; rw [this]; rfl
        · have := key _ hp
          refine ⟨below ++ [n], by rw [hp, hb1, this, List.append_assoc], ?_⟩
          intro c hc
          rcases List.mem_append.1 hc with hc | hc
          · exact weaken (hb2 c hc)
          · rw [List.mem_singleton.1 hc]
            cases hln : l.Name with
            | none => rw [hln] at this; exact absurd this g1
            | some x =>
              rw [hln] at this
              have hx : n = x.drop 2 := this
              refine ⟨g1, g2, block, by simp, m, l, x, hm, hl, hln, .inr ⟨hty, ?_, hx⟩⟩
              apply Classical.byContradiction
              intro hlt
              rw [List.drop_eq_nil_of_le (by omega)] at hx
              exact g1 hx
    · obtain ⟨below, hb1, hb2⟩ := ih t (by simp [hr])
      exact ⟨below, hb1, fun c hc => weaken (hb2 c hc)⟩

/-- C93: every path reported by a walk, whatever the blocks are, is relative, and consists of the name given to the root (if there is one)
followed by names which the blocks gave; none of those is empty or contains a slash. -/
theorem C93_components (cid : Cid) (name : Bytes) (h : List (Bytes × ContinuedWalk)) (w : Walker) (hw : Walked cid name h w)
    (hname : slash ∉ name) : ∀ x ∈ h, (itemPath x.2).absolute = false ∧
      ∃ below, (itemPath x.2).comps = rootPath name ++ below ∧ ∀ c ∈ below, c ≠ [] ∧ slash ∉ c ∧ ∃ b ∈ h.map (·.1), GivesName b c := by
  induction hw with
  | new => nofun
  | @next h w w' block cache cache' item hw hsc hc hs ih =>
    have weaken : ∀ {p : PathBuf}, (p.absolute = false ∧ ∃ below, p.comps = rootPath name ++ below ∧ ∀ c ∈ below, c ≠ [] ∧ slash ∉ c ∧
        ∃ b ∈ h.map (·.1), GivesName b c) → (p.absolute = false ∧ ∃ below, p.comps = rootPath name ++ below ∧ ∀ c ∈ below, c ≠ [] ∧ slash ∉ c ∧
        ∃ b ∈ (h ++ [(block, item)]).map (·.1), GivesName b c) := by
      rintro p ⟨g0, below, g1, g2⟩
      refine ⟨g0, below, g1, fun c hc => ?_⟩
      obtain ⟨k1, k2, b, k3, k4⟩ := g2 c hc
      exact ⟨k1, k2, b, by rw [List.map_append]; exact List.mem_append_left _ k3, k4⟩
    intro x hx
    rcases List.mem_append.1 hx with hx | hx
    · exact weaken (ih x hx)
    · rw [List.mem_singleton.1 hx]
      obtain ⟨a, aw, m, h1, hm, h2, h3⟩ := C45_every_item_partial cid name h block item w' (.next hw hsc hc hs) hname
      obtain ⟨below, hb1, hb2⟩ := walked_paths hw hname a (by rw [h1]; simp)
      have direct : itemPath item = ⟨false, a.path⟩ → (itemPath item).absolute = false ∧
          ∃ below, (itemPath item).comps = rootPath name ++ below ∧ ∀ c ∈ below, c ≠ [] ∧ slash ∉ c ∧
            ∃ b ∈ (h ++ [(block, item)]).map (·.1), GivesName b c := by
        intro hp
        refine weaken ?_
        rw [hp]
        exact ⟨rfl, below, hb1, hb2⟩
      by_cases hbk : a.what = .bucket ∧ RootBuckets (h.map (·.2))
      · exact direct (by rw [(h3 hbk.1 hbk.2).2]; rfl)
      · have hit := h2 hbk
        unfold itemFor at hit
        dsimp only at hit
        split at hit
        · split at hit
          · next seg c p md sz hlast =>
            cases hit
            have hmem := List.mem_of_getLast? hlast
            obtain ⟨y, hy, hyp⟩ := List.mem_map.1 hmem
            have := ih y hy
            rw [hyp] at this
            exact weaken this
          · cases hit
        · cases hit; exact direct rfl
        · cases hit; exact direct rfl
        · split at hit <;> (cases hit; exact direct rfl)
        · cases hit; exact direct rfl
        · cases hit; exact direct rfl
        · cases hit; exact direct rfl
        · cases hit

theorem not_escapes : ∀ (cs : List Bytes) (d : Nat), dotdot ∉ cs → ¬ Escapes d cs
  | [], _, _ => nofun
  | c :: cs, d, h => by
    simp only [List.mem_cons, not_or] at h
    unfold Escapes
    rw [if_neg (fun e => h.1 e.symm)]
    exact not_escapes cs _ h.2

/-- C93: if no block names anything `..`, the paths lead to somewhere below the root. -/
theorem C93_below_partial (cid : Cid) (name : Bytes) (h : List (Bytes × ContinuedWalk)) (w : Walker) (hw : Walked cid name h w)
    (hname : slash ∉ name) (hdd : ∀ b ∈ h.map (·.1), ¬ GivesName b dotdot) :
    ∀ x ∈ h, ∀ below, (itemPath x.2).comps = rootPath name ++ below → ¬ Escapes 0 below := by
  intro x hx below hb
  obtain ⟨-, below', hb', hg⟩ := C93_components cid name h w hw hname x hx
  rw [hb] at hb'
  cases List.append_cancel_left hb'
  apply not_escapes
  intro hd
  obtain ⟨-, -, b, h1, h2⟩ := hg _ hd
  exact hdd b h1 h2

/-- A directory in which a file is called `..`. -/
def upDir : Bytes :=
  (FlatUnixFs.mk [⟨some (cidN 1).toBytes, some dotdot, some 7⟩] { Ty := .Directory }).write
def upFile : Bytes := (FlatUnixFs.mk [] { Ty := .File, Data := some [1], filesize := some 1 }).write

theorem up_walked : ∃ w, Walked (cidN 0) [] [(upDir, .RootDirectory (cidN 0) ⟨false, []⟩ {}), (upFile, .File ⟨[1], true, true⟩ (cidN 1) ⟨false, [dotdot]⟩ {} 1)] w := by
  let w1 : Walker := ((Walker.new (cidN 0) []).step upDir none).2.1
  have h1 : (Walker.new (cidN 0) []).step upDir none = (.ok (.RootDirectory (cidN 0) ⟨false, []⟩ {}), w1, none) := by decide +kernel
  let w2 : Walker := (w1.step upFile none).2.1
  have h2 : w1.step upFile none = (.ok (.File ⟨[1], true, true⟩ (cidN 1) ⟨false, [dotdot]⟩ {} 1), w2, none) := by decide +kernel
  exact ⟨w2, .next (h := [_]) (.next (h := []) .new rfl (fun k hk => by cases hk) h1) (by decide +kernel) (fun k hk => by cases hk) h2⟩

/-- The file of this directory is reported with a path which leads out of it. -/
theorem C93_full_false : ¬ C93_full := by
  intro h
  obtain ⟨w, hw⟩ := up_walked
  exact h _ _ _ _ hw (by decide) _ (List.mem_cons_of_mem _ (List.mem_singleton.2 rfl)) [dotdot] rfl (by simp [Escapes])

/-- The hypotheses of `C93_below_partial` are met by the walk of a directory with a file called `a`. -/
example : ∃ h w, h.length = 2 ∧ Walked (cidN 0) [] h w ∧ ∀ b ∈ h.map (·.1), ¬ GivesName b dotdot := by
  let d : FlatUnixFs := .mk [⟨some (cidN 1).toBytes, some [0x61], some 7⟩] { Ty := .Directory }
  let w1 : Walker := ((Walker.new (cidN 0) []).step d.write none).2.1
  have h1 : (Walker.new (cidN 0) []).step d.write none = (.ok (.RootDirectory (cidN 0) ⟨false, []⟩ {}), w1, none) := by decide +kernel
  let w2 : Walker := (w1.step upFile none).2.1
  have h2 : w1.step upFile none = (.ok (.File ⟨[1], true, true⟩ (cidN 1) ⟨false, [[0x61]]⟩ {} 1), w2, none) := by decide +kernel
  refine ⟨_, w2, rfl, .next (h := [_]) (.next (h := []) .new rfl (fun k hk => by cases hk) h1) (by decide +kernel) (fun k hk => by cases hk) h2, ?_⟩
  intro b hb
  have hb' : b = d.write ∨ b = upFile := by simpa using hb
  have hd : FlatUnixFs.tryParse d.write = .ok d := by decide +kernel
  have hf : FlatUnixFs.tryParse upFile = .ok (FlatUnixFs.mk [] { Ty := .File, Data := some [1], filesize := some 1 }) := by decide +kernel
  rintro ⟨m, l, x, hm, hl, hx, hn⟩
  rcases hb' with rfl | rfl
  · rw [hd] at hm
    cases hm
    cases List.mem_singleton.1 hl
    cases hx
    revert hn
    decide
  · rw [hf] at hm
    cases hm
    cases hl

end Verif.Props
