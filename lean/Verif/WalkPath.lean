import Verif.WalkInv
/-
The invariant about paths: the depths and names which a walker holds are those of the paths of what is still to be visited.
-/
namespace Verif
open Verif.Spec Verif.Props

/-! ### paths -/

theorem head_ne_slash {n : Bytes} (h : slash ∉ n) : n.head? ≠ some slash := by
  cases n with
  | nil => simp
  | cons b t =>
    simp only [List.head?_cons, ne_eq, Option.some.injEq]
    rintro rfl
    simp at h

theorem push_name {p : List Bytes} {n : Bytes} (h1 : n ≠ []) (h2 : slash ∉ n) (h3 : n = dot → p = []) :
    PathBuf.push ⟨false, p⟩ n = ⟨false, p ++ [n]⟩ := by
  unfold PathBuf.push
  rw [if_neg (head_ne_slash h2), splitSlash_single h2]
  by_cases hd : n = dot
  · rw [h3 hd, hd]; rfl
  · simp [pathComps, h1, hd]

/-- The component `.` is only kept at the start of a path. -/
theorem push_dot {p : List Bytes} (h : p ≠ []) : PathBuf.push ⟨false, p⟩ dot = ⟨false, p⟩ := by
  unfold PathBuf.push
  rw [if_neg (by decide), splitSlash_single (by decide)]
  simp [pathComps, h]

theorem push_root {n : Bytes} (h2 : slash ∉ n) : PathBuf.push {} n = ⟨false, rootPath n⟩ := by
  unfold PathBuf.push
  rw [if_neg (head_ne_slash h2), splitSlash_single h2]
  unfold rootPath
  by_cases h : n = [] <;> simp [pathComps, h]

theorem push_empty (p : PathBuf) : p.push [] = p := by
  unfold PathBuf.push
  rw [if_neg (by simp)]
  simp [pathComps, splitSlash]

theorem popWhileGe_eq {ε : Type} {B : Nat} : ∀ {p : List Bytes}, B ≤ p.length →
    (popWhileGe (B + 2) (p.length + 1) ⟨false, p⟩ : Res ε PathBuf) = .ok ⟨false, p.take B⟩ := by
  suffices h : ∀ k p, p.length = B + k → (popWhileGe (B + 2) (p.length + 1) ⟨false, p⟩ : Res ε PathBuf) = .ok ⟨false, p.take B⟩ by
    intro p hp
    exact h (p.length - B) p (by omega)
  intro k
  induction k with
  | zero =>
    intro p hp
    rw [popWhileGe, if_neg (by omega), List.take_of_length_le (by omega)]
  | succ k ih =>
    intro p hp
    have hne : p ≠ [] := by rintro rfl; simp at hp
    have hd := ih p.dropLast (by rw [List.length_dropLast]; omega)
    rw [List.length_dropLast, show p.length - 1 + 1 = p.length by omega] at hd
    rw [popWhileGe, if_pos (by omega)]
    simp only [PathBuf.pop, hne, if_false]
    rw [hd, List.dropLast_eq_take, List.take_take, Nat.min_eq_left (by omega)]

theorem popWhileGt_eq {ε : Type} {B : Nat} : ∀ {p : List Bytes}, B ≤ p.length →
    (popWhileGt (B + 1) (p.length + 1) ⟨false, p⟩ : Res ε (Nat × PathBuf)) = .ok (B + 1, ⟨false, p.take B⟩) := by
  suffices h : ∀ k p, p.length = B + k →
      (popWhileGt (B + 1) (p.length + 1) ⟨false, p⟩ : Res ε (Nat × PathBuf)) = .ok (B + 1, ⟨false, p.take B⟩) by
    intro p hp
    exact h (p.length - B) p (by omega)
  intro k
  induction k with
  | zero =>
    intro p hp
    rw [popWhileGt, if_neg (by omega), List.take_of_length_le (by omega), hp, Nat.add_zero]
  | succ k ih =>
    intro p hp
    have hne : p ≠ [] := by rintro rfl; simp at hp
    have hd := ih p.dropLast (by rw [List.length_dropLast]; omega)
    rw [List.length_dropLast, show p.length - 1 + 1 = p.length by omega] at hd
    rw [popWhileGt, if_pos (by omega)]
    simp only [PathBuf.pop, hne, if_false]
    rw [hd, List.dropLast_eq_take, List.take_take, Nat.min_eq_left (by omega)]

/-- The entry's own data agree. -/
structure EntryOk (ie : InnerEntry) : Prop where
  rel : ie.path.absolute = false
  depth : ie.depth = ie.path.comps.length + 1

theorem EntryOk.path_eq {ie : InnerEntry} (h : EntryOk ie) : ie.path = ⟨false, ie.path.comps⟩ := by
  cases hp : ie.path with
  | mk a c =>
    have := h.rel
    rw [hp] at this
    simp only at this
    rw [this]

theorem setPath_eq {ε : Type} {ie : InnerEntry} (h : EntryOk ie) {n : Bytes} {B : Nat} (hB : B ≤ ie.path.comps.length)
    (h1 : n ≠ []) (h2 : slash ∉ n) (h3 : n = dot → B = 0) :
    (ie.setPath n (B + 2) : Res ε InnerEntry) =
      .ok { ie with path := ⟨false, ie.path.comps.take B ++ [n]⟩, depth := B + 2 } := by
  unfold InnerEntry.setPath
  rw [if_neg (by rw [h.depth]; simp [PathBuf.ancestorsCount]), h.depth]
  conv => lhs; rw [h.path_eq]
  rw [popWhileGe_eq hB]
  simp only [Res.bind_ok, push_name (p := ie.path.comps.take B) h1 h2 (fun h => by rw [h3 h]; rfl)]
  rw [if_neg]
  simp [PathBuf.ancestorsCount, Nat.min_eq_left hB]

theorem asKind_eq {ε : Type} {ie : InnerEntry} (h : EntryOk ie) {n : Bytes} {B : Nat} (hB : B ≤ ie.path.comps.length)
    (h1 : n ≠ []) (h2 : slash ∉ n) (h3 : n = dot → B = 0) (hk : ∀ v sz, ie.kind ≠ .File (some v) sz) (k : InnerKind) (c : Cid) (md : Metadata) :
    (ie.asKind k c n (B + 2) md : Res ε InnerEntry) = .ok ⟨c, k, ⟨false, ie.path.comps.take B ++ [n]⟩, md, B + 2⟩ := by
  have he : EntryOk { ie with cid := c, kind := k } := ⟨h.rel, h.depth⟩
  unfold InnerEntry.asKind
  split
  · rename_i hk'
    exact absurd hk' (hk _ _)
  · rw [setPath_eq he hB h1 h2 h3]
    rfl

/-- An entry called `.` anywhere but at the top of the walk trips a `debug_assert`. -/
theorem asKind_dot {ε : Type} {ie : InnerEntry} (h : EntryOk ie) {B : Nat} (hB : B ≤ ie.path.comps.length) (h0 : B ≠ 0)
    (hk : ∀ v sz, ie.kind ≠ .File (some v) sz) (k : InnerKind) (c : Cid) (md : Metadata) :
    (ie.asKind k c dot (B + 2) md : Res ε InnerEntry) = .panic .walkPathDepth := by
  have hne : ie.path.comps.take B ≠ [] := by
    intro hn
    have := congrArg List.length hn
    simp at this
    rcases this with rfl | h
    · exact h0 rfl
    · rw [h] at hB
      simp at hB
      exact h0 hB
  unfold InnerEntry.asKind
  split
  · rename_i hk'
    exact absurd hk' (hk _ _)
  · unfold InnerEntry.setPath
    simp only
    rw [if_neg (by rw [h.depth]; simp [PathBuf.ancestorsCount]), h.depth]
    conv => lhs; rw [h.path_eq]
    rw [popWhileGe_eq hB]
    simp only [Res.bind_ok, push_dot hne]
    rw [if_pos]
    · rfl
    · simp [PathBuf.ancestorsCount, Nat.min_eq_left hB]

/-- Whatever is found where a bucket was expected, other than a shard, panics. -/
theorem asKind_bucket {ε : Type} {ie : InnerEntry} (h : EntryOk ie) {B : Nat} (hB : B ≤ ie.path.comps.length)
    (k : InnerKind) (c : Cid) (md : Metadata) : ∃ p, (ie.asKind k c [] (B + 1) md : Res ε InnerEntry) = .panic p := by
  obtain ⟨c0, k0, ⟨ab, p⟩, md0, d0⟩ := ie
  have h1 := h.rel
  have h2 := h.depth
  simp only at h1 h2 hB
  subst h1 h2
  unfold InnerEntry.asKind
  split
  · exact ⟨_, rfl⟩
  · unfold InnerEntry.setPath
    rw [if_neg (by simp [PathBuf.ancestorsCount])]
    simp only
    cases B with
    | zero =>
      -- the last `pop` fails
      suffices hp : ∀ p : List Bytes, (popWhileGe (ε := ε) (0 + 1) (p.length + 1) ⟨false, p⟩) = .panic .walkPathPop by
        rw [hp]; exact ⟨_, rfl⟩
      intro p
      suffices hp : ∀ k (p : List Bytes), p.length = k → (popWhileGe (ε := ε) (0 + 1) (p.length + 1) ⟨false, p⟩) = .panic .walkPathPop from
        hp p.length p rfl
      intro k
      induction k with
      | zero =>
        intro p hp
        have := List.length_eq_zero_iff.1 hp
        subst this
        simp [popWhileGe, PathBuf.pop]
      | succ k ih =>
        intro p hp
        have hne : p ≠ [] := by rintro rfl; simp at hp
        have hd := ih p.dropLast (by rw [List.length_dropLast]; omega)
        rw [List.length_dropLast, show p.length - 1 + 1 = p.length by omega] at hd
        rw [popWhileGe, if_pos (by omega)]
        simp only [PathBuf.pop, hne, if_false]
        exact hd
    | succ B =>
      rw [popWhileGe_eq (by omega)]
      simp only [Res.bind_ok, push_empty]
      rw [if_pos]
      · exact ⟨_, rfl⟩
      · simp only [PathBuf.ancestorsCount, List.length_take]
        omega

/-! ### the stack of links -/

/-- `Stack cur ls ts`: at the path `cur`, the links `ls` lead to `ts`. -/
inductive Stack : List Bytes → List WalkLink → List Awaited → Prop
  | nil {cur : List Bytes} : Stack cur [] []
  | entry {cur : List Bytes} {B : Nat} {l : WalkLink} {ls : List WalkLink} {t : Awaited} {ts : List Awaited} :
      B ≤ cur.length → l.name ≠ [] → slash ∉ l.name → l.depth = B + 2 → t.path = cur.take B ++ [l.name] →
      t.cid = l.cid → t.what = .entry → Stack (cur.take B) ls ts → Stack cur (l :: ls) (t :: ts)
  | bucket {cur : List Bytes} {B : Nat} {l : WalkLink} {ls : List WalkLink} {t : Awaited} {ts : List Awaited} :
      B ≤ cur.length → l.name = [] → l.depth = B + 1 → t.path = cur.take B →
      t.cid = l.cid → t.what = .bucket → Stack (cur.take B) ls ts → Stack cur (l :: ls) (t :: ts)

theorem Stack.mono {p q : List Bytes} {ls : List WalkLink} {ts : List Awaited} (h : Stack p ls ts) (hpq : p <+: q) : Stack q ls ts := by
  obtain ⟨r, rfl⟩ := hpq
  have ht : ∀ B, B ≤ p.length → (p ++ r).take B = p.take B := fun B hB => List.take_append_of_le_length hB
  cases h with
  | nil => exact .nil
  | entry hB h1 h2 h4 h5 h6 h7 h8 =>
    exact .entry (by simp; omega) h1 h2 h4 (by rw [ht _ hB]; exact h5) h6 h7 (by rw [ht _ hB]; exact h8)
  | bucket hB h1 h2 h3 h4 h5 h6 =>
    exact .bucket (by simp; omega) h1 h2 (by rw [ht _ hB]; exact h3) h4 h5 (by rw [ht _ hB]; exact h6)

/-- New links are put in front. -/
theorem Stack.push {cur : List Bytes} {ls : List WalkLink} {ts : List Awaited} (h : Stack cur ls ts) :
    ∀ {ks : List WalkLink} {as : List Awaited}, as.length = ks.length → (∀ x ∈ ks.zip as,
      (x.1 = ⟨x.2.cid, x.1.name, cur.length + 2⟩ ∧ x.1.name ≠ [] ∧ slash ∉ x.1.name ∧ x.2.what = .entry ∧
        x.2.path = cur ++ [x.1.name]) ∨
      (x.1 = ⟨x.2.cid, [], cur.length + 1⟩ ∧ x.2.what = .bucket ∧ x.2.path = cur)) → Stack cur (ks ++ ls) (as ++ ts) := by
  intro ks
  induction ks with
  | nil =>
    intro as hl _
    have := List.length_eq_zero_iff.1 hl
    subst this
    exact h
  | cons k ks ih =>
    intro as hl hx
    cases as with
    | nil => cases hl
    | cons a as =>
      simp only [List.zip_cons_cons, List.mem_cons, forall_eq_or_imp] at hx
      have := ih (by simpa using hl) hx.2
      have hrest : Stack (cur.take cur.length) (ks ++ ls) (as ++ ts) := by simpa using this
      rcases hx.1 with ⟨h1, h2, h3, h5, h6⟩ | ⟨h1, h2, h3⟩
      · exact .entry (Nat.le_refl _) h2 h3 (by rw [h1]) (by simpa using h6) (by rw [h1]) h5 hrest
      · exact .bucket (Nat.le_refl _) (by rw [h1]) (by rw [h1]) (by simpa using h3) (by rw [h1]) h2 hrest

/-! ### the invariant -/

theorem split_unique : ∀ {fb rest fb' rest' : List Awaited}, fb ++ rest = fb' ++ rest' → (∀ a ∈ fb, a.what = .fileBlock) →
    (∀ a ∈ fb', a.what = .fileBlock) → (∀ a ∈ rest, a.what ≠ .fileBlock) → (∀ a ∈ rest', a.what ≠ .fileBlock) → fb = fb' ∧ rest = rest' := by
  intro fb
  induction fb with
  | nil =>
    intro rest fb' rest' h _ h2 h3 _
    cases fb' with
    | nil => exact ⟨rfl, h⟩
    | cons a fb' =>
      simp only [List.nil_append] at h
      subst h
      exact absurd (h2 a (by simp)) (h3 a (by simp))
  | cons a fb ih =>
    intro rest fb' rest' h h1 h2 h3 h4
    cases fb' with
    | nil =>
      simp only [List.nil_append] at h
      subst h
      exact absurd (h1 a (by simp)) (h4 a (by simp))
    | cons a' fb' =>
      simp only [List.cons_append, List.cons.injEq] at h
      obtain ⟨rfl, h⟩ := h
      obtain ⟨rfl, rfl⟩ := ih h (fun a ha => h1 a (by simp [ha])) (fun a ha => h2 a (by simp [ha])) h3 h4
      exact ⟨rfl, rfl⟩

theorem FilePart.what {w : Walker} {fb : List Awaited} (h : FilePart w fb) : ∀ a ∈ fb, a.what = .fileBlock := by
  rcases h with ⟨_, rfl⟩ | ⟨_, _, _, _, _, _, h, _⟩
  · simp
  · exact h

structure PInvSome (cid : Cid) (before : List ContinuedWalk) (w : Walker) (rest : List Awaited) (ie : InnerEntry) : Prop where
  ne : before ≠ []
  ok : EntryOk ie
  stack : Stack ie.path.comps w.links rest
  rootDir : ie.kind = .RootDirectory → ∀ l ∈ w.links, l.name ≠ []
  atRoot : ie.kind = .BucketAtRoot → ie.cid = cid ∧ RootBuckets before ∧ ∀ l ∈ w.links, l.name = [] → l.depth = ie.depth
  buckets : RootBuckets before → ie.kind = .BucketAtRoot ∨ ∀ l ∈ w.links, l.name ≠ []
  dir : ie.kind = .Directory ↔ ∃ c p m, before.getLast? = some (.Directory c p m)
  file : ∀ v sz, ie.kind = .File v sz →
    ∃ seg, before.getLast? = some (.File seg ie.cid ie.path ie.metadata sz) ∧ seg.isLast = !v.isSome
  isFile : ∀ seg c p m s, before.getLast? = some (.File seg c p m s) → ∃ v sz, ie.kind = .File v sz

structure PInvNone (cid : Cid) (name : Bytes) (before : List ContinuedWalk) (w : Walker) (rest : List Awaited) : Prop where
  nil : before = []
  new : w = Walker.new cid name
  rest : rest = [⟨cid, rootPath name, .entry⟩]

def PInv (cid : Cid) (name : Bytes) (before : List ContinuedWalk) (w : Walker) (rest : List Awaited) : Prop :=
  PInvNone cid name before w rest ∨ ∃ ie, w.current = some ie ∧ PInvSome cid before w rest ie

theorem rootBuckets_append {before : List ContinuedWalk} (h : before ≠ []) (item : ContinuedWalk) :
    RootBuckets (before ++ [item]) ↔ RootBuckets before ∧ ∃ c p, item = .Bucket c p := by
  cases before with
  | nil => exact absurd rfl h
  | cons x xs =>
    unfold RootBuckets
    simp only [List.cons_append, List.drop_succ_cons, List.drop_zero, List.mem_append, List.mem_singleton, ne_eq, reduceCtorEq,
      not_false_eq_true, true_and]
    constructor
    · intro h
      exact ⟨fun i hi => h i (.inl hi), h item (.inr rfl)⟩
    · rintro ⟨h1, h2⟩ i (hi | rfl)
      · exact h1 i hi
      · exact h2

theorem rootBuckets_single (item : ContinuedWalk) : RootBuckets [item] := ⟨by simp, by simp⟩

/-- What is reported: as it should be, except for the Cid of a bucket of the root. -/
def reportedFor (cid : Cid) (before : List ContinuedWalk) (a : Awaited) (m : FlatUnixFs) (last : Bool) (item : ContinuedWalk) : Prop :=
  (¬ (a.what = .bucket ∧ RootBuckets before) → itemFor before a m last = some item) ∧
  (a.what = .bucket → RootBuckets before → m.data.Ty = .HAMTShard ∧ item = .Bucket cid ⟨false, a.path⟩)

theorem rootDepth (name : Bytes) : (if name = [] then 1 else 2) = (rootPath name).length + 1 := by
  unfold rootPath
  split <;> rfl

end Verif
