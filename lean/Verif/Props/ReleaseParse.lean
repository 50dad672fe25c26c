import Verif.ReleaseParseLemmas
import Verif.Spec.ReleaseParse
import Verif.Props.Parsing
import Verif.Props.Text
/-
C108: reading blocks in a release build.
-/
namespace Verif.Props
open Verif Verif.Spec

/-- On blocks which nothing overruns, a release build reads what a build with overflow checks reads. (No slice of Rust has 2^63 bytes.) -/
theorem C108_agrees (b : Bytes) (hb : b.length < 2 ^ 63) (h : ¬ Overrun b) : FlatUnixFs.tryParseR b = some (FlatUnixFs.tryParse b) :=
  flat_agree hb (fun e => h (.inl ((C51_exact_partial b).1 e))) (fun n e => h (.inr ((C51_exact_data_partial b).1 ⟨n, e⟩)))

/-- So only such blocks are read forever. -/
theorem C108_ends (b : Bytes) (hb : b.length < 2 ^ 63) (h : FlatUnixFs.tryParseR b = none) : Overrun b :=
  Classical.byContradiction fun hn => by rw [C108_agrees b hb hn] at h; cases h

/-- Whatever is read comes from the block: hashes, names and data are parts of it, names are UTF-8, numbers are in the range of their type. -/
theorem C108_inside (b : Bytes) (m : FlatUnixFs) (h : FlatUnixFs.tryParseR b = some (.ok m)) :
    (∀ l ∈ m.links, (∀ x, l.Hash = some x → x <:+: b) ∧ (∀ x, l.Name = some x → x <:+: b ∧ IsText x) ∧ ∀ n, l.Tsize = some n → n < 2 ^ 64) ∧
    (∀ x, m.data.Data = some x → x <:+: b) ∧ (∀ n, m.data.filesize = some n → n < 2 ^ 64) ∧ ∀ n ∈ m.data.blocksizes, n < 2 ^ 64 := by
  have := flat_keeps h
  exact ⟨fun l hl => ⟨(this.1 l hl).1, fun x hx => ⟨((this.1 l hl).2.1 x hx).1, (C91_text x).1 ((this.1 l hl).2.1 x hx).2⟩, (this.1 l hl).2.2⟩,
    this.2.1, this.2.2.1, this.2.2.2.1⟩

/-! ### blocks which are read forever -/

theorem subW_under {a b : Nat} (h : a < b) (hb : b ≤ U64) : subW a b = U64 - (b - a) := by
  unfold subW
  generalize U64 = w at hb ⊢
  rw [show a + w - b = w - (b - a) from by omega, Nat.mod_eq_of_lt (by omega)]

theorem addW_back {a k : Nat} (h : k ≤ a) (ha : a < U64) (hk : 0 < k) (hk' : k ≤ U64) : addW a (U64 - k) = a - k := by
  unfold addW
  generalize U64 = w at ha hk' ⊢
  rw [show a + (w - k) = (a - k) + w from by omega, Nat.add_mod_right, Nat.mod_eq_of_lt (by omega)]

theorem skip_back {buf : Bytes} {pos stop k : Nat} (h1 : stop + k ≥ pos) (h2 : k ≤ pos) (h3 : stop < pos) (h4 : pos < U64) :
    ReaderR.skip ⟨buf, pos, stop⟩ (U64 - k) = .ok ⟨buf, pos - k, stop⟩ := by
  unfold ReaderR.skip
  rw [subW_under h3 (Nat.le_of_lt h4), addW_back h2 h4 (by omega) (by omega)]
  rw [if_neg]
  show ¬ U64 - (pos - stop) < U64 - k
  omega

attribute [local irreducible] addW subW

theorem unknown_delimited_step {r : ReaderR} {tag len : Nat} {r1 : Reader} {r2 : ReaderR} {M : Type} (m : M) (h : tag % 8 = 2)
    (hv : r.view.readVarint64 = .ok (len, r1)) (hs : (r.at r1).skip len = .ok r2) :
    (r.readUnknown tag >>= fun r => (.ok (m, r) : Except PbError (M × ReaderR))) = .ok (m, r2) := by
  rw [ReaderR.readUnknown_delimited h hv, hs]
  rfl

theorem endless_link {buf after : Bytes} {p : Nat} (hb : buf.length < 2 ^ 63)
    (hd : buf.drop p = ([0x0a, 0x03, 1, 2, 3, 0x22] ++ minusSixteen) ++ after) (m : PBLink) :
    fromReaderR PBLink.stepR m ⟨buf, p, p + 2⟩ = none := by
  have hd5 : buf.drop (p + 5) = (0x22 :: minusSixteen) ++ after := by rw [← List.drop_drop, hd]; rfl
  have hd1 : buf.drop (p + 1) = ([0x03, 1, 2, 3, 0x22] ++ minusSixteen) ++ after := by rw [← List.drop_drop, hd]; rfl
  have hd6 : buf.drop (p + 6) = minusSixteen ++ after := by rw [← List.drop_drop, hd]; rfl
  have hlen : 16 ≤ buf.length - p := by
    rw [← List.length_drop, hd, List.length_append]; exact Nat.le_add_right 16 _
  refine fromReaderR_never (fun r => r = ⟨buf, p, p + 2⟩ ∨ r = ⟨buf, p + 5, p + 2⟩) ?_ (.inl rfl)
  rintro m r (rfl | rfl)
  · refine ⟨by show p ≠ p + 2; omega, 10, ⟨buf, p + 1, p + 2⟩, { m with Hash := some [1, 2, 3] }, ⟨buf, p + 5, p + 2⟩, ?_, ?_, .inr rfl⟩
    · rw [ReaderR.readVarint32, ReaderR.view]; rw [hd]; rfl
    · unfold PBLink.stepR ReaderR.readBytes ReaderR.view
      rw [hd1]; rfl
  · refine ⟨by show p + 5 ≠ p + 2; omega, 34, ⟨buf, p + 6, p + 2⟩, m, ⟨buf, p, p + 2⟩, ?_, ?_, .inl rfl⟩
    · rw [ReaderR.readVarint32, ReaderR.view]; rw [hd5]; rfl
    · refine congrArg some (unknown_delimited_step (len := U64 - 16) (r1 := ⟨p + 16, p + 2, after⟩) m rfl ?_ ?_)
      · rw [ReaderR.view, hd6]; rfl
      · exact skip_back (buf := buf) (pos := p + 16) (stop := p + 2) (k := 16) (by omega) (by omega) (by omega) (by rw [U64_eq]; omega)

theorem endless_time {buf after : Bytes} {p : Nat} (hb : buf.length < 2 ^ 63)
    (hd : buf.drop p = ([0x08, 0x05, 0x12] ++ minusThirteen) ++ after) (m : UnixTime) :
    fromReaderR UnixTime.stepR m ⟨buf, p, p + 1⟩ = none := by
  have hd1 : buf.drop (p + 1) = ([0x05, 0x12] ++ minusThirteen) ++ after := by rw [← List.drop_drop, hd]; rfl
  have hd2 : buf.drop (p + 2) = (0x12 :: minusThirteen) ++ after := by rw [← List.drop_drop, hd]; rfl
  have hd3 : buf.drop (p + 3) = minusThirteen ++ after := by rw [← List.drop_drop, hd]; rfl
  have hlen : 13 ≤ buf.length - p := by
    rw [← List.length_drop, hd, List.length_append]; exact Nat.le_add_right 13 _
  refine fromReaderR_never (fun r => r = ⟨buf, p, p + 1⟩ ∨ r = ⟨buf, p + 2, p + 1⟩) ?_ (.inl rfl)
  rintro m r (rfl | rfl)
  · refine ⟨by show p ≠ p + 1; omega, 8, ⟨buf, p + 1, p + 1⟩, { m with Seconds := 5 }, ⟨buf, p + 2, p + 1⟩, ?_, ?_, .inr rfl⟩
    · rw [ReaderR.readVarint32, ReaderR.view]; rw [hd]; rfl
    · unfold UnixTime.stepR ReaderR.readVarint64 ReaderR.view
      rw [hd1]; rfl
  · refine ⟨by show p + 2 ≠ p + 1; omega, 18, ⟨buf, p + 3, p + 1⟩, m, ⟨buf, p, p + 1⟩, ?_, ?_, .inl rfl⟩
    · rw [ReaderR.readVarint32, ReaderR.view]; rw [hd2]; rfl
    · refine congrArg some (unknown_delimited_step (len := U64 - 13) (r1 := ⟨p + 13, p + 1, after⟩) m rfl ?_ ?_)
      · rw [ReaderR.view, hd3]; rfl
      · exact skip_back (buf := buf) (pos := p + 13) (stop := p + 1) (k := 13) (by omega) (by omega) (by omega) (by rw [U64_eq]; omega)

/-- A message at whose end a nested message is read forever. -/
theorem message_none {M : Type} {stepR : Nat → M → ReaderR → Option (Except PbError (M × ReaderR))} {dflt : M} {r r1 : ReaderR} {len : Nat}
    (hv : r.readVarint32 = .ok (len, r1)) (h : fromReaderR stepR dflt ⟨r1.buf, r1.pos, addW r1.pos len⟩ = none) : r.readMessage stepR dflt = none := by
  unfold ReaderR.readMessage
  rw [hv]
  show (fromReaderR stepR dflt ⟨r1.buf, r1.pos, addW r1.pos len⟩).bind _ = none
  rw [h]
  rfl

/-- Behind any fields of a node, a link can make a release build read forever. -/
theorem C108_hangs (before after : Bytes) (ns : List NodeField) (h : IsNode before ns) (hb : (before ++ (endlessLink ++ after)).length < 2 ^ 63) :
    FlatUnixFs.tryParseR (before ++ (endlessLink ++ after)) = none := by
  generalize hbuf : before ++ (endlessLink ++ after) = buf at hb
  have hd : buf.drop before.length = endlessLink ++ after := by rw [← hbuf, List.drop_left]
  generalize hp : before.length = p at hd
  have hd1 : buf.drop (p + 1) = ([0x02, 0x0a, 0x03, 1, 2, 3, 0x22] ++ minusSixteen) ++ after := by rw [← List.drop_drop, hd]; rfl
  have hd2 : buf.drop (p + 2) = ([0x0a, 0x03, 1, 2, 3, 0x22] ++ minusSixteen) ++ after := by rw [← List.drop_drop, hd]; rfl
  have hlen : 18 ≤ buf.length - p := by
    rw [← List.length_drop, hd, List.length_append]; exact Nat.le_add_right 18 _
  obtain ⟨m', hr⟩ := fields_reach nodeStep_exact nodeStep_agree hb h {} 0 (endlessLink ++ after) (by rw [← hbuf]; rfl) (by simp [endlessLink])
  rw [Nat.zero_add, hp] at hr
  have hn : PBNode.tryFromR buf = none := by
    unfold PBNode.tryFromR parseMessageR
    rw [hr, fromReaderR_none (tag := 18) (r1 := ⟨buf, p + 1, buf.length⟩) (by show p ≠ buf.length; omega)
      (by rw [ReaderR.readVarint32, ReaderR.view]; rw [hd]; rfl)]
    · rfl
    · unfold PBNode.stepR
      simp only
      rw [message_none (len := 2) (r1 := ⟨buf, p + 2, buf.length⟩) (by rw [ReaderR.readVarint32, ReaderR.view]; rw [hd1]; rfl)]
      · rfl
      · rw [addW_of_lt (by show p + 2 + 2 < U64; rw [U64_eq]; omega)]
        exact endless_link hb hd2 {}
  unfold FlatUnixFs.tryParseR
  rw [hn]
  rfl

/-- And behind any fields of the Data of any node, a modification time can. -/
theorem C108_hangs_time (b before after : Bytes) (ns : List NodeField) (ds : List DataField) (h : IsNode b ns)
    (hdata : nodeData ns = some (before ++ (endlessTime ++ after))) (hds : IsUnixFs before ds) (hb : b.length < 2 ^ 63) :
    FlatUnixFs.tryParseR b = none := by
  obtain ⟨node, e1, e2, e3⟩ := (node_iff b (nodeLinks ns) (some (before ++ (endlessTime ++ after)))).2 ⟨ns, h, rfl, hdata⟩
  have hin := ((node_tryFrom_good b).2 node e1).2
  cases hd : node.Data with
  | none => rw [hd] at e3; cases e3
  | some s =>
    rw [hd] at e3
    have hs : s.val = before ++ (endlessTime ++ after) := Option.some.inj e3
    have hlb := (hin s hd).1
    unfold FlatUnixFs.tryParseR
    rw [node_agree hb (by rw [e1]; nofun), e1]
    simp only [Option.bind_some, hd]
    rw [if_neg (by rw [hs]; simp [endlessTime])]
    have hlb' : (before ++ (endlessTime ++ after)).length < 2 ^ 63 := by rw [← hs]; omega
    rw [hs]
    clear hs e3 hd hin e1 e2 hlb
    generalize hbuf : before ++ (endlessTime ++ after) = buf at hlb'
    have hd : buf.drop before.length = endlessTime ++ after := by rw [← hbuf, List.drop_left]
    generalize hp : before.length = p at hd
    have hd1 : buf.drop (p + 1) = ([0x01, 0x08, 0x05, 0x12] ++ minusThirteen) ++ after := by rw [← List.drop_drop, hd]; rfl
    have hd2 : buf.drop (p + 2) = ([0x08, 0x05, 0x12] ++ minusThirteen) ++ after := by rw [← List.drop_drop, hd]; rfl
    have hlen : 15 ≤ buf.length - p := by
      rw [← List.length_drop, hd, List.length_append]; exact Nat.le_add_right 15 _
    obtain ⟨m', hr⟩ := fields_reach dataStep_exact dataStep_agree hlb' hds {} 0 (endlessTime ++ after) (by rw [← hbuf]; rfl) (by simp [endlessTime])
    rw [Nat.zero_add, hp] at hr
    have hn : UnixFs.tryFromR (some buf) = none := by
      unfold UnixFs.tryFromR parseMessageR
      rw [show (some buf).getD [] = buf from rfl, hr, fromReaderR_none (tag := 66) (r1 := ⟨buf, p + 1, buf.length⟩) (by show p ≠ buf.length; omega)
        (by rw [ReaderR.readVarint32, ReaderR.view]; rw [hd]; rfl)]
      · rfl
      · unfold UnixFs.stepR
        simp only
        rw [message_none (len := 1) (r1 := ⟨buf, p + 2, buf.length⟩) (by rw [ReaderR.readVarint32, ReaderR.view]; rw [hd1]; rfl)]
        · rfl
        · rw [addW_of_lt (by show p + 2 + 1 < U64; rw [U64_eq]; omega)]
          exact endless_time hlb' hd2 {}
    rw [hn]
    rfl

/-- So the blocks of `C108_hangs` panic in a build with overflow checks. -/
theorem C108_hangs_overrun (before after : Bytes) (ns : List NodeField) (h : IsNode before ns)
    (hb : (before ++ (endlessLink ++ after)).length < 2 ^ 63) : Overrun (before ++ (endlessLink ++ after)) :=
  C108_ends _ hb (C108_hangs before after ns h hb)

/-! ### a block which only release builds accept -/

/-- A block at which a build with overflow checks panics may be accepted by a release build, which reads some of its bytes twice. -/
theorem C108_accepts : FlatUnixFs.tryParse backToEnd = .error (.InvalidDagPb .overflow) ∧
    FlatUnixFs.tryParseR backToEnd = some (.ok (.mk [.mk (some [0x1a, 0x0c, 0x00]) none none] { Ty := .File, filesize := some 0 })) := by
  refine ⟨by decide +kernel, ?_⟩
  have hin : fromReaderR PBLink.stepR {} ⟨backToEnd, 2, 4⟩ = some (.ok (.mk (some [0x1a, 0x0c, 0x00]) none none, ⟨backToEnd, 4, 4⟩)) := by
    rw [fromReaderR_step (tag := 10) (r1 := ⟨backToEnd, 3, 4⟩) (m' := .mk (some [0x1a, 0x0c, 0x00]) none none) (r' := ⟨backToEnd, 7, 4⟩)
        (by decide) (by decide +kernel) (by decide +kernel),
      fromReaderR_step (tag := 34) (r1 := ⟨backToEnd, 8, 4⟩) (m' := .mk (some [0x1a, 0x0c, 0x00]) none none) (r' := ⟨backToEnd, 4, 4⟩)
        (by decide) (by decide +kernel) (by decide +kernel), fromReaderR_end rfl]
  have hnode : PBNode.tryFromR backToEnd = some (.ok (.mk [.mk (some [0x1a, 0x0c, 0x00]) none none] (some ⟨20, [8, 2, 24, 0]⟩))) := by
    unfold PBNode.tryFromR parseMessageR
    have hm : ReaderR.readMessage PBLink.stepR {} ⟨backToEnd, 1, 24⟩ = some (.ok (.mk (some [0x1a, 0x0c, 0x00]) none none, ⟨backToEnd, 4, 24⟩)) := by
      unfold ReaderR.readMessage
      rw [show ReaderR.readVarint32 ⟨backToEnd, 1, 24⟩ = .ok (2, ⟨backToEnd, 2, 24⟩) from by decide +kernel]
      simp only
      rw [show addW 2 2 = 4 from by decide +kernel, hin]
      rfl
    rw [show backToEnd.length = 24 from by decide +kernel,
      fromReaderR_step (tag := 18) (r1 := ⟨backToEnd, 1, 24⟩) (m' := .mk [.mk (some [0x1a, 0x0c, 0x00]) none none] none) (r' := ⟨backToEnd, 4, 24⟩)
        (by decide) (by decide +kernel) (by unfold PBNode.stepR; simp only; rw [hm]; rfl),
      fromReaderR_step (tag := 26) (r1 := ⟨backToEnd, 5, 24⟩) (m' := .mk [.mk (some [0x1a, 0x0c, 0x00]) none none] none) (r' := ⟨backToEnd, 18, 24⟩)
        (by decide) (by decide +kernel) (congrArg some (by decide +kernel)),
      fromReaderR_step (tag := 10) (r1 := ⟨backToEnd, 19, 24⟩) (m' := .mk [.mk (some [0x1a, 0x0c, 0x00]) none none] (some ⟨20, [8, 2, 24, 0]⟩))
        (r' := ⟨backToEnd, 24, 24⟩) (by decide) (by decide +kernel) (congrArg some (by decide +kernel)), fromReaderR_end rfl]
    rfl
  unfold FlatUnixFs.tryParseR
  rw [hnode]
  simp only [Option.bind_some]
  rw [if_neg (by decide), data_agree (by decide) (by decide +kernel)]
  rw [show UnixFs.tryFrom (some [8, 2, 24, 0]) = .ok { Ty := .File, filesize := some 0 } from by decide +kernel]
  rfl

/-! ### cases -/

/-- The hypotheses are met: a file of no bytes is not overrun; the endless link alone, and behind a Data field; the endless time alone. -/
example : ¬ Overrun [0x0a, 0x04, 0x08, 0x02, 0x18, 0x00] := by
  rintro (h | h)
  · exact absurd ((C51_exact_partial _).2 h) (by decide +kernel)
  · obtain ⟨n, hn⟩ := (C51_exact_data_partial _).2 h
    rw [show FlatUnixFs.tryParse [0x0a, 0x04, 0x08, 0x02, 0x18, 0x00] = .ok (.mk [] { Ty := .File, filesize := some 0 }) from by decide +kernel] at hn
    cases hn

example : FlatUnixFs.tryParseR endlessLink = none := C108_hangs [] [] [] .nil (by decide)

example : FlatUnixFs.tryParseR ([0x0a, 0x02, 0x08, 0x02] ++ (endlessLink ++ [])) = none :=
  C108_hangs [0x0a, 0x02, 0x08, 0x02] [] [.data [0x08, 0x02]]
    (.cons (b := [0x0a, 0x02, 0x08, 0x02]) (bs := []) ⟨[0x0a], [0x02], rfl, num32_enc' (n := 10) (by decide), num32_enc' (n := 2) (by decide)⟩ .nil) (by decide)

example : FlatUnixFs.tryParseR (0x0a :: 15 :: endlessTime) = none :=
  C108_hangs_time (0x0a :: 15 :: endlessTime) [] [] [.data endlessTime] []
    (.cons (b := 0x0a :: 15 :: endlessTime) (bs := []) ⟨[0x0a], [15], rfl, num32_enc' (n := 10) (by decide), num32_enc' (n := 15) (by decide)⟩ .nil)
    rfl .nil (by decide)

end Verif.Props
