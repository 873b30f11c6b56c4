import Verif.Proof.FullHistory
import Verif.Props.FullNext
/-! # C105: any number of sessions, any number of documents

A session may follow one that used up the ids.  The ids go on where they were; if the number of records
was a multiple of `2 ^ 32` the first id of the session is 1. -/

namespace Dupi.Props
open Spec

theorem laid_few {u : Uni} {c : Config} {h : Sessions} (hp : FewPaths ((documents h).map fun s => s.path)) (hb : 23 * numBlots u c (documents h) < 2 ^ 63)
    (hs : FewUnder u c (laidFrom [] h)) : RingRoom u c (laidFrom [] h) := laid_room hp hb hs.short

/-- **C105, any sessions.**  After any number of sessions with any numbers of documents, under any
schedules, the directory can be opened and queried; `Get` and `Next` show for each id under a blot the
document of the first record with the id. -/
theorem C105_sessions_partial {u : Uni} {J : CfgCodec} {c : Config} (hU : Usable J c) (hw : c.numShatters < 2 ^ 32) {srt : Sorter} (hsrt : IsSorter srt)
    {h : Sessions} (hp : FewPaths ((documents h).map fun s => s.path)) (hb : 23 * numBlots u c (documents h) < 2 ^ 63)
    (hs : FewUnder u c (laidFrom [] h)) {d : Dir} (hh : History u J c h d) :
    AnswersFull u J srt c (laidFrom [] h) d ∧ ListsFull u J srt c (laidFrom [] h) d := by
  have hf := laid_few hp hb hs
  have hr := History.ring hU hw hh hf
  have hl := laidFrom_low h [] (by intro k s _ hk; simp at hk)
  exact ⟨full_answers hU hsrt hr hf.paths hf.posts hl, full_lists hU hsrt hr hf.paths hf.posts hl⟩

/-- Any sessions can happen: each can be brought to its end, and the next begun. -/
theorem C105_sessions_exist_partial {u : Uni} {J : CfgCodec} {c : Config} (hU : Usable J c) (hw : c.numShatters < 2 ^ 32)
    (s : Bytes × List Doc) (h : Sessions) (hp : FewPaths ((documents (s :: h)).map fun s => s.path)) (hb : 23 * numBlots u c (documents (s :: h)) < 2 ^ 63)
    (hs : FewUnder u c (laidFrom [] (s :: h))) : ∃ d, History u J c (s :: h) d :=
  History.ring_exists hU hw s h (laid_few hp hb hs)

/-- **C105 is false of sessions.**  A session adds `2 ^ 32 - 1` documents without text, which have all the ids
there are; the next one adds a text.  Under each blot of the text `Get` shows the first document of the
first session, and nothing else. -/
theorem C105_sessions_false {u : Uni} {J : CfgCodec} {c : Config} (hU : Usable J c) (hw : c.numShatters < 2 ^ 32) {srt : Sorter} (hsrt : IsSorter srt)
    (cwd p p' dat : Bytes) (hp : FewPaths [absPath cwd p, absPath cwd p']) (hb : 23 * (blotsOf u c dat).length < 2 ^ 63)
    (b : UInt32) (hd : hasBlot u c dat b.toNat = true) :
    let h : Sessions := [(cwd, List.replicate (2 ^ 32 - 1) ⟨p, 0, 0, some []⟩), (cwd, [⟨p', 0, 1, some dat⟩])]
    (∃ d, History u J c h d) ∧ ∀ d, History u J c h d → ∃ y q, Index.open J srt d = .ok y ∧ y.startQuery = .ok q ∧
      ∀ grow fuel, 1 < fuel → ∃ r, Query.get grow y fuel q ⟨b, none⟩ = .ok r ∧ r.vis = [⟨absPath cwd p, 0, 0, none⟩] := by
  intro h
  have he := blotsOf_nil u c
  have hno : ∀ b, hasBlot u c [] b = false := by intro b; simp [hasBlot, he]
  have hdoc : documents h = List.replicate (2 ^ 32 - 1) ⟨placeName (place cwd p), 0, 0, []⟩ ++ [⟨placeName (place cwd p'), 0, 1, dat⟩] := by
    simp only [h, documents, List.flatMap_cons, List.flatMap_nil, List.append_nil, added, List.map_replicate, List.map_cons, List.map_nil, Option.getD_some]
  have hlaid : laidFrom [] h = List.replicate (2 ^ 32 - 1) ⟨placeName (place cwd p), 0, 0, []⟩ ++ [noDocument] ++ [⟨placeName (place cwd p'), 0, 1, dat⟩] := by
    simp only [h, laidFrom, filler, List.length_nil, if_neg (show ¬ (0 + 1) % 2 ^ 32 = 0 by omega), List.append_nil, List.nil_append, added, List.map_replicate,
      Option.getD_some, List.length_replicate, if_pos (show (2 ^ 32 - 1 + 1) % 2 ^ 32 = 0 by omega), List.map_cons, List.map_nil]
  have hids : ∀ b, idsUnder u c (laidFrom [] h) b = if hasBlot u c dat b then [1] else [] := by
    intro b
    have h0 : ∀ (n i : Nat), idsWith (fun s => hasBlot u c s.dat b) i (List.replicate n ⟨placeName (place cwd p), 0, 0, []⟩) = [] := by
      intro n
      induction n with
      | zero => intro i; rfl
      | succ n ih => intro i; rw [List.replicate_succ, idsWith, if_neg (by simp [hno]), ih]
    have e : idsUnder u c (laidFrom [] h) b = idsWith (fun s => hasBlot u c s.dat b) 1 (laidFrom [] h) :=
      (idsWith_zip (fun s => hasBlot u c s.dat b) (laidFrom [] h) 1).symm
    rw [e, hlaid, idsWith_append, idsWith_append, h0, List.nil_append, List.length_append, List.length_replicate]
    simp only [idsWith, noDocument, hno, List.length_cons, List.length_nil, Bool.false_eq_true, if_false, List.nil_append]
    have : UInt32.ofNat (1 + (2 ^ 32 - 1 + (0 + 1))) = 1 := UInt32.toNat_inj.mp (by rw [UInt32.toNat_ofNat', UInt32.toNat_one]; omega)
    rw [this]
  have hc : ∀ b, (compress (idsUnder u c (laidFrom [] h) b)).length ≤ 1 := by
    intro b; rw [hids]; split <;> simp [compress]
  have hp' : FewPaths ((documents h).map fun s => s.path) := by
    refine Fnames.FewPaths.mono ?_ hp
    intro s hs
    rw [hdoc] at hs
    simp only [List.map_append, List.map_replicate, List.mem_append, List.mem_replicate, List.map_cons, List.map_nil, List.mem_singleton] at hs
    rcases hs with ⟨_, rfl⟩ | rfl
    · rw [absPath_place]; simp
    · rw [← absPath_place cwd p']; simp
  have hnb : numBlots u c (documents h) = (blotsOf u c dat).length := by
    rw [hdoc, numBlots_append]
    simp only [numBlots, List.map_replicate, he, List.length_nil, List.sum_replicate, smul_eq_mul, Nat.mul_zero, Nat.zero_add, List.map_cons, List.map_nil,
      List.sum_cons, List.sum_nil, Nat.add_zero]
  have hfew : FewUnder u c (laidFrom [] h) := fun b _ => by have := hc b; omega
  refine ⟨C105_sessions_exist_partial hU hw _ _ hp' (by rw [hnb]; exact hb) hfew, fun d hh => ?_⟩
  obtain ⟨⟨y, q, k1, k2, k3⟩, _⟩ := C105_sessions_partial hU hw hsrt hp' (by rw [hnb]; exact hb) hfew hh
  refine ⟨y, q, k1, k2, fun grow fuel hf => ?_⟩
  obtain ⟨r, r1, r2, r3⟩ := k3 grow b fuel (by have := hc b.toNat; omega)
  refine ⟨r, r1, ?_⟩
  rw [hids, if_pos hd] at r3
  have e1 : compress [(1 : UInt32)] = [1] := rfl
  rw [e1] at r3
  generalize r.vis = v at r3
  cases r3 with
  | cons h1 h2 =>
    cases h2
    rcases h1 with ⟨h0, _⟩ | ⟨_, s, hs, rfl⟩
    · exact absurd h0 (by decide)
    · have hz : (2 : Nat) ^ 32 - 1 = (2 ^ 32 - 2) + 1 := by omega
      rw [hlaid, show (1 : UInt32).toNat - 1 = 0 from rfl, hz, List.replicate_succ] at hs
      simp only [List.cons_append, List.getElem?_cons_zero, Option.some.injEq] at hs
      subst hs
      rw [absPath_place]; rfl

/-- below the limit the records are those of the documents -/
theorem laidFrom_documents (h : Sessions) : ∀ docs, docs.length + (documents h).length + 1 < 2 ^ 32 → laidFrom docs h = docs ++ documents h := by
  induction h with
  | nil => intro docs _; simp [laidFrom, documents]
  | cons s h ih =>
    intro docs hl
    have e : documents (s :: h) = added s.1 s.2 ++ documents h := rfl
    rw [e, List.length_append] at hl
    have hfl : filler docs = [] := by rw [filler, if_neg (by omega)]
    rw [laidFrom, hfl, List.append_nil, ih _ (by rw [List.length_append]; omega), e, List.append_assoc]

/-- the hypotheses hold of the examples -/
theorem C105_sessions_nonvacuous : Usable Json.codec exCmdConfig ∧ exCmdConfig.numShatters < 2 ^ 32 ∧ IsSorter mergeSorter ∧
    FewPaths ((documents exCmdSessions).map fun s => s.path) ∧ 23 * numBlots asciiUni exCmdConfig (documents exCmdSessions) < 2 ^ 63 ∧
    FewUnder asciiUni exCmdConfig (laidFrom [] exCmdSessions) ∧ ∃ d, History asciiUni Json.codec exCmdConfig exCmdSessions d := by
  refine ⟨exCmd_usable, by decide, mergeSorter_isSorter, exCmd_fits.paths, exCmd_fits.posts, ?_,
    History.exists (u := asciiUni) exCmd_usable [47] [⟨[116, 47, 112], 0, 22, some exText1⟩, ⟨[116, 47, 113], 0, 24, some exText2⟩] [] exCmd_fits⟩
  intro b _
  rw [laidFrom_documents _ _ (by have := exCmd_fits.ids; simpa using this), List.nil_append]
  have h1 : ∀ l : List UInt32, (compress l).length ≤ l.length := by
    intro l
    induction l using snocInd with
    | nil => simp [compress]
    | snoc l v ih =>
      rw [compress_snoc, List.length_append]
      split
      · omega
      · rw [List.length_append]; simpa using ih
  have h2 : (idsUnder asciiUni exCmdConfig (documents exCmdSessions) b).length ≤ (documents exCmdSessions).length := by
    unfold idsUnder
    rw [List.length_map]
    refine Nat.le_trans (List.length_filter_le _ _) ?_
    rw [List.length_zipIdx]
  have := exCmd_fits.ids
  have := h1 (idsUnder asciiUni exCmdConfig (documents exCmdSessions) b)
  omega

end Dupi.Props
