import Verif.Proof.Cut
import Verif.Props.ConfigExact
import Verif.Props.Commands
/-! # C93: an index whose files were lost or cut short -/

namespace Dupi.Props
open Spec

/-- What is left of a configuration file that was cut short says the same, or is refused. -/
theorem C93_config (t : Bytes) (c : Config) (h : Json.codec.dec t = .ok c) (k : Nat) :
    Json.codec.dec (t.take k) = .ok c ∨ ∃ e, Json.codec.dec (t.take k) = fail e := by
  by_cases hc : ∃ c', Json.codec.dec (t.take k) = .ok c'
  · obtain ⟨c', hc⟩ := hc
    left
    obtain ⟨v, ⟨w, s, w', e, hw, hs, hw'⟩, hd, _⟩ := (Json.unmarshal_exact t c).mp h
    obtain ⟨v2, ⟨w2, s2, w2', e2, hw2, hs2, hw2'⟩, hd2, ms, hv2, _⟩ := (Json.unmarshal_exact _ c').mp hc
    have r1 := Json.text_read_of Json.lax_str_read hs
    have r2 := Json.text_read_of Json.lax_str_read hs2
    have p1 := r1.read 10001 w' (by omega) (.inl (Json.Blank.ends hw'))
    have p2 := r2.read 10001 (w2' ++ t.drop k) (by omega) (.inr (by rcases hv2 with rfl | ⟨rfl, _⟩ <;> intro l <;> exact JVal.noConfusion))
    have q1 := Json.skip_starts hw r1.starts w'
    have q2 := Json.skip_starts hw2 r2.starts (w2' ++ t.drop k)
    have e3 : t = w2 ++ (s2 ++ (w2' ++ t.drop k)) := by
      rw [← List.append_assoc s2, ← List.append_assoc w2, ← e2, List.take_append_drop]
    rw [← e] at q1
    rw [← e3] at q2
    rw [← q1] at p1
    rw [← q2, p1] at p2
    injection p2 with p2
    injection p2 with p2 _
    have g1 := (Json.parse_exact t _).mpr ⟨v, ⟨w, s, w', e, hw, hs, hw'⟩, hd, rfl⟩
    have g2 := (Json.parse_exact (t.take k) _).mpr ⟨v2, ⟨w2, s2, w2', e2, hw2, hs2, hw2'⟩, hd2, rfl⟩
    change Json.unmarshal t = _ at h
    show Json.unmarshal (t.take k) = _
    unfold Json.unmarshal at h ⊢
    rw [g1] at h
    rw [g2, ← p2]
    exact h
  · exact .inr (Json.errs_of_not_ok (Json.codec_tame _) fun c' h' => hc ⟨c', h'⟩)

theorem readFrom_cutFrom {d d' : Dir} (h : CutFrom d d') {c : Config} (hc : Config.readFrom Json.codec d = .ok c) :
    OrErr (Config.readFrom Json.codec d) (Config.readFrom Json.codec d') := by
  unfold Config.readFrom at hc ⊢
  rcases read_cutFrom h .cfg with ⟨e, h1⟩ | ⟨b, k, h1, h2⟩
  · rw [h1]; exact .inr ⟨e, rfl⟩
  · rw [h1] at hc ⊢
    rw [h2]
    simp only [bind, Except.bind] at hc ⊢
    cases hb : Json.codec.dec b with
    | error f => rw [hb] at hc; cases hc
    | ok c0 =>
      rcases C93_config b c0 hb k with g | ⟨e, g⟩
      · rw [g]; exact .inl rfl
      · rw [g]; exact .inr ⟨e, rfl⟩

/-- `Index.open`, for any contents of the directory that could be read before. -/
theorem open_cutFrom {srt : Sorter} {d d' : Dir} {x : Index} (h : CutFrom d d') (hx : Index.open Json.codec srt d = .ok x) :
    (∃ e, Index.open Json.codec srt d' = fail e) ∨ ∃ ks kd, Index.open Json.codec srt d' = .ok (x.cut ks kd) := by
  have hc : ∃ c, Config.readFrom Json.codec d = .ok c := by
    unfold Index.open at hx
    cases hc : Config.readFrom Json.codec d with
    | error f => rw [hc] at hx; cases hx
    | ok c => exact ⟨c, rfl⟩
  obtain ⟨c, hc⟩ := hc
  rcases open_cut Json.codec srt h (readFrom_cutFrom h hc) with g | ⟨ks, kd, g⟩
  · exact .inl g
  · rw [hx] at g; exact .inr ⟨ks, kd, g⟩

theorem nextCalls_cut (grow : Nat → Nat) (x : Index) (ks : Nat → Nat) (kd ff fuel : Nat) (dsts : List (List Blot)) : ∀ q : QState,
    OrErr ((nextCalls grow x ff fuel q dsts).map (List.map (Query.NextResult.cut ks))) (nextCalls grow (x.cut ks kd) ff fuel (q.cut ks) dsts) := by
  induction dsts with
  | nil => intro q; exact .inl rfl
  | cons dst dsts ih =>
    intro q
    unfold nextCalls
    simp only [bind, Except.bind]
    rcases next_cut grow x ks kd ff fuel q dst with h | ⟨e, h⟩
    · rw [h]
      cases Query.next grow x ff fuel q dst with
      | error f => exact .inl rfl
      | ok r =>
        simp only [Except.map]
        rcases ih r.state with g | ⟨e, g⟩
        · have g' : nextCalls grow (x.cut ks kd) ff fuel (Query.NextResult.cut ks r).state dsts = _ := g
          rw [g']
          cases nextCalls grow x ff fuel r.state dsts <;> exact .inl rfl
        · have g' : nextCalls grow (x.cut ks kd) ff fuel (Query.NextResult.cut ks r).state dsts = _ := g
          rw [g']; exact .inr ⟨e, rfl⟩
    · rw [h]; exact .inr ⟨e, rfl⟩

/-- what a caller of `Next` sees -/
def seen (r : Query.NextResult) : Nat × Bool × List Blot := (r.n, r.eof, r.dst)

/-- **C93.**  Let an index directory `d`, whatever is in it, be one that opens, and let any of its files be lost or cut short.
Then opening it reports an error; or it opens, a query can be started, and every `Get` of any blot into any slice, and any number of calls of `Next` with any
slices, return the same as before the damage, or an error. -/
theorem C93_cut {srt : Sorter} {d d' : Dir} {x : Index} {q : QState} (h : CutFrom d d') (hx : Index.open Json.codec srt d = .ok x)
    (hq : x.startQuery = .ok q) :
    (∃ e, Index.open Json.codec srt d' = fail e) ∨
    ∃ x' q', Index.open Json.codec srt d' = .ok x' ∧ x'.startQuery = .ok q' ∧
      (∀ grow fuel b, Query.get grow x' fuel q' b = Query.get grow x fuel q b ∨ ∃ e, Query.get grow x' fuel q' b = fail e) ∧
      ∀ grow ff fuel dsts, (nextCalls grow x' ff fuel q' dsts).map (List.map seen) = (nextCalls grow x ff fuel q dsts).map (List.map seen) ∨
        ∃ e, nextCalls grow x' ff fuel q' dsts = fail e := by
  rcases open_cutFrom h hx with g | ⟨ks, kd, g⟩
  · exact .inl g
  · refine .inr ⟨x.cut ks kd, q.cut ks, g, by rw [startQuery_cut, hq]; rfl, fun grow fuel b => ?_, fun grow ff fuel dsts => ?_⟩
    · exact get_cut grow x ks kd fuel q (q.cut ks) rfl b
    · rcases nextCalls_cut grow x ks kd ff fuel dsts q with m | m
      · left
        rw [m]
        cases nextCalls grow x ff fuel q dsts with
        | error f => rfl
        | ok rs =>
          simp only [Except.map, List.map_map]
          rfl
      · exact .inr m

theorem Enumerates.of_seen {docsOf : UInt32 → List Doc} : ∀ (dsts : List (List Blot)) (E : List UInt32) (rs rs' : List Query.NextResult),
    rs'.map seen = rs.map seen → Enumerates docsOf E dsts rs → Enumerates docsOf E dsts rs' := by
  intro dsts
  induction dsts with
  | nil =>
    intro E rs rs' he h
    cases rs with
    | nil =>
      cases rs' with
      | nil => trivial
      | cons => cases he
    | cons => exact h.elim
  | cons dst dsts ih =>
    intro E rs rs' he h
    cases rs with
    | nil => exact h.elim
    | cons r rs =>
      cases rs' with
      | nil => cases he
      | cons r' rs' =>
        simp only [List.map_cons, List.cons.injEq] at he
        obtain ⟨e1, e2⟩ := he
        simp only [seen, Prod.mk.injEq] at e1
        obtain ⟨f1, f2, f3⟩ := e1
        obtain ⟨g1, g2, g3, g4, g5⟩ := h
        refine ⟨by rw [f1]; exact g1, by rw [f2]; exact g2, by rw [f3]; exact g3, by rw [f3]; exact g4, ih _ _ _ e2 g5⟩

section
variable {u : Uni} {srt : Sorter} {c : Config} (hU : Usable Json.codec c) (hsrt : IsSorter srt)
include hU hsrt

/-- **C93** for an index that was made by indexing sessions: once files were lost or cut short, what comes back without an error is right.  `Get` returns
precisely the documents with the blot, and the calls of `Next` precisely the blots with two or more documents, as in C21 and C23. -/
theorem C93_answers {h : Sessions} {d d' : Dir} (hd : History u Json.codec c h d) (hf : Fits u c (documents h)) (hcut : CutFrom d d') :
    (∃ e, Index.open Json.codec srt d' = fail e) ∨
    ∃ x q, Index.open Json.codec srt d' = .ok x ∧ x.startQuery = .ok q ∧
      (∀ grow b fuel, (documents h).length < fuel → (∃ e, Query.get grow x fuel q ⟨b, none⟩ = fail e) ∨
        ∃ r, Query.get grow x fuel q ⟨b, none⟩ = .ok r ∧ r.blot = b ∧ r.vis = (found u c (documents h) b.toNat).map Document.shown) ∧
      ∃ E : List UInt32, E.Nodup ∧ (∀ b : UInt32, b ∈ E ↔ b.toNat < numBuckets c ∧ 2 ≤ (found u c (documents h) b.toNat).length) ∧
        ∀ grow ff fuel dsts, (∀ dst ∈ dsts, ∀ b ∈ dst, b.docs = none) → 2 ^ 32 ≤ ff → E.length + c.numShards.toNat + 2 ^ 32 < fuel →
          (∃ e, nextCalls grow x ff fuel q dsts = fail e) ∨
          ∃ rs, nextCalls grow x ff fuel q dsts = .ok rs ∧ Enumerates (fun b => (found u c (documents h) b.toNat).map Document.shown) E dsts rs := by
  obtain ⟨x0, q0, o1, hr⟩ := reading_exists hU hsrt hd hf
  rcases C93_cut hcut o1 hr.start with g | ⟨x, q, g1, g2, g3, g4⟩
  · exact .inl g
  · obtain ⟨E, e1, e2, _, e4⟩ := C23_enumerates hU hsrt hr hf
    refine .inr ⟨x, q, g1, g2, fun grow b fuel hfuel => ?_, E, e1, e2, fun grow ff fuel dsts hn hff hfu => ?_⟩
    · obtain ⟨r, k1, k2, k3⟩ := C21_get hU hsrt hr hf grow b fuel hfuel (q' := q0) rfl
      rcases g3 grow fuel ⟨b, none⟩ with m | m
      · exact .inr ⟨r, m.trans k1, k2, k3⟩
      · exact .inl m
    · obtain ⟨rs, k1, k2⟩ := e4 grow ff fuel dsts hn hff hfu
      rcases g4 grow ff fuel dsts with m | m
      · rw [k1] at m
        cases hm : nextCalls grow x ff fuel q dsts with
        | error f => rw [hm] at m; cases m
        | ok rs' =>
          rw [hm] at m
          simp only [Except.map, Except.ok.injEq] at m
          exact .inr ⟨rs', rfl, Enumerates.of_seen dsts E rs rs' m k2⟩
      · exact .inl m

/-- A loss that matters is noticed: when the posting files are emptied, the index opens, and `Get` of a blot that some document has is an error. -/
theorem C93_noticed {h : Sessions} {d : Dir} (hd : History u Json.codec c h d) (hf : Fits u c (documents h)) {d' : Dir}
    (hpos : ∀ i, d' (.pos i) = (d (.pos i)).map fun _ => []) (hrest : ∀ f, (∀ i, f ≠ .pos i) → d' f = d f) :
    CutFrom d d' ∧ ∃ (x : Index) (q : QState), Index.open Json.codec srt d' = .ok x ∧ x.startQuery = .ok q ∧
      ∀ (b : UInt32), found u c (documents h) b.toNat ≠ [] → ∀ grow fuel, (documents h).length < fuel → ∃ e, Query.get grow x fuel q ⟨b, none⟩ = fail e := by
  have hcut : CutFrom d d' := by
    intro f
    by_cases hp : ∃ i, f = .pos i
    · obtain ⟨i, rfl⟩ := hp
      rw [hpos i]
      cases d (.pos i) with
      | none => exact .inl rfl
      | some b => exact .inr ⟨b, 0, rfl, rfl⟩
    · rw [hrest f (fun i hi => hp ⟨i, hi⟩)]
      cases d f with
      | none => exact .inl rfl
      | some b => exact .inr ⟨b, b.length, rfl, by rw [List.take_length]⟩
  refine ⟨hcut, ?_⟩
  obtain ⟨x0, q0, o1, _⟩ := reading_exists hU hsrt hd hf
  obtain ⟨x, hx⟩ := open_again hrest (fun i b hb => ⟨[], by rw [hpos i, hb]; rfl⟩) o1
  rcases C93_answers hU hsrt hd hf hcut with ⟨e, g⟩ | ⟨x', q, g1, hq, g3, _⟩
  · rw [hx] at g; cases g
  · rw [hx] at g1; injection g1 with g1; subst g1
    refine ⟨x, q, hx, hq, fun b hb grow fuel hfuel => ?_⟩
    rcases g3 grow b fuel hfuel with m | ⟨r, m1, m2, m3⟩
    · exact m
    · exfalso
      have hpost : ∀ s ∈ x.shards, s.file = [] := by
        intro s hs
        obtain ⟨j, hj⟩ := open_files hx s hs
        rw [hpos j] at hj
        cases hdj : d (.pos j) with
        | none => rw [hdj] at hj; cases hj
        | some b => rw [hdj] at hj; injection hj with hj; exact hj.symm
      rw [get_nil_file grow x fuel q b hpost m1] at m3
      cases hfd : found u c (documents h) b.toNat with
      | nil => exact hb hfd
      | cons a l => rw [hfd] at m3; cases m3
end

/-- There is such an index, with a blot that is found in both of its documents; emptied, it says so. -/
theorem C93_nonvacuous : ∃ (d d' : Dir) (x : Index) (q : QState) (b : UInt32), History asciiUni Json.codec exCmdConfig exCmdSessions d ∧ CutFrom d d' ∧
    Index.open Json.codec mergeSorter d' = .ok x ∧ x.startQuery = .ok q ∧ (found asciiUni exCmdConfig (documents exCmdSessions) b.toNat).length = 2 ∧
    ∃ e, Query.get (fun _ => 0) x 3 q ⟨b, none⟩ = fail e := by
  obtain ⟨d, hd⟩ := History.exists (u := asciiUni) exCmd_usable [47] [⟨[116, 47, 112], 0, 22, some exText1⟩, ⟨[116, 47, 113], 0, 24, some exText2⟩] [] exCmd_fits
  change History asciiUni Json.codec exCmdConfig exCmdSessions d at hd
  obtain ⟨h1, x, q, h2, h3, h4⟩ := C93_noticed exCmd_usable mergeSorter_isSorter hd exCmd_fits
    (d' := fun f => match f with | .pos i => (d (.pos i)).map fun _ => [] | f => d f) (fun i => rfl)
    (fun f hf => by cases f with
      | pos i => exact absurd rfl (hf i)
      | _ => rfl)
  have hb : (found asciiUni exCmdConfig (documents exCmdSessions) (1 : UInt32).toNat).length = 2 := by rw [exCmd_docs]; decide +kernel
  refine ⟨d, _, x, q, 1, hd, h1, h2, h3, hb, h4 1 (fun h => ?_) _ 3 (by rw [exCmd_docs]; decide)⟩
  rw [h] at hb
  cases hb

end Dupi.Props
