import Verif.Proof.AnyDrawn
import Verif.Props.AnyNext
import Verif.Props.LimAny
import Verif.Spec.AnyDrawn
/-! # C120: whatever the files, what `Next` hands out stands in them -/

namespace Dupi.Props
open Spec

/-- What one call returned that returned: no more blots than asked for, `io.EOF` iff none; each with documents that follow each other in the list of this blot, at least two,
with the paths, starts and ends of their records.  A nil slice gets all up to the end of the list.  Another slice gets no more than its capacity, and less only if the list
ends.  With `whole` the documents begin where the list begins. -/
structure HandedOut (d : Dir) (dmd : Bytes) (ns : List (Bytes × Nat)) (n : Nat) (whole : Prop) (dst : List Blot) (r : Query.NextResult) : Prop where
  len : r.dst.length = dst.length
  room : r.n ≤ dst.length
  eof : r.eof = true ↔ r.n = 0 ∧ dst ≠ []
  blot : ∀ (i : Nat) b bl, i < r.n → dst[i]? = some b → r.dst[i]? = some bl →
    ∃ j k before ids, j < n ∧ k < 65536 ∧ bl.blot = UInt32.ofNat (k * n + j) ∧
      Stretch d j k before ids (b.docs = none ∨ ids.length < b.cap) ∧
      Each (fun id (doc : Doc) => DocAs dmd ns id doc.path doc.start.toNat doc.stop.toNat) ids bl.vis ∧
      (b.docs ≠ none → ids.length ≤ b.cap) ∧ (whole → before = [])

/-- a document that was shown has a record and a path, which say what was shown -/
theorem shows_as {x : Index} {ns : List (Bytes × Nat)} (hns : x.fnames.map Fnames.says = ns) (hp : ∀ n ∈ ns, n.2 < ns.length) {id : UInt32} {doc : Doc} (h : Shows x id doc) :
    DocAs x.dmd ns id.toNat doc.path doc.start.toNat doc.stop.toNat := by
  obtain ⟨h1, h2⟩ := docid2Doc_exact (x := x) hns hp id
  unfold Shows at h
  by_cases hl : x.dmd.length < 12 * (id.toNat + 1)
  · obtain ⟨e, he⟩ := h1 hl
    rw [h] at he; cases he
  · have hr : RecordAt x.dmd id.toNat (four ((x.dmd.drop (12 * id.toNat)).take 4)) := ⟨by omega, rfl⟩
    generalize hpe : four ((x.dmd.drop (12 * id.toNat)).take 4) = p at hr
    obtain ⟨k1, k2, k3⟩ := h2 p hr
    by_cases hpl : p < ns.length
    · by_cases hc : ∃ cs, Leads ns p cs
      · obtain ⟨cs, hc⟩ := hc
        have hd : DocAs x.dmd ns id.toNat _ _ _ := ⟨p, cs, hr, hpl, hc, rfl, rfl, rfl⟩
        obtain ⟨r, e, z1, z2, z3⟩ := doc_as hns hp id hd
        rw [h] at e; injection e with e
        rw [← e] at z1 z2 z3
        simp only at z1 z2 z3
        rw [z1, z2, z3]; exact hd
      · rw [h] at k3; cases k3 hpl hc
    · rw [h] at k2; cases k2 (by omega)

theorem each_map {α β γ : Type} {R : α → γ → Prop} {S : β → γ → Prop} {f : α → β} (hRS : ∀ a c, R a c → S (f a) c) : ∀ {as : List α} {cs : List γ}, Each R as cs → Each S (as.map f) cs
  | [], [], _ => trivial
  | [], _ :: _, h => h.elim
  | _ :: _, [], h => h.elim
  | _ :: _, _ :: _, h => ⟨hRS _ _ h.1, each_map hRS h.2⟩

theorem nextCalls_drawn {x : Index} (whole : Prop) (grow : Nat → Nat) (ff fuel : Nat) : ∀ (dsts : List (List Blot)) (q : QState) (rs : List Query.NextResult),
    Query.Standing x whole q → (∀ dst ∈ dsts, Emptied dst) → (whole → ∀ dst ∈ dsts, ∀ b ∈ dst, b.docs = none) → nextCalls grow x ff fuel q dsts = .ok rs →
    List.Forall₂ (fun dst r => Emptied dst ∧ Query.DrawnCall x whole (fun i => (dst[i]?.bind (·.docs)).map fun d => d.spare.length) 0 dst r) dsts rs := by
  intro dsts
  induction dsts with
  | nil => intro q rs _ _ _ h; injection h with h; subst h; exact .nil
  | cons dst dsts ih =>
    intro q rs hq hE hw h
    simp only [nextCalls, bind, Except.bind, pure, Except.pure] at h
    cases hr : Query.next grow x ff fuel q dst with
    | error e => rw [hr] at h; cases h
    | ok r =>
      rw [hr] at h
      simp only at h
      cases hrs : nextCalls grow x ff fuel r.state dsts with
      | error e => rw [hrs] at h; cases h
      | ok rs' =>
        rw [hrs] at h
        injection h with h
        subst h
        have hc := Query.nextLoop_drawn whole grow ff (fun i => (dst[i]?.bind (·.docs)).map fun d => d.spare.length) (fun w i => by
            cases hb : dst[i]? with
            | none => rfl
            | some b => simp [hw w dst (by simp) b (List.mem_of_getElem? hb)]) fuel q 0 dst r hq (by
          intro i b _ hb
          rcases hE dst (by simp) b (List.mem_of_getElem? hb) with e | ⟨s, e⟩
          · exact .inl ⟨e, by simp [hb, e]⟩
          · exact .inr ⟨s, e, by simp [hb, e]⟩) (Nat.zero_le _) hr
        exact .cons ⟨hE dst (by simp), hc⟩ (ih r.state rs' hc.rest (fun d hd => hE d (by simp [hd])) (fun w d hd => hw w d (by simp [hd])) hrs)

/-- **C120.**  Whatever the bytes of the files of a directory that opened: calls of `Next`, with slices of any capacities or nil, hand out only what stands in the files
(`HandedOut`).  If all slices are nil, they hand out whole lists. -/
theorem C120_drawn {srt : Sorter} (hsrt : IsSorter srt) {d : Dir} {x : Index} (hx : Index.open Json.codec srt d = .ok x) (hn : 0 < x.config.numShards)
    (hn' : x.config.numShards < 2 ^ 32) :
    ∃ q dmd f ns, x.startQuery = .ok q ∧ d .dmd = some dmd ∧ d .fnm = some f ∧ TableFile f ns ∧
      ∀ grow ff fuel dsts rs, (∀ dst ∈ dsts, Emptied dst) → nextCalls grow x ff fuel q dsts = .ok rs →
        List.Forall₂ (HandedOut d dmd ns x.config.numShards.toNat (∀ dst ∈ dsts, ∀ b ∈ dst, b.docs = none)) dsts rs := by
  obtain ⟨i1, i2, ⟨f, i3, i3'⟩, i4⟩ := openIndex_inv hx
  have ht := ((Fnames.read_exact f).1 _).mp ⟨_, i3', rfl⟩
  have hp : ∀ n ∈ x.fnames.map Fnames.says, n.2 < (x.fnames.map Fnames.says).length := by
    obtain ⟨_, _, _, _, _, _, _, h⟩ := ht
    exact h
  obtain ⟨o1, o2, o3⟩ := opened hx
  obtain ⟨q, s1, s2⟩ := startQuery_any hsrt o2 (by omega) (by omega) o3
  refine ⟨q, x.dmd, f, _, s1, i2, i3, ht, fun grow ff fuel dsts rs hE hrs => ?_⟩
  generalize hns : x.fnames.map Fnames.says = ns at *
  have hst : Query.Standing x (∀ dst ∈ dsts, ∀ b ∈ dst, b.docs = none) q := by
    refine ⟨by rw [o2]; exact s2.qn, by rw [o2]; exact s2.len, fun j xs r h1 h2 => ?_⟩
    unfold Index.startQuery at s1
    simp only [bind, Except.bind, pure, Except.pure] at s1
    cases hss : Index.initStates x.shards with
    | error e => rw [hss] at s1; cases s1
    | ok ss =>
      rw [hss] at s1
      injection s1 with s1
      subst s1
      obtain ⟨xj, r', k1, k2, k3⟩ := Query.initStates_at x.shards ss hss j _ h2
      rw [h1] at k1; injection k1 with k1; subst k1
      injection k2 with k2; subst k2
      obtain ⟨m1, hd, m2, m3⟩ := Query.readStateAt_head k3
      exact ⟨m1, hd, [], m2, by rw [m3]; exact PostsAt.new _ _, fun _ => rfl⟩
  refine (nextCalls_drawn _ grow ff fuel dsts q rs hst hE (fun w => w) hrs).imp ?_
  rintro dst r ⟨hdst, hc⟩
  refine ⟨hc.len, hc.hi, hc.eof, fun i b bl hi hb hbl => ?_⟩
  obtain ⟨bl', g1, j, k, xs, h, before, is, g2, g3, g4, g5, g6, g7, g8, g9, g10⟩ := hc.new i (Nat.zero_le _) hi
  rw [hbl] at g1; injection g1 with g1; subst g1
  have hr := o3 j xs g2
  have hlist := hr.list k h g3
  rw [o2] at g4
  have hcap : b.docs ≠ none → ((dst[i]?.bind (·.docs)).map fun d => d.spare.length) = some b.cap := by
    intro hne
    rcases hdst b (List.mem_of_getElem? hb) with e | ⟨s, e⟩
    · exact absurd e hne
    · simp [hb, e, Blot.cap]
  refine ⟨j, k, before, is.map UInt32.toNat, by rw [← o2]; exact (List.getElem?_eq_some_iff.mp g2).1, by rw [← hr.heads]; exact (List.getElem?_eq_some_iff.mp g3).1, g4,
    ⟨by simpa using g5, xs.file, h, hlist, g6, ?_⟩, each_map (fun a c hac => shows_as hns hp hac) g7, fun hne => by simpa using (g10 _ (hcap hne)).1, g8⟩
  rintro (e | e)
  · exact g9 (by simp [hb, e])
  · by_cases hne : b.docs = none
    · exact g9 (by simp [hb, hne])
    · rcases (g10 _ (hcap hne)).2 with h | h
      · rw [List.length_map] at e; omega
      · exact h

theorem each_all {α β : Type} {R : α → β → Prop} : ∀ {as : List α} {bs : List β}, Each R as bs → ∀ b ∈ bs, ∃ a, R a b
  | [], [], _, _, h => by cases h
  | [], _ :: _, h, _, _ => h.elim
  | _ :: _, [], h, _, _ => h.elim
  | a :: _, b :: _, h, c, hc => by
    rcases List.mem_cons.mp hc with rfl | hc
    · exact ⟨a, h.1⟩
    · exact each_all h.2 c hc

/-- the records of an index made by sessions: the first, of no document, and those of the documents -/
theorem docAs_sessions {u : Uni} {c : Config} (hU : Usable Json.codec c) {h : Sessions} {d : Dir} (hd : History u Json.codec c h d) (hf : Fits u c (documents h))
    {dmd f : Bytes} {ns : List (Bytes × Nat)} (h1 : d .dmd = some dmd) (h2 : d .fnm = some f) (h3 : TableFile f ns) {id : Nat} {doc : Doc}
    (hdoc : DocAs dmd ns id doc.path doc.start.toNat doc.stop.toNat) :
    (id = 0 ∧ doc.path = [sep] ∧ doc.start = 0 ∧ doc.stop = 0) ∨
      ∃ s, (documents h)[id - 1]? = some s ∧ 1 ≤ id ∧ doc.path = s.path ∧ doc.start = s.start ∧ doc.stop = s.stop := by
  have hrep := History.rep hU hd hf
  obtain ⟨ps, bs, hp⟩ := hrep.parts hf
  obtain ⟨t, fs, o1, hm⟩ := openIndex_parts hU mergeSorter hrep hf hp
  obtain ⟨_, i2, ⟨f', i3, i3'⟩, _⟩ := openIndex_inv o1
  rw [h1] at i2; injection i2 with i2
  rw [h2] at i3; injection i3 with i3; subst i3
  obtain ⟨t', t1, t2⟩ := Fnames.read_of_table h3
  rw [i3'] at t1; injection t1 with t1; subst t1
  simp only at i2 t2
  have hpp : ∀ n ∈ ns, n.2 < ns.length := by
    obtain ⟨_, _, _, _, _, _, _, h⟩ := h3
    exact h
  have hlen := Dmd.encodeAll_length (Dmd.zeroFields :: fs)
  rw [List.length_cons, hm.len] at hlen
  have hids := hf.ids
  obtain ⟨p, cs, hrec, hrest⟩ := hdoc
  have hle : id ≤ (documents h).length := by
    have := hrec.1
    rw [i2, hlen] at this
    omega
  have hid : (UInt32.ofNat id).toNat = id := by rw [UInt32.toNat_ofNat']; omega
  obtain ⟨r, e, z1, z2, z3⟩ := doc_as (x := ⟨c, dmd, t, shardsOf mergeSorter c.numShards.toNat ps bs⟩) t2 hpp (UInt32.ofNat id)
    (path := doc.path) (a := doc.start.toNat) (b := doc.stop.toNat) (by rw [hid]; exact ⟨p, cs, hrec, hrest⟩)
  have z2 := UInt32.toNat_inj.mp z2
  have z3 := UInt32.toNat_inj.mp z3
  rw [i2] at e
  by_cases h0 : id = 0
  · left
    refine ⟨h0, ?_⟩
    have hl := Dmd.lookup_encode (Dmd.zeroFields :: fs) (UInt32.ofNat id) (by simp [h0])
    have hz : (Dmd.zeroFields :: fs)[(UInt32.ofNat id).toNat]'(by simp [h0]) = Dmd.zeroFields := by simp [h0]
    rw [hz] at hl
    obtain ⟨r0, hr0, _⟩ := hm.wf.root
    have ha := hm.wf.abs (v := 0) (cs := []) .root ((List.getElem?_eq_some_iff.mp hr0).1)
    have hz0 : Dmd.zeroFields.fid = 0 := rfl
    simp only [Index.docid2Doc, hl, hz0, ha, bind, Except.bind, pure, Except.pure, Except.ok.injEq] at e
    subst e
    exact ⟨z1.symm, z2.symm, z3.symm⟩
  · right
    have := docid2Doc_rep hm (documents_rooted h) c (shardsOf mergeSorter c.numShards.toNat ps bs) (id := UInt32.ofNat id) (by omega) (by omega)
    rw [this] at e
    injection e with e
    obtain ⟨s, hs⟩ : ∃ s, (documents h)[id - 1]? = some s := ⟨_, List.getElem?_eq_getElem (by omega)⟩
    rw [metaOf, hid, hs] at e
    subst e
    exact ⟨s, hs, by omega, z1.symm, z2.symm, z3.symm⟩

/-- **C120**, other files of the shards.  In a directory made by sessions let the heads and postings of the shards be any others with which it opens: what calls of `Next` then
hand out are documents that the sessions added, with their paths, starts and ends; or the first record, which is that of no document. -/
theorem C120_sessions {u : Uni} {srt : Sorter} (hsrt : IsSorter srt) {c : Config} (hU : Usable Json.codec c) {h : Sessions} {d : Dir} (hd : History u Json.codec c h d)
    (hf : Fits u c (documents h)) {d' : Dir} (hsame : ∀ f, (∀ i, f ≠ .pos i ∧ f ≠ .iix i) → d' f = d f) {x : Index} (hx : Index.open Json.codec srt d' = .ok x) :
    ∃ q, x.startQuery = .ok q ∧ ∀ grow ff fuel dsts rs, (∀ dst ∈ dsts, Emptied dst) → nextCalls grow x ff fuel q dsts = .ok rs →
      ∀ r ∈ rs, ∀ (i : Nat) bl, i < r.n → r.dst[i]? = some bl → ∀ doc ∈ bl.vis,
        doc.noDat = ⟨[sep], 0, 0, none⟩ ∨ ∃ s ∈ documents h, doc.noDat = s.shown := by
  have hc : x.config = c := by
    obtain ⟨i1, _⟩ := openIndex_inv hx
    have : Config.readFrom Json.codec d' = Config.readFrom Json.codec d := by
      simp only [Config.readFrom, Dir.read, hsame .cfg (fun i => ⟨nofun, nofun⟩)]
    rw [this, (C97_sessions hU hd hf).1] at i1
    injection i1 with i1
    exact i1.symm
  have hn := hU.shards
  have hn' := hU.shardsSmall
  obtain ⟨q, dmd, f, ns, k1, k2, k3, k4, k5⟩ := C120_drawn hsrt hx (by rw [hc]; omega) (by rw [hc]; omega)
  rw [hsame .dmd (fun i => ⟨nofun, nofun⟩)] at k2
  rw [hsame .fnm (fun i => ⟨nofun, nofun⟩)] at k3
  refine ⟨q, k1, fun grow ff fuel dsts rs hE hrs r hr i bl hi hbl doc hdoc => ?_⟩
  have hall := k5 grow ff fuel dsts rs hE hrs
  obtain ⟨dst, hh⟩ : ∃ dst, HandedOut d' dmd ns x.config.numShards.toNat (∀ dst ∈ dsts, ∀ b ∈ dst, b.docs = none) dst r := by
    obtain ⟨m, hm⟩ := List.mem_iff_getElem?.mp hr
    have hlt := (List.getElem?_eq_some_iff.mp hm).1
    have hlt' : m < dsts.length := by rw [hall.length_eq]; exact hlt
    have := List.Forall₂.get hall hlt' hlt
    have e := (List.getElem?_eq_some_iff.mp hm).2
    refine ⟨dsts[m], ?_⟩
    rw [← e]
    exact this
  obtain ⟨b, hb⟩ : ∃ b, dst[i]? = some b := ⟨_, List.getElem?_eq_getElem (by have := hh.room; omega)⟩
  obtain ⟨j, k, before, ids, _, _, _, _, g5, _⟩ := hh.blot i b bl hi hb hbl
  obtain ⟨id, hid⟩ := each_all g5 doc hdoc
  rcases docAs_sessions hU hd hf k2 k3 k4 hid with ⟨_, z1, z2, z3⟩ | ⟨s, hs, _, z1, z2, z3⟩
  · left; simp [Doc.noDat, z1, z2, z3]
  · right; exact ⟨s, List.mem_of_getElem? hs, by simp [Doc.noDat, Document.shown, z1, z2, z3]⟩

/-- **C120**, the same for `Get`: the documents that a call adds to its slice. -/
theorem C120_get {u : Uni} {srt : Sorter} (hsrt : IsSorter srt) {c : Config} (hU : Usable Json.codec c) {h : Sessions} {d : Dir} (hd : History u Json.codec c h d)
    (hf : Fits u c (documents h)) {d' : Dir} (hsame : ∀ f, (∀ i, f ≠ .pos i ∧ f ≠ .iix i) → d' f = d f) {x : Index} (hx : Index.open Json.codec srt d' = .ok x) :
    ∃ q, x.startQuery = .ok q ∧ ∀ grow (b : Blot), ∃ K, ∀ fuel r, K < fuel → Query.get grow x fuel q b = .ok r →
      ∃ new, r.vis = b.vis ++ new ∧ ∀ doc ∈ new, doc.noDat = ⟨[sep], 0, 0, none⟩ ∨ ∃ s ∈ documents h, doc.noDat = s.shown := by
  have hc : x.config = c := by
    obtain ⟨i1, _⟩ := openIndex_inv hx
    have : Config.readFrom Json.codec d' = Config.readFrom Json.codec d := by
      simp only [Config.readFrom, Dir.read, hsame .cfg (fun i => ⟨nofun, nofun⟩)]
    rw [this, (C97_sessions hU hd hf).1] at i1
    injection i1 with i1
    exact i1.symm
  have hn := hU.shards
  have hn' := hU.shardsSmall
  obtain ⟨q, dmd, f, ns, k1, k2, k3, k4, k5⟩ := C114_get hsrt hx (by rw [hc]; omega) (by rw [hc]; omega)
  rw [hsame .dmd (fun i => ⟨nofun, nofun⟩)] at k2
  rw [hsame .fnm (fun i => ⟨nofun, nofun⟩)] at k3
  refine ⟨q, k1, fun grow b => ?_⟩
  obtain ⟨o1, o2, o3⟩ := opened hx
  have hlt : b.blot.toNat % x.config.numShards.toNat < x.shards.length := by rw [o2, hc]; exact Nat.mod_lt _ (by omega)
  have hr := o3 _ _ (List.getElem?_eq_getElem hlt)
  have hl := hr.list (b.blot.toNat / x.config.numShards.toNat % 65536) _ (List.getElem?_eq_getElem (by rw [hr.heads]; exact Nat.mod_lt _ (by decide)))
  obtain ⟨⟨F, hF⟩, g1, g2, g3, g4⟩ := k5 grow b _ _ hl
  cases F with
  | result ids =>
    refine ⟨ids.length, fun fuel r hfu hg => ?_⟩
    obtain ⟨r', new, e1, e2, e3, e4⟩ := g1 ids hF fuel hfu
    rw [hg] at e1; injection e1 with e1; subst e1
    refine ⟨new, e3, fun doc hdoc => ?_⟩
    obtain ⟨id, hid⟩ := each_all e4 doc hdoc
    rcases docAs_sessions hU hd hf k2 k3 k4 hid with ⟨_, z1, z2, z3⟩ | ⟨s, hs, _, z1, z2, z3⟩
    · left; simp [Doc.noDat, z1, z2, z3]
    · right; exact ⟨s, List.mem_of_getElem? hs, by simp [Doc.noDat, Document.shown, z1, z2, z3]⟩
  | error =>
    obtain ⟨K, hK⟩ := g2 hF
    refine ⟨K, fun fuel r hfu hg => ?_⟩
    obtain ⟨e, he⟩ := hK fuel hfu
    rw [hg] at he; cases he
  | panic =>
    obtain ⟨K, hK⟩ := g3 hF
    refine ⟨K, fun fuel r hfu hg => ?_⟩
    have he := hK fuel hfu
    rw [hg] at he; cases he
  | endless =>
    refine ⟨0, fun fuel r hfu hg => ?_⟩
    have he := g4 hF fuel
    rw [hg] at he; cases he

/-! ## Non-vacuity -/

/-- an index of two documents: a call returns a blot, of a list of two documents -/
theorem C120_nonvacuous : ∃ (d : Dir) (x : Index) (q : QState) (ff fuel : Nat) (r : Query.NextResult), Index.open Json.codec mergeSorter d = .ok x ∧ x.startQuery = .ok q ∧
    nextCalls (fun _ => 0) x ff fuel q [[⟨0, none⟩]] = .ok [r] ∧ r.n = 1 ∧ ∃ j k ids, Stretch d j k [] ids True := by
  obtain ⟨d, hd⟩ := History.exists (u := asciiUni) exCmd_usable [47] [⟨[116, 47, 112], 0, 22, some exText1⟩, ⟨[116, 47, 113], 0, 24, some exText2⟩] [] exCmd_fits
  change History asciiUni Json.codec exCmdConfig exCmdSessions d at hd
  obtain ⟨x, q, hx, hr⟩ := reading_exists exCmd_usable mergeSorter_isSorter hd exCmd_fits
  have hc : x.config = exCmdConfig := by
    obtain ⟨i1, _⟩ := openIndex_inv hx
    rw [(C97_sessions exCmd_usable hd exCmd_fits).1] at i1
    injection i1 with i1
    exact i1.symm
  obtain ⟨E, _, e2, _, e4⟩ := C23_enumerates exCmd_usable mergeSorter_isSorter hr exCmd_fits
  obtain ⟨rs, r1, r2⟩ := e4 (fun _ => 0) (2 ^ 32) (E.length + exCmdConfig.numShards.toNat + 2 ^ 32 + 1) [[⟨0, none⟩]] (by simp) (Nat.le_refl _) (by omega)
  have hmem : (1 : UInt32) ∈ E := by
    refine (e2 1).mpr ⟨by decide +kernel, ?_⟩
    rw [exCmd_docs]
    decide +kernel
  obtain ⟨q', dmd, f, ns, k1, k2, k3, k4, k5⟩ := C120_drawn mergeSorter_isSorter hx (by rw [hc]; decide) (by rw [hc]; decide)
  rw [hr.start] at k1; injection k1 with k1; subst k1
  have hall := k5 _ _ _ _ _ (by intro dst hdst b hb; simp at hdst; subst hdst; simp at hb; subst hb; exact .inl rfl) r1
  match rs, hall, r2 with
  | [r], .cons hh .nil, v =>
    have hn : r.n = 1 := by
      rw [v.1]
      have := List.length_pos_of_mem hmem
      simp; omega
    obtain ⟨b1, hb1⟩ : ∃ b, r.dst[0]? = some b := ⟨_, List.getElem?_eq_getElem (by rw [hh.len]; simp)⟩
    obtain ⟨j, k, before, ids, _, _, _, g4, _, _, g7⟩ := hh.blot 0 ⟨0, none⟩ b1 (by omega) rfl hb1
    rw [g7 (by simp)] at g4
    obtain ⟨t1, post, h, t2, t3, t4⟩ := g4
    exact ⟨d, x, q, _, _, r, hx, hr.start, r1, hn, j, k, ids, t1, post, h, t2, t3, fun _ => t4 (.inl rfl)⟩

end Dupi.Props
