import Verif.Proof.RaceBad
import Verif.Proof.Hang
import Verif.Proof.Full
import Verif.Props.Sched
import Verif.Props.Commands
/-! # C107: `doc2Id` called by several goroutines -/

namespace Dupi
open Spec

/-- the parts of an absolute path are its place -/
theorem Fnames.pathParts_place (cwd p : Bytes) (h : place cwd p ≠ []) : Fnames.pathParts (absPath cwd p) = place cwd p := by
  rw [absPath_place, placeName, ← joinSlash_intersperse]
  have := splitSlash_join _ h (fun e he => (place_good cwd p e he).2)
  rw [Fnames.pathParts, splitSlash, if_pos rfl, this]
  rfl

/-- nothing of an index lies at or below a path -/
theorem MetaRep.absent {t : Fnames.Table} {fs : List Fields} {docs : List Document} (h : MetaRep t fs docs) (hr : Rooted docs) {l : List Bytes} {p : Bytes} (hp : p ≠ [])
    (ha : ∀ s ∈ docs, ∀ r, s.path ≠ placeName (l ++ p :: r)) : ∀ i, ¬ Fnames.Comps t i (l ++ [p]) := by
  intro i hc
  rcases h.cover i _ hc with h0 | ⟨s, hs, hpre⟩
  · simp at h0
  · obtain ⟨cwd, q, e⟩ := hr s hs
    rw [e] at hpre
    by_cases h0 : place cwd q = []
    · rw [absPath_place, h0] at hpre
      have := hpre.subset (List.mem_append_right _ (List.mem_singleton_self p))
      simp [placeName, Fnames.pathParts, splitSlash, sep] at this
      exact hp this
    · rw [Fnames.pathParts_place cwd q h0] at hpre
      obtain ⟨r, hr⟩ := hpre
      refine ha s hs r ?_
      rw [e, absPath_place, ← hr, List.append_assoc]; rfl

namespace Race

/-- memory with everything in slices as long as their arrays -/
def Mem.of (y : Front) : Mem where
  d := ⟨0, y.fnames.length⟩
  nodes := [y.fnames.zipIdx.map fun f => ⟨f.1.parent, f.1.name, some f.2⟩]
  maps := y.fnames.map fun f => f.children
  buf := ⟨0, y.dmds.buf.length⟩
  recs := [y.dmds.buf]
  flushed := y.dmds.flushed
  flushRate := y.dmds.flushRate
  file := y.file

theorem Mem.of_elems (y : Front) : elems (Mem.of y).nodes (Mem.of y).d = y.fnames.zipIdx.map fun f => ⟨f.1.parent, f.1.name, some f.2⟩ := by
  show ([y.fnames.zipIdx.map _].getD 0 []).take y.fnames.length = _
  rw [List.take_of_length_le (by simp)]; rfl

/-- everything an indexer can work on is in some memory -/
theorem Mem.of_good (y : Front) : Good (Mem.of y) ∧ (Mem.of y).front = y := by
  refine ⟨⟨⟨by simp [Mem.of], by simp [Mem.of, array]⟩, ⟨by simp [Mem.of], by simp [Mem.of, array]⟩, ?_, ?_⟩, ?_⟩
  · intro n hn m hm
    rw [Mem.of_elems] at hn
    obtain ⟨f, hf, rfl⟩ := List.mem_map.mp hn
    cases hm
    have := List.snd_lt_of_mem_zipIdx hf
    simpa [Mem.of] using this
  · intro i j m n n' hn hn' hm hm'
    rw [Mem.of_elems, List.getElem?_map, List.getElem?_zipIdx] at hn hn'
    cases hi : y.fnames[i]? with
    | none => rw [hi] at hn; cases hn
    | some f =>
      cases hj : y.fnames[j]? with
      | none => rw [hj] at hn'; cases hn'
      | some f' =>
        rw [hi] at hn; rw [hj] at hn'
        simp only [Option.map_some, Option.some.injEq] at hn hn'
        subst hn hn'
        simp only [Option.some.injEq] at hm hm'
        omega
  · have e1 : (Mem.of y).table = y.fnames := by
      rw [Mem.table, Mem.of_elems]
      apply List.ext_getElem?
      intro i
      rw [List.getElem?_map, List.getElem?_map, List.getElem?_zipIdx]
      cases hi : y.fnames[i]? with
      | none => rfl
      | some f =>
        simp only [Option.map_some, Mem.node, Mem.kids, Nat.zero_add]
        congr 1
        show Fname.mk f.parent f.name ((y.fnames.map fun f => f.children).getD i []) = f
        rw [List.getD_eq_getElem?_getD, List.getElem?_map, hi]; rfl
    have e2 : elems (Mem.of y).recs (Mem.of y).buf = y.dmds.buf := by
      show ([y.dmds.buf].getD 0 []).take y.dmds.buf.length = _
      simp
    rw [Mem.front, e1, e2]; rfl

end Race
end Dupi

namespace Dupi.Props
open Spec Race

/-- **C107, one after the other.** If every call is over before the next begins, the calls return the ids, and leave
the tables, of adding the documents in the order of the calls. -/
theorem C107_apart_partial {room : Nat} {cwd : Bytes} {docs : List Doc} (order : List Nat) : ∀ {m : Mem} {cs : Calls} {rs : List Front.Req} {y : Front}, Good m → order.Nodup →
    (∀ i ∈ order, ∃ doc, docs[i]? = some doc ∧ cs[i]? = some (doc, begin cwd doc)) →
    Front.adds cwd m.front (order.filterMap fun i => docs[i]?) = .ok (rs, y) →
    ∃ K, ∀ steps : Nat → Nat, (∀ i, K ≤ steps i) → ∃ m' cs', run room (m, cs) (order.flatMap fun i => List.replicate (steps i) i) = .ok (m', cs') ∧
      Good m' ∧ m'.front = y ∧ (∀ i, i ∉ order → cs'[i]? = cs[i]?) ∧
      ∀ (j i : Nat), order[j]? = some i → ∃ doc r, docs[i]? = some doc ∧ rs[j]? = some r ∧ cs'[i]? = some (doc, .done r.1) := by
  induction order with
  | nil =>
    intro m cs rs y hg _ _ ha
    cases ha
    exact ⟨0, fun steps _ => ⟨m, cs, rfl, hg, rfl, fun _ _ => rfl, nofun⟩⟩
  | cons i order ih =>
    intro m cs rs y hg hn hc ha
    obtain ⟨doc, hd, hci⟩ := hc i (List.mem_cons_self ..)
    rw [List.filterMap_cons_some hd] at ha
    simp only [Front.adds, bind, Except.bind, pure, Except.pure] at ha
    cases h1 : m.front.add cwd doc with
    | error e => rw [h1] at ha; cases ha
    | ok r =>
      obtain ⟨id, y1⟩ := r
      rw [h1] at ha
      obtain ⟨K1, m1, g1, g2, g3⟩ := alone_call_more (room := room) hg h1
      simp only at ha
      cases h2 : y1.adds cwd (order.filterMap fun i => docs[i]?) with
      | error e => rw [h2] at ha; cases ha
      | ok r2 =>
        obtain ⟨rs2, y2⟩ := r2
        rw [h2] at ha
        simp only [Except.ok.injEq, Prod.mk.injEq] at ha
        obtain ⟨rfl, rfl⟩ := ha
        have hni : i ∉ order := (List.nodup_cons.mp hn).1
        obtain ⟨K2, q⟩ := ih (m := m1) (cs := cs.set i (doc, .done id)) (rs := rs2) (y := y2) g2 (List.nodup_cons.mp hn).2 (by
          intro j hj
          obtain ⟨doc', a1, a2⟩ := hc j (List.mem_cons_of_mem _ hj)
          refine ⟨doc', a1, ?_⟩
          rw [List.getElem?_set, if_neg (by intro e; subst e; exact hni hj)]
          exact a2) (by rw [g3]; exact h2)
        refine ⟨K1 + K2, fun steps hs => ?_⟩
        obtain ⟨m', cs', r1, r2, r3, r4, r5⟩ := q steps (fun j => by have := hs j; omega)
        have hr := run_alone (room := room) (cs := cs) (steps i) hci (g1 (steps i) (by have := hs i; omega))
        refine ⟨m', cs', ?_, r2, r3, ?_, ?_⟩
        · rw [List.flatMap_cons]
          exact run_trans hr r1
        · intro j hj
          rw [List.mem_cons, not_or] at hj
          rw [r4 j hj.2, List.getElem?_set, if_neg (Ne.symm hj.1)]
        · intro j i' hj
          cases j with
          | zero =>
            simp only [List.getElem?_cons_zero, Option.some.injEq] at hj
            subst hj
            refine ⟨doc, _, hd, rfl, ?_⟩
            rw [r4 i hni, List.getElem?_set, if_pos rfl, if_pos (List.getElem?_eq_some_iff.mp hci).1]
          | succ j => exact r5 j i' (by simpa using hj)

section
variable {u : Uni} {J : CfgCodec} {c : Config} {docs : List Document} {x : Indexer} {d : Dir}

/-- **C107 is false: ids.** Two calls for any two documents can return the same id.  The record of the first document is
then lost, and the session never ends, whichever document is handed over first: no schedule of the goroutines gets to the end
of Close. -/
theorem C107_false_ids (hU : Usable J c) (hx : Opened u J c docs x d) (cwd : Bytes) (a b : Doc) (hf : Fits u c (docs ++ added cwd [a, b]))
    (room : Nat) {m : Mem} (hm : Good m) (hmx : m.front = x.front) :
    ∃ σ m' id, run room (m, start cwd [a, b]) σ = .ok (m', [(a, .done id), (b, .done id)]) ∧
      id.toNat = docs.length + 1 ∧ Dmd.last m'.front.dmds = id ∧
      ∀ rs, (rs = [(id, a.start, a.dat.getD []), (id, b.start, b.dat.getD [])] ∨ rs = [(id, b.start, b.dat.getD []), (id, a.start, a.dat.getD [])]) →
        ∃ B, ∀ k t, Sched.Steps (x.params u) k (x.start rs) t → k ≤ B ∧ (∀ j, t.client ≠ .close j) ∧ t.client ≠ .done := by
  obtain ⟨hr, _⟩ := hx.rep hU hf.left
  obtain ⟨fs, hd, hmr⟩ := hr.front
  have hids := hf.ids
  have hpaths := hf.paths
  rw [added_paths] at hpaths
  obtain ⟨ids, t', g1, _⟩ := Fnames.addAll_spec cwd [a.path, b.path] hmr.wf hmr.names hmr.onPaths hpaths
  simp only [Fnames.addAll, bind, Except.bind, pure, Except.pure] at g1
  cases ha : Fnames.addPath cwd x.front.fnames a.path with
  | error e => rw [ha] at g1; cases g1
  | ok ra =>
    obtain ⟨fa, ta⟩ := ra
    rw [ha] at g1
    simp only at g1
    cases hb : Fnames.addPath cwd ta b.path with
    | error e => rw [hb] at g1; cases g1
    | ok rb =>
      obtain ⟨fb, tb⟩ := rb
      have hlen : (docs ++ added cwd [a, b]).length = docs.length + 2 := by simp [added]
      obtain ⟨k1, k2⟩ := Dmd.add_inv hd ⟨fb, b.start, b.stop⟩ (by simp [hmr.len]; omega)
      generalize hadd : Dmd.add x.front.dmds x.front.file ⟨fb, b.start, b.stop⟩ = res at k1 k2
      obtain ⟨id, dm, fl⟩ := res
      simp only at k1 k2
      have hba : Front.add cwd { m.front with fnames := ta } b = .ok (id, ⟨tb, dm, fl⟩) := by
        rw [hmx]
        simp only [Front.add, hb, hadd, bind, Except.bind, pure, Except.pure]
      obtain ⟨σ, m', r1, r2, r3⟩ := calls_same_id (room := room) hm (by rw [hmx]; exact ha) hba
      have hid : id.toNat = docs.length + 1 := by rw [k2]; simp [hmr.len]
      refine ⟨σ, m', id, r1, hid, ?_, ?_⟩
      · apply UInt32.toNat_inj.mp
        rw [r3, last_of_inv k1 (by simp [hmr.len]; omega), hid]
        simp [hmr.len]
      · intro rs hrs
        refine ⟨Sched.measure (x.params u) (x.start rs), fun k t ht => ?_⟩
        have hst : Sched.Stuck (x.params u) id (x.start rs) := by
          have hne := Sched.ne_pred id
          apply Sched.Stuck.twice
          · rcases hrs with rfl | rfl <;> simp
          · rcases hrs with rfl | rfl <;> simp [hne]
        have := hst.steps ht
        exact ⟨Nat.le_trans (Nat.le_add_right _ _) ht.bound, this.close, this.done⟩

/-- **C107 is false: paths.** Two calls for new files of one directory can leave the index of a session that adds the first
document under the name of the second: when the session ends, the directory is what such a session leaves. -/
theorem C107_false_paths (hU : Usable J c) (hx : Opened u J c docs x d) (cwd : Bytes) (a b : Doc) (hf : Fits u c (docs ++ added cwd [a, b]))
    {dirs : List Bytes} {p q : Bytes} (ha : place cwd a.path = dirs ++ [p]) (hb : place cwd b.path = dirs ++ [q])
    (hap : ∀ s ∈ docs, ∀ r, s.path ≠ placeName (dirs ++ p :: r)) (hbp : ∀ s ∈ docs, ∀ r, s.path ≠ placeName (dirs ++ q :: r))
    (room : Nat) {m : Mem} (hm : Good m) (hmx : m.front = x.front) :
    ∃ σ m' i₁ i₂, run room (m, start cwd [a, b]) σ = .ok (m', [(a, .done i₁), (b, .done i₂)]) ∧
      (∀ k t d', Sched.Steps (x.params u) k (x.start [(i₁, a.start, a.dat.getD []), (i₂, b.start, b.dat.getD [])]) t → t.client = .done →
        Indexer.close J x.config m'.front x.shards.length (fun j => (t.servers j).shard) d = .ok d' → x.Session u J cwd [{ a with path := b.path }, b] d d') ∧
      ∃ k t d', Sched.Steps (x.params u) k (x.start [(i₁, a.start, a.dat.getD []), (i₂, b.start, b.dat.getD [])]) t ∧ t.client = .done ∧
        Indexer.close J x.config m'.front x.shards.length (fun j => (t.servers j).shard) d = .ok d' := by
  obtain ⟨hr, hcf⟩ := hx.rep hU hf.left
  obtain ⟨fs, hd, hmr⟩ := hr.front
  have hroot : Rooted docs := by
    cases hx with
    | create => intro s hs; cases hs
    | append => exact documents_rooted _
  have hgp : p ≠ [] := (place_good cwd a.path p (by rw [ha]; simp)).1
  have hgq : q ≠ [] := (place_good cwd b.path q (by rw [hb]; simp)).1
  have hmt : m.table = x.front.fnames := by rw [← hmx]; rfl
  have hf' : Fits u c (docs ++ added cwd [{ a with path := b.path }, b]) := by
    refine ⟨by have := hf.ids; simpa [added] using this, Fnames.FewPaths.mono ?_ hf.paths, by have := hf.posts; simpa [added, numBlots] using this⟩
    intro q hq
    simp only [added, List.map_append, List.map_cons, List.map_nil, List.mem_append, List.mem_cons, List.not_mem_nil, or_false] at hq ⊢
    rcases hq with hq | hq | hq
    · exact .inl hq
    · exact .inr (.inr hq)
    · exact .inr (.inr hq)
  obtain ⟨σ, m', i₁, i₂, y, r1, r2, r3, r4, r5⟩ := calls_same_path (room := room) (a := a) (b := b) (cwd := cwd) hm (by rw [hmt]; exact hmr.wf)
    (dirs := dirs) (p := p) (q := q)
    (by rw [Fnames.pathParts_place _ _ (by rw [ha]; simp), ha]) (by rw [Fnames.pathParts_place _ _ (by rw [hb]; simp), hb])
    (by rw [hmt]; exact hmr.absent hroot hgp hap) (by rw [hmt]; exact hmr.absent hroot hgq hbp)
    (P := Fnames.OnPaths ((docs ++ added cwd [a, b]).map fun s => s.path)) (fun d hw hc => Fnames.FewPaths.small hf.paths d hw hc)
    (by
      rw [hmt]; intro i cs hc
      exact (hmr.onPaths i cs hc).mono (fun q hq => by rw [List.map_append]; exact List.mem_append_left _ hq))
    (by
      intro cs hcs
      refine .inr ⟨absPath cwd b.path, ?_, ?_⟩
      · simp [added, absPath_place]
      · rw [Fnames.pathParts_place _ _ (by rw [hb]; simp), hb]; exact hcs)
  rw [hmx] at r2
  have hcl : ∀ sh : Nat → ShardIndexer, Indexer.close J x.config m'.front x.shards.length sh d = Indexer.close J x.config y x.shards.length sh d := by
    intro sh
    unfold Indexer.close
    rw [show m'.front.fnames = m'.table from rfl, r5, r3, show m'.front.file = m'.file from rfl, r4]
  refine ⟨σ, m', i₁, i₂, r1, ?_, ?_⟩
  · intro k t d' ht hc hcl'
    rw [hcl] at hcl'
    exact .run r2 ht hc hcl'
  · obtain ⟨d', hs⟩ := Session.exists hU hr cwd [{ a with path := b.path }, b] hf' hcf
    obtain ⟨h1, h2, h3, h4⟩ := hs
    rename_i rs front k t
    rw [r2] at h1
    injection h1 with h1; injection h1 with e1 e2; subst e1 e2
    exact ⟨k, t, d', h2, h3, by rw [hcl]; exact h4⟩

/-- the memory there is when an indexer has been opened -/
theorem C107_memory (x : Indexer) : ∃ m, Good m ∧ m.front = x.front := ⟨_, Mem.of_good _⟩

end

/-- there are indexers as in the theorems -/
theorem C107_nonvacuous : ∃ x, Opened asciiUni Json.codec exCmdConfig [] x Dir.empty ∧ Fits asciiUni exCmdConfig ([] ++ added [47] [⟨[120], 0, 1, some [97]⟩, ⟨[121], 0, 1, some [98]⟩]) ∧
    place [47] [120] = [] ++ [[120]] ∧ place [47] [121] = [] ++ [[121]] ∧
    ∃ m, Good m ∧ m.front = x.front := by
  obtain ⟨x, h1, _⟩ := create_rep (u := asciiUni) exCmd_usable
  refine ⟨x, .create h1, ?_, by decide, by decide, C107_memory x⟩
  refine ⟨by decide, Fnames.FewPaths.of_sum (by decide), by decide⟩

end Dupi.Props
