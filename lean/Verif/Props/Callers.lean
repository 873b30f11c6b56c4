import Verif.Proof.Callers
import Verif.Proof.CrashOps
import Verif.Props.Sched
/-! # C50: several goroutines adding documents to one indexer -/

namespace Dupi.Props
open Spec

section
variable {u : Uni} {J : CfgCodec} {c : Config} {docs : List Document} {x : Indexer}

theorem interleave_nil {α : Type} {ls : List (List α)} {l : List α} (h : Interleave ls l) (hn : ∀ m ∈ ls, m = []) : l = [] := by
  cases h with
  | nil => rfl
  | cons g _ => have := hn _ (List.mem_of_getElem? g); cases this

theorem interleave_perm {α : Type} {ls : List (List α)} {l : List α} (h : Interleave ls l) : l.Perm ls.flatten := by
  induction h with
  | nil hn =>
    rw [List.flatten_eq_nil_iff.mpr hn]
  | @cons ls i a as l hi hrest ih =>
    refine (ih.cons a).trans ?_
    clear ih hrest
    induction ls generalizing i with
    | nil => simp at hi
    | cons m ls ih2 =>
      cases i with
      | zero => simp at hi; subst hi; simp
      | succ i =>
        simp only [List.getElem?_cons_succ] at hi
        simp only [List.set_cons_succ, List.flatten_cons]
        exact List.perm_middle.symm.trans ((ih2 hi).append_left m)

/-- the size limits do not depend on the order -/
theorem fits_interleave {cwd : Bytes} {callers : List (List Doc)} (hf : Fits u c (docs ++ added cwd callers.flatten)) {l : List Doc}
    (hi : Interleave callers l) : Fits u c (docs ++ added cwd l) := by
  have hp : (docs ++ added cwd callers.flatten).Perm (docs ++ added cwd l) :=
    ((interleave_perm hi).symm.map _).append_left _
  exact ⟨by rw [← hp.length_eq]; exact hf.ids, Fnames.FewPaths.mono (fun q hq => (hp.map _).mem_iff.mpr hq) hf.paths,
    by unfold numBlots; rw [← (hp.map _).sum_nat]; exact hf.posts⟩

/-- a reachable state lies on the way to a session adding some interleaving of the callers' documents -/
theorem reachN_inv (hU : Usable J c) (hr : IndexerRep u c x docs) (cwd : Bytes) {callers : List (List Doc)}
    (hf : ∀ l, Interleave callers l → Fits u c (docs ++ added cwd l)) {locked : Bool} {k : Nat}
    {t : Sched.MSt Blotter ShardIndexer (UInt32 × Bytes) Doc Post} (ht : x.ReachN u callers locked k t) :
    ∃ l' , ∃ (hi : Interleave callers (t.order ++ l')) (h0 : 0 < (x.params u).nw),
      Sched.MInv (sessionEnv hU hr cwd (t.order ++ l') (hf _ hi)) Indexer.payload h0 callers.length t ∧
      (t.core.client ≠ .add [] → l' = []) := by
  obtain ⟨l', hl'⟩ := Interleave.exists _ (t.callers.map (·.todo)) rfl
  have hi := ht.interleave l' hl'
  have h0 : 0 < (x.params u).nw := by
    show 0 < x.blotters.length
    rw [hr.nw]; have := hU.shatters; omega
  have hb := sessionEnv_base hU hr cwd _ (hf _ hi)
  have hinv : Sched.MInv (sessionEnv hU hr cwd (t.order ++ l') (hf _ hi)) Indexer.payload h0 callers.length t := by
    refine Sched.MSteps.inv (Γ := sessionEnv hU hr cwd (t.order ++ l') (hf _ hi)) ht ⟨?_, ?_⟩
    · show _ ≤ (reqs _ _).length
      rw [reqs_length]; simp
    · intro k e hk
      show (reqs (docs.length + 1) (t.order ++ l'))[k]? = _
      rw [reqs_getElem, List.getElem?_append_left (List.getElem?_eq_some_iff.mp hk).1, hk]
      have hb' : (sessionEnv hU hr cwd (t.order ++ l') (hf _ hi)).last.toNat = docs.length := hb
      rw [hb', show docs.length + 1 + k = docs.length + k + 1 by omega]; rfl
  refine ⟨l', hi, h0, hinv, fun hne => ?_⟩
  rcases hinv.inv with ⟨h1, _⟩ | ⟨_, h1, _⟩
  · exact absurd h1 hne
  · refine interleave_nil hl' fun m hm => ?_
    obtain ⟨q, hq, rfl⟩ := List.mem_map.mp hm
    exact (h1 q hq).2

theorem order_length (hU : Usable J c) (hr : IndexerRep u c x docs) (cwd : Bytes) {l l' : List Doc}
    (hf : Fits u c (docs ++ added cwd (l ++ l'))) (h : l' = []) : l.length = (sessionEnv hU hr cwd (l ++ l') hf).docs.length := by
  show _ = (reqs _ _).length
  rw [reqs_length, h]; simp

/-- **C50, safety.** Any number of callers, any schedule: the documents get their ids in some order `order` that
keeps each caller's documents in theirs, and what a shard has received so far is the batches of the first documents of
(an extension of) that order. -/
theorem C50_order_partial (hU : Usable J c) {d : Dir} (hx : Opened u J c docs x d) (cwd : Bytes) (callers : List (List Doc))
    (hf : Fits u c (docs ++ added cwd callers.flatten)) (locked : Bool) (k : Nat)
    (t : Sched.MSt Blotter ShardIndexer (UInt32 × Bytes) Doc Post) (ht : x.ReachN u callers locked k t) :
    ¬ Sched.Crashes (x.params u) t.core ∧
    ∃ l', Interleave callers (t.order ++ l') ∧ ∀ j, j < c.numShards.toNat → ∃ m, m ≤ (t.order ++ l').length ∧
      (t.core.servers j).log = (((t.order ++ l').zipIdx (docs.length + 1)).take m).map fun p => batch u c j (reqOf p.2 p.1) := by
  obtain ⟨hr, _⟩ := hx.rep hU hf.left
  have hf := fun l hi => fits_interleave (l := l) hf hi
  obtain ⟨l', hi, h0, hinv, hnil⟩ := reachN_inv hU hr cwd hf ht
  have ho : t.core.client ≠ .add [] → t.order.length = (sessionEnv hU hr cwd (t.order ++ l') (hf _ hi)).docs.length :=
    fun h => order_length hU hr cwd _ (hnil h)
  refine ⟨hinv.noCrash (sessionEnv_serves hU hr cwd _ (hf _ hi)) ho, l', hi, fun j hj => ?_⟩
  obtain ⟨m, g1, g2⟩ := hinv.log ho (j := j) (by show j < x.shards.length; rw [hr.nsh]; exact hj)
  have hb := sessionEnv_base hU hr cwd _ (hf _ hi)
  rw [hb, show (sessionEnv hU hr cwd _ (hf _ hi)).docs.length = (t.order ++ l').length from reqs_length _ _] at g2
  have key : ∀ m, m ≤ (t.order ++ l').length → ((reqs (docs.length + 1) ((t.order ++ l').take m)).map fun x => outPosts u c x.1 x.2.2 j) =
      (((t.order ++ l').zipIdx (docs.length + 1)).take m).map fun p => batch u c j (reqOf p.2 p.1) := by
    intro m _
    rw [reqs_take]
    apply List.ext_getElem?
    intro i
    simp only [List.getElem?_map, List.getElem?_take]
    split
    · rw [reqs_getElem, List.getElem?_zipIdx]
      cases (t.order ++ l')[i]? with
      | none => rfl
      | some q => simp only [Option.map_some]; rw [← outPosts_batch u c _ j hj]; rfl
    · rfl
  by_cases hm : docs.length ≤ m
  · refine ⟨m - docs.length, by omega, ?_⟩
    have := sessionEnv_batches hU hr cwd _ (hf _ hi) (m - docs.length) j (by omega)
    rw [show docs.length + (m - docs.length) = m by omega] at this
    rw [g1, this, key _ (by omega)]
  · refine ⟨0, by omega, ?_⟩
    rw [g1]
    simp only [Sched.Env.batches, hb]
    rw [show m - docs.length = 0 by omega]; rfl

/-- the shards at the end are those of a session with one caller -/
theorem reachN_shards (hU : Usable J c) (hr : IndexerRep u c x docs) (cwd : Bytes) {callers : List (List Doc)}
    (hf : ∀ l, Interleave callers l → Fits u c (docs ++ added cwd l)) {locked : Bool} {k : Nat}
    {t : Sched.MSt Blotter ShardIndexer (UInt32 × Bytes) Doc Post} (ht : x.ReachN u callers locked k t) (hc : t.core.client = .done) :
    Interleave callers t.order ∧ ∃ k1 t1, Sched.Steps (x.params u) k1 (x.start (reqs (docs.length + 1) t.order)) t1 ∧ t1.client = .done ∧
      ∀ j, j < x.shards.length → (t1.servers j).shard = (t.core.servers j).shard := by
  obtain ⟨l', hi, h0, hinv, hnil⟩ := reachN_inv hU hr cwd hf ht
  have e := hnil (by rw [hc]; exact nofun)
  subst e
  rw [List.append_nil] at hi
  have hf' := hf _ hi
  obtain ⟨k', t', k1, k2⟩ := session_runs hU hr cwd t.order hf'
  refine ⟨hi, k', t', k1, k2, fun j hj => ?_⟩
  have hjn : j < c.numShards.toNat := by rw [← hr.nsh]; exact hj
  have a := (session_shards hU hr cwd t.order hf' k1 k2 hjn).1
  simp only [List.append_nil] at hinv
  have hiv : Sched.Inv (sessionEnv hU hr cwd t.order hf') t.core := by
    rcases hinv.inv with ⟨h1, _⟩ | ⟨_, _, h1⟩
    · rw [hc] at h1; cases h1
    · exact h1 (reqs_length _ _).symm
  have b := (hiv.allDone (hiv.done hc) (by rw [hc]; intro ds; exact nofun) (j := j) hj).2
  obtain ⟨y, hy, _⟩ := session_shard hU hr cwd t.order hf' t.order.length j hjn (Nat.le_refl _)
  rw [sessionEnv_base, show (sessionEnv hU hr cwd t.order hf').docs.length = t.order.length from reqs_length _ _] at b
  have b := b.symm.trans hy
  injection b with b
  rw [b]
  have : (x.shards.getD j ⟨[], []⟩).addAll (shardPosts u c j (docs.length + 1) (added cwd t.order)) = .ok y := by
    rw [← hy, show (x.params u).serve = fun s p => let (d, b) := serveBucket p; s.add d b from rfl, serveAll_addAll,
      sessionEnv_posts hU hr cwd t.order hf' t.order.length j hjn (Nat.le_refl _), List.take_length]
  rw [a] at this; injection this

/-- **C50, result.** If the session comes to its end, the index is the one a single caller would have made that adds the
documents in the order of their ids; this order keeps the order of each caller. -/
theorem C50_result_partial (hU : Usable J c) {d d' : Dir} (hx : Opened u J c docs x d) (cwd : Bytes) (callers : List (List Doc))
    (hf : Fits u c (docs ++ added cwd callers.flatten)) (locked : Bool)
    (hs : x.SessionN u J cwd callers locked d d') : ∃ l, Interleave callers l ∧ x.Session u J cwd l d d' := by
  obtain ⟨hr, _⟩ := hx.rep hU hf.left
  have hf := fun l hi => fits_interleave (l := l) hf hi
  obtain ⟨ht, hc, ha, hcl⟩ := hs
  rename_i rs front k t
  obtain ⟨hi, k1, t1, g1, g2, g3⟩ := reachN_shards hU hr cwd hf ht hc
  have hf' := hf _ hi
  obtain ⟨front', a1, a2⟩ := Front.adds_rep cwd t.order hr.front hf'.ids hf'.paths
  have := a1.symm.trans ha
  injection this with this; injection this with e1 e2; subst e1 e2
  refine ⟨t.order, hi, .run a1 g1 g2 ?_⟩
  rw [← hcl]
  unfold Indexer.close
  simp only
  exact closeShards_congr g3 _

/-- **C50, progress.** An execution has a bounded number of steps.  A state without a next step is the end of the
session, or a deadlock: every shatterer waits, for a document that its caller cannot hand over. -/
theorem C50_progress_partial (hU : Usable J c) {d : Dir} (hx : Opened u J c docs x d) (cwd : Bytes) (callers : List (List Doc))
    (hf : Fits u c (docs ++ added cwd callers.flatten)) (locked : Bool) :
    (∃ B, ∀ k t, x.ReachN u callers locked k t → k ≤ B) ∧
    ∀ k t, x.ReachN u callers false k t →
      ((¬ ∃ t', x.StepN u false t t') ↔ Sched.Final (x.params u) t.core ∨ Sched.Deadlocked (x.params u) t) := by
  obtain ⟨hr, _⟩ := hx.rep hU hf.left
  have hf := fun l hi => fits_interleave (l := l) hf hi
  refine ⟨⟨Sched.mmeasure (x.params u) (x.startN callers), fun k t ht => ?_⟩, fun k t ht => ?_⟩
  · have := ht.bound
    exact Nat.le_trans (Nat.le_add_right _ _) this
  · obtain ⟨l', hi, h0, hinv, hnil⟩ := reachN_inv hU hr cwd hf ht
    have ho : t.core.client ≠ .add [] → t.order.length = (sessionEnv hU hr cwd (t.order ++ l') (hf _ hi)).docs.length :=
      fun h => order_length hU hr cwd _ (hnil h)
    constructor
    · intro hno
      rcases hinv.progress (sessionEnv_serves hU hr cwd _ (hf _ hi)) ho with a | a | a
      · exact .inl a
      · exact absurd a hno
      · exact .inr a
    · rintro (a | a)
      · -- nothing is left to do at the end
        rintro ⟨t', ht'⟩
        rcases hinv.inv with ⟨h1, _⟩ | ⟨_, hfin, _⟩
        · rw [a.1] at h1; cases h1
        cases ht' with
        | number g _ => have := (hfin _ (List.mem_of_getElem? g)).2; cases this
        | give g _ _ => have := (hfin _ (List.mem_of_getElem? g)).1; cases this
        | inner g _ =>
          obtain ⟨c1, c2, c3⟩ := a
          cases g with
          | give k => rw [c1] at k; cases k
          | startShut k => rw [c1] at k; cases k
          | shut k => rw [c1] at k; cases k
          | startClose k => rw [c1] at k; cases k
          | close k => rw [c1] at k; cases k
          | closeDone k => rw [c1] at k; cases k
          | serve hj k => rw [c3 _ hj] at k; cases k
          | exit hj k => rw [c3 _ hj] at k; cases k
          | compute hw k => rw [c2 _ hw] at k; cases k
          | lock hw k => rw [c2 _ hw] at k; cases k
          | pass hw k => rw [c2 _ hw] at k; cases k
          | wait hw k => rw [c2 _ hw] at k; cases k
          | relock hw k => rw [c2 _ hw] at k; cases k
          | post hw _ k => rw [c2 _ hw] at k; cases k
          | cross hw _ _ _ k => rw [c2 _ hw] at k; cases k
          | ack hw _ k => rw [c2 _ hw] at k; cases k
          | ackClosed hw _ k => rw [c2 _ hw] at k; cases k
          | sent hw k => rw [c2 _ hw] at k; cases k
          | publish hw k => rw [c2 _ hw] at k; cases k
          | broadcast hw k => rw [c2 _ hw] at k; cases k
          | unlock hw k => rw [c2 _ hw] at k; cases k
      · exact (hinv.stuck a).1

/-- **C50 for callers that keep each other out** of `Add` with a mutex of their own: never stuck before the end. -/
theorem C50_locked_partial (hU : Usable J c) {d : Dir} (hx : Opened u J c docs x d) (cwd : Bytes) (callers : List (List Doc))
    (hf : Fits u c (docs ++ added cwd callers.flatten)) (k : Nat)
    (t : Sched.MSt Blotter ShardIndexer (UInt32 × Bytes) Doc Post) (ht : x.ReachN u callers true k t) :
    Sched.Final (x.params u) t.core ∨ ∃ t', x.StepN u true t t' := by
  obtain ⟨hr, _⟩ := hx.rep hU hf.left
  have hf := fun l hi => fits_interleave (l := l) hf hi
  obtain ⟨l', hi, h0, hinv, hnil⟩ := reachN_inv hU hr cwd hf ht
  have ho : t.core.client ≠ .add [] → t.order.length = (sessionEnv hU hr cwd (t.order ++ l') (hf _ hi)).docs.length :=
    fun h => order_length hU hr cwd _ (hnil h)
  refine hinv.progressLocked (sessionEnv_serves hU hr cwd _ (hf _ hi)) (ht.lockInv (Sched.LockInv.init ..)) ho ?_
  have hb : (sessionEnv hU hr cwd (t.order ++ l') (hf _ hi)).last.toNat = docs.length := sessionEnv_base hU hr cwd _ (hf _ hi)
  have hids := (hf _ hi).ids
  simp only [List.length_append, added, List.length_map] at hids
  rw [hb]; omega

/-- such sessions do come to an end -/
theorem C50_locked_ends (hU : Usable J c) {d : Dir} (hx : Opened u J c docs x d) (cwd : Bytes) (callers : List (List Doc))
    (hf : Fits u c (docs ++ added cwd callers.flatten)) : ∃ d', x.SessionN u J cwd callers true d d' := by
  obtain ⟨hr, hcfg⟩ := hx.rep hU hf.left
  have key : ∀ m k t, x.ReachN u callers true k t → Sched.mmeasure (x.params u) t ≤ m →
      ∃ k t, x.ReachN u callers true k t ∧ Sched.Final (x.params u) t.core := by
    intro m
    induction m with
    | zero =>
      intro k t ht hm
      rcases C50_locked_partial hU hx cwd callers hf k t ht with a | ⟨t', a⟩
      · exact ⟨k, t, ht, a⟩
      · have := a.decreases; omega
    | succ m ih =>
      intro k t ht hm
      rcases C50_locked_partial hU hx cwd callers hf k t ht with a | ⟨t', a⟩
      · exact ⟨k, t, ht, a⟩
      · have := a.decreases
        exact ih (k + 1) t' (.step ht a) (by omega)
  obtain ⟨k, t, ht, hfin⟩ := key _ 0 _ .refl (Nat.le_refl _)
  obtain ⟨hi, k1, t1, g1, g2, g3⟩ := reachN_shards hU hr cwd (fun l hi => fits_interleave (l := l) hf hi) ht hfin.1
  have hf' := fits_interleave hf hi
  obtain ⟨front, a1, a2⟩ := Front.adds_rep cwd t.order hr.front hf'.ids hf'.paths
  obtain ⟨d', k3, _⟩ := close_rep hU hr cwd t.order hf' g1 g2 a2 hcfg
  refine ⟨d', .run ht hfin.1 a1 ?_⟩
  rw [← k3]
  unfold Indexer.close
  simp only
  exact (closeShards_congr g3 _).symm

/-- **C50 is false** of callers that do not: two of them can bring the session to a state from which there is no step,
though documents have not been added and Close has not been called.  The first has at least one document, the second as
many as there are shatterers. -/
theorem C50_false_deadlock (hU : Usable J c) {d : Dir} (hx : Opened u J c docs x d) (cwd : Bytes) (a : Doc) (as bs : List Doc)
    (hb : c.numShatters.toNat ≤ bs.length)
    (hf : Fits u c (docs ++ added cwd (a :: as ++ bs))) :
    ∃ k t, x.ReachN u [a :: as, bs] false k t ∧ (¬ ∃ t', x.StepN u false t t') ∧ ¬ Sched.Final (x.params u) t.core ∧
      ∃ q ∈ t.callers, ¬ q.finished := by
  obtain ⟨hr, _⟩ := hx.rep hU hf.left
  have hlast : (Dmd.last x.front.dmds).toNat = docs.length := sessionEnv_base hU hr cwd _ hf
  have hlen := hf.ids
  simp only [List.length_append, added, List.length_map, List.length_cons] at hlen
  have hf : Fits u c (docs ++ added cwd [a :: as, bs].flatten) := by simpa using hf
  have hnw : (x.params u).nw = c.numShatters.toNat := hr.nw
  obtain ⟨k, t, ht, hdl⟩ := Sched.deadlock (P := x.params u) (load := Indexer.payload) (last := Dmd.last x.front.dmds)
    (b0 := fun w => x.blotters.getD w (.circ ⟨[], 0, 0⟩)) (s0 := fun j => x.shards.getD j ⟨[], []⟩) (a := a) (as := as) (bs := bs)
    (by omega) (by omega) (fun k t ht => (C50_order_partial hU hx cwd _ hf false k t ht).1)
  have hno := ((C50_progress_partial hU hx cwd _ hf false).2 k t ht).mpr (.inr hdl)
  have hq := hdl.turn
  obtain ⟨q, hq, did, e, hp, _⟩ := hq
  refine ⟨k, t, ht, hno, fun hfin => ?_, q, hq, fun h => by rw [h.1] at hp; cases hp⟩
  obtain ⟨did, out, h1⟩ := hdl.asleep 0 (by rw [hnw]; have := hU.shatters; omega)
  rw [hfin.2.1 0 (by rw [hnw]; have := hU.shatters; omega)] at h1; cases h1

end

end Dupi.Props
