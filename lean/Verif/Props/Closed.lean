import Verif.Spec.Closed
import Verif.Proof.Closed
import Verif.Props.LimAny
import Verif.Props.Twin
/-! # C100: an index after Close -/

namespace Dupi.Props
open Spec

theorem closeShards_some (φ : Nat → Option Err) (os : List Bool) : ∀ (i : Nat) (e : Err), Index.closeShards φ i os (some e) = some e := by
  induction os with
  | nil => intro i e; rfl
  | cons o os ih =>
    intro i e
    rw [Index.closeShards]
    cases closeFile o (φ i) with
    | none => exact ih _ _
    | some f => exact ih _ _

theorem closeShards_none (φ : Nat → Option Err) (n : Nat) : ∀ i, Index.closeShards φ i (List.replicate n true) none = none ↔ ∀ j, i ≤ j → j < i + n → φ j = none := by
  induction n with
  | zero => intro i; simp [Index.closeShards]; omega
  | succ n ih =>
    intro i
    rw [List.replicate_succ, Index.closeShards]
    simp only [closeFile, if_true]
    cases h : φ i with
    | none =>
      rw [ih]
      constructor
      · intro g j h1 h2
        by_cases e : i = j
        · subst e; exact h
        · exact g j (by omega) (by omega)
      · intro g j h1 h2; exact g j (by omega) (by omega)
    | some f =>
      simp only [closeShards_some]
      constructor
      · intro g; cases g
      · intro g; rw [g i (by omega) (by omega)] at h; cases h

/-- **C100**: `Close` of an open index closes all its files and returns an error if closing dmd or a posting file does. -/
theorem C100_close_partial (n : Nat) (φ : CloseFates) : (Index.close φ (Handles.all n)).2 = ⟨false, List.replicate n false, false⟩ ∧
    ((Index.close φ (Handles.all n)).1 = none ↔ φ.dmd = none ∧ ∀ i, i < n → φ.pos i = none) := by
  refine ⟨by simp [Index.close, Handles.all], ?_⟩
  simp only [Index.close, Handles.all, closeFile, if_true]
  cases h : φ.dmd with
  | none =>
    rw [closeShards_none]
    simp
  | some e =>
    rw [closeShards_some]
    simp

/-- **C100** is false as it stands: an error of giving up the lock, or of closing the lock file, is not reported. -/
theorem C100_false_lock (n : Nat) (e : Err) : (Index.close ⟨none, fun _ => none, some e⟩ (Handles.all n)).1 = none :=
  (C100_close_partial n _).2.mpr ⟨rfl, fun _ _ => rfl⟩

theorem fates_closed {h : Handles} (hc : h.dmd = false) : AllFail h.fates := fun _ => ⟨errClosed, by simp [Handles.fates, hc], nofun⟩

theorem fates_open {h : Handles} (hc : h.dmd = true) : ∀ k, h.fates k = none := fun _ => by simp [Handles.fates, hc]

section
variable {u : Uni} {J : CfgCodec} {srt : Sorter} {c : Config} (hU : Usable J c) (hsrt : IsSorter srt)

/-- the index `x`, and queries of it that are well -/
structure Held (u : Uni) (c : Config) (docs : List Document) (x : Index) (W : Nat) (s : Holder) : Prop where
  same : s.x = x
  qs : ∀ q ∈ s.queries, ∃ L, Query.LInv x c.numShards.toNat (bucketIds u c docs) q L ∧ Query.wts L ≤ W

/-- how many passes a call may take -/
def _root_.Dupi.HCall.size : HCall → Nat
  | .next _ dst => dst.length
  | _ => 0

/-- the number of queries after a call -/
def _root_.Dupi.HCall.after : HCall → Nat → Nat
  | .start, n => n + 1
  | _, n => n

theorem usesStarted_cons {n : Nat} {a : HCall} {cs : List HCall} (h : UsesStarted n (a :: cs)) :
    UsesStarted (a.after n) cs ∧ (∀ k b, a = .get k b → k < n) ∧ ∀ k dst, a = .next k dst → k < n := by
  cases a with
  | start => exact ⟨h, nofun, nofun⟩
  | get k b => exact ⟨h.2, fun k' b' e => by injection e with e; subst e; exact h.1, nofun⟩
  | next k dst => exact ⟨h.2, nofun, fun k' b' e => by injection e with e; subst e; exact h.1⟩
  | close φ => exact ⟨h, nofun, nofun⟩
  | stats => exact ⟨h, nofun, nofun⟩

include hU hsrt in
/-- one call -/
theorem Held.step {h : Sessions} {x : Index} {q0 : QState} (hr : Reading u J srt c h x q0) (hf : Fits u c (documents h)) {L0 : List Query.Place}
    (hL0 : Query.LInv x c.numShards.toNat (bucketIds u c (documents h)) q0 L0) {s : Holder} (hs : Held u c (documents h) x (Query.wts L0) s) {a : HCall}
    (hroom : s.h.dmd = true → GivesRoom a) (hget : ∀ k b, a = .get k b → k < s.queries.length) (hnext : ∀ k dst, a = .next k dst → k < s.queries.length)
    (grow : Nat → Nat) {ff fuel : Nat} (hff : 2 ^ 32 ≤ ff) (hfuel : Query.wts L0 + 2 ^ 32 + a.size + (documents h).length < fuel) :
    ∃ o s', s.call grow ff fuel a = .ok (o, s') ∧ Held u c (documents h) x (Query.wts L0) s' ∧ s'.queries.length = a.after s.queries.length ∧
      (s.h.dmd = false → s'.h.dmd = false ∧ Turned u c (documents h) a o) ∧ (∀ φ, a = .close φ → s'.h.dmd = false) := by
  obtain ⟨hx, _, _, hqn, _⟩ := hr.rep hU hsrt hf
  have hn := hU.shards
  have hn' := hU.shardsSmall
  obtain ⟨hsx, hsq⟩ := hs
  cases a with
  | close φ =>
    refine ⟨_, _, rfl, ⟨hsx, hsq⟩, rfl, fun hc => ⟨rfl, ?_⟩, fun _ _ => rfl⟩
    show Index.closeShards φ.pos 0 s.h.pos (closeFile s.h.dmd φ.dmd) ≠ none
    rw [hc]
    simp only [closeFile, Bool.false_eq_true, if_false]
    rw [closeShards_some]
    exact nofun
  | stats =>
    refine ⟨_, _, rfl, ⟨hsx, hsq⟩, rfl, fun hc => ⟨hc, errClosed, ?_⟩, nofun⟩
    rw [hc]; rfl
  | start =>
    have hst := hr.start
    refine ⟨.started, { s with queries := s.queries ++ [q0] }, ?_, ⟨hsx, ?_⟩, by simp [HCall.after], fun hc => ⟨hc, trivial⟩, nofun⟩
    · simp only [Holder.call, hsx, hst, bind, Except.bind, pure, Except.pure]
    · intro q hq
      rcases List.mem_append.mp hq with hq | hq
      · exact hsq q hq
      · rw [List.mem_singleton] at hq; subst hq; exact ⟨L0, hL0, Nat.le_refl _⟩
  | get k b =>
    have hk := hget k b rfl
    have hqk : s.queries[k]? = some s.queries[k] := List.getElem?_eq_getElem hk
    obtain ⟨L, hL, _⟩ := hsq _ (List.getElem_mem hk)
    have hq : s.queries[k].n = q0.n := by rw [hL.qn, hqn]
    simp only [HCall.size] at hfuel
    cases hd : s.h.dmd with
    | true =>
      obtain ⟨r, hr1⟩ : ∃ r, Query.get grow x fuel s.queries[k] b = .ok r := by
        obtain ⟨bl, ds⟩ := b
        cases ds with
        | none =>
          obtain ⟨r, e1, _⟩ := C21_get hU hsrt hr hf grow bl fuel (by omega) hq
          exact ⟨r, e1⟩
        | some ds => exact ⟨_, C22_get_limited hU hsrt hr hf grow bl ds.vis ds.spare fuel (by omega) hq⟩
      obtain ⟨r', e, hr2⟩ : ∃ r' e, Query.getF s.h.fates grow x fuel s.queries[k] b = .ok (r', e) := by
        rcases Query.getF_cases s.h.fates grow x fuel s.queries[k] b r hr1 with g | ⟨_, b', e, g⟩
        · exact ⟨_, _, g⟩
        · exact ⟨_, _, g⟩
      exact ⟨.got r' e, s, by simp only [Holder.call, hqk, hsx, hr2, bind, Except.bind, pure, Except.pure], ⟨hsx, hsq⟩, rfl, nofun, nofun⟩
    | false =>
      obtain ⟨hz, sh, rs, g1, g2, g3, g4⟩ := Query.get_route hx (by omega) (by omega) b.blot (hq.trans hqn)
      have hfresh : rs.posts.docids = [] := by
        unfold ShardIndex.readStateFor ShardIndex.readStateForBlotAt at g2
        split at g2
        · injection g2 with g2; rw [← g2]; rfl
        · cases g2
      obtain ⟨e, e1, e2⟩ := Query.getLoop_shut (fates_closed hd) grow x (fuel := fuel) (by omega) 0 g3 hfresh b
      refine ⟨.got b e, s, ?_, ⟨hsx, hsq⟩, rfl, fun _ => ⟨hd, rfl, e2.trans ?_⟩, nofun⟩
      · simp only [Holder.call, hqk, hsx, Query.getF, if_neg hz, g1, g2, bind, Except.bind, pure, Except.pure, e1]
      · have hl := bucketIds_length_found u c _ hf.ids b.blot.toNat
        refine or_congr ?_ ?_
        · obtain ⟨bl, ds⟩ := b
          cases ds with
          | none => simp [NoRoom]
          | some ds =>
            obtain ⟨v, sp⟩ := ds
            simp only [Option.isSome_some, true_and, Blot.len, Blot.cap, NoRoom, Option.some.injEq, DocSlice.mk.injEq]
            constructor
            · intro h; exact ⟨v, rfl, List.length_eq_zero_iff.mp (by omega)⟩
            · rintro ⟨_, _, rfl⟩; rfl
        · rw [← List.length_eq_zero_iff, ← List.length_eq_zero_iff (l := found _ _ _ _), hl]
  | next k dst =>
    have hk := hnext k dst rfl
    have hqk : s.queries[k]? = some s.queries[k] := List.getElem?_eq_getElem hk
    obtain ⟨L, hL, hLW⟩ := hsq _ (List.getElem_mem hk)
    have hgo := Query.toGo_le s.queries[k]
    simp only [HCall.size] at hfuel
    have hqs : ∀ (q' : QState) (L' : List Query.Place), Query.LInv x c.numShards.toNat (bucketIds u c (documents h)) q' L' → Query.wts L' ≤ Query.wts L →
        Held u c (documents h) x (Query.wts L0) { s with queries := s.queries.set k q' } := by
      intro q' L' h1 h2
      refine ⟨hsx, fun q hq => ?_⟩
      rcases List.mem_or_eq_of_mem_set hq with hq | hq
      · exact hsq q hq
      · subst hq; exact ⟨L', h1, by omega⟩
    cases hd : s.h.dmd with
    | true =>
      obtain ⟨r, e1, e2⟩ := Query.nextLoop_any hsrt hx (by omega) grow hff
        (fun i => (dst[i]?.bind (·.docs)).map fun d => d.spare.length) fuel s.queries[k] L 0 dst hL (by
          intro i b _ hb
          rcases hroom hd b (List.mem_of_getElem? hb) with e | ⟨s, e⟩
          · exact .inl ⟨e, by simp [hb, e]⟩
          · exact .inr ⟨s, e, by simp [hb, e]⟩) (Nat.zero_le _) (by omega)
      obtain ⟨L', r1, r2, _, _⟩ := e2.rest
      have hF : Query.nextF s.h.fates grow x ff fuel s.queries[k] dst = .ok r.out := by
        rcases Query.nextLoopF_cases s.h.fates grow x ff fuel 0 s.queries[k] 0 dst r e1 with g | ⟨⟨j, hj⟩, _⟩
        · exact g
        · exact absurd (fates_open hd j) hj
      refine ⟨.next r.out, _, ?_, hqs r.state L' r1 (by omega), by simp [HCall.after], nofun, nofun⟩
      simp only [Holder.call, hqk, hsx, hF, bind, Except.bind, pure, Except.pure]
      rfl
    | false =>
      obtain ⟨r, e1, e2⟩ := Query.nextLoop_shut hsrt hx (by omega) (fates_closed hd) grow (ff := ff) (by omega) fuel 0 s.queries[k] L 0 dst hL (Nat.zero_le _) (by omega)
      obtain ⟨L', r1, r2⟩ := e2.rest
      have hF : Query.nextF s.h.fates grow x ff fuel s.queries[k] dst = .ok r := e1
      refine ⟨.next r, _, ?_, hqs r.state L' r1 r2, by simp [HCall.after], fun _ => ⟨hd, e2.hi, e2.err, fun i hi => ?_⟩, nofun⟩
      · simp only [Holder.call, hqk, hsx, hF, bind, Except.bind, pure, Except.pure]
      · obtain ⟨b, b', d1, d2, d3, d4⟩ := e2.new i (Nat.zero_le _) hi
        refine ⟨b, b', d1, d2, ?_, ?_⟩
        · unfold Blot.len at d3; unfold Blot.vis; cases hb : b.docs <;> rw [hb] at d3 <;> simp at d3 ⊢; exact d3
        · unfold Blot.vis; rw [d4]

include hU hsrt in
/-- calls on a closed index -/
theorem Held.turned {h : Sessions} {x : Index} {q0 : QState} (hr : Reading u J srt c h x q0) (hf : Fits u c (documents h)) {L0 : List Query.Place}
    (hL0 : Query.LInv x c.numShards.toNat (bucketIds u c (documents h)) q0 L0) (grow : Nat → Nat) {ff fuel : Nat} (hff : 2 ^ 32 ≤ ff) (post : List HCall) :
    ∀ {s : Holder}, Held u c (documents h) x (Query.wts L0) s → s.h.dmd = false → UsesStarted s.queries.length post →
      Query.wts L0 + 2 ^ 32 + (post.map HCall.size).sum + (documents h).length < fuel →
      ∃ os s', s.calls grow ff fuel post = .ok (os, s') ∧ List.Forall₂ (Turned u c (documents h)) post os := by
  induction post with
  | nil => intro s _ _ _ _; exact ⟨[], s, rfl, .nil⟩
  | cons a post ih =>
    intro s hs hd hu hfuel
    rw [List.map_cons, List.sum_cons] at hfuel
    obtain ⟨u1, u2, u3⟩ := usesStarted_cons hu
    obtain ⟨o, s', e1, e2, e3, e4, _⟩ := hs.step hU hsrt hr hf hL0 (fuel := fuel) (a := a) (fun hc => by rw [hd] at hc; cases hc) u2 u3 grow hff (by omega)
    obtain ⟨os, s'', f1, f2⟩ := ih e2 (e4 hd).1 (by rw [e3]; exact u1) (by omega)
    exact ⟨o :: os, s'', by simp only [Holder.calls, e1, f1, bind, Except.bind, pure, Except.pure], .cons (e4 hd).2 f2⟩

include hU hsrt in
/-- **C100**, what does hold: however an index has been used, with any number of queries at any points, once it has been closed every further call is turned down
(`Turned`): `Close` and `Stats` return an error; `Get` reads no document, and returns an error unless there is no document to be had or no room; `Next` counts no
blot with a document it did not have before, and returns an error or `io.EOF` if it counts none. -/
theorem C100_calls_partial {h : Sessions} {x : Index} {q0 : QState} (hr : Reading u J srt c h x q0) (hf : Fits u c (documents h)) (pre post : List HCall) (φ : CloseFates)
    (hpre : ∀ a ∈ pre, GivesRoom a) (hu : UsesStarted 0 (pre ++ .close φ :: post)) :
    ∃ K : Nat, ∀ grow ff fuel, 2 ^ 32 ≤ ff → K < fuel → ∃ os e os' s, Holder.calls grow ff fuel ⟨x, Handles.all c.numShards.toNat, []⟩ (pre ++ .close φ :: post) = .ok (os ++ .closed e :: os', s) ∧
      os.length = pre.length ∧ List.Forall₂ (Turned u c (documents h)) post os' := by
  obtain ⟨hx, _⟩ := hr.rep hU hsrt hf
  have hn := hU.shards
  have hn' := hU.shardsSmall
  obtain ⟨L0, hL0⟩ := Query.LInv.start hsrt hx (by omega) hr.start (by omega)
  refine ⟨Query.wts L0 + 2 ^ 32 + ((pre ++ .close φ :: post).map HCall.size).sum + (documents h).length, fun grow ff fuel hff hfuel => ?_⟩
  have key : ∀ (pre : List HCall) (s : Holder), Held u c (documents h) x (Query.wts L0) s → (∀ a ∈ pre, GivesRoom a) → UsesStarted s.queries.length (pre ++ .close φ :: post) →
      Query.wts L0 + 2 ^ 32 + ((pre ++ .close φ :: post).map HCall.size).sum + (documents h).length < fuel →
      ∃ os e os' s', s.calls grow ff fuel (pre ++ .close φ :: post) = .ok (os ++ .closed e :: os', s') ∧ os.length = pre.length ∧ List.Forall₂ (Turned u c (documents h)) post os' := by
    intro pre
    induction pre with
    | nil =>
      intro s hs _ hu hfuel
      simp only [List.nil_append, List.map_cons, List.sum_cons] at hu hfuel ⊢
      obtain ⟨u1, u2, u3⟩ := usesStarted_cons hu
      obtain ⟨o, s', e1, e2, e3, _, e5⟩ := hs.step hU hsrt hr hf hL0 (fuel := fuel) (a := .close φ) (fun _ => trivial) u2 u3 grow hff (by omega)
      obtain ⟨os', s'', f1, f2⟩ := Held.turned hU hsrt hr hf hL0 grow (fuel := fuel) hff post e2 (e5 φ rfl) (by rw [e3]; exact u1) (by omega)
      have ho : o = .closed (Index.close φ s.h).1 := by
        simp only [Holder.call] at e1
        injection e1 with e1; injection e1 with e1 _; exact e1.symm
      subst ho
      exact ⟨[], (Index.close φ s.h).1, os', s'', by simp only [Holder.calls, e1, f1, bind, Except.bind, pure, Except.pure, List.nil_append], rfl, f2⟩
    | cons a pre ih =>
      intro s hs hroom hu hfuel
      simp only [List.cons_append, List.map_cons, List.sum_cons] at hu hfuel ⊢
      obtain ⟨u1, u2, u3⟩ := usesStarted_cons hu
      obtain ⟨o, s', e1, e2, e3, _, _⟩ := hs.step hU hsrt hr hf hL0 (fuel := fuel) (a := a) (fun _ => hroom a (by simp)) u2 u3 grow hff (by omega)
      obtain ⟨os, e, os', s'', f1, f2, f3⟩ := ih s' e2 (fun a ha => hroom a (by simp [ha])) (by rw [e3]; exact u1) (by omega)
      exact ⟨o :: os, e, os', s'', by simp only [Holder.calls, e1, f1, bind, Except.bind, pure, Except.pure, List.cons_append], by simp [f2], f3⟩
  exact key pre ⟨x, Handles.all c.numShards.toNat, []⟩ ⟨rfl, by simp⟩ hpre hu hfuel

include hU hsrt in
/-- **C100** is false as it stands: `Get` of a blot no document has returns no error, as if the index were open. -/
theorem C100_false_get {h : Sessions} {x : Index} {q0 : QState} (hr : Reading u J srt c h x q0) (hf : Fits u c (documents h)) (φ : CloseFates) (b : Blot)
    (hb : found u c (documents h) b.blot.toNat = []) : ∃ K : Nat, ∀ grow ff fuel, 2 ^ 32 ≤ ff → K < fuel → ∃ e s,
      Holder.calls grow ff fuel ⟨x, Handles.all c.numShards.toNat, []⟩ [.start, .close φ, .get 0 b] = .ok ([.started, .closed e, .got b none], s) := by
  obtain ⟨K, hK⟩ := C100_calls_partial hU hsrt hr hf [.start] [.get 0 b] φ (by intro a ha; rw [List.mem_singleton] at ha; subst ha; trivial) ⟨Nat.zero_lt_one, trivial⟩
  refine ⟨K, fun grow ff fuel hff hfuel => ?_⟩
  obtain ⟨os, e, os', s, h1, h2, h3⟩ := hK grow ff fuel hff hfuel
  match os', h3 with
  | [.got b' e'], .cons ⟨g1, g2⟩ .nil =>
    have := g2.mpr (.inr hb)
    subst g1 this
    have ho : os = [.started] := by
      simp only [List.cons_append, List.nil_append, Holder.calls, Holder.call, hr.start, bind, Except.bind, pure, Except.pure] at h1
      split at h1
      · cases h1
      · injection h1 with h1
        injection h1 with h1 _
        match os, h2 with
        | [o], _ =>
          injection h1 with h1 _
          rw [← h1]
    subst ho
    exact ⟨e, s, h1⟩

/-- slices that are full are counted as they are -/
theorem nextLoopF_full (φ : ReadFates) (grow : Nat → Nat) (x : Index) {ff : Nat} (hff : 0 < ff) (fuel : Nat) : ∀ (c : Nat) (q : QState) (src : ReadState) (k : Nat) (dst : List Blot),
    q.shardStates[q.i.toNat]? = some (some src) → (∀ b ∈ dst, ∃ v, b.docs = some ⟨v, []⟩ ∧ 2 ≤ v.length) → k ≤ dst.length → dst.length - k < fuel →
    ∃ r, Query.nextLoopF φ grow x ff fuel c q k dst = .ok r ∧ r.n = dst.length ∧ r.err = none ∧ r.dst.map Blot.docs = dst.map Blot.docs := by
  induction fuel with
  | zero => intro c q src k dst _ _ _ hf; omega
  | succ fuel ih =>
    intro c q src k dst hs hd hk hf
    by_cases he : k = dst.length
    · exact ⟨⟨k, none, dst, q⟩, by simp only [Query.nextLoopF, List.getElem?_eq_none (show dst.length ≤ k by omega)], he, rfl, rfl⟩
    have hlt : k < dst.length := by omega
    have hb : dst[k]? = some dst[k] := List.getElem?_eq_getElem hlt
    obtain ⟨v, hv, h2⟩ := hd _ (List.getElem_mem hlt)
    obtain ⟨f, rfl⟩ : ∃ f, ff = f + 1 := ⟨ff - 1, by omega⟩
    have hfill : Query.fillBlotF φ grow x (f + 1) c q dst[k] src q.i = .ok (c, { dst[k] with blot := UInt32.ofNat src.blot * q.n + q.i }, q.put q.i src, none) := by
      simp [Query.fillBlotF, Query.fillLoopF, hv, Blot.len, Blot.cap]
    have hput : (q.put q.i src).shardStates[(q.put q.i src).i.toNat]? = some (some src) := by
      show (q.shardStates.set q.i.toNat (some src))[q.i.toNat]? = _
      rw [List.getElem?_set_self (List.getElem?_eq_some_iff.mp hs).1]
    obtain ⟨r, r1, r2, r3, r4⟩ := ih c (q.put q.i src) src (k + 1) (dst.set k { dst[k] with blot := UInt32.ofNat src.blot * q.n + q.i }) hput (by
      intro b hb
      rcases List.mem_or_eq_of_mem_set hb with hb | hb
      · exact hd b hb
      · subst hb; exact ⟨v, hv, h2⟩) (by rw [List.length_set]; exact hlt) (by rw [List.length_set]; omega)
    refine ⟨r, ?_, by rw [r2, List.length_set], r3, ?_⟩
    · have hl : ¬ Blot.len { dst[k] with blot := UInt32.ofNat src.blot * q.n + q.i } ≤ 1 := by simp only [Blot.len, hv]; omega
      simp only [Query.nextLoopF, hb, hs, hfill, bind, Except.bind, hl, if_false]
      exact r1
    · rw [r4, List.map_set]
      have hg : (dst.map Blot.docs)[k]'(by rw [List.length_map]; exact hlt) = dst[k].docs := List.getElem_map ..
      show (dst.map Blot.docs).set k dst[k].docs = dst.map Blot.docs
      rw [← hg, List.set_getElem_self]

include hU hsrt in
/-- a fresh query is at a shard; if a document has a blot, at a list with a document, of which none has been read -/
theorem fresh_at {h : Sessions} {x : Index} {q : QState} (hr : Reading u J srt c h x q) (hf : Fits u c (documents h)) :
    ∃ src rem, q.shardStates[q.i.toNat]? = some (some src) ∧ PostsRep src.file src.posts rem ∧ src.posts.docids = [] ∧
      ((∃ b : UInt32, found u c (documents h) b.toNat ≠ []) → rem ≠ []) := by
  obtain ⟨hx, _⟩ := hr.rep hU hsrt hf
  have hn := hU.shards
  have hn' := hU.shardsSmall
  obtain ⟨L, hL⟩ := Query.LInv.start hsrt hx (by omega) hr.start (by omega)
  have hq := hr.start
  unfold Index.startQuery at hq
  simp only [bind, Except.bind, pure, Except.pure] at hq
  cases hss : Index.initStates x.shards with
  | error e => rw [hss] at hq; cases hq
  | ok ss =>
    rw [hss] at hq
    injection hq with hq
    have hst : q.shardStates = ss := by rw [← hq]; rfl
    have hqi : q.i = QState.maxLoop ss 0 0 0 := by rw [← hq]; rfl
    have hlen : ss.length = c.numShards.toNat := by rw [← hst]; exact hL.lenS
    have hat : ∀ j, j < c.numShards.toNat → ∃ rs rem, ss[j]? = some (some rs) ∧ rs.posts.docids = [] ∧ PostsRep rs.file rs.posts rem ∧ rs.total.toNat = rem.length ∧
        ∀ b, b < 65536 → (bucketIds u c (documents h) j b).length ≤ rem.length := by
      intro j hj
      obtain ⟨s, hs⟩ : ∃ s, ss[j]? = some s := ⟨_, List.getElem?_eq_getElem (by omega)⟩
      obtain ⟨xj, rs, h1, h2, h3⟩ := Query.initStates_at x.shards ss hss j s hs
      subst h2
      have hj' := hx.sh j xj h1
      obtain ⟨b, hb, hlt⟩ := Query.perm_get hsrt hj' (a := 0) (by omega)
      obtain ⟨rs', g1, g2, _, _, g5⟩ := Query.readStateAt_rep hj' hb hlt
      rw [h3] at g1; injection g1 with g1; subst g1
      refine ⟨rs, _, hs, ?_, g2, g5, fun b' hb' => ?_⟩
      · unfold ShardIndex.readStateAt at h3
        simp only [bind, Except.bind] at h3
        split at h3
        · cases h3
        · unfold ShardIndex.readStateForBlotAt at h3
          split at h3
          · injection h3 with h3; rw [← h3]; rfl
          · cases h3
      · have hsort := hsrt.sorted xj.counts
        have hmem : b' ∈ srt xj.counts := (hsrt.perm xj.counts).mem_iff.mpr (List.mem_range.mpr (by rw [hj'.lenC]; exact hb'))
        rw [hj'.perm] at hb
        have e1 := hj'.counts b hlt
        have e2 := hj'.counts b' hb'
        generalize srt xj.counts = sc at hb hmem hsort
        match sc, hb, hmem, hsort with
        | p :: ps, hb, hmem, hsort =>
          have hb : p = b := by simpa using hb
          subst hb
          rcases List.mem_cons.mp hmem with hm | hm
          · rw [hm]
          · have := (List.pairwise_cons.mp hsort).1 b' hm
            have := UInt32.le_iff_toNat_le.mp this
            omega
    obtain ⟨src, rem, g1, g2, g3, g4, _⟩ := hat q.i.toNat hL.i
    refine ⟨src, rem, by rw [hst]; exact g1, g3, g2, ?_⟩
    rintro ⟨b, hb⟩ he
    have hl := bucketIds_length_found u c (documents h) hf.ids b.toNat
    obtain ⟨rs, rem', k1, _, _, k4, k5⟩ := hat (b.toNat % c.numShards.toNat) (Nat.mod_lt _ (by omega))
    have k5 := k5 (b.toNat / c.numShards.toNat % 65536) (Nat.mod_lt _ (by omega))
    have hpos : (found u c (documents h) b.toNat).length ≠ 0 := fun e => hb (List.length_eq_zero_iff.mp e)
    rcases Query.maxLoop_spec ss 0 0 0 (by omega) with ⟨_, m2⟩ | ⟨j, s, m1, m2, m3, _⟩
    · have := UInt32.le_iff_toNat_le.mp (m2 rs (List.mem_of_getElem? k1))
      have h0 : (0 : UInt32).toNat = 0 := rfl
      omega
    · have hj : q.i.toNat = j := by rw [hqi, m2]; omega
      rw [hj, m1] at g1
      injection g1 with g1; injection g1 with g1
      subst g1
      have := UInt32.lt_iff_toNat_lt.mp m3
      rw [g4, he] at this
      simp at this

include hU hsrt in
/-- **C100** (what is true of it): if any document has a blot, the first `Next` of a query of a closed index, given room, gives an error that is not `io.EOF`: it is not
taken for the end of an index without duplicates. -/
theorem C100_fresh_partial {h : Sessions} {x : Index} {q : QState} (hr : Reading u J srt c h x q) (hf : Fits u c (documents h)) {b : UInt32}
    (hb : found u c (documents h) b.toNat ≠ []) (d : Blot) (dst : List Blot) (hd : ¬ NoRoom d) (φ : CloseFates) (grow : Nat → Nat) (ff fuel : Nat) :
    ∃ e o s, Holder.calls grow (ff + 1) (fuel + 1) ⟨x, Handles.all c.numShards.toNat, []⟩ [.close φ, .start, .next 0 (d :: dst)] = .ok ([.closed e, .started, .next o], s) ∧
      o.n = 0 ∧ ∃ e', o.err = some e' ∧ e' ≠ .eof := by
  obtain ⟨src, rem, h1, h2, h3, h4⟩ := fresh_at hU hsrt hr hf
  have hA : AllFail (Index.close φ (Handles.all c.numShards.toNat)).2.fates := fates_closed rfl
  rcases nextF_shut hA 0 h2 with ⟨e1, _⟩ | ⟨_, k', e, e2, e3⟩ | ⟨_, _, _, _, _, _, _, e3⟩
  · exact absurd e1 (h4 ⟨b, hb⟩)
  · have hroom : (!d.docs.isSome || Blot.len ⟨UInt32.ofNat src.blot * q.n + q.i, d.docs⟩ < Blot.cap ⟨UInt32.ofNat src.blot * q.n + q.i, d.docs⟩) = true := by
      obtain ⟨bl, ds⟩ := d
      cases ds with
      | none => rfl
      | some v =>
        obtain ⟨v, w⟩ := v
        cases w with
        | nil => exact absurd ⟨v, rfl⟩ hd
        | cons a w => simp [Blot.len, Blot.cap]
    have hfill : Query.fillBlotF (Index.close φ (Handles.all c.numShards.toNat)).2.fates grow x (ff + 1) 0 q d src q.i =
        .ok (k', ⟨UInt32.ofNat src.blot * q.n + q.i, d.docs⟩, q.put q.i src, some e) := by
      unfold Query.fillBlotF
      simp only [Query.fillLoopF, hroom, if_true, e2]
    refine ⟨(Index.close φ (Handles.all c.numShards.toNat)).1, ⟨0, some e, (d :: dst).set 0 ⟨UInt32.ofNat src.blot * q.n + q.i, d.docs⟩, q.put q.i src⟩,
      ⟨x, (Index.close φ (Handles.all c.numShards.toNat)).2, [q.put q.i src]⟩, ?_, rfl, e, rfl, e3⟩
    simp only [Holder.calls, Holder.call, hr.start, bind, Except.bind, pure, Except.pure, List.nil_append, List.getElem?_cons_zero, Query.nextF, Query.nextLoopF, h1, hfill]
    rfl
  · exact absurd h3 e3

include hU hsrt in
/-- **C100** is false as it stands: given slices with documents and no room, `Next` of a query of a closed index returns them as they are, as blots it has found, and no error. -/
theorem C100_false_next {h : Sessions} {x : Index} {q : QState} (hr : Reading u J srt c h x q) (hf : Fits u c (documents h)) (dst : List Blot)
    (hd : ∀ b ∈ dst, ∃ v, b.docs = some ⟨v, []⟩ ∧ 2 ≤ v.length) (φ : CloseFates) (grow : Nat → Nat) (ff fuel : Nat) (hfuel : dst.length ≤ fuel) :
    ∃ e o s, Holder.calls grow (ff + 1) (fuel + 1) ⟨x, Handles.all c.numShards.toNat, []⟩ [.close φ, .start, .next 0 dst] = .ok ([.closed e, .started, .next o], s) ∧
      o.n = dst.length ∧ o.err = none ∧ o.dst.map Blot.docs = dst.map Blot.docs := by
  obtain ⟨src, rem, h1, _⟩ := fresh_at hU hsrt hr hf
  obtain ⟨r, r1, r2, r3, r4⟩ := nextLoopF_full (Index.close φ (Handles.all c.numShards.toNat)).2.fates grow x (Nat.zero_lt_succ ff) (fuel + 1) 0 q src 0 dst h1 hd (Nat.zero_le _) (by omega)
  refine ⟨(Index.close φ (Handles.all c.numShards.toNat)).1, r, ⟨x, (Index.close φ (Handles.all c.numShards.toNat)).2, [r.state]⟩, ?_, r2, r3, r4⟩
  simp only [Holder.calls, Holder.call, hr.start, bind, Except.bind, pure, Except.pure, List.nil_append, List.getElem?_cons_zero, Query.nextF, r1]
  rfl

end

/-- not vacuous: an index of two documents that share a blot; after `Close`, `Stats`, `Get` and `Next` give errors, `Get` of another blot does not -/
theorem C100_nonvacuous : ∃ (x : Index) (q : QState) (b : UInt32), Reading asciiUni Json.codec mergeSorter exCmdConfig exCmdSessions x q ∧
    (found asciiUni exCmdConfig (documents exCmdSessions) 1).length = 2 ∧ found asciiUni exCmdConfig (documents exCmdSessions) b.toNat = [] ∧
    ∃ e₁ e₂ e₃ e₄ fuel s o, Holder.calls (fun _ => 0) (2 ^ 32) fuel ⟨x, Handles.all exCmdConfig.numShards.toNat, []⟩
        [.close ⟨none, fun _ => none, none⟩, .start, .stats, .get 0 ⟨1, none⟩, .get 0 ⟨b, none⟩, .next 0 [⟨0, none⟩], .close ⟨none, fun _ => none, none⟩] =
      .ok ([.closed none, .started, .stats (.error (.err e₁)), .got ⟨1, none⟩ (some e₂), .got ⟨b, none⟩ none, .next o, .closed (some e₄)], s) ∧ o.n = 0 ∧ o.err = some e₃ := by
  have hU := exCmd_usable
  have hsrt := mergeSorter_isSorter
  obtain ⟨d, hd⟩ := History.exists (u := asciiUni) exCmd_usable [47] [⟨[116, 47, 112], 0, 22, some exText1⟩, ⟨[116, 47, 113], 0, 24, some exText2⟩] [] exCmd_fits
  change History asciiUni Json.codec exCmdConfig exCmdSessions d at hd
  obtain ⟨x, q, _, hr⟩ := reading_exists hU hsrt hd exCmd_fits
  obtain ⟨_, _, b, _, b1, b2⟩ := exTwin_blots
  have hb : found asciiUni exCmdConfig (documents exCmdSessions) b.toNat = [] := by rw [exCmd_docs]; simp [found, b1, b2]
  have h1 : (found asciiUni exCmdConfig (documents exCmdSessions) (1 : UInt32).toNat).length = 2 := by rw [exCmd_docs]; decide +kernel
  obtain ⟨K, hK⟩ := C100_calls_partial hU hsrt hr exCmd_fits [] [.start, .stats, .get 0 ⟨1, none⟩, .get 0 ⟨b, none⟩, .next 0 [⟨0, none⟩], .close ⟨none, fun _ => none, none⟩]
    ⟨none, fun _ => none, none⟩ nofun ⟨Nat.zero_lt_one, Nat.zero_lt_one, Nat.zero_lt_one, trivial⟩
  obtain ⟨os, e, os', s, g1, g2, g3⟩ := hK (fun _ => 0) (2 ^ 32) (K + 1) (Nat.le_refl _) (by omega)
  have hos := List.length_eq_zero_iff.mp g2
  subst hos
  have he : e = none := by
    have h0 := (C100_close_partial exCmdConfig.numShards.toNat ⟨none, fun _ => none, none⟩).2.mpr ⟨rfl, fun _ _ => rfl⟩
    simp only [List.nil_append, Holder.calls, Holder.call, h0, bind, Except.bind, pure, Except.pure] at g1
    split at g1
    · cases g1
    · injection g1 with g1; injection g1 with g1; injection g1 with g1; injection g1 with g1; exact g1.symm
  match os', g3 with
  | [.started, .stats t, .got b₁ e₁, .got b₂ e₂, .next o, .closed e₄], .cons _ (.cons ⟨t', ht⟩ (.cons ⟨k1, k2⟩ (.cons ⟨l1, l2⟩ (.cons ⟨m1, m2, m3⟩ (.cons n1 .nil))))) =>
    subst ht k1 l1 he
    have hl := l2.mpr (.inr hb)
    subst hl
    have hn : ¬ e₁ = none := fun h => by
      rcases k2.mp h with ⟨v, hv⟩ | hv
      · cases hv
      · rw [hv] at h1; cases h1
    obtain ⟨e₁, rfl⟩ := Option.ne_none_iff_exists'.mp hn
    obtain ⟨e₄, rfl⟩ := Option.ne_none_iff_exists'.mp n1
    have ho : o.n = 0 := by
      by_cases h : o.n = 0
      · exact h
      obtain ⟨c, _, c1, _, c3, _⟩ := m3 0 (by omega)
      injection c1 with c1
      subst c1
      exact absurd c3 (by decide)
    obtain ⟨e₃, he3⟩ := Option.ne_none_iff_exists'.mp (m2 ho nofun)
    exact ⟨x, q, b, hr, h1, hb, t', e₁, e₃, e₄, K + 1, s, o, g1, ho, he3⟩

end Dupi.Props
