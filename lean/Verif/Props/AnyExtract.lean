import Verif.Props.AnyCmds
import Mathlib.Data.List.TakeWhile
/-! # C121: all that extract prints of any directory that opens -/

namespace Dupi.Props
open Spec

theorem nextCalls_cons {grow : Nat → Nat} {x : Index} {ff fuel : Nat} {q : QState} {dst : List Blot} {r : Query.NextResult} (h : Query.next grow x ff fuel q dst = .ok r)
    (dsts : List (List Blot)) : nextCalls grow x ff fuel q (dst :: dsts) = (nextCalls grow x ff fuel r.state dsts).map (r :: ·) := by
  simp only [nextCalls, h, bind, Except.bind, pure, Except.pure]
  cases nextCalls grow x ff fuel r.state dsts <;> rfl

theorem nextCalls_cons_inv {grow : Nat → Nat} {x : Index} {ff fuel : Nat} {q : QState} {dst : List Blot} {dsts : List (List Blot)} {rs : List Query.NextResult}
    (h : nextCalls grow x ff fuel q (dst :: dsts) = .ok rs) :
    ∃ r rs', Query.next grow x ff fuel q dst = .ok r ∧ nextCalls grow x ff fuel r.state dsts = .ok rs' ∧ rs = r :: rs' := by
  simp only [nextCalls, bind, Except.bind, pure, Except.pure] at h
  cases hr : Query.next grow x ff fuel q dst with
  | error e => rw [hr] at h; cases h
  | ok r =>
    rw [hr] at h
    simp only at h
    cases hrs : nextCalls grow x ff fuel r.state dsts with
    | error e => rw [hrs] at h; cases h
    | ok rs' => rw [hrs] at h; injection h with h; exact ⟨r, rs', rfl, hrs, h.symm⟩

theorem blot_len_vis (b : Blot) : b.len = b.vis.length := by
  unfold Blot.len Blot.vis; cases b.docs <;> rfl

/-- the blot that a call returned for a list -/
def ToldBlot (n : Nat) (R : Nat × Nat → List Doc → Prop) (jk : Nat × Nat) (bl : Blot) : Prop := bl.blot = UInt32.ofNat (jk.2 * n + jk.1) ∧ R jk bl.vis

/-- the loop of extract, if calls of `Next` visit `E` -/
theorem extract_visited {json : Bool} {grow : Nat → Nat} {x : Index} {ff fuel n : Nat} {N : Int} {R : Nat × Nat → List Doc → Prop} {g : Nat × Nat → Nat} (hR : ∀ jk l, R jk l → l.length = g jk) :
    ∀ (E : List (Nat × Nat)) (lim k : Nat) (q : QState) (b : Blot), b.docs = none →
      (∀ dsts : List (List Blot), (∀ dst ∈ dsts, ∀ b ∈ dst, b.docs = none) → (dsts.map List.length).sum ≤ lim → ∃ rs, nextCalls grow x ff fuel q dsts = .ok rs ∧ Visited n R E dsts rs) →
      (∀ jk ∈ E.takeWhile (fun jk => decide (N ≤ (g jk : Int))), 2 ≤ g jk) → (E.takeWhile fun jk => decide (N ≤ (g jk : Int))).length < lim →
      (E.takeWhile fun jk => decide (N ≤ (g jk : Int))).length < k →
      ∃ out, Cmd.extractLoop json grow x ff fuel N k q b = .ok out ∧ List.Forall₂ (ToldBlot n R) (E.takeWhile fun jk => decide (N ≤ (g jk : Int))) out := by
  intro E
  induction E with
  | nil =>
    intro lim k q b hb H _ hlim hk
    obtain ⟨rs, h1, h2⟩ := H [[b]] (by simp [hb]) (by simp at hlim ⊢; omega)
    obtain ⟨r, rs', g1, g2, rfl⟩ := nextCalls_cons_inv h1
    injection g2 with g2; subst g2
    obtain ⟨v1, v2, _⟩ := h2
    cases k with
    | zero => omega
    | succ k =>
      have hn : r.n = 0 := by simpa using v1
      have he : r.eof = true := v2.mpr (by simp)
      exact ⟨[], by simp only [Cmd.extractLoop, g1, bind, Except.bind, he, hn, if_true, ne_eq, not_true, if_false]; rfl, .nil⟩
  | cons jk E ih =>
    intro lim k q b hb H h2 hlim hk
    obtain ⟨rs, h1, hv⟩ := H [[b]] (by simp [hb]) (by simp; omega)
    obtain ⟨r, rs', g1, g2, rfl⟩ := nextCalls_cons_inv h1
    injection g2 with g2; subst g2
    obtain ⟨v1, v2, v3, v4, _⟩ := hv
    cases k with
    | zero => omega
    | succ k =>
      have hn : r.n = 1 := by rw [v1]; simp
      have he : ¬ r.eof = true := by rw [v2]; simp
      obtain ⟨bl, w1, w2, w3⟩ := v4 0 jk (by simp) rfl
      have hlen : bl.len = g jk := by rw [blot_len_vis, hR _ _ w3]
      simp only [Cmd.extractLoop, g1, bind, Except.bind, if_neg he, hn, w1]
      by_cases hN : (bl.len : Int) < N
      · rw [List.takeWhile_cons_of_neg (by simp; omega)]
        exact ⟨[], by simp [hN, pure, Except.pure], .nil⟩
      · have htw := List.takeWhile_cons_of_pos (p := fun jk => decide (N ≤ (g jk : Int))) (a := jk) (l := E) (by simp; omega)
        rw [htw] at h2 hlim hk ⊢
        have hge := h2 jk (by simp)
        obtain ⟨out, k1, k2⟩ := ih (lim - 1) k r.state { bl with docs := none } rfl (by
          intro dsts hd hs
          obtain ⟨rs, e1, e2⟩ := H ([b] :: dsts) (by
            intro dst hdst b' hb'
            rcases List.mem_cons.mp hdst with rfl | hdst
            · simp at hb'; subst hb'; exact hb
            · exact hd dst hdst b' hb') (by simp at hlim ⊢; omega)
          obtain ⟨r', rs', e3, e4, rfl⟩ := nextCalls_cons_inv e1
          rw [g1] at e3; injection e3 with e3; subst e3
          exact ⟨rs', e4, e2.2.2.2.2⟩) (fun jk h => h2 jk (by simp [h])) (by simp at hlim; omega) (by simp at hk; omega)
        refine ⟨bl :: out, ?_, .cons ⟨w2, w3⟩ k2⟩
        simp only [show (1 : Nat) ≠ 0 by omega, hN, if_false, k1, pure, Except.pure, show ¬ (bl.len ≤ 1 ∧ json = false) by omega]

/-- the calls of extract -/
def askFor (n : Nat) (b : Blot) (A : List (Nat × Nat)) : List (List Blot) := [b] :: A.map fun jk => [⟨UInt32.ofNat (jk.2 * n + jk.1), none⟩]

/-- the loop of extract, if all of `A` is to be printed and the call after these fails -/
theorem extract_fault {json : Bool} {grow : Nat → Nat} {x : Index} {ff fuel n : Nat} {N : Int} {R : Nat × Nat → List Doc → Prop} {g : Nat × Nat → Nat} (hR : ∀ jk l, R jk l → l.length = g jk) {φ : Fault} :
    ∀ (A B : List (Nat × Nat)) (k : Nat) (q : QState) (b : Blot), b.docs = none →
      (∀ dsts : List (List Blot), (∀ dst ∈ dsts, ∀ b ∈ dst, b.docs = none) → (dsts.map List.length).sum ≤ A.length → ∃ rs, nextCalls grow x ff fuel q dsts = .ok rs ∧ Visited n R (A ++ B) dsts rs) →
      nextCalls grow x ff fuel q (askFor n b A) = .error φ → (∀ jk ∈ A, N ≤ (g jk : Int)) → A.length < k → Cmd.extractLoop json grow x ff fuel N k q b = .error φ := by
  intro A
  induction A with
  | nil =>
    intro B k q b hb H hf _ hk
    cases k with
    | zero => omega
    | succ k =>
      have : Query.next grow x ff fuel q [b] = .error φ := by
        simp only [askFor, List.map_nil, nextCalls, bind, Except.bind, pure, Except.pure] at hf
        cases hr : Query.next grow x ff fuel q [b] with
        | error e => rw [hr] at hf; simpa using hf
        | ok r => rw [hr] at hf; cases hf
      simp only [Cmd.extractLoop, this, bind, Except.bind]
  | cons jk A ih =>
    intro B k q b hb H hf hN hk
    obtain ⟨rs, h1, hv⟩ := H [[b]] (by simp [hb]) (by simp)
    obtain ⟨r, rs', g1, g2, rfl⟩ := nextCalls_cons_inv h1
    injection g2 with g2; subst g2
    obtain ⟨v1, v2, v3, v4, _⟩ := hv
    cases k with
    | zero => omega
    | succ k =>
      have hn : r.n = 1 := by rw [v1]; simp
      have he : ¬ r.eof = true := by rw [v2]; simp
      obtain ⟨bl, w1, w2, w3⟩ := v4 0 jk (by simp) rfl
      have hlen : bl.len = g jk := by rw [blot_len_vis, hR _ _ w3]
      have hNk := hN jk (by simp)
      simp only [Cmd.extractLoop, g1, bind, Except.bind, if_neg he, hn, w1, show (1 : Nat) ≠ 0 by omega, if_false, show ¬ ((bl.len : Int) < N) by omega]
      rw [ih B k r.state { bl with docs := none } rfl (by
          intro dsts hd hs
          obtain ⟨rs, e1, e2⟩ := H ([b] :: dsts) (by
            intro dst hdst b' hb'
            rcases List.mem_cons.mp hdst with rfl | hdst
            · simp at hb'; subst hb'; exact hb
            · exact hd dst hdst b' hb') (by simp; omega)
          obtain ⟨r', rs', e3, e4, rfl⟩ := nextCalls_cons_inv e1
          rw [g1] at e3; injection e3 with e3; subst e3
          exact ⟨rs', e4, e2.2.2.2.2⟩) (by
          rw [askFor, nextCalls_cons g1] at hf
          have ht : askFor n { bl with docs := none } A = (jk :: A).map fun jk => [⟨UInt32.ofNat (jk.2 * n + jk.1), none⟩] := by
            rw [askFor, List.map_cons, ← w2]
          rw [ht]
          cases hc : nextCalls grow x ff fuel r.state ((jk :: A).map fun jk => [⟨UInt32.ofNat (jk.2 * n + jk.1), none⟩]) with
          | error e => rw [hc] at hf; exact hf
          | ok rs => rw [hc] at hf; cases hf) (fun jk h => hN jk (by simp [h])) (by simp at hk; omega)]

/-- **C121**, all of extract.  In any directory that opens let `E` be the order of C115 of the lists that the files of heads say to have at least two documents.  As long as they
give at least two (`A`), extract prints them, in this order and with the documents their bytes give, until the first with fewer documents than the threshold; there it ends,
whatever comes later.  If there is none such, and these are all, it ends after them; if then comes one that cannot be read, or the reading of which panics or does not end, then
so does extract. -/
theorem C121_extract_all {srt : Sorter} (hsrt : IsSorter srt) {d : Dir} {x : Index} (hx : Index.open Json.codec srt d = .ok x) (hn : 0 < x.config.numShards)
    (hn' : x.config.numShards < 2 ^ 32) :
    ∃ dmd f ns E, d .dmd = some dmd ∧ d .fnm = some f ∧ TableFile f ns ∧
      E.Nodup ∧ (∀ j k, (j, k) ∈ E ↔ j < x.config.numShards.toNat ∧ ∃ c, CountAt d j k c ∧ 2 ≤ c) ∧
      E.Pairwise (fun a b => ∀ ca cb, CountAt d a.1 a.2 ca → CountAt d b.1 b.2 cb → cb ≤ ca) ∧
      ∀ (A B : List (Nat × Nat)) (G : Nat × Nat → List Nat), E = A ++ B → (∀ jk ∈ A, Meets d dmd ns jk.1 jk.2 (.result (G jk)) ∧ 2 ≤ (G jk).length) →
        ∀ json grow (N : Int),
          let Out := List.Forall₂ (ToldBlot x.config.numShards.toNat fun jk => Each (fun id (doc : Doc) => DocAs dmd ns id doc.path doc.start.toNat doc.stop.toNat) (G jk))
          ((∃ jk ∈ A, ((G jk).length : Int) < N) → ∃ K, ∀ ff fuel k, K < ff → K < fuel → K < k →
            ∃ out, Cmd.extract json grow x ff fuel k N = .ok out ∧ Out (A.takeWhile fun jk => decide (N ≤ ((G jk).length : Int))) out) ∧
          ((∀ jk ∈ A, N ≤ ((G jk).length : Int)) → B = [] →
            (∀ j k c, j < x.config.numShards.toNat → CountAt d j k c → c ≤ 1 → ∃ ids, Meets d dmd ns j k (.result ids) ∧ ids.length ≤ 1) →
            ∃ K, ∀ ff fuel k, K < ff → K < fuel → K < k → ∃ out, Cmd.extract json grow x ff fuel k N = .ok out ∧ Out A out) ∧
          ((∀ jk ∈ A, N ≤ ((G jk).length : Int)) → ∀ jk B', B = jk :: B' →
            (Meets d dmd ns jk.1 jk.2 .error → ∃ K, ∀ ff fuel k, K < ff → K < fuel → K < k → Errs (Cmd.extract json grow x ff fuel k N)) ∧
            (Meets d dmd ns jk.1 jk.2 .panic → ∃ K, ∀ ff fuel k, K < ff → K < fuel → K < k → Cmd.extract json grow x ff fuel k N = .error .panic) ∧
            (Meets d dmd ns jk.1 jk.2 .endless → ∃ K, ∀ ff fuel k, K < ff → K < fuel → K < k → Cmd.extract json grow x ff fuel k N = .error .diverge)) := by
  obtain ⟨dmd, f, ns, E, k1, k2, k3, k4, k5, k6, k7⟩ := C115_next hsrt hx hn hn'
  obtain ⟨x', q, hx', _, hq, hall⟩ := k7 d (fun _ _ => rfl) (fun _ => rfl)
  rw [hx] at hx'; injection hx' with hx'; subst hx'
  refine ⟨dmd, f, ns, E, k1, k2, k3, k4, k5, k6, fun A B G hE hA json grow N => ?_⟩
  have hex : ∀ ff fuel k, Cmd.extract json grow x ff fuel k N = Cmd.extractLoop json grow x ff fuel N k q ⟨0, none⟩ := by
    intro ff fuel k; simp only [Cmd.extract, hq, bind, Except.bind]
  have hG : ∃ M, ∀ jk ∈ A, (G jk).length < M := by
    clear hE hA
    induction A with
    | nil => exact ⟨0, by simp⟩
    | cons a A ih =>
      obtain ⟨M, hM⟩ := ih
      refine ⟨M + (G a).length + 1, fun jk hjk => ?_⟩
      rcases List.mem_cons.mp hjk with rfl | h
      · omega
      · have := hM jk h; omega
  obtain ⟨M, hM⟩ := hG
  have hR : ∀ (jk : Nat × Nat) (l : List Doc), Each (fun id (doc : Doc) => DocAs dmd ns id doc.path doc.start.toNat doc.stop.toNat) (G jk) l → l.length = (G jk).length :=
    fun jk l h => (each_len h).symm
  simp only [hex]
  refine ⟨fun hstop => ⟨M + A.length, fun ff fuel k h1 h2 h3 => ?_⟩, fun hge hB hshort => ⟨M + A.length + 2 + x.config.numShards.toNat + 2 ^ 32, fun ff fuel k h1 h2 h3 => ?_⟩,
    fun hge jk B' hB => ?_⟩
  · obtain ⟨jk, m1, m2⟩ := hstop
    have hne : A.takeWhile (fun jk => decide (N ≤ ((G jk).length : Int))) ≠ A := by
      intro e
      have := List.takeWhile_eq_self_iff.mp e jk m1
      simp at this; omega
    have htw : E.takeWhile (fun jk => decide (N ≤ ((G jk).length : Int))) = A.takeWhile fun jk => decide (N ≤ ((G jk).length : Int)) := by
      rw [hE, List.takeWhile_append, if_neg]
      intro e
      exact hne ((List.takeWhile_prefix _).eq_of_length e)
    have hlt : (A.takeWhile fun jk => decide (N ≤ ((G jk).length : Int))).length < A.length := by
      have h := (List.takeWhile_prefix (l := A) fun jk => decide (N ≤ ((G jk).length : Int)))
      rcases Nat.lt_or_eq_of_le h.length_le with h' | h'
      · exact h'
      · exact absurd (h.eq_of_length h') hne
    obtain ⟨out, o1, o2⟩ := extract_visited (json := json) (N := N) hR E A.length k q ⟨0, none⟩ rfl (fun dsts hd hs =>
      (hall A B G hE hA grow dsts hd).1 hs ff fuel (fun jk h => by have := hM jk h; omega) (by omega))
      (by rw [htw]; exact fun jk h => (hA jk ((List.takeWhile_prefix _).subset h)).2) (by rw [htw]; exact hlt) (by rw [htw]; omega)
    rw [htw] at o2
    exact ⟨out, o1, o2⟩
  · subst hB
    rw [List.append_nil] at hE
    subst hE
    have htw : E.takeWhile (fun jk => decide (N ≤ ((G jk).length : Int))) = E := List.takeWhile_eq_self_iff.mpr (fun jk h => by simpa using hge jk h)
    obtain ⟨out, o1, o2⟩ := extract_visited (json := json) (N := N) hR E (E.length + 1) k q ⟨0, none⟩ rfl (fun dsts hd _ =>
      (hall E [] G (by simp) hA grow dsts hd).2.1 rfl hshort ff fuel (fun jk h => by have := hM jk h; omega) (by omega) (by omega))
      (by rw [htw]; exact fun jk h => (hA jk h).2) (by rw [htw]; omega) (by rw [htw]; omega)
    rw [htw] at o2
    exact ⟨out, o1, o2⟩
  · have hnil : ∀ dst ∈ askFor x.config.numShards.toNat ⟨0, none⟩ A, ∀ b ∈ dst, b.docs = none := by
      intro dst hdst b hb
      simp only [askFor, List.mem_cons, List.mem_map] at hdst
      rcases hdst with rfl | ⟨jk, _, rfl⟩
      · simp at hb; subst hb; rfl
      · simp at hb; subst hb; rfl
    have hsum : A.length < ((askFor x.config.numShards.toNat ⟨0, none⟩ A).map List.length).sum := by
      have : ∀ A : List (Nat × Nat), ((A.map fun jk => ([⟨UInt32.ofNat (jk.2 * x.config.numShards.toNat + jk.1), none⟩] : List Blot)).map List.length).sum = A.length := by
        intro A
        induction A with
        | nil => rfl
        | cons a A ih => simp only [List.map_cons, List.sum_cons, ih, List.length_cons, List.length_nil]; omega
      simp only [askFor, List.map_cons, List.sum_cons, this, List.length_cons, List.length_nil]; omega
    obtain ⟨e1, e2, e3⟩ := (hall A B G hE hA grow _ hnil).2.2 jk B' hB hsum
    have key : ∀ ff fuel k φ, M + A.length < ff → M + A.length < fuel → M + A.length < k → nextCalls grow x ff fuel q (askFor x.config.numShards.toNat ⟨0, none⟩ A) = .error φ →
        Cmd.extractLoop json grow x ff fuel N k q ⟨0, none⟩ = .error φ := by
      intro ff fuel k φ h1 h2 h3 hφ
      exact extract_fault hR A B k q ⟨0, none⟩ rfl (fun dsts hd hs => by
        rw [← hE]
        exact (hall A B G hE hA grow dsts hd).1 hs ff fuel (fun jk h => by have := hM jk h; omega) (by omega)) hφ hge (by omega)
    refine ⟨fun h => ?_, fun h => ?_, fun h => ?_⟩
    · obtain ⟨K, hK⟩ := e1 h
      refine ⟨K + M + A.length, fun ff fuel k h1 h2 h3 => ?_⟩
      obtain ⟨e, he⟩ := hK ff fuel (by omega) (by omega)
      exact ⟨e, key ff fuel k _ (by omega) (by omega) (by omega) he⟩
    · obtain ⟨K, hK⟩ := e2 h
      exact ⟨K + M + A.length, fun ff fuel k h1 h2 h3 => key ff fuel k _ (by omega) (by omega) (by omega) (hK ff fuel (by omega) (by omega))⟩
    · obtain ⟨K, hK⟩ := e3 h
      exact ⟨K + M + A.length, fun ff fuel k h1 h2 h3 => key ff fuel k _ (by omega) (by omega) (by omega) (hK ff fuel (by omega) (by omega))⟩

/-! ## Non-vacuity -/

/-- A directory of two documents meets the second case: all lists said to have two documents have as many, and extract prints them, at least one. -/
theorem C121_extract_nonvacuous : ∃ (d : Dir) (x : Index) (dmd : Bytes) (ns : List (Bytes × Nat)) (E : List (Nat × Nat)) (G : Nat × Nat → List Nat),
    Index.open Json.codec mergeSorter d = .ok x ∧ E ≠ [] ∧ (∀ jk ∈ E, Meets d dmd ns jk.1 jk.2 (.result (G jk)) ∧ 2 ≤ (G jk).length) ∧
    ∃ K, ∀ ff fuel k, K < ff → K < fuel → K < k → ∃ out, Cmd.extract false (fun _ => 0) x ff fuel k 2 = .ok out ∧ out.length = E.length := by
  obtain ⟨d, hd⟩ := History.exists (u := asciiUni) exCmd_usable [47] [⟨[116, 47, 112], 0, 22, some exText1⟩, ⟨[116, 47, 113], 0, 24, some exText2⟩] [] exCmd_fits
  change History asciiUni Json.codec exCmdConfig exCmdSessions d at hd
  obtain ⟨x, q, hx, hr⟩ := reading_exists exCmd_usable mergeSorter_isSorter hd exCmd_fits
  have hc : x.config = exCmdConfig := by
    obtain ⟨i1, _⟩ := openIndex_inv hx
    rw [(C97_sessions exCmd_usable hd exCmd_fits).1] at i1
    injection i1 with i1
    exact i1.symm
  obtain ⟨dmd, f, ns, E, k1, k2, k3, k4, k5, k6, k7⟩ := C121_extract_all mergeSorter_isSorter hx (by rw [hc]; decide) (by rw [hc]; decide)
  obtain ⟨dmd', f', ns', l1, l2, l3, l4⟩ := C115_sessions mergeSorter exCmd_usable hd exCmd_fits
  have e1 := l1.symm.trans k1; injection e1 with e1; subst e1
  have e2 := l2.symm.trans k2; injection e2 with e2; subst e2
  have e3 : ns' = ns := by
    obtain ⟨t, t1, t2⟩ := Fnames.read_of_table l3
    obtain ⟨t', t1', t2'⟩ := Fnames.read_of_table k3
    rw [t1] at t1'; injection t1' with t1'; subst t1'
    rw [← t2, ← t2']
  subst e3
  have hn : exCmdConfig.numShards.toNat = 4 := by decide
  rw [hc, hn] at k5
  rw [hn] at l4
  have hlist : ∀ j k c, j < 4 → CountAt d j k c → ∃ ids, Meets d dmd' ns' j k (.result ids) ∧ ids.length = c := by
    intro j k c hj hcc
    have hk : k < 65536 := by
      obtain ⟨_, es, _, _, _, hl, hg⟩ := hcc
      have := (List.getElem?_eq_some_iff.mp hg).1
      omega
    obtain ⟨ids, m1, m2, m3⟩ := l4 j k hj hk
    have hs : x.shards[j]? = some _ := List.getElem?_eq_getElem (by rw [(opened hx).2.1, hc, hn]; exact hj)
    have a := (opened_counts hx _ _ hs _ _).mp hcc
    have b := (opened_counts hx _ _ hs _ _).mp m2
    rw [a] at b
    injection b with b
    exact ⟨ids, m1, b.symm⟩
  have hG : ∀ jk : Nat × Nat, ∃ ids, jk ∈ E → Meets d dmd' ns' jk.1 jk.2 (.result ids) ∧ 2 ≤ ids.length := by
    intro jk
    by_cases h : jk ∈ E
    · obtain ⟨hj, c, hcc, h2⟩ := (k5 jk.1 jk.2).mp h
      obtain ⟨ids, m1, m2⟩ := hlist _ _ _ hj hcc
      exact ⟨ids, fun _ => ⟨m1, by omega⟩⟩
    · exact ⟨[], fun h' => absurd h' h⟩
  choose G hG using hG
  refine ⟨d, x, dmd', ns', E, G, hx, ?_, hG, ?_⟩
  · have hmem : (1, 0) ∈ E := by
      obtain ⟨ids, m1, m2, m3⟩ := l4 1 0 (by decide) (by decide)
      refine (k5 1 0).mpr ⟨by decide, _, m2, ?_⟩
      rw [m3, exCmd_docs]
      decide +kernel
    rintro rfl; cases hmem
  · obtain ⟨K, hK⟩ := (k7 E [] G (by simp) hG false (fun _ => 0) 2).2.1 (fun jk h => by have := (hG jk h).2; omega) rfl (by
      intro j k c hj hcc h1
      rw [hc, hn] at hj
      obtain ⟨ids, m1, m2⟩ := hlist _ _ _ hj hcc
      exact ⟨ids, m1, by omega⟩)
    refine ⟨K, fun ff fuel k h1 h2 h3 => ?_⟩
    obtain ⟨out, o1, o2⟩ := hK ff fuel k h1 h2 h3
    exact ⟨out, o1, o2.length_eq.symm⟩

end Dupi.Props
