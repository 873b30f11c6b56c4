import Verif.Proof.Sched
/-! # No deadlock, no crash, and what the end looks like -/

namespace Dupi.Sched

variable {W S D α : Type} {Γ : Env W S D α}

theorem serves_prefix (hs : Γ.Serves) {j m : Nat} (hj : j < Γ.P.n) (hm : m ≤ Γ.base + Γ.docs.length) :
    ∃ x, serveAll Γ.P.serve (Γ.s0 j) (Γ.batches m j).flatten = .ok x := by
  obtain ⟨x, hx⟩ := hs j hj
  obtain ⟨l, hl⟩ := Γ.batches_prefix hm j
  rw [hl, List.flatten_append, serveAll_append] at hx
  cases h : serveAll Γ.P.serve (Γ.s0 j) (Γ.batches m j).flatten with
  | ok y => exact ⟨y, rfl⟩
  | error e => rw [h] at hx; cases hx

theorem sent_le (c : Client D) : Γ.sent c ≤ Γ.docs.length := by cases c <;> simp [Env.sent]

/-- a batch that was received can be added -/
theorem Inv.serves {s : St W S D α} (h : Inv Γ s) (hs : Γ.Serves) {j : Nat} (hj : j < Γ.P.n) {ps : List α}
    (hb : (s.servers j).st = .busy ps) : ∃ x, serveAll Γ.P.serve (s.servers j).shard ps = .ok x := by
  obtain ⟨w, did, ss, hw, g1, g2, g3, g4⟩ := h.sender hj (by intro m ⟨a, _⟩; rw [hb] at a; rcases a with a | ⟨a, _⟩ <;> cases a)
  rw [hb] at g4
  rcases g4 with ⟨a, b⟩ | ⟨a, _⟩
  · injection a with a
    subst a
    have hf := h.fl1 w hw _ (h.snd w hw (by rw [g1]; rfl))
    obtain ⟨y, hy⟩ := serves_prefix hs hj (m := s.mono.toNat + 1) (by have := sent_le (Γ := Γ) s.client; omega)
    rw [Γ.batches_succ h.lo, List.flatten_append, serveAll_append, b] at hy
    exact ⟨y, by simpa [bind, Except.bind] using hy⟩
  · cases a

/-- the first shatterer satisfying a decidable-or-not condition, or none does -/
theorem exists_or_forall (n : Nat) (p : Nat → Prop) : (∃ i, i < n ∧ p i) ∨ ∀ i, i < n → ¬ p i := by
  by_cases h : ∃ i, i < n ∧ p i
  · exact .inl h
  · exact .inr fun i hi hp => h ⟨i, hi, hp⟩

theorem sum_lt_exists {n : Nat} {f : Nat → WSt D α} (h : sumN n (fun i => exitedW (f i)) < n) : ∃ i, i < n ∧ f i ≠ .exited := by
  rcases exists_or_forall n (fun i => f i ≠ .exited) with h1 | h1
  · exact h1
  · exfalso
    have : sumN n (fun i => exitedW (f i)) = sumN n (fun _ => 1) := by
      apply sumN_congr
      intro i hi
      rw [Classical.not_not.mp (h1 i hi)]; rfl
    rw [this, sumN_const] at h; omega

/-- **No deadlock**: a state satisfying the invariant is final or can step. -/
theorem Inv.progress {s : St W S D α} (h : Inv Γ s) (hs : Γ.Serves) (hnw : 0 < Γ.P.nw) : Final Γ.P s ∨ ∃ t, Step Γ.P s t := by
  cases hh : s.holder with
  | some w =>
    right
    have hw := h.holdLt w hh
    have hc := (h.hold w hw).mpr hh
    cases hx : (s.workers w).2 <;> rw [hx] at hc <;> simp [crit] at hc
    · rename_i did out
      by_cases hm : s.mono = did - 1
      · exact ⟨_, .pass hw hx hm⟩
      · exact ⟨_, .wait hw hx hm⟩
    · rename_i did ss
      rcases exists_or_forall Γ.P.n (fun j => ss j ≠ .done) with ⟨j, hj, hne⟩ | hall
      · have hok := h.svS w hw did ss hx j hj
        have hcl := h.not_closed hw (by rw [hx]; rfl) j
        cases he : ss j with
        | toSend ps =>
          rw [he] at hok
          exact ⟨_, .post hw hj hx he (Rest.idle hok.2 hcl)⟩
        | await =>
          rw [he] at hok
          rcases hok.2 with ⟨a, b⟩ | ⟨a, b⟩
          · obtain ⟨y, hy⟩ := h.serves hs hj a
            exact ⟨_, .serve hj a hy⟩
          · exact ⟨_, .ack hw hj hx he a⟩
        | done => exact absurd he hne
      · exact ⟨_, .sent hw hx fun j hj => Classical.not_not.mp (hall j hj)⟩
    · exact ⟨_, .publish hw hx⟩
    · exact ⟨_, .broadcast hw hx⟩
    · exact ⟨_, .unlock hw hx⟩
  | none =>
    -- nobody holds the lock
    rcases exists_or_forall Γ.P.nw (fun w => (s.workers w).2 ≠ .idle ∧ (s.workers w).2 ≠ .exited ∧ ∀ did out, (s.workers w).2 ≠ .waiting did out) with ⟨w, hw, h1, h2, h3⟩ | hall
    · right
      have hnc : crit (s.workers w).2 = false := by
        cases hc : crit (s.workers w).2 with
        | false => rfl
        | true => have := (h.hold w hw).mp hc; rw [hh] at this; cases this
      cases hx : (s.workers w).2 with
      | idle => exact absurd hx h1
      | exited => exact absurd hx h2
      | waiting did out => exact absurd hx (h3 did out)
      | computing did d =>
        obtain ⟨b, g1, _⟩ := Γ.hcompute (s.workers w).1 did d (h.bw w hw)
        exact ⟨_, .compute hw hx g1⟩
      | locking did out => exact ⟨_, .lock hw hx hh⟩
      | woken did out => exact ⟨_, .relock hw hx hh⟩
      | checking did out => rw [hx] at hnc; cases hnc
      | sending did ss => rw [hx] at hnc; cases hnc
      | publish did => rw [hx] at hnc; cases hnc
      | broadcasting => rw [hx] at hnc; cases hnc
      | unlocking => rw [hx] at hnc; cases hnc
    · -- nobody waits either
      have nobc : ¬ ∃ w', w' < Γ.P.nw ∧ (s.workers w').2 = .broadcasting := by
        intro ⟨w', a, b⟩
        have := (h.hold w' a).mp (by rw [b]; rfl)
        rw [hh] at this; cases this
      have nowait : ∀ w, w < Γ.P.nw → (s.workers w).2 = .idle ∨ (s.workers w).2 = .exited := by
        intro w hw
        have h1 := hall w hw
        by_cases e1 : (s.workers w).2 = .idle
        · exact .inl e1
        · by_cases e2 : (s.workers w).2 = .exited
          · exact .inr e2
          · exfalso
            apply h1
            refine ⟨e1, e2, fun did out hx => ?_⟩
            have hf := h.fl1 w hw did.toNat (by rw [hx]; rfl)
            obtain ⟨w', hw', hd'⟩ := h.fl3 (s.mono.toNat + 1) (by omega) (by omega)
            cases hx' : (s.workers w').2 with
            | waiting did' out' =>
              rw [hx'] at hd'
              injection hd' with hd'
              rcases h.wk w' hw' did' out' hx' with a | a
              · exact a hd'
              · exact nobc a
            | _ =>
              first
              | (rw [hx'] at hd'; cases hd'; done)
              | exact hall w' hw' ⟨by rw [hx']; simp, by rw [hx']; simp, by rw [hx']; simp⟩
      have allidle : ∀ w, w < Γ.P.nw → (s.workers w).2 ≠ .exited → (s.workers w).2 = .idle := fun w hw hne => (nowait w hw).resolve_right hne
      cases hc : s.client with
      | add ds =>
        right
        cases ds with
        | nil => exact ⟨_, .startShut hc⟩
        | cons x ds =>
          obtain ⟨did, d⟩ := x
          have hex := h.ex
          rw [hc] at hex
          obtain ⟨w, hw, hne⟩ := sum_lt_exists (f := fun i => (s.workers i).2) (n := Γ.P.nw) (by rw [hex]; exact hnw)
          exact ⟨_, .give hc hw (allidle w hw hne)⟩
      | shut k =>
        right
        cases k with
        | zero => exact ⟨_, .startClose hc⟩
        | succ k =>
          have hex := h.ex
          have hcl := h.cl
          rw [hc] at hex hcl
          have hcl : k + 1 ≤ Γ.P.nw := hcl
          obtain ⟨w, hw, hne⟩ := sum_lt_exists (f := fun i => (s.workers i).2) (n := Γ.P.nw) (by rw [hex]; simp only [Env.exitedN]; omega)
          exact ⟨_, .shut hc hw (allidle w hw hne)⟩
      | close j =>
        right
        have hcl := h.cl
        rw [hc] at hcl
        have hcl : j ≤ Γ.P.n := hcl
        by_cases e : j = Γ.P.n
        · subst e; exact ⟨_, .closeDone hc⟩
        · exact ⟨_, .close hc (by omega)⟩
      | done =>
        have gone : ∀ w, w < Γ.P.nw → (s.workers w).2 = .exited := by
          intro w hw
          cases hx : (s.workers w).2 <;> first | rfl | exact absurd (by rw [hc]; trivial) (h.not_closed hw (by rw [hx]; rfl) 0)
        rcases exists_or_forall Γ.P.n (fun j => (s.servers j).st ≠ .exited) with ⟨j, hj, hne⟩ | hall
        · right
          have := h.svN (by intro w hw; rw [gone w hw]; rfl) j hj
          exact ⟨_, .exit hj (this.1.resolve_right fun a => hne a.1) (by rw [hc]; trivial)⟩
        · exact .inl ⟨hc, gone, fun j hj => Classical.not_not.mp (hall j hj)⟩

/-- **No crash.** -/
theorem Inv.noCrash {s : St W S D α} (h : Inv Γ s) (hs : Γ.Serves) : ¬ Crashes Γ.P s := by
  intro hc
  cases hc with
  | compute hw hx he =>
    obtain ⟨b, g, _⟩ := Γ.hcompute _ _ _ (h.bw _ hw)
    rw [g] at he; cases he
  | serve hj hb he =>
    obtain ⟨x, hx⟩ := h.serves hs hj hb
    rw [hx] at he; cases he
  | send hw hj hx _ hcl => exact h.not_closed hw (by rw [hx]; rfl) _ hcl
  | ack hj hx hcl =>
    obtain ⟨w, did, ss, hw, g1, _⟩ := h.sender hj (by intro m ⟨a, _⟩; rw [hx] at a; rcases a with a | ⟨a, _⟩ <;> cases a)
    exact h.not_closed hw (by rw [g1]; rfl) _ hcl

/-- once all shatterers have returned, all documents have been sent and the shards are at rest -/
theorem Inv.allDone {s : St W S D α} (h : Inv Γ s) (hg : ∀ w, w < Γ.P.nw → (s.workers w).2 = .exited)
    (hc : ∀ ds, s.client ≠ .add ds) {j : Nat} (hj : j < Γ.P.n) :
    (s.servers j).log = Γ.batches (Γ.base + Γ.docs.length) j ∧
      serveAll Γ.P.serve (Γ.s0 j) (Γ.batches (Γ.base + Γ.docs.length) j).flatten = .ok (s.servers j).shard := by
  have hsent : Γ.sent s.client = Γ.docs.length := by
    cases hx : s.client with
    | add ds => exact absurd hx (hc ds)
    | _ => rfl
  have hm : s.mono.toNat = Γ.base + Γ.docs.length := by
    have h1 := h.hi
    rw [hsent] at h1
    by_cases e : s.mono.toNat = Γ.base + Γ.docs.length
    · exact e
    · obtain ⟨w, hw, hd⟩ := h.fl3 (Γ.base + Γ.docs.length) (by omega) (by omega)
      rw [hg w hw] at hd; cases hd
  have := h.svN (by intro w hw; rw [hg w hw]; rfl) j hj
  rw [hm] at this
  exact this.2

/-- reachable states satisfy the invariant -/
theorem Steps.inv {k : Nat} {s t : St W S D α} (h : Steps Γ.P k s t) (hi : Inv Γ s) : Inv Γ t := by
  induction h with
  | refl => exact hi
  | step _ h2 ih => exact (ih hi).step h2

/-- at any time a shard has received a prefix of the batches -/
theorem Inv.log {s : St W S D α} (h : Inv Γ s) {j : Nat} (hj : j < Γ.P.n) :
    ∃ m, (s.servers j).log = Γ.batches m j ∧ m ≤ Γ.base + Γ.docs.length := by
  have hs := sent_le (Γ := Γ) s.client
  by_cases hb : ∀ m, ¬ Γ.Rest s.client (s.servers j) j m
  · obtain ⟨w, did, ss, hw, g1, g2, g3, _⟩ := h.sender hj hb
    have hf := h.fl1 w hw _ (h.snd w hw (by rw [g1]; rfl))
    exact ⟨s.mono.toNat + 1, g3, by omega⟩
  · by_cases hall : ∀ w, w < Γ.P.nw → busyW (s.workers w).2 = false
    · exact ⟨_, (h.svN hall j hj).2.1, by have := h.hi; omega⟩
    · simp only [Classical.not_forall] at hall
      obtain ⟨w, hw, hbw⟩ := hall
      have hbw : busyW (s.workers w).2 = true := by simpa using hbw
      have hf := h.fl1 w hw _ (h.snd w hw hbw)
      cases hx : (s.workers w).2 <;> rw [hx] at hbw <;> simp [busyW] at hbw
      · rename_i did ss
        have := h.svS w hw did ss hx j hj
        revert this
        cases ss j with
        | toSend ps => exact fun a => ⟨_, a.2.2.1, by omega⟩
        | await => exact fun a => ⟨_, a.1, by omega⟩
        | done => exact fun a => ⟨_, a.2.1, by omega⟩
      · exact ⟨_, (h.svP w hw _ hx j hj).2.1, by omega⟩

end Dupi.Sched
