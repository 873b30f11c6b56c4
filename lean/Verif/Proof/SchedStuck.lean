import Verif.Proof.Sched
/-! # What has become of the goroutines when Close gets past its shutdown requests, whatever they compute -/

namespace Dupi.Sched

variable {W S D α : Type}

/-- how many shatterers have been told to return -/
def toldN (nw : Nat) : Client D → Nat
  | .add _ => 0
  | .shut k => nw - k
  | _ => nw

/-- the shutdown requests are counted -/
structure Told (P : Params W S D α) (s : St W S D α) : Prop where
  count : sumN P.nw (fun w => exitedW (s.workers w).2) = toldN P.nw s.client
  room : ∀ k, s.client = .shut k → k ≤ P.nw

theorem exitedW_wake (v : WSt D α) : exitedW (wake v) = exitedW v := by cases v <;> rfl

private theorem cW {nw : Nat} (s : Nat → W × WSt D α) {w : Nat} (hw : w < nw) (b : W) (v : WSt D α) :
    sumN nw (fun i => exitedW (upd s w (b, v) i).2) + exitedW (s w).2 = sumN nw (fun i => exitedW (s i).2) + exitedW v := by
  have := sumN_change (f := fun i => exitedW (upd s w (b, v) i).2) (g := fun i => exitedW (s i).2) hw
    (fun j _ hj => by simp [upd_ne _ _ hj])
  simpa [upd_same] using this

theorem Told.step {P : Params W S D α} {s t : St W S D α} (hs : Told P s) (h : Step P s t) : Told P t := by
  obtain ⟨hc, hr⟩ := hs
  cases h with
  | give h1 h2 h3 =>
    rename_i did d ds w
    have := cW s.workers h2 (s.workers w).1 (.computing did d)
    refine ⟨?_, by simp⟩
    simp only [St.setW, toldN, h1, h3, exitedW] at this hc ⊢; omega
  | startShut h1 =>
    refine ⟨?_, by rintro k ⟨⟩; exact Nat.le_refl _⟩
    simp only [toldN, h1] at hc ⊢; omega
  | shut h1 h2 h3 =>
    rename_i k w
    have := cW s.workers h2 (s.workers w).1 (.exited)
    have hk := hr _ h1
    refine ⟨?_, by rintro k ⟨⟩; omega⟩
    simp only [St.setW, toldN, h1, h3, exitedW] at this hc ⊢; omega
  | startClose h1 =>
    refine ⟨?_, by simp⟩
    simp only [toldN, h1] at hc ⊢; omega
  | close h1 h2 =>
    refine ⟨?_, by simp⟩
    simp only [toldN, h1] at hc ⊢; omega
  | closeDone h1 =>
    refine ⟨?_, by simp⟩
    simp only [toldN, h1] at hc ⊢; omega
  | compute h1 h2 h3 =>
    have := cW s.workers h1 ‹_› (.locking ‹_› ‹_›)
    refine ⟨?_, hr⟩
    simp only [h2, exitedW] at this hc ⊢; omega
  | lock h1 h2 h3 =>
    have := cW s.workers h1 (s.workers ‹_›).1 (.checking ‹_› ‹_›)
    refine ⟨?_, hr⟩
    simp only [St.setW, h2, exitedW] at this hc ⊢; omega
  | pass h1 h2 h3 =>
    rename_i w did out
    have := cW s.workers h1 (s.workers w).1 (.sending did fun i => .toSend (out i))
    refine ⟨?_, hr⟩
    simp only [St.setW, h2, exitedW] at this hc ⊢; omega
  | wait h1 h2 h3 =>
    have := cW s.workers h1 (s.workers ‹_›).1 (.waiting ‹_› ‹_›)
    refine ⟨?_, hr⟩
    simp only [St.setW, h2, exitedW] at this hc ⊢; omega
  | relock h1 h2 h3 =>
    have := cW s.workers h1 (s.workers ‹_›).1 (.checking ‹_› ‹_›)
    refine ⟨?_, hr⟩
    simp only [St.setW, h2, exitedW] at this hc ⊢; omega
  | post h1 h2 h3 h4 h5 =>
    rename_i w j did ss ps
    have := cW s.workers h1 (s.workers w).1 (.sending did (upd ss j .await))
    refine ⟨?_, hr⟩
    simp only [St.setW, h3, exitedW] at this hc ⊢; omega
  | cross h1 h2 h3 h4 h5 h6 h7 h8 =>
    rename_i w w' j did did' ss ss' ps
    have a := cW s.workers h1 (s.workers w).1 (.sending did (upd ss j .await))
    have b := cW (upd s.workers w ((s.workers w).1, .sending did (upd ss j .await))) h2
      (upd s.workers w ((s.workers w).1, .sending did (upd ss j .await)) w').1 (.sending did' (upd ss' j .done))
    refine ⟨?_, hr⟩
    simp only [St.setW, upd_ne _ _ (Ne.symm h3), h5, h7, exitedW] at a b hc ⊢; omega
  | serve h1 h2 h3 => exact ⟨hc, hr⟩
  | ack h1 h2 h3 h4 h5 =>
    rename_i w j did ss
    have := cW s.workers h1 (s.workers w).1 (.sending did (upd ss j .done))
    refine ⟨?_, hr⟩
    simp only [St.setW, St.setS, h3, exitedW] at this hc ⊢; omega
  | ackClosed h1 h2 h3 h4 h5 =>
    rename_i w j did ss
    have := cW s.workers h1 (s.workers w).1 (.sending did (upd ss j .done))
    refine ⟨?_, hr⟩
    simp only [St.setW, h3, exitedW] at this hc ⊢; omega
  | sent h1 h2 h3 =>
    have := cW s.workers h1 (s.workers ‹_›).1 (.publish ‹_›)
    refine ⟨?_, hr⟩
    simp only [St.setW, h2, exitedW] at this hc ⊢; omega
  | publish h1 h2 =>
    have := cW s.workers h1 (s.workers ‹_›).1 .broadcasting
    refine ⟨?_, hr⟩
    simp only [St.setW, h2, exitedW] at this hc ⊢; omega
  | broadcast h1 h2 =>
    rename_i w
    have := cW (fun i => ((s.workers i).1, wake (s.workers i).2)) h1 (s.workers w).1 .unlocking
    refine ⟨?_, hr⟩
    simp only [exitedW_wake] at this
    simp only [h2, exitedW] at this hc ⊢; omega
  | unlock h1 h2 =>
    have := cW s.workers h1 (s.workers ‹_›).1 .idle
    refine ⟨?_, hr⟩
    simp only [St.setW, h2, exitedW] at this hc ⊢; omega
  | exit h1 h2 h3 => exact ⟨hc, hr⟩

theorem Told.steps {P : Params W S D α} {s t : St W S D α} {k : Nat} (hs : Told P s) (h : Steps P k s t) : Told P t := by
  induction h with
  | refl => exact hs
  | step _ h2 ih => exact (ih hs).step h2

theorem Told.init (P : Params W S D α) (b0 : Nat → W) (s0 : Nat → S) (last : UInt32) (docs : List (UInt32 × D)) :
    Told P (Sched.init b0 s0 last docs : St W S D α) :=
  ⟨by simp only [Sched.init, exitedW, toldN, sumN_const]; omega, by simp [Sched.init]⟩

theorem exitedW_le (v : WSt D α) : exitedW v ≤ 1 := by cases v <;> simp [exitedW]

theorem sumN_full {n : Nat} {f : Nat → Nat} (h1 : ∀ j, j < n → f j ≤ 1) (h2 : sumN n f = n) : ∀ j, j < n → f j = 1 := by
  induction n with
  | zero => omega
  | succ n ih =>
    rw [sumN_succ] at h2
    have h3 := h1 n (by omega)
    have h4 : sumN n f ≤ n := by
      have := sumN_le (n := n) (c := 1) (f := f) (g := fun _ => 0) (fun j hj => by have := h1 j (by omega); omega)
      rw [sumN_const] at this; omega
    intro j hj
    by_cases e : j = n
    · subst e; omega
    · exact ih (fun j hj => h1 j (by omega)) (by omega) j (by omega)

/-- When the caller is through with the shutdown requests, every shatterer has returned. -/
theorem Told.all {P : Params W S D α} {s : St W S D α} (h : Told P s) (hc : toldN P.nw s.client = P.nw) {w : Nat} (hw : w < P.nw) :
    (s.workers w).2 = .exited := by
  have h1 := sumN_full (fun j _ => exitedW_le (s.workers j).2) (h.count.trans hc) w hw
  cases e : (s.workers w).2 <;> simp [e, exitedW] at h1 ⊢

/-- the first document cannot be computed: either it has not been given out, or somebody is at it for ever -/
def Hung (P : Params W S D α) (b0 : Nat → W) (did : UInt32) (d : D) (ds : List (UInt32 × D)) (s : St W S D α) : Prop :=
  (s.client = .add ((did, d) :: ds) ∧ ∀ w, w < P.nw → s.workers w = (b0 w, .idle)) ∨
  ∃ w, w < P.nw ∧ s.workers w = (b0 w, .computing did d)

theorem Hung.step {P : Params W S D α} {b0 : Nat → W} {did : UInt32} {d : D} {ds : List (UInt32 × D)}
    (hP : ∀ w, w < P.nw → ∀ r, P.compute (b0 w) did d ≠ .ok r) {s t : St W S D α} (hs : Hung P b0 did d ds s) (h : Step P s t) :
    Hung P b0 did d ds t := by
  rcases hs with ⟨hc, hi⟩ | ⟨w, hw, hs⟩
  · cases h with
    | give h1 h2 h3 =>
      rw [hc] at h1; injection h1 with h1; injection h1 with h1 h4; injection h1 with h1 h5; subst h1 h4 h5
      rename_i w
      exact .inr ⟨w, h2, by simp [St.setW, upd_same, hi w h2]⟩
    | startShut h1 => rw [hc] at h1; cases h1
    | shut h1 => rw [hc] at h1; cases h1
    | startClose h1 => rw [hc] at h1; cases h1
    | close h1 => rw [hc] at h1; cases h1
    | closeDone h1 => rw [hc] at h1; cases h1
    | compute h1 h2 h3 => rw [hi _ h1] at h2; cases h2
    | lock h1 h2 h3 => rw [hi _ h1] at h2; cases h2
    | pass h1 h2 h3 => rw [hi _ h1] at h2; cases h2
    | wait h1 h2 h3 => rw [hi _ h1] at h2; cases h2
    | relock h1 h2 h3 => rw [hi _ h1] at h2; cases h2
    | post h1 h2 h3 h4 h5 => rw [hi _ h1] at h3; cases h3
    | cross h1 h2 h3 h4 h5 h6 h7 h8 => rw [hi _ h1] at h5; cases h5
    | serve h1 h2 h3 => exact .inl ⟨hc, hi⟩
    | ack h1 h2 h3 h4 h5 => rw [hi _ h1] at h3; cases h3
    | ackClosed h1 h2 h3 h4 h5 => rw [hi _ h1] at h3; cases h3
    | sent h1 h2 h3 => rw [hi _ h1] at h2; cases h2
    | publish h1 h2 => rw [hi _ h1] at h2; cases h2
    | broadcast h1 h2 => rw [hi _ h1] at h2; cases h2
    | unlock h1 h2 => rw [hi _ h1] at h2; cases h2
    | exit h1 h2 h3 => rw [hc] at h3; cases h3
  · refine .inr ⟨w, hw, ?_⟩
    have hne : ∀ {w' : Nat} {v : WSt D α}, (s.workers w').2 = v → v ≠ .computing did d → w ≠ w' := by
      rintro w' v h1 h2 rfl
      rw [hs] at h1; exact h2 h1.symm
    cases h with
    | give h1 h2 h3 => simp [St.setW, upd_ne _ _ (hne h3 (by simp)), hs]
    | startShut h1 => exact hs
    | shut h1 h2 h3 => simp [St.setW, upd_ne _ _ (hne h3 (by simp)), hs]
    | startClose h1 => exact hs
    | close h1 => exact hs
    | closeDone h1 => exact hs
    | compute h1 h2 h3 =>
      rename_i w' did' d' b out
      have : w ≠ w' := by
        rintro rfl
        rw [hs] at h2 h3
        cases h2
        exact hP w hw _ h3
      simp [upd_ne _ _ this, hs]
    | lock h1 h2 h3 => simp [St.setW, upd_ne _ _ (hne h2 (by simp)), hs]
    | pass h1 h2 h3 => simp [St.setW, upd_ne _ _ (hne h2 (by simp)), hs]
    | wait h1 h2 h3 => simp [St.setW, upd_ne _ _ (hne h2 (by simp)), hs]
    | relock h1 h2 h3 => simp [St.setW, upd_ne _ _ (hne h2 (by simp)), hs]
    | post h1 h2 h3 h4 h5 => simp [St.setW, upd_ne _ _ (hne h3 (by simp)), hs]
    | cross h1 h2 h3 h4 h5 h6 h7 h8 => simp [St.setW, upd_ne _ _ (hne h5 (by simp)), upd_ne _ _ (hne h7 (by simp)), hs]
    | serve h1 h2 h3 => exact hs
    | ack h1 h2 h3 h4 h5 => simp [St.setW, St.setS, upd_ne _ _ (hne h3 (by simp)), hs]
    | ackClosed h1 h2 h3 h4 h5 => simp [St.setW, upd_ne _ _ (hne h3 (by simp)), hs]
    | sent h1 h2 h3 => simp [St.setW, upd_ne _ _ (hne h2 (by simp)), hs]
    | publish h1 h2 => simp [St.setW, upd_ne _ _ (hne h2 (by simp)), hs]
    | broadcast h1 h2 => simp [upd_ne _ _ (hne h2 (by simp)), hs, wake]
    | unlock h1 h2 => simp [St.setW, upd_ne _ _ (hne h2 (by simp)), hs]
    | exit h1 h2 h3 => exact hs

/-- If the first document cannot be computed, Close does not get past its shutdown requests. -/
theorem never_done {P : Params W S D α} {b0 : Nat → W} {s0 : Nat → S} {last : UInt32} {did : UInt32} {d : D} {ds : List (UInt32 × D)}
    (hP : ∀ w, w < P.nw → ∀ r, P.compute (b0 w) did d ≠ .ok r) {k : Nat} {t : St W S D α}
    (h : Steps P k (Sched.init b0 s0 last ((did, d) :: ds)) t) : t.client ≠ .done := by
  have h1 : Hung P b0 did d ds t := by
    have h0 : Hung P b0 did d ds (Sched.init b0 s0 last ((did, d) :: ds) : St W S D α) := .inl ⟨rfl, fun w _ => rfl⟩
    generalize Sched.init b0 s0 last ((did, d) :: ds) = s at h h0
    induction h with
    | refl => exact h0
    | step _ h2 ih => exact (ih h0).step hP h2
  intro hd
  rcases h1 with ⟨h1, _⟩ | ⟨w, hw, h1⟩
  · rw [hd] at h1; cases h1
  · have h2 := (Told.steps (Told.init P b0 s0 last _) h).all (by rw [hd]; rfl) hw
    rw [h1] at h2; cases h2

/-- With no shatterer the first document is never taken. -/
theorem never_taken {P : Params W S D α} (hP : P.nw = 0) {b0 : Nat → W} {s0 : Nat → S} {last : UInt32} {r : UInt32 × D} {ds : List (UInt32 × D)}
    {k : Nat} {t : St W S D α} (h : Steps P k (Sched.init b0 s0 last (r :: ds)) t) : t = Sched.init b0 s0 last (r :: ds) := by
  generalize hs : (Sched.init b0 s0 last (r :: ds) : St W S D α) = s at h
  induction h with
  | refl => rfl
  | step _ h2 ih =>
    have e := ih hs
    subst hs
    rw [e] at h2
    cases h2 with
    | startShut h1 => cases h1
    | shut h1 => cases h1
    | startClose h1 => cases h1
    | close h1 => cases h1
    | closeDone h1 => cases h1
    | serve h1 h2 h3 => cases h2
    | exit h1 h2 h3 => cases h3
    | _ => omega

/-- With no document to add, Close gets to its end, the shards being as they were. -/
theorem idle_done (P : Params W S D α) (b0 : Nat → W) (s0 : Nat → S) (last : UInt32) :
    ∃ k t, Steps P k (Sched.init b0 s0 last [] : St W S D α) t ∧ t.client = .done ∧ ∀ j, (t.servers j).shard = s0 j := by
  have h1 : ∀ m, m ≤ P.nw → ∃ k t, Steps P k (Sched.init b0 s0 last [] : St W S D α) t ∧ t.client = .shut (P.nw - m) ∧
      (∀ w, m ≤ w → (t.workers w).2 = .idle) ∧ ∀ j, (t.servers j).shard = s0 j := by
    intro m
    induction m with
    | zero => intro _; exact ⟨1, _, .step .refl (.startShut rfl), rfl, fun w _ => rfl, fun j => rfl⟩
    | succ m ih =>
      intro hm
      obtain ⟨k, t, g1, g2, g3, g4⟩ := ih (by omega)
      refine ⟨k + 1, _, .step g1 (.shut (k := P.nw - (m + 1)) (w := m) (by rw [g2]; congr 1; omega) (by omega) (g3 m (Nat.le_refl _))), rfl, ?_, g4⟩
      intro w hw
      simp only [St.setW, upd_ne _ _ (show w ≠ m by omega)]
      exact g3 w (by omega)
  have h2 : ∀ m, m ≤ P.n → ∃ k t, Steps P k (Sched.init b0 s0 last [] : St W S D α) t ∧ t.client = .close m ∧ ∀ j, (t.servers j).shard = s0 j := by
    intro m
    induction m with
    | zero =>
      intro _
      obtain ⟨k, t, g1, g2, _, g4⟩ := h1 P.nw (Nat.le_refl _)
      exact ⟨k + 1, _, .step g1 (.startClose (by rw [g2]; congr 1; omega)), rfl, g4⟩
    | succ m ih =>
      intro hm
      obtain ⟨k, t, g1, g2, g4⟩ := ih (by omega)
      exact ⟨k + 1, _, .step g1 (.close g2 (by omega)), rfl, g4⟩
  obtain ⟨k, t, g1, g2, g4⟩ := h2 P.n (Nat.le_refl _)
  exact ⟨k + 1, _, .step g1 (.closeDone g2), rfl, g4⟩

end Dupi.Sched
