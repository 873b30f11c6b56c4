import Verif.Proof.SchedTerm
/-! Two documents with the same id: the second one to come waits for ever. -/

namespace Dupi.Sched

variable {W S D α : Type}

/-- a document with id `e` that has not been let through -/
def early (e : UInt32) : WSt D α → Nat
  | .computing did _ => if did = e then 1 else 0
  | .locking did _ => if did = e then 1 else 0
  | .checking did _ => if did = e then 1 else 0
  | .waiting did _ => if did = e then 1 else 0
  | .woken did _ => if did = e then 1 else 0
  | _ => 0

/-- one that has, but not published -/
def late (e : UInt32) : WSt D α → Nat
  | .sending did _ => if did = e then 1 else 0
  | .publish did => if did = e then 1 else 0
  | _ => 0

def gone : WSt D α → Nat
  | .exited => 1
  | _ => 0

/-- holds the mutex -/
def inside : WSt D α → Bool
  | .checking .. => true
  | .sending .. => true
  | .publish _ => true
  | .broadcasting => true
  | .unlocking => true
  | _ => false

/-- documents with id `e` still to be handed over -/
def ahead (e : UInt32) : Client D → Nat
  | .add ds => (ds.map fun p => if p.1 = e then 1 else 0).sum
  | _ => 0

/-- a sum over the shatterers -/
def total (P : Params W S D α) (s : St W S D α) (f : WSt D α → Nat) : Nat := sumN P.nw fun w => f (s.workers w).2

theorem total_upd (P : Params W S D α) (s t : St W S D α) (f : WSt D α → Nat) {w : Nat} (hw : w < P.nw) {b : W} {v : WSt D α} (ht : t.workers = upd s.workers w (b, v)) :
    total P t f + f (s.workers w).2 = total P s f + f v := by
  have := sumN_change (n := P.nw) (f := fun w => f (t.workers w).2) (g := fun w => f (s.workers w).2) hw (fun j _ hj => by rw [ht, upd_ne _ _ hj])
  simp only [ht, upd_same] at this
  simp only [total, ht]
  exact this

theorem total_same (P : Params W S D α) {s t : St W S D α} (f : WSt D α → Nat) (h : ∀ w, w < P.nw → f (t.workers w).2 = f (s.workers w).2) : total P t f = total P s f :=
  sumN_congr h

/-- the next document with id `d` can be let through -/
def slot (d mono : UInt32) (c : Nat) : Nat := if mono = d - 1 ∧ c = 0 then 1 else 0

/-- what is kept when there are too many documents with the id `d` -/
structure Stuck (P : Params W S D α) (d : UInt32) (s : St W S D α) : Prop where
  mutex : ∀ w, w < P.nw → inside (s.workers w).2 = true → s.holder = some w
  many : ahead (d - 1) s.client + total P s (early (d - 1)) + total P s (late (d - 1)) + slot d s.mono (total P s (late d)) + 1 ≤
    ahead d s.client + total P s (early d)
  none : ∀ ds, s.client = .add ds → total P s gone = 0
  shut : ∀ k, s.client = .shut k → total P s gone + k = P.nw
  close : ∀ j, s.client ≠ .close j
  done : s.client ≠ .done

theorem gone_idle : gone (.idle : WSt D α) = 0 := rfl
theorem gone_exited : gone (.exited : WSt D α) = 1 := rfl
theorem gone_computing (did : UInt32) (x : D) : gone (.computing did x : WSt D α) = 0 := rfl
theorem gone_checking (did : UInt32) (o : Nat → List α) : gone (.checking did o : WSt D α) = 0 := rfl
theorem gone_sending (did : UInt32) (o : Nat → Sender α) : gone (.sending did o : WSt D α) = 0 := rfl
theorem gone_publish (did : UInt32) : gone (.publish did : WSt D α) = 0 := rfl
theorem gone_broadcasting : gone (.broadcasting : WSt D α) = 0 := rfl

theorem early_gone (d : UInt32) (v : WSt D α) : early d v + gone v ≤ 1 := by
  cases v <;> simp only [early, gone] <;> (try split) <;> omega

theorem sumN_both (n : Nat) (f g : Nat → Nat) : sumN n f + sumN n g = sumN n fun j => f j + g j := by
  induction n with
  | zero => rfl
  | succ n ih => simp only [sumN_succ, ← ih]; omega

/-- the documents that wait keep Close from going on -/
theorem Stuck.held {P : Params W S D α} {d : UInt32} {s : St W S D α} (h : Stuck P d s) : s.client ≠ .shut 0 := by
  intro hc
  have h1 := h.many
  have h2 := h.shut 0 hc
  have h3 : total P s (early d) + total P s gone ≤ 1 * P.nw := by
    have : total P s (early d) + total P s gone = sumN P.nw fun w => early d (s.workers w).2 + gone (s.workers w).2 := sumN_both _ _ _
    rw [this, ← Nat.zero_add (1 * P.nw), ← Nat.zero_mul P.nw, ← sumN_const P.nw 0]
    exact sumN_le (fun j _ => by have := early_gone d (s.workers j).2; omega)
  rw [hc] at h1
  simp only [ahead] at h1
  omega

theorem ne_pred (d : UInt32) : d ≠ d - 1 := by
  intro h
  have := congrArg UInt32.toNat h
  have := d.toNat_lt
  simp only [UInt32.toNat_sub, UInt32.toNat_one] at *
  omega

/-- a shatterer moves without anything that counts -/
theorem Stuck.move {P : Params W S D α} {d : UInt32} {s t : St W S D α} (h : Stuck P d s) {w : Nat} (hw : w < P.nw) {b : W} {v : WSt D α}
    (ht : t.workers = upd s.workers w (b, v)) (hc : t.client = s.client) (hm : t.mono = s.mono)
    (he : ∀ e, early e v = early e (s.workers w).2) (hl : ∀ e, late e v = late e (s.workers w).2) (hg : gone v = gone (s.workers w).2)
    (hx : ∀ w', w' < P.nw → inside (t.workers w').2 = true → t.holder = some w') : Stuck P d t := by
  have e1 : ∀ e, total P t (early e) = total P s (early e) := fun e => by have := total_upd P s t (early e) hw ht; rw [he e] at this; omega
  have e2 : ∀ e, total P t (late e) = total P s (late e) := fun e => by have := total_upd P s t (late e) hw ht; rw [hl e] at this; omega
  have e3 : total P t gone = total P s gone := by have := total_upd P s t gone hw ht; rw [hg] at this; omega
  refine ⟨hx, ?_, ?_, ?_, ?_, ?_⟩
  · rw [hc, hm, e1, e1, e2, e2]; exact h.many
  · rw [hc, e3]; exact h.none
  · rw [hc, e3]; exact h.shut
  · rw [hc]; exact h.close
  · rw [hc]; exact h.done

/-- the mutex, if the holder does not change and one shatterer moves within it or outside -/
theorem mutex_keep {P : Params W S D α} {s t : St W S D α} (h : ∀ w, w < P.nw → inside (s.workers w).2 = true → s.holder = some w) {w : Nat} {b : W} {v : WSt D α}
    (ht : t.workers = upd s.workers w (b, v)) (hh : t.holder = s.holder) (hi : inside v = true → inside (s.workers w).2 = true) :
    ∀ w', w' < P.nw → inside (t.workers w').2 = true → t.holder = some w' := by
  intro w' hw' hin
  rw [hh]
  by_cases e : w' = w
  · subst e
    rw [ht, upd_same] at hin
    exact h w' hw' (hi hin)
  · rw [ht, upd_ne _ _ e] at hin
    exact h w' hw' hin

/-- the mutex is taken by `w` -/
theorem mutex_take {P : Params W S D α} {s t : St W S D α} (h : ∀ w, w < P.nw → inside (s.workers w).2 = true → s.holder = some w) {w : Nat} {b : W} {v : WSt D α}
    (ht : t.workers = upd s.workers w (b, v)) (hn : s.holder = none) (hh : t.holder = some w) :
    ∀ w', w' < P.nw → inside (t.workers w').2 = true → t.holder = some w' := by
  intro w' hw' hin
  by_cases e : w' = w
  · rw [hh, e]
  · rw [ht, upd_ne _ _ e] at hin
    have := h w' hw' hin
    rw [hn] at this; cases this

/-- the mutex is given back by `w` -/
theorem mutex_give {P : Params W S D α} {s t : St W S D α} (h : ∀ w, w < P.nw → inside (s.workers w).2 = true → s.holder = some w) {w : Nat} (hw : w < P.nw) {b : W} {v : WSt D α}
    (ht : t.workers = upd s.workers w (b, v)) (hi : inside (s.workers w).2 = true) (hv : inside v = false) :
    ∀ w', w' < P.nw → inside (t.workers w').2 = true → t.holder = some w' := by
  intro w' hw' hin
  by_cases e : w' = w
  · subst e
    rw [ht, upd_same, hv] at hin; cases hin
  · rw [ht, upd_ne _ _ e] at hin
    have h1 := h w' hw' hin
    have h2 := h w hw hi
    rw [h1] at h2
    exact absurd (Option.some.inj h2) e

theorem wake_early (e : UInt32) (v : WSt D α) : early e (wake v) = early e v := by cases v <;> rfl
theorem wake_late (e : UInt32) (v : WSt D α) : late e (wake v) = late e v := by cases v <;> rfl
theorem wake_gone (v : WSt D α) : gone (wake v) = gone v := by cases v <;> rfl
theorem wake_inside (v : WSt D α) : inside (wake v) = inside v := by cases v <;> rfl

theorem Stuck.step {P : Params W S D α} {d : UInt32} {s t : St W S D α} (h : Stuck P d s) (hs : Step P s t) : Stuck P d t := by
  have hm := h.many
  cases hs with
  | @give did x ds w hc hw hi =>
    suffices g : ∀ t : St W S D α, t.workers = upd s.workers w ((s.workers w).1, .computing did x) → t.client = .add ds → t.mono = s.mono → t.holder = s.holder → Stuck P d t from g _ rfl rfl rfl rfl
    intro t ht htc htm hth
    have k1 := total_upd P s t (early d) hw ht
    have k2 := total_upd P s t (early (d - 1)) hw ht
    have k3 := total_upd P s t (late d) hw ht
    have k4 := total_upd P s t (late (d - 1)) hw ht
    have k5 := total_upd P s t gone hw ht
    rw [hi] at k1 k2 k3 k4 k5
    simp only [early, late, Nat.add_zero] at k1 k2 k3 k4
    simp only [gone_idle, gone_computing, Nat.add_zero] at k5
    refine ⟨mutex_keep h.mutex ht hth (by simp [inside]), ?_, ?_, (by rw [htc]; nofun), (by rw [htc]; nofun), (by rw [htc]; nofun)⟩
    · rw [hc] at hm
      rw [htc, htm, k1, k2, k3, k4]
      simp only [ahead, List.map_cons, List.sum_cons] at hm ⊢
      omega
    · intro _ _
      rw [k5]; exact h.none _ hc
  | startShut hc =>
    refine ⟨h.mutex, ?_, nofun, ?_, nofun, nofun⟩
    · rw [hc] at hm
      simp only [ahead, List.map_nil, List.sum_nil] at hm ⊢
      exact hm
    · intro k hk
      cases hk
      show total P s gone + P.nw = P.nw
      rw [h.none _ hc, Nat.zero_add]
  | @shut k w hc hw hi =>
    suffices g : ∀ t : St W S D α, t.workers = upd s.workers w ((s.workers w).1, .exited) → t.client = .shut k → t.mono = s.mono → t.holder = s.holder → Stuck P d t from g _ rfl rfl rfl rfl
    intro t ht htc htm hth
    have k1 := total_upd P s t (early d) hw ht
    have k2 := total_upd P s t (early (d - 1)) hw ht
    have k3 := total_upd P s t (late d) hw ht
    have k4 := total_upd P s t (late (d - 1)) hw ht
    have k5 := total_upd P s t gone hw ht
    rw [hi] at k1 k2 k3 k4 k5
    simp only [early, late, Nat.add_zero] at k1 k2 k3 k4
    simp only [gone_idle, gone_exited, Nat.add_zero] at k5
    refine ⟨mutex_keep h.mutex ht hth (by simp [inside]), ?_, (by rw [htc]; nofun), ?_, (by rw [htc]; nofun), (by rw [htc]; nofun)⟩
    · rw [hc] at hm
      rw [htc, htm, k1, k2, k3, k4]
      simp only [ahead] at hm ⊢
      exact hm
    · intro k' hk'
      have := h.shut (k + 1) hc
      rw [htc] at hk'
      cases hk'
      omega
  | startClose hc => exact absurd hc h.held
  | close hc _ => exact absurd hc (h.close _)
  | closeDone hc => exact absurd hc (h.close _)
  | @compute w did x b out hw hi hk =>
    exact h.move hw rfl rfl rfl (fun e => by rw [hi]; rfl) (fun e => by rw [hi]; rfl) (by rw [hi]; rfl) (mutex_keep h.mutex rfl rfl (by simp [inside]))
  | @lock w did out hw hi hn =>
    exact h.move hw rfl rfl rfl (fun e => by rw [hi]; rfl) (fun e => by rw [hi]; rfl) (by rw [hi]; rfl) (mutex_take h.mutex rfl hn rfl)
  | @pass w did out hw hi hp =>
    have ht : (s.setW w (.sending did fun i => .toSend (out i))).workers = upd s.workers w ((s.workers w).1, .sending did fun i => .toSend (out i)) := rfl
    have k1 := total_upd P s (s.setW w (.sending did fun i => .toSend (out i))) (early d) hw ht
    have k2 := total_upd P s (s.setW w (.sending did fun i => .toSend (out i))) (early (d - 1)) hw ht
    have k3 := total_upd P s (s.setW w (.sending did fun i => .toSend (out i))) (late d) hw ht
    have k4 := total_upd P s (s.setW w (.sending did fun i => .toSend (out i))) (late (d - 1)) hw ht
    have k5 := total_upd P s (s.setW w (.sending did fun i => .toSend (out i))) gone hw ht
    rw [hi] at k1 k2 k3 k4 k5
    simp only [early, late, Nat.add_zero] at k1 k2 k3 k4
    simp only [gone_checking, gone_sending, Nat.add_zero] at k5
    have hw0 := h.mutex w hw (by rw [hi]; rfl)
    have hz : total P s (late d) = 0 := by
      have : total P s (late d) = sumN P.nw fun _ => 0 := by
        refine sumN_congr fun j hj => ?_
        by_cases e : j = w
        · subst e; rw [hi]; rfl
        · cases hv : (s.workers j).2 with
          | sending a b => have := h.mutex j hj (by rw [hv]; rfl); rw [hw0] at this; exact absurd (Option.some.inj this).symm e
          | publish a => have := h.mutex j hj (by rw [hv]; rfl); rw [hw0] at this; exact absurd (Option.some.inj this).symm e
          | _ => rfl
      rw [this, sumN_const, Nat.zero_mul]
    refine ⟨mutex_keep h.mutex ht rfl (by rw [hi]; simp [inside]), ?_, ?_, ?_, h.close, h.done⟩
    · show ahead (d - 1) s.client + _ + _ + slot d s.mono _ + 1 ≤ ahead d s.client + _
      by_cases hd : did = d
      · subst hd
        simp only [if_true, if_neg (ne_pred did), Nat.add_zero] at k1 k2 k3 k4
        have a1 : slot did s.mono (total P s (late did)) = 1 := if_pos ⟨hp, hz⟩
        have a2 : slot did s.mono (total P (s.setW w (.sending did fun i => .toSend (out i))) (late did)) = 0 := if_neg (fun c => by have := c.2; omega)
        rw [a2]
        rw [a1] at hm
        omega
      · simp only [if_neg hd, Nat.add_zero] at k1 k3
        rw [k3]
        have : s.mono = d - 1 → did = d := by
          intro e; rw [e] at hp
          have := congrArg (· + 1) hp
          simpa using this.symm
        have a1 : slot d s.mono (total P s (late d)) = 0 := if_neg (fun c => hd (this c.1))
        rw [a1] at hm ⊢
        omega
    · intro ds hds
      have := h.none ds hds
      omega
    · intro k hk
      have := h.shut k hk
      omega
  | @wait w did out hw hi hp =>
    exact h.move hw rfl rfl rfl (fun e => by rw [hi]; rfl) (fun e => by rw [hi]; rfl) (by rw [hi]; rfl) (mutex_give h.mutex hw rfl (by rw [hi]; rfl) rfl)
  | @relock w did out hw hi hn =>
    exact h.move hw rfl rfl rfl (fun e => by rw [hi]; rfl) (fun e => by rw [hi]; rfl) (by rw [hi]; rfl) (mutex_take h.mutex rfl hn rfl)
  | @post w j did ss ps hw hj hi hs hv =>
    exact h.move hw rfl rfl rfl (fun e => by rw [hi]; rfl) (fun e => by rw [hi]; rfl) (by rw [hi]; rfl) (mutex_keep h.mutex rfl rfl (by rw [hi]; simp [inside]))
  | @cross w w' j did did' ss ss' ps hw hw' hne hj hi hs hi' hs' =>
    have g1 : Stuck P d (s.setW w (.sending did (upd ss j .await))) :=
      h.move hw rfl rfl rfl (fun e => by rw [hi]; rfl) (fun e => by rw [hi]; rfl) (by rw [hi]; rfl) (mutex_keep h.mutex rfl rfl (by rw [hi]; simp [inside]))
    have hi2 : ((s.setW w (.sending did (upd ss j .await))).workers w').2 = .sending did' ss' := by
      show (upd s.workers w _ w').2 = _
      rw [upd_ne _ _ (Ne.symm hne), hi']
    exact g1.move hw' rfl rfl rfl (fun e => by rw [hi2]; rfl) (fun e => by rw [hi2]; rfl) (by rw [hi2]; rfl) (mutex_keep g1.mutex rfl rfl (by rw [hi2]; simp [inside]))
  | serve => exact ⟨h.mutex, h.many, h.none, h.shut, h.close, h.done⟩
  | @ack w j did ss hw hj hi hs hv =>
    exact h.move hw rfl rfl rfl (fun e => by rw [hi]; rfl) (fun e => by rw [hi]; rfl) (by rw [hi]; rfl) (mutex_keep h.mutex rfl rfl (by rw [hi]; simp [inside]))
  | @ackClosed w j did ss hw hj hi hs hv =>
    exact h.move hw rfl rfl rfl (fun e => by rw [hi]; rfl) (fun e => by rw [hi]; rfl) (by rw [hi]; rfl) (mutex_keep h.mutex rfl rfl (by rw [hi]; simp [inside]))
  | @sent w did ss hw hi hs =>
    exact h.move hw rfl rfl rfl (fun e => by rw [hi]; rfl) (fun e => by rw [hi]; rfl) (by rw [hi]; rfl) (mutex_keep h.mutex rfl rfl (by rw [hi]; simp [inside]))
  | @publish w did hw hi =>
    suffices g : ∀ t : St W S D α, t.workers = upd s.workers w ((s.workers w).1, .broadcasting) → t.client = s.client → t.mono = did → t.holder = s.holder → Stuck P d t from g _ rfl rfl rfl rfl
    intro t ht htc htm hth
    have k1 := total_upd P s t (early d) hw ht
    have k2 := total_upd P s t (early (d - 1)) hw ht
    have k4 := total_upd P s t (late (d - 1)) hw ht
    have k5 := total_upd P s t gone hw ht
    rw [hi] at k1 k2 k4 k5
    simp only [early, late, Nat.add_zero] at k1 k2 k4
    simp only [gone_publish, gone_broadcasting, Nat.add_zero] at k5
    refine ⟨mutex_keep h.mutex ht hth (by rw [hi]; simp [inside]), ?_, (by rw [htc]; intro ds hds; have := h.none ds hds; rw [k5]; exact this), (by rw [htc, k5]; exact h.shut), (by rw [htc]; exact h.close), (by rw [htc]; exact h.done)⟩
    · rw [htc, htm, k1, k2]
      by_cases hd : did = d - 1
      · rw [if_pos hd] at k4
        have : ∀ c, slot d did c ≤ 1 := by intro c; unfold slot; split <;> omega
        have := this (total P t (late d))
        omega
      · rw [if_neg hd] at k4
        have : ∀ c, slot d did c = 0 := fun c => if_neg (fun c => hd c.1)
        rw [this]
        omega
  | @broadcast w hw hi =>
    let s1 : St W S D α := { s with workers := fun i => ((s.workers i).1, wake (s.workers i).2) }
    have g1 : Stuck P d s1 := by
      have e1 : ∀ e, total P s1 (early e) = total P s (early e) := fun e => total_same P _ fun w _ => wake_early e _
      have e2 : ∀ e, total P s1 (late e) = total P s (late e) := fun e => total_same P _ fun w _ => wake_late e _
      have e3 : total P s1 gone = total P s gone := total_same P _ fun w _ => wake_gone _
      refine ⟨fun w hw hin => h.mutex w hw (by rw [← wake_inside]; exact hin), ?_, ?_, ?_, h.close, h.done⟩
      · rw [e1, e1, e2, e2]; exact h.many
      · rw [e3]; exact h.none
      · rw [e3]; exact h.shut
    have hi2 : (s1.workers w).2 = .broadcasting := by show wake (s.workers w).2 = _; rw [hi]; rfl
    exact g1.move hw rfl rfl rfl (fun e => by rw [hi2]; rfl) (fun e => by rw [hi2]; rfl) (by rw [hi2]; rfl) (mutex_keep g1.mutex rfl rfl (by rw [hi2]; simp [inside]))
  | @unlock w hw hi =>
    exact h.move hw rfl rfl rfl (fun e => by rw [hi]; rfl) (fun e => by rw [hi]; rfl) (by rw [hi]; rfl) (mutex_give h.mutex hw rfl (by rw [hi]; rfl) rfl)
  | exit => exact ⟨h.mutex, h.many, h.none, h.shut, h.close, h.done⟩

theorem Stuck.steps {P : Params W S D α} {d : UInt32} {k : Nat} {s t : St W S D α} (h : Stuck P d s) (hs : Steps P k s t) : Stuck P d t := by
  induction hs with
  | refl => exact h
  | step _ h2 ih => exact (ih h).step h2

/-- two documents with the same id -/
theorem Stuck.twice {P : Params W S D α} {d : UInt32} (b0 : Nat → W) (s0 : Nat → S) (last : UInt32) {rs : List (UInt32 × D)}
    (h2 : 2 ≤ (rs.map fun p => if p.1 = d then 1 else 0).sum) (h0 : (rs.map fun p => if p.1 = d - 1 then 1 else 0).sum = 0) :
    Stuck P d (init b0 s0 last rs) := by
  have z : ∀ f : WSt D α → Nat, f .idle = 0 → total P (init b0 s0 last rs) f = 0 := by
    intro f hf
    have : total P (Sched.init b0 s0 last rs) f = sumN P.nw fun _ => 0 := sumN_congr fun _ _ => hf
    rw [this, sumN_const, Nat.zero_mul]
  refine ⟨(fun _ _ h => by cases h), ?_, fun _ _ => z gone rfl, nofun, nofun, nofun⟩
  rw [z (early (d - 1)) rfl, z (late (d - 1)) rfl, z (early d) rfl]
  show (rs.map fun p => if p.1 = d - 1 then 1 else 0).sum + 0 + 0 + slot d last _ + 1 ≤ (rs.map fun p => if p.1 = d then 1 else 0).sum + 0
  have : ∀ c, slot d last c ≤ 1 := by intro c; unfold slot; split <;> omega
  have := this (total P (Sched.init b0 s0 last rs) (late d))
  omega

end Dupi.Sched
