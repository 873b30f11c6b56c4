import Verif.Proof.SchedLive
import Verif.Model.Callers
/-! # Several callers of `Add`: the document a caller is about to hand over counts as one more shatterer's

A caller that has an id and not yet given its document away looks, to everybody else, like a shatterer that
has the document and has not begun.  So the invariant of `Proof/Sched` for a system with one more shatterer
per caller carries over. -/

namespace Dupi.Sched

variable {W S D E α : Type}

theorem sumN_prefix {n k : Nat} {f : Nat → Nat} (h : sumN (n + k) f = 0) : sumN n f = 0 := by
  induction k with
  | zero => exact h
  | succ k ih => rw [← Nat.add_assoc, sumN_succ] at h; exact ih (by omega)

/-- the same with `nc` more shatterers -/
def Env.big (Γ : Env W S D α) (nc : Nat) (h0 : 0 < Γ.P.nw) : Env W S D α :=
  { Γ with
    P := { Γ.P with nw := Γ.P.nw + nc }
    b0 := fun w => if w < Γ.P.nw then Γ.b0 w else Γ.b0 0
    iw0 := by
      intro w _
      show Γ.Iw (if w < Γ.P.nw then Γ.b0 w else Γ.b0 0)
      split
      · rename_i h; exact Γ.iw0 w h
      · exact Γ.iw0 0 h0
    hcompute := Γ.hcompute
    ids := Γ.ids }

/-- what a caller looks like -/
def vst (load : E → D) : Option (Caller E) → WSt D α
  | some ⟨some (did, e), _⟩ => .computing did (load e)
  | _ => .idle

/-- the state with the callers as shatterers -/
def virt (Γ : Env W S D α) (load : E → D) (s : MSt W S D E α) : St W S D α :=
  { s.core with
    workers := fun w => if w < Γ.P.nw then s.core.workers w else (Γ.b0 0, vst load s.callers[w - Γ.P.nw]?)
    client := .add (Γ.docs.drop s.order.length) }

section
variable {Γ : Env W S D α}

/-- two shatterers exchange their states -/
theorem Inv.swap {s t : St W S D α} (h : Inv Γ s) {a b : Nat} (ha : a < Γ.P.nw) (hb : b < Γ.P.nw) (hab : a ≠ b) {did : UInt32} {d : D}
    (ea : (s.workers a).2 = .computing did d) (eb : (s.workers b).2 = .idle)
    (e1 : ∀ w, (t.workers w).1 = (s.workers w).1) (e2 : (t.workers a).2 = .idle) (e3 : (t.workers b).2 = .computing did d)
    (e4 : ∀ w, w ≠ a → w ≠ b → (t.workers w).2 = (s.workers w).2) (e5 : t.servers = s.servers) (e6 : t.holder = s.holder)
    (e7 : t.mono = s.mono) (e8 : t.client = s.client) : Inv Γ t := by
  have inv : ∀ w, (t.workers w).2 = .idle ∨ (t.workers w).2 = .computing did d ∨ (t.workers w).2 = (s.workers w).2 ∧ w ≠ a ∧ w ≠ b := by
    intro w
    by_cases h1 : w = a
    · subst h1; exact .inl e2
    · by_cases h2 : w = b
      · subst h2; exact .inr (.inl e3)
      · exact .inr (.inr ⟨e4 w h1 h2, h1, h2⟩)
  have did' : ∀ w, w < Γ.P.nw → ∀ x, didOf (t.workers w).2 = some x → ∃ w', w' < Γ.P.nw ∧ didOf (s.workers w').2 = some x ∧
      (w' = w ∧ w ≠ a ∧ w ≠ b ∨ w' = a ∧ w = b) := by
    intro w hw x hx
    by_cases h1 : w = a
    · subst h1; rw [e2] at hx; cases hx
    · by_cases h2 : w = b
      · subst h2; rw [e3] at hx; exact ⟨a, ha, by rw [ea]; exact hx, .inr ⟨rfl, rfl⟩⟩
      · rw [e4 w h1 h2] at hx; exact ⟨w, hw, hx, .inl ⟨rfl, h1, h2⟩⟩
  refine { bw := ?_, pay := ?_, cl := ?_, ex := ?_, lo := ?_, hi := ?_, fl1 := ?_, fl2 := ?_, fl3 := ?_, hold := ?_,
           holdLt := ?_, wk := ?_, snd := ?_, svS := ?_, svP := ?_, svN := ?_ }
  · intro w hw; rw [e1]; exact h.bw w hw
  · intro w hw
    by_cases h1 : w = a
    · subst h1; rw [e2]; trivial
    · by_cases h2 : w = b
      · subst h2; rw [e3, ← ea]; exact h.pay a ha
      · rw [e4 w h1 h2]; exact h.pay w hw
  · rw [e8]; exact h.cl
  · rw [e8, ← h.ex]
    apply sumN_congr
    intro w _
    by_cases h1 : w = a
    · subst h1; rw [e2, ea]; rfl
    · by_cases h2 : w = b
      · subst h2; rw [e3, eb]; rfl
      · rw [e4 w h1 h2]
  · rw [e7]; exact h.lo
  · rw [e7, e8]; exact h.hi
  · intro w hw x hx
    obtain ⟨w', g1, g2, _⟩ := did' w hw x hx
    rw [e7, e8]; exact h.fl1 w' g1 x g2
  · intro w1 w2 hw1 hw2 x h1 h2
    obtain ⟨v1, g1, g2, g3⟩ := did' w1 hw1 x h1
    obtain ⟨v2, k1, k2, k3⟩ := did' w2 hw2 x h2
    have := h.fl2 v1 v2 g1 k1 x g2 k2
    rcases g3 with ⟨g3, g4, g5⟩ | ⟨g3, g4⟩ <;> rcases k3 with ⟨k3, k4, k5⟩ | ⟨k3, k4⟩ <;> omega
  · intro x h1 h2
    rw [e7] at h1
    rw [e8] at h2
    obtain ⟨w, g1, g2⟩ := h.fl3 x h1 h2
    by_cases k1 : w = a
    · subst k1; exact ⟨b, hb, by rw [e3, ← ea]; exact g2⟩
    · by_cases k2 : w = b
      · subst k2; rw [eb] at g2; cases g2
      · exact ⟨w, g1, by rw [e4 w k1 k2]; exact g2⟩
  · intro w hw
    rw [e6]
    by_cases h1 : w = a
    · subst h1
      have := h.hold w hw
      rw [ea] at this; rw [e2]; exact this
    · by_cases h2 : w = b
      · subst h2
        have := h.hold w hw
        rw [eb] at this; rw [e3]; exact this
      · rw [e4 w h1 h2]; exact h.hold w hw
  · rw [e6]; exact h.holdLt
  · intro w hw did' out hx
    rcases inv w with k | k | ⟨k, k1, k2⟩
    · rw [k] at hx; cases hx
    · rw [k] at hx; cases hx
    · rw [k] at hx
      rw [e7]
      refine (h.wk w hw did' out hx).imp id fun ⟨w', g1, g2⟩ => ⟨w', g1, ?_⟩
      rw [e4 w' (by intro e; subst e; rw [ea] at g2; cases g2) (by intro e; subst e; rw [eb] at g2; cases g2)]; exact g2
  · intro w hw hx
    rcases inv w with k | k | ⟨k, k1, k2⟩
    · rw [k] at hx; cases hx
    · rw [k] at hx; cases hx
    · rw [k] at hx ⊢; rw [e7]; exact h.snd w hw hx
  · intro w hw did' ss hx j hj
    rcases inv w with k | k | ⟨k, k1, k2⟩
    · rw [k] at hx; cases hx
    · rw [k] at hx; cases hx
    · rw [k] at hx; rw [e5, e7, e8]; exact h.svS w hw did' ss hx j hj
  · intro w hw did' hx j hj
    rcases inv w with k | k | ⟨k, k1, k2⟩
    · rw [k] at hx; cases hx
    · rw [k] at hx; cases hx
    · rw [k] at hx; rw [e5, e7, e8]; exact h.svP w hw did' hx j hj
  · intro hall j hj
    rw [e5, e7, e8]
    refine h.svN (fun w hw => ?_) j hj
    by_cases h1 : w = a
    · subst h1; rw [ea]; rfl
    · by_cases h2 : w = b
      · subst h2; rw [eb]; rfl
      · rw [← e4 w h1 h2]; exact hall w hw

end

theorem vst_cases (load : E → D) (o : Option (Caller E)) : (vst (α := α) load o = .idle) ∨ ∃ did e es, o = some ⟨some (did, e), es⟩ ∧
    vst (α := α) load o = .computing did (load e) := by
  unfold vst
  split
  · exact .inr ⟨_, _, _, rfl, rfl⟩
  · exact .inl rfl

section
variable (Γ : Env W S D α) (load : E → D)

theorem virt_lt (s : MSt W S D E α) {w : Nat} (h : w < Γ.P.nw) : (virt Γ load s).workers w = s.core.workers w := by simp [virt, h]

theorem virt_ge (s : MSt W S D E α) {w : Nat} (h : ¬ w < Γ.P.nw) :
    (virt Γ load s).workers w = (Γ.b0 0, vst load s.callers[w - Γ.P.nw]?) := by simp [virt, h]

/-- replacing the shatterers from `nw` on and the documents -/
def lift (n : Nat) (v : Nat → W × WSt D α) (l : List (UInt32 × D)) (s : St W S D α) : St W S D α :=
  { s with workers := fun w => if w < n then s.workers w else v w, client := .add l }

theorem lift_workers_lt {n : Nat} {v : Nat → W × WSt D α} {l : List (UInt32 × D)} {s : St W S D α} {w : Nat} (h : w < n) :
    (lift n v l s).workers w = s.workers w := by simp [lift, h]

theorem lift_setW {n : Nat} {v : Nat → W × WSt D α} {s : St W S D α} {w : Nat} (h : w < n) (b : W) (x : WSt D α) :
    (fun i => if i < n then (upd s.workers w (b, x)) i else v i) = upd (fun i => if i < n then s.workers i else v i) w (b, x) := by
  funext i
  by_cases e : i = w
  · subst e; simp [upd, h]
  · simp [upd, e]

theorem Step.to {P : Params W S D α} {s t t' : St W S D α} (h : Step P s t) (e : t' = t) : Step P s t' := e ▸ h

/-- steps of the shatterers and servers do not depend on the rest -/
theorem Step.lift {P P' : Params W S D α} {v : Nat → W × WSt D α} {l : List (UInt32 × D)} {s t : St W S D α}
    (hn : P'.n = P.n) (hnw : P.nw ≤ P'.nw) (hc : P'.compute = P.compute) (hs : P'.serve = P.serve)
    (hv : ∀ w, wake (v w).2 = (v w).2) (h : Step P s t) (h1 : s.client = .add []) (h2 : t.client = .add []) :
    Step P' (Sched.lift P.nw v l s) (Sched.lift P.nw v l t) := by
  cases h with
  | give g => rw [h1] at g; cases g
  | startShut g => simp at h2
  | shut g => rw [h1] at g; cases g
  | startClose g => rw [h1] at g; cases g
  | close g => rw [h1] at g; cases g
  | closeDone g => rw [h1] at g; cases g
  | compute hw g1 g2 =>
    rename_i w did d b out
    have := Step.compute (P := P') (s := Sched.lift P.nw v l s) (w := w) (did := did) (d := d) (b := b) (out := out) (by omega)
      (by rw [lift_workers_lt hw]; exact g1) (by rw [hc, lift_workers_lt hw]; exact g2)
    refine this.to ?_
    simp only [Sched.lift, lift_setW (v := v) hw]
  | lock hw g1 g2 =>
    rename_i w did out
    have := Step.lock (P := P') (s := Sched.lift P.nw v l s) (w := w) (did := did) (out := out) (by omega)
      (by rw [lift_workers_lt hw]; exact g1) g2
    refine this.to ?_
    simp only [Sched.lift, St.setW, lift_setW (v := v) hw, hw, if_true]
  | pass hw g1 g2 =>
    rename_i w did out
    have := Step.pass (P := P') (s := Sched.lift P.nw v l s) (w := w) (did := did) (out := out) (by omega)
      (by rw [lift_workers_lt hw]; exact g1) g2
    refine this.to ?_
    simp only [Sched.lift, St.setW, lift_setW (v := v) hw, hw, if_true]
  | wait hw g1 g2 =>
    rename_i w did out
    have := Step.wait (P := P') (s := Sched.lift P.nw v l s) (w := w) (did := did) (out := out) (by omega)
      (by rw [lift_workers_lt hw]; exact g1) g2
    refine this.to ?_
    simp only [Sched.lift, St.setW, lift_setW (v := v) hw, hw, if_true]
  | relock hw g1 g2 =>
    rename_i w did out
    have := Step.relock (P := P') (s := Sched.lift P.nw v l s) (w := w) (did := did) (out := out) (by omega)
      (by rw [lift_workers_lt hw]; exact g1) g2
    refine this.to ?_
    simp only [Sched.lift, St.setW, lift_setW (v := v) hw, hw, if_true]
  | post hw hj g1 g2 g3 =>
    rename_i w j did ss ps
    have := Step.post (P := P') (s := Sched.lift P.nw v l s) (w := w) (j := j) (did := did) (ss := ss) (ps := ps) (by omega) (by omega)
      (by rw [lift_workers_lt hw]; exact g1) g2 g3
    refine this.to ?_
    simp only [Sched.lift, St.setW, lift_setW (v := v) hw, hw, if_true]
  | cross hw hw' hne hj g1 g2 g3 g4 =>
    rename_i w w' j did did' ss ss' ps
    have := Step.cross (P := P') (s := Sched.lift P.nw v l s) (w := w) (w' := w') (j := j) (did := did) (did' := did') (ss := ss) (ss' := ss') (ps := ps)
      (by omega) (by omega) hne (by omega)
      (by rw [lift_workers_lt hw]; exact g1) g2 (by rw [lift_workers_lt hw']; exact g3) g4
    refine this.to ?_
    simp only [Sched.lift, St.setW, hw, if_true]
    congr 1
    funext i
    by_cases e : i = w'
    · subst e; simp only [upd, hw', if_true, Ne.symm hne, if_false]
    · by_cases e' : i = w
      · subst e'; simp only [upd, e, hw, if_true, if_false]
      · simp [upd, e, e']
  | serve hj g1 g2 =>
    rename_i j ps x
    have := Step.serve (P := P') (s := Sched.lift P.nw v l s) (j := j) (ps := ps) (x := x) (by omega) g1 (by rw [hs]; exact g2)
    exact this.to rfl
  | ack hw hj g1 g2 g3 =>
    rename_i w j did ss
    have := Step.ack (P := P') (s := Sched.lift P.nw v l s) (w := w) (j := j) (did := did) (ss := ss) (by omega) (by omega)
      (by rw [lift_workers_lt hw]; exact g1) g2 g3
    refine this.to ?_
    simp only [Sched.lift, St.setW, St.setS, lift_setW (v := v) hw, hw, if_true]
  | ackClosed hw hj g1 g2 g3 => rw [h1] at g3; exact absurd g3 (by simp [Client.closed])
  | sent hw g1 g2 =>
    rename_i w did ss
    have := Step.sent (P := P') (s := Sched.lift P.nw v l s) (w := w) (did := did) (ss := ss) (by omega)
      (by rw [lift_workers_lt hw]; exact g1) (by rw [hn]; exact g2)
    refine this.to ?_
    simp only [Sched.lift, St.setW, lift_setW (v := v) hw, hw, if_true]
  | publish hw g1 =>
    rename_i w did
    have := Step.publish (P := P') (s := Sched.lift P.nw v l s) (w := w) (did := did) (by omega)
      (by rw [lift_workers_lt hw]; exact g1)
    refine this.to ?_
    simp only [Sched.lift, St.setW, lift_setW (v := v) hw, hw, if_true]
  | broadcast hw g1 =>
    rename_i w
    have := Step.broadcast (P := P') (s := Sched.lift P.nw v l s) (w := w) (by omega) (by rw [lift_workers_lt hw]; exact g1)
    refine this.to ?_
    simp only [Sched.lift, hw, if_true]
    congr 1
    funext i
    by_cases e : i = w
    · subst e; simp [upd, hw]
    · simp only [upd, e, if_false]
      split
      · rfl
      · rw [hv]
  | unlock hw g1 =>
    rename_i w
    have := Step.unlock (P := P') (s := Sched.lift P.nw v l s) (w := w) (by omega) (by rw [lift_workers_lt hw]; exact g1)
    refine this.to ?_
    simp only [Sched.lift, St.setW, lift_setW (v := v) hw, hw, if_true]
  | exit hj g1 g2 => rw [h1] at g2; exact absurd g2 (by simp [Client.closed])

theorem virt_eq_lift (s : MSt W S D E α) : virt Γ load s =
    lift Γ.P.nw (fun w => (Γ.b0 0, vst load s.callers[w - Γ.P.nw]?)) (Γ.docs.drop s.order.length) s.core := rfl

theorem wake_vst (o : Option (Caller E)) : wake (vst (α := α) load o) = vst load o := by
  rcases vst_cases (α := α) load o with h | ⟨_, _, _, _, h⟩ <;> rw [h] <;> rfl

/-- what holds in all reachable states, `docs` being the documents in the order of their ids -/
structure MInv (h0 : 0 < Γ.P.nw) (nc : Nat) (s : MSt W S D E α) : Prop where
  len : s.callers.length = nc
  /-- the documents numbered so far -/
  ord : s.order.length ≤ Γ.docs.length
  inv : s.core.client = .add [] ∧ Inv (Γ.big nc h0) (virt Γ load s) ∨
    (∀ ds, s.core.client ≠ .add ds) ∧ (∀ c ∈ s.callers, c.finished) ∧ (s.order.length = Γ.docs.length → Inv Γ s.core)

variable {Γ} {load}

/-- when all callers are finished their places can be forgotten -/
theorem Inv.restrict {h0 : 0 < Γ.P.nw} {nc : Nat} {s : MSt W S D E α} (h : Inv (Γ.big nc h0) (virt Γ load s)) (hc : s.core.client = .add [])
    (hf : ∀ c ∈ s.callers, c.finished) (ho : s.order.length = Γ.docs.length) : Inv Γ s.core := by
  have hw : ∀ w, w < Γ.P.nw → (virt Γ load s).workers w = s.core.workers w := fun w => virt_lt Γ load s
  have hv : ∀ w, ¬ w < Γ.P.nw → ((virt Γ load s).workers w).2 = .idle := by
    intro w hlt
    rw [virt_ge Γ load s hlt]
    rcases vst_cases (α := α) load s.callers[w - Γ.P.nw]? with h | ⟨did, e, es, h1, h⟩
    · exact h
    · have := (hf _ (List.mem_of_getElem? h1)).1
      simp at this
  have hb : ∀ w, w < Γ.P.nw → w < (Γ.big nc h0).P.nw := fun w h => Nat.lt_of_lt_of_le h (Nat.le_add_right _ _)
  have real : ∀ w x, didOf ((virt Γ load s).workers w).2 = some x → w < Γ.P.nw := by
    intro w x hx
    by_cases hl : w < Γ.P.nw
    · exact hl
    · rw [hv w hl] at hx; cases hx
  have hcl : (virt Γ load s).client = s.core.client := by
    rw [hc]; show Client.add (Γ.docs.drop s.order.length) = _
    rw [ho, List.drop_length]
  have hsent : ∀ c, (Γ.big nc h0).sent c = Γ.sent c := fun c => by cases c <;> rfl
  refine { bw := ?_, pay := ?_, cl := ?_, ex := ?_, lo := h.lo, hi := ?_, fl1 := ?_, fl2 := ?_, fl3 := ?_, hold := ?_,
           holdLt := ?_, wk := ?_, snd := ?_, svS := ?_, svP := ?_, svN := ?_ }
  · intro w hl; rw [← hw w hl]; exact h.bw w (hb w hl)
  · intro w hl; rw [← hw w hl]
    have := h.pay w (hb w hl)
    revert this
    cases ((virt Γ load s).workers w).2 <;> exact id
  · rw [hc]; exact ⟨Nat.zero_le _, by simp⟩
  · have := h.ex
    rw [hcl, hc] at this
    rw [hc]
    have := sumN_prefix (n := Γ.P.nw) (k := nc) this
    show sumN _ _ = 0
    rw [← this]
    exact sumN_congr fun w hl => by rw [hw w hl]
  · have := h.hi; rw [hcl, hsent] at this; exact this
  · intro w hl d hd
    rw [← hw w hl] at hd
    have := h.fl1 w (hb w hl) d hd; rw [hcl, hsent] at this; exact this
  · intro w w' hl hl' d hd hd'
    rw [← hw w hl] at hd; rw [← hw w' hl'] at hd'
    exact h.fl2 w w' (hb w hl) (hb w' hl') d hd hd'
  · intro d g1 g2
    obtain ⟨w, k1, k2⟩ := h.fl3 d g1 (by rw [hcl, hsent]; exact g2)
    exact ⟨w, real w d k2, by rw [← hw w (real w d k2)]; exact k2⟩
  · intro w hl; rw [← hw w hl]; exact h.hold w (hb w hl)
  · intro w hh
    by_cases hl : w < Γ.P.nw
    · exact hl
    · have := (h.hold w (h.holdLt w hh)).mpr hh
      rw [hv w hl] at this; cases this
  · intro w hl did out hx
    rw [← hw w hl] at hx
    refine (h.wk w (hb w hl) did out hx).imp id fun ⟨w', _, g2⟩ => ?_
    by_cases hl' : w' < Γ.P.nw
    · exact ⟨w', hl', by rw [← hw w' hl']; exact g2⟩
    · rw [hv w' hl'] at g2; cases g2
  · intro w hl hx
    rw [← hw w hl] at hx ⊢; exact h.snd w (hb w hl) hx
  · intro w hl did ss hx j hj
    rw [← hw w hl] at hx
    have := h.svS w (hb w hl) did ss hx j hj
    rw [hcl] at this; exact this
  · intro w hl did hx j hj
    rw [← hw w hl] at hx
    have := h.svP w (hb w hl) did hx j hj
    rw [hcl] at this; exact this
  · intro hall j hj
    have := h.svN (by
      intro w _
      by_cases hl : w < Γ.P.nw
      · rw [hw w hl]; exact hall w hl
      · rw [hv w hl]; rfl) j hj
    rw [hcl] at this; exact this

/-- `order`, numbered, is the beginning of `docs` -/
def Numbered (Γ : Env W S D α) (load : E → D) (order : List E) : Prop :=
  order.length ≤ Γ.docs.length ∧ ∀ k e, order[k]? = some e → Γ.docs[k]? = some (UInt32.ofNat (Γ.last.toNat + k + 1), load e)

theorem Step.notAdd {P : Params W S D α} {s t : St W S D α} (h : Step P s t) (hs : ∀ ds, s.client ≠ .add ds) : ∀ ds, t.client ≠ .add ds := by
  intro ds
  cases h with
  | give g => exact absurd g (hs _)
  | startShut g => exact absurd g (hs _)
  | shut => exact nofun
  | startClose => exact nofun
  | close => exact nofun
  | closeDone => exact nofun
  | _ => exact hs ds

theorem Step.fromNil {P : Params W S D α} {s t : St W S D α} (h : Step P s t) (hs : s.client = .add []) :
    t.client = .add [] ∨ ∀ ds, t.client ≠ .add ds := by
  cases h with
  | give g => rw [hs] at g; cases g
  | startShut => exact .inr nofun
  | shut => exact .inr nofun
  | startClose => exact .inr nofun
  | close => exact .inr nofun
  | closeDone => exact .inr nofun
  | _ => exact .inl hs

theorem MInv.step {h0 : 0 < Γ.P.nw} {nc : Nat} {locked : Bool} {s t : MSt W S D E α} (h : MInv Γ load h0 nc s)
    (hs : MStep Γ.P load Γ.last locked s t) (ho : Numbered Γ load t.order) : MInv Γ load h0 nc t := by
  cases hs with
  | number g1 gl =>
    rename_i i e es
    have hi : i < s.callers.length := by
      by_cases hi : i < s.callers.length
      · exact hi
      · rw [List.getElem?_eq_none (by omega)] at g1; cases g1
    have hnf : ¬ ∀ c ∈ s.callers, c.finished := fun hf => by
      have := (hf _ (List.mem_of_getElem? g1)).2; simp at this
    rcases h.inv with ⟨hc, hv⟩ | ⟨_, hf, _⟩
    · refine ⟨by simp [h.len], ho.1, .inl ⟨hc, ?_⟩⟩
      have hget := ho.2 s.order.length e (by simp)
      have hlt : s.order.length < Γ.docs.length := by have := ho.1; simp at this; omega
      have hdrop : Γ.docs.drop s.order.length = (nextId Γ.last s.order, load e) :: Γ.docs.drop (s.order.length + 1) := by
        rw [List.drop_eq_getElem_cons hlt]
        rw [List.getElem?_eq_getElem hlt] at hget
        injection hget with hget
        rw [hget]; rfl
      have hst := Step.give (P := (Γ.big nc h0).P) (s := virt Γ load s) (did := nextId Γ.last s.order) (d := load e) (w := Γ.P.nw + i)
        (ds := Γ.docs.drop (s.order.length + 1))
        (by show Client.add _ = _; rw [hdrop]) (by show _ < Γ.P.nw + nc; rw [← h.len]; omega)
        (by rw [virt_ge Γ load s (by omega), Nat.add_sub_cancel_left, g1]; rfl)
      have := hv.step hst
      refine cast (congrArg _ ?_) this
      simp only [virt, St.setW, List.length_append, List.length_cons, List.length_nil]
      congr 1
      funext w
      by_cases hw : w = Γ.P.nw + i
      · subst hw
        simp only [upd, if_true, show ¬ (Γ.P.nw + i < Γ.P.nw) by omega, if_false, Nat.add_sub_cancel_left]
        rw [List.getElem?_set_self hi]; rfl
      · simp only [upd, hw, if_false]
        split
        · rfl
        · rw [List.getElem?_set_ne (by omega)]
    · exact absurd hf hnf
  | give g1 hw g2 =>
    rename_i i did e es w
    have hi : i < s.callers.length := by
      by_cases hi : i < s.callers.length
      · exact hi
      · rw [List.getElem?_eq_none (by omega)] at g1; cases g1
    rcases h.inv with ⟨hc, hv⟩ | ⟨_, hf, _⟩
    · refine ⟨by simp [h.len], ho.1, .inl ⟨hc, ?_⟩⟩
      have hnl : ¬ Γ.P.nw + i < Γ.P.nw := by omega
      refine hv.swap (a := Γ.P.nw + i) (b := w) (did := did) (d := load e) (by show _ < Γ.P.nw + nc; rw [← h.len]; omega)
        (Nat.lt_of_lt_of_le hw (Nat.le_add_right _ _)) (by omega) ?_ (by rw [virt_lt Γ load s hw]; exact g2) ?_ ?_ ?_ ?_ rfl rfl rfl rfl
      · rw [virt_ge Γ load s hnl, Nat.add_sub_cancel_left, g1]; rfl
      · intro w'
        by_cases hl : w' < Γ.P.nw
        · rw [virt_lt Γ load s hl, virt_lt Γ load _ hl]
          simp only [St.setW, upd]; split
          · rename_i e; rw [e]
          · rfl
        · rw [virt_ge Γ load s hl, virt_ge Γ load _ hl]
      · rw [virt_ge Γ load _ hnl, Nat.add_sub_cancel_left]
        simp only [List.getElem?_set_self hi]; rfl
      · rw [virt_lt Γ load _ hw]; simp [St.setW, upd]
      · intro w' k1 k2
        by_cases hl : w' < Γ.P.nw
        · rw [virt_lt Γ load s hl, virt_lt Γ load _ hl]
          simp only [St.setW, upd, k2, if_false]
        · rw [virt_ge Γ load s hl, virt_ge Γ load _ hl]
          simp only
          rw [List.getElem?_set_ne (by omega)]
    · have := (hf _ (List.mem_of_getElem? g1)).1; simp at this
  | inner g1 g2 =>
    rename_i t
    refine ⟨h.len, ho.1, ?_⟩
    rcases h.inv with ⟨hc, hv⟩ | ⟨hc, hf, hv⟩
    · by_cases hct : t.client = .add []
      · left
        refine ⟨hct, ?_⟩
        have := Step.lift (P := Γ.P) (P' := (Γ.big nc h0).P) (v := fun w => (Γ.b0 0, vst load s.callers[w - Γ.P.nw]?)) (l := Γ.docs.drop s.order.length)
          rfl (Nat.le_add_right _ _) rfl rfl (fun w => wake_vst load _) g1 hc hct
        exact hv.step this
      · right
        have hf : ∀ c ∈ s.callers, c.finished := by
          rcases g2 with g2 | g2
          · rw [hc] at g2; exact absurd g2 hct
          · exact g2
        exact ⟨(g1.fromNil hc).resolve_left hct, hf, fun hl => (hv.restrict hc hf hl).step g1⟩
    · right
      refine ⟨?_, hf, fun hl => (hv hl).step g1⟩
      exact g1.notAdd hc

theorem MInv.init (h0 : 0 < Γ.P.nw) (callers : List (List E)) : MInv Γ load h0 callers.length (MSt.init Γ.b0 Γ.s0 Γ.last callers) := by
  refine ⟨by simp [MSt.init], by simp [MSt.init], .inl ⟨rfl, ?_⟩⟩
  have := Inv.init (Γ := Γ.big callers.length h0)
  refine cast (congrArg _ ?_) this
  simp only [Sched.init, virt, MSt.init, Env.big, List.length_nil, List.drop_zero]
  congr 1
  funext w
  split
  · rfl
  · simp only [List.getElem?_map]
    cases callers[w - Γ.P.nw]? <;> rfl

theorem MStep.order {P : Params W S D α} {last : UInt32} {locked : Bool} {s t : MSt W S D E α} (h : MStep P load last locked s t) :
    ∃ l, t.order = s.order ++ l := by
  cases h with
  | number => exact ⟨_, rfl⟩
  | _ => exact ⟨[], by simp⟩

theorem Numbered.left {a b : List E} (h : Numbered Γ load (a ++ b)) : Numbered Γ load a := by
  refine ⟨by have := h.1; simp at this; omega, fun k e hk => h.2 k e ?_⟩
  rw [List.getElem?_append_left (List.getElem?_eq_some_iff.mp hk).1]; exact hk

theorem MSteps.inv {h0 : 0 < Γ.P.nw} {callers : List (List E)} {locked : Bool} {k : Nat} {t : MSt W S D E α}
    (h : MSteps Γ.P load Γ.last locked (MSt.init Γ.b0 Γ.s0 Γ.last callers) k t) (ho : Numbered Γ load t.order) :
    MInv Γ load h0 callers.length t := by
  induction h with
  | refl => exact MInv.init h0 callers
  | step h1 h2 ih =>
    obtain ⟨l, e⟩ := h2.order
    exact (ih (by rw [e] at ho; exact ho.left)).step h2 ho

/-- the order of the ids is an interleaving of the callers' documents -/
theorem MSteps.interleave {P : Params W S D α} {last : UInt32} {locked : Bool} {s : MSt W S D E α} {b0 : Nat → W} {s0 : Nat → S}
    {callers : List (List E)} {k : Nat} (h : MSteps P load last locked (MSt.init b0 s0 last callers) k s) :
    ∀ l, Interleave (s.callers.map (·.todo)) l → Interleave callers (s.order ++ l) := by
  induction h with
  | refl => intro l hl; simpa [MSt.init, Function.comp_def] using hl
  | step _ h2 ih =>
    rename_i k s _ _
    intro l hl
    cases h2 with
    | number g1 _ =>
      rename_i i e es _
      simp only [List.map_set] at hl
      have := ih (e :: l) (.cons (i := i) (as := es) (by simp [List.getElem?_map, g1]) hl)
      simpa using this
    | give g1 k1 k2 =>
      rename_i i did e es w
      refine ih l ?_
      simp only [List.map_set] at hl
      have e' : (List.map (·.todo) s.callers).set i es = List.map (·.todo) s.callers := by
        apply List.ext_getElem?
        intro k
        by_cases hk : k = i
        · subst hk
          have : k < (List.map (·.todo) s.callers).length := by
            simpa using (List.getElem?_eq_some_iff.mp g1).1
          rw [List.getElem?_set_self this]; simp [g1]
        · rw [List.getElem?_set_ne (Ne.symm hk)]
      rw [e'] at hl; exact hl
    | inner => exact ih l hl

/-- as long as nobody closes the indexer: some goroutine other than the callers can go on, or the shatterers are
idle or asleep -/
theorem Inv.quiet {h0 : 0 < Γ.P.nw} {nc : Nat} {s : MSt W S D E α} (h : Inv (Γ.big nc h0) (virt Γ load s)) (hs : Γ.Serves)
    (hc : s.core.client = .add []) :
    (∃ t, Step Γ.P s.core t ∧ t.client = s.core.client) ∨
    ∀ w, w < Γ.P.nw → (s.core.workers w).2 = .idle ∨
      ∃ did out, (s.core.workers w).2 = .waiting did out ∧ did.toNat ≠ s.core.mono.toNat + 1 := by
  have hs' : (Γ.big nc h0).Serves := hs
  have hb : ∀ w, w < Γ.P.nw → w < (Γ.big nc h0).P.nw := fun w h => Nat.lt_of_lt_of_le h (Nat.le_add_right _ _)
  have hw : ∀ w, w < Γ.P.nw → (virt Γ load s).workers w = s.core.workers w := fun w => virt_lt Γ load s
  have hv : ∀ w, ¬ w < Γ.P.nw → ((virt Γ load s).workers w).2 = .idle ∨ ∃ did d, ((virt Γ load s).workers w).2 = .computing did d := by
    intro w hlt
    rw [virt_ge Γ load s hlt]
    rcases vst_cases (α := α) load s.callers[w - Γ.P.nw]? with h | ⟨did, e, es, _, h⟩
    · exact .inl h
    · exact .inr ⟨_, _, h⟩
  have hcl : ∀ j, ¬ s.core.client.closed j := by intro j; rw [hc]; exact nofun
  cases hh : s.core.holder with
  | some w =>
    left
    have hlt := h.holdLt w hh
    have hcr := (h.hold w hlt).mpr hh
    have hl : w < Γ.P.nw := by
      by_cases hl : w < Γ.P.nw
      · exact hl
      · rcases hv w hl with e | ⟨_, _, e⟩ <;> rw [e] at hcr <;> cases hcr
    rw [hw w hl] at hcr
    cases hx : (s.core.workers w).2 <;> rw [hx] at hcr <;> simp [crit] at hcr
    · rename_i did out
      by_cases hm : s.core.mono = did - 1
      · exact ⟨_, .pass hl hx hm, rfl⟩
      · exact ⟨_, .wait hl hx hm, rfl⟩
    · rename_i did ss
      rcases exists_or_forall Γ.P.n (fun j => ss j ≠ .done) with ⟨j, hj, hne⟩ | hall
      · have hok := h.svS w hlt did ss (by rw [hw w hl]; exact hx) j hj
        cases he : ss j with
        | toSend ps =>
          rw [he] at hok
          have := Rest.idle hok.2 (by exact nofun)
          exact ⟨_, .post hl hj hx he this, rfl⟩
        | await =>
          rw [he] at hok
          rcases hok.2 with ⟨a, b⟩ | ⟨a, b⟩
          · obtain ⟨y, hy⟩ := h.serves hs' hj a
            exact ⟨_, .serve hj a hy, rfl⟩
          · exact ⟨_, .ack hl hj hx he a, rfl⟩
        | done => exact absurd he hne
      · exact ⟨_, .sent hl hx fun j hj => Classical.not_not.mp (hall j hj), rfl⟩
    · exact ⟨_, .publish hl hx, rfl⟩
    · exact ⟨_, .broadcast hl hx, rfl⟩
    · exact ⟨_, .unlock hl hx, rfl⟩
  | none =>
    rcases exists_or_forall Γ.P.nw (fun w => (s.core.workers w).2 ≠ .idle ∧ ∀ did out, (s.core.workers w).2 ≠ .waiting did out) with ⟨w, hl, h1, h3⟩ | hall
    · left
      have hnc : crit (s.core.workers w).2 = false := by
        cases hcr : crit (s.core.workers w).2 with
        | false => rfl
        | true => have := (h.hold w (hb w hl)).mp (by rw [hw w hl]; exact hcr); rw [show (virt Γ load s).holder = _ from hh] at this; cases this
      cases hx : (s.core.workers w).2 with
      | idle => exact absurd hx h1
      | exited =>
        exfalso
        have := h.ex
        have h2 : sumN Γ.P.nw (fun w => exitedW ((virt Γ load s).workers w).2) = 0 := sumN_prefix (k := nc) this
        have h4 := sumN_change (f := fun w => exitedW ((virt Γ load s).workers w).2)
          (g := fun i => if i = w then 0 else exitedW ((virt Γ load s).workers i).2) hl (by intro j _ hj; simp [hj])
        rw [h2] at h4
        simp only [hw w hl, hx, if_true] at h4
        have h5 : exitedW (WSt.exited : WSt D α) = 1 := rfl
        rw [h5] at h4
        omega
      | waiting did out => exact absurd hx (h3 did out)
      | computing did d =>
        obtain ⟨b, g1, _⟩ := Γ.hcompute (s.core.workers w).1 did d (by rw [← hw w hl]; exact h.bw w (hb w hl))
        exact ⟨_, .compute hl hx g1, rfl⟩
      | locking did out => exact ⟨_, .lock hl hx hh, rfl⟩
      | woken did out => exact ⟨_, .relock hl hx hh, rfl⟩
      | checking did out => rw [hx] at hnc; cases hnc
      | sending did ss => rw [hx] at hnc; cases hnc
      | publish did => rw [hx] at hnc; cases hnc
      | broadcasting => rw [hx] at hnc; cases hnc
      | unlocking => rw [hx] at hnc; cases hnc
    · right
      intro w hl
      by_cases e : (s.core.workers w).2 = .idle
      · exact .inl e
      · right
        false_or_by_contra
        rename_i hno
        refine hall w hl ⟨e, fun did out hx => hno ⟨did, out, hx, ?_⟩⟩
        rcases h.wk w (hb w hl) did out (by rw [hw w hl]; exact hx) with k | ⟨w', k1, k2⟩
        · exact k
        · have := (h.hold w' k1).mp (by rw [k2]; rfl)
          rw [show (virt Γ load s).holder = _ from hh] at this; cases this

/-- nothing can ever happen again: every shatterer waits for a turn that does not come, as the document whose turn
it is has not been handed over, and everyone who could add another one has one to hand over -/
structure Deadlocked (P : Params W S D α) (s : MSt W S D E α) : Prop where
  asleep : ∀ w, w < P.nw → ∃ did out, (s.core.workers w).2 = .waiting did out
  turn : ∃ c ∈ s.callers, ∃ did e, c.pending = some (did, e) ∧ s.core.mono = did - 1
  callers : ∀ c ∈ s.callers, c.pending = none → c.todo = []

theorem MInv.stuck {h0 : 0 < Γ.P.nw} {nc : Nat} {locked : Bool} {s : MSt W S D E α} (h : MInv Γ load h0 nc s) (hd : Deadlocked Γ.P s) :
    (¬ ∃ t, MStep Γ.P load Γ.last locked s t) ∧ ¬ Final Γ.P s.core ∧ ¬ Crashes Γ.P s.core := by
  obtain ⟨c, hc, did, e, hp, hm⟩ := hd.turn
  have hnf : ¬ ∀ c ∈ s.callers, c.finished := fun hf => by
    have := (hf c hc).1; rw [hp] at this; cases this
  rcases h.inv with ⟨hcl, hv⟩ | ⟨_, hf, _⟩
  case inr => exact absurd hf hnf
  have noSend : ∀ w, w < (Γ.big nc h0).P.nw → ∀ did ss, ((virt Γ load s).workers w).2 ≠ .sending did ss := by
    intro w _ did ss hx
    by_cases hl : w < Γ.P.nw
    · obtain ⟨a, b, g⟩ := hd.asleep w hl
      rw [virt_lt Γ load s hl, g] at hx; cases hx
    · rw [virt_ge Γ load s hl] at hx
      rcases vst_cases (α := α) load s.callers[w - Γ.P.nw]? with k | ⟨_, _, _, _, k⟩ <;>
        (simp only at hx; rw [k] at hx; cases hx)
  have noBusy : ∀ j, j < Γ.P.n → ∀ m, (s.core.servers j).st ≠ .busy m := by
    intro j hj m hb
    obtain ⟨w, d, ss, k1, k2, _⟩ := hv.sender (j := j) hj (by intro m ⟨a, _⟩; rw [show (virt Γ load s).servers = s.core.servers from rfl, hb] at a; rcases a with a | ⟨a, _⟩ <;> cases a)
    exact noSend w k1 d ss k2
  refine ⟨?_, ?_, ?_⟩
  · rintro ⟨t, ht⟩
    cases ht with
    | number g1 _ =>
      have := hd.callers _ (List.mem_of_getElem? g1) rfl
      cases this
    | give _ hw g2 =>
      obtain ⟨a, b, g⟩ := hd.asleep _ hw
      rw [g] at g2; cases g2
    | inner g1 g2 =>
      have g2 := g2.resolve_right hnf
      cases g1 with
      | give k => rw [hcl] at k; cases k
      | startShut => rw [hcl] at g2; cases g2
      | shut k => rw [hcl] at k; cases k
      | startClose k => rw [hcl] at k; cases k
      | close k => rw [hcl] at k; cases k
      | closeDone k => rw [hcl] at k; cases k
      | serve hj k => exact noBusy _ hj _ k
      | exit _ _ k => rw [hcl] at k; exact k
      | compute hw k => obtain ⟨a, b, g⟩ := hd.asleep _ hw; rw [g] at k; cases k
      | lock hw k => obtain ⟨a, b, g⟩ := hd.asleep _ hw; rw [g] at k; cases k
      | pass hw k => obtain ⟨a, b, g⟩ := hd.asleep _ hw; rw [g] at k; cases k
      | wait hw k => obtain ⟨a, b, g⟩ := hd.asleep _ hw; rw [g] at k; cases k
      | relock hw k => obtain ⟨a, b, g⟩ := hd.asleep _ hw; rw [g] at k; cases k
      | post hw _ k => obtain ⟨a, b, g⟩ := hd.asleep _ hw; rw [g] at k; cases k
      | cross hw _ _ _ k => obtain ⟨a, b, g⟩ := hd.asleep _ hw; rw [g] at k; cases k
      | ack hw _ k => obtain ⟨a, b, g⟩ := hd.asleep _ hw; rw [g] at k; cases k
      | ackClosed hw _ k => obtain ⟨a, b, g⟩ := hd.asleep _ hw; rw [g] at k; cases k
      | sent hw k => obtain ⟨a, b, g⟩ := hd.asleep _ hw; rw [g] at k; cases k
      | publish hw k => obtain ⟨a, b, g⟩ := hd.asleep _ hw; rw [g] at k; cases k
      | broadcast hw k => obtain ⟨a, b, g⟩ := hd.asleep _ hw; rw [g] at k; cases k
      | unlock hw k => obtain ⟨a, b, g⟩ := hd.asleep _ hw; rw [g] at k; cases k
  · intro hfin
    have := hfin.1; rw [hcl] at this; cases this
  · intro hcr
    cases hcr with
    | compute hw k => obtain ⟨a, b, g⟩ := hd.asleep _ hw; rw [g] at k; cases k
    | serve hj k => exact noBusy _ hj _ k
    | send hw _ k => obtain ⟨a, b, g⟩ := hd.asleep _ hw; rw [g] at k; cases k
    | ack _ _ k => rw [hcl] at k; exact k

/-- the callers' documents are among those in flight -/
theorem MInv.pending {h0 : 0 < Γ.P.nw} {nc : Nat} {s : MSt W S D E α} (h : MInv Γ load h0 nc s) {i : Nat} {did : UInt32} {e : E} {es : List E} (hi : s.callers[i]? = some ⟨some (did, e), es⟩) :
    Γ.P.nw + i < (Γ.big nc h0).P.nw ∧ didOf ((virt Γ load s).workers (Γ.P.nw + i)).2 = some did.toNat := by
  constructor
  · have := (List.getElem?_eq_some_iff.mp hi).1
    show _ < Γ.P.nw + nc
    rw [← h.len]; omega
  · rw [virt_ge Γ load s (by omega), Nat.add_sub_cancel_left, hi]; rfl

theorem MInv.progress {h0 : 0 < Γ.P.nw} {nc : Nat} {s : MSt W S D E α} (h : MInv Γ load h0 nc s) (hs : Γ.Serves)
    (ho : s.core.client ≠ .add [] → s.order.length = Γ.docs.length) :
    Final Γ.P s.core ∨ (∃ t, MStep Γ.P load Γ.last false s t) ∨ Deadlocked Γ.P s := by
  rcases h.inv with ⟨hcl, hv⟩ | ⟨hcl, hf, hv⟩
  case inr =>
    rcases (hv (ho (hcl []))).progress hs h0 with k | ⟨t, k⟩
    · exact .inl k
    · exact .inr (.inl ⟨_, .inner k (.inr hf)⟩)
  right
  by_cases hnum : ∃ (i : Nat) (e : E) (es : List E), s.callers[i]? = some ⟨none, e :: es⟩
  · obtain ⟨i, e, es, g⟩ := hnum
    exact .inl ⟨_, .number g nofun⟩
  have hnum' : ∀ c ∈ s.callers, c.pending = none → c.todo = [] := by
    intro c hc hp
    obtain ⟨i, hi⟩ := List.getElem?_of_mem hc
    obtain ⟨p, l⟩ := c
    subst hp
    cases l with
    | nil => rfl
    | cons e es => exact absurd ⟨i, e, es, hi⟩ hnum
  rcases hv.quiet hs hcl with ⟨t, k1, k2⟩ | hq
  · exact .inl ⟨_, .inner k1 (.inl k2)⟩
  by_cases hall : ∀ c ∈ s.callers, c.finished
  · exact .inl ⟨_, .inner (.startShut hcl) (.inr hall)⟩
  simp only [Classical.not_forall] at hall
  obtain ⟨c, hc, hnf⟩ := hall
  obtain ⟨i, hi⟩ := List.getElem?_of_mem hc
  obtain ⟨p, l⟩ := c
  cases p with
  | none => exact absurd ⟨rfl, hnum' _ hc rfl⟩ hnf
  | some x =>
    obtain ⟨did, e⟩ := x
    rcases exists_or_forall Γ.P.nw (fun w => (s.core.workers w).2 = .idle) with ⟨w, hw, k⟩ | hni
    · exact .inl ⟨_, .give hi hw k⟩
    · right
      have hq' : ∀ w, w < Γ.P.nw → ∃ did out, (s.core.workers w).2 = .waiting did out ∧ did.toNat ≠ s.core.mono.toNat + 1 :=
        fun w hw => (hq w hw).resolve_left (hni w hw)
      refine ⟨fun w hw => ?_, ?_, hnum'⟩
      · obtain ⟨a, b, g, _⟩ := hq' w hw; exact ⟨a, b, g⟩
      · obtain ⟨k1, k2⟩ := h.pending hi
        obtain ⟨k3, k4⟩ := hv.fl1 _ k1 _ k2
        obtain ⟨w, g1, g2⟩ := hv.fl3 ((virt Γ load s).mono.toNat + 1) (by omega) (by omega)
        by_cases hl : w < Γ.P.nw
        · obtain ⟨a, b, g3, g4⟩ := hq' w hl
          rw [virt_lt Γ load s hl, g3] at g2
          injection g2 with g2
          exact absurd g2 g4
        · rw [virt_ge Γ load s hl] at g2
          rcases vst_cases (α := α) load s.callers[w - Γ.P.nw]? with k | ⟨did', e', es', k, k'⟩
          · simp only at g2; rw [k] at g2; cases g2
          · simp only at g2
            rw [k'] at g2
            injection g2 with g2
            refine ⟨_, List.mem_of_getElem? k, did', e', rfl, ?_⟩
            have hm : (virt Γ load s).mono.toNat = s.core.mono.toNat := rfl
            exact (eq_pred rfl (by omega)).mpr (by omega)

/-! ### Callers that keep each other out -/

/-- at most one caller is inside `Add`, and its document is the one numbered last -/
structure LockInv (last : UInt32) (s : MSt W S D E α) : Prop where
  one : ∀ (i j : Nat) (c c' : Caller E) (x x' : UInt32 × E), s.callers[i]? = some c → s.callers[j]? = some c' → c.pending = some x → c'.pending = some x' → i = j
  top : ∀ c ∈ s.callers, ∀ x, c.pending = some x → x.1 = UInt32.ofNat (last.toNat + s.order.length) ∧ s.order ≠ []

theorem LockInv.init (b0 : Nat → W) (s0 : Nat → S) (last : UInt32) (callers : List (List E)) :
    LockInv last (MSt.init (D := D) (α := α) b0 s0 last callers) := by
  constructor
  · intro i j c c' x x' h1 _ h3
    simp only [MSt.init, List.getElem?_map] at h1
    cases hc : callers[i]? with
    | none => rw [hc] at h1; cases h1
    | some l => rw [hc] at h1; injection h1 with h1; subst h1; cases h3
  · intro c hc x hx
    simp only [MSt.init, List.mem_map] at hc
    obtain ⟨l, _, rfl⟩ := hc
    cases hx

theorem LockInv.step {P : Params W S D α} {last : UInt32} {s t : MSt W S D E α} (h : LockInv last s) (hs : MStep P load last true s t) :
    LockInv last t := by
  cases hs with
  | number g1 g2 =>
    rename_i i e es
    have g2 := g2 rfl
    have hi := (List.getElem?_eq_some_iff.mp g1).1
    have key : ∀ (j : Nat) (c : Caller E) (x : UInt32 × E), (s.callers.set i ⟨some (nextId last s.order, e), es⟩)[j]? = some c → c.pending = some x → j = i ∧ x = (nextId last s.order, e) := by
      intro j c x h1 h2
      by_cases hj : j = i
      · subst hj
        rw [List.getElem?_set_self hi] at h1
        injection h1 with h1; subst h1
        injection h2 with h2
        exact ⟨rfl, h2.symm⟩
      · rw [List.getElem?_set_ne (Ne.symm hj)] at h1
        rw [g2 c (List.mem_of_getElem? h1)] at h2; cases h2
    constructor
    · intro a b c c' x x' h1 h2 h3 h4
      rw [(key a c x h1 h3).1, (key b c' x' h2 h4).1]
    · intro c hc x hx
      obtain ⟨j, hj⟩ := List.getElem?_of_mem hc
      rw [(key j c x hj hx).2]
      refine ⟨?_, by simp⟩
      simp only [nextId, List.length_append, List.length_cons, List.length_nil]
      congr 1
  | give g1 _ _ =>
    rename_i i did e es w _ _
    have hi := (List.getElem?_eq_some_iff.mp g1).1
    have key : ∀ (j : Nat) (c : Caller E) (x : UInt32 × E), (s.callers.set i ⟨none, es⟩)[j]? = some c → c.pending = some x → s.callers[j]? = some c := by
      intro j c x h1 h2
      by_cases hj : j = i
      · subst hj
        rw [List.getElem?_set_self hi] at h1
        injection h1 with h1; subst h1; cases h2
      · rw [List.getElem?_set_ne (Ne.symm hj)] at h1; exact h1
    constructor
    · intro a b c c' x x' h1 h2 h3 h4
      exact h.one a b c c' x x' (key _ _ _ h1 h3) (key _ _ _ h2 h4) h3 h4
    · intro c hc x hx
      obtain ⟨j, hj⟩ := List.getElem?_of_mem hc
      exact h.top c (List.mem_of_getElem? (key _ _ _ hj hx)) x hx
  | inner => exact ⟨h.one, h.top⟩

theorem MSteps.lockInv {P : Params W S D α} {last : UInt32} {k : Nat} {s t : MSt W S D E α} (h : MSteps P load last true s k t) (hs : LockInv last s) :
    LockInv last t := by
  induction h with
  | refl => exact hs
  | step _ h2 ih => exact ih.step h2

theorem MInv.progressLocked {h0 : 0 < Γ.P.nw} {nc : Nat} {s : MSt W S D E α} (h : MInv Γ load h0 nc s) (hs : Γ.Serves) (hL : LockInv Γ.last s)
    (ho : s.core.client ≠ .add [] → s.order.length = Γ.docs.length) (hlt : Γ.last.toNat + s.order.length < 2 ^ 32) :
    Final Γ.P s.core ∨ ∃ t, MStep Γ.P load Γ.last true s t := by
  rcases h.inv with ⟨hcl, hv⟩ | ⟨hcl, hf, hv⟩
  case inr =>
    rcases (hv (ho (hcl []))).progress hs h0 with k | ⟨t, k⟩
    · exact .inl k
    · exact .inr ⟨_, .inner k (.inr hf)⟩
  right
  rcases hv.quiet hs hcl with ⟨t, k1, k2⟩ | hq
  · exact ⟨_, .inner k1 (.inl k2)⟩
  by_cases hp : ∃ (i : Nat) (did : UInt32) (e : E) (es : List E), s.callers[i]? = some ⟨some (did, e), es⟩
  · obtain ⟨i, did, e, es, hi⟩ := hp
    rcases exists_or_forall Γ.P.nw (fun w => (s.core.workers w).2 = .idle) with ⟨w, hw, k⟩ | hni
    · exact ⟨_, .give hi hw k⟩
    · exfalso
      have hsent : (Γ.big nc h0).sent (virt Γ load s).client = s.order.length := by
        show Γ.docs.length - (Γ.docs.drop s.order.length).length = _
        rw [List.length_drop]; have := h.ord; omega
      obtain ⟨k1, k2⟩ := h.pending hi
      obtain ⟨k3, k4⟩ := hv.fl1 _ k1 _ k2
      have htop := (hL.top _ (List.mem_of_getElem? hi) _ rfl).1
      simp only at htop
      have hdid : did.toNat = Γ.last.toNat + s.order.length := by rw [htop]; exact toNat_ofNat hlt
      obtain ⟨did0, out0, g0, g0'⟩ := (hq 0 h0).resolve_left (hni 0 h0)
      have f0 := hv.fl1 0 (Nat.lt_of_lt_of_le h0 (Nat.le_add_right _ _)) did0.toNat (by rw [virt_lt Γ load s h0, g0]; rfl)
      rw [hsent, show (Γ.big nc h0).base = Γ.last.toNat from rfl] at f0
      obtain ⟨w, g1, g2⟩ := hv.fl3 ((virt Γ load s).mono.toNat + 1) (by omega) (by omega)
      by_cases hl : w < Γ.P.nw
      · obtain ⟨a, b, g3, g4⟩ := (hq w hl).resolve_left (hni w hl)
        rw [virt_lt Γ load s hl, g3] at g2
        injection g2 with g2
        exact absurd g2 g4
      · rw [virt_ge Γ load s hl] at g2
        rcases vst_cases (α := α) load s.callers[w - Γ.P.nw]? with k | ⟨did', e', es', k, k'⟩
        · simp only at g2; rw [k] at g2; cases g2
        · simp only at g2
          rw [k'] at g2
          injection g2 with g2
          have htop' := (hL.top _ (List.mem_of_getElem? k) _ rfl).1
          simp only at htop'
          have hm : (virt Γ load s).mono.toNat = s.core.mono.toNat := rfl
          have : did'.toNat = Γ.last.toNat + s.order.length := by rw [htop']; exact toNat_ofNat hlt
          omega
  · have hp' : ∀ c ∈ s.callers, c.pending = none := by
      intro c hc
      obtain ⟨i, hi⟩ := List.getElem?_of_mem hc
      obtain ⟨p, l⟩ := c
      cases p with
      | none => rfl
      | some x => exact absurd ⟨i, x.1, x.2, l, hi⟩ hp
    by_cases hnum : ∃ (i : Nat) (e : E) (es : List E), s.callers[i]? = some ⟨none, e :: es⟩
    · obtain ⟨i, e, es, hi⟩ := hnum
      exact ⟨_, .number hi fun _ => hp'⟩
    · refine ⟨_, .inner (.startShut hcl) (.inr fun c hc => ⟨hp' c hc, ?_⟩)⟩
      obtain ⟨i, hi⟩ := List.getElem?_of_mem hc
      have := hp' c hc
      obtain ⟨p, l⟩ := c
      simp only at this
      subst this
      cases l with
      | nil => rfl
      | cons e es => exact absurd ⟨i, e, es, hi⟩ hnum

theorem MInv.noCrash {h0 : 0 < Γ.P.nw} {nc : Nat} {s : MSt W S D E α} (h : MInv Γ load h0 nc s) (hs : Γ.Serves)
    (ho : s.core.client ≠ .add [] → s.order.length = Γ.docs.length) : ¬ Crashes Γ.P s.core := by
  rcases h.inv with ⟨hcl, hv⟩ | ⟨hcl, hf, hv⟩
  case inr => exact (hv (ho (hcl []))).noCrash hs
  intro hc
  cases hc with
  | compute hw hx he =>
    rename_i w did d e
    have hb : Γ.Iw (s.core.workers w).1 := by
      rw [← virt_lt Γ load s hw]; exact hv.bw w (Nat.lt_of_lt_of_le hw (Nat.le_add_right _ _))
    obtain ⟨b, g, _⟩ := Γ.hcompute _ did d hb
    rw [g] at he; cases he
  | serve hj hb he =>
    obtain ⟨x, hx⟩ := hv.serves (show (Γ.big nc h0).Serves from hs) hj hb
    rw [show (virt Γ load s).servers = s.core.servers from rfl] at hx
    rw [show (Γ.big nc h0).P.serve = Γ.P.serve from rfl, he] at hx; cases hx
  | send _ _ _ _ k => rw [hcl] at k; exact k
  | ack _ _ k => rw [hcl] at k; exact k

theorem MInv.log {h0 : 0 < Γ.P.nw} {nc : Nat} {s : MSt W S D E α} (h : MInv Γ load h0 nc s)
    (ho : s.core.client ≠ .add [] → s.order.length = Γ.docs.length) {j : Nat} (hj : j < Γ.P.n) :
    ∃ m, (s.core.servers j).log = Γ.batches m j ∧ m ≤ Γ.base + Γ.docs.length := by
  rcases h.inv with ⟨hcl, hv⟩ | ⟨hcl, hf, hv⟩
  case inr => exact (hv (ho (hcl []))).log hj
  exact hv.log hj

end

/-! ### Every session comes to an end -/

/-- how much a caller has to do -/
def callerW (K : Nat) (c : Caller E) : Nat := (match c.pending with | some _ => K + 1 | none => 0) + c.todo.length * (K + 2)

def mmeasure (P : Params W S D α) (s : MSt W S D E α) : Nat :=
  measure P s.core + (s.callers.map (callerW (4 * P.n + 2 * P.nw + 7))).sum

theorem sum_set {l : List (Caller E)} {i : Nat} {c c' : Caller E} (f : Caller E → Nat) (h : l[i]? = some c) :
    ((l.set i c').map f).sum + f c = (l.map f).sum + f c' := by
  induction l generalizing i with
  | nil => cases h
  | cons a l ih =>
    cases i with
    | zero => injection h with h; subst h; simp only [List.set_cons_zero, List.map_cons, List.sum_cons]; omega
    | succ i =>
      simp only [List.getElem?_cons_succ] at h
      have := ih h
      simp only [List.set_cons_succ, List.map_cons, List.sum_cons]; omega

theorem MStep.decreases {P : Params W S D α} {load : E → D} {last : UInt32} {locked : Bool} {s t : MSt W S D E α}
    (h : MStep P load last locked s t) : mmeasure P t < mmeasure P s := by
  cases h with
  | number g1 _ =>
    rename_i i e es _
    simp only [mmeasure]
    generalize 4 * P.n + 2 * P.nw + 7 = K
    have := sum_set (callerW K) g1 (c' := ⟨some (nextId last s.order, e), es⟩)
    simp only [callerW, List.length_cons, Nat.succ_mul] at this
    omega
  | give g1 hw g2 =>
    rename_i i did e es w
    have h1 := sum_set (callerW (4 * P.n + 2 * P.nw + 7)) g1 (c' := ⟨none, es⟩)
    have h2 := sumN_change (f := fun i => workW P.nw P.n (upd s.core.workers w ((s.core.workers w).1, .computing did (load e)) i).2)
      (g := fun i => workW P.nw P.n (s.core.workers i).2) hw (fun j _ hj => by simp [upd_ne _ _ hj])
    simp only [upd_same, g2, workW] at h2
    simp only [callerW] at h1
    simp only [mmeasure, measure, St.setW, workW] at h1 h2 ⊢
    omega
  | inner g1 _ =>
    have := g1.decreases
    simp only [mmeasure]; omega

theorem MSteps.bound {P : Params W S D α} {load : E → D} {last : UInt32} {locked : Bool} {k : Nat} {s t : MSt W S D E α}
    (h : MSteps P load last locked s k t) : k + mmeasure P t ≤ mmeasure P s := by
  induction h with
  | refl => simp
  | step _ h2 ih => have := h2.decreases; omega

/-! ## Two callers are enough for a deadlock -/

section
variable {P : Params W S D α} {load : E → D} {last : UInt32} {s0 : MSt W S D E α}

theorem MSteps.snoc {locked : Bool} {t t' : MSt W S D E α} (h : ∃ k, MSteps P load last locked s0 k t)
    (g : MStep P load last locked t t') : ∃ k, MSteps P load last locked s0 k t' :=
  let ⟨k, h⟩ := h; ⟨k + 1, h.step g⟩

/-- caller 0 has an id and does not hand its document over; caller 1 has put `w` shatterers to sleep -/
structure Overtaken (P : Params W S D α) (last : UInt32) (a : E) (as bs : List E) (w : Nat) (t : MSt W S D E α) : Prop where
  callers : t.callers = [⟨some (nextId last ([] : List E), a), as⟩, ⟨none, bs.drop w⟩]
  order : t.order.length = w + 1
  client : t.core.client = .add []
  mono : t.core.mono = last
  holder : t.core.holder = none
  asleep : ∀ i, i < w → ∃ did out, (t.core.workers i).2 = .waiting did out
  idle : ∀ i, w ≤ i → (t.core.workers i).2 = .idle

theorem nextId_sub (hl : last.toNat + k + 1 < 2 ^ 32) {o : List E} (ho : o.length = k) (hk : 0 < k) : last ≠ nextId last o - 1 := by
  intro h
  have := congrArg UInt32.toNat h
  simp only [nextId, UInt32.toNat_sub, UInt32.toNat_ofNat', UInt32.toNat_one, ho] at this
  omega

theorem nextId_nil : last = nextId last ([] : List E) - 1 := by
  apply UInt32.toNat_inj.mp
  have := last.toNat_lt
  simp only [nextId, UInt32.toNat_sub, UInt32.toNat_ofNat', UInt32.toNat_one, List.length_nil]
  omega

theorem Overtaken.next {a : E} {as bs : List E} {w : Nat} {t : MSt W S D E α} (hw : w < P.nw) (hb : w < bs.length)
    (hl : last.toNat + w + 2 < 2 ^ 32) (hn : ∀ k t, MSteps P load last false s0 k t → ¬ Crashes P t.core)
    (h : Overtaken P last a as bs w t) (ht : ∃ k, MSteps P load last false s0 k t) :
    ∃ t', Overtaken P last a as bs (w + 1) t' ∧ ∃ k, MSteps P load last false s0 k t' := by
  have hd : bs.drop w = bs[w] :: bs.drop (w + 1) := List.drop_eq_getElem_cons hb
  have h1 := MSteps.snoc ht (MStep.number (i := 1) (e := bs[w]) (es := bs.drop (w + 1)) (by rw [h.callers, hd]; rfl) nofun)
  have hidle := h.idle w (Nat.le_refl _)
  have h2 := MSteps.snoc h1 (MStep.give (i := 1) (did := nextId last t.order) (e := bs[w]) (es := bs.drop (w + 1)) (w := w)
    (by simp only [h.callers]; rfl) hw hidle)
  obtain ⟨k, h2'⟩ := h2
  have hcr := hn _ _ h2'
  have h2 : ∃ k, MSteps P load last false s0 k _ := ⟨k, h2'⟩
  cases hc : P.compute (t.core.workers w).1 (nextId last t.order) (load bs[w]) with
  | error e =>
    exact absurd (.compute (w := w) hw (by simp [St.setW, upd]; exact ⟨rfl, rfl⟩) (by simp [St.setW, upd]; exact hc)) hcr
  | ok q =>
    obtain ⟨b, out⟩ := q
    have h3 := MSteps.snoc h2 (MStep.inner (Step.compute (w := w) (did := nextId last t.order) (d := load bs[w]) (b := b) (out := out) hw
      (by simp [St.setW, upd]) (by simp [St.setW, upd]; exact hc)) (.inl rfl))
    have h4 := MSteps.snoc h3 (MStep.inner (Step.lock (w := w) (did := nextId last t.order) (out := out) hw
      (by simp [upd]) (by simp [St.setW]; exact h.holder)) (.inl rfl))
    have h5 := MSteps.snoc h4 (MStep.inner (Step.wait (w := w) (did := nextId last t.order) (out := out) hw
      (by simp [St.setW, upd]) (by
        simp only [St.setW]
        rw [h.mono]; exact nextId_sub (k := w + 1) (by omega) h.order (by omega))) (.inl rfl))
    refine ⟨_, ⟨?_, ?_, ?_, ?_, ?_, ?_, ?_⟩, h5⟩
    · simp only [h.callers, List.set_cons_succ, List.set_cons_zero]
    · simp only [List.length_append, h.order, List.length_singleton]
    · simp only [St.setW, h.client]
    · simp only [St.setW, h.mono]
    · rfl
    · intro i hi
      by_cases e : i = w
      · subst e; exact ⟨nextId last t.order, out, by simp [St.setW, upd]⟩
      · obtain ⟨did, out', g⟩ := h.asleep i (by omega)
        exact ⟨did, out', by simp [St.setW, upd, e]; exact g⟩
    · intro i hi
      have e : i ≠ w := by omega
      simp [St.setW, upd, e]; exact h.idle i (by omega)

theorem deadlock {b0 : Nat → W} {s0 : Nat → S} {a : E} {as bs : List E} (hb : P.nw ≤ bs.length) (hl : last.toNat + P.nw + 1 < 2 ^ 32)
    (hn : ∀ k t, MSteps P load last false (MSt.init b0 s0 last [a :: as, bs]) k t → ¬ Crashes P t.core) :
    ∃ k t, MSteps P load last false (MSt.init b0 s0 last [a :: as, bs]) k t ∧ Deadlocked P t := by
  have key : ∀ w, w ≤ P.nw → ∃ t, Overtaken P last a as bs w t ∧ ∃ k, MSteps P load last false (MSt.init b0 s0 last [a :: as, bs]) k t := by
    intro w
    induction w with
    | zero =>
      intro _
      refine ⟨_, ⟨?_, ?_, ?_, ?_, ?_, ?_, ?_⟩, 1, MSteps.refl.step (MStep.number (i := 0) (e := a) (es := as) rfl nofun)⟩
      · rfl
      · rfl
      · rfl
      · rfl
      · rfl
      · intro i hi; omega
      · intro i _; rfl
    | succ w ih =>
      intro hw
      obtain ⟨t, g1, g2⟩ := ih (by omega)
      exact g1.next (by omega) (by omega) (by omega) hn g2
  obtain ⟨t, g, ht⟩ := key P.nw (Nat.le_refl _)
  cases hd : bs.drop P.nw with
  | nil =>
    obtain ⟨k, ht⟩ := ht
    refine ⟨k, t, ht, g.asleep, ⟨_, by rw [g.callers]; exact List.mem_cons_self, _, _, rfl, g.mono.trans nextId_nil⟩, ?_⟩
    rw [g.callers, hd]
    intro q hq hp
    simp only [List.mem_cons, List.not_mem_nil, or_false] at hq
    rcases hq with rfl | rfl
    · cases hp
    · rfl
  | cons b bs' =>
    obtain ⟨k, ht⟩ := MSteps.snoc ht (MStep.number (i := 1) (e := b) (es := bs') (by rw [g.callers, hd]; rfl) nofun)
    refine ⟨k, _, ht, g.asleep, ⟨_, by simp only [g.callers, List.set_cons_succ]; exact List.mem_cons_self, _, _, rfl, g.mono.trans nextId_nil⟩, ?_⟩
    simp only [g.callers, List.set_cons_succ, List.set_cons_zero]
    intro q hq hp
    simp only [List.mem_cons, List.not_mem_nil, or_false] at hq
    rcases hq with rfl | rfl
    · cases hp
    · cases hp

end

end Dupi.Sched
