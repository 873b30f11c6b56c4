import Verif.Proof.Sched
/-! # The goroutine system does not look at the documents

Replacing the documents by others for which the shatterers compute the same gives the same steps. -/

namespace Dupi.Sched

variable {W S D D' α : Type}

def WSt.map (f : UInt32 → D → D') : WSt D α → WSt D' α
  | .idle => .idle
  | .computing did d => .computing did (f did d)
  | .locking did out => .locking did out
  | .checking did out => .checking did out
  | .waiting did out => .waiting did out
  | .woken did out => .woken did out
  | .sending did ss => .sending did ss
  | .publish did => .publish did
  | .broadcasting => .broadcasting
  | .unlocking => .unlocking
  | .exited => .exited

def reqMap (f : UInt32 → D → D') (r : UInt32 × D) : UInt32 × D' := (r.1, f r.1 r.2)

def Client.map (f : UInt32 → D → D') : Client D → Client D'
  | .add ds => .add (ds.map (reqMap f))
  | .shut k => .shut k
  | .close j => .close j
  | .done => .done

def St.map (f : UInt32 → D → D') (s : St W S D α) : St W S D' α where
  workers := fun w => ((s.workers w).1, (s.workers w).2.map f)
  servers := s.servers
  holder := s.holder
  mono := s.mono
  client := s.client.map f

theorem upd_map (f : UInt32 → D → D') (g : Nat → W × WSt D α) (w : Nat) (b : W) (v : WSt D α) :
    (fun i => ((upd g w (b, v) i).1, (upd g w (b, v) i).2.map f)) = upd (fun i => ((g i).1, (g i).2.map f)) w (b, v.map f) := by
  funext i
  by_cases h : i = w
  · subst h; simp [upd]
  · simp [upd, h]

theorem map_setW (f : UInt32 → D → D') (s : St W S D α) (w : Nat) (v : WSt D α) : (s.setW w v).map f = (s.map f).setW w (v.map f) := by
  simp only [St.setW, St.map, upd_map]

theorem map_setS (f : UInt32 → D → D') (s : St W S D α) (j : Nat) (v : SSt α) : (s.setS j v).map f = (s.map f).setS j v := rfl

theorem closed_map (f : UInt32 → D → D') (c : Client D) (j : Nat) : (c.map f).closed j ↔ c.closed j := by
  cases c <;> exact Iff.rfl

theorem wake_map (f : UInt32 → D → D') (v : WSt D α) : (wake v).map f = wake (v.map f) := by
  cases v <;> rfl

theorem map_init (f : UInt32 → D → D') (b0 : Nat → W) (s0 : Nat → S) (last : UInt32) (docs : List (UInt32 × D)) :
    (init (α := α) b0 s0 last docs).map f = init b0 s0 last (docs.map (reqMap f)) := rfl

/-- two systems that differ in the documents only -/
structure Alike (P : Params W S D α) (P' : Params W S D' α) : Prop where
  nw : P'.nw = P.nw
  n : P'.n = P.n
  serve : P'.serve = P.serve

/-- what the shatterers compute on the documents in hand does not change -/
def Same (P : Params W S D α) (P' : Params W S D' α) (f : UInt32 → D → D') (s : St W S D α) : Prop :=
  ∀ w did d, w < P.nw → (s.workers w).2 = .computing did d →
    P'.compute (s.workers w).1 did (f did d) = P.compute (s.workers w).1 did d

/-- the same, for the shatterers that compute in a step -/
def SameIn (P : Params W S D α) (P' : Params W S D' α) (f : UInt32 → D → D') (s t : St W S D α) : Prop :=
  ∀ w did d, w < P.nw → (s.workers w).2 = .computing did d → (t.workers w).2 ≠ .computing did d →
    P'.compute (s.workers w).1 did (f did d) = P.compute (s.workers w).1 did d

theorem Same.same {P : Params W S D α} {P' : Params W S D' α} {f : UInt32 → D → D'} {s : St W S D α} (h : Same P P' f s) (t : St W S D α) :
    SameIn P P' f s t := fun w did d hw hc _ => h w did d hw hc

theorem Step.map {P : Params W S D α} {P' : Params W S D' α} (f : UInt32 → D → D') (hA : Alike P P') {s t : St W S D α}
    (hs : SameIn P P' f s t) (h : Step P s t) : Step P' (s.map f) (t.map f) := by
  obtain ⟨hnw, hn, hserve⟩ := hA
  cases h with
  | @give did d ds w h1 h2 h3 =>
    have := Step.give (P := P') (s := s.map f) (did := did) (d := f did d) (ds := ds.map (reqMap f)) (w := w)
      (by simp [St.map, h1, Client.map, reqMap]) (hnw ▸ h2) (by simp [St.map, h3, WSt.map])
    simp only [St.setW, St.map, upd_map] at this ⊢
    exact this
  | startShut h1 =>
    have := Step.startShut (P := P') (s := s.map f) (by simp [St.map, h1, Client.map])
    simp only [St.map, hnw] at this ⊢
    exact this
  | @shut k w h1 h2 h3 =>
    have := Step.shut (P := P') (s := s.map f) (k := k) (w := w) (by simp [St.map, h1, Client.map]) (hnw ▸ h2) (by simp [St.map, h3, WSt.map])
    simp only [St.setW, St.map, upd_map] at this ⊢
    exact this
  | startClose h1 => exact Step.startClose (P := P') (s := s.map f) (by simp [St.map, h1, Client.map])
  | @close j h1 h2 => exact Step.close (P := P') (s := s.map f) (j := j) (by simp [St.map, h1, Client.map]) (hn ▸ h2)
  | closeDone h1 => exact Step.closeDone (P := P') (s := s.map f) (by simp [St.map, h1, Client.map, hn])
  | @compute w did d b out h1 h2 h3 =>
    have := Step.compute (P := P') (s := s.map f) (w := w) (did := did) (d := f did d) (b := b) (out := out) (hnw ▸ h1)
      (by simp [St.map, h2, WSt.map]) (by rw [← h3]; exact hs w did d h1 h2 (by simp only [upd_same]; exact nofun))
    simp only [St.map, upd_map] at this ⊢
    exact this
  | @lock w did out h1 h2 h3 =>
    have := Step.lock (P := P') (s := s.map f) (w := w) (did := did) (out := out) (hnw ▸ h1) (by simp [St.map, h2, WSt.map]) h3
    simp only [St.setW, St.map, upd_map] at this ⊢
    exact this
  | @pass w did out h1 h2 h3 =>
    have := Step.pass (P := P') (s := s.map f) (w := w) (did := did) (out := out) (hnw ▸ h1) (by simp [St.map, h2, WSt.map]) h3
    simp only [St.setW, St.map, upd_map] at this ⊢
    exact this
  | @wait w did out h1 h2 h3 =>
    have := Step.wait (P := P') (s := s.map f) (w := w) (did := did) (out := out) (hnw ▸ h1) (by simp [St.map, h2, WSt.map]) h3
    simp only [St.setW, St.map, upd_map] at this ⊢
    exact this
  | @relock w did out h1 h2 h3 =>
    have := Step.relock (P := P') (s := s.map f) (w := w) (did := did) (out := out) (hnw ▸ h1) (by simp [St.map, h2, WSt.map]) h3
    simp only [St.setW, St.map, upd_map] at this ⊢
    exact this
  | @post w j did ss ps h1 h2 h3 h4 h5 =>
    have := Step.post (P := P') (s := s.map f) (w := w) (j := j) (did := did) (ss := ss) (ps := ps) (hnw ▸ h1) (hn ▸ h2)
      (by simp [St.map, h3, WSt.map]) h4 h5
    simp only [St.setW, St.map, upd_map] at this ⊢
    exact this
  | @cross w w' j did did' ss ss' ps h1 h2 h3 h4 h5 h6 h7 h8 =>
    rw [map_setW, map_setW]
    exact Step.cross (P := P') (s := s.map f) (ps := ps) (hnw ▸ h1) (hnw ▸ h2) h3 (hn ▸ h4) (by simp [St.map, h5, WSt.map]) h6
      (by simp [St.map, h7, WSt.map]) h8
  | @serve j ps x h1 h2 h3 =>
    exact Step.serve (P := P') (s := s.map f) (hn ▸ h1) h2 (by rw [hserve]; exact h3)
  | @ack w j did ss h1 h2 h3 h4 h5 =>
    rw [map_setS, map_setW]
    exact Step.ack (P := P') (s := s.map f) (hnw ▸ h1) (hn ▸ h2) (by simp [St.map, h3, WSt.map]) h4 h5
  | @ackClosed w j did ss h1 h2 h3 h4 h5 =>
    rw [map_setW]
    exact Step.ackClosed (P := P') (s := s.map f) (hnw ▸ h1) (hn ▸ h2) (by simp [St.map, h3, WSt.map]) h4 ((closed_map f _ _).mpr h5)
  | @sent w did ss h1 h2 h3 =>
    rw [map_setW]
    exact Step.sent (P := P') (s := s.map f) (hnw ▸ h1) (by simp [St.map, h2, WSt.map]) (hn ▸ h3)
  | @publish w did h1 h2 =>
    have := Step.publish (P := P') (s := s.map f) (w := w) (did := did) (hnw ▸ h1) (by simp [St.map, h2, WSt.map])
    simp only [St.setW, St.map, upd_map] at this ⊢
    exact this
  | @broadcast w h1 h2 =>
    have := Step.broadcast (P := P') (s := s.map f) (w := w) (hnw ▸ h1) (by simp [St.map, h2, WSt.map])
    simp only [St.map, upd_map, wake_map] at this ⊢
    exact this
  | @unlock w h1 h2 =>
    have := Step.unlock (P := P') (s := s.map f) (w := w) (hnw ▸ h1) (by simp [St.map, h2, WSt.map])
    simp only [St.setW, St.map, upd_map] at this ⊢
    exact this
  | @exit j h1 h2 h3 =>
    exact Step.exit (P := P') (s := s.map f) (hn ▸ h1) h2 ((closed_map f _ _).mpr h3)

section
variable {f : UInt32 → D → D'} {v : WSt D α} {c : Client D}

theorem map_idle (h : v.map f = .idle) : v = .idle := by cases v <;> first | rfl | cases h
theorem map_computing {did : UInt32} {d : D'} (h : v.map f = .computing did d) : ∃ e, v = .computing did e ∧ f did e = d := by
  cases v <;> first | (injection h with h1 h2; subst h1 h2; exact ⟨_, rfl, rfl⟩) | cases h
theorem map_locking {did : UInt32} {o : Nat → List α} (h : v.map f = .locking did o) : v = .locking did o := by
  cases v <;> first | (injection h with h1 h2; subst h1 h2; rfl) | cases h
theorem map_checking {did : UInt32} {o : Nat → List α} (h : v.map f = .checking did o) : v = .checking did o := by
  cases v <;> first | (injection h with h1 h2; subst h1 h2; rfl) | cases h
theorem map_woken {did : UInt32} {o : Nat → List α} (h : v.map f = .woken did o) : v = .woken did o := by
  cases v <;> first | (injection h with h1 h2; subst h1 h2; rfl) | cases h
theorem map_sending {did : UInt32} {o : Nat → Sender α} (h : v.map f = .sending did o) : v = .sending did o := by
  cases v <;> first | (injection h with h1 h2; subst h1 h2; rfl) | cases h
theorem map_publish {did : UInt32} (h : v.map f = .publish did) : v = .publish did := by
  cases v <;> first | (injection h with h1; subst h1; rfl) | cases h
theorem map_broadcasting (h : v.map f = .broadcasting) : v = .broadcasting := by cases v <;> first | rfl | cases h
theorem map_unlocking (h : v.map f = .unlocking) : v = .unlocking := by cases v <;> first | rfl | cases h
theorem map_add {r : List (UInt32 × D')} (h : c.map f = .add r) : ∃ l, c = .add l ∧ l.map (reqMap f) = r := by
  cases c <;> first | (injection h with h1; exact ⟨_, rfl, h1⟩) | cases h
theorem map_shut {k : Nat} (h : c.map f = .shut k) : c = .shut k := by
  cases c <;> first | (injection h with h1; subst h1; rfl) | cases h
theorem map_close {k : Nat} (h : c.map f = .close k) : c = .close k := by
  cases c <;> first | (injection h with h1; subst h1; rfl) | cases h

end

theorem Step.unmap {P : Params W S D α} {P' : Params W S D' α} (f : UInt32 → D → D') (hA : Alike P P') {s : St W S D α}
    (hs : Same P P' f s) {t' : St W S D' α} (h : Step P' (s.map f) t') : ∃ t, Step P s t ∧ t.map f = t' := by
  obtain ⟨hnw, hn, hserve⟩ := hA
  cases h with
  | @give did d ds w h1 h2 h3 =>
    obtain ⟨l, e1, e2⟩ := map_add h1
    cases l with
    | nil => cases e2
    | cons r l =>
      obtain ⟨did', d'⟩ := r
      simp only [List.map_cons, List.cons.injEq, reqMap, Prod.mk.injEq] at e2
      obtain ⟨⟨e3, e4⟩, e5⟩ := e2
      subst e3 e4 e5
      refine ⟨_, .give e1 (hnw ▸ h2) (map_idle h3), ?_⟩
      simp only [St.setW, St.map, upd_map]; rfl
  | startShut h1 =>
    obtain ⟨l, e1, e2⟩ := map_add h1
    have : l = [] := List.map_eq_nil_iff.mp e2
    subst this
    refine ⟨_, .startShut e1, ?_⟩
    simp only [St.map, Client.map, hnw]
  | shut h1 h2 h3 =>
    refine ⟨_, .shut (map_shut h1) (hnw ▸ h2) (map_idle h3), ?_⟩
    simp only [St.setW, St.map, upd_map]; rfl
  | startClose h1 => exact ⟨_, .startClose (map_shut h1), rfl⟩
  | close h1 h2 => exact ⟨_, .close (map_close h1) (hn ▸ h2), rfl⟩
  | closeDone h1 => exact ⟨_, .closeDone (hn ▸ map_close h1), rfl⟩
  | compute h1 h2 h3 =>
    obtain ⟨e, e1, e2⟩ := map_computing h2
    subst e2
    refine ⟨_, .compute (hnw ▸ h1) e1 (by rw [← h3]; exact (hs _ _ _ (hnw ▸ h1) e1).symm), ?_⟩
    simp only [St.map, upd_map]; rfl
  | lock h1 h2 h3 =>
    refine ⟨_, .lock (hnw ▸ h1) (map_locking h2) h3, ?_⟩
    simp only [St.setW, St.map, upd_map]; rfl
  | pass h1 h2 h3 =>
    refine ⟨_, .pass (hnw ▸ h1) (map_checking h2) h3, ?_⟩
    simp only [St.setW, St.map, upd_map]; rfl
  | wait h1 h2 h3 =>
    refine ⟨_, .wait (hnw ▸ h1) (map_checking h2) h3, ?_⟩
    simp only [St.setW, St.map, upd_map]; rfl
  | relock h1 h2 h3 =>
    refine ⟨_, .relock (hnw ▸ h1) (map_woken h2) h3, ?_⟩
    simp only [St.setW, St.map, upd_map]; rfl
  | post h1 h2 h3 h4 h5 =>
    refine ⟨_, .post (hnw ▸ h1) (hn ▸ h2) (map_sending h3) h4 h5, ?_⟩
    simp only [St.setW, St.map, upd_map]; rfl
  | cross h1 h2 h3 h4 h5 h6 h7 h8 =>
    refine ⟨_, .cross (hnw ▸ h1) (hnw ▸ h2) h3 (hn ▸ h4) (map_sending h5) h6 (map_sending h7) h8, ?_⟩
    rw [map_setW, map_setW]; rfl
  | serve h1 h2 h3 => exact ⟨_, .serve (hn ▸ h1) h2 (by rw [← hserve]; exact h3), rfl⟩
  | ack h1 h2 h3 h4 h5 =>
    refine ⟨_, .ack (hnw ▸ h1) (hn ▸ h2) (map_sending h3) h4 h5, ?_⟩
    rw [map_setS, map_setW]; rfl
  | ackClosed h1 h2 h3 h4 h5 =>
    refine ⟨_, .ackClosed (hnw ▸ h1) (hn ▸ h2) (map_sending h3) h4 ((closed_map f _ _).mp h5), ?_⟩
    rw [map_setW]; rfl
  | sent h1 h2 h3 =>
    refine ⟨_, .sent (hnw ▸ h1) (map_sending h2) (hn ▸ h3), ?_⟩
    rw [map_setW]; rfl
  | publish h1 h2 =>
    refine ⟨_, .publish (hnw ▸ h1) (map_publish h2), ?_⟩
    simp only [St.setW, St.map, upd_map]; rfl
  | broadcast h1 h2 =>
    refine ⟨_, .broadcast (hnw ▸ h1) (map_broadcasting h2), ?_⟩
    simp only [St.map, upd_map, wake_map]; rfl
  | unlock h1 h2 =>
    refine ⟨_, .unlock (hnw ▸ h1) (map_unlocking h2), ?_⟩
    simp only [St.setW, St.map, upd_map]; rfl
  | exit h1 h2 h3 => exact ⟨_, .exit (hn ▸ h1) h2 ((closed_map f _ _).mp h3), rfl⟩

end Dupi.Sched
