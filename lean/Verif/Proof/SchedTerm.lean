import Verif.Model.Sched
/-! # Every schedule is finite -/

namespace Dupi.Sched

/-- `f 0 + ... + f (n-1)` -/
def sumN (n : Nat) (f : Nat → Nat) : Nat := ((List.range n).map f).sum

theorem sumN_succ (n : Nat) (f : Nat → Nat) : sumN (n + 1) f = sumN n f + f n := by
  simp [sumN, List.range_succ]

theorem sumN_congr {n : Nat} {f g : Nat → Nat} (h : ∀ j, j < n → f j = g j) : sumN n f = sumN n g := by
  induction n with
  | zero => rfl
  | succ n ih => rw [sumN_succ, sumN_succ, ih (fun j hj => h j (by omega)), h n (by omega)]

theorem sumN_change {n i : Nat} {f g : Nat → Nat} (hi : i < n) (h : ∀ j, j < n → j ≠ i → f j = g j) :
    sumN n f + g i = sumN n g + f i := by
  induction n with
  | zero => omega
  | succ n ih =>
    rw [sumN_succ, sumN_succ]
    by_cases e : i = n
    · subst e
      rw [sumN_congr (f := f) (g := g) (fun j hj => h j (by omega) (by omega))]; omega
    · have := ih (by omega) (fun j hj => h j (by omega))
      rw [h n (by omega) (by omega)]; omega

theorem sumN_le {n c : Nat} {f g : Nat → Nat} (h : ∀ j, j < n → f j ≤ g j + c) : sumN n f ≤ sumN n g + c * n := by
  induction n with
  | zero => simp [sumN]
  | succ n ih =>
    have h1 := ih (fun j hj => h j (by omega))
    have h2 := h n (by omega)
    rw [sumN_succ, sumN_succ, Nat.mul_succ]; omega

theorem sumN_const (n c : Nat) : sumN n (fun _ => c) = c * n := by
  induction n with
  | zero => rfl
  | succ n ih => rw [sumN_succ, ih, Nat.mul_succ]

theorem upd_same {α : Type} (f : Nat → α) (i : Nat) (v : α) : upd f i v i = v := by simp [upd]

theorem upd_ne {α : Type} (f : Nat → α) {i j : Nat} (v : α) (h : j ≠ i) : upd f i v j = f j := by simp [upd, h]

variable {W S D α : Type}

def sendW : Sender α → Nat
  | .toSend _ => 4
  | .await => 1
  | .done => 0

def workW (nw n : Nat) : WSt D α → Nat
  | .idle => 0
  | .computing .. => 4 * n + 2 * nw + 7
  | .locking .. => 4 * n + 2 * nw + 6
  | .checking .. => 4 * n + 2 * nw + 5
  | .waiting .. => 4 * n + 2 * nw + 4
  | .woken .. => 4 * n + 2 * nw + 6
  | .sending _ ss => sumN n (fun j => sendW (ss j)) + 2 * nw + 4
  | .publish _ => 2 * nw + 3
  | .broadcasting => 2 * nw + 2
  | .unlocking => 1
  | .exited => 0

def servW : SSt α → Nat
  | .idle => 1
  | .busy _ => 3
  | .acking => 2
  | .exited => 0

def clientW (nw n : Nat) : Client D → Nat
  | .add ds => ds.length * (4 * n + 2 * nw + 8) + nw + n + 3
  | .shut k => k + n + 2
  | .close j => n - j + 1
  | .done => 0

/-- the number of steps that can still be taken is at most this -/
def measure (P : Params W S D α) (s : St W S D α) : Nat :=
  clientW P.nw P.n s.client + sumN P.nw (fun w => workW P.nw P.n (s.workers w).2) + sumN P.n (fun j => servW (s.servers j).st)

private theorem mW (P : Params W S D α) (s : Nat → W × WSt D α) {w : Nat} (hw : w < P.nw) (b : W) (v : WSt D α) :
    sumN P.nw (fun i => workW P.nw P.n (upd s w (b, v) i).2) + workW P.nw P.n (s w).2 =
      sumN P.nw (fun i => workW P.nw P.n (s i).2) + workW P.nw P.n v := by
  have := sumN_change (f := fun i => workW P.nw P.n (upd s w (b, v) i).2) (g := fun i => workW P.nw P.n (s i).2) hw
    (fun j _ hj => by simp [upd_ne _ _ hj])
  simpa [upd_same] using this

private theorem mW1 (P : Params W S D α) (s : Nat → W × WSt D α) {w : Nat} (hw : w < P.nw) (v : WSt D α) :
    sumN P.nw (fun i => workW P.nw P.n (upd s w ((s w).1, v) i).2) + workW P.nw P.n (s w).2 =
      sumN P.nw (fun i => workW P.nw P.n (s i).2) + workW P.nw P.n v := mW P s hw _ v

private theorem mS (P : Params W S D α) (s : Nat → Server S α) {j : Nat} (hj : j < P.n) (v : Server S α) :
    sumN P.n (fun i => servW (upd s j v i).st) + servW (s j).st = sumN P.n (fun i => servW (s i).st) + servW v.st := by
  have := sumN_change (f := fun i => servW (upd s j v i).st) (g := fun i => servW (s i).st) hj
    (fun k _ hk => by simp [upd_ne _ _ hk])
  simpa [upd_same] using this

private theorem mSend (P : Params W S D α) (ss : Nat → Sender α) {j : Nat} (hj : j < P.n) (v : Sender α) :
    sumN P.n (fun i => sendW (upd ss j v i)) + sendW (ss j) = sumN P.n (fun i => sendW (ss i)) + sendW v := by
  have := sumN_change (f := fun i => sendW (upd ss j v i)) (g := fun i => sendW (ss i)) hj
    (fun k _ hk => by simp [upd_ne _ _ hk])
  simpa [upd_same] using this

theorem Step.decreases {P : Params W S D α} {s t : St W S D α} (h : Step P s t) : measure P t < measure P s := by
  cases h with
  | give h1 h2 h3 => 
    rename_i did d ds w
    have := mW1 P s.workers h2 (.computing did d)
    simp only [measure, St.setW, h1, clientW, h3, workW, List.length_cons, Nat.succ_mul] at this ⊢; omega
  | startShut h1 => simp only [measure, h1, clientW]; omega
  | shut h1 h2 h3 =>
    have := mW1 P s.workers h2 .exited
    simp only [measure, St.setW, h1, clientW, h3, workW] at this ⊢; omega
  | startClose h1 => simp only [measure, h1, clientW]; omega
  | close h1 h2 => simp only [measure, h1, clientW]; omega
  | closeDone h1 => simp only [measure, h1, clientW]; omega
  | compute h1 h2 h3 =>
    have := mW P s.workers h1 ‹_› (.locking ‹_› ‹_›)
    simp only [measure, h2, workW] at this ⊢; omega
  | lock h1 h2 h3 =>
    have := mW1 P s.workers h1 (.checking ‹_› ‹_›)
    simp only [measure, St.setW, h2, workW] at this ⊢; omega
  | pass h1 h2 h3 =>
    rename_i w did out
    have := mW1 P s.workers h1 (.sending did fun i => .toSend (out i))
    simp only [measure, St.setW, h2, workW, sendW, sumN_const] at this ⊢; omega
  | wait h1 h2 h3 =>
    have := mW1 P s.workers h1 (.waiting ‹_› ‹_›)
    simp only [measure, St.setW, h2, workW] at this ⊢; omega
  | relock h1 h2 h3 =>
    have := mW1 P s.workers h1 (.checking ‹_› ‹_›)
    simp only [measure, St.setW, h2, workW] at this ⊢; omega
  | post h1 h2 h3 h4 h5 =>
    rename_i w j did ss ps
    have a := mW1 P s.workers h1 (.sending did (upd ss j .await))
    have b := mS P s.servers h2 { s.servers j with st := .busy ps, log := (s.servers j).log ++ [ps] }
    have c := mSend P ss h2 .await
    simp only [measure, St.setW, h3, h4, h5, workW, sendW, servW] at a b c ⊢; omega
  | cross h1 h2 h3 h4 h5 h6 h7 h8 =>
    rename_i w w' j did did' ss ss' ps
    have a := mW1 P s.workers h1 (.sending did (upd ss j .await))
    have b := mW P (s.setW w (.sending did (upd ss j .await))).workers h2 ((s.setW w (.sending did (upd ss j .await))).workers w').1 (.sending did' (upd ss' j .done))
    have e : ((s.setW w (.sending did (upd ss j .await))).workers w').2 = .sending did' ss' := by
      simp only [St.setW, upd_ne _ _ h3.symm, h7]
    have c := mSend P ss h4 .await
    have d := mSend P ss' h4 .done
    rw [e] at b
    simp only [measure, St.setW, h5, h6, h8, workW, sendW] at a b c d ⊢; omega
  | serve h1 h2 h3 =>
    rename_i j ps x
    have b := mS P s.servers h1 { s.servers j with st := .acking, shard := x }
    simp only [measure, h2, servW] at b ⊢; omega
  | ack h1 h2 h3 h4 h5 =>
    rename_i w j did ss
    have a := mW1 P s.workers h1 (.sending did (upd ss j .done))
    have b := mS P s.servers h2 { s.servers j with st := .idle }
    have c := mSend P ss h2 .done
    simp only [measure, St.setW, St.setS, h3, h4, h5, workW, sendW, servW] at a b c ⊢; omega
  | ackClosed h1 h2 h3 h4 h5 =>
    rename_i w j did ss
    have a := mW1 P s.workers h1 (.sending did (upd ss j .done))
    have c := mSend P ss h2 .done
    simp only [measure, St.setW, h3, h4, workW, sendW] at a c ⊢; omega
  | sent h1 h2 h3 =>
    have a := mW1 P s.workers h1 (.publish ‹_›)
    simp only [measure, St.setW, h2, workW] at a ⊢; omega
  | publish h1 h2 =>
    have a := mW1 P s.workers h1 .broadcasting
    simp only [measure, St.setW, h2, workW] at a ⊢; omega
  | broadcast h1 h2 =>
    rename_i w
    have a := mW P (fun i => ((s.workers i).1, wake (s.workers i).2)) h1 (s.workers w).1 .unlocking
    have b : sumN P.nw (fun i => workW P.nw P.n (wake (s.workers i).2)) ≤ sumN P.nw (fun i => workW P.nw P.n (s.workers i).2) + 2 * P.nw := by
      apply sumN_le
      intro i _
      cases (s.workers i).2 <;> simp [wake, workW]
    simp only [measure, h2, wake, workW] at a b ⊢; omega
  | unlock h1 h2 =>
    have a := mW1 P s.workers h1 .idle
    simp only [measure, St.setW, h2, workW] at a ⊢; omega
  | exit h1 h2 h3 =>
    rename_i j
    have b := mS P s.servers h1 { s.servers j with st := .exited }
    simp only [measure, St.setS, h2, servW] at b ⊢; omega

/-- a run has at most as many steps as its first state's measure -/
theorem Steps.bound {P : Params W S D α} {k : Nat} {s t : St W S D α} (h : Steps P k s t) : k + measure P t ≤ measure P s := by
  induction h with
  | refl => simp
  | step _ h2 ih => have := h2.decreases; omega

end Dupi.Sched
