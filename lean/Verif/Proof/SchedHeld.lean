import Verif.Proof.Sched
/-! # The posts the goroutines hold -/

namespace Dupi.Sched

variable {W S D α : Type}

/-- the posts a sender has still to send -/
def sendHeld : Sender α → Nat
  | .toSend ps => ps.length
  | _ => 0

/-- the posts for `n` shards a shatterer holds (while it computes them, they are fewer than when it is done) -/
def workHeld (n : Nat) : WSt D α → Nat
  | .locking _ out => sumN n fun j => (out j).length
  | .checking _ out => sumN n fun j => (out j).length
  | .waiting _ out => sumN n fun j => (out j).length
  | .woken _ out => sumN n fun j => (out j).length
  | .sending _ ss => sumN n fun j => sendHeld (ss j)
  | _ => 0

/-- the posts a server holds -/
def servHeld : SSt α → Nat
  | .busy ps => ps.length
  | _ => 0

/-- all of them -/
def held (P : Params W S D α) (s : St W S D α) : Nat :=
  sumN P.nw (fun w => workHeld P.n (s.workers w).2) + sumN P.n fun j => servHeld (s.servers j).st

variable {Γ : Env W S D α}

/-- the number of posts of a document -/
def Env.load (Γ : Env W S D α) (d : Nat) : Nat := sumN Γ.P.n fun j => (Γ.batch d j).length

/-- those of the document a shatterer has in hand -/
def Env.inHand (Γ : Env W S D α) (x : WSt D α) : Nat :=
  match didOf x with
  | some d => Γ.load d
  | none => 0

theorem sumN_mono {n : Nat} {f g : Nat → Nat} (h : ∀ j, j < n → f j ≤ g j) : sumN n f ≤ sumN n g := by
  have := sumN_le (c := 0) (f := f) (g := g) (n := n) (fun j hj => h j hj)
  omega

theorem sumN_add (n : Nat) (f g : Nat → Nat) : sumN n (fun j => f j + g j) = sumN n f + sumN n g := by
  induction n with
  | zero => rfl
  | succ n ih => rw [sumN_succ, sumN_succ, sumN_succ, ih]; omega

theorem sumN_zero {n : Nat} {f : Nat → Nat} (h : ∀ j, j < n → f j = 0) : sumN n f = 0 := by
  rw [sumN_congr h, sumN_const]; omega

theorem Rest.held {c : Client D} {x : Server S α} {j m : Nat} (h : Γ.Rest c x j m) : servHeld x.st = 0 := by
  rcases h.1 with e | ⟨e, _⟩ <;> rw [e] <;> rfl

theorem Inv.held_quiet {s : St W S D α} (h : Inv Γ s) {w : Nat} (hw : w < Γ.P.nw) (hb : ∀ did ss, (s.workers w).2 ≠ .sending did ss) :
    workHeld Γ.P.n (s.workers w).2 ≤ Γ.inHand (s.workers w).2 := by
  have hp := h.pay w hw
  generalize (s.workers w).2 = x at hp hb
  cases x with
  | locking did out => exact Nat.le_of_eq (sumN_congr fun j _ => by rw [hp j])
  | checking did out => exact Nat.le_of_eq (sumN_congr fun j _ => by rw [hp j])
  | waiting did out => exact Nat.le_of_eq (sumN_congr fun j _ => by rw [hp j])
  | woken did out => exact Nat.le_of_eq (sumN_congr fun j _ => by rw [hp j])
  | sending did ss => exact absurd rfl (hb did ss)
  | _ => exact Nat.zero_le _

/-- In every state the posts held are at most those of the documents the shatterers have in hand. -/
theorem Inv.held {s : St W S D α} (h : Inv Γ s) : Sched.held Γ.P s ≤ sumN Γ.P.nw fun w => Γ.inHand (s.workers w).2 := by
  unfold Sched.held
  by_cases hex : ∃ w, w < Γ.P.nw ∧ ∃ did ss, (s.workers w).2 = .sending did ss
  · obtain ⟨w, hw, did, ss, e⟩ := hex
    have hcrit : crit (s.workers w).2 = true := by rw [e]; rfl
    have hsum : workHeld Γ.P.n (s.workers w).2 + sumN Γ.P.n (fun j => servHeld (s.servers j).st) ≤ Γ.inHand (s.workers w).2 := by
      have hd := h.snd w hw (by rw [e]; rfl)
      unfold Env.inHand
      rw [hd, e]
      show (sumN Γ.P.n fun j => sendHeld (ss j)) + _ ≤ sumN Γ.P.n _
      rw [← sumN_add]
      refine sumN_mono fun j hj => ?_
      have hs := h.svS w hw did ss e j hj
      cases hj' : ss j with
      | toSend ps =>
        rw [hj'] at hs
        obtain ⟨rfl, hr⟩ := hs
        rw [Rest.held hr]
        exact Nat.le_refl _
      | await =>
        rw [hj'] at hs
        rcases hs.2 with ⟨e', _⟩ | ⟨e', _⟩
        · rw [e']; simp [sendHeld, servHeld]
        · rw [e']; simp [sendHeld, servHeld]
      | done =>
        rw [hj'] at hs
        rw [Rest.held hs]
        exact Nat.zero_le _
    have hch := sumN_change (f := fun i => if i = w then workHeld Γ.P.n (s.workers w).2 + sumN Γ.P.n (fun j => servHeld (s.servers j).st)
      else workHeld Γ.P.n (s.workers i).2) (g := fun i => workHeld Γ.P.n (s.workers i).2) hw (fun j _ hne => if_neg hne)
    simp only [if_true] at hch
    have hle := sumN_mono (n := Γ.P.nw) (f := fun i => if i = w then workHeld Γ.P.n (s.workers w).2 + sumN Γ.P.n (fun j => servHeld (s.servers j).st)
      else workHeld Γ.P.n (s.workers i).2) (g := fun i => Γ.inHand (s.workers i).2) (by
        intro i hi
        by_cases e' : i = w
        · subst e'; simpa using hsum
        · simp only [if_neg e']
          refine h.held_quiet hi fun did' ss' e2 => e' (h.crit_unique hi hw (by rw [e2]; rfl) hcrit))
    omega
  · have hq : ∀ w, w < Γ.P.nw → ∀ did ss, (s.workers w).2 ≠ .sending did ss := fun w hw did ss e => hex ⟨w, hw, did, ss, e⟩
    have hz : sumN Γ.P.n (fun j => servHeld (s.servers j).st) = 0 := by
      refine sumN_zero fun j hj => ?_
      by_cases hp : ∃ w, w < Γ.P.nw ∧ ∃ did, (s.workers w).2 = .publish did
      · obtain ⟨w, hw, did, e⟩ := hp
        exact Rest.held (h.svP w hw did e j hj)
      · refine Rest.held (h.svN (fun w hw => ?_) j hj)
        have h1 := hq w hw
        have h2 : ∀ did, (s.workers w).2 ≠ .publish did := fun did e => hp ⟨w, hw, did, e⟩
        generalize (s.workers w).2 = x at h1 h2
        cases x with
        | sending did ss => exact absurd rfl (h1 did ss)
        | publish did => exact absurd rfl (h2 did)
        | _ => rfl
    rw [hz, Nat.add_zero]
    exact sumN_mono fun w hw => h.held_quiet hw (hq w hw)

end Dupi.Sched
