import Verif.Model.Again
import Verif.Props.Query
/-! # C86: adding a document again -/

namespace Dupi.Props
open Dupi.Spec Again

/-- the documents the caller means to add: what it last put into the variables -/
def meant : Vars → List Act → List Doc
  | _, [] => []
  | vs, .set v d :: as => meant (vs.put v d) as
  | vs, .add v :: as => vs v :: meant vs as

/-- the same, but a document that has been added since it was put there has no path; `old` are the variables of which that is so -/
def taken : Vars → (Nat → Bool) → List Act → List Doc
  | _, _, [] => []
  | vs, old, .set v d :: as => taken (vs.put v d) (fun i => if i = v then false else old i) as
  | vs, old, .add v :: as => (if old v then { vs v with path := [] } else vs v) :: taken vs (fun i => if i = v then true else old i) as

/-- no variable is added again without having been set -/
def Fresh : (Nat → Bool) → List Act → Prop
  | _, [] => True
  | old, .set v _ :: as => Fresh (fun i => if i = v then false else old i) as
  | old, .add v :: as => old v = false ∧ Fresh (fun i => if i = v then true else old i) as

theorem run_taken (cwd : Bytes) (as : List Act) : ∀ (x : Front) (vs ws : Vars) (old : Nat → Bool),
    (∀ v, vs v = if old v then { ws v with path := [] } else ws v) →
    (run cwd x vs as).map (fun r => (r.1, r.2.1)) = x.adds cwd (taken ws old as) := by
  induction as with
  | nil => intro x vs ws old _; rfl
  | cons a as ih =>
    intro x vs ws old h
    cases a with
    | set v d =>
      refine ih x _ _ _ fun i => ?_
      by_cases e : i = v
      · simp [Vars.put, e]
      · simp [Vars.put, e, h]
    | add v =>
      have hv := h v
      simp only [run, taken, Front.adds, ← hv, bind, Except.bind, pure, Except.pure]
      cases h1 : x.add cwd (vs v) with
      | error e => rfl
      | ok r =>
        have := ih r.2 (vs.put v { vs v with path := [] }) ws (fun i => if i = v then true else old i) fun i => by
          by_cases e : i = v
          · subst e
            simp only [Vars.put, if_true, hv]
            cases old i <;> simp
          · simp [Vars.put, e, h]
        simp only
        rw [← this]
        cases run cwd r.2 (vs.put v { vs v with path := [] }) as with
        | error e => rfl
        | ok r => rfl

/-- **C86, as it is.**  What is added: each document as it was put into its variable, but without its path if it has been added before. -/
theorem C86_added (cwd : Bytes) (x : Front) (vs : Vars) (as : List Act) :
    (run cwd x vs as).map (fun r => (r.1, r.2.1)) = x.adds cwd (taken vs (fun _ => false) as) :=
  run_taken cwd as x vs vs _ fun _ => rfl

theorem taken_fresh (as : List Act) : ∀ (vs : Vars) (old : Nat → Bool), Fresh old as → taken vs old as = meant vs as := by
  induction as with
  | nil => intro vs old _; rfl
  | cons a as ih =>
    intro vs old h
    cases a with
    | set v d => exact ih _ _ h
    | add v =>
      simp only [taken, meant, h.1]
      rw [ih _ _ h.2]
      rfl

/-- **C86, what holds.**  If no document is added twice without having been set in between, the documents meant are added. -/
theorem C86_fresh_partial (cwd : Bytes) (x : Front) (vs : Vars) (as : List Act) (h : Fresh (fun _ => false) as) :
    (run cwd x vs as).map (fun r => (r.1, r.2.1)) = x.adds cwd (meant vs as) := by
  rw [C86_added, taken_fresh as vs _ h]

/-- **C86 fails.**  A document added twice is in the index twice, the second time under the working directory in place of its path. -/
theorem C86_false (cwd : Bytes) (x : Front) (vs : Vars) (doc : Doc) :
    (run cwd x vs [.set 0 doc, .add 0, .add 0]).map (fun r => (r.1, r.2.1)) = x.adds cwd [doc, { doc with path := [] }] ∧
    added cwd [doc, { doc with path := [] }] =
      [⟨placeName (Spec.place cwd doc.path), doc.start, doc.stop, doc.dat.getD []⟩, ⟨placeName (Spec.place cwd []), doc.start, doc.stop, doc.dat.getD []⟩] :=
  ⟨C86_added cwd x vs _, rfl⟩

/-- The path is gone from the caller's variable after the first call. -/
theorem C86_false_path (cwd : Bytes) (x : Front) (vs : Vars) (v : Nat) (r : List Front.Req × Front × Vars) (h : run cwd x vs [.add v] = .ok r) :
    (r.2.2 v).path = [] ∧ ∀ i, i ≠ v → r.2.2 i = vs i := by
  simp only [run, bind, Except.bind, pure, Except.pure] at h
  cases h1 : x.add cwd (vs v) with
  | error e => rw [h1] at h; cases h
  | ok q =>
    rw [h1] at h
    cases h
    exact ⟨by simp [Vars.put], fun i hi => by simp [Vars.put, hi]⟩

/-- "/w/p" added twice: the second time it is "/w". -/
theorem C86_nonvacuous : added [47, 119] [⟨[112], 0, 0, none⟩, ⟨[], 0, 0, none⟩] = [⟨[47, 119, 47, 112], 0, 0, []⟩, ⟨[47, 119], 0, 0, []⟩] ∧
    Fresh (fun _ => false) [.set 0 ⟨[112], 0, 0, none⟩, .add 0, .set 0 ⟨[112], 0, 0, none⟩, .add 0] :=
  ⟨by decide, by simp [Fresh]⟩

end Dupi.Props
