import Verif.Model.LockWin
/-! # The lock of an index on Windows: C75 -/

namespace Dupi.Props
open LockWin

namespace LockWinInv

/-- the lock that goes with a phase -/
def Ok (h : Handle) : Prop :=
  match h.phase with
  | .waiting | .gone => h.locked = false
  | .opening | .live | .failed | .unlocking => h.locked = true
  | .unlocked => True

structure Inv (w : World) : Prop where
  ok : ∀ (i : Nat) h, w[i]? = some h → Ok h
  one : ∀ (i j : Nat) h o, w[i]? = some h → w[j]? = some o → i ≠ j → h.file = o.file → h.locked = true → o.locked = false

theorem get_set {w : World} {i : Nat} {h h' : Handle} (hi : w[i]? = some h) (j : Nat) (o : Handle) (ho : (w.set i h')[j]? = some o) :
    (j = i ∧ o = h') ∨ (j ≠ i ∧ w[j]? = some o) := by
  have hlt : i < w.length := by
    rcases Nat.lt_or_ge i w.length with h1 | h1
    · exact h1
    · rw [List.getElem?_eq_none h1] at hi; cases hi
  rw [List.getElem?_set] at ho
  by_cases e : i = j
  · subst e; rw [if_pos rfl, if_pos hlt] at ho; exact .inl ⟨rfl, (Option.some.inj ho).symm⟩
  · rw [if_neg e] at ho; exact .inr ⟨Ne.symm e, ho⟩

/-- a change of one handle that takes no lock, or one that is free -/
theorem Inv.change {w : World} (inv : Inv w) {i : Nat} {h h' : Handle} (hi : w[i]? = some h) (hok : Ok h') (hf : h'.file = h.file)
    (hm : h'.locked = false ∨ h'.locked = h.locked ∨ Free w i h.file) : Inv (w.set i h') := by
  constructor
  · intro j o ho
    rcases get_set hi j o ho with ⟨_, rfl⟩ | ⟨_, ho⟩
    · exact hok
    · exact inv.ok j o ho
  · intro j k a b ha hb hjk hfile hl
    rcases get_set hi j a ha with ⟨rfl, rfl⟩ | ⟨hja, ha'⟩
    · rcases get_set hi k b hb with ⟨rfl, rfl⟩ | ⟨hk, hb⟩
      · exact absurd rfl hjk
      · rcases hm with hm | hm | hm
        · rw [hm] at hl; cases hl
        · exact inv.one _ k h b hi hb hjk (hf ▸ hfile) (hm ▸ hl)
        · exact hm k b hb hk (hfile.symm.trans hf)
    · rcases get_set hi k b hb with ⟨rfl, rfl⟩ | ⟨_, hb⟩
      · rcases hm with hm | hm | hm
        · exact hm
        · rw [hm]; exact inv.one j _ a h ha' hi hjk (hfile.trans hf) hl
        · have := hm j a ha' hja (hfile.trans hf)
          rw [hl] at this; cases this
      · exact inv.one j k a b ha' hb hjk hfile hl

theorem inv {w : World} (hr : Reach w) : Inv w := by
  induction hr with
  | start => exact ⟨by simp, by simp⟩
  | step w w' _ hs ih =>
    cases hs with
    | new k file =>
      have get : ∀ (j : Nat) o, (w ++ [(⟨k, file, .waiting, false⟩ : Handle)])[j]? = some o → w[j]? = some o ∨ o = ⟨k, file, .waiting, false⟩ := by
        intro j o ho
        rcases Nat.lt_or_ge j w.length with h1 | h1
        · rw [List.getElem?_append_left h1] at ho; exact .inl ho
        · rw [List.getElem?_append_right h1] at ho
          have := List.mem_of_getElem? ho
          exact .inr (by simpa using this)
      constructor
      · intro j o ho
        rcases get j o ho with ho | rfl
        · exact ih.ok j o ho
        · rfl
      · intro i j h o hi hj hij hf hm
        rcases get i h hi with hi | rfl
        · rcases get j o hj with hj | rfl
          · exact ih.one i j h o hi hj hij hf hm
          · rfl
        · cases hm
    | lock i h hi hp free => exact ih.change hi (by simp [Ok]) rfl (.inr (.inr free))
    | ready i h hi hp =>
      have := ih.ok i h hi; unfold Ok at this; rw [hp] at this
      exact ih.change hi this rfl (.inr (.inl rfl))
    | fail i h hi hp =>
      have := ih.ok i h hi; unfold Ok at this; rw [hp] at this
      exact ih.change hi this rfl (.inr (.inl rfl))
    | close i h hi hp =>
      have := ih.ok i h hi; unfold Ok at this; rw [hp] at this
      exact ih.change hi this rfl (.inr (.inl rfl))
    | unlock i h hi hp => exact ih.change hi trivial rfl (.inl rfl)
    | unlockErr i h hi hp => exact ih.change hi trivial rfl (.inr (.inl rfl))
    | closed i h hi hp => exact ih.change hi rfl rfl (.inl rfl)
    | collect i h hi hp => exact ih.change hi rfl rfl (.inl rfl)
    | die i h hi => exact ih.change hi rfl rfl (.inl rfl)

end LockWinInv
open LockWinInv

/-- **C75**, exclusion: on Windows, in every state any number of processes can reach, while something is in use — creating, appending or reading — nothing else is in
use or even past its lock on the same lock file.  (For indexers this is what was asked; see C75_false_readers for readers.) -/
theorem C75_exclusive_partial {w : World} (hr : Reach w) (i j : Nat) (h o : Handle) (hi : w[i]? = some h) (hj : w[j]? = some o) (hij : i ≠ j)
    (hu : h.phase = .live) (hf : h.file = o.file) : o.phase ≠ .live ∧ o.phase ≠ .opening := by
  have inv := LockWinInv.inv hr
  have h1 := inv.ok i h hi
  unfold Ok at h1; rw [hu] at h1
  have h2 := inv.one i j h o hi hj hij hf h1
  have h3 := inv.ok j o hj
  unfold Ok at h3
  constructor <;> (intro hl; rw [hl, h2] at h3; cases h3)

/-- **C75**, release: `Unlock` never waits and makes the lock available to others at once, before the handle is closed. -/
theorem C75_release_partial {w : World} (hr : Reach w) (i : Nat) (h : Handle) (hi : w[i]? = some h) (hp : h.phase = .unlocking) :
    ∃ w', Step w w' ∧ Reach w' ∧ ∀ j, Free w' j h.file := by
  refine ⟨_, .unlock w i h hi hp, .step _ _ hr (.unlock w i h hi hp), ?_⟩
  intro j k o ho _ hf
  have inv := LockWinInv.inv hr
  rcases get_set hi k o ho with ⟨_, rfl⟩ | ⟨hk, ho⟩
  · rfl
  · have h1 := inv.ok i h hi
    unfold Ok at h1; rw [hp] at h1
    exact inv.one i k h o hi ho (Ne.symm hk) hf.symm h1

/-- **C75 is false** of readers: while one reader has an index open, no other reader gets the lock, not even in the same process: whatever else happens, a handle that
waits keeps waiting as long as the first is not being closed. -/
theorem C75_false_readers {w : World} (hr : Reach w) (i j : Nat) (h o : Handle) (hi : w[i]? = some h) (hj : w[j]? = some o) (hij : i ≠ j)
    (hu : h.phase = .live) (hf : h.file = o.file) (hw : o.phase = .waiting) {w' : World} (hs : Step w w') (hi' : w'[i]? = some h) :
    w'[j]? = some o ∨ ∃ o', w'[j]? = some o' ∧ o'.phase = .gone := by
  have inv := LockWinInv.inv hr
  have hl := inv.ok i h hi
  unfold Ok at hl; rw [hu] at hl
  have other {k : Nat} {x x' : Handle} (hk : w[k]? = some x) (hx : k = j → False) : (w.set k x')[j]? = some o := by
    rw [List.getElem?_set, if_neg hx]; exact hj
  have diff {k : Nat} {x : Handle} (hk : w[k]? = some x) (hp : x.phase ≠ .waiting) : k = j → False := by
    rintro rfl
    rw [hj] at hk; injection hk with hk; subst hk; exact hp hw
  cases hs with
  | new k file =>
    left
    have : j < w.length := by
      rcases Nat.lt_or_ge j w.length with h1 | h1
      · exact h1
      · rw [List.getElem?_eq_none h1] at hj; cases hj
    rw [List.getElem?_append_left this]; exact hj
  | lock k x hk hp free =>
    left
    refine other hk ?_
    rintro rfl
    rw [hj] at hk; injection hk with hk; subst hk
    have := free i h hi hij hf
    rw [hl] at this; cases this
  | ready k x hk hp => exact .inl (other hk (diff hk (by rw [hp]; simp)))
  | fail k x hk hp => exact .inl (other hk (diff hk (by rw [hp]; simp)))
  | close k x hk hp => exact .inl (other hk (diff hk (by rw [hp]; simp)))
  | unlock k x hk hp => exact .inl (other hk (diff hk (by rw [hp]; simp)))
  | unlockErr k x hk hp => exact .inl (other hk (diff hk (by rw [hp]; simp)))
  | closed k x hk hp => exact .inl (other hk (diff hk (by rw [hp]; simp)))
  | collect k x hk hp => exact .inl (other hk (diff hk (by rw [hp]; simp)))
  | die k x hk =>
    by_cases e : k = j
    · subst e
      have hlt : k < w.length := by
        rcases Nat.lt_or_ge k w.length with h1 | h1
        · exact h1
        · rw [List.getElem?_eq_none h1] at hj; cases hj
      exact .inr ⟨_, by rw [List.getElem?_set, if_pos rfl, if_pos hlt], rfl⟩
    · exact .inl (other hk e)

/-- so on Windows two readers never have an index open at the same time, whatever processes they are in -/
theorem C75_false_shared {w : World} (hr : Reach w) (i j : Nat) (h o : Handle) (hi : w[i]? = some h) (hj : w[j]? = some o) (hij : i ≠ j)
    (hf : h.file = o.file) (_hk : h.kind = .reader ∧ o.kind = .reader) : ¬ (h.phase = .live ∧ o.phase = .live) :=
  fun hl => (C75_exclusive_partial hr i j h o hi hj hij hl.1 hf).1 hl.2

/-- a reader in use and one that waits -/
theorem C75_nonvacuous (file : List Bytes) : Reach [⟨.reader, file, .live, true⟩, ⟨.reader, file, .waiting, false⟩] ∧
    Reach [⟨.appender, file, .unlocking, true⟩] := by
  have s0 := Reach.step _ _ .start (.new [] .reader file)
  have s1 := Reach.step _ _ s0 (.new _ .reader file)
  have s2 := Reach.step _ _ s1 (.lock _ 0 ⟨.reader, file, .waiting, false⟩ rfl rfl (by
    intro j o ho; match j with | 0 => simp | 1 => simp at ho; subst ho; simp | j + 2 => simp at ho))
  have t0 := Reach.step _ _ .start (.new [] .appender file)
  have t1 := Reach.step _ _ t0 (.lock _ 0 ⟨.appender, file, .waiting, false⟩ rfl rfl (by
    intro j o ho; match j with | 0 => simp | j + 1 => simp at ho))
  have t2 := Reach.step _ _ t1 (.ready _ 0 ⟨.appender, file, .opening, true⟩ rfl rfl)
  exact ⟨Reach.step _ _ s2 (.ready _ 0 ⟨.reader, file, .opening, true⟩ rfl rfl), Reach.step _ _ t2 (.close _ 0 ⟨.appender, file, .live, true⟩ rfl rfl)⟩

end Dupi.Props
