import Verif.Model.Resources
/-! # Model/Resources: what each function leaves open and running -/

namespace Dupi.Resources

/-- nothing stays open or running, nothing that was is gone -/
structure Quiet (a : R) : Prop where
  files : ∀ h, (a h).2.files = h.files
  routines : ∀ h, (a h).2.routines = h.routines

theorem seq_ok {a b : R} {h : Held} (ha : (a h).1 = true) : (a.seq b) h = b (a h).2 := by simp [R.seq, ha]

theorem seq_err {a b : R} {h : Held} (ha : (a h).1 = false) : (a.seq b) h = (false, (a h).2) := by simp [R.seq, ha]

theorem quiet_done : Quiet done := ⟨fun _ => rfl, fun _ => rfl⟩

theorem quiet_call (f : Luck) (c : Call) : Quiet (call f c) := ⟨fun _ => rfl, fun _ => rfl⟩

theorem Quiet.seq {a b : R} (ha : Quiet a) (hb : Quiet b) : Quiet (a.seq b) := by
  constructor
  · intro h
    cases e : (a h).1
    · rw [seq_err e]; exact ha.files h
    · rw [seq_ok e, hb.files, ha.files]
  · intro h
    cases e : (a h).1
    · rw [seq_err e]; exact ha.routines h
    · rw [seq_ok e, hb.routines, ha.routines]

theorem Quiet.both {a b : R} (ha : Quiet a) (hb : Quiet b) : Quiet (a.both b) :=
  ⟨fun h => by simp only [R.both]; rw [hb.files, ha.files], fun h => by simp only [R.both]; rw [hb.routines, ha.routines]⟩

theorem opens_ok {f : Luck} {x : Handle} {h : Held} (e : (opens f x h).1 = true) :
    (opens f x h).2.files = x :: h.files := by
  have e' : f .opening h.step = true := e
  simp [opens, e']

theorem opens_err {f : Luck} {x : Handle} {h : Held} (e : (opens f x h).1 = false) : (opens f x h).2.files = h.files := by
  have e' : f .opening h.step = false := e
  simp [opens, e']

theorem opens_routines (f : Luck) (x : Handle) (h : Held) : (opens f x h).2.routines = h.routines := rfl

theorem quiet_with (f : Luck) (x : Handle) {body : R} (hb : Quiet body) : Quiet (withFile f x body) := by
  constructor
  · intro h
    cases e : (opens f x h).1
    · rw [withFile, seq_err e]; exact opens_err e
    · rw [withFile, seq_ok e]
      simp only [R.deferred, closes]
      rw [hb.files, opens_ok e, List.erase_cons_head]
  · intro h
    cases e : (opens f x h).1
    · rw [withFile, seq_err e]; rfl
    · rw [withFile, seq_ok e]
      simp only [R.deferred, closes]
      rw [hb.routines, opens_routines]

theorem quiet_readConfig (f : Luck) : Quiet (readConfigFromRoot f) :=
  (quiet_call _ _).seq (quiet_with _ _ ((quiet_call _ _).seq ((quiet_call _ _).seq (quiet_call _ _))))

theorem quiet_configWrite (f : Luck) : Quiet (configWrite f) :=
  quiet_with _ _ ((quiet_call _ _).seq ((quiet_call _ _).seq (quiet_call _ _)))

theorem quiet_writeFiles (f : Luck) : Quiet (writeFiles f) := quiet_with _ _ (quiet_call _ _)

theorem quiet_readfiles (f : Luck) : Quiet (readfiles f) := quiet_with _ _ (quiet_call _ _)

theorem quiet_flush (f : Luck) : Quiet (flush f) := quiet_with _ _ ((quiet_call _ _).seq (quiet_call _ _))

theorem quiet_adderClose (f : Luck) (d : Bool) : Quiet (adderClose f d) := by
  cases d
  · exact quiet_done
  · exact quiet_flush f

theorem quiet_add (f : Luck) (full : Bool) : Quiet (add f full) := by
  cases full
  · exact (quiet_call _ _).seq quiet_done
  · exact (quiet_call _ _).seq (quiet_flush f)

theorem quiet_adds (f : Luck) : ∀ l : List Bool, Quiet (adds f l)
  | [] => quiet_done
  | full :: r => (quiet_add f full).both (quiet_adds f r)

/-! ## the posting files -/

/-- the posting files of the shards from `s` to `s + n - 1`, the latest first -/
def posts (s n : Nat) : List Handle := ((List.range' s n).map Handle.pos).reverse

def serves (s n : Nat) : List Routine := ((List.range' s n).map Routine.serve).reverse

def shatters (s n : Nat) : List Routine := ((List.range' s n).map Routine.shatter).reverse

theorem posts_cons (s n : Nat) : posts s (n + 1) = posts (s + 1) n ++ [Handle.pos s] := by
  simp [posts, List.range'_succ]

theorem serves_cons (s n : Nat) : serves s (n + 1) = serves (s + 1) n ++ [Routine.serve s] := by
  simp [serves, List.range'_succ]

theorem shatters_cons (s n : Nat) : shatters s (n + 1) = shatters (s + 1) n ++ [Routine.shatter s] := by
  simp [shatters, List.range'_succ]

theorem mem_posts {x : Handle} {s n : Nat} : x ∈ posts s n ↔ ∃ i, s ≤ i ∧ i < s + n ∧ x = .pos i := by
  simp only [posts, List.mem_reverse, List.mem_map, List.mem_range'_1]
  constructor
  · rintro ⟨i, ⟨h1, h2⟩, rfl⟩; exact ⟨i, h1, h2, rfl⟩
  · rintro ⟨i, h1, h2, rfl⟩; exact ⟨i, ⟨h1, h2⟩, rfl⟩

theorem mem_serves {x : Routine} {s n : Nat} : x ∈ serves s n ↔ ∃ i, s ≤ i ∧ i < s + n ∧ x = .serve i := by
  simp only [serves, List.mem_reverse, List.mem_map, List.mem_range'_1]
  constructor
  · rintro ⟨i, ⟨h1, h2⟩, rfl⟩; exact ⟨i, h1, h2, rfl⟩
  · rintro ⟨i, h1, h2, rfl⟩; exact ⟨i, ⟨h1, h2⟩, rfl⟩

theorem mem_shatters {x : Routine} {s n : Nat} : x ∈ shatters s n ↔ ∃ i, s ≤ i ∧ i < s + n ∧ x = .shatter i := by
  simp only [shatters, List.mem_reverse, List.mem_map, List.mem_range'_1]
  constructor
  · rintro ⟨i, ⟨h1, h2⟩, rfl⟩; exact ⟨i, h1, h2, rfl⟩
  · rintro ⟨i, h1, h2, rfl⟩; exact ⟨i, ⟨h1, h2⟩, rfl⟩

@[simp] theorem posts_length (s n : Nat) : (posts s n).length = n := by simp [posts]

@[simp] theorem serves_length (s n : Nat) : (serves s n).length = n := by simp [serves]

@[simp] theorem shatters_length (s n : Nat) : (shatters s n).length = n := by simp [shatters]

/-- what one round of the loops over the shards adds -/
structure Round (a : Nat → R) (g : Nat → List Routine) : Prop where
  ok : ∀ i h, (a i h).1 = true → (a i h).2.files = .pos i :: h.files ∧ (a i h).2.routines = g i ++ h.routines
  err : ∀ i h, (a i h).1 = false → ((a i h).2.files = h.files ∨ (a i h).2.files = .pos i :: h.files) ∧ (a i h).2.routines = h.routines

/-- the goroutines of `n` rounds from `s` -/
def runs (g : Nat → List Routine) : (s n : Nat) → List Routine
  | _, 0 => []
  | s, n + 1 => runs g (s + 1) n ++ g s

theorem runs_nil : ∀ s n : Nat, runs (fun _ => []) s n = []
  | _, 0 => rfl
  | s, n + 1 => by rw [runs, runs_nil]; rfl

theorem runs_serve : ∀ s n : Nat, runs (fun i => [.serve i]) s n = serves s n
  | _, 0 => rfl
  | s, n + 1 => by rw [runs, runs_serve, serves_cons]

theorem each_ok {a : Nat → R} {g : Nat → List Routine} (ha : Round a g) : ∀ (n s : Nat) (h : Held), (each a n s h).1 = true →
    (each a n s h).2.files = posts s n ++ h.files ∧ (each a n s h).2.routines = runs g s n ++ h.routines
  | 0, s, h, _ => ⟨rfl, rfl⟩
  | n + 1, s, h, e => by
    rw [each] at e ⊢
    cases e1 : (a s h).1
    · rw [seq_err e1] at e; simp at e
    · rw [seq_ok e1] at e ⊢
      obtain ⟨i1, i2⟩ := each_ok ha n (s + 1) (a s h).2 e
      obtain ⟨o1, o2⟩ := ha.ok s h e1
      rw [i1, i2, o1, o2, posts_cons, runs]
      simp

theorem each_err {a : Nat → R} {g : Nat → List Routine} (ha : Round a g) : ∀ (n s : Nat) (h : Held), (each a n s h).1 = false →
    ∃ k j, k ≤ j ∧ j ≤ k + 1 ∧ j ≤ n ∧ k < n ∧ (each a n s h).2.files = posts s j ++ h.files ∧ (each a n s h).2.routines = runs g s k ++ h.routines
  | 0, s, h, e => by simp [each, done] at e
  | n + 1, s, h, e => by
    rw [each] at e ⊢
    cases e1 : (a s h).1
    · rw [seq_err e1]
      obtain ⟨o1, o2⟩ := ha.err s h e1
      rcases o1 with o1 | o1
      · exact ⟨0, 0, by omega, by omega, by omega, by omega, by simpa [posts] using o1, by simpa [runs] using o2⟩
      · exact ⟨0, 1, by omega, by omega, by omega, by omega, by simpa [posts] using o1, by simpa [runs] using o2⟩
    · rw [seq_ok e1] at e ⊢
      obtain ⟨k, j, k1, k2, k3, k4, i1, i2⟩ := each_err ha n (s + 1) (a s h).2 e
      obtain ⟨o1, o2⟩ := ha.ok s h e1
      refine ⟨k + 1, j + 1, by omega, by omega, by omega, by omega, ?_, ?_⟩
      · rw [i1, o1, posts_cons]; simp
      · rw [i2, o2, runs]; simp

theorem round_shardInit (f : Luck) : Round (shardInit f) (fun _ => []) := by
  have q := fun i => quiet_with f (.iix i) (quiet_call f .other)
  constructor
  · intro i h e
    unfold shardInit at e ⊢
    cases e1 : (withFile f (.iix i) (call f .other) h).1
    · rw [seq_err e1] at e; simp at e
    · rw [seq_ok e1] at e ⊢
      rw [opens_ok e, opens_routines, (q i).files, (q i).routines]
      exact ⟨rfl, rfl⟩
  · intro i h e
    unfold shardInit at e ⊢
    cases e1 : (withFile f (.iix i) (call f .other) h).1
    · rw [seq_err e1]; exact ⟨Or.inl ((q i).files h), (q i).routines h⟩
    · rw [seq_ok e1] at e ⊢
      rw [opens_err e, opens_routines, (q i).files, (q i).routines]
      exact ⟨Or.inl rfl, rfl⟩

theorem round_create (f : Luck) : Round (fun i => (initCreate f i).seq (starts (.serve i))) (fun i => [.serve i]) := by
  have key : ∀ i h, ((initCreate f i h).1 = true → (initCreate f i h).2.files = .pos i :: h.files) ∧
      ((initCreate f i h).1 = false → (initCreate f i h).2.files = h.files) ∧ (initCreate f i h).2.routines = h.routines := by
    intro i h
    unfold initCreate withFile
    cases e1 : (opens f (.iix i) h).1
    · rw [seq_err e1]
      exact ⟨by simp, fun _ => opens_err e1, rfl⟩
    · rw [seq_ok e1]
      simp only [R.deferred, closes]
      cases e2 : (call f .other (opens f (.iix i) h).2).1
      · rw [seq_err e2]
        refine ⟨by simp, fun _ => ?_, rfl⟩
        rw [(quiet_call _ _).files, opens_ok e1, List.erase_cons_head]
      · rw [seq_ok e2]
        refine ⟨fun e => ?_, fun e => ?_, rfl⟩
        · rw [opens_ok e, (quiet_call _ _).files, opens_ok e1]
          rw [List.erase_cons_tail (by simp), List.erase_cons_head]
        · rw [opens_err e, (quiet_call _ _).files, opens_ok e1, List.erase_cons_head]
  constructor
  · intro i h e
    cases e1 : (initCreate f i h).1
    · rw [seq_err e1] at e; simp at e
    · simp only [seq_ok e1, starts]
      rw [(key i h).1 e1, (key i h).2.2]
      exact ⟨rfl, rfl⟩
  · intro i h e
    cases e1 : (initCreate f i h).1
    · simp only [seq_err e1]
      exact ⟨Or.inl ((key i h).2.1 e1), (key i h).2.2⟩
    · rw [seq_ok e1] at e; simp [starts] at e

theorem round_append (f : Luck) : Round (fun i => (initAppend f i).seq (starts (.serve i))) (fun i => [.serve i]) := by
  have q := fun i => quiet_with f (.iix i) (quiet_call f .other)
  have key : ∀ i h, ((initAppend f i h).1 = true → (initAppend f i h).2.files = .pos i :: h.files) ∧
      ((initAppend f i h).1 = false → ((initAppend f i h).2.files = h.files ∨ (initAppend f i h).2.files = .pos i :: h.files)) ∧
      (initAppend f i h).2.routines = h.routines := by
    intro i h
    unfold initAppend
    cases e1 : (withFile f (.iix i) (call f .other) h).1
    · rw [seq_err e1]
      exact ⟨by simp, fun _ => Or.inl ((q i).files h), (q i).routines h⟩
    · rw [seq_ok e1]
      cases e2 : (opens f (.pos i) (withFile f (.iix i) (call f .other) h).2).1
      · rw [seq_err e2]
        refine ⟨by simp, fun _ => Or.inl ?_, ?_⟩
        · rw [opens_err e2, (q i).files]
        · rw [opens_routines, (q i).routines]
      · rw [seq_ok e2]
        refine ⟨fun _ => ?_, fun _ => Or.inr ?_, ?_⟩
        · rw [(quiet_call _ _).files, opens_ok e2, (q i).files]
        · rw [(quiet_call _ _).files, opens_ok e2, (q i).files]
        · rw [(quiet_call _ _).routines, opens_routines, (q i).routines]
  constructor
  · intro i h e
    cases e1 : (initAppend f i h).1
    · rw [seq_err e1] at e; simp at e
    · simp only [seq_ok e1, starts]
      rw [(key i h).1 e1, (key i h).2.2]
      exact ⟨rfl, rfl⟩
  · intro i h e
    cases e1 : (initAppend f i h).1
    · simp only [seq_err e1]
      exact ⟨(key i h).2.1 e1, (key i h).2.2⟩
    · rw [seq_ok e1] at e; simp [starts] at e

/-! ## the shatter goroutines -/

theorem startShatter_at (f : Luck) : ∀ (n s : Nat) (h : Held), ∃ k ≤ n,
    ((each (fun i => (call f .other).seq (starts (.shatter i))) n s h).1 = true → k = n) ∧
    (each (fun i => (call f .other).seq (starts (.shatter i))) n s h).2.files = h.files ∧
    (each (fun i => (call f .other).seq (starts (.shatter i))) n s h).2.routines = shatters s k ++ h.routines
  | 0, s, h => ⟨0, by omega, fun _ => rfl, rfl, rfl⟩
  | n + 1, s, h => by
    rw [each]
    cases e : (call f .other h).1
    · have e1 : (((call f .other).seq (starts (.shatter s))) h) = (false, (call f .other h).2) := seq_err e
      rw [seq_err (by rw [e1])]
      exact ⟨0, by omega, by simp, by rw [e1]; rfl, by rw [e1]; rfl⟩
    · have e1 : (((call f .other).seq (starts (.shatter s))) h) = starts (.shatter s) (call f .other h).2 := seq_ok e
      have e2 : (((call f .other).seq (starts (.shatter s))) h).1 = true := by rw [e1]; rfl
      rw [seq_ok e2]
      obtain ⟨k, k1, k2, k3, k4⟩ := startShatter_at f n (s + 1) (((call f .other).seq (starts (.shatter s))) h).2
      refine ⟨k + 1, by omega, fun e => by have := k2 e; omega, ?_, ?_⟩
      · rw [k3, e1]; rfl
      · rw [k4, e1, shatters_cons]; simp [starts, call]

/-! ## closing -/

theorem erase_app {α : Type} [BEq α] [LawfulBEq α] {x : α} {l m : List α} (h : x ∉ l) : (l ++ m).erase x = l ++ m.erase x :=
  List.erase_append_right _ h

theorem not_mem_posts (s n : Nat) : Handle.pos s ∉ posts (s + 1) n := by
  intro hm
  obtain ⟨i, h1, _, h3⟩ := mem_posts.1 hm
  simp only [Handle.pos.injEq] at h3
  omega

theorem eachAll_close {a : Nat → R} (ha : ∀ i h, (a i h).2.files = h.files.erase (.pos i) ∧ (a i h).2.routines = h.routines) :
    ∀ (n s : Nat) (h : Held) (rest : List Handle), h.files = posts s n ++ rest →
    (eachAll a n s h).2.files = rest ∧ (eachAll a n s h).2.routines = h.routines
  | 0, s, h, rest, e => ⟨by simpa [eachAll, done, posts] using e, rfl⟩
  | n + 1, s, h, rest, e => by
    simp only [eachAll, R.both]
    have := eachAll_close ha n (s + 1) (a s h).2 rest (by
      rw [(ha s h).1, e, posts_cons, List.append_assoc, erase_app (not_mem_posts s n)]; simp)
    rw [this.1, this.2, (ha s h).2]
    exact ⟨rfl, rfl⟩

theorem shardClose_frees (f : Luck) (i : Nat) (h : Held) :
    (shardClose f i h).2.files = h.files.erase (.pos i) ∧ (shardClose f i h).2.routines = h.routines := by
  have q : Quiet (flushIix f i) := quiet_with _ _ (quiet_call _ _)
  unfold shardClose
  cases e : (flushInd f i h).1
  · rw [seq_err e]; exact ⟨rfl, rfl⟩
  · rw [seq_ok e, q.files, q.routines]; exact ⟨rfl, rfl⟩

theorem ends_routines (g : Nat → Routine) (gs : Nat → Nat → List Routine) (h0 : ∀ s, gs s 0 = [])
    (hg : ∀ s n, gs s (n + 1) = gs (s + 1) n ++ [g s]) (hn : ∀ s n, g s ∉ gs (s + 1) n) :
    ∀ (n s : Nat) (h : Held) (pre rest : List Routine), (∀ i, g i ∉ pre) → h.routines = pre ++ (gs s n ++ rest) →
    (each (fun i => ends (g i)) n s h).1 = true ∧ (each (fun i => ends (g i)) n s h).2.files = h.files ∧
    (each (fun i => ends (g i)) n s h).2.routines = pre ++ rest
  | 0, s, h, pre, rest, _, e => ⟨rfl, rfl, by simpa [each, done, h0] using e⟩
  | n + 1, s, h, pre, rest, hp, e => by
    rw [each, seq_ok rfl]
    have := ends_routines g gs h0 hg hn n (s + 1) (ends (g s) h).2 pre rest hp (by
      show h.routines.erase (g s) = _
      rw [e, erase_app (hp s), hg, List.append_assoc, erase_app (hn s n)]; simp)
    exact this

theorem stops_all (n ns : Nat) (h : Held) (rest : List Routine) (e : h.routines = shatters 0 ns ++ (serves 0 n ++ rest)) :
    (stops n ns h).1 = true ∧ (stops n ns h).2.files = h.files ∧ (stops n ns h).2.routines = rest := by
  obtain ⟨a1, a2, a3⟩ := ends_routines Routine.shatter shatters (fun _ => rfl) shatters_cons (fun s n hm => by
    obtain ⟨i, h1, _, h3⟩ := mem_shatters.1 hm; simp only [Routine.shatter.injEq] at h3; omega) ns 0 h [] (serves 0 n ++ rest) (by simp) (by simpa using e)
  obtain ⟨b1, b2, b3⟩ := ends_routines Routine.serve serves (fun _ => rfl) serves_cons (fun s n hm => by
    obtain ⟨i, h1, _, h3⟩ := mem_serves.1 hm; simp only [Routine.serve.injEq] at h3; omega) n 0
    (each (fun i => ends (.shatter i)) ns 0 h).2 [] rest (by simp) (by simpa using a3)
  unfold stops
  rw [seq_ok a1]
  exact ⟨b1, by rw [b2, a2], by simpa using b3⟩

theorem relock_eraseP (m : Lock.Mode) : ∀ l : List Handle, (relock m l).eraseP Handle.isLock = l.eraseP Handle.isLock
  | [] => rfl
  | x :: r => by
    by_cases h : x.isLock = true
    · have h' : (Handle.lock (some m)).isLock = true := rfl
      simp only [relock, h, List.eraseP_cons, if_true, h', cond_true]
    · have ih := relock_eraseP m r
      simp only [relock, h, List.eraseP_cons, Bool.false_eq_true, if_false, ih, cond_false]

theorem lockClose_frees (f : Luck) (h : Held) :
    (lockClose f h).2.files = h.files.eraseP Handle.isLock ∧ (lockClose f h).2.routines = h.routines := by
  refine ⟨?_, rfl⟩
  simp only [lockClose, R.both, lockHandleClose, flock]
  by_cases e : f .locking h.step = true
  · simp only [e, if_true]; exact relock_eraseP _ _
  · simp only [e]; rfl

theorem posts_eraseP (s n : Nat) (m : Option Lock.Mode) (rest : List Handle) :
    (posts s n ++ .lock m :: rest).eraseP Handle.isLock = posts s n ++ rest := by
  rw [List.eraseP_append_right]
  · simp [List.eraseP_cons, Handle.isLock]
  · intro x hx
    obtain ⟨i, _, _, rfl⟩ := mem_posts.1 hx
    simp [Handle.isLock]

theorem flock_ok {f : Luck} {m : Lock.Mode} {h : Held} {m' : Option Lock.Mode} {rest : List Handle} (hf : h.files = .lock m' :: rest)
    (e : (flock f m h).1 = true) : (flock f m h).2.files = .lock (some m) :: rest := by
  have e' : f .locking h.step = true := e
  simp [flock, e', hf, relock, Handle.isLock]

theorem flock_err {f : Luck} {m : Lock.Mode} {h : Held} (e : (flock f m h).1 = false) : (flock f m h).2.files = h.files := by
  have e' : f .locking h.step = false := e
  simp [flock, e']

theorem flock_routines (f : Luck) (m : Lock.Mode) (h : Held) : (flock f m h).2.routines = h.routines := rfl

end Dupi.Resources
