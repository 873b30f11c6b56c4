import Verif.Proof.Resources
/-! # C77: nothing stays open -/

namespace Dupi.Props

open Dupi.Resources

/-- the posting files of the first `n` shards, the latest first -/
def postFiles (n : Nat) : List Handle := ((List.range n).map Handle.pos).reverse

/-- the goroutines of the first `n` shards, the latest first -/
def serving (n : Nat) : List Routine := ((List.range n).map Routine.serve).reverse

/-- the first `n` shatter goroutines, the latest first -/
def shattering (n : Nat) : List Routine := ((List.range n).map Routine.shatter).reverse

theorem posts_eq (n : Nat) : posts 0 n = postFiles n := by rw [posts, postFiles, List.range_eq_range']

theorem serves_eq (n : Nat) : serves 0 n = serving n := by rw [serves, serving, List.range_eq_range']

theorem shatters_eq (n : Nat) : shatters 0 n = shattering n := by rw [shatters, shattering, List.range_eq_range']

/-- the two ways to get an indexer -/
inductive Way where
  | create
  | append

def Way.opening : Way → Luck → Nat → Nat → R
  | .create => createIndexer
  | .append => openIndexer

/-- the lock an indexer asks for -/
def Way.lock : Way → Lock.Mode
  | .create => .ex
  | .append => .sh

/-! ## what the opening functions leave -/

theorem openIndex_outcome (f : Luck) (n : Nat) (h : Held) :
    (openIndex f n h).2.routines = h.routines ∧
    ((openIndex f n h).1 = true → (openIndex f n h).2.files = postFiles n ++ .dmd :: .lock (some .sh) :: h.files) ∧
    ((openIndex f n h).1 = false → ((openIndex f n h).2.files = h.files ∧ f .opening h.step = false) ∨
      (∃ m, (openIndex f n h).2.files = .lock m :: h.files) ∨
      (∃ k < n + 1, (openIndex f n h).2.files = postFiles k ++ .dmd :: .lock (some .sh) :: h.files)) := by
  unfold openIndex
  cases e1 : (lockNew f h).1
  · rw [seq_err e1]
    exact ⟨rfl, by simp, fun _ => Or.inl ⟨opens_err e1, e1⟩⟩
  rw [seq_ok e1]
  have o1 : (lockNew f h).2.files = .lock none :: h.files := opens_ok e1
  have r1 : (lockNew f h).2.routines = h.routines := rfl
  generalize (lockNew f h).2 = h1 at o1 r1 ⊢
  cases e2 : (flock f .sh h1).1
  · rw [seq_err e2]
    exact ⟨r1, by simp, fun _ => Or.inr (Or.inl ⟨none, by rw [flock_err e2, o1]⟩)⟩
  rw [seq_ok e2]
  have o2 := flock_ok o1 e2
  have r2 : (flock f .sh h1).2.routines = h.routines := r1
  generalize (flock f .sh h1).2 = h2 at o2 r2 ⊢
  have q3 := quiet_readConfig f
  have o3 : (readConfigFromRoot f h2).2.files = _ := q3.files h2
  have r3 : (readConfigFromRoot f h2).2.routines = _ := q3.routines h2
  rw [o2] at o3; rw [r2] at r3
  cases e3 : (readConfigFromRoot f h2).1
  · rw [seq_err e3]
    exact ⟨r3, by simp, fun _ => Or.inr (Or.inl ⟨_, o3⟩)⟩
  rw [seq_ok e3]
  generalize (readConfigFromRoot f h2).2 = h3 at o3 r3 ⊢
  cases e4 : (opens f .dmd h3).1
  · rw [seq_err e4]
    exact ⟨r3, by simp, fun _ => Or.inr (Or.inl ⟨_, by rw [opens_err e4, o3]⟩)⟩
  rw [seq_ok e4]
  have o4 := opens_ok e4
  have r4 : (opens f .dmd h3).2.routines = h.routines := r3
  rw [o3] at o4
  generalize (opens f .dmd h3).2 = h4 at o4 r4 ⊢
  unfold withFile
  cases e5 : (opens f .fnm h4).1
  · rw [seq_err e5]
    exact ⟨r4, by simp, fun _ => Or.inr (Or.inr ⟨0, by omega, by rw [opens_err e5, o4]; rfl⟩)⟩
  rw [seq_ok e5]
  have o5 := opens_ok e5
  have r5 : (opens f .fnm h4).2.routines = h.routines := r4
  rw [o4] at o5
  generalize (opens f .fnm h4).2 = h5 at o5 r5 ⊢
  simp only [R.deferred, closes]
  have er : ∀ k, (posts 0 k ++ .fnm :: .dmd :: .lock (some .sh) :: h.files).erase .fnm = postFiles k ++ .dmd :: .lock (some .sh) :: h.files := by
    intro k
    rw [erase_app, List.erase_cons_head, posts_eq]
    intro hm
    obtain ⟨i, _, _, h3⟩ := mem_posts.1 hm
    cases h3
  cases e6 : (call f .other h5).1
  · rw [seq_err e6]
    refine ⟨r5, by simp, fun _ => Or.inr (Or.inr ⟨0, by omega, ?_⟩)⟩
    rw [(quiet_call _ _).files, o5]
    exact er 0
  rw [seq_ok e6]
  have o6 : (call f .other h5).2.files = _ := o5
  have r6 : (call f .other h5).2.routines = _ := r5
  generalize (call f .other h5).2 = h6 at o6 r6 ⊢
  cases e7 : (each (shardInit f) n 0 h6).1
  · obtain ⟨k, j, k1, k2, k3, k4, i1, i2⟩ := each_err (round_shardInit f) n 0 h6 e7
    rw [runs_nil] at i2
    refine ⟨by rw [i2]; exact r6, by simp, fun _ => Or.inr (Or.inr ⟨j, by omega, ?_⟩)⟩
    rw [i1, o6]; exact er j
  · obtain ⟨i1, i2⟩ := each_ok (round_shardInit f) n 0 h6 e7
    rw [runs_nil] at i2
    refine ⟨by rw [i2]; exact r6, fun _ => ?_, by simp⟩
    rw [i1, o6]; exact er n

/-- after the lock: the loop over the shards and the shatters -/
theorem rest_outcome (f : Luck) (n ns : Nat) (a : Nat → R) (ha : Round a (fun i => [.serve i])) (h : Held) :
    (((each a n 0).seq (startShatter f ns)) h).1 = true ∧ (((each a n 0).seq (startShatter f ns)) h).2.files = postFiles n ++ h.files ∧
      (((each a n 0).seq (startShatter f ns)) h).2.routines = shattering ns ++ (serving n ++ h.routines) ∨
    (((each a n 0).seq (startShatter f ns)) h).1 = false ∧ ∃ k j l, k ≤ j ∧ j ≤ k + 1 ∧ j ≤ n ∧ l ≤ ns ∧
      (((each a n 0).seq (startShatter f ns)) h).2.files = postFiles j ++ h.files ∧
      (((each a n 0).seq (startShatter f ns)) h).2.routines = shattering l ++ (serving k ++ h.routines) := by
  cases e1 : (each a n 0 h).1
  · rw [seq_err e1]
    obtain ⟨k, j, k1, k2, k3, k4, i1, i2⟩ := each_err ha n 0 h e1
    rw [runs_serve] at i2
    exact Or.inr ⟨rfl, k, j, 0, k1, k2, k3, by omega, by rw [i1, posts_eq], by rw [i2, serves_eq]; rfl⟩
  · rw [seq_ok e1]
    obtain ⟨i1, i2⟩ := each_ok ha n 0 h e1
    rw [runs_serve] at i2
    obtain ⟨l, l1, l2, l3, l4⟩ := startShatter_at f ns 0 (each a n 0 h).2
    unfold startShatter
    cases e2 : (each (fun i => (call f .other).seq (starts (.shatter i))) ns 0 (each a n 0 h).2).1
    · exact Or.inr ⟨rfl, n, n, l, by omega, by omega, by omega, l1, by rw [l3, i1, posts_eq], by rw [l4, i2, serves_eq, shatters_eq]⟩
    · have := l2 e2; subst this
      exact Or.inl ⟨rfl, by rw [l3, i1, posts_eq], by rw [l4, i2, serves_eq, shatters_eq]⟩

theorem locked_outcome (f : Luck) (n ns : Nat) (m : Lock.Mode) (pre b c d rest : R) (hp : Quiet pre) (hb : Quiet b) (hc : Quiet c) (hd : Quiet d)
    (hr : ∀ h : Held, (rest h).1 = true ∧ (rest h).2.files = postFiles n ++ h.files ∧
        (rest h).2.routines = shattering ns ++ (serving n ++ h.routines) ∨
      (rest h).1 = false ∧ ∃ k j l, k ≤ j ∧ j ≤ k + 1 ∧ j ≤ n ∧ l ≤ ns ∧ (rest h).2.files = postFiles j ++ h.files ∧
        (rest h).2.routines = shattering l ++ (serving k ++ h.routines)) (h : Held) :
    (((pre.seq ((lockNew f).seq ((flock f m).seq (b.seq (c.seq (d.seq rest)))))) h).1 = true →
      ((pre.seq ((lockNew f).seq ((flock f m).seq (b.seq (c.seq (d.seq rest)))))) h).2.files = postFiles n ++ .lock (some m) :: h.files ∧
      ((pre.seq ((lockNew f).seq ((flock f m).seq (b.seq (c.seq (d.seq rest)))))) h).2.routines = shattering ns ++ (serving n ++ h.routines)) ∧
    (((pre.seq ((lockNew f).seq ((flock f m).seq (b.seq (c.seq (d.seq rest)))))) h).1 = false →
      (((pre.seq ((lockNew f).seq ((flock f m).seq (b.seq (c.seq (d.seq rest)))))) h).2.files = h.files ∧
        ((pre.seq ((lockNew f).seq ((flock f m).seq (b.seq (c.seq (d.seq rest)))))) h).2.routines = h.routines ∧
        ((pre h).1 = false ∨ f .opening (pre h).2.step = false)) ∨
      ∃ k j l m', k ≤ j ∧ j ≤ k + 1 ∧ j ≤ n ∧ l ≤ ns ∧ (0 < j + l → m' = some m) ∧
        ((pre.seq ((lockNew f).seq ((flock f m).seq (b.seq (c.seq (d.seq rest)))))) h).2.files = postFiles j ++ .lock m' :: h.files ∧
        ((pre.seq ((lockNew f).seq ((flock f m).seq (b.seq (c.seq (d.seq rest)))))) h).2.routines = shattering l ++ (serving k ++ h.routines)) := by
  cases e0 : (pre h).1
  · rw [seq_err e0]
    exact ⟨by simp, fun _ => Or.inl ⟨hp.files h, hp.routines h, by simp⟩⟩
  rw [seq_ok e0]
  have o0 := hp.files h
  have r0 := hp.routines h
  generalize (pre h).2 = h0 at o0 r0 ⊢
  cases e1 : (lockNew f h0).1
  · rw [seq_err e1]
    exact ⟨by simp, fun _ => Or.inl ⟨by rw [lockNew, opens_err e1, o0], r0, Or.inr e1⟩⟩
  rw [seq_ok e1]
  have o1 : (lockNew f h0).2.files = .lock none :: h0.files := opens_ok e1
  have r1 : (lockNew f h0).2.routines = h.routines := r0
  rw [o0] at o1
  generalize (lockNew f h0).2 = h1 at o1 r1 ⊢
  have stop : ∀ (b' : Bool) (h' : Held) (m' : Option Lock.Mode), h'.files = .lock m' :: h.files → h'.routines = h.routines →
      ((b', h').1 = false → ((b', h').2.files = h.files ∧ (b', h').2.routines = h.routines ∧ (true = false ∨ f .opening h0.step = false)) ∨
      ∃ k j l m', k ≤ j ∧ j ≤ k + 1 ∧ j ≤ n ∧ l ≤ ns ∧ (0 < j + l → m' = some m) ∧ (b', h').2.files = postFiles j ++ .lock m' :: h.files ∧
        (b', h').2.routines = shattering l ++ (serving k ++ h.routines)) := fun b' h' m' x y _ =>
    Or.inr ⟨0, 0, 0, m', by omega, by omega, by omega, by omega, fun h => absurd h (by omega), x, y⟩
  cases e2 : (flock f m h1).1
  · rw [seq_err e2]
    exact ⟨by simp, stop false _ none (by rw [flock_err e2, o1]) r1⟩
  rw [seq_ok e2]
  have o2 := flock_ok o1 e2
  have r2 : (flock f m h1).2.routines = h.routines := r1
  generalize (flock f m h1).2 = h2 at o2 r2 ⊢
  have o3 := hb.files h2
  have r3 := hb.routines h2
  rw [o2] at o3; rw [r2] at r3
  cases e3 : (b h2).1
  · rw [seq_err e3]
    exact ⟨by simp, stop false _ _ o3 r3⟩
  rw [seq_ok e3]
  generalize (b h2).2 = h3 at o3 r3 ⊢
  have o4 := hc.files h3
  have r4 := hc.routines h3
  rw [o3] at o4; rw [r3] at r4
  cases e4 : (c h3).1
  · rw [seq_err e4]
    exact ⟨by simp, stop false _ _ o4 r4⟩
  rw [seq_ok e4]
  generalize (c h3).2 = h4 at o4 r4 ⊢
  have o5 := hd.files h4
  have r5 := hd.routines h4
  rw [o4] at o5; rw [r4] at r5
  cases e5 : (d h4).1
  · rw [seq_err e5]
    exact ⟨by simp, stop false _ _ o5 r5⟩
  rw [seq_ok e5]
  generalize (d h4).2 = h5 at o5 r5 ⊢
  rcases hr h5 with ⟨x1, x2, x3⟩ | ⟨x1, k, j, l, k1, k2, k3, k4, x2, x3⟩
  · rw [o5] at x2; rw [r5] at x3
    exact ⟨fun _ => ⟨x2, x3⟩, fun e => absurd x1 (by simp [e])⟩
  · rw [o5] at x2; rw [r5] at x3
    exact ⟨fun e => absurd e (by simp [x1]), fun _ => Or.inr ⟨k, j, l, _, k1, k2, k3, k4, fun _ => rfl, x2, x3⟩⟩

theorem indexer_outcome (w : Way) (f : Luck) (n ns : Nat) (h : Held) :
    ((w.opening f n ns h).1 = true → (w.opening f n ns h).2.files = postFiles n ++ .lock (some w.lock) :: h.files ∧
      (w.opening f n ns h).2.routines = shattering ns ++ (serving n ++ h.routines)) ∧
    ((w.opening f n ns h).1 = false →
      ((w.opening f n ns h).2.files = h.files ∧ (w.opening f n ns h).2.routines = h.routines) ∨
      ∃ k j l m', k ≤ j ∧ j ≤ k + 1 ∧ j ≤ n ∧ l ≤ ns ∧ (0 < j + l → m' = some w.lock) ∧
        (w.opening f n ns h).2.files = postFiles j ++ .lock m' :: h.files ∧
        (w.opening f n ns h).2.routines = shattering l ++ (serving k ++ h.routines)) := by
  cases w
  · obtain ⟨a, b⟩ := locked_outcome f n ns .ex _ _ _ _ _ (quiet_call f .other) (quiet_call f .other) (quiet_call f .other) (quiet_call f .other)
      (rest_outcome f n ns _ (round_create f)) h
    exact ⟨a, fun e => (b e).imp (fun x => ⟨x.1, x.2.1⟩) id⟩
  · obtain ⟨a, b⟩ := locked_outcome f n ns .sh _ _ _ _ _ (quiet_readConfig f) (quiet_call f .other) (quiet_readfiles f) (quiet_call f .other)
      (rest_outcome f n ns _ (round_append f)) h
    exact ⟨a, fun e => (b e).imp (fun x => ⟨x.1, x.2.1⟩) id⟩

/-! ## C77 -/

/-- An index that was opened and then closed holds nothing, whatever calls fail while it is closed. -/
theorem C77_index (f g : Luck) (n : Nat) (h : Held) (ok : (openIndex f n h).1 = true) :
    (indexClose g n (openIndex f n h).2).2.files = h.files ∧ (indexClose g n (openIndex f n h).2).2.routines = h.routines := by
  obtain ⟨r, o, _⟩ := openIndex_outcome f n h
  replace o := o ok
  generalize (openIndex f n h).2 = h1 at o r ⊢
  simp only [indexClose, R.deferred, R.both]
  obtain ⟨a1, a2⟩ := lockClose_frees g (eachAll (shardIndexClose g) n 0 (closes g .dmd h1).2).2
  obtain ⟨b1, b2⟩ := eachAll_close (a := shardIndexClose g) (fun i h => ⟨rfl, rfl⟩) n 0 (closes g .dmd h1).2 (.lock (some .sh) :: h.files) (by
    show h1.files.erase .dmd = _
    rw [o, ← posts_eq, erase_app, List.erase_cons_head]
    intro hm
    obtain ⟨i, _, _, h3⟩ := mem_posts.1 hm
    cases h3)
  rw [a1, a2, b1, b2]
  exact ⟨by simp [List.eraseP_cons, Handle.isLock], r⟩

/-- The closing of an indexer, exactly: the goroutines have ended, the lock is given up, and the posting files are closed unless the
configuration, the list of files or the document records could not be written. -/
theorem close_outcome (w : Way) (f g : Luck) (n ns : Nat) (l : List Bool) (dirty : Bool) (h : Held) (ok : (w.opening f n ns h).1 = true) :
    (indexerClose g n ns dirty (adds g l (w.opening f n ns h).2).2).2.routines = h.routines ∧
    ((indexerClose g n ns dirty (adds g l (w.opening f n ns h).2).2).2.files = h.files ∨
      (indexerClose g n ns dirty (adds g l (w.opening f n ns h).2).2).1 = false ∧
      (indexerClose g n ns dirty (adds g l (w.opening f n ns h).2).2).2.files = postFiles n ++ h.files) := by
  obtain ⟨o, r⟩ := (indexer_outcome w f n ns h).1 ok
  have o' := (quiet_adds g l).files (w.opening f n ns h).2
  have r' := (quiet_adds g l).routines (w.opening f n ns h).2
  rw [o] at o'; rw [r] at r'
  generalize (adds g l (w.opening f n ns h).2).2 = h1 at o' r' ⊢
  simp only [indexerClose, R.deferred]
  have lk : ∀ h2 : Held, h2.files = h1.files → (lockClose g h2).2.files = postFiles n ++ h.files := by
    intro h2 e
    rw [(lockClose_frees g h2).1, e, o', ← posts_eq, posts_eraseP]
  obtain ⟨s1, s2, s3⟩ := stops_all n ns h1 h.routines (by rw [r', serves_eq, shatters_eq])
  rw [seq_ok s1]
  generalize (stops n ns h1).2 = h2 at s2 s3 ⊢
  have q1 := quiet_configWrite g
  have q2 := quiet_writeFiles g
  have q3 := quiet_adderClose g dirty
  cases e1 : (configWrite g h2).1
  · rw [seq_err e1]
    exact ⟨by rw [(lockClose_frees _ _).2, q1.routines, s3], Or.inr ⟨rfl, lk _ (by rw [q1.files, s2])⟩⟩
  rw [seq_ok e1]
  have o1 := q1.files h2
  have r1 := q1.routines h2
  rw [s2] at o1; rw [s3] at r1
  generalize (configWrite g h2).2 = h3 at o1 r1 ⊢
  cases e2 : (writeFiles g h3).1
  · rw [seq_err e2]
    exact ⟨by rw [(lockClose_frees _ _).2, q2.routines, r1], Or.inr ⟨rfl, lk _ (by rw [q2.files, o1])⟩⟩
  rw [seq_ok e2]
  have o2 := q2.files h3
  have r2 := q2.routines h3
  rw [o1] at o2; rw [r1] at r2
  generalize (writeFiles g h3).2 = h4 at o2 r2 ⊢
  cases e3 : (adderClose g dirty h4).1
  · rw [seq_err e3]
    exact ⟨by rw [(lockClose_frees _ _).2, q3.routines, r2], Or.inr ⟨rfl, lk _ (by rw [q3.files, o2])⟩⟩
  rw [seq_ok e3]
  have o3 := q3.files h4
  have r3 := q3.routines h4
  rw [o2] at o3; rw [r2] at r3
  generalize (adderClose g dirty h4).2 = h5 at o3 r3 ⊢
  obtain ⟨b1, b2⟩ := eachAll_close (a := shardClose g) (shardClose_frees g) n 0 h5 (.lock (some w.lock) :: h.files) (by rw [o3, o', posts_eq])
  refine ⟨by rw [(lockClose_frees _ _).2, b2, r3], Or.inl ?_⟩
  rw [(lockClose_frees _ _).1, b1]
  simp [List.eraseP_cons, Handle.isLock]

/-- A session that is opened and whose `Close` returns nil holds nothing, whatever `Add` returned; and its goroutines have ended even when
`Close` fails. -/
theorem C77_session (w : Way) (f g : Luck) (n ns : Nat) (l : List Bool) (dirty : Bool) (h : Held) (ok : (w.opening f n ns h).1 = true) :
    (indexerClose g n ns dirty (adds g l (w.opening f n ns h).2).2).2.routines = h.routines ∧
    ((indexerClose g n ns dirty (adds g l (w.opening f n ns h).2).2).1 = true →
      (indexerClose g n ns dirty (adds g l (w.opening f n ns h).2).2).2.files = h.files) := by
  obtain ⟨a, b⟩ := close_outcome w f g n ns l dirty h ok
  refine ⟨a, fun e => ?_⟩
  rcases b with b | ⟨b, _⟩
  · exact b
  · rw [e] at b; cases b

/-- Whatever fails, `Close` gives up the lock and leaves no other file open than the posting files. -/
theorem C77_close_partial (w : Way) (f g : Luck) (n ns : Nat) (l : List Bool) (dirty : Bool) (h : Held) (ok : (w.opening f n ns h).1 = true) :
    (indexerClose g n ns dirty (adds g l (w.opening f n ns h).2).2).2.files = h.files ∨
    (indexerClose g n ns dirty (adds g l (w.opening f n ns h).2).2).2.files = postFiles n ++ h.files :=
  (close_outcome w f g n ns l dirty h ok).2.imp id And.right

/-- Whatever fails in it, an opening function leaves open nothing but the lock file, the document records (of a reader) and posting files: the
configuration, the list of files and the heads of the lists are closed on every path. -/
theorem C77_open_partial (f : Luck) (n ns : Nat) (h : Held) :
    (∃ l, (openIndex f n h).2.files = l ++ h.files ∧ l.length ≤ n + 2 ∧
      ∀ x ∈ l, (∃ m, x = .lock m) ∨ x = .dmd ∨ ∃ i < n, x = .pos i) ∧ (openIndex f n h).2.routines = h.routines ∧
    ∀ w : Way, ∃ l r, (w.opening f n ns h).2.files = l ++ h.files ∧ l.length ≤ n + 1 ∧
      (∀ x ∈ l, (∃ m, x = .lock m) ∨ ∃ i < n, x = .pos i) ∧ (w.opening f n ns h).2.routines = r ++ h.routines ∧ r.length ≤ n + ns := by
  have mp : ∀ {x : Handle} {k : Nat}, k ≤ n → x ∈ postFiles k → ∃ i < n, x = .pos i := by
    intro x k hk hx
    rw [← posts_eq] at hx
    obtain ⟨i, _, h2, h3⟩ := mem_posts.1 hx
    exact ⟨i, by omega, h3⟩
  have lp : ∀ k, (postFiles k).length = k := by intro k; simp [postFiles]
  have ls : ∀ k, (serving k).length = k := by intro k; simp [serving]
  have lh : ∀ k, (shattering k).length = k := by intro k; simp [shattering]
  have full : ∀ k ≤ n, ∃ l, postFiles k ++ .dmd :: .lock (some .sh) :: h.files = l ++ h.files ∧ l.length ≤ n + 2 ∧
      ∀ x ∈ l, (∃ m, x = .lock m) ∨ x = .dmd ∨ ∃ i < n, x = .pos i := by
    intro k hk
    refine ⟨postFiles k ++ [.dmd, .lock (some .sh)], by simp, by simp [lp]; omega, fun x hx => ?_⟩
    rcases List.mem_append.1 hx with hx | hx
    · exact Or.inr (Or.inr (mp hk hx))
    · simp only [List.mem_cons, List.not_mem_nil, or_false] at hx
      rcases hx with rfl | rfl
      · exact Or.inr (Or.inl rfl)
      · exact Or.inl ⟨_, rfl⟩
  obtain ⟨r, o, e⟩ := openIndex_outcome f n h
  refine ⟨?_, r, fun w => ?_⟩
  · cases hb : (openIndex f n h).1
    · rcases e hb with ⟨e, _⟩ | ⟨m, e⟩ | ⟨k, hk, e⟩
      · exact ⟨[], by simpa using e, by simp, by simp⟩
      · exact ⟨[.lock m], by simpa using e, by simp, by simp⟩
      · rw [e]; exact full k (by omega)
    · rw [o hb]; exact full n (Nat.le_refl n)
  · obtain ⟨o, e⟩ := indexer_outcome w f n ns h
    have full : ∀ j ≤ n, ∀ k ≤ n, ∀ l ≤ ns, ∀ m, ∃ l' r, postFiles j ++ .lock m :: h.files = l' ++ h.files ∧ l'.length ≤ n + 1 ∧
        (∀ x ∈ l', (∃ m, x = .lock m) ∨ ∃ i < n, x = .pos i) ∧ shattering l ++ (serving k ++ h.routines) = r ++ h.routines ∧ r.length ≤ n + ns := by
      intro j hj k hk l hl m
      refine ⟨postFiles j ++ [.lock m], shattering l ++ serving k, by simp, by simp [lp]; omega, fun x hx => ?_, by simp, by simp [ls, lh]; omega⟩
      rcases List.mem_append.1 hx with hx | hx
      · exact Or.inr (mp hj hx)
      · simp only [List.mem_cons, List.not_mem_nil, or_false] at hx
        exact Or.inl ⟨_, hx⟩
    cases hb : (w.opening f n ns h).1
    · rcases e hb with ⟨e1, e2⟩ | ⟨k, j, l, m', k1, k2, k3, k4, _, e1, e2⟩
      · exact ⟨[], [], by simpa using e1, by simp, by simp, by simpa using e2, by simp⟩
      · rw [e1, e2]; exact full j k3 k (by omega) l k4 m'
    · rw [(o hb).1, (o hb).2]; exact full n (Nat.le_refl n) n (Nat.le_refl n) ns (Nat.le_refl ns) _

/-- **False as stated for openings that fail**: whenever the lock file could be opened, it stays open. -/
theorem C77_false_open (f : Luck) (n : Nat) (h : Held) (bad : (openIndex f n h).1 = false) :
    f .opening h.step = false ∨ ∃ l m, (openIndex f n h).2.files = l ++ .lock m :: h.files := by
  rcases (openIndex_outcome f n h).2.2 bad with ⟨_, e⟩ | ⟨m, e⟩ | ⟨k, _, e⟩
  · exact Or.inl e
  · exact Or.inr ⟨[], m, e⟩
  · exact Or.inr ⟨postFiles k ++ [.dmd], _, by simpa using e⟩

/-- **False as stated for openings that fail**: an index that exists already is not created anew (`os.Mkdir` fails), the lock file stays open with
the exclusive lock. -/
theorem C77_false_exists (n ns : Nat) (h : Held) :
    createIndexer (fun _ k => k != h.step + 3) n ns h = (false, { h with step := h.step + 4, files := .lock (some .ex) :: h.files }) := by
  simp [createIndexer, R.seq, call, lockNew, opens, flock, relock, Handle.isLock]

/-- when everything goes well up to step `S`, a round of the creating loop takes four steps -/
theorem create_round (S : Nat) (i : Nat) (h : Held) (hs : h.step + 4 ≤ S) :
    ((initCreate (fun _ k => decide (k < S)) i).seq (starts (.serve i))) h =
      (true, { step := h.step + 4, files := .pos i :: h.files, routines := .serve i :: h.routines }) := by
  have h0 : h.step < S := by omega
  have h1 : h.step + 1 < S := by omega
  have h2 : h.step + 1 + 1 < S := by omega
  have h3 : h.step + 1 + 1 + 1 < S := by omega
  simp only [initCreate, withFile, R.seq, opens, h0, R.deferred, call, h1, h2, decide_true, if_true, closes, starts, Prod.mk.injEq, true_and,
    Held.mk.injEq, and_true]
  rw [List.erase_cons_tail (by simp), List.erase_cons_head]

theorem create_stuck (S : Nat) : ∀ (k r s : Nat) (h : Held), h.step + 4 * k = S →
    ∃ st, each (fun i => (initCreate (fun _ k => decide (k < S)) i).seq (starts (.serve i))) (k + 1 + r) s h =
      (false, { step := st, files := posts s k ++ h.files, routines := serves s k ++ h.routines })
  | 0, r, s, h, hs => by
    have h0 : ¬ h.step < S := by omega
    rw [show 0 + 1 + r = r + 1 by omega, each]
    have e : ((initCreate (fun _ k => decide (k < S)) s).seq (starts (.serve s))) h = (false, { h with step := h.step + 1 }) := by
      simp [initCreate, withFile, R.seq, opens, h0]
    rw [seq_err (by rw [e]), e]
    exact ⟨h.step + 1, rfl⟩
  | k + 1, r, s, h, hs => by
    rw [show k + 1 + 1 + r = (k + 1 + r) + 1 by omega, each]
    have e := create_round S s h (by omega)
    rw [seq_ok (by rw [e]), e]
    obtain ⟨st, ih⟩ := create_stuck S k r (s + 1) { step := h.step + 4, files := .pos s :: h.files, routines := .serve s :: h.routines } (by
      show h.step + 4 + 4 * k = S; omega)
    refine ⟨st, ?_⟩
    rw [ih, posts_cons, serves_cons]
    simp

/-- **False as stated for openings that fail**: when shard `k` cannot be created, the posting files of all shards before it stay open, their
goroutines wait for ever for postings that nobody can send, and the lock is kept. -/
theorem C77_false_shard (n ns k : Nat) (hk : k < n) (h : Held) :
    ∃ f, (createIndexer f n ns h).1 = false ∧ (createIndexer f n ns h).2.files = postFiles k ++ .lock (some .ex) :: h.files ∧
      (createIndexer f n ns h).2.routines = serving k ++ h.routines := by
  refine ⟨fun _ j => decide (j < h.step + 6 + 4 * k), ?_⟩
  obtain ⟨st, e⟩ := create_stuck (h.step + 6 + 4 * k) k (n - (k + 1)) 0
    { step := h.step + 6, files := .lock (some .ex) :: h.files, routines := h.routines } rfl
  rw [show k + 1 + (n - (k + 1)) = n by omega] at e
  have h0 : h.step < h.step + 6 + 4 * k := by omega
  have h1 : h.step + 1 < h.step + 6 + 4 * k := by omega
  have h2 : h.step + 1 + 1 < h.step + 6 + 4 * k := by omega
  have h3 : h.step + 1 + 1 + 1 < h.step + 6 + 4 * k := by omega
  have h4 : h.step + 1 + 1 + 1 + 1 < h.step + 6 + 4 * k := by omega
  have h5 : h.step + 1 + 1 + 1 + 1 + 1 < h.step + 6 + 4 * k := by omega
  have e' : createIndexer (fun _ j => decide (j < h.step + 6 + 4 * k)) n ns h = (false, {
      step := st, files := posts 0 k ++ .lock (some .ex) :: h.files, routines := serves 0 k ++ h.routines }) := by
    simp only [createIndexer, R.seq, call, lockNew, opens, flock, newAdder, relock, Handle.isLock, h0, h1, h2, h3, h4, h5, decide_true, if_true]
    rw [show h.step + 1 + 1 + 1 + 1 + 1 + 1 = h.step + 6 by omega]
    simp only [e]
    rfl
  rw [e', posts_eq, serves_eq]
  exact ⟨rfl, rfl, rfl⟩

/-- **False as stated for a closing that fails**: when the configuration cannot be written, `Close` returns with all posting files open. -/
theorem C77_false_close (w : Way) (f : Luck) (n ns : Nat) (dirty : Bool) (h : Held) (ok : (w.opening f n ns h).1 = true) :
    (indexerClose (fun c _ => c != .opening) n ns dirty (w.opening f n ns h).2).1 = false ∧
    (indexerClose (fun c _ => c != .opening) n ns dirty (w.opening f n ns h).2).2.files = postFiles n ++ h.files := by
  obtain ⟨o, r⟩ := (indexer_outcome w f n ns h).1 ok
  generalize (w.opening f n ns h).2 = h1 at o r ⊢
  obtain ⟨s1, s2, s3⟩ := stops_all n ns h1 h.routines (by rw [r, serves_eq, shatters_eq])
  simp only [indexerClose, R.deferred]
  rw [seq_ok s1]
  generalize (stops n ns h1).2 = h2 at s2 s3 ⊢
  have e1 : configWrite (fun c _ => c != .opening) h2 = (false, { h2 with step := h2.step + 1 }) := by
    simp [configWrite, withFile, R.seq, opens]
  rw [seq_err (by rw [e1]), e1]
  refine ⟨rfl, ?_⟩
  rw [(lockClose_frees _ _).1]
  show h2.files.eraseP Handle.isLock = _
  rw [s2, o, ← posts_eq, posts_eraseP]

/-- **False as stated for errors**: `Close` of an indexer returns nil although every `close` fails, of the five kinds of files that were written and
of the lock file. -/
theorem C77_false_unreported (n ns : Nat) (dirty : Bool) (h : Held) :
    (indexerClose (fun c _ => c != .closing) n ns dirty h).1 = true := by
  have all : ∀ (a : Nat → R), (∀ i h, (a i h).1 = true) → ∀ n s h, (each a n s h).1 = true := by
    intro a ha n
    induction n with
    | zero => intro s h; rfl
    | succ n ih => intro s h; rw [each, seq_ok (ha s h)]; exact ih _ _
  have all' : ∀ (a : Nat → R), (∀ i h, (a i h).1 = true) → ∀ n s h, (eachAll a n s h).1 = true := by
    intro a ha n
    induction n with
    | zero => intro s h; rfl
    | succ n ih => intro s h; simp only [eachAll, R.both]; rw [ha, ih]; rfl
  have s1 : ∀ h, (stops n ns h).1 = true := by
    intro h
    unfold stops
    rw [seq_ok (all _ (fun _ _ => rfl) _ _ _)]
    exact all _ (fun _ _ => rfl) _ _ _
  have s2 : ∀ h, (configWrite (fun c _ => c != .closing) h).1 = true := fun h => rfl
  have s3 : ∀ h, (writeFiles (fun c _ => c != .closing) h).1 = true := fun h => rfl
  have s4 : ∀ h, (adderClose (fun c _ => c != .closing) dirty h).1 = true := by
    intro h; cases dirty <;> rfl
  have s5 : ∀ i h, (shardClose (fun c _ => c != .closing) i h).1 = true := fun i h => rfl
  simp only [indexerClose, R.deferred]
  rw [seq_ok (s1 _), seq_ok (s2 _), seq_ok (s3 _), seq_ok (s4 _)]
  exact all' _ s5 _ _ _

/-- **False as stated for errors**: `Close` of an index returns nil although unlocking and closing the lock file failed: the error is assigned to a
variable that is not the result. -/
theorem C77_false_lock_error (n : Nat) (h : Held) :
    (∀ h, (lockClose (fun c _ => c != .locking) h).1 = false) ∧ (indexClose (fun c _ => c != .locking) n h).1 = true := by
  refine ⟨fun h => rfl, ?_⟩
  have all' : ∀ n s h, (eachAll (shardIndexClose (fun c _ => c != .locking)) n s h).1 = true := by
    intro n
    induction n with
    | zero => intro s h; rfl
    | succ n ih => intro s h; simp only [eachAll, R.both]; rw [ih]; rfl
  simp only [indexClose, R.deferred, R.both]
  rw [all']
  rfl

/-- when nothing fails, everything opens -/
theorem C77_nonvacuous (w : Way) (n ns : Nat) (h : Held) :
    (openIndex (fun _ _ => true) n h).1 = true ∧ (w.opening (fun _ _ => true) n ns h).1 = true := by
  have all : ∀ (a : Nat → R), (∀ i h, (a i h).1 = true) → ∀ n s h, (each a n s h).1 = true := by
    intro a ha n
    induction n with
    | zero => intro s h; rfl
    | succ n ih => intro s h; rw [each, seq_ok (ha s h)]; exact ih _ _
  constructor
  · exact all (shardInit fun _ _ => true) (fun _ _ => rfl) n 0 _
  · cases w
    · show (createIndexer _ _ _ _).1 = true
      unfold createIndexer
      rw [seq_ok rfl, seq_ok rfl, seq_ok rfl, seq_ok rfl, seq_ok rfl, seq_ok rfl, seq_ok (all _ (fun _ _ => rfl) _ _ _)]
      exact all _ (fun _ _ => rfl) _ _ _
    · show (openIndexer _ _ _ _).1 = true
      unfold openIndexer
      rw [seq_ok rfl, seq_ok rfl, seq_ok rfl, seq_ok rfl, seq_ok rfl, seq_ok rfl, seq_ok (all _ (fun _ _ => rfl) _ _ _)]
      exact all _ (fun _ _ => rfl) _ _ _

end Dupi.Props
