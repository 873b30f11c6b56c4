import Verif.Model.Making
import Verif.Props.MakeAny
import Verif.Props.Disk
/-! # C90: making an index that failed can be tried again

False: a failure after `os.Mkdir` leaves the directory, and from then on no call of the package makes an index there, opens it or removes it. -/

namespace Dupi.Props
open Spec Disk

/-- what a failed attempt leaves: a directory with nothing but the first files of shards -/
def Debris (d : Dir) : Prop := d .cfg = none ∧ d .fnm = none ∧ d .dmd = none

theorem debris_empty : Debris Dir.empty := ⟨rfl, rfl, rfl⟩

/-- operations on files of shards -/
def OnShards (ops : List Dupi.Op) : Prop := ∀ op ∈ ops, ∃ i, op.file = .iix i ∨ op.file = .pos i

theorem onShards_writes (f : File) (hf : ∃ i, f = .iix i ∨ f = .pos i) (off : Nat) (bs : List Bytes) : OnShards (Dupi.Op.writes f off bs) := by
  induction bs generalizing off with
  | nil => intro op h; cases h
  | cons b bs ih =>
    intro op h
    rcases List.mem_cons.mp h with h | h
    · subst h; exact hf
    · exact ih _ op h

theorem onShards_create (n i : Nat) : OnShards (Indexer.createOps n i) := by
  induction n generalizing i with
  | zero => intro op h; cases h
  | succ n ih =>
    intro op h
    rcases List.mem_append.mp h with h | h
    · unfold ShardIndexer.initCreateOps at h
      rcases List.mem_append.mp h with h | h
      · rcases List.mem_cons.mp h with h | h
        · subst h; exact ⟨i, .inl rfl⟩
        · exact onShards_writes _ ⟨i, .inl rfl⟩ _ _ op h
      · rw [List.mem_singleton] at h; subst h; exact ⟨i, .inr rfl⟩
    · exact ih _ op h

theorem debris_runF {ops : List Dupi.Op} (ho : OnShards ops) {d : Dir} (hd : Debris d) (φ : Fates) : Debris (d.runF ops φ).2.1 := by
  induction ops generalizing d φ with
  | nil => exact hd
  | cons op ops ih =>
    obtain ⟨i, hi⟩ := ho op List.mem_cons_self
    have keep : ∀ (r : Option Bytes), Debris (fun g => if g = op.file then r else d g) := by
      intro r
      obtain ⟨h1, h2, h3⟩ := hd
      rcases hi with hi | hi <;> rw [hi] <;> exact ⟨by simpa using h1, by simpa using h2, by simpa using h3⟩
    rw [Dir.runF]
    cases Fates.now φ with
    | none =>
      refine ih (fun op h => ho op (List.mem_cons_of_mem _ h)) ?_ _
      have := keep (op.onFile (d op.file))
      have e : d.apply op = fun g => if g = op.file then op.onFile (d op.file) else d g := by
        funext g
        unfold Dir.apply
        by_cases hg : g = op.file
        · rw [if_pos hg, if_pos hg, hg]
        · rw [if_neg hg, if_neg hg]
      rw [e]; exact this
    | some k =>
      have := keep (op.onFileFailed k (d op.file))
      have e : (fun g => if g = op.file then op.onFileFailed k (d g) else d g) = fun g => if g = op.file then op.onFileFailed k (d op.file) else d g := by
        funext g
        by_cases hg : g = op.file
        · rw [if_pos hg, if_pos hg, hg]
        · rw [if_neg hg, if_neg hg]
      show Debris (fun g => if g = op.file then op.onFileFailed k (d g) else d g)
      rw [e]; exact this

theorem runF_ok {ops : List Dupi.Op} {d d' : Dir} {φ φ' : Fates} (h : d.runF ops φ = (true, d', φ')) : d' = d.run ops := by
  induction ops generalizing d φ with
  | nil => rw [Dir.runF] at h; cases h; rfl
  | cons op ops ih =>
    rw [Dir.runF] at h
    cases hn : Fates.now φ with
    | none => rw [hn] at h; exact ih h
    | some k => rw [hn] at h; cases h

theorem runF_nil (ops : List Dupi.Op) (d : Dir) : d.runF ops [] = (true, d.run ops, []) := by
  induction ops generalizing d with
  | nil => rfl
  | cons op ops ih => rw [Dir.runF]; exact ih _

theorem makeRest_debris (c : Config) (n : Nat) (φ : Fates) : Debris (makeRest c n φ).2 := by
  unfold makeRest
  cases c.tokenConfig.fromConfig with
  | error e => exact debris_empty
  | ok _ =>
  cases Fates.now φ with
  | some k => exact debris_empty
  | none =>
  cases Dmd.newAdder none c.docFlushRate with
  | error e => exact debris_empty
  | ok a =>
  have hd := debris_runF (onShards_create n 0) debris_empty φ.tail
  unfold makeShardsF
  simp only
  generalize Dir.empty.runF (Indexer.createOps n 0) φ.tail = r at hd ⊢
  obtain ⟨ok, d, ρ⟩ := r
  cases ok with
  | false => exact hd
  | true =>
    cases Indexer.makeBlotters c with
    | error e => exact hd
    | ok bs => exact hd

/-- **C90.**  Whatever fails and wherever: the disk is as before, or there was no directory and now there is one without cfg.json, files.fnm and dmd. -/
theorem C90_left (k : Disk) (cwd : Bytes) (c : Config) (φ : Fates) : (make k cwd c φ).2 = k ∨
    (k (resolve cwd c.indexRoot) = none ∧ ∃ d, Debris d ∧ (make k cwd c φ).2 = k.set (resolve cwd c.indexRoot) d) := by
  unfold make
  cases Fates.now φ with
  | some _ => exact .inl rfl
  | none =>
  cases Fates.now φ.tail with
  | some _ => exact .inl rfl
  | none =>
  cases Indexer.makeShards c with
  | error e => exact .inl rfl
  | ok n =>
  simp only
  cases Fates.now φ.tail.tail with
  | some _ => exact .inl rfl
  | none =>
  cases hk : k (resolve cwd c.indexRoot) with
  | some _ => exact .inl rfl
  | none => exact .inr ⟨rfl, _, makeRest_debris c n _, rfl⟩

/-- **C90.**  If an indexer is returned, there was no directory before, the configuration is one with which an indexer is returned when nothing fails,
it is the same indexer, and the directory is as it should be at this moment: all calls that matter succeeded. -/
theorem C90_made {k k' : Disk} {cwd : Bytes} {c : Config} {φ : Fates} {x : Indexer} (h : make k cwd c φ = (.ok x, k')) :
    k (resolve cwd c.indexRoot) = none ∧ Indexer.create c = .ok x ∧
      k' = k.set (resolve cwd c.indexRoot) (Dir.empty.run (Indexer.createOps c.numShards.toNat 0)) := by
  unfold make at h
  cases h1 : Fates.now φ with
  | some _ => rw [h1] at h; cases h
  | none =>
  rw [h1] at h; simp only at h
  cases h2 : Fates.now φ.tail with
  | some _ => rw [h2] at h; cases h
  | none =>
  rw [h2] at h; simp only at h
  cases h3 : Indexer.makeShards c with
  | error e => rw [h3] at h; cases h
  | ok n =>
  rw [h3] at h; simp only at h
  cases h4 : Fates.now φ.tail.tail with
  | some _ => rw [h4] at h; cases h
  | none =>
  rw [h4] at h
  cases hk : k (resolve cwd c.indexRoot) with
  | some _ => rw [hk] at h; cases h
  | none =>
  rw [hk] at h; simp only at h
  have hn : n = c.numShards.toNat := by
    unfold Indexer.makeShards at h3
    by_cases hc : c.numShards < 0
    · rw [if_pos hc] at h3; cases h3
    · rw [if_neg hc] at h3; cases h3; rfl
  injection h with e1 e2
  refine ⟨rfl, ?_⟩
  rw [← e2]
  clear e2
  generalize φ.tail.tail.tail = ρ at e1 ⊢
  unfold makeRest at e1 ⊢
  cases h5 : c.tokenConfig.fromConfig with
  | error e => rw [h5] at e1; cases e1
  | ok _ =>
  rw [h5] at e1; simp only at e1 ⊢
  cases h6 : Fates.now ρ with
  | some _ => rw [h6] at e1; cases e1
  | none =>
  rw [h6] at e1; simp only at e1 ⊢
  cases h7 : Dmd.newAdder none c.docFlushRate with
  | error e => rw [h7] at e1; cases e1
  | ok a =>
  rw [h7] at e1; simp only at e1 ⊢
  cases h8 : makeShardsF n 0 ρ.tail with
  | mk ok r =>
  obtain ⟨d, σ⟩ := r
  rw [h8] at e1
  cases ok with
  | false => cases e1
  | true =>
  simp only at e1 ⊢
  have hd := runF_ok h8
  cases h9 : Indexer.makeBlotters c with
  | error e => rw [h9] at e1; cases e1
  | ok bs =>
  rw [h9] at e1
  cases e1
  refine ⟨?_, by simp only; rw [hd, hn]⟩
  simp only [Indexer.create, h3, h5, h7, h9, bind, Except.bind, pure, Except.pure]

/-- **C90.**  Where there is no directory, and if no call fails, exactly the configurations of C84_create make an index; with any of the others with a
number of shards that is not negative, the attempt leaves the directory. -/
theorem C90_config (k : Disk) (cwd : Bytes) (c : Config) (hk : k (resolve cwd c.indexRoot) = none) (hn : 0 ≤ c.numShards) :
    (make k cwd c []).1 = Indexer.create c ∧ ∃ d, Debris d ∧ (make k cwd c []).2 = k.set (resolve cwd c.indexRoot) d := by
  have h3 : Indexer.makeShards c = .ok c.numShards.toNat := by unfold Indexer.makeShards; rw [if_neg (by omega)]
  have e : make k cwd c [] = ((makeRest c c.numShards.toNat []).1, k.set (resolve cwd c.indexRoot) (makeRest c c.numShards.toNat []).2) := by
    unfold make
    rw [h3, hk]
    rfl
  rw [e]
  refine ⟨?_, _, makeRest_debris _ _ _, rfl⟩
  unfold makeRest
  cases h5 : c.tokenConfig.fromConfig with
  | error e => simp only [Indexer.create, h3, h5, bind, Except.bind]
  | ok _ =>
  cases h7 : Dmd.newAdder none c.docFlushRate with
  | error e => simp only [Indexer.create, h3, h5, h7, bind, Except.bind, Fates.now, List.head?_nil, Option.join_none]
  | ok a =>
  have h8 : makeShardsF c.numShards.toNat 0 [] = (true, Dir.empty.run (Indexer.createOps c.numShards.toNat 0), []) := runF_nil _ _
  cases h9 : Indexer.makeBlotters c with
  | error e => simp only [Indexer.create, h3, h5, h7, h9, h8, bind, Except.bind, Fates.now, List.head?_nil, Option.join_none, List.tail_nil]
  | ok bs => simp only [Indexer.create, h3, h5, h7, h9, h8, bind, Except.bind, pure, Except.pure, Fates.now, List.head?_nil, Option.join_none, List.tail_nil]

/-! ## The directory stays -/

theorem openWith_debris (srt : Sorter) (c : Config) {d : Dir} (hd : Debris d) : Index.openWith srt c d = fail .notExist := by
  unfold Index.openWith
  simp only [Dir.read, hd.2.2, bind, Except.bind]

theorem indexer_openWith_debris (c : Config) {d : Dir} (hd : Debris d) : ∃ e, Indexer.openWith c d = .error e := by
  unfold Indexer.openWith
  cases Indexer.makeShards c with
  | error e => exact ⟨e, rfl⟩
  | ok n =>
  cases h : Dmd.newAdder (d .dmd) c.docFlushRate with
  | error e => exact ⟨e, by simp only [bind, Except.bind]⟩
  | ok a => exact ⟨_, by simp only [Dir.read, hd.2.1, bind, Except.bind]; rfl⟩

theorem dir_none {k : Disk} {p : List Bytes} (h : k p = none) : Debris (k.dir p) := by
  unfold Disk.dir; rw [h]; exact debris_empty

/-- the place a program makes an index at, if it does -/
def makesAt : Try → Option (List Bytes)
  | .op (.create cwd c _) => some (resolve cwd c.indexRoot)
  | .failed cwd c _ => some (resolve cwd c.indexRoot)
  | _ => none

/-- nothing at a proper ancestor of `p` -/
def Alone (k : Disk) (p : List Bytes) : Prop := ∀ q, q <+: p → q ≠ p → k q = none

theorem set_other {k : Disk} {p q : List Bytes} {d : Dir} (h : q ≠ p) : k.set p d q = k q := by unfold Disk.set; rw [if_neg h]

/-- a program that changes the directory at `q`, which can be opened, or makes a directory at `q` -/
theorem tryStep_keeps {u : Uni} {J : CfgCodec} {srt : Sorter} {k k' : Disk} {t : Try} (h : TryStep u J srt k t k') {p : List Bytes} {d : Dir}
    (hp : k p = some d) (hd : Debris d) (ha : Alone k p) (hm : ∀ q, makesAt t = some q → q <+: p → q = p) : k' p = some d ∧ Alone k' p := by
  have hset : ∀ q e, q ≠ p → (q <+: p → q = p) → k.set q e p = some d ∧ Alone (k.set q e) p := by
    intro q e h1 h2
    refine ⟨by rw [set_other (Ne.symm h1)]; exact hp, fun r hr hne => ?_⟩
    rw [set_other (fun e' : r = q => hne (by rw [e'] at hr ⊢; exact h2 hr))]
    exact ha r hr hne
  have hopened : ∀ {cwd root : Bytes} {x : Indexer}, openIndexer J k cwd root = .ok x →
      resolve cwd x.config.indexRoot ≠ p ∧ ¬ resolve cwd x.config.indexRoot <+: p := by
    intro cwd root x hx
    unfold openIndexer at hx
    cases hc : readConfig J k cwd root with
    | error e => rw [hc] at hx; cases hx
    | ok c =>
    rw [hc] at hx
    replace hx : Indexer.openWith c (k.dir (resolve cwd c.indexRoot)) = .ok x := hx
    have hxc : x.config = c := Indexer.openWith_config hx
    rw [hxc]
    have h1 : resolve cwd c.indexRoot ≠ p := by
      intro e
      rw [e] at hx
      obtain ⟨e', he⟩ := indexer_openWith_debris c (d := k.dir p) (by unfold Disk.dir; rw [hp]; exact hd)
      rw [he] at hx; cases hx
    refine ⟨h1, fun hpre => ?_⟩
    obtain ⟨e', he⟩ := indexer_openWith_debris c (dir_none (ha _ hpre h1))
    rw [he] at hx; cases hx
  have hremove : ∀ {kk : Disk} {q : List Bytes}, kk p = some d ∧ Alone kk p → ¬ q <+: p → kk.removeAll q p = some d ∧ Alone (kk.removeAll q) p := by
    intro kk q ⟨g1, g2⟩ hq
    refine ⟨by unfold Disk.removeAll; rw [if_neg hq]; exact g1, fun r hr hne => ?_⟩
    unfold Disk.removeAll
    by_cases g : q <+: r
    · rw [if_pos g]
    · rw [if_neg g]; exact g2 r hr hne
  cases h with
  | op h =>
    cases h with
    | create h1 _ _ =>
      refine hset _ _ (fun e => ?_) (hm _ rfl)
      rw [e, hp] at h1; cases h1
    | append h1 _ => exact hset _ _ (hopened h1).1 (fun h => absurd h (hopened h1).2)
    | remove h1 =>
      rename_i cwd root x
      refine hremove ⟨hp, ha⟩ ?_
      unfold openIndex at h1
      cases hc : readConfig J k cwd root with
      | error e => rw [hc] at h1; cases h1
      | ok c =>
      rw [hc] at h1
      replace h1 : Index.openWith srt c (k.dir (resolve cwd c.indexRoot)) = .ok x := h1
      have hxc : x.config = c := Index.openWith_config h1
      rw [hxc]
      intro hpre
      have hdeb : Debris (k.dir (resolve cwd c.indexRoot)) := by
        by_cases e : resolve cwd c.indexRoot = p
        · rw [e]; unfold Disk.dir; rw [hp]; exact hd
        · exact dir_none (ha _ hpre e)
      rw [openWith_debris srt c hdeb] at h1; cases h1
    | discard h1 _ => exact hremove (hset _ _ (hopened h1).1 (fun h => absurd h (hopened h1).2)) (hopened h1).2
  | failed h =>
    rename_i cwd c φ e
    have hl := C90_left k cwd c φ
    rw [h] at hl
    rcases hl with hl | ⟨h1, d', _, hl⟩
    · simp only at hl; rw [hl]; exact ⟨hp, ha⟩
    · simp only at hl
      rw [hl]
      refine hset _ _ (fun e => ?_) (hm _ rfl)
      rw [e, hp] at h1; cases h1

/-- **C90, false as stated.**  Once an attempt has left a directory, it stays as it is, whatever programs are run: further attempts to make an index
there, with any configuration, opening it, removing it, other indexes anywhere else but above it.  (It is not an index, so it cannot be
opened, so `RemoveIndex` and `RemoveIndexer` cannot remove it.) -/
theorem C90_stuck {u : Uni} {J : CfgCodec} {srt : Sorter} {k k' : Disk} {ts : List Try} (h : Tries u J srt k ts k') {p : List Bytes} {d : Dir}
    (hp : k p = some d) (hd : Debris d) (ha : Alone k p) (hm : ∀ t ∈ ts, ∀ q, makesAt t = some q → q <+: p → q = p) :
    k' p = some d ∧ Alone k' p := by
  induction h with
  | nil => exact ⟨hp, ha⟩
  | snoc _ h ih =>
    obtain ⟨g1, g2⟩ := ih (fun t ht => hm t (List.mem_append_left _ ht))
    exact tryStep_keeps h g1 hd g2 (hm _ (List.mem_append_right _ (List.mem_singleton.mpr rfl)))

/-- **C90, false as stated.**  On such a disk every attempt to make an index at the place returns an error or panics and changes nothing. -/
theorem C90_refused {k : Disk} {cwd : Bytes} {c : Config} {φ : Fates} {d : Dir} (hp : k (resolve cwd c.indexRoot) = some d) :
    (∃ e, (make k cwd c φ).1 = .error e) ∧ (make k cwd c φ).2 = k := by
  unfold make
  cases Fates.now φ with
  | some _ => exact ⟨⟨_, rfl⟩, rfl⟩
  | none =>
  cases Fates.now φ.tail with
  | some _ => exact ⟨⟨_, rfl⟩, rfl⟩
  | none =>
  cases Indexer.makeShards c with
  | error e => exact ⟨⟨_, rfl⟩, rfl⟩
  | ok n =>
  simp only
  cases Fates.now φ.tail.tail with
  | some _ => exact ⟨⟨_, rfl⟩, rfl⟩
  | none => rw [hp]; exact ⟨⟨_, rfl⟩, rfl⟩

/-- **C90.**  Nor is it opened, for reading or for appending. -/
theorem C90_unopened {k : Disk} {cwd root : Bytes} {J : CfgCodec} {srt : Sorter} {d : Dir} (hp : k (resolve cwd (absPath cwd root)) = some d)
    (hd : Debris d) : openIndex J srt k cwd root = fail .notExist ∧ openIndexer J k cwd root = fail .notExist := by
  have e : readConfig J k cwd root = fail .notExist := by
    unfold readConfig Config.readFrom Disk.dir
    rw [hp]
    simp only [Option.getD_some, Dir.read, hd.1, bind, Except.bind]
  unfold openIndex openIndexer
  rw [e]
  exact ⟨rfl, rfl⟩

/-- **C90**, what does hold.  An attempt that failed before the directory was made can be repeated; and when the directory is removed, what it
left does not matter. -/
theorem C90_again_partial (k : Disk) (cwd : Bytes) (c : Config) (φ : Fates) (hk : ∀ q, resolve cwd c.indexRoot <+: q → k q = none) :
    (make k cwd c φ).2.removeAll (resolve cwd c.indexRoot) = k := by
  have hrem : ∀ q, k.removeAll (resolve cwd c.indexRoot) q = k q := by
    intro q
    unfold Disk.removeAll
    by_cases h : resolve cwd c.indexRoot <+: q
    · rw [if_pos h, hk q h]
    · rw [if_neg h]
  rcases C90_left k cwd c φ with h | ⟨_, d, _, h⟩
  · rw [h]; exact funext hrem
  · rw [h]
    funext q
    rw [← hrem q]
    unfold Disk.removeAll Disk.set
    by_cases h : resolve cwd c.indexRoot <+: q
    · rw [if_pos h, if_pos h]
    · rw [if_neg h, if_neg h, if_neg fun e : q = _ => h (by rw [e]; exact List.prefix_refl _)]

/-! ## Non-vacuity -/

/-- a configuration file with a misspelt tokenizer: the attempt fails without any system call failing, and when the name is put right, the next
one does too, though with the right name at once an index is made -/
theorem C90_nonvacuous : ∃ (c : Config) (k' : Disk) (e : Fault),
    make Disk.empty [47] { c with tokenConfig := ⟨[119]⟩ } [] = (.error e, k') ∧ (∃ e', (make k' [47] c []).1 = .error e') ∧
    (∃ x, (make Disk.empty [47] c []).1 = .ok x) := by
  refine ⟨exQConfig, (make Disk.empty [47] { exQConfig with tokenConfig := ⟨[119]⟩ } []).2, _, Prod.ext (y := (_, _)) ?_ rfl, ?_, ?_⟩
  · exact (C90_config Disk.empty [47] { exQConfig with tokenConfig := ⟨[119]⟩ } rfl (by decide)).1.trans rfl
  · obtain ⟨d, _, h⟩ := (C90_config Disk.empty [47] { exQConfig with tokenConfig := ⟨[119]⟩ } rfl (by decide)).2
    rw [h]
    exact (C90_refused (d := d) (by unfold Disk.set; rw [if_pos rfl])).1
  · obtain ⟨x, hx, _⟩ := create_rep (u := asciiUni) exUsable
    exact ⟨x, (C90_config Disk.empty [47] exQConfig rfl (by decide)).1.trans hx⟩

/-- and one where no more files can be opened: the directory is empty -/
theorem C90_nonvacuous_open : ∃ (k' : Disk) (e : Fault), make Disk.empty [47] exQConfig [none, none, none, none, some 0] = (.error e, k') ∧
    k' (resolve [47] exQConfig.indexRoot) = some Dir.empty ∧ Alone k' (resolve [47] exQConfig.indexRoot) := by
  obtain ⟨rest, hr⟩ : ∃ rest, Indexer.createOps 3 0 = Dupi.Op.trunc (.iix 0) :: rest := by
    rw [Indexer.createOps]
    unfold ShardIndexer.initCreateOps
    rw [List.cons_append, List.cons_append]
    exact ⟨_, rfl⟩
  have h8 : makeShardsF 3 0 [some 0] = (false, Dir.empty, []) := by
    unfold makeShardsF
    rw [hr]
    refine Prod.ext rfl (Prod.ext (funext fun g => ?_) rfl)
    show (if g = File.iix 0 then Dir.empty g else Dir.empty g) = _
    exact ite_self _
  have e : makeRest exQConfig 3 [none, some 0] = (fail (.msg "shard"), Dir.empty) := by
    unfold makeRest
    simp only [show exQConfig.tokenConfig.fromConfig = .ok () from rfl, show Dmd.newAdder none exQConfig.docFlushRate = .ok ⟨0, 5, [Dmd.zeroFields]⟩ from rfl,
      Fates.now, List.head?_cons, Option.join_some, List.tail_cons, h8]
  refine ⟨Disk.empty.set (resolve [47] exQConfig.indexRoot) Dir.empty, .err (.msg "shard"), ?_, by unfold Disk.set; rw [if_pos rfl],
    fun q _ h => by rw [set_other h]; rfl⟩
  show ((makeRest exQConfig 3 [none, some 0]).1, Disk.empty.set _ (makeRest exQConfig 3 [none, some 0]).2) = _
  rw [e]

end Dupi.Props
