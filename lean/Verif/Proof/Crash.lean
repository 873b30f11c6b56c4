import Verif.Proof.CrashRun
import Verif.Proof.FnamesTrunc
/-! # Opening what a dead process left -/

namespace Dupi
open Spec

/-- an error is returned -/
def Errs {α : Type} (m : M α) : Prop := ∃ e, m = fail e

/-- a result or an error is returned: no panic -/
def Tame {α : Type} (m : M α) : Prop := (∃ a, m = .ok a) ∨ Errs m

theorem Errs.bind {α β : Type} {m : M α} (h : Errs m) (f : α → M β) : Errs (m >>= f) := by
  obtain ⟨e, rfl⟩ := h; exact ⟨e, rfl⟩

theorem Tame.bind_errs {α β : Type} {m : M α} {f : α → M β} (h : Tame m) (hf : ∀ a, m = .ok a → Errs (f a)) : Errs (m >>= f) := by
  rcases h with ⟨a, ha⟩ | h
  · rw [ha]; exact hf a ha
  · exact h.bind f

theorem Tame.bind {α β : Type} {m : M α} {f : α → M β} (h : Tame m) (hf : ∀ a, m = .ok a → Tame (f a)) : Tame (m >>= f) := by
  rcases h with ⟨a, ha⟩ | h
  · rw [ha]; exact hf a ha
  · exact .inr (h.bind f)

theorem Tame.ok {α : Type} (a : α) : Tame (.ok a : M α) := .inl ⟨a, rfl⟩
theorem Tame.fail {α : Type} (e : Err) : Tame (fail e : M α) := .inr ⟨e, rfl⟩

theorem read_tame (d : Dir) (f : File) : Tame (d.read f) := by
  unfold Dir.read
  cases d f with
  | none => exact .fail _
  | some b => exact .ok b

theorem check_tame (c : Config) : Tame c.check := by
  unfold Config.check; split
  · exact .fail _
  · exact .ok ()

theorem readFull_tame (r : Bytes) (n : Nat) : Tame (readFull r n) := by
  unfold readFull
  split
  · exact .ok _
  · split <;> exact .fail _

theorem readUvarintLoop_tame (r : Bytes) : ∀ i x, Tame (readUvarintLoop r i x) ∧ ∀ v s, readUvarintLoop r i x = .ok (v, s) → s.length < r.length := by
  induction r with
  | nil => intro i x; unfold readUvarintLoop; split <;> exact ⟨.fail _, nofun⟩
  | cons b bs ih =>
    intro i x
    unfold readUvarintLoop
    split
    · exact ⟨.fail _, nofun⟩
    · simp only []
      split
      · split
        · exact ⟨.fail _, nofun⟩
        · refine ⟨.ok _, fun v s h => ?_⟩
          injection h with h; injection h with _ h; subst h; simp
      · obtain ⟨h1, h2⟩ := ih (i + 1) (x ||| ((b &&& 0x7f).toNat <<< (7 * i)))
        exact ⟨h1, fun v s h => by have := h2 v s h; simp; omega⟩

theorem readVarint_tame (r : Bytes) : Tame (readVarint r) :=
  (readUvarintLoop_tame r 0 0).1.bind fun _ _ => .ok _

theorem readVarint_shorter {r s : Bytes} {v : Int} (h : readVarint r = .ok (v, s)) : s.length < r.length := by
  simp only [readVarint, readUvarint, bind, Except.bind] at h
  cases hr : readUvarintLoop r 0 0 with
  | error e => simp [hr] at h
  | ok a =>
    simp only [hr, pure, Except.pure, Except.ok.injEq, Prod.mk.injEq] at h
    have := (readUvarintLoop_tame r 0 0).2 a.1 a.2 hr
    rw [← h.2]; exact this

/-! ### The table of a shard -/

theorem readIix_tame (n : Nat) : ∀ r, Tame (ShardIndex.readIix n r) := by
  induction n with
  | zero => intro r; exact .ok _
  | succ n ih =>
    intro r
    rw [ShardIndex.readIix]
    refine (readVarint_tame r).bind fun a _ => (readVarint_tame a.2).bind fun b _ => ?_
    simp only []
    split
    · exact .fail _
    · exact (readFull_tame b.2 4).bind fun c _ => (ih c.2).bind fun _ _ => .ok _

theorem readIix_length (n : Nat) : ∀ {r es}, ShardIndex.readIix n r = .ok es → 6 * n ≤ r.length := by
  induction n with
  | zero => intro r es _; omega
  | succ n ih =>
    intro r es h
    simp only [ShardIndex.readIix, bind, Except.bind, pure, Except.pure] at h
    cases h1 : readVarint r with
    | error e => simp [h1] at h
    | ok a =>
      simp only [h1] at h
      have l1 := readVarint_shorter (v := a.1) (s := a.2) h1
      cases h2 : readVarint a.2 with
      | error e => simp [h2] at h
      | ok b =>
        simp only [h2] at h
        have l2 := readVarint_shorter (v := b.1) (s := b.2) h2
        split at h
        · simp [fail] at h
        · cases h3 : readFull b.2 4 with
          | error e => simp [h3] at h
          | ok c =>
            simp only [h3] at h
            cases h4 : ShardIndex.readIix n c.2 with
            | error e => simp [h4] at h
            | ok es' =>
              have l4 := ih h4
              have l3 : c.2.length + 4 = b.2.length := by
                simp only [readFull] at h3
                split at h3
                · injection h3 with h3
                  rw [← h3]; simp; omega
                · split at h3 <;> simp [fail] at h3
              omega

/-- the file made on creation cannot be read -/
theorem readIix_initial {n : Nat} (hn : 0 < n) : Errs (ShardIndex.readIix n (ShardIndexer.initCreateIix n)) := by
  rcases readIix_tame n (ShardIndexer.initCreateIix n) with ⟨es, h⟩ | h
  · exfalso
    have h1 := readIix_length n h
    have h2 : (ShardIndexer.initCreateIix n).length = 5 * n := by
      unfold ShardIndexer.initCreateIix
      clear h h1 hn es
      induction n with
      | zero => rfl
      | succ n ih =>
        have h1 : (Poster.initCreateBytes Poster.initCommon).length = 5 := by
          simp only [Poster.initCreateBytes, Poster.initCommon, putVarint, List.length_append]
          rw [putUvarint_small (by decide)]; rfl
        rw [List.replicate_succ, List.flatMap_cons, List.length_append, ih, h1]; omega
    omega
  · exact h

theorem readIix_empty {n : Nat} (hn : 0 < n) : Errs (ShardIndex.readIix n []) := by
  rcases readIix_tame n [] with ⟨es, h⟩ | h
  · have h1 := readIix_length n h
    simp only [List.length_nil] at h1
    omega
  · exact h

/-- a proper prefix of a table cannot be read -/
theorem readIix_prefix (bs : List Blk) (hl : (render 0 bs).length < 2 ^ 63) (vals : Nat → List UInt32) (ps : List Poster) : ∀ k n,
    (∀ (o : Nat) p, ps[o]? = some p → PosterRep bs (o + k) p (vals (o + k))) → n < (ps.flatMap ShardIndexer.iixEntry).length →
    Errs (ShardIndex.readIix ps.length ((ps.flatMap ShardIndexer.iixEntry).take n)) := by
  induction ps with
  | nil => intro k n _ h; simp at h
  | cons p ps ih =>
    intro k n h hn
    have hp := h 0 p rfl
    obtain ⟨b1, b2⟩ := hp.headBound hl
    have ht := p.total.toNat_lt
    simp only [List.flatMap_cons, ShardIndexer.iixEntry, List.append_assoc, List.length_cons, ShardIndex.readIix] at hn ⊢
    by_cases h1 : n < (putVarint p.head).length
    · rw [Fnames.take_append_lt h1]
      exact Errs.bind (readVarint_prefix _ _ h1) _
    · rw [Fnames.take_append_ge (Nat.le_of_not_lt h1), readVarint_put _ _ b1 b2]
      generalize hn1 : n - (putVarint p.head).length = n1
      simp only [bind, Except.bind]
      by_cases h2 : n1 < (putVarint (p.total.toNat : Int)).length
      · rw [Fnames.take_append_lt h2]
        obtain ⟨e, he⟩ := readVarint_prefix _ _ h2
        exact ⟨e, by rw [he]⟩
      · rw [Fnames.take_append_ge (Nat.le_of_not_lt h2), readVarint_put _ _ (by omega) (by omega)]
        generalize hn2 : n1 - (putVarint (p.total.toNat : Int)).length = n2
        simp only []
        rw [if_neg (by omega)]
        by_cases h3 : n2 < 4
        · rw [Fnames.take_append_lt (by simpa [be32] using h3)]
          obtain ⟨e, he⟩ := Fnames.readFull_short (a := (be32 p.current).take n2) (n := 4) (by rw [List.length_take]; omega)
          exact ⟨e, by rw [he]⟩
        · rw [Fnames.take_append_ge (by simp [be32]; omega)]
          have := Fnames.readFull_append (be32 p.current) ((ps.flatMap ShardIndexer.iixEntry).take (n2 - (be32 p.current).length))
          rw [be32_length] at this ⊢
          rw [this]
          simp only []
          obtain ⟨e, he⟩ := ih (k + 1) (n2 - 4) (fun o q hq => by
            have := h (o + 1) q (by simpa using hq)
            rwa [show o + 1 + k = o + (k + 1) by omega] at this) (by
              simp only [List.length_append, be32_length] at hn; omega)
          exact ⟨e, by rw [he]⟩

/-! ### Opening -/

theorem openShards_errs (srt : Sorter) (d : Dir) (n : Nat) : ∀ i j, i ≤ j → j < i + n →
    (∀ b, d (.iix j) = some b → Errs (ShardIndex.readIix ShardIndexer.nBlots b)) → Errs (Index.openShards srt d n i) := by
  induction n with
  | zero => intro i j h1 h2; omega
  | succ n ih =>
    intro i j h1 h2 hj
    rw [Index.openShards]
    refine (read_tame d (.iix i)).bind_errs fun iix h3 => (readIix_tame _ iix).bind_errs fun es h4 =>
      (read_tame d (.pos i)).bind_errs fun post h5 => ?_
    by_cases e : i = j
    · subst e
      have : d (.iix i) = some iix := by
        simp only [Dir.read] at h3
        cases hd : d (.iix i) with
        | none => simp [hd, Dupi.fail] at h3
        | some b => simp only [hd, Except.ok.injEq] at h3; rw [h3]
      obtain ⟨er, h6⟩ := hj iix this
      rw [h4] at h6; simp [Dupi.fail] at h6
    · exact (ih (i + 1) j (by omega) (by omega) hj).bind _

/-- an index whose path table is missing or cannot be read, or of which a shard's table cannot be read,
cannot be opened -/
theorem open_errs {J : CfgCodec} (srt : Sorter) {d : Dir} (hJ : ∀ b, d .cfg = some b → Tame (J.dec b))
    (h : (∀ b, d .fnm = some b → Errs (Fnames.read b)) ∨
      ((∀ b, d .fnm = some b → Tame (Fnames.read b)) ∧ ∃ c, Config.readFrom J d = .ok c ∧ 0 ≤ c.numShards ∧
        ∃ j, j < c.numShards.toNat ∧ ∀ b, d (.iix j) = some b → Errs (ShardIndex.readIix ShardIndexer.nBlots b))) :
    Errs (Index.open J srt d) := by
  have hread : ∀ f b, d.read f = .ok b → d f = some b := by
    intro f b hb
    simp only [Dir.read] at hb
    cases hd : d f with
    | none => simp [hd, Dupi.fail] at hb
    | some b' => simp only [hd, Except.ok.injEq] at hb; rw [hb]
  have hcfg : Tame (Config.readFrom J d) := by
    unfold Config.readFrom
    exact (read_tame d .cfg).bind fun b hb => (hJ b (hread _ _ hb)).bind fun c _ => (check_tame c).bind fun _ _ => .ok _
  unfold Index.open
  refine hcfg.bind_errs fun c hc => (read_tame d .dmd).bind_errs fun dmd _ => (read_tame d .fnm).bind_errs fun fnm hf => ?_
  rcases h with h | ⟨h1, c', h2, h3, j, h4, h5⟩
  · exact (h fnm (hread _ _ hf)).bind _
  · refine (h1 fnm (hread _ _ hf)).bind_errs fun t _ => ?_
    rw [hc] at h2; injection h2 with h2; subst h2
    rw [if_neg (by omega)]
    exact (openShards_errs srt d _ 0 j (by omega) (by omega) h5).bind _

/-! ### Creating -/

theorem initCreateOps_onShard (n i : Nat) : OnShard i (ShardIndexer.initCreateOps n i) := by
  intro op h
  rcases List.mem_append.mp h with h | h
  · rcases List.mem_cons.mp h with rfl | h
    · exact .inr rfl
    · exact .inr (writes_on _ _ _ op h)
  · rw [List.mem_singleton] at h; subst h; exact .inl rfl

theorem createOps_off (n : Nat) : ∀ i f, (∀ j, i ≤ j → j < i + n → f ≠ .pos j ∧ f ≠ .iix j) → Off f (Indexer.createOps n i) := by
  induction n with
  | zero => intro i f _ op h; simp [Indexer.createOps] at h
  | succ n ih =>
    intro i f h
    have := h i (by omega) (by omega)
    exact ((initCreateOps_onShard _ i).off this.1 this.2).append (ih (i + 1) f fun j h1 h2 => h j (by omega) (by omega))

theorem createOps_shard (n : Nat) : ∀ i j, i ≤ j → j < i + n → ∀ d : Dir,
    d.run (Indexer.createOps n i) (.pos j) = some [] ∧
    d.run (Indexer.createOps n i) (.iix j) = some (ShardIndexer.initCreateIix ShardIndexer.nBlots) := by
  induction n with
  | zero => intro i j h1 h2; omega
  | succ n ih =>
    intro i j h1 h2 d
    rw [Indexer.createOps, run_append]
    by_cases e : i = j
    · subst e
      have hoff : ∀ f, f = .pos i ∨ f = .iix i → Off f (Indexer.createOps n (i + 1)) := by
        intro f hf
        apply createOps_off
        intro j h1 h2
        rcases hf with rfl | rfl
        · exact ⟨by intro e; injection e with e; omega, nofun⟩
        · exact ⟨nofun, by intro e; injection e with e; omega⟩
      rw [(hoff (.pos i) (.inl rfl)).run, (hoff (.iix i) (.inr rfl)).run, run_file, run_file]
      have hon : On (.iix i) (.trunc (.iix i) :: Op.writes (.iix i) 0 ((List.replicate ShardIndexer.nBlots Poster.initCommon).flatMap Poster.initCreateChunks)) := by
        intro op h
        rcases List.mem_cons.mp h with rfl | h
        · rfl
        · exact writes_on _ _ _ op h
      constructor
      · rw [ShardIndexer.initCreateOps, opsOn_append, (hon.off (g := .pos i) nofun).opsOn]
        simp [opsOn, Op.file, onFiles, Op.onFile]
      · rw [ShardIndexer.initCreateOps, opsOn_append, hon.opsOn]
        have : opsOn (.iix i) [Op.trunc (.pos i)] = [] := by simp [opsOn, Op.file]
        rw [this, List.append_nil, onFiles_trunc, initCreateChunks_flatten]; rfl
    · exact ih (i + 1) j (by omega) (by omega) _

end Dupi
