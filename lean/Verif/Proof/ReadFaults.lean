import Verif.Model.ReadFaults
import Verif.Proof.Shard
/-! # Reads that fail: buffered reading of whole files -/

namespace Dupi

/-- reads without errors -/
def bytesOf (f : Bytes) : Stream := f.map Ev.byte

/-- `s` is what reading a file with contents `f` gives: its bytes in order with errors among them, all of
them unless a read failed.  (`io.EOF` comes only at the end.) -/
structure Serves (f : Bytes) (s : Stream) : Prop where
  pre : s.content <+: f
  honest : ∀ e, Ev.fail e ∈ s → e ≠ .eof
  whole : (∀ e, Ev.fail e ∉ s) → s.content = f

theorem content_bytesOf (f : Bytes) : (bytesOf f).content = f := by
  induction f with
  | nil => rfl
  | cons b f ih => simp only [bytesOf, List.map_cons, Stream.content] at ih ⊢; rw [ih]

theorem serves_bytesOf (f : Bytes) : Serves f (bytesOf f) :=
  ⟨by rw [content_bytesOf]; exact List.prefix_rfl, by intro e h; simp [bytesOf] at h, fun _ => content_bytesOf f⟩

theorem Serves.byte {f : Bytes} {b : UInt8} {s : Stream} (h : Serves f (.byte b :: s)) : ∃ f', f = b :: f' ∧ Serves f' s := by
  obtain ⟨t, ht⟩ := h.pre
  simp only [Stream.content, List.cons_append] at ht
  refine ⟨s.content ++ t, ht.symm, ⟨t, rfl⟩, fun e he => h.honest e (by simp [he]), fun hn => ?_⟩
  have := h.whole (fun e he => hn e (by simpa using he))
  rw [← ht] at this
  simp only [Stream.content, List.cons.injEq, true_and] at this
  exact this

theorem uvarintLoop_sim (k : Nat) : ∀ (f : Bytes) (s : Stream) (x : Nat), k ≤ maxVarintLen64 → Serves f s →
    (∃ e, (Stream.uvarintLoop k s x).2.1 = some e) ∨
    ∃ v s' f', Stream.uvarintLoop k s x = (v, none, s') ∧ readUvarintLoop f (maxVarintLen64 - k) x = .ok (v, f') ∧ Serves f' s' := by
  induction k with
  | zero => intro f s x _ _; exact .inl ⟨_, rfl⟩
  | succ k ih =>
    intro f s x hk h
    cases s with
    | nil => exact .inl ⟨_, rfl⟩
    | cons ev s =>
      cases ev with
      | fail e => exact .inl ⟨_, rfl⟩
      | byte b =>
        obtain ⟨f', rfl, h'⟩ := h.byte
        unfold readUvarintLoop
        rw [if_neg (by omega)]
        simp only [Stream.uvarintLoop]
        by_cases hb : b < 0x80
        · simp only [hb, if_true]
          split
          · exact .inl ⟨_, rfl⟩
          · exact .inr ⟨_, _, f', rfl, rfl, h'⟩
        · simp only [hb, if_false]
          have := ih f' s (x ||| ((b &&& 0x7f).toNat <<< (7 * (maxVarintLen64 - (k + 1))))) (by omega) h'
          rw [show maxVarintLen64 - (k + 1) + 1 = maxVarintLen64 - k by omega]
          exact this

theorem readUvarint_sim {f : Bytes} {s : Stream} (h : Serves f s) :
    (∃ v e s', s.readUvarint = (v, some e, s')) ∨ ∃ v s' f', s.readUvarint = (v, none, s') ∧ readUvarint f = .ok (v, f') ∧ Serves f' s' := by
  rcases uvarintLoop_sim maxVarintLen64 f s 0 (Nat.le_refl _) h with ⟨e, he⟩ | h
  · exact .inl ⟨(Stream.uvarintLoop maxVarintLen64 s 0).1, e, (Stream.uvarintLoop maxVarintLen64 s 0).2.2, by
      unfold Stream.readUvarint; rw [← he]⟩
  · exact .inr h

theorem readVarint_sim {f : Bytes} {s : Stream} (h : Serves f s) :
    (∃ v e s', s.readVarint = (v, some e, s')) ∨ ∃ v s' f', s.readVarint = (v, none, s') ∧ readVarint f = .ok (v, f') ∧ Serves f' s' := by
  rcases readUvarint_sim h with ⟨v, e, s', h⟩ | ⟨v, s', f', h, h1, h2⟩
  · exact .inl ⟨unzigzag v, e, s', by simp only [Stream.readVarint, h]⟩
  · exact .inr ⟨unzigzag v, s', f', by simp only [Stream.readVarint, h], by simp only [readVarint, h1, bind, Except.bind, pure, Except.pure], h2⟩

theorem readUvarint32_sim {f : Bytes} {s : Stream} (h : Serves f s) :
    (∃ e s', Fnames.readUvarint32S s = (.error (.err e), s')) ∨
    ∃ v s' f', Fnames.readUvarint32S s = (.ok v, s') ∧ Fnames.readUvarint32 f = .ok (v, f') ∧ Serves f' s' := by
  rcases readUvarint_sim h with ⟨v, e, s', h⟩ | ⟨v, s', f', h, h1, h2⟩
  · exact .inl ⟨e, s', by simp only [Fnames.readUvarint32S, h, fail]⟩
  · by_cases hv : v % 2 ^ 32 ≠ v
    · exact .inl ⟨.msg "overflow 32bit varint", s', by simp only [Fnames.readUvarint32S, h, if_pos hv, fail]⟩
    · exact .inr ⟨UInt32.ofNat v, s', f', by simp only [Fnames.readUvarint32S, h, if_neg hv], by simp only [Fnames.readUvarint32, h1, bind, Except.bind, if_neg hv, pure, Except.pure], h2⟩

theorem readFull_sim (n : Nat) : ∀ (acc : Bytes) (f : Bytes) (s : Stream), Serves f s →
    (∃ e s', s.readFull n acc = (.error (.err e), s')) ∨
    ∃ w s' f', s.readFull n acc = (.ok (acc ++ w), s') ∧ readFull f n = .ok (w, f') ∧ Serves f' s' := by
  induction n with
  | zero => intro acc f s h; exact .inr ⟨[], s, f, by simp [Stream.readFull], by simp [readFull], h⟩
  | succ n ih =>
    intro acc f s h
    cases s with
    | nil =>
      refine .inl ?_
      simp only [Stream.readFull, Stream.readByte, fail]
      split
      · exact ⟨_, _, rfl⟩
      · exact ⟨_, _, rfl⟩
    | cons ev s =>
      cases ev with
      | fail e =>
        refine .inl ?_
        cases e <;> simp only [Stream.readFull, Stream.readByte, fail]
        all_goals first | exact ⟨_, _, rfl⟩ | (split <;> exact ⟨_, _, rfl⟩)
      | byte b =>
        obtain ⟨f', rfl, h'⟩ := h.byte
        simp only [Stream.readFull, Stream.readByte]
        rcases ih (acc ++ [b]) f' s h' with e | ⟨w, s', f2, e1, e2, e3⟩
        · exact .inl e
        · refine .inr ⟨b :: w, s', f2, by rw [e1]; simp, ?_, e3⟩
          unfold readFull at e2 ⊢
          by_cases hl : n ≤ f'.length
          · rw [if_pos hl] at e2
            injection e2 with e2; injection e2 with e2 e4
            rw [if_pos (by simp; omega), List.take_succ_cons, List.drop_succ_cons, e2, e4]
          · rw [if_neg hl] at e2; split at e2 <;> cases e2

theorem readLoop_sim (n : Nat) : ∀ (i : Nat) (d : Fnames.Table) (f : Bytes) (s : Stream), Serves f s →
    (∃ e, Fnames.readLoopS n i d s = .error (.err e)) ∨
    Fnames.readLoopS n i d s = (do let (d, _) ← Fnames.readLoop n i d f; return d) := by
  induction n with
  | zero => intro i d f s _; exact .inr rfl
  | succ n ih =>
    intro i d f s h
    simp only [Fnames.readLoopS, Fnames.readLoop]
    rcases readUvarint32_sim h with ⟨e, s', h1⟩ | ⟨v, s1, f1, h1, h2, h3⟩
    · exact .inl ⟨e, by simp only [h1, bind, Except.bind]⟩
    rcases readFull_sim v.toNat [] f1 s1 h3 with ⟨e, s', h4⟩ | ⟨w, s2, f2, h4, h5, h6⟩
    · exact .inl ⟨e, by simp only [h1, h4, bind, Except.bind]⟩
    rcases readUvarint32_sim h6 with ⟨e, s', h7⟩ | ⟨v', s3, f3, h7, h8, h9⟩
    · exact .inl ⟨e, by simp only [h1, h4, h7, bind, Except.bind]⟩
    simp only [h1, h2, h4, h5, h7, h8, bind, Except.bind, List.nil_append]
    cases hp : (d.set i { d.getD i Fnames.zero with name := w, parent := v' })[v'.toNat]? with
    | none => exact .inr rfl
    | some pn =>
      have := ih (i + 1) ((d.set i { d.getD i Fnames.zero with name := w, parent := v' }).set v'.toNat
        { pn with children := (w, UInt32.ofNat i) :: pn.children }) f3 s3 h9
      simp only [bind, Except.bind] at this
      exact this

theorem readFnames_sim {f : Bytes} {s : Stream} (h : Serves f s) :
    (∃ e, Fnames.readS s = .error (.err e)) ∨ Fnames.readS s = Fnames.read f := by
  simp only [Fnames.readS, Fnames.read]
  rcases readUvarint32_sim h with ⟨e, s', h1⟩ | ⟨v, s1, f1, h1, h2, h3⟩
  · exact .inl ⟨e, by simp only [h1, bind, Except.bind]⟩
  simp only [h1, h2, bind, Except.bind]
  have := readLoop_sim v.toNat 0 (List.replicate v.toNat Fnames.zero) f1 s1 h3
  simp only [bind, Except.bind] at this
  exact this

theorem indexReadIix_sim (n : Nat) : ∀ (f : Bytes) (s : Stream), Serves f s →
    (∃ e, ShardIndex.readIixS n s = .error (.err e)) ∨ ShardIndex.readIixS n s = ShardIndex.readIix n f := by
  induction n with
  | zero => intro f s _; exact .inr rfl
  | succ n ih =>
    intro f s h
    rw [ShardIndex.readIixS, ShardIndex.readIix]
    rcases readVarint_sim h with ⟨v, e, s', h1⟩ | ⟨hd, s1, f1, h1, h2, h3⟩
    · exact .inl ⟨e, by simp only [h1, fail]⟩
    rcases readVarint_sim h3 with ⟨v, e, s', h4⟩ | ⟨ct, s2, f2, h4, h5, h6⟩
    · simp only [h1, h4]
      refine .inl ?_
      split
      · exact ⟨_, rfl⟩
      · exact ⟨_, rfl⟩
    simp only [h1, h2, h4, h5, bind, Except.bind]
    split
    · exact .inl ⟨_, rfl⟩
    rcases readFull_sim 4 [] f2 s2 h6 with ⟨e, s', h7⟩ | ⟨w, s3, f3, h7, h8, h9⟩
    · exact .inl ⟨e, by simp only [h7]⟩
    simp only [h7, h8]
    rcases ih f3 s3 h9 with ⟨e, he⟩ | he
    · exact .inl ⟨e, by simp only [he]⟩
    · exact .inr (by rw [he])

theorem readAll_sim (s : Stream) : ∀ f : Bytes, Serves f s → (∃ e, s.readAll = .error (.err e)) ∨ s.readAll = .ok f := by
  induction s with
  | nil => intro f h; have := h.whole (by simp); exact .inr (by rw [← this]; rfl)
  | cons ev s ih =>
    intro f h
    cases ev with
    | fail e =>
      have := h.honest e (by simp)
      refine .inl ⟨e, ?_⟩
      cases e <;> first | rfl | simp at this
    | byte b =>
      obtain ⟨f', rfl, h'⟩ := h.byte
      rcases ih f' h' with ⟨e, he⟩ | he
      · exact .inl ⟨e, by simp only [Stream.readAll, he, bind, Except.bind]⟩
      · exact .inr (by simp only [Stream.readAll, he, bind, Except.bind, pure, Except.pure])

theorem openF_sim (d : Dir) (φ : OpenFates) (g : File) : (∃ e, d.openF φ g = .error (.err e)) ∨ d.openF φ g = d.read g := by
  unfold Dir.openF
  split
  · exact .inl ⟨_, rfl⟩
  · exact .inr rfl

/-- what reading the files of `d` gives -/
def OpenFates.Serves (φ : OpenFates) (d : Dir) : Prop := ∀ (g : File) (b : Bytes), d g = some b → Dupi.Serves b (φ.rd g)

theorem read_some {d : Dir} {g : File} {b : Bytes} (h : d.read g = .ok b) : d g = some b := by
  unfold Dir.read at h; split at h
  · cases h
  · rename_i h'; injection h with h; rw [h', h]

/-- opening as a simulation step: an error of the model, or the file -/
theorem openF_cases (d : Dir) (φ : OpenFates) (g : File) :
    (∃ e, d.openF φ g = .error (.err e)) ∨ ∃ b, d.openF φ g = .ok b ∧ d.read g = .ok b ∧ d g = some b := by
  rcases openF_sim d φ g with h | h
  · exact .inl h
  · cases hr : d.read g with
    | ok b => exact .inr ⟨b, by rw [h, hr], rfl, read_some hr⟩
    | error f =>
      have : f = .err .notExist := by unfold Dir.read at hr; split at hr <;> cases hr; rfl
      exact .inl ⟨_, by rw [h, hr, this]⟩

theorem openShards_sim (srt : Sorter) {d : Dir} {φ : OpenFates} (h : φ.Serves d) (n : Nat) : ∀ i : Nat,
    (∃ e, Index.openShardsS srt d φ n i = .error (.err e)) ∨ Index.openShardsS srt d φ n i = Index.openShards srt d n i := by
  induction n with
  | zero => intro i; exact .inr rfl
  | succ n ih =>
    intro i
    rw [Index.openShardsS, Index.openShards]
    rcases openF_cases d φ (.iix i) with ⟨e, h1⟩ | ⟨b, h1, h2, h3⟩
    · exact .inl ⟨e, by simp only [h1, bind, Except.bind]⟩
    simp only [h1, h2, bind, Except.bind]
    rcases indexReadIix_sim ShardIndexer.nBlots b (φ.rd (.iix i)) (h _ _ h3) with ⟨e, h4⟩ | h4
    · exact .inl ⟨e, by simp only [h4]⟩
    rw [h4]
    cases ShardIndex.readIix ShardIndexer.nBlots b with
    | error f => exact .inr rfl
    | ok es =>
      simp only []
      rcases openF_cases d φ (.pos i) with ⟨e, h5⟩ | ⟨b', h5, h6, _⟩
      · exact .inl ⟨e, by simp only [h5]⟩
      simp only [h5, h6]
      rcases ih (i + 1) with ⟨e, h7⟩ | h7
      · exact .inl ⟨e, by simp only [h7]⟩
      · exact .inr (by rw [h7])

/-- whatever reads fail, opening gives an error or what it gives when none fails -/
theorem open_sim (J : CfgCodec) (srt : Sorter) {d : Dir} {φ : OpenFates} (h : φ.Serves d) :
    (∃ e, Index.openS J srt d φ = .error (.err e)) ∨ Index.openS J srt d φ = Index.open J srt d := by
  unfold Index.openS Index.open Config.readFrom
  rcases openF_cases d φ .cfg with ⟨e, h1⟩ | ⟨cb, h1, h2, h3⟩
  · exact .inl ⟨e, by simp only [h1, bind, Except.bind]⟩
  simp only [h1, h2, bind, Except.bind]
  rcases readAll_sim _ _ (h _ _ h3) with ⟨e, h4⟩ | h4
  · exact .inl ⟨e, by simp only [h4]⟩
  simp only [h4]
  cases J.dec cb with
  | error f => exact .inr rfl
  | ok c =>
    simp only []
    cases hc : c.check with
    | error f => exact .inr rfl
    | ok _ =>
      simp only [pure, Except.pure]
      rcases openF_cases d φ .dmd with ⟨e, h5⟩ | ⟨db, h5, h6, _⟩
      · exact .inl ⟨e, by simp only [h5]⟩
      rcases openF_cases d φ .fnm with ⟨e, h7⟩ | ⟨fb, h7, h8, h9⟩
      · exact .inl ⟨e, by simp only [h5, h7]⟩
      simp only [h5, h6, h7, h8]
      rcases readFnames_sim (h _ _ h9) with ⟨e, h10⟩ | h10
      · exact .inl ⟨e, by simp only [h10]⟩
      rw [h10]
      cases Fnames.read fb with
      | error f => exact .inr rfl
      | ok t =>
        simp only []
        split
        · exact .inr rfl
        · rcases openShards_sim srt h c.numShards.toNat 0 with ⟨e, h11⟩ | h11
          · exact .inl ⟨e, by simp only [h11]⟩
          · exact .inr (by rw [h11])

/-! ### Reads that do not fail -/

theorem uvarintLoop_bytes (f : Bytes) (t : Stream) : ∀ (k x v : Nat) (f' : Bytes), k ≤ maxVarintLen64 →
    readUvarintLoop f (maxVarintLen64 - k) x = .ok (v, f') → Stream.uvarintLoop k (bytesOf f ++ t) x = (v, none, bytesOf f' ++ t) := by
  induction f with
  | nil =>
    intro k x v f' hk h
    unfold readUvarintLoop at h; split at h <;> cases h
  | cons b f ih =>
    intro k x v f' hk h
    unfold readUvarintLoop at h
    split at h
    · cases h
    · rename_i hk'
      obtain ⟨k, rfl⟩ : ∃ j, k = j + 1 := ⟨k - 1, by omega⟩
      simp only [bytesOf, List.map_cons, List.cons_append, Stream.uvarintLoop] at ih ⊢
      simp only [] at h
      split at h
      · rename_i hb
        rw [if_pos hb]
        split at h
        · cases h
        · rename_i hc
          injection h with h; injection h with h1 h2
          rw [if_neg hc, h1, h2]
      · rename_i hb
        rw [if_neg hb]
        rw [show maxVarintLen64 - (k + 1) + 1 = maxVarintLen64 - k by omega] at h
        exact ih k _ v f' (by omega) h

theorem readUvarint_bytes {f f' : Bytes} {v : Nat} (t : Stream) (h : readUvarint f = .ok (v, f')) :
    (bytesOf f ++ t).readUvarint = (v, none, bytesOf f' ++ t) :=
  uvarintLoop_bytes f t maxVarintLen64 0 v f' (Nat.le_refl _) (by simpa [readUvarint] using h)

theorem readVarint_bytes {f f' : Bytes} {v : Int} (t : Stream) (h : readVarint f = .ok (v, f')) :
    (bytesOf f ++ t).readVarint = (v, none, bytesOf f' ++ t) := by
  unfold readVarint at h
  cases hu : readUvarint f with
  | error e => simp [hu, bind, Except.bind] at h
  | ok r =>
    obtain ⟨ux, g⟩ := r
    simp only [hu, bind, Except.bind, pure, Except.pure, Except.ok.injEq, Prod.mk.injEq] at h
    simp only [Stream.readVarint, readUvarint_bytes t hu, h.1, h.2]

theorem readUvarint32_bytes {f f' : Bytes} {v : UInt32} (t : Stream) (h : Fnames.readUvarint32 f = .ok (v, f')) :
    Fnames.readUvarint32S (bytesOf f ++ t) = (.ok v, bytesOf f' ++ t) := by
  unfold Fnames.readUvarint32 at h
  cases hu : readUvarint f with
  | error e => simp [hu, bind, Except.bind] at h
  | ok r =>
    obtain ⟨ux, g⟩ := r
    simp only [hu, bind, Except.bind] at h
    split at h
    · cases h
    · rename_i hc
      simp only [pure, Except.pure, Except.ok.injEq, Prod.mk.injEq] at h
      simp only [Fnames.readUvarint32S, readUvarint_bytes t hu, if_neg hc, h.1, h.2]

theorem readFull_bytes (n : Nat) : ∀ (acc f w f' : Bytes) (t : Stream), readFull f n = .ok (w, f') →
    (bytesOf f ++ t).readFull n acc = (.ok (acc ++ w), bytesOf f' ++ t) := by
  induction n with
  | zero =>
    intro acc f w f' t h
    simp only [readFull, Nat.zero_le, if_true, List.take_zero, List.drop_zero, Except.ok.injEq, Prod.mk.injEq] at h
    simp [Stream.readFull, ← h.1, ← h.2]
  | succ n ih =>
    intro acc f w f' t h
    cases f with
    | nil => simp [readFull, fail] at h
    | cons b f =>
      unfold readFull at h
      split at h
      · rename_i hl
        simp only [List.take_succ_cons, List.drop_succ_cons, Except.ok.injEq, Prod.mk.injEq] at h
        have := ih (acc ++ [b]) f (f.take n) (f.drop n) t (by unfold readFull; rw [if_pos (by simpa using hl)])
        simp only [bytesOf, List.map_cons, List.cons_append, Stream.readFull, Stream.readByte] at this ⊢
        rw [this, ← h.1, ← h.2]; simp
      · split at h <;> cases h

theorem readLoop_bytes (n : Nat) : ∀ (i : Nat) (d d' : Fnames.Table) (f f' : Bytes), Fnames.readLoop n i d f = .ok (d', f') →
    Fnames.readLoopS n i d (bytesOf f) = .ok d' := by
  induction n with
  | zero => intro i d d' f f' h; simp only [Fnames.readLoop, Except.ok.injEq, Prod.mk.injEq] at h; simp only [Fnames.readLoopS, h.1]
  | succ n ih =>
    intro i d d' f f' h
    rw [Fnames.readLoop] at h
    simp only [Fnames.readLoopS]
    cases h1 : Fnames.readUvarint32 f with
    | error e => simp [h1, bind, Except.bind] at h
    | ok r1 =>
      obtain ⟨v, f1⟩ := r1
      simp only [h1, bind, Except.bind] at h
      cases h2 : readFull f1 v.toNat with
      | error e => simp [h2] at h
      | ok r2 =>
        obtain ⟨w, f2⟩ := r2
        simp only [h2] at h
        cases h3 : Fnames.readUvarint32 f2 with
        | error e => simp [h3] at h
        | ok r3 =>
          obtain ⟨p, f3⟩ := r3
          simp only [h3] at h
          have e1 := readUvarint32_bytes [] h1
          have e2 := readFull_bytes v.toNat [] f1 w f2 [] h2
          have e3 := readUvarint32_bytes [] h3
          simp only [List.append_nil, List.nil_append] at e1 e2 e3
          simp only [e1, e2, e3, bind, Except.bind]
          split at h
          · cases h
          · rename_i pn hp
            simp only [hp]
            exact ih _ _ _ _ _ h

theorem indexReadIix_bytes (n : Nat) : ∀ (f : Bytes) (es : List (Int × UInt32)), ShardIndex.readIix n f = .ok es →
    ShardIndex.readIixS n (bytesOf f) = .ok es := by
  induction n with
  | zero => intro f es h; exact h
  | succ n ih =>
    intro f es h
    rw [ShardIndex.readIix] at h
    rw [ShardIndex.readIixS]
    cases h1 : readVarint f with
    | error e => simp [h1, bind, Except.bind] at h
    | ok r1 =>
      obtain ⟨hd, f1⟩ := r1
      simp only [h1, bind, Except.bind] at h
      cases h2 : readVarint f1 with
      | error e => simp [h2] at h
      | ok r2 =>
        obtain ⟨ct, f2⟩ := r2
        simp only [h2] at h
        split at h
        · cases h
        · rename_i hc
          cases h3 : readFull f2 4 with
          | error e => simp [h3] at h
          | ok r3 =>
            obtain ⟨w, f3⟩ := r3
            simp only [h3] at h
            cases h4 : ShardIndex.readIix n f3 with
            | error e => simp [h4] at h
            | ok rest =>
              simp only [h4] at h
              have e1 := readVarint_bytes [] h1
              have e2 := readVarint_bytes [] h2
              have e3 := readFull_bytes 4 [] f2 w f3 [] h3
              simp only [List.append_nil, List.nil_append] at e1 e2 e3
              simp only [e1, e2, if_neg hc, e3, ih _ _ h4, bind, Except.bind]
              exact h

theorem readAll_bytes (f : Bytes) : (bytesOf f).readAll = .ok f := by
  induction f with
  | nil => rfl
  | cons b f ih =>
    simp only [bytesOf, List.map_cons, Stream.readAll] at ih ⊢
    simp only [ih, bind, Except.bind, pure, Except.pure]

/-- no call fails -/
def OpenFates.fine (d : Dir) : OpenFates := ⟨fun _ => none, fun g => bytesOf ((d g).getD [])⟩

theorem OpenFates.fine_serves (d : Dir) : (OpenFates.fine d).Serves d := by
  intro g b h
  simp only [OpenFates.fine, h, Option.getD_some]
  exact serves_bytesOf b

theorem openShards_fine (srt : Sorter) (d : Dir) (n : Nat) : ∀ (i : Nat) (xs : List ShardIndex), Index.openShards srt d n i = .ok xs →
    Index.openShardsS srt d (.fine d) n i = .ok xs := by
  induction n with
  | zero => intro i xs h; exact h
  | succ n ih =>
    intro i xs h
    rw [Index.openShards] at h
    rw [Index.openShardsS]
    have ho : ∀ g, d.openF (.fine d) g = d.read g := fun g => rfl
    simp only [ho]
    cases h1 : d.read (.iix i) with
    | error e => simp [h1, bind, Except.bind] at h
    | ok b =>
      simp only [h1, bind, Except.bind] at h ⊢
      cases h2 : ShardIndex.readIix ShardIndexer.nBlots b with
      | error e => simp [h2] at h
      | ok es =>
        have := indexReadIix_bytes _ _ _ h2
        simp only [OpenFates.fine, read_some h1, Option.getD_some, this]
        simp only [h2] at h
        cases h3 : d.read (.pos i) with
        | error e => simp [h3] at h
        | ok post =>
          simp only [h3] at h ⊢
          cases h4 : Index.openShards srt d n (i + 1) with
          | error e => simp [h4] at h
          | ok ys =>
            simp only [h4] at h
            have := ih _ _ h4
            simp only [OpenFates.fine] at this
            simp only [this]
            exact h

theorem open_fine (J : CfgCodec) (srt : Sorter) {d : Dir} {x : Index} (h : Index.open J srt d = .ok x) :
    Index.openS J srt d (.fine d) = .ok x := by
  unfold Index.open Config.readFrom at h
  unfold Index.openS
  have ho : ∀ g, d.openF (.fine d) g = d.read g := fun g => rfl
  simp only [ho]
  cases h1 : d.read .cfg with
  | error e => simp [h1, bind, Except.bind] at h
  | ok cb =>
    simp only [h1, bind, Except.bind] at h ⊢
    have e1 : ((OpenFates.fine d).rd .cfg).readAll = .ok cb := by
      simp only [OpenFates.fine, read_some h1, Option.getD_some, readAll_bytes]
    simp only [e1]
    cases h2 : J.dec cb with
    | error e => simp [h2] at h
    | ok c =>
      simp only [h2] at h ⊢
      cases h3 : c.check with
      | error e => simp [h3] at h
      | ok _ =>
        simp only [h3, pure, Except.pure] at h ⊢
        cases h4 : d.read .dmd with
        | error e => simp [h4] at h
        | ok db =>
          simp only [h4] at h ⊢
          cases h5 : d.read .fnm with
          | error e => simp [h5] at h
          | ok fb =>
            simp only [h5] at h ⊢
            cases h6 : Fnames.read fb with
            | error e => simp [h6] at h
            | ok t =>
              have e2 : Fnames.readS ((OpenFates.fine d).rd .fnm) = .ok t := by
                simp only [OpenFates.fine, read_some h5, Option.getD_some]
                unfold Fnames.read at h6
                unfold Fnames.readS
                cases h7 : Fnames.readUvarint32 fb with
                | error e => simp [h7, bind, Except.bind] at h6
                | ok r =>
                  obtain ⟨v, g⟩ := r
                  simp only [h7, bind, Except.bind] at h6
                  have e1 := readUvarint32_bytes [] h7
                  simp only [List.append_nil] at e1
                  simp only [e1, bind, Except.bind]
                  cases h8 : Fnames.readLoop v.toNat 0 (List.replicate v.toNat Fnames.zero) g with
                  | error e => simp [h8] at h6
                  | ok r =>
                    obtain ⟨d', g'⟩ := r
                    simp only [h8, pure, Except.pure, Except.ok.injEq] at h6
                    subst h6
                    exact readLoop_bytes _ _ _ _ _ _ h8
              simp only [e2]
              simp only [h6] at h
              split at h
              · cases h
              · rename_i hc
                rw [if_neg hc]
                cases h7 : Index.openShards srt d c.numShards.toNat 0 with
                | error e => simp [h7] at h
                | ok xs =>
                  simp only [h7] at h
                  simp only [openShards_fine srt d _ _ _ h7]
                  exact h

end Dupi
