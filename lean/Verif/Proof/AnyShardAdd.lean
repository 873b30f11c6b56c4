import Verif.Proof.Lost
import Verif.Proof.CrashLink
import Verif.Proof.FaultsFile
/-! Adding to a shard of any contents that could be opened: nothing fails, and what changes of the posting file is its end and the last links of lists. -/

namespace Dupi

theorem writeAt_get (f : Bytes) (p : Nat) (w : Bytes) (hp : p ≤ f.length) (i : Nat) (h : ¬ (p ≤ i ∧ i < p + w.length)) :
    (writeAt f p w)[i]? = f[i]? := by
  unfold writeAt
  rw [show p - f.length = 0 by omega, List.replicate_zero, List.append_nil]
  by_cases h1 : i < p
  · rw [List.append_assoc, List.getElem?_append_left (by rw [List.length_take]; omega), List.getElem?_take, if_pos h1]
  · rw [List.getElem?_append_right (by rw [List.length_append, List.length_take]; omega), List.getElem?_drop]
    congr 1
    rw [List.length_append, List.length_take]
    omega

/-- one list gets longer -/
structure Poster.Goes (p : Poster) (f : Bytes) (p' : Poster) (f' : Bytes) : Prop where
  len : f.length ≤ f'.length
  head : p'.head = p.head ∨ 0 ≤ p'.head ∧ p'.head ≤ f'.length
  link : p'.link = p.link ∨ (f.length : Int) ≤ p'.link
  fine : p'.link = -1 ∨ 0 ≤ p'.link ∧ p'.link + 8 ≤ f'.length
  stay : p.link ≠ -1 → p'.head = p.head ∧ p'.link ≠ -1
  bytes : ∀ i, i < f.length → (p.link = -1 ∨ ¬ (p.link ≤ i ∧ (i : Int) < p.link + 8)) → f'[i]? = f[i]?

theorem Poster.flushTo_goes {p : Poster} {f : Bytes} (hl : p.link = -1 ∨ 0 ≤ p.link ∧ p.link + 8 ≤ f.length) :
    ∃ p' f', p.flushTo f = .ok (p', f') ∧ p.Goes f p' f' ∧ p'.posts = [] ∧ (p.posts = [] → p' = p ∧ f' = f) := by
  unfold Poster.flushTo Poster.flushWrites
  by_cases h0 : p.posts = []
  · rw [if_pos h0]
    refine ⟨p, f, rfl, ⟨by omega, .inl rfl, .inl rfl, hl, fun h => ⟨rfl, h⟩, fun _ _ _ => rfl⟩, h0, fun _ => ⟨rfl, rfl⟩⟩
  · rw [if_neg h0]
    have key : ∀ (f1 : Bytes), f1.length = f.length → ∀ (a b : Bytes), writeAt (writeAt f1 f.length a) (f.length + a.length) b = f1 ++ a ++ b := by
      intro f1 h1 a b
      rw [← h1, writeAt_end, ← List.length_append, writeAt_end]
    by_cases h1 : p.link = -1
    · simp only [h1, ne_eq, not_true, if_false, bind, Except.bind, pure, Except.pure, List.nil_append, Poster.applyWrites, List.foldl_cons, List.foldl_nil]
      rw [key f rfl]
      generalize hb : p.posts ++ be64 (i64ToU64 (-1)) = b
      have hbl : 8 ≤ b.length := by rw [← hb, List.length_append, be64_length]; omega
      refine ⟨_, _, rfl, ⟨?_, ?_, ?_, ?_, fun h => absurd h1 h, ?_⟩, rfl, fun h => absurd h h0⟩
      · rw [List.length_append, List.length_append]; omega
      · exact .inr ⟨by simp, by simp only [List.length_append]; omega⟩
      · exact .inr (by simp only []; omega)
      · exact .inr ⟨by simp only []; omega, by simp only [List.length_append]; omega⟩
      · intro i hi _
        rw [List.append_assoc, List.getElem?_append_left hi]
    · have h2 : 0 ≤ p.link ∧ p.link + 8 ≤ f.length := hl.resolve_left h1
      have h3 : ¬ p.link < 0 := by omega
      simp only [h1, h3, ne_eq, not_false_iff, if_true, if_false, bind, Except.bind, pure, Except.pure, Poster.applyWrites, List.cons_append, List.nil_append,
        List.foldl_cons, List.foldl_nil]
      have hw : (writeAt f p.link.toNat (be64 (UInt64.ofNat f.length))).length = f.length := by
        rw [writeAt_length _ _ _ (by omega), be64_length]; omega
      rw [key _ hw]
      generalize hb : p.posts ++ be64 (i64ToU64 (-1)) = b
      have hbl : 8 ≤ b.length := by rw [← hb, List.length_append, be64_length]; omega
      refine ⟨_, _, rfl, ⟨?_, .inl rfl, ?_, ?_, fun _ => ⟨rfl, by simp only []; omega⟩, ?_⟩, rfl, fun h => absurd h h0⟩
      · rw [List.length_append, List.length_append, hw]; omega
      · exact .inr (by simp only []; omega)
      · exact .inr ⟨by simp only []; omega, by simp only [List.length_append, hw]; omega⟩
      · intro i hi hn
        rw [List.append_assoc, List.getElem?_append_left (by rw [hw]; exact hi), writeAt_get _ _ _ (by omega)]
        rw [be64_length]
        rcases hn with hn | hn
        · exact absurd hn h1
        · omega

theorem Poster.addPost_goes {p : Poster} {f : Bytes} (hl : p.link = -1 ∨ 0 ≤ p.link ∧ p.link + 8 ≤ f.length) (v : UInt32) :
    ∃ p' f', p.addPost v f = .ok (p', f') ∧ p.Goes f p' f' := by
  unfold Poster.addPost
  by_cases h : p.current = v ∧ p.total ≠ 0
  · rw [if_pos h]; exact ⟨p, f, rfl, by omega, .inl rfl, .inl rfl, hl, fun h => ⟨rfl, h⟩, fun _ _ _ => rfl⟩
  · rw [if_neg h]
    obtain ⟨p1, hp⟩ : ∃ p1 : Poster, p1 = { p with current := v, total := p.total + 1, posts := p.posts ++ putUvarint (v - p.current).toNat } := ⟨_, rfl⟩
    have e1 : p1.link = p.link := by rw [hp]
    have e2 : p1.head = p.head := by rw [hp]
    show ∃ p' f', (if Poster.flushRate ≤ (Poster.posts { p with current := v, total := p.total + 1, posts := p.posts ++ putUvarint (v - p.current).toNat }).length then
      Poster.flushTo { p with current := v, total := p.total + 1, posts := p.posts ++ putUvarint (v - p.current).toNat } f else
      .ok ({ p with current := v, total := p.total + 1, posts := p.posts ++ putUvarint (v - p.current).toNat }, f)) = .ok (p', f') ∧ p.Goes f p' f'
    rw [← hp]
    by_cases hr : Poster.flushRate ≤ p1.posts.length
    · rw [if_pos hr]
      obtain ⟨p', f', k1, k2, _⟩ := Poster.flushTo_goes (p := p1) (f := f) (by rw [e1]; exact hl)
      exact ⟨p', f', k1, k2.len, by rw [← e2]; exact k2.head, by rw [← e1]; exact k2.link, k2.fine, by rw [← e1, ← e2]; exact k2.stay, by rw [← e1]; exact k2.bytes⟩
    · rw [if_neg hr]
      exact ⟨p1, f, rfl, by omega, .inl e2, .inl e1, by rw [e1]; exact hl, by rw [e1]; exact fun h => ⟨e2, h⟩, fun _ _ _ => rfl⟩

/-- the last links are in the file -/
structure ShardSafe (s : ShardIndexer) : Prop where
  len : s.ind.length = 65536
  fine : ∀ p ∈ s.ind, p.link = -1 ∨ 0 ≤ p.link ∧ p.link + 8 ≤ s.file.length

/-- lists of `T` got longer, nothing else changed -/
structure ShardGoes (T : Nat → Prop) (s y : ShardIndexer) : Prop where
  ind : y.ind.length = s.ind.length
  len : s.file.length ≤ y.file.length
  same : ∀ i, ¬ T i → y.ind[i]? = s.ind[i]?
  head : ∀ (i : Nat) (p p' : Poster), s.ind[i]? = some p → y.ind[i]? = some p' → (p'.head = p.head ∨ 0 ≤ p'.head ∧ p'.head ≤ y.file.length) ∧ (p'.link = p.link ∨ (s.file.length : Int) ≤ p'.link) ∧
    (p.link ≠ -1 → p'.head = p.head ∧ p'.link ≠ -1)
  bytes : ∀ i, i < s.file.length → (∀ (k : Nat) (p : Poster), T k → s.ind[k]? = some p → p.link = -1 ∨ ¬ (p.link ≤ i ∧ (i : Int) < p.link + 8)) → y.file[i]? = s.file[i]?

theorem ShardGoes.refl (T : Nat → Prop) (s : ShardIndexer) : ShardGoes T s s :=
  ⟨rfl, by omega, fun _ _ => rfl, fun i p p' h1 h2 => (by rw [h1] at h2; injection h2 with h2; subst h2; exact ⟨.inl rfl, .inl rfl, fun h => ⟨rfl, h⟩⟩), fun _ _ _ => rfl⟩

theorem ShardGoes.trans {T : Nat → Prop} {s y z : ShardIndexer} (h1 : ShardGoes T s y) (h2 : ShardGoes T y z) : ShardGoes T s z := by
  refine ⟨by rw [h2.ind, h1.ind], by have := h1.len; have := h2.len; omega, fun i hi => by rw [h2.same i hi, h1.same i hi], ?_, ?_⟩
  · intro i p p'' hp hp''
    have hi : i < y.ind.length := by rw [h1.ind]; exact (List.getElem?_eq_some_iff.mp hp).1
    have hp' := List.getElem?_eq_getElem hi
    obtain ⟨a1, a2, a3⟩ := h1.head i p _ hp hp'
    obtain ⟨b1, b2, b3⟩ := h2.head i _ p'' hp' hp''
    have l1 := h1.len
    have l2 := h2.len
    refine ⟨?_, ?_, fun h => ?_⟩
    · rcases b1 with b | b
      · rw [b]; rcases a1 with a | a
        · exact .inl a
        · exact .inr ⟨a.1, by omega⟩
      · exact .inr b
    · rcases b2 with b | b
      · rw [b]; exact a2
      · exact .inr (by omega)
    · have := b3 (a3 h).2
      exact ⟨this.1.trans (a3 h).1, this.2⟩
  · intro i hi hn
    have l1 := h1.len
    rw [h2.bytes i (by omega) ?_, h1.bytes i hi hn]
    intro k p' hk hp'
    have hk' : k < s.ind.length := by rw [← h1.ind]; exact (List.getElem?_eq_some_iff.mp hp').1
    have hp := List.getElem?_eq_getElem hk'
    rcases (h1.head k _ p' hp hp').2.1 with e | e
    · rw [e]; exact hn k _ hk hp
    · exact .inr (by omega)

theorem ShardGoes.mono {T T' : Nat → Prop} {s y : ShardIndexer} (h : ShardGoes T s y) (ht : ∀ i, T i → T' i) : ShardGoes T' s y :=
  ⟨h.ind, h.len, fun i hi => h.same i fun k => hi (ht i k), h.head, fun i hi hn => h.bytes i hi fun k p hk => hn k p (ht k hk)⟩

theorem Poster.Goes.shard {s : ShardIndexer} (hs : ShardSafe s) {k : Nat} {p p' : Poster} {f' : Bytes} (hk : s.ind[k]? = some p) (h : p.Goes s.file p' f') :
    ShardGoes (fun i => i = k) s ⟨s.ind.set k p', f'⟩ ∧ ShardSafe ⟨s.ind.set k p', f'⟩ := by
  have hlt := (List.getElem?_eq_some_iff.mp hk).1
  have e : ∀ i, (s.ind.set k p')[i]? = if k = i then some p' else s.ind[i]? := by
    intro i; rw [List.getElem?_set]; simp only [hlt, if_true]
  refine ⟨⟨List.length_set, h.len, fun i hi => ?_, ?_, ?_⟩, ⟨by rw [List.length_set]; exact hs.len, ?_⟩⟩
  · show (s.ind.set k p')[i]? = _
    rw [e, if_neg (fun e => hi e.symm)]
  · intro i q q' hq hq'
    change (s.ind.set k p')[i]? = some q' at hq'
    rw [e] at hq'
    by_cases hi : k = i
    · rw [if_pos hi] at hq'; injection hq' with hq'; subst hq'
      rw [← hi, hk] at hq; injection hq with hq; subst hq
      exact ⟨h.head, h.link, h.stay⟩
    · rw [if_neg hi, hq] at hq'; injection hq' with hq'; subst hq'
      exact ⟨.inl rfl, .inl rfl, fun h => ⟨rfl, h⟩⟩
  · intro i hi hn
    exact h.bytes i hi (hn k p rfl hk)
  · intro q hq
    obtain ⟨i, hi⟩ := List.mem_iff_getElem?.mp hq
    change (s.ind.set k p')[i]? = some q at hi
    rw [e] at hi
    have hle := h.len
    by_cases hki : k = i
    · rw [if_pos hki] at hi; injection hi with hi; subst hi; exact h.fine
    · rw [if_neg hki] at hi
      rcases hs.fine q (List.mem_of_getElem? hi) with g | g
      · exact .inl g
      · exact .inr ⟨g.1, by show _ ≤ (f'.length : Int); omega⟩

theorem ShardSafe.addAll (posts : List (UInt32 × Nat)) : ∀ {s : ShardIndexer}, ShardSafe s → (∀ q ∈ posts, q.2 < 65536) →
    ∃ y, s.addAll posts = .ok y ∧ ShardSafe y ∧ ShardGoes (fun k => ∃ q ∈ posts, q.2 = k) s y := by
  induction posts with
  | nil => intro s hs _; exact ⟨s, rfl, hs, .refl _ s⟩
  | cons q posts ih =>
    obtain ⟨v, b⟩ := q
    intro s hs hb
    have hlt : b < s.ind.length := by rw [hs.len]; exact hb (v, b) (by simp)
    have hg := List.getElem?_eq_getElem hlt
    obtain ⟨p', f', k1, k2⟩ := Poster.addPost_goes (hs.fine _ (List.getElem_mem hlt)) v
    obtain ⟨g1, g2⟩ := k2.shard hs hg
    obtain ⟨y, e1, e2, e3⟩ := ih g2 (fun q hq => hb q (by simp [hq]))
    refine ⟨y, ?_, e2, (g1.mono ?_).trans (e3.mono ?_)⟩
    · simp only [ShardIndexer.addAll, ShardIndexer.add, hg, k1, bind, Except.bind, pure, Except.pure]
      exact e1
    · rintro i rfl; exact ⟨(v, i), by simp, rfl⟩
    · rintro i ⟨q, hq, hi⟩; exact ⟨q, by simp [hq], hi⟩

theorem flushInd_safe (ps : List Poster) : ∀ (done : List Poster) (f : Bytes), ShardSafe ⟨done ++ ps, f⟩ →
    ∃ ps' f', ShardIndexer.flushInd ps f = .ok (ps', f') ∧ ShardSafe ⟨done ++ ps', f'⟩ ∧
      ShardGoes (fun k => ∃ p, (done ++ ps)[k]? = some p ∧ p.posts ≠ []) ⟨done ++ ps, f⟩ ⟨done ++ ps', f'⟩ := by
  induction ps with
  | nil => intro done f hs; exact ⟨[], f, rfl, hs, .refl _ _⟩
  | cons p ps ih =>
    intro done f hs
    obtain ⟨p', f', k1, k2, k3, k4⟩ := Poster.flushTo_goes (hs.fine p (by simp))
    have hset : (done ++ p :: ps).set done.length p' = (done ++ [p']) ++ ps := by
      rw [List.set_append_right _ _ (by omega), Nat.sub_self]; simp
    obtain ⟨g1, g2⟩ := k2.shard hs (k := done.length) (by simp)
    rw [show (⟨done ++ p :: ps, f⟩ : ShardIndexer).ind = done ++ p :: ps from rfl, hset] at g1 g2
    obtain ⟨ps', f2, e1, e2, e3⟩ := ih (done ++ [p']) f' g2
    have e2' : (done ++ [p']) ++ ps' = done ++ p' :: ps' := by simp
    rw [e2'] at e2 e3
    refine ⟨p' :: ps', f2, ?_, e2, ?_⟩
    · simp only [ShardIndexer.flushInd, k1, e1, bind, Except.bind, pure, Except.pure]
    · have hsub : ∀ k : Nat, (∃ q : Poster, ((done ++ [p']) ++ ps)[k]? = some q ∧ q.posts ≠ []) → ∃ q : Poster, (done ++ p :: ps)[k]? = some q ∧ q.posts ≠ [] := by
        rintro k ⟨q, q1, q2⟩
        rw [← hset, List.getElem?_set] at q1
        split at q1
        · split at q1
          · injection q1 with q1; subst q1; exact absurd k3 q2
          · cases q1
        · exact ⟨q, q1, q2⟩
      refine ShardGoes.trans ?_ (e3.mono hsub)
      by_cases h0 : p.posts = []
      · obtain ⟨a, b⟩ := k4 h0
        subst a b
        rw [show done ++ [p'] ++ ps = done ++ p' :: ps by simp]
        exact .refl _ _
      · refine g1.mono ?_
        rintro i rfl
        exact ⟨p, by simp, h0⟩

/-- closing such a shard -/
theorem ShardSafe.close {s : ShardIndexer} (h : ShardSafe s) : ∃ y, s.close = .ok ⟨y.file, y.ind.flatMap ShardIndexer.iixEntry⟩ ∧ ShardSafe y ∧
    ShardGoes (fun k => ∃ p, s.ind[k]? = some p ∧ p.posts ≠ []) s y := by
  obtain ⟨ps', f', k1, k2, k3⟩ := flushInd_safe s.ind [] s.file h
  refine ⟨⟨ps', f'⟩, ?_, k2, k3⟩
  simp only [ShardIndexer.close, k1, bind, Except.bind, pure, Except.pure]

end Dupi
