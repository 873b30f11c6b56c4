import Verif.Model.Query
import Verif.Proof.Shard
/-! # Queries on an open index, in terms of its posting lists -/

namespace Dupi

/-- the index has `n` shards, `vals j q` is the posting list of bucket `q` of shard `j`, and `D` gives
the metadata of the documents that occur there -/
structure Holds (srt : Sorter) (x : Index) (n : Nat) (vals : Nat → Nat → List UInt32) (D : UInt32 → Bytes × UInt32 × UInt32) : Prop where
  len : x.shards.length = n
  sh : ∀ (j : Nat) s, x.shards[j]? = some s → IndexRep srt 65536 s (vals j)
  doc : ∀ j q, j < n → q < 65536 → ∀ id ∈ vals j q, x.docid2Doc id = .ok (D id)

/-- path, start and end of `d` replaced -/
def Doc.fill (d : Doc) (r : Bytes × UInt32 × UInt32) : Doc := { d with path := r.1, start := r.2.1, stop := r.2.2 }

/-- as a document without data -/
def Doc.ofMeta (r : Bytes × UInt32 × UInt32) : Doc := ⟨r.1, r.2.1, r.2.2, none⟩

theorem Blot.next_unlim (grow : Nat → Nat) (b : Blot) (r : Bytes × UInt32 × UInt32) :
    ∃ b1, b.next grow false = .ok b1 ∧ (b1.setLast r).vis = b.vis ++ [Doc.ofMeta r] ∧ (b1.setLast r).blot = b.blot := by
  obtain ⟨bl, ds⟩ := b
  rcases ds with _ | ⟨v, s⟩
  · exact ⟨_, rfl, by simp [Blot.setLast, Blot.vis, Doc.ofMeta, Doc.zero], rfl⟩
  · cases s with
    | nil => exact ⟨_, rfl, by simp [Blot.setLast, Blot.vis, Doc.ofMeta, Doc.zero], by simp [Blot.setLast]⟩
    | cons d s => exact ⟨_, rfl, by simp [Blot.setLast, Blot.vis, Doc.ofMeta, Doc.zero], by simp [Blot.setLast]⟩

theorem Blot.next_lim (grow : Nat → Nat) (bl : UInt32) (v : List Doc) (d : Doc) (s : List Doc) (r : Bytes × UInt32 × UInt32) :
    ∃ b1, Blot.next grow true ⟨bl, some ⟨v, d :: s⟩⟩ = .ok b1 ∧ b1.setLast r = ⟨bl, some ⟨v ++ [d.fill r], s⟩⟩ :=
  ⟨_, rfl, by simp [Blot.setLast, Doc.fill]⟩

theorem ReadState.next_eof {rs : ReadState} (h : PostsRep rs.file rs.posts []) : rs.next = fail .eof := by
  simp [ReadState.next, h.eof, bind, Except.bind]

theorem ReadState.next_step {rs : ReadState} {v : UInt32} {vs : List UInt32} (h : PostsRep rs.file rs.posts (v :: vs)) :
    ∃ p, rs.next = .ok (v, { rs with posts := p }) ∧ PostsRep rs.file p vs := by
  obtain ⟨p, hp, hr⟩ := h.step
  exact ⟨p, by simp [ReadState.next, hp, bind, Except.bind, pure, Except.pure], hr⟩

namespace Query

theorem getLoop_unlim (grow : Nat → Nat) {x : Index} {D : UInt32 → Bytes × UInt32 × UInt32} (rem : List UInt32) :
    ∀ (fuel : Nat) (rs : ReadState) (b : Blot), PostsRep rs.file rs.posts rem → (∀ id ∈ rem, x.docid2Doc id = .ok (D id)) → rem.length < fuel →
    ∃ b', getLoop grow x false fuel rs b = .ok b' ∧ b'.blot = b.blot ∧ b'.vis = b.vis ++ rem.map (fun id => Doc.ofMeta (D id)) ∧ (rem = [] → b' = b) := by
  induction rem with
  | nil =>
    intro fuel rs b h _ hf
    obtain ⟨f, rfl⟩ : ∃ f, fuel = f + 1 := ⟨fuel - 1, by simp at hf; omega⟩
    exact ⟨b, by simp [getLoop, ReadState.next_eof h], rfl, by simp, fun _ => rfl⟩
  | cons id rem ih =>
    intro fuel rs b h hD hf
    obtain ⟨f, rfl⟩ : ∃ f, fuel = f + 1 := ⟨fuel - 1, by simp at hf; omega⟩
    obtain ⟨p, h1, h2⟩ := ReadState.next_step h
    obtain ⟨b1, g1, g2, g3⟩ := Blot.next_unlim grow b (D id)
    obtain ⟨b', k1, k2, k3, _⟩ := ih f { rs with posts := p } (b1.setLast (D id)) h2 (fun i hi => hD i (by simp [hi])) (by simp at hf; omega)
    refine ⟨b', ?_, by rw [k2, g3], by rw [k3, g2]; simp, nofun⟩
    simp only [getLoop, Bool.false_and, h1, g1, bind, Except.bind, hD id (by simp), k1]
    rfl

theorem getLoop_lim (grow : Nat → Nat) {x : Index} {D : UInt32 → Bytes × UInt32 × UInt32} (bl : UInt32) (rem : List UInt32) :
    ∀ (fuel : Nat) (rs : ReadState) (v s : List Doc), PostsRep rs.file rs.posts rem → (∀ id ∈ rem, x.docid2Doc id = .ok (D id)) → rem.length < fuel →
    getLoop grow x true fuel rs ⟨bl, some ⟨v, s⟩⟩ = .ok ⟨bl, some ⟨v ++ List.zipWith (fun d id => d.fill (D id)) s rem, s.drop rem.length⟩⟩ := by
  induction rem with
  | nil =>
    intro fuel rs v s h _ hf
    obtain ⟨f, rfl⟩ : ∃ f, fuel = f + 1 := ⟨fuel - 1, by simp at hf; omega⟩
    simp [getLoop, ReadState.next_eof h]
  | cons id rem ih =>
    intro fuel rs v s h hD hf
    obtain ⟨f, rfl⟩ : ∃ f, fuel = f + 1 := ⟨fuel - 1, by simp at hf; omega⟩
    cases s with
    | nil => simp [getLoop, Blot.len, Blot.cap]
    | cons d s =>
      obtain ⟨p, h1, h2⟩ := ReadState.next_step h
      obtain ⟨b1, g1, g2⟩ := Blot.next_lim grow bl v d s (D id)
      have := ih f { rs with posts := p } (v ++ [d.fill (D id)]) s h2 (fun i hi => hD i (by simp [hi])) (by simp at hf; omega)
      simp only [getLoop, Blot.len, Blot.cap, h1, g1, bind, Except.bind, hD id (by simp), g2, this]
      simp

/-- the read state for a bucket -/
theorem readStateForBlotAt_rep {srt : Sorter} {s : ShardIndex} {vals : Nat → List UInt32} (h : IndexRep srt 65536 s vals) {q : Nat}
    (hq : q < 65536) (a : Nat) : ∃ rs, s.readStateForBlotAt q a = .ok rs ∧ PostsRep rs.file rs.posts (vals q) ∧ rs.blot = q ∧ rs.at_ = a ∧
      rs.total = s.counts.getD q 0 ∧ rs.total.toNat = (vals q).length := by
  have h1 : s.heads[q]? = some (s.heads[q]'(by rw [h.lenH]; exact hq)) := List.getElem?_eq_getElem _
  have h2 : s.counts[q]? = some (s.counts[q]'(by rw [h.lenC]; exact hq)) := List.getElem?_eq_getElem _
  have h3 := h.counts q hq
  simp only [List.getD_eq_getElem?_getD, h2, Option.getD_some] at h3
  exact ⟨_, by simp only [ShardIndex.readStateForBlotAt, h1, h2]; rfl, h.posts q _ h1, rfl, rfl, by simp [h2], h3⟩

/-- a blot's shard and bucket -/
theorem get_route {srt : Sorter} {x : Index} {n : Nat} {vals : Nat → Nat → List UInt32} {D : UInt32 → Bytes × UInt32 × UInt32}
    (h : Holds srt x n vals D) (h0 : 0 < n) (hn : n < 2 ^ 32) (b : UInt32) {qn : UInt32} (hqn : qn = UInt32.ofNat n) :
    qn ≠ 0 ∧ ∃ s rs, x.shards[(b % qn).toNat]? = some s ∧ s.readStateFor (b / qn).toUInt16.toNat = .ok rs ∧
      PostsRep rs.file rs.posts (vals (b.toNat % n) (b.toNat / n % 65536)) ∧
      ∀ id ∈ vals (b.toNat % n) (b.toNat / n % 65536), x.docid2Doc id = .ok (D id) := by
  have e : qn.toNat = n := by subst hqn; simp only [UInt32.toNat_ofNat']; omega
  have hz : qn ≠ 0 := by intro hc; rw [hc] at e; simp at e; omega
  have e1 : (b % qn).toNat = b.toNat % n := by rw [UInt32.toNat_mod, e]
  have e2 : (b / qn).toUInt16.toNat = b.toNat / n % 65536 := by rw [UInt32.toNat_toUInt16, UInt32.toNat_div, e]
  have hlt : b.toNat % n < n := Nat.mod_lt _ h0
  obtain ⟨s, hs⟩ : ∃ s, x.shards[b.toNat % n]? = some s := ⟨_, List.getElem?_eq_getElem (by rw [h.len]; exact hlt)⟩
  have hq : b.toNat / n % 65536 < 65536 := Nat.mod_lt _ (by decide)
  obtain ⟨rs, k1, k2, _⟩ := readStateForBlotAt_rep (h.sh _ _ hs) hq 0
  exact ⟨hz, s, rs, by rw [e1, hs], by rw [e2]; exact k1, k2, h.doc _ _ hlt hq⟩

/-! ### Extraction -/

theorem advance_congr (x : Index) (q : QState) {s s' : ReadState} (h1 : s.at_ = s'.at_) (h2 : s.total = s'.total) (pos : UInt32) :
    advance x q s pos = advance x q s' pos := by
  unfold advance; rw [h1, h2]

theorem fillLoop_unlim (grow : Nat → Nat) {x : Index} {D : UInt32 → Bytes × UInt32 × UInt32} {q q' : QState} {pos : UInt32} (rem : List UInt32) :
    ∀ (fuel : Nat) (rs : ReadState) (b : Blot), PostsRep rs.file rs.posts rem → (∀ id ∈ rem, x.docid2Doc id = .ok (D id)) → rem.length < fuel →
    advance x q rs pos = .ok q' →
    ∃ b', fillLoop grow x q pos false fuel rs b = .ok (b', q') ∧ b'.blot = b.blot ∧ b'.vis = b.vis ++ rem.map (fun id => Doc.ofMeta (D id)) := by
  induction rem with
  | nil =>
    intro fuel rs b h _ hf ha
    obtain ⟨f, rfl⟩ : ∃ f, fuel = f + 1 := ⟨fuel - 1, by simp at hf; omega⟩
    exact ⟨b, by simp [fillLoop, ReadState.next_eof h, ha, bind, Except.bind, pure, Except.pure], rfl, by simp⟩
  | cons id rem ih =>
    intro fuel rs b h hD hf ha
    obtain ⟨f, rfl⟩ : ∃ f, fuel = f + 1 := ⟨fuel - 1, by simp at hf; omega⟩
    obtain ⟨p, h1, h2⟩ := ReadState.next_step h
    obtain ⟨b1, g1, g2, g3⟩ := Blot.next_unlim grow b (D id)
    obtain ⟨b', k1, k2, k3⟩ := ih f { rs with posts := p } (b1.setLast (D id)) h2 (fun i hi => hD i (by simp [hi])) (by simp at hf; omega)
      (by rw [← ha]; exact advance_congr x q rfl rfl pos)
    refine ⟨b', ?_, by rw [k2, g3], by rw [k3, g2]; simp⟩
    simp only [fillLoop, Bool.not_false, Bool.true_or, if_true, h1, g1, bind, Except.bind, hD id (by simp), k1]

/-- what setMax looks for: the first of the largest totals above `m` -/
theorem maxLoop_spec (ss : List (Option ReadState)) : ∀ (k : Nat) (m p : UInt32), k + ss.length < 2 ^ 32 →
    (QState.maxLoop ss k m p = p ∧ ∀ s, some s ∈ ss → s.total ≤ m) ∨
    ∃ (j : Nat) (s : ReadState), ss[j]? = some (some s) ∧ (QState.maxLoop ss k m p).toNat = k + j ∧ m < s.total ∧ ∀ s', some s' ∈ ss → s'.total ≤ s.total := by
  induction ss with
  | nil => intro k m p _; exact .inl ⟨rfl, by simp⟩
  | cons o ss ih =>
    intro k m p hk
    simp only [List.length_cons] at hk
    cases o with
    | none =>
      rcases ih (k + 1) m p (by omega) with ⟨h1, h2⟩ | ⟨j, s, h1, h2, h3, h4⟩
      · exact .inl ⟨h1, by simpa using h2⟩
      · exact .inr ⟨j + 1, s, by simpa using h1, by rw [QState.maxLoop]; omega, h3, by simpa using h4⟩
    | some o =>
      rw [QState.maxLoop]
      split
      · rename_i hgt
        rcases ih (k + 1) o.total (UInt32.ofNat k) (by omega) with ⟨h1, h2⟩ | ⟨j, s, h1, h2, h3, h4⟩
        · refine .inr ⟨0, o, rfl, by rw [h1]; simp only [UInt32.toNat_ofNat']; omega, hgt, ?_⟩
          intro s' hs'
          rcases List.mem_cons.mp hs' with e | e
          · injection e with e; subst e; exact UInt32.le_refl _
          · exact h2 s' e
        · refine .inr ⟨j + 1, s, by simpa using h1, by omega, UInt32.lt_trans hgt h3, ?_⟩
          intro s' hs'
          rcases List.mem_cons.mp hs' with e | e
          · injection e with e; subst e; exact UInt32.le_of_lt h3
          · exact h4 s' e
      · rename_i hle
        have hle : o.total ≤ m := UInt32.not_lt.mp hle
        rcases ih (k + 1) m p (by omega) with ⟨h1, h2⟩ | ⟨j, s, h1, h2, h3, h4⟩
        · refine .inl ⟨h1, ?_⟩
          intro s' hs'
          rcases List.mem_cons.mp hs' with e | e
          · injection e with e; subst e; exact hle
          · exact h2 s' e
        · refine .inr ⟨j + 1, s, by simpa using h1, by omega, h3, ?_⟩
          intro s' hs'
          rcases List.mem_cons.mp hs' with e | e
          · injection e with e; subst e; exact UInt32.le_of_lt (UInt32.lt_of_le_of_lt hle h3)
          · exact h4 s' e

/-- bucket `q` of shard `j` has at least two documents -/
def dup (vals : Nat → Nat → List UInt32) (j q : Nat) : Bool := 2 ≤ (vals j q).length

/-- a shard whose read state is `s` still has to deliver the buckets `rem` -/
def ShardAt (xs : ShardIndex) (vals : Nat → List UInt32) (s : Option ReadState) (rem : List Nat) : Prop :=
  match s with
  | none => rem = []
  | some rs => ∃ a, a < 65536 ∧ xs.readStateAt a = .ok rs ∧ rem = (xs.perm.drop a).filter fun q => 2 ≤ (vals q).length

/-- the state of an unlimited extraction between two blots -/
structure QInv (x : Index) (n : Nat) (vals : Nat → Nat → List UInt32) (q : QState) (rems : List (List Nat)) : Prop where
  qn : q.n = UInt32.ofNat n
  lenS : q.shardStates.length = n
  lenR : rems.length = n
  at_ : ∀ (j : Nat) xs s rem, x.shards[j]? = some xs → q.shardStates[j]? = some s → rems[j]? = some rem → ShardAt xs (vals j) s rem
  i : q.i.toNat < n
  max : q.i = QState.maxLoop q.shardStates 0 0 0 ∨ ∀ r ∈ rems, r = []

section
variable {srt : Sorter} (hsrt : IsSorter srt)
include hsrt

theorem perm_get {xs : ShardIndex} {vals : Nat → List UInt32} (h : IndexRep srt 65536 xs vals) {a : Nat} (ha : a < 65536) :
    ∃ q, xs.perm[a]? = some q ∧ q < 65536 := by
  have hp := hsrt.perm xs.counts
  have hl : xs.perm.length = 65536 := by rw [h.perm, hp.length_eq, List.length_range, h.lenC]
  refine ⟨xs.perm[a]'(by omega), List.getElem?_eq_getElem _, ?_⟩
  have hm : xs.perm[a]'(by omega) ∈ srt xs.counts := by rw [← h.perm]; exact List.getElem_mem _
  have := (hp.mem_iff).mp hm
  rw [List.mem_range, h.lenC] at this; exact this

theorem perm_sorted {xs : ShardIndex} {vals : Nat → List UInt32} (h : IndexRep srt 65536 xs vals) {a b qa qb : Nat} (hab : a < b)
    (ha : xs.perm[a]? = some qa) (hb : xs.perm[b]? = some qb) : (vals qb).length ≤ (vals qa).length := by
  have hs := hsrt.sorted xs.counts
  rw [← h.perm] at hs
  obtain ⟨la, ea⟩ := List.getElem?_eq_some_iff.mp ha
  obtain ⟨lb, eb⟩ := List.getElem?_eq_some_iff.mp hb
  have := (List.pairwise_iff_getElem.mp hs) a b la lb hab
  rw [ea, eb, UInt32.le_iff_toNat_le] at this
  have hm : ∀ q, q ∈ xs.perm → q < 65536 := by
    intro q hq
    rw [h.perm] at hq
    have := ((hsrt.perm xs.counts).mem_iff).mp hq
    rwa [List.mem_range, h.lenC] at this
  rwa [h.counts qa (hm _ (List.mem_of_getElem? ha)), h.counts qb (hm _ (List.mem_of_getElem? hb))] at this

theorem perm_nodup {xs : ShardIndex} {vals : Nat → List UInt32} (h : IndexRep srt 65536 xs vals) : xs.perm.Nodup := by
  rw [h.perm]; exact ((hsrt.perm xs.counts).nodup_iff).mpr List.nodup_range

omit hsrt in
theorem readStateAt_rep {xs : ShardIndex} {vals : Nat → List UInt32} (h : IndexRep srt 65536 xs vals) {a q : Nat}
    (hq : xs.perm[a]? = some q) (hlt : q < 65536) : ∃ rs, xs.readStateAt a = .ok rs ∧ PostsRep rs.file rs.posts (vals q) ∧ rs.blot = q ∧ rs.at_ = a ∧
      rs.total.toNat = (vals q).length := by
  obtain ⟨rs, h1, h2, h3, h4, _, h5⟩ := readStateForBlotAt_rep h hlt a
  exact ⟨rs, by simp [ShardIndex.readStateAt, ShardIndex.blotAt, hq, bind, Except.bind, h1], h2, h3, h4, h5⟩

omit hsrt in
/-- what advance puts in place of `src` -/
def nextState (xs : ShardIndex) (src : ReadState) : M (Option ReadState) :=
  if src.at_ = 65535 then .ok none else if src.total ≤ 1 then .ok none else (xs.readStateAt (src.at_ + 1)).map some

omit hsrt in
theorem advance_eq {x : Index} {q : QState} {src : ReadState} {pos : UInt32} {xs : ShardIndex} {o : Option ReadState}
    (h1 : x.shards[pos.toNat]? = some xs) (h2 : pos.toNat < q.shardStates.length) (h3 : nextState xs src = .ok o) :
    advance x q src pos = .ok (QState.setMax { q with shardStates := q.shardStates.set pos.toNat o }) := by
  unfold advance nextState at *
  split at h3
  · rename_i h; rw [if_pos h]; simp only [pure, Except.pure, bind, Except.bind, if_pos h2]; injection h3 with h3; rw [h3]
  · rename_i h; rw [if_neg h]
    split at h3
    · rename_i h; rw [if_pos h]; simp only [pure, Except.pure, bind, Except.bind, if_pos h2]; injection h3 with h3; rw [h3]
    · rename_i h; rw [if_neg h]; simp only [h1, h3, pure, Except.pure, bind, Except.bind, if_pos h2]

/-- an open read state and what its shard still has to deliver -/
theorem shardAt_some {xs : ShardIndex} {vals : Nat → List UInt32} {rs : ReadState} {rem : List Nat}
    (hx : IndexRep srt 65536 xs vals) (h : ShardAt xs vals (some rs) rem) :
    rs.blot < 65536 ∧ PostsRep rs.file rs.posts (vals rs.blot) ∧ rs.total.toNat = (vals rs.blot).length ∧
    (∀ q ∈ rem, (vals q).length ≤ rs.total.toNat) ∧
    (rs.total.toNat ≤ 1 → rem = [] ∧ nextState xs rs = .ok none) ∧
    (2 ≤ rs.total.toNat → ∃ rest o, rem = rs.blot :: rest ∧ nextState xs rs = .ok o ∧ ShardAt xs vals o rest) := by
  obtain ⟨a, ha, h1, h2⟩ := h
  obtain ⟨q, hq, hlt⟩ := perm_get hsrt hx ha
  obtain ⟨rs', g1, g2, g3, g4, g5⟩ := readStateAt_rep hx hq hlt
  rw [h1] at g1; injection g1 with g1; subst g1
  subst g3
  have hl : xs.perm.length = 65536 := by rw [hx.perm, (hsrt.perm xs.counts).length_eq, List.length_range, hx.lenC]
  have hd : xs.perm.drop a = rs.blot :: xs.perm.drop (a + 1) := by
    rw [List.drop_eq_getElem_cons (by omega)]
    obtain ⟨la, ea⟩ := List.getElem?_eq_some_iff.mp hq
    rw [ea]
  have hle : ∀ q ∈ xs.perm.drop a, (vals q).length ≤ rs.total.toNat := by
    intro q hm
    rw [hd] at hm
    rcases List.mem_cons.mp hm with e | e
    · rw [e, g5]; exact Nat.le_refl _
    · obtain ⟨k, hk⟩ := List.getElem?_of_mem e
      rw [List.getElem?_drop] at hk
      rw [g5]
      exact perm_sorted hsrt hx (a := a) (b := a + 1 + k) (by omega) hq hk
  refine ⟨hlt, g2, g5, ?_, ?_, ?_⟩
  · intro q hm; rw [h2] at hm; exact hle q (List.mem_filter.mp hm).1
  · intro h
    refine ⟨?_, ?_⟩
    · rw [h2, List.filter_eq_nil_iff]
      intro q hm
      have := hle q hm
      simp; omega
    · unfold nextState
      split
      · rfl
      · rw [if_pos (by rw [UInt32.le_iff_toNat_le]; exact h)]
  · intro h
    refine ⟨(xs.perm.drop (a + 1)).filter fun q => 2 ≤ (vals q).length, ?_⟩
    have hrem : rem = rs.blot :: (xs.perm.drop (a + 1)).filter fun q => 2 ≤ (vals q).length := by
      rw [h2, hd, List.filter_cons_of_pos (by simp; omega)]
    by_cases he : a = 65535
    · refine ⟨none, hrem, by unfold nextState; rw [if_pos (by omega)], ?_⟩
      simp only [ShardAt]
      rw [List.drop_eq_nil_of_le (by omega)]; rfl
    · obtain ⟨q', hq', hlt'⟩ := perm_get hsrt hx (a := a + 1) (by omega)
      obtain ⟨rs', k1, _⟩ := readStateAt_rep hx hq' hlt'
      refine ⟨some rs', hrem, ?_, a + 1, by omega, k1, rfl⟩
      unfold nextState
      rw [if_neg (by omega), if_neg (by rw [UInt32.le_iff_toNat_le]; show ¬ rs.total.toNat ≤ 1; omega), g4, k1]; rfl

omit hsrt in
/-- the state after `advance` at the chosen shard -/
theorem QInv.advance {x : Index} {n : Nat} {vals : Nat → Nat → List UInt32} {D : UInt32 → Bytes × UInt32 × UInt32} (hx : Holds srt x n vals D)
    (hn : n < 2 ^ 32) {q : QState} {rems : List (List Nat)} (h : QInv x n vals q rems) {src : ReadState} {pos : UInt32} {xs : ShardIndex}
    {o : Option ReadState} {rest : List Nat} (h1 : x.shards[pos.toNat]? = some xs) (h3 : nextState xs src = .ok o)
    (h4 : ShardAt xs (vals pos.toNat) o rest) :
    ∃ q', Query.advance x q src pos = .ok q' ∧ QInv x n vals q' (rems.set pos.toNat rest) ∧ q'.nilCount = q.nilCount ∧
      q'.shardStates = q.shardStates.set pos.toNat o := by
  have hlt : pos.toNat < n := by rw [← hx.len]; exact (List.getElem?_eq_some_iff.mp h1).1
  refine ⟨_, advance_eq h1 (by rw [h.lenS]; exact hlt) h3, ⟨h.qn, by simp [QState.setMax, h.lenS], by simp [h.lenR], ?_, ?_, .inl rfl⟩, rfl, rfl⟩
  · intro j ys s rem k1 k2 k3
    simp only [QState.setMax] at k2
    by_cases e : pos.toNat = j
    · subst e
      rw [List.getElem?_set_self (by rw [h.lenS]; exact hlt)] at k2
      rw [List.getElem?_set_self (by rw [h.lenR]; exact hlt)] at k3
      rw [h1] at k1
      injection k1 with k1; injection k2 with k2; injection k3 with k3
      subst k1 k2 k3; exact h4
    · rw [List.getElem?_set_ne e] at k2 k3
      exact h.at_ j ys s rem k1 k2 k3
  · simp only [QState.setMax]
    rcases maxLoop_spec (q.shardStates.set pos.toNat o) 0 0 0 (by simp [h.lenS]; omega) with ⟨g1, _⟩ | ⟨j, s, g1, g2, _⟩
    · rw [g1]; show (0 : UInt32).toNat < n; simp; omega
    · rw [g2]
      have := (List.getElem?_eq_some_iff.mp g1).1
      simp [h.lenS] at this; omega

/-- what a query in a given state still delivers, in order: pairs of shard and bucket -/
inductive Delivers (x : Index) (n : Nat) (vals : Nat → Nat → List UInt32) (D : UInt32 → Bytes × UInt32 × UInt32) : QState → List (Nat × Nat) → Prop where
  | done {q : QState} : QInv x n vals q (List.replicate n []) → Delivers x n vals D q []
  | step {q q' : QState} {src : ReadState} {E : List (Nat × Nat)} : q.n = UInt32.ofNat n → q.i.toNat < n → q.shardStates[q.i.toNat]? = some (some src) →
      PostsRep src.file src.posts (vals q.i.toNat src.blot) → src.blot < 65536 →
      (∀ id ∈ vals q.i.toNat src.blot, x.docid2Doc id = .ok (D id)) → 2 ≤ (vals q.i.toNat src.blot).length → (vals q.i.toNat src.blot).length < 2 ^ 32 →
      Query.advance x q src q.i = .ok q' → q'.nilCount = q.nilCount → Delivers x n vals D q' E → Delivers x n vals D q ((q.i.toNat, src.blot) :: E)

omit hsrt in
theorem sum_set (rems : List (List Nat)) : ∀ (i : Nat) (b : Nat) (rest : List Nat), rems[i]? = some (b :: rest) →
    (rems.map List.length).sum = ((rems.set i rest).map List.length).sum + 1 := by
  induction rems with
  | nil => simp
  | cons r rems ih =>
    intro i b rest h
    cases i with
    | zero => simp at h; subst h; simp; omega
    | succ i => have := ih i b rest (by simpa using h); simp only [List.set_cons_succ, List.map_cons, List.sum_cons]; omega

/-- Every state of an unlimited extraction delivers what is left, each bucket once, most documents first. -/
theorem delivers {x : Index} {n : Nat} {vals : Nat → Nat → List UInt32} {D : UInt32 → Bytes × UInt32 × UInt32} (hx : Holds srt x n vals D)
    (hn : n < 2 ^ 32) (k : Nat) : ∀ (q : QState) (rems : List (List Nat)), QInv x n vals q rems → (∀ r ∈ rems, r.Nodup) → (rems.map List.length).sum = k →
    ∃ E, Delivers x n vals D q E ∧ E.Nodup ∧ (∀ j b, (j, b) ∈ E ↔ ∃ r, rems[j]? = some r ∧ b ∈ r) ∧
      E.Pairwise (fun a b => (vals b.1 b.2).length ≤ (vals a.1 a.2).length) := by
  induction k with
  | zero =>
    intro q rems h _ hk
    have hnil : ∀ r ∈ rems, r = [] := by
      intro r hr
      have := List.sum_eq_zero_iff_forall_eq_nat.mp hk r.length (List.mem_map_of_mem hr)
      exact List.length_eq_zero_iff.mp this
    have e : rems = List.replicate n [] := by
      rw [List.eq_replicate_iff]; exact ⟨h.lenR, hnil⟩
    refine ⟨[], .done (e ▸ h), by simp, ?_, by simp⟩
    intro j b
    constructor
    · simp
    · rintro ⟨r, hr, hb⟩; rw [hnil r (List.mem_of_getElem? hr)] at hb; simp at hb
  | succ k ih =>
    intro q rems h hnd hk
    -- some shard has something left
    obtain ⟨r0, hr0, hne⟩ : ∃ r ∈ rems, r ≠ [] := by
      false_or_by_contra
      rename_i hc
      have : (rems.map List.length).sum = 0 := by
        rw [List.sum_eq_zero_iff_forall_eq_nat]
        intro m hm
        obtain ⟨r, hr, rfl⟩ := List.mem_map.mp hm
        false_or_by_contra
        rename_i hh
        exact hc ⟨r, hr, fun e => hh (by rw [e]; rfl)⟩
      omega
    obtain ⟨j0, hj0⟩ := List.getElem?_of_mem hr0
    have hj0n : j0 < n := by rw [← h.lenR]; exact (List.getElem?_eq_some_iff.mp hj0).1
    have getS : ∀ j, j < n → ∃ s, q.shardStates[j]? = some s := fun j hj => ⟨_, List.getElem?_eq_getElem (by rw [h.lenS]; exact hj)⟩
    have getX : ∀ j, j < n → ∃ s, x.shards[j]? = some s := fun j hj => ⟨_, List.getElem?_eq_getElem (by rw [hx.len]; exact hj)⟩
    have getR : ∀ j, j < n → ∃ s, rems[j]? = some s := fun j hj => ⟨_, List.getElem?_eq_getElem (by rw [h.lenR]; exact hj)⟩
    have nonempty : ∀ j r, rems[j]? = some r → ∀ b ∈ r, ∃ s, q.shardStates[j]? = some (some s) ∧ (vals j b).length ≤ s.total.toNat ∧ 2 ≤ s.total.toNat := by
      intro j r hr b hb
      have hj : j < n := by rw [← h.lenR]; exact (List.getElem?_eq_some_iff.mp hr).1
      obtain ⟨s, hs⟩ := getS j hj
      obtain ⟨xs, hxs⟩ := getX j hj
      have hat := h.at_ j xs s r hxs hs hr
      cases s with
      | none => simp only [ShardAt] at hat; subst hat; simp at hb
      | some s =>
        obtain ⟨_, _, _, g4, g5, _⟩ := shardAt_some hsrt (hx.sh j xs hxs) hat
        refine ⟨s, hs, g4 b hb, ?_⟩
        false_or_by_contra
        rename_i hlt
        rw [(g5 (by omega)).1] at hb; simp at hb
    obtain ⟨b0, hb0⟩ := List.exists_mem_of_ne_nil r0 hne
    obtain ⟨s0, hs0, _, hs0t⟩ := nonempty j0 r0 hj0 b0 hb0
    -- so the chosen one has
    have hmax : q.i = QState.maxLoop q.shardStates 0 0 0 := by
      rcases h.max with e | e
      · exact e
      · exact absurd (e r0 hr0) hne
    rcases maxLoop_spec q.shardStates 0 0 0 (by rw [h.lenS]; omega) with ⟨_, hz⟩ | ⟨i, src, hi, hiq, _, hbest⟩
    · have := hz s0 (List.mem_of_getElem? hs0)
      rw [UInt32.le_iff_toNat_le] at this; simp at this; omega
    · rw [← hmax, Nat.zero_add] at hiq
      have hin : i < n := by rw [← h.lenS]; exact (List.getElem?_eq_some_iff.mp hi).1
      obtain ⟨xs, hxs⟩ := getX i hin
      obtain ⟨rem, hrem⟩ := getR i hin
      obtain ⟨g1, g2, g3, g4, g5, g6⟩ := shardAt_some hsrt (hx.sh i xs hxs) (h.at_ i xs (some src) rem hxs hi hrem)
      have h2 : 2 ≤ src.total.toNat := by
        have := hbest s0 (List.mem_of_getElem? hs0)
        rw [UInt32.le_iff_toNat_le] at this; omega
      obtain ⟨rest, o, f1, f2, f3⟩ := g6 h2
      subst f1
      rw [← hiq] at hxs hi hrem f3 hin
      obtain ⟨q', a1, a2, a3, _⟩ := QInv.advance hx hn h (src := src) (pos := q.i) hxs f2 f3
      have hmem : ∀ r ∈ rems.set q.i.toNat rest, r.Nodup := by
        intro r hr
        rcases List.mem_or_eq_of_mem_set hr with e | e
        · exact hnd r e
        · rw [e]; exact (List.nodup_cons.mp (hnd _ (List.mem_of_getElem? hrem))).2
      obtain ⟨E, e1, e2, e3, e4⟩ := ih q' (rems.set q.i.toNat rest) a2 hmem (by have := sum_set rems _ _ _ hrem; omega)
      have hlen : q.i.toNat < rems.length := by rw [h.lenR]; exact hin
      have hnotin : (q.i.toNat, src.blot) ∉ E := by
        rw [e3]
        rintro ⟨r, hr, hb⟩
        rw [List.getElem?_set_self hlen] at hr
        injection hr with hr; subst hr
        exact (List.nodup_cons.mp (hnd _ (List.mem_of_getElem? hrem))).1 hb
      rw [← hiq] at g2 g3
      refine ⟨(q.i.toNat, src.blot) :: E, .step h.qn hin hi g2 g1 (hx.doc _ _ hin g1) (by omega) (by rw [← g3]; exact UInt32.toNat_lt _) a1 a3 e1,
        List.nodup_cons.mpr ⟨hnotin, e2⟩, ?_, ?_⟩
      · intro j b
        rw [List.mem_cons, e3, Prod.mk.injEq]
        by_cases e : q.i.toNat = j
        · subst e
          rw [List.getElem?_set_self hlen, hrem]
          constructor
          · rintro (⟨_, rfl⟩ | ⟨r, hr, hb⟩)
            · exact ⟨_, rfl, by simp⟩
            · injection hr with hr; subst hr; exact ⟨_, rfl, by simp [hb]⟩
          · rintro ⟨r, hr, hb⟩
            injection hr with hr; subst hr
            rcases List.mem_cons.mp hb with e | e
            · exact .inl ⟨rfl, e⟩
            · exact .inr ⟨_, rfl, e⟩
        · rw [List.getElem?_set_ne e]
          constructor
          · rintro (⟨rfl, _⟩ | hh)
            · exact absurd rfl e
            · exact hh
          · intro hh; exact .inr hh
      · refine List.pairwise_cons.mpr ⟨?_, e4⟩
        rintro ⟨j, b⟩ hjb
        rw [e3] at hjb
        obtain ⟨r, hr, hb⟩ := hjb
        show (vals j b).length ≤ (vals q.i.toNat src.blot).length
        rw [← g3]
        have hback : ∃ r', rems[j]? = some r' ∧ b ∈ r' := by
          by_cases e : q.i.toNat = j
          · subst e
            rw [List.getElem?_set_self hlen] at hr
            injection hr with hr; subst hr
            exact ⟨_, hrem, by simp [hb]⟩
          · rw [List.getElem?_set_ne e] at hr; exact ⟨r, hr, hb⟩
        obtain ⟨r', hr', hb'⟩ := hback
        obtain ⟨s, hs, hle, _⟩ := nonempty j r' hr' b hb'
        have := hbest s (List.mem_of_getElem? hs)
        rw [UInt32.le_iff_toNat_le] at this; omega

omit hsrt in
/-- passes over exhausted shards until the end is signalled -/
def toGo (q : QState) : Nat := if q.n - q.nilCount = 0 then 2 ^ 32 else (q.n - q.nilCount).toNat

omit hsrt in
theorem toGo_pos (q : QState) : 0 < toGo q := by
  unfold toGo
  split
  · simp
  · rename_i h
    apply Nat.pos_of_ne_zero
    intro e; exact h (UInt32.toNat_inj.mp (by simpa using e))

omit hsrt in
theorem toGo_le (q : QState) : toGo q ≤ 2 ^ 32 := by
  unfold toGo
  split
  · omega
  · have := UInt32.toNat_lt (q.n - q.nilCount); omega

omit hsrt in
theorem toGo_end (q : QState) (h : q.nilCount = q.n) : toGo q = 2 ^ 32 := by
  unfold toGo; rw [h]; simp

omit hsrt in
/-- one more nil seen -/
theorem toGo_step (q : QState) {q' : QState} (h1 : q'.n = q.n) (h2 : q'.nilCount = q.nilCount + 1) :
    (q'.nilCount = q'.n ↔ toGo q = 1) ∧ (toGo q ≠ 1 → toGo q = toGo q' + 1) := by
  unfold toGo
  rw [h1, h2]
  generalize q.n = a, q.nilCount = b
  have ha := a.toNat_lt
  have hb := b.toNat_lt
  have e1 : a - b = 0 ↔ a.toNat = b.toNat := by
    rw [← UInt32.toNat_inj, UInt32.toNat_sub]; simp; omega
  have e2 : a - (b + 1) = 0 ↔ a.toNat = (b.toNat + 1) % 2 ^ 32 := by
    rw [← UInt32.toNat_inj, UInt32.toNat_sub, UInt32.toNat_add]; simp; omega
  have e3 : b + 1 = a ↔ a.toNat = (b.toNat + 1) % 2 ^ 32 := by
    rw [← UInt32.toNat_inj, UInt32.toNat_add]; simp; omega
  simp only [e1, e2, e3, UInt32.toNat_sub, UInt32.toNat_add, UInt32.reduceToNat]
  constructor
  · split <;> omega
  · by_cases g1 : a.toNat = b.toNat
    · simp only [g1, if_true]
      intro _
      split <;> omega
    · simp only [g1, if_false]
      intro h
      split
      · rename_i g2; omega
      · rename_i g2
        by_cases g3 : b.toNat + 1 = 2 ^ 32
        · rw [g3] at g2 ⊢
          rw [Nat.mod_self] at g2 ⊢
          omega
        · omega

omit hsrt in
/-- number of shards with a read state -/
def opens (q : QState) : Nat := q.shardStates.countP Option.isSome

/-- a pass over an exhausted shard with a read state -/
theorem exh_some {x : Index} {n : Nat} {vals : Nat → Nat → List UInt32} {D : UInt32 → Bytes × UInt32 × UInt32} (hx : Holds srt x n vals D)
    (hn : n < 2 ^ 32) {q : QState} (h : QInv x n vals q (List.replicate n [])) {src : ReadState} (hs : q.shardStates[q.i.toNat]? = some (some src))
    (grow : Nat → Nat) {ff : Nat} (hff : 2 ≤ ff) {b : Blot} (hb : b.docs = none) :
    ∃ b' q1 q2, fillBlot grow x ff q b src q.i = .ok (b', q1) ∧ b'.len ≤ 1 ∧ Query.advance x q1 src q1.i = .ok q2 ∧
      QInv x n vals q2 (List.replicate n []) ∧ q2.nilCount = q.nilCount ∧ opens q2 + 1 ≤ opens q := by
  have getX : ∀ j, j < n → ∃ s, x.shards[j]? = some s := fun j hj => ⟨_, List.getElem?_eq_getElem (by rw [hx.len]; exact hj)⟩
  obtain ⟨xs, hxs⟩ := getX _ h.i
  have hr : (List.replicate n ([] : List Nat))[q.i.toNat]? = some [] := by rw [List.getElem?_replicate, if_pos h.i]
  obtain ⟨g1, g2, g3, g4, g5, g6⟩ := shardAt_some hsrt (hx.sh _ xs hxs) (h.at_ _ xs _ _ hxs hs hr)
  have ht : src.total.toNat ≤ 1 := by
    false_or_by_contra
    rename_i hc
    obtain ⟨rest, o, e, _⟩ := g6 (by omega)
    simp at e
  have hset : ∀ j : Nat, (List.replicate n ([] : List Nat)).set j [] = List.replicate n [] := by
    intro j
    apply List.ext_getElem?
    intro k
    rw [List.getElem?_set]
    split
    · subst_vars; simp [List.getElem?_replicate]
    · rfl
  obtain ⟨q1, a1, a2, a3, a4⟩ := QInv.advance hx hn h (src := src) (pos := q.i) hxs (g5 ht).2 (rest := []) rfl
  rw [hset] at a2
  obtain ⟨ys, hys⟩ := getX _ a2.i
  have hns : nextState ys src = .ok none := by
    unfold nextState
    split
    · rfl
    · rw [if_pos (by rw [UInt32.le_iff_toNat_le]; exact ht)]
  obtain ⟨q2, c1, c2, c3, c4⟩ := QInv.advance hx hn a2 (src := src) (pos := q1.i) hys hns (rest := []) rfl
  rw [hset] at c2
  obtain ⟨b', f1, f2, f3⟩ := fillLoop_unlim grow (D := D) (q := q) (q' := q1) (pos := q.i) (vals q.i.toNat src.blot) ff src
    { b with blot := UInt32.ofNat src.blot * q.n + q.i } g2 (hx.doc _ _ h.i g1) (by omega) a1
  refine ⟨b', q1, q2, ?_, ?_, c1, c2, by rw [c3, a3], ?_⟩
  · rw [← f1]; simp only [fillBlot, hb, Option.isSome_none]
  · have : b'.len = b'.vis.length := by unfold Blot.len Blot.vis; cases b'.docs <;> rfl
    rw [this, f3]
    simp [Blot.vis, hb]; omega
  · unfold opens
    rw [c4, a4]
    have hl1 : q.i.toNat < q.shardStates.length := by rw [h.lenS]; exact h.i
    have e1 : (q.shardStates.set q.i.toNat none).countP Option.isSome + 1 = q.shardStates.countP Option.isSome := by
      rw [List.countP_set hl1]
      have hg : q.shardStates[q.i.toNat] = some src := (List.getElem?_eq_some_iff.mp hs).2
      have hp : 0 < q.shardStates.countP Option.isSome := List.countP_pos_iff.mpr ⟨some src, List.mem_of_getElem? hs, rfl⟩
      simp [hg]; omega
    have e2 : ((q.shardStates.set q.i.toNat none).set q1.i.toNat none).countP Option.isSome ≤ (q.shardStates.set q.i.toNat none).countP Option.isSome := by
      rw [List.countP_set (by rw [List.length_set, h.lenS]; exact a2.i)]
      simp
    omega

/-- the slice from position `k` on consists of nil slices -/
def NilFrom (k : Nat) (dst : List Blot) : Prop := ∀ (i : Nat) b, k ≤ i → dst[i]? = some b → b.docs = none

omit hsrt in
theorem dropBlot_nil (b : Blot) : (dropBlot false b).docs = none := by
  unfold dropBlot; simp

omit hsrt in
theorem QInv.next {x : Index} {n : Nat} {vals : Nat → Nat → List UInt32} {q : QState} (hn : n < 2 ^ 32) (h : QInv x n vals q (List.replicate n [])) :
    QInv x n vals { q with nilCount := q.nilCount + 1, i := if q.i + 1 = q.n then 0 else q.i + 1 } (List.replicate n []) := by
  refine ⟨h.qn, h.lenS, h.lenR, h.at_, ?_, .inr fun r hr => List.eq_of_mem_replicate hr⟩
  show (if q.i + 1 = q.n then (0 : UInt32) else q.i + 1).toNat < n
  have hi := h.i
  have e : q.n.toNat = n := by rw [h.qn]; simp only [UInt32.toNat_ofNat']; omega
  split
  · simp; omega
  · rename_i hne
    have : (q.i + 1).toNat = q.i.toNat + 1 := by rw [UInt32.toNat_add]; simp; omega
    rw [this]
    have : q.i.toNat + 1 ≠ n := by
      intro hc; apply hne; apply UInt32.toNat_inj.mp; omega
    omega

/-- Next when nothing is left to deliver -/
theorem nextLoop_exh {x : Index} {n : Nat} {vals : Nat → Nat → List UInt32} {D : UInt32 → Bytes × UInt32 × UInt32} (hx : Holds srt x n vals D)
    (hn : n < 2 ^ 32) (grow : Nat → Nat) {ff : Nat} (hff : 2 ≤ ff) (k : Nat) (fuel : Nat) : ∀ (q : QState) (dst : List Blot),
    QInv x n vals q (List.replicate n []) → NilFrom k dst → k < dst.length →
    (opens q + toGo q ≤ fuel →
      ∃ r, nextLoop grow x ff fuel q k dst = .ok r ∧ r.n = k ∧ r.eof = (k == 0) ∧ r.dst.length = dst.length ∧
        (∀ i, i < k → r.dst[i]? = dst[i]?) ∧ QInv x n vals r.state (List.replicate n []) ∧ r.state.nilCount = r.state.n) ∧
    (fuel < toGo q → nextLoop grow x ff fuel q k dst = .error .diverge) := by
  induction fuel with
  | zero =>
    intro q dst h _ _
    exact ⟨fun hc => by have := toGo_pos q; omega, fun _ => rfl⟩
  | succ fuel ih =>
    intro q dst h hnil hk
    obtain ⟨b, hb⟩ : ∃ b, dst[k]? = some b := ⟨_, List.getElem?_eq_getElem hk⟩
    obtain ⟨s, hs⟩ : ∃ s, q.shardStates[q.i.toNat]? = some s := ⟨_, List.getElem?_eq_getElem (by rw [h.lenS]; exact h.i)⟩
    cases s with
    | none =>
      simp only [nextLoop, hb, hs]
      obtain ⟨t1, t2⟩ := toGo_step q (q' := { q with nilCount := q.nilCount + 1 }) rfl rfl
      by_cases he : q.nilCount + 1 = q.n
      · simp only [he, if_true]
        have : toGo q = 1 := t1.mp he
        exact ⟨fun _ => ⟨_, rfl, rfl, rfl, rfl, fun _ _ => rfl, ⟨h.qn, h.lenS, h.lenR, h.at_, h.i, .inr fun r hr => List.eq_of_mem_replicate hr⟩, rfl⟩,
          fun hc => by omega⟩
      · simp only [he, if_false]
        have hne : toGo q ≠ 1 := fun e => he (t1.mpr e)
        have t2 := t2 hne
        have hq : toGo { q with nilCount := q.nilCount + 1, i := if q.i + 1 = q.n then 0 else q.i + 1 } = toGo { q with nilCount := q.nilCount + 1 } := rfl
        have hop : opens { q with nilCount := q.nilCount + 1, i := if q.i + 1 = q.n then 0 else q.i + 1 } = opens q := rfl
        obtain ⟨i1, i2⟩ := ih _ dst (h.next hn) hnil hk
        exact ⟨fun hc => i1 (by rw [hop, hq]; omega), fun hc => i2 (by rw [hq]; omega)⟩
    | some src =>
      have hbn := hnil k b (Nat.le_refl _) hb
      obtain ⟨b', q1, q2, f1, f2, f3, f4, f5, f6⟩ := exh_some hsrt hx hn h hs grow hff hbn
      simp only [nextLoop, hb, hs, f1, bind, Except.bind, f2, if_true, f3, hbn, Option.isSome_none]
      have hg : toGo q2 = toGo q := by unfold toGo; rw [f5, f4.qn, h.qn]
      obtain ⟨i1, i2⟩ := ih q2 (dst.set k (dropBlot false b')) f4 (by
        intro i c hi hc
        rw [List.getElem?_set] at hc
        split at hc
        · injection hc with hc
          rw [← hc]; exact dropBlot_nil _
        · exact hnil i c hi hc) (by simpa using hk)
      refine ⟨fun hc => ?_, fun hc => i2 (by omega)⟩
      obtain ⟨r, e1, e2, e3, e4, e5, e6⟩ := i1 (by omega)
      refine ⟨r, e1, e2, e3, by simpa using e4, fun i hi => ?_, e6⟩
      rw [e5 i hi, List.getElem?_set_ne (by omega)]

/-- what one call of Next does when `E` is still to be delivered: `dst` from position `k` on is filled -/
structure NextSpec (x : Index) (n : Nat) (vals : Nat → Nat → List UInt32) (D : UInt32 → Bytes × UInt32 × UInt32) (E : List (Nat × Nat)) (k : Nat)
    (dst : List Blot) (q : QState) (r : NextResult) : Prop where
  count : r.n = k + min E.length (dst.length - k)
  eof : r.eof = true ↔ r.n = 0 ∧ dst ≠ []
  len : r.dst.length = dst.length
  old : ∀ i, i < k → r.dst[i]? = dst[i]?
  new : ∀ (i : Nat) j b, k + i < dst.length → E[i]? = some (j, b) → ∃ bl, r.dst[k + i]? = some bl ∧ bl.blot = UInt32.ofNat (b * n + j) ∧
    bl.vis = (vals j b).map fun id => Doc.ofMeta (D id)
  rest : Delivers x n vals D r.state (E.drop (dst.length - k))
  ended : E.length < dst.length - k → r.state.nilCount = r.state.n
  going : dst.length - k ≤ E.length → r.state.nilCount = q.nilCount ∧ r.state.n = q.n

omit hsrt in
theorem Delivers.n {x : Index} {n : Nat} {vals : Nat → Nat → List UInt32} {D : UInt32 → Bytes × UInt32 × UInt32} {q : QState} {E : List (Nat × Nat)}
    (h : Delivers x n vals D q E) : q.n = UInt32.ofNat n := by
  cases h with
  | done h => exact h.qn
  | step h => exact h

theorem nextLoop_delivers {x : Index} {n : Nat} {vals : Nat → Nat → List UInt32} {D : UInt32 → Bytes × UInt32 × UInt32} (hx : Holds srt x n vals D)
    (hn : n < 2 ^ 32) (grow : Nat → Nat) {ff : Nat} (hff : 2 ^ 32 ≤ ff) {q : QState} {E : List (Nat × Nat)} (h : Delivers x n vals D q E) :
    ∀ (k fuel : Nat) (dst : List Blot), NilFrom k dst → k ≤ dst.length → E.length + n + toGo q < fuel →
    ∃ r, nextLoop grow x ff fuel q k dst = .ok r ∧ NextSpec x n vals D E k dst q r := by
  induction h with
  | done h =>
    rename_i q0
    intro k fuel dst hnil hk hf
    by_cases he : k = dst.length
    · obtain ⟨f, rfl⟩ : ∃ f, fuel = f + 1 := ⟨fuel - 1, by omega⟩
      refine ⟨_, by simp only [nextLoop, List.getElem?_eq_none (show dst.length ≤ k by omega)]; rfl, ?_⟩
      refine ⟨by simp, ?_, rfl, fun _ _ => rfl, by simp, by simpa using .done h, ?_, fun _ => ⟨rfl, rfl⟩⟩
      · simp only [Bool.false_eq_true, false_iff, not_and, Decidable.not_not]
        intro e; exact List.length_eq_zero_iff.mp (by omega)
      · intro hc; simp at hc; omega
    · have ho : opens q0 ≤ n := by
        have := List.countP_le_length (p := Option.isSome) (l := q0.shardStates)
        rw [h.lenS] at this; exact this
      obtain ⟨r, e1, e2, e3, e4, e5, e6, e7⟩ := (nextLoop_exh hsrt hx hn grow (ff := ff) (by omega) k fuel _ dst h hnil (by omega)).1 (by omega)
      refine ⟨r, e1, ⟨by simpa using e2, ?_, e4, e5, by simp, by simpa using .done e6, fun _ => e7, ?_⟩⟩
      · rw [e3, e2]
        simp only [beq_iff_eq]
        constructor
        · intro h0; exact ⟨h0, by intro hc; simp [hc] at hk; simp [hc] at he; omega⟩
        · exact And.left
      · intro hc; simp at hc; omega
  | step s1 s2 s3 s4 s5 s6 s7 s8 s9 s10 s11 ih =>
    rename_i q q' src E
    intro k fuel dst hnil hk hf
    obtain ⟨f, rfl⟩ : ∃ f, fuel = f + 1 := ⟨fuel - 1, by omega⟩
    by_cases he : k = dst.length
    · refine ⟨_, by simp only [nextLoop, List.getElem?_eq_none (show dst.length ≤ k by omega)]; rfl, ?_⟩
      refine ⟨by simp; omega, ?_, rfl, fun _ _ => rfl, by intro i j b hi; omega, ?_, ?_, fun _ => ⟨rfl, rfl⟩⟩
      · simp only [Bool.false_eq_true, false_iff, not_and, Decidable.not_not]
        intro e; exact List.length_eq_zero_iff.mp (by omega)
      · rw [he, Nat.sub_self]; exact .step s1 s2 s3 s4 s5 s6 s7 s8 s9 s10 s11
      · intro hc; simp at hc; omega
    · have hk' : k < dst.length := by omega
      obtain ⟨b, hb⟩ : ∃ b, dst[k]? = some b := ⟨_, List.getElem?_eq_getElem hk'⟩
      have hbn := hnil k b (Nat.le_refl _) hb
      obtain ⟨b', f1, f2, f3⟩ := fillLoop_unlim grow (D := D) (q := q) (q' := q') (pos := q.i) (vals q.i.toNat src.blot) ff src
        { b with blot := UInt32.ofNat src.blot * q.n + q.i } s4 s6 (by omega) s9
      have hfill : fillBlot grow x ff q b src q.i = .ok (b', q') := by rw [← f1]; simp only [fillBlot, hbn, Option.isSome_none]
      have hlen : ¬ b'.len ≤ 1 := by
        have : b'.len = b'.vis.length := by unfold Blot.len Blot.vis; cases b'.docs <;> rfl
        rw [this, f3]
        simp [Blot.vis, hbn]; omega
      have hqn : q'.n = q.n := by rw [s11.n, s1]
      have hg : toGo q' = toGo q := by unfold toGo; rw [hqn, s10]
      obtain ⟨r, e1, e2⟩ := ih (k + 1) f (dst.set k b') (by
        intro i c hi hc
        rw [List.getElem?_set_ne (by omega)] at hc
        exact hnil i c (by omega) hc) (by simp; omega) (by simp at hf; omega)
      have hl := e2.count
      rw [List.length_set] at hl
      refine ⟨r, ?_, ?_, ?_, ?_, ?_, ?_, ?_, ?_, ?_⟩
      · simp only [nextLoop, hb, s3, hfill, bind, Except.bind, hlen, if_false]; exact e1
      · rw [hl]; simp; omega
      · rw [e2.eof]; simp only [ne_eq, List.set_eq_nil_iff]
      · rw [e2.len, List.length_set]
      · intro i hi; rw [e2.old i (by omega), List.getElem?_set_ne (by omega)]
      · intro i j c hi hE
        cases i with
        | zero =>
          simp only [List.getElem?_cons_zero, Option.some.injEq, Prod.mk.injEq] at hE
          obtain ⟨rfl, rfl⟩ := hE
          refine ⟨b', ?_, ?_, ?_⟩
          · rw [Nat.add_zero, e2.old k (by omega), List.getElem?_set_self hk']
          · rw [f2]
            apply UInt32.toNat_inj.mp
            rw [s1]
            simp [UInt32.toNat_add, UInt32.toNat_mul]
          · rw [f3]; simp [Blot.vis, hbn]
        | succ i =>
          have := e2.new i j c (by rw [List.length_set]; omega) (by simpa using hE)
          rwa [Nat.add_assoc, Nat.add_comm 1 i] at this
      · have := e2.rest
        rw [List.length_set] at this
        rw [show dst.length - k = (dst.length - (k + 1)) + 1 by omega]
        exact this
      · intro hc; exact e2.ended (by rw [List.length_set]; simp at hc; omega)
      · intro hc
        obtain ⟨g1, g2⟩ := e2.going (by rw [List.length_set]; simp at hc; omega)
        exact ⟨g1.trans s10, g2.trans hqn⟩

end

end Query
end Dupi
