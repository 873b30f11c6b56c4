import Verif.Proof.Query
/-! # `Next` with slices of limited capacity -/

namespace Dupi

/-- without its data -/
def Doc.noDat (d : Doc) : Doc := { d with dat := none }

namespace Query

/-- reading `ids` one by one takes `s` to `s'` -/
def Reads : List UInt32 → ReadState → ReadState → Prop
  | [], s, s' => s' = s
  | id :: ids, s, s' => ∃ s1, s.next = .ok (id, s1) ∧ Reads ids s1 s'

theorem reads_of_rep (ids : List UInt32) : ∀ (s : ReadState) (rem : List UInt32), PostsRep s.file s.posts (ids ++ rem) →
    ∃ p, Reads ids s { s with posts := p } ∧ PostsRep s.file p rem := by
  induction ids with
  | nil => intro s rem h; exact ⟨s.posts, rfl, h⟩
  | cons id ids ih =>
    intro s rem h
    obtain ⟨p, h1, h2⟩ := ReadState.next_step h
    obtain ⟨p', g1, g2⟩ := ih { s with posts := p } rem h2
    exact ⟨p', ⟨_, h1, g1⟩, g2⟩

/-- a slice that gets full -/
theorem fillLoop_full (grow : Nat → Nat) {x : Index} {D : UInt32 → Bytes × UInt32 × UInt32} {q : QState} {pos : UInt32} {bl : UInt32} (ids : List UInt32) :
    ∀ (fuel : Nat) (rs rs' : ReadState) (v s : List Doc), Reads ids rs rs' → s.length = ids.length → (∀ id ∈ ids, x.docid2Doc id = .ok (D id)) → ids.length < fuel →
    fillLoop grow x q pos true fuel rs ⟨bl, some ⟨v, s⟩⟩ =
      .ok (⟨bl, some ⟨v ++ List.zipWith (fun d id => d.fill (D id)) s ids, []⟩⟩, { q with shardStates := q.shardStates.set pos.toNat (some rs') }) := by
  induction ids with
  | nil =>
    intro fuel rs rs' v s h hs _ hf
    obtain ⟨f, rfl⟩ : ∃ f, fuel = f + 1 := ⟨fuel - 1, by simp at hf; omega⟩
    have : s = [] := List.length_eq_zero_iff.mp hs
    subst this
    cases h
    simp [fillLoop, Blot.len, Blot.cap]
  | cons id ids ih =>
    intro fuel rs rs' v s h hs hD hf
    obtain ⟨f, rfl⟩ : ∃ f, fuel = f + 1 := ⟨fuel - 1, by simp at hf; omega⟩
    cases s with
    | nil => simp at hs
    | cons d s =>
      obtain ⟨s1, h1, h2⟩ := h
      obtain ⟨b1, g1, g2⟩ := Blot.next_lim grow bl v d s (D id)
      have := ih f s1 rs' (v ++ [d.fill (D id)]) s h2 (by simpa using hs) (fun i hi => hD i (by simp [hi])) (by simp at hf; omega)
      simp only [fillLoop, Blot.len, Blot.cap, List.length_cons, Bool.not_true, Bool.false_or,
        h1, g1, bind, Except.bind, hD id (by simp), g2, this]
      simp

/-- a slice with room for all that is left and more -/
theorem fillLoop_part (grow : Nat → Nat) {x : Index} {D : UInt32 → Bytes × UInt32 × UInt32} {q q' : QState} {pos : UInt32} {bl : UInt32} (rem : List UInt32) :
    ∀ (fuel : Nat) (rs : ReadState) (v s : List Doc), PostsRep rs.file rs.posts rem → rem.length < s.length → (∀ id ∈ rem, x.docid2Doc id = .ok (D id)) →
    rem.length < fuel → advance x q rs pos = .ok q' →
    fillLoop grow x q pos true fuel rs ⟨bl, some ⟨v, s⟩⟩ =
      .ok (⟨bl, some ⟨v ++ List.zipWith (fun d id => d.fill (D id)) s rem, s.drop rem.length⟩⟩, q') := by
  induction rem with
  | nil =>
    intro fuel rs v s h hs _ hf ha
    obtain ⟨f, rfl⟩ : ∃ f, fuel = f + 1 := ⟨fuel - 1, by simp at hf; omega⟩
    have hs : 0 < s.length := hs
    simp [fillLoop, Blot.len, Blot.cap, ReadState.next_eof h, ha, hs, bind, Except.bind, pure, Except.pure]
  | cons id rem ih =>
    intro fuel rs v s h hs hD hf ha
    obtain ⟨f, rfl⟩ : ∃ f, fuel = f + 1 := ⟨fuel - 1, by simp at hf; omega⟩
    cases s with
    | nil => simp at hs
    | cons d s =>
      obtain ⟨p, h1, h2⟩ := ReadState.next_step h
      obtain ⟨b1, g1, g2⟩ := Blot.next_lim grow bl v d s (D id)
      have := ih f { rs with posts := p } (v ++ [d.fill (D id)]) s h2 (by simpa using hs) (fun i hi => hD i (by simp [hi])) (by simp at hf; omega)
        (by rw [← ha]; exact advance_congr x q rfl rfl pos)
      simp only [fillLoop, Blot.len, Blot.cap, List.length_cons, Bool.not_true, Bool.false_or,
        h1, g1, bind, Except.bind, hD id (by simp), g2, this]
      simp

theorem zipWith_noDat (D : UInt32 → Bytes × UInt32 × UInt32) (ids : List UInt32) : ∀ s : List Doc, ids.length ≤ s.length →
    (List.zipWith (fun (d : Doc) id => d.fill (D id)) s ids).map Doc.noDat = ids.map fun id => Doc.ofMeta (D id) := by
  induction ids with
  | nil => simp
  | cons id ids ih =>
    intro s h
    cases s with
    | nil => simp at h
    | cons d s => simp only [List.zipWith_cons_cons, List.map_cons, ih s (by simpa using h)]; rfl

/-- What a query in a given state still delivers into slices of capacity `cap`, in order: a shard, a bucket, some of its postings; `k` passes of the loop. -/
inductive DelLim (x : Index) (n : Nat) (vals : Nat → Nat → List UInt32) (D : UInt32 → Bytes × UInt32 × UInt32) (cap : Nat) :
    QState → Nat → List (Nat × Nat × List UInt32) → Prop where
  | done {q : QState} : QInv x n vals q (List.replicate n []) → DelLim x n vals D cap q 0 []
  | full {q : QState} {src src' : ReadState} {ids : List UInt32} {k : Nat} {E} : q.n = UInt32.ofNat n → q.shardStates[q.i.toNat]? = some (some src) →
      Reads ids src src' → (∀ id ∈ ids, x.docid2Doc id = .ok (D id)) → ids.length = cap → cap < 2 ^ 32 →
      DelLim x n vals D cap { q with shardStates := q.shardStates.set q.i.toNat (some src') } k E → DelLim x n vals D cap q (k + 1) ((q.i.toNat, src.blot, ids) :: E)
  | last {q q' : QState} {src : ReadState} {rem : List UInt32} {k : Nat} {E} : q.n = UInt32.ofNat n → q.shardStates[q.i.toNat]? = some (some src) →
      PostsRep src.file src.posts rem → (∀ id ∈ rem, x.docid2Doc id = .ok (D id)) → 2 ≤ rem.length → rem.length < cap → rem.length < 2 ^ 32 →
      advance x q src q.i = .ok q' → q'.nilCount = q.nilCount → DelLim x n vals D cap q' k E → DelLim x n vals D cap q (k + 1) ((q.i.toNat, src.blot, rem) :: E)
  | skip {q q1 q' : QState} {src : ReadState} {rem : List UInt32} {k : Nat} {E} : q.n = UInt32.ofNat n → q.shardStates[q.i.toNat]? = some (some src) →
      PostsRep src.file src.posts rem → (∀ id ∈ rem, x.docid2Doc id = .ok (D id)) → rem.length ≤ 1 →
      advance x q src q.i = .ok q1 → advance x q1 src q1.i = .ok q' → q'.nilCount = q.nilCount → DelLim x n vals D cap q' k E → DelLim x n vals D cap q (k + 1) E

theorem DelLim.n {x : Index} {n : Nat} {vals : Nat → Nat → List UInt32} {D : UInt32 → Bytes × UInt32 × UInt32} {cap : Nat} {q : QState} {k : Nat} {E}
    (h : DelLim x n vals D cap q k E) : q.n = UInt32.ofNat n := by
  cases h with
  | done h => exact h.qn
  | full h => exact h
  | last h => exact h
  | skip h => exact h

/-- the pieces delivered of a posting list -/
def pieces (cap : Nat) (ids : List UInt32) : List (List UInt32) :=
  if 0 < cap ∧ cap ≤ ids.length then ids.take cap :: pieces cap (ids.drop cap)
  else if 2 ≤ ids.length then [ids] else []
termination_by ids.length
decreasing_by simp; omega

theorem pieces_flatten {cap : Nat} (hc : 2 ≤ cap) (m : Nat) : ∀ ids : List UInt32, ids.length = m →
    (pieces cap ids).flatten = ids.take (m - if m % cap = 1 then 1 else 0) := by
  induction m using Nat.strongRecOn with
  | ind m ih =>
    intro ids hm
    rw [pieces]
    split
    · rename_i h
      have e : m % cap = (m - cap) % cap := by
        rw [← Nat.mod_eq_sub_mod (by omega)]
      rw [List.flatten_cons, ih (m - cap) (by omega) (ids.drop cap) (by simp; omega), ← e]
      split
      · rename_i h1
        have : m - 1 = cap + (m - cap - 1) := by
          have : cap ≠ m := by intro e; rw [e, Nat.mod_self] at h1; omega
          omega
        rw [this, List.take_add]
      · rw [show m - 0 = cap + (m - cap - 0) by omega, List.take_add]
    · rename_i h
      have hlt : m < cap := by omega
      rw [Nat.mod_eq_of_lt hlt]
      split
      · rw [if_neg (by omega)]; simp [← hm]
      · by_cases h1 : m = 1
        · simp [h1]
        · have : ids = [] := List.length_eq_zero_iff.mp (by omega)
          simp [this]

theorem pieces_size {cap : Nat} (hc : 2 ≤ cap) (m : Nat) : ∀ ids : List UInt32, ids.length = m → ∀ p ∈ pieces cap ids, 2 ≤ p.length ∧ p.length ≤ cap := by
  induction m using Nat.strongRecOn with
  | ind m ih =>
    intro ids hm p hp
    rw [pieces] at hp
    split at hp
    · rename_i h
      rcases List.mem_cons.mp hp with e | e
      · subst e; simp; omega
      · exact ih (m - cap) (by omega) (ids.drop cap) (by simp; omega) p e
    · split at hp
      · simp only [List.mem_singleton] at hp; subst hp; omega
      · simp at hp

theorem advance_set (x : Index) (q : QState) (o : Option ReadState) (src : ReadState) (pos : UInt32) :
    advance x { q with shardStates := q.shardStates.set pos.toNat o } src pos = advance x q src pos := by
  unfold advance
  simp [QState.setMax]

/-- A list read to the end, piece by piece.  When less than two documents are left for the last piece, `Next` advances once more. -/
theorem delLim_pieces {x : Index} {n : Nat} {vals : Nat → Nat → List UInt32} {D : UInt32 → Bytes × UInt32 × UInt32} {cap : Nat} (hc : 2 ≤ cap)
    {q q1 : QState} {src : ReadState} {kE : Nat} {E} (hn : q.n = UInt32.ofNat n) (hs : q.shardStates[q.i.toNat]? = some (some src))
    (ha : advance x q src q.i = .ok q1) (m : Nat) :
    ∀ (rem : List UInt32) (p : Posts), rem.length = m → m < 2 ^ 32 → PostsRep src.file p rem → (∀ id ∈ rem, x.docid2Doc id = .ok (D id)) →
    (2 ≤ m % cap ∧ q1.nilCount = q.nilCount ∧ DelLim x n vals D cap q1 kE E ∨
      m % cap ≤ 1 ∧ ∃ q2, advance x q1 src q1.i = .ok q2 ∧ q2.nilCount = q.nilCount ∧ DelLim x n vals D cap q2 kE E) →
    ∃ k, DelLim x n vals D cap { q with shardStates := q.shardStates.set q.i.toNat (some { src with posts := p }) } k
      ((pieces cap rem).map (fun ids => (q.i.toNat, src.blot, ids)) ++ E) := by
  have hlt : q.i.toNat < q.shardStates.length := (List.getElem?_eq_some_iff.mp hs).1
  induction m using Nat.strongRecOn with
  | ind m ih =>
    intro rem p hm hm32 hp hD hor
    have hget : ({ q with shardStates := q.shardStates.set q.i.toNat (some { src with posts := p }) } : QState).shardStates[q.i.toNat]? = some (some { src with posts := p }) := by
      simp [hlt]
    have hadv : advance x { q with shardStates := q.shardStates.set q.i.toNat (some { src with posts := p }) } { src with posts := p } q.i = .ok q1 := by
      rw [advance_set, ← ha]; exact advance_congr x q rfl rfl _
    rw [pieces]
    split
    · rename_i h
      obtain ⟨p', g1, g2⟩ := reads_of_rep (rem.take cap) { src with posts := p } (rem.drop cap) (by rw [List.take_append_drop]; exact hp)
      obtain ⟨k, hk⟩ := ih (m - cap) (by omega) (rem.drop cap) p' (by simp; omega) (by omega) g2 (fun id hi => hD id (List.mem_of_mem_drop hi)) (by
        rw [← Nat.mod_eq_sub_mod (by omega)]; exact hor)
      refine ⟨k + 1, ?_⟩
      have := DelLim.full (vals := vals) (n := n) (D := D) (cap := cap) (q := { q with shardStates := q.shardStates.set q.i.toNat (some { src with posts := p }) })
        (k := k) (E := (pieces cap (rem.drop cap)).map (fun ids => (q.i.toNat, src.blot, ids)) ++ E) hn hget g1
        (fun id hi => hD id (List.mem_of_mem_take hi)) (by simp; omega) (by omega) (by simpa using hk)
      simpa using this
    · rename_i h
      have hlt : m < cap := by omega
      rw [Nat.mod_eq_of_lt hlt] at hor
      split
      · rcases hor with ⟨_, hnil, hE⟩ | ⟨_, _⟩
        · have := DelLim.last (vals := vals) (n := n) (D := D) (cap := cap) (q := { q with shardStates := q.shardStates.set q.i.toNat (some { src with posts := p }) })
            hn hget hp hD (by omega) (by omega) (by omega) hadv hnil hE
          exact ⟨_, by simpa using this⟩
        · omega
      · rcases hor with ⟨_, _⟩ | ⟨_, q2, h2, hnil, hE⟩
        · omega
        · have := DelLim.skip (vals := vals) (n := n) (D := D) (cap := cap) (q := { q with shardStates := q.shardStates.set q.i.toNat (some { src with posts := p }) })
            hn hget hp hD (by omega) hadv (by rw [← h2]; exact advance_congr x q1 rfl rfl _) hnil hE
          exact ⟨_, by simpa using this⟩

theorem delLim_pieces' {x : Index} {n : Nat} {vals : Nat → Nat → List UInt32} {D : UInt32 → Bytes × UInt32 × UInt32} {cap : Nat} (hc : 2 ≤ cap)
    {q q1 : QState} {src : ReadState} {kE : Nat} {E} (hn : q.n = UInt32.ofNat n) (hs : q.shardStates[q.i.toNat]? = some (some src))
    (ha : advance x q src q.i = .ok q1)
    (rem : List UInt32) (h32 : rem.length < 2 ^ 32) (hp : PostsRep src.file src.posts rem) (hD : ∀ id ∈ rem, x.docid2Doc id = .ok (D id))
    (hor : 2 ≤ rem.length % cap ∧ q1.nilCount = q.nilCount ∧ DelLim x n vals D cap q1 kE E ∨
      rem.length % cap ≤ 1 ∧ ∃ q2, advance x q1 src q1.i = .ok q2 ∧ q2.nilCount = q.nilCount ∧ DelLim x n vals D cap q2 kE E) :
    ∃ k, DelLim x n vals D cap q k ((pieces cap rem).map (fun ids => (q.i.toNat, src.blot, ids)) ++ E) := by
  obtain ⟨k, h⟩ := delLim_pieces hc hn hs ha _ rem src.posts rfl h32 hp hD hor
  refine ⟨k, ?_⟩
  have : ({ q with shardStates := q.shardStates.set q.i.toNat (some { src with posts := src.posts }) } : QState) = q := by
    obtain ⟨hlt, e⟩ := List.getElem?_eq_some_iff.mp hs
    have : q.shardStates.set q.i.toNat (some src) = q.shardStates := by rw [← e]; exact List.set_getElem_self hlt
    rw [this]
  rwa [this] at h

/-- only the last advance at a shard counts -/
theorem advance_after {x : Index} {q q' : QState} {src : ReadState} {pos : UInt32} (h : advance x q src pos = .ok q') (t : ReadState) :
    advance x q' t pos = advance x q t pos := by
  have key : ∀ o : M (Option ReadState), (do
      let rs ← o
      if pos.toNat < q.shardStates.length then return QState.setMax { q with shardStates := q.shardStates.set pos.toNat rs } else panic') = .ok q' →
      ∃ rs, pos.toNat < q.shardStates.length ∧ q' = QState.setMax { q with shardStates := q.shardStates.set pos.toNat rs } := by
    intro o h
    cases o with
    | error e => cases h
    | ok rs =>
      simp only [bind, Except.bind, pure, Except.pure] at h
      by_cases hlt : pos.toNat < q.shardStates.length
      · rw [if_pos hlt] at h
        injection h with h
        exact ⟨rs, hlt, h.symm⟩
      · rw [if_neg hlt] at h; cases h
  have : ∃ rs, pos.toNat < q.shardStates.length ∧ q' = QState.setMax { q with shardStates := q.shardStates.set pos.toNat rs } := by
    unfold advance at h
    by_cases h1 : src.at_ = 65535
    · simp only [h1, if_true] at h; exact key _ h
    · by_cases h2 : src.total ≤ 1
      · simp only [h1, h2, if_true, if_false] at h; exact key _ h
      · simp only [h1, h2, if_false] at h
        cases h3 : x.shards[pos.toNat]? with
        | none => rw [h3] at h; exact key panic' h
        | some sh => rw [h3] at h; exact key _ h
  obtain ⟨rs, hlt, rfl⟩ := this
  unfold advance
  simp [QState.setMax]

theorem advance_idem {x : Index} {q q' : QState} {src : ReadState} {pos : UInt32} (h : advance x q src pos = .ok q') : advance x q' src pos = .ok q' :=
  (advance_after h src).trans h

/-- the pieces of the buckets `E` -/
def piecesOf (vals : Nat → Nat → List UInt32) (cap : Nat) (E : List (Nat × Nat)) : List (Nat × Nat × List UInt32) :=
  E.flatMap fun jb => (pieces cap (vals jb.1 jb.2)).map fun ids => (jb.1, jb.2, ids)

theorem Delivers.i {x : Index} {n : Nat} {vals : Nat → Nat → List UInt32} {D : UInt32 → Bytes × UInt32 × UInt32} {q : QState} {E : List (Nat × Nat)}
    (h : Delivers x n vals D q E) : q.i.toNat < n := by
  cases h with
  | done h => exact h.i
  | step _ h => exact h

/-- What an unlimited query delivers, in pieces: with one shard, or when no last piece has less than two documents. -/
theorem Delivers.lim {x : Index} {n : Nat} {vals : Nat → Nat → List UInt32} {D : UInt32 → Bytes × UInt32 × UInt32} {cap : Nat} (hc : 2 ≤ cap)
    {q : QState} {E : List (Nat × Nat)} (h : Delivers x n vals D q E) (hor : n = 1 ∨ ∀ jb ∈ E, 2 ≤ (vals jb.1 jb.2).length % cap) :
    ∃ k, DelLim x n vals D cap q k (piecesOf vals cap E) := by
  induction h with
  | done h => exact ⟨0, .done h⟩
  | step s1 s2 s3 s4 s5 s6 s7 s8 s9 s10 s11 ih =>
    rename_i q q' src E
    obtain ⟨k, hk⟩ := ih (by
      rcases hor with e | e
      · exact .inl e
      · exact .inr fun jb hjb => e jb (by simp [hjb]))
    have hi := s11.i
    obtain ⟨k', hk'⟩ := delLim_pieces' hc s1 s3 s9 _ s8 s4 s6 (by
      by_cases h2 : 2 ≤ (vals q.i.toNat src.blot).length % cap
      · exact .inl ⟨h2, s10, hk⟩
      · rcases hor with e | e
        · have : q'.i = q.i := UInt32.toNat_inj.mp (by omega)
          exact .inr ⟨by omega, q', by rw [this]; exact advance_idem s9, s10, hk⟩
        · exact absurd (e (q.i.toNat, src.blot) (by simp)) h2)
    exact ⟨k', by simpa [piecesOf] using hk'⟩

/-- from position `k` on the slices have length 0 and capacity `cap` -/
def LimFrom (cap k : Nat) (dst : List Blot) : Prop := ∀ (i : Nat) b, k ≤ i → dst[i]? = some b → ∃ s, b.docs = some ⟨[], s⟩ ∧ s.length = cap

theorem dropBlot_lim {bl : UInt32} {v s : List Doc} {cap : Nat} (h : v.length + s.length = cap) :
    ∃ s', (dropBlot true ⟨bl, some ⟨v, s⟩⟩).docs = some ⟨[], s'⟩ ∧ s'.length = cap := ⟨_, rfl, by simpa using h⟩

/-- a query starts at the first place of each shard -/
theorem initStates_at : ∀ (xs : List ShardIndex) (ss : List (Option ReadState)), Index.initStates xs = .ok ss →
    ∀ (j : Nat) s, ss[j]? = some s → ∃ xj rs, xs[j]? = some xj ∧ s = some rs ∧ xj.readStateAt 0 = .ok rs := by
  intro xs
  induction xs with
  | nil => intro ss h j s hj; injection h with h; subst h; simp at hj
  | cons x xs ih =>
    intro ss h j s hj
    simp only [Index.initStates, bind, Except.bind, pure, Except.pure] at h
    split at h
    · cases h
    · rename_i rs hrs
      split at h
      · cases h
      · rename_i ss' hss
        injection h with h
        subst h
        cases j with
        | zero => simp at hj; exact ⟨x, rs, rfl, hj.symm, hrs⟩
        | succ j => simpa using ih ss' hss j s (by simpa using hj)

section
variable {srt : Sorter} (hsrt : IsSorter srt)
include hsrt

/-- Two buckets with at least two documents, in different shards, and the one delivered first leaves less than two documents for a last slice: the
other one is passed over. -/
theorem delLim_lost {x : Index} {n : Nat} {vals : Nat → Nat → List UInt32} {D : UInt32 → Bytes × UInt32 × UInt32} (hx : Holds srt x n vals D) (hn : n < 2 ^ 32)
    {cap : Nat} (hc : 2 ≤ cap) {q : QState} (hq : x.startQuery = .ok q)
    {A B : Nat × Nat} (hA : (vals A.1 A.2).length % cap ≤ 1) (hAB : A.1 ≠ B.1) (hd : Delivers x n vals D q [A, B])
    (hall : ∀ j b, j < n → b < 65536 → 2 ≤ (vals j b).length → (j, b) = A ∨ (j, b) = B) :
    ∃ k, DelLim x n vals D cap q k ((pieces cap (vals A.1 A.2)).map fun ids => (A.1, A.2, ids)) := by
  have hinit : ∀ (j : Nat) s, q.shardStates[j]? = some s → ∃ xj rs, x.shards[j]? = some xj ∧ s = some rs ∧ xj.readStateAt 0 = .ok rs := by
    unfold Index.startQuery at hq
    simp only [bind, Except.bind, pure, Except.pure] at hq
    split at hq
    · cases hq
    · rename_i ss hss
      injection hq with hq
      subst hq
      exact initStates_at x.shards ss hss
  have hplace : ∀ (j : Nat) (s : ReadState), q.shardStates[j]? = some (some s) → ∃ xj, x.shards[j]? = some xj ∧ xj.perm[0]? = some s.blot ∧ s.at_ = 0 ∧
      s.total.toNat = (vals j s.blot).length := by
    intro j s hs
    obtain ⟨xj, rs, h1, h2, h3⟩ := hinit j _ hs
    injection h2 with h2; subst h2
    obtain ⟨b, hb, hlt⟩ := perm_get hsrt (hx.sh j xj h1) (a := 0) (by omega)
    obtain ⟨rs', g1, g2, g3, g4, g5⟩ := readStateAt_rep (hx.sh j xj h1) hb hlt
    rw [h3] at g1; injection g1 with g1; subst g1
    exact ⟨xj, h1, by rw [g3]; exact hb, g4, by rw [g3]; exact g5⟩
  cases hd with
  | step s1 s2 s3 s4 s5 s6 s7 s8 s9 s10 s11 =>
    rename_i q1 src
    cases s11 with
    | step t1 t2 t3 t4 t5 t6 t7 t8 t9 t10 t11 =>
      rename_i q2 src1
      cases t11 with
      | done hdone =>
        simp only at hA hAB
        -- the other shard has not moved
        have hst : q.shardStates[q1.i.toNat]? = some (some src1) := by
          obtain ⟨xi, hxi⟩ : ∃ xi, x.shards[q.i.toNat]? = some xi := ⟨_, List.getElem?_eq_getElem (by rw [hx.len]; exact s2)⟩
          have hlt : q.i.toNat < q.shardStates.length := (List.getElem?_eq_some_iff.mp s3).1
          have : ∃ o, q1.shardStates = q.shardStates.set q.i.toNat o := by
            obtain ⟨xj, h1, h2, h3, h4⟩ := hplace _ _ s3
            obtain ⟨b, hb, hblt⟩ := perm_get hsrt (hx.sh _ xj h1) (a := 1) (by omega)
            obtain ⟨rs', g1, _⟩ := readStateAt_rep (hx.sh _ xj h1) hb hblt
            have hns : nextState xj src = .ok (some rs') := by
              unfold nextState
              rw [if_neg (by omega), if_neg (by rw [UInt32.le_iff_toNat_le]; show ¬ src.total.toNat ≤ 1; omega), h3, g1]; rfl
            have := advance_eq h1 hlt hns
            rw [s9] at this; injection this with this
            exact ⟨some rs', by rw [this]; rfl⟩
          obtain ⟨o, ho⟩ := this
          rw [ho, List.getElem?_set_ne hAB] at t3
          exact t3
        obtain ⟨xi, hxi, _, hati, htot⟩ := hplace _ _ s3
        obtain ⟨xj, hxj, hpj, _, _⟩ := hplace _ _ hst
        have hrep := hx.sh _ xj hxj
        obtain ⟨b1, hb1, hlt1⟩ := perm_get hsrt hrep (a := 1) (by omega)
        obtain ⟨rs1, g1, _⟩ := readStateAt_rep hrep hb1 hlt1
        have hns : nextState xj src = .ok (some rs1) := by
          unfold nextState
          rw [if_neg (by omega), if_neg (by rw [UInt32.le_iff_toNat_le]; show ¬ src.total.toNat ≤ 1; omega), hati, g1]; rfl
        have hlen : xj.perm.length = 65536 := by rw [hrep.perm, (hsrt.perm xj.counts).length_eq, List.length_range, hrep.lenC]
        have hd0 : xj.perm = src1.blot :: xj.perm.drop 1 := by
          have := List.drop_eq_getElem_cons (l := xj.perm) (i := 0) (by omega)
          rw [List.drop_zero, Nat.zero_add] at this
          obtain ⟨_, e⟩ := List.getElem?_eq_some_iff.mp hpj
          rw [e] at this; exact this
        have hempty : (xj.perm.drop 1).filter (fun b => decide (2 ≤ (vals q1.i.toNat b).length)) = [] := by
          rw [List.filter_eq_nil_iff]
          intro b hb hdup
          have hblt : b < 65536 := by
            have hm := List.mem_of_mem_drop hb
            rw [hrep.perm, (hsrt.perm xj.counts).mem_iff, List.mem_range, hrep.lenC] at hm
            exact hm
          have hnd := perm_nodup hsrt hrep
          rw [hd0] at hnd
          rcases hall q1.i.toNat b t2 hblt (by simpa using hdup) with e | e
          · injection e with e _; exact hAB e.symm
          · injection e with _ e; exact (List.nodup_cons.mp hnd).1 (e ▸ hb)
        have hset : ∀ j : Nat, (List.replicate n ([] : List Nat)).set j [] = List.replicate n [] := by
          intro j
          apply List.ext_getElem?
          intro k
          rw [List.getElem?_set]
          split
          · subst_vars; simp [List.getElem?_replicate]
          · rfl
        obtain ⟨q3, a1, a2, a3, _⟩ := QInv.advance hx hn hdone (src := src) (pos := q1.i) hxj hns (rest := []) ⟨1, by omega, g1, hempty.symm⟩
        rw [hset] at a2
        rw [advance_after t9] at a1
        have := delLim_pieces' (vals := vals) hc s1 s3 s9 _ s8 s4 s6 (.inr ⟨hA, q3, a1, by rw [a3, t10, s10], .done a2⟩)
        simpa using this

/-- a pass over an exhausted shard with a read state -/
theorem exh_lim {x : Index} {n : Nat} {vals : Nat → Nat → List UInt32} {D : UInt32 → Bytes × UInt32 × UInt32} (hx : Holds srt x n vals D)
    (hn : n < 2 ^ 32) {q : QState} (h : QInv x n vals q (List.replicate n [])) {src : ReadState} (hs : q.shardStates[q.i.toNat]? = some (some src)) :
    ∃ rem q1 q2, PostsRep src.file src.posts rem ∧ (∀ id ∈ rem, x.docid2Doc id = .ok (D id)) ∧ rem.length ≤ 1 ∧ Query.advance x q src q.i = .ok q1 ∧
      Query.advance x q1 src q1.i = .ok q2 ∧ QInv x n vals q2 (List.replicate n []) ∧ q2.nilCount = q.nilCount ∧ opens q2 + 1 ≤ opens q := by
  obtain ⟨b', q1, q2, f1, f2, f3, f4, f5, f6⟩ := exh_some hsrt hx hn h hs (fun _ => 0) (ff := 2) (by omega) (b := ⟨0, none⟩) rfl
  have getX : ∀ j, j < n → ∃ s, x.shards[j]? = some s := fun j hj => ⟨_, List.getElem?_eq_getElem (by rw [hx.len]; exact hj)⟩
  obtain ⟨xs, hxs⟩ := getX _ h.i
  have hr : (List.replicate n ([] : List Nat))[q.i.toNat]? = some [] := by rw [List.getElem?_replicate, if_pos h.i]
  obtain ⟨g1, g2, g3, g4, g5, g6⟩ := shardAt_some hsrt (hx.sh _ xs hxs) (h.at_ _ xs _ _ hxs hs hr)
  have ht : src.total.toNat ≤ 1 := by
    false_or_by_contra
    rename_i hc
    obtain ⟨rest, o, e, _⟩ := g6 (by omega)
    simp at e
  obtain ⟨q1', a1, a2, a3, a4⟩ := QInv.advance hx hn h (src := src) (pos := q.i) hxs (g5 ht).2 (rest := []) rfl
  obtain ⟨b'', k1, _⟩ := fillLoop_unlim (fun _ => 0) (D := D) (q := q) (q' := q1') (pos := q.i) (vals q.i.toNat src.blot) 2 src
    { (⟨0, none⟩ : Blot) with blot := UInt32.ofNat src.blot * q.n + q.i } g2 (hx.doc _ _ h.i g1) (by omega) a1
  have : fillBlot (fun _ => 0) x 2 q ⟨0, none⟩ src q.i = .ok (b'', q1') := by rw [← k1]; simp only [fillBlot, Option.isSome_none]
  rw [this] at f1
  injection f1 with f1
  injection f1 with _ f1
  subst f1
  exact ⟨_, q1', q2, g2, hx.doc _ _ h.i g1, by omega, a1, f3, f4, f5, f6⟩

omit hsrt in
/-- a pass that gives up its blot -/
theorem nextLoop_skip (grow : Nat → Nat) {x : Index} {D : UInt32 → Bytes × UInt32 × UInt32} {cap : Nat} (hc : 2 ≤ cap) {ff : Nat} (hff : 2 ≤ ff)
    {q q1 q2 : QState} {src : ReadState} {rem : List UInt32} (hs : q.shardStates[q.i.toNat]? = some (some src)) (hp : PostsRep src.file src.posts rem)
    (hD : ∀ id ∈ rem, x.docid2Doc id = .ok (D id)) (hr : rem.length ≤ 1) (h1 : Query.advance x q src q.i = .ok q1) (h2 : Query.advance x q1 src q1.i = .ok q2)
    {k : Nat} {dst : List Blot} (hl : LimFrom cap k dst) (hk : k < dst.length) :
    ∃ dst', dst'.length = dst.length ∧ LimFrom cap k dst' ∧ (∀ i, i < k → dst'[i]? = dst[i]?) ∧
      ∀ fuel, nextLoop grow x ff (fuel + 1) q k dst = nextLoop grow x ff fuel q2 k dst' := by
  obtain ⟨b, hb⟩ : ∃ b, dst[k]? = some b := ⟨_, List.getElem?_eq_getElem hk⟩
  obtain ⟨s, hs1, hs2⟩ := hl k b (Nat.le_refl _) hb
  have hf := fillLoop_part grow (D := D) (q := q) (q' := q1) (pos := q.i) (bl := UInt32.ofNat src.blot * q.n + q.i) rem ff src [] s hp (by omega) hD (by omega) h1
  have hfill := (show fillBlot grow x ff q b src q.i = _ by simp only [fillBlot, hs1, Option.isSome_some]).trans hf
  refine ⟨dst.set k (dropBlot true ⟨UInt32.ofNat src.blot * q.n + q.i, some ⟨[] ++ List.zipWith (fun d id => d.fill (D id)) s rem, s.drop rem.length⟩⟩),
    by simp, ?_, fun i hi => by rw [List.getElem?_set_ne (by omega)], ?_⟩
  · intro i c hi hcc
    rw [List.getElem?_set] at hcc
    split at hcc
    · injection hcc with hcc
      rw [← hcc]
      exact dropBlot_lim (by simp; omega)
    · exact hl i c hi hcc
  · intro fuel
    have hlen : (⟨UInt32.ofNat src.blot * q.n + q.i, some ⟨[] ++ List.zipWith (fun d id => d.fill (D id)) s rem, s.drop rem.length⟩⟩ : Blot).len ≤ 1 := by
      simp [Blot.len]; omega
    simp only [nextLoop, hb, hs, hfill, bind, Except.bind, hlen, if_true, h2, hs1, Option.isSome_some]

/-- Next when nothing is left to deliver -/
theorem nextLoop_exh_lim {x : Index} {n : Nat} {vals : Nat → Nat → List UInt32} {D : UInt32 → Bytes × UInt32 × UInt32} (hx : Holds srt x n vals D)
    (hn : n < 2 ^ 32) (grow : Nat → Nat) {cap : Nat} (hc : 2 ≤ cap) {ff : Nat} (hff : 2 ≤ ff) (k : Nat) (fuel : Nat) : ∀ (q : QState) (dst : List Blot),
    QInv x n vals q (List.replicate n []) → LimFrom cap k dst → k < dst.length → opens q + toGo q ≤ fuel →
      ∃ r, nextLoop grow x ff fuel q k dst = .ok r ∧ r.n = k ∧ r.eof = (k == 0) ∧ r.dst.length = dst.length ∧
        (∀ i, i < k → r.dst[i]? = dst[i]?) ∧ QInv x n vals r.state (List.replicate n []) := by
  induction fuel with
  | zero =>
    intro q dst h _ _ hc
    have := toGo_pos q; omega
  | succ fuel ih =>
    intro q dst h hl hk hf
    obtain ⟨b, hb⟩ : ∃ b, dst[k]? = some b := ⟨_, List.getElem?_eq_getElem hk⟩
    obtain ⟨s, hs⟩ : ∃ s, q.shardStates[q.i.toNat]? = some s := ⟨_, List.getElem?_eq_getElem (by rw [h.lenS]; exact h.i)⟩
    cases s with
    | none =>
      simp only [nextLoop, hb, hs]
      obtain ⟨t1, t2⟩ := toGo_step q (q' := { q with nilCount := q.nilCount + 1 }) rfl rfl
      by_cases he : q.nilCount + 1 = q.n
      · simp only [he, if_true]
        exact ⟨_, rfl, rfl, rfl, rfl, fun _ _ => rfl, ⟨h.qn, h.lenS, h.lenR, h.at_, h.i, .inr fun r hr => List.eq_of_mem_replicate hr⟩⟩
      · simp only [he, if_false]
        have hne : toGo q ≠ 1 := fun e => he (t1.mpr e)
        have t2 := t2 hne
        have hq : toGo { q with nilCount := q.nilCount + 1, i := if q.i + 1 = q.n then 0 else q.i + 1 } = toGo { q with nilCount := q.nilCount + 1 } := rfl
        have hop : opens { q with nilCount := q.nilCount + 1, i := if q.i + 1 = q.n then 0 else q.i + 1 } = opens q := rfl
        exact ih _ dst (h.next hn) hl hk (by rw [hop, hq]; omega)
    | some src =>
      obtain ⟨rem, q1, q2, f1, f2, f3, f4, f5, f6, f7, f8⟩ := exh_lim hsrt hx hn h hs
      obtain ⟨dst', d1, d2, d3, d4⟩ := nextLoop_skip grow hc hff hs f1 f2 f3 f4 f5 hl hk
      have hg : toGo q2 = toGo q := by unfold toGo; rw [f7, f6.qn, h.qn]
      obtain ⟨r, e1, e2, e3, e4, e5, e6⟩ := ih q2 dst' f6 d2 (by omega) (by omega)
      exact ⟨r, by rw [d4]; exact e1, e2, e3, by omega, fun i hi => by rw [e5 i hi, d3 i hi], e6⟩

/-- what one call of Next does when the pieces `E` are still to be delivered: `dst` from position `k` on is filled -/
structure NextLim (x : Index) (n : Nat) (vals : Nat → Nat → List UInt32) (D : UInt32 → Bytes × UInt32 × UInt32) (cap K : Nat) (E : List (Nat × Nat × List UInt32)) (k : Nat)
    (dst : List Blot) (r : NextResult) : Prop where
  count : r.n = k + min E.length (dst.length - k)
  eof : r.eof = true ↔ r.n = 0 ∧ dst ≠ []
  len : r.dst.length = dst.length
  old : ∀ i, i < k → r.dst[i]? = dst[i]?
  new : ∀ (i : Nat) j b ids, k + i < dst.length → E[i]? = some (j, b, ids) → ∃ bl, r.dst[k + i]? = some bl ∧ bl.blot = UInt32.ofNat (b * n + j) ∧
    bl.vis.map Doc.noDat = ids.map fun id => Doc.ofMeta (D id)
  rest : ∃ K', K' ≤ K ∧ DelLim x n vals D cap r.state K' (E.drop (dst.length - k))

theorem nextLoop_delLim {x : Index} {n : Nat} {vals : Nat → Nat → List UInt32} {D : UInt32 → Bytes × UInt32 × UInt32} (hx : Holds srt x n vals D)
    (hn : n < 2 ^ 32) (grow : Nat → Nat) {cap : Nat} (hc : 2 ≤ cap) {ff : Nat} (hff : 2 ^ 32 ≤ ff) {q : QState} {K : Nat} {E} (h : DelLim x n vals D cap q K E) :
    ∀ (k fuel : Nat) (dst : List Blot), LimFrom cap k dst → k ≤ dst.length → K + n + toGo q < fuel →
    ∃ r, nextLoop grow x ff fuel q k dst = .ok r ∧ NextLim x n vals D cap K E k dst r := by
  -- no room left
  have stop : ∀ (q : QState) (K : Nat) (E) (k fuel : Nat) (dst : List Blot), DelLim x n vals D cap q K E → k = dst.length → 0 < fuel →
      ∃ r, nextLoop grow x ff fuel q k dst = .ok r ∧ NextLim x n vals D cap K E k dst r := by
    intro q K E k fuel dst h he hf
    obtain ⟨f, rfl⟩ : ∃ f, fuel = f + 1 := ⟨fuel - 1, by omega⟩
    refine ⟨_, by simp only [nextLoop, List.getElem?_eq_none (show dst.length ≤ k by omega)]; rfl, ?_⟩
    refine ⟨by simp; omega, ?_, rfl, fun _ _ => rfl, by intro i j b ids hi; omega, K, Nat.le_refl _, by simpa [he] using h⟩
    simp only [Bool.false_eq_true, false_iff, not_and, Decidable.not_not]
    intro e; exact List.length_eq_zero_iff.mp (by omega)
  -- one more filled in
  have fill : ∀ (q q' : QState) (src : ReadState) (ids : List UInt32) (K : Nat) (E) (k fuel : Nat) (dst : List Blot) (b b' : Blot), dst[k]? = some b → LimFrom cap k dst →
      q.shardStates[q.i.toNat]? = some (some src) → q.n = UInt32.ofNat n → 2 ≤ ids.length →
      fillBlot grow x ff q b src q.i = .ok (b', q') → b'.blot = UInt32.ofNat src.blot * q.n + q.i → b'.vis.map Doc.noDat = (ids.map fun id => Doc.ofMeta (D id)) →
      (∀ (dst : List Blot), LimFrom cap (k + 1) dst → k + 1 ≤ dst.length → ∃ r, nextLoop grow x ff fuel q' (k + 1) dst = .ok r ∧ NextLim x n vals D cap K E (k + 1) dst r) →
      ∃ r, nextLoop grow x ff (fuel + 1) q k dst = .ok r ∧ NextLim x n vals D cap (K + 1) ((q.i.toNat, src.blot, ids) :: E) k dst r := by
    intro q q' src ids K E k fuel dst b b' hb hl hs hqn hids hfill hbl hvis ih
    have hk' : k < dst.length := (List.getElem?_eq_some_iff.mp hb).1
    have hlen : ¬ b'.len ≤ 1 := by
      have h1 : b'.len = b'.vis.length := by unfold Blot.len Blot.vis; cases b'.docs <;> rfl
      have h2 := congrArg List.length hvis
      simp only [List.length_map] at h2
      omega
    obtain ⟨r, e1, e2⟩ := ih (dst.set k b') (by
      intro i c hi hc
      rw [List.getElem?_set_ne (by omega)] at hc
      exact hl i c (by omega) hc) (by simp; omega)
    have hcount := e2.count
    rw [List.length_set] at hcount
    obtain ⟨K', h1, h2⟩ := e2.rest
    refine ⟨r, ?_, ?_, ?_, ?_, ?_, ?_, K', by omega, ?_⟩
    · simp only [nextLoop, hb, hs, hfill, bind, Except.bind, hlen, if_false]; exact e1
    · rw [hcount]; simp; omega
    · rw [e2.eof]; simp only [ne_eq, List.set_eq_nil_iff]
    · rw [e2.len, List.length_set]
    · intro i hi; rw [e2.old i (by omega), List.getElem?_set_ne (by omega)]
    · intro i j c ids' hi hE
      cases i with
      | zero =>
        simp only [List.getElem?_cons_zero, Option.some.injEq, Prod.mk.injEq] at hE
        obtain ⟨rfl, rfl, rfl⟩ := hE
        refine ⟨b', ?_, ?_, hvis⟩
        · rw [Nat.add_zero, e2.old k (by omega), List.getElem?_set_self hk']
        · rw [hbl]
          apply UInt32.toNat_inj.mp
          rw [hqn]
          simp [UInt32.toNat_add, UInt32.toNat_mul]
      | succ i =>
        have := e2.new i j c ids' (by rw [List.length_set]; omega) (by simpa using hE)
        rwa [Nat.add_assoc, Nat.add_comm 1 i] at this
    · rw [List.length_set] at h2
      rw [show dst.length - k = (dst.length - (k + 1)) + 1 by omega]
      exact h2
  induction h with
  | done h =>
    rename_i q0
    intro k fuel dst hl hk hf
    by_cases he : k = dst.length
    · exact stop _ _ _ _ _ _ (.done h) he (by omega)
    · have ho : opens q0 ≤ n := by
        have := List.countP_le_length (p := Option.isSome) (l := q0.shardStates)
        rw [h.lenS] at this; exact this
      obtain ⟨r, e1, e2, e3, e4, e5, e6⟩ := nextLoop_exh_lim hsrt hx hn grow hc (ff := ff) (by omega) k fuel _ dst h hl (by omega) (by omega)
      refine ⟨r, e1, ⟨by simpa using e2, ?_, e4, e5, by simp, 0, Nat.le_refl _, by simpa using .done e6⟩⟩
      rw [e3, e2]
      simp only [beq_iff_eq]
      constructor
      · intro h0; exact ⟨h0, by intro hc; simp [hc] at hk; simp [hc] at he; omega⟩
      · exact And.left
  | full s1 s2 s3 s4 s5 s6 s7 ih =>
    rename_i q src src' ids K E
    intro k fuel dst hl hk hf
    obtain ⟨f, rfl⟩ : ∃ f, fuel = f + 1 := ⟨fuel - 1, by omega⟩
    by_cases he : k = dst.length
    · exact stop _ _ _ _ _ _ (.full s1 s2 s3 s4 s5 s6 s7) he (by omega)
    · obtain ⟨b, hb⟩ : ∃ b, dst[k]? = some b := ⟨_, List.getElem?_eq_getElem (by omega)⟩
      obtain ⟨s, hs1, hs2⟩ := hl k b (Nat.le_refl _) hb
      have hfl := fillLoop_full grow (D := D) (q := q) (pos := q.i) (bl := UInt32.ofNat src.blot * q.n + q.i) ids ff src src' [] s s3 (by omega) s4 (by omega)
      have hfill := (show fillBlot grow x ff q b src q.i = _ by simp only [fillBlot, hs1, Option.isSome_some]).trans hfl
      refine fill q _ src ids K E k f dst b _ hb hl s2 s1 (by omega) hfill rfl ?_ (fun dst' hl' hk' => ih (k + 1) f dst' hl' hk' ?_)
      · simp only [Blot.vis, List.nil_append]; exact zipWith_noDat D ids s (by omega)
      · have : toGo { q with shardStates := q.shardStates.set q.i.toNat (some src') } = toGo q := rfl
        rw [this]; omega
  | last s1 s2 s3 s4 s5 s6 s7 s8 s9 s10 ih =>
    rename_i q q' src rem K E
    intro k fuel dst hl hk hf
    obtain ⟨f, rfl⟩ : ∃ f, fuel = f + 1 := ⟨fuel - 1, by omega⟩
    by_cases he : k = dst.length
    · exact stop _ _ _ _ _ _ (.last s1 s2 s3 s4 s5 s6 s7 s8 s9 s10) he (by omega)
    · obtain ⟨b, hb⟩ : ∃ b, dst[k]? = some b := ⟨_, List.getElem?_eq_getElem (by omega)⟩
      obtain ⟨s, hs1, hs2⟩ := hl k b (Nat.le_refl _) hb
      have hfl := fillLoop_part grow (D := D) (q := q) (pos := q.i) (bl := UInt32.ofNat src.blot * q.n + q.i) rem ff src [] s s3 (by omega) s4 (by omega) s8
      have hfill := (show fillBlot grow x ff q b src q.i = _ by simp only [fillBlot, hs1, Option.isSome_some]).trans hfl
      refine fill q _ src rem K E k f dst b _ hb hl s2 s1 (by omega) hfill rfl ?_ (fun dst' hl' hk' => ih (k + 1) f dst' hl' hk' ?_)
      · simp only [Blot.vis, List.nil_append]; exact zipWith_noDat D rem s (by omega)
      · have : toGo q' = toGo q := by unfold toGo; rw [s10.n, s1, s9]
        rw [this]; omega
  | skip s1 s2 s3 s4 s5 s6 s7 s8 s9 ih =>
    rename_i q q1 q' src rem K E
    intro k fuel dst hl hk hf
    obtain ⟨f, rfl⟩ : ∃ f, fuel = f + 1 := ⟨fuel - 1, by omega⟩
    by_cases he : k = dst.length
    · exact stop _ _ _ _ _ _ (.skip s1 s2 s3 s4 s5 s6 s7 s8 s9) he (by omega)
    · obtain ⟨dst', d1, d2, d3, d4⟩ := nextLoop_skip grow hc (ff := ff) (by omega) s2 s3 s4 s5 s6 s7 hl (by omega)
      have hg : toGo q' = toGo q := by unfold toGo; rw [s9.n, s1, s8]
      obtain ⟨r, e1, e2⟩ := ih k f dst' d2 (by omega) (by omega)
      obtain ⟨K', h1, h2⟩ := e2.rest
      refine ⟨r, by rw [d4]; exact e1, ⟨by rw [e2.count, d1], ?_, by rw [e2.len, d1], fun i hi => by rw [e2.old i hi, d3 i hi], fun i j b ids hi => e2.new i j b ids (by omega),
        K', by omega, by rw [← d1]; exact h2⟩⟩
      rw [e2.eof]
      constructor
      · rintro ⟨a1, a2⟩; exact ⟨a1, fun e => a2 (List.length_eq_zero_iff.mp (by rw [d1, e]; rfl))⟩
      · rintro ⟨a1, a2⟩; exact ⟨a1, fun e => a2 (List.length_eq_zero_iff.mp (by rw [← d1, e]; rfl))⟩

end

end Query
end Dupi
