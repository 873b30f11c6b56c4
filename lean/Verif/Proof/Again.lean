import Verif.Proof.LimAny
/-! # A blot delivered twice -/

namespace Dupi.Query

section
variable {srt : Sorter} (hsrt : IsSorter srt)
include hsrt

theorem perm_index {xs : ShardIndex} {vals : Nat → List UInt32} (h : IndexRep srt 65536 xs vals) {b : Nat} (hb : b < 65536) : ∃ a : Nat, xs.perm[a]? = some b := by
  rw [h.perm, ← List.mem_iff_getElem?, (hsrt.perm xs.counts).mem_iff, List.mem_range, h.lenC]
  exact hb

theorem perm_inj {xs : ShardIndex} {vals : Nat → List UInt32} (h : IndexRep srt 65536 xs vals) {a a' b : Nat} (h1 : xs.perm[a]? = some b) (h2 : xs.perm[a']? = some b) : a = a' := by
  have hnd := perm_nodup hsrt h
  obtain ⟨l1, e1⟩ := List.getElem?_eq_some_iff.mp h1
  obtain ⟨l2, e2⟩ := List.getElem?_eq_some_iff.mp h2
  have hp := List.pairwise_iff_getElem.mp hnd
  rcases Nat.lt_trichotomy a a' with h | h | h
  · exact absurd (e1.trans e2.symm) (hp a a' l1 l2 h)
  · exact h
  · exact absurd (e2.trans e1.symm) (hp a' a l2 l1 h)

/-- the order of a shard with one list -/
theorem perm_one {xs : ShardIndex} {vals : Nat → List UInt32} (h : IndexRep srt 65536 xs vals) {b : Nat} (hb : b < 65536) (hne : vals b ≠ [])
    (hall : ∀ b', b' < 65536 → b' ≠ b → vals b' = []) : xs.perm[0]? = some b ∧ ∃ b1, xs.perm[1]? = some b1 ∧ b1 < 65536 ∧ vals b1 = [] := by
  obtain ⟨a, ha⟩ := perm_index hsrt h hb
  obtain ⟨b0, h0, l0⟩ := perm_get hsrt h (a := 0) (by omega)
  obtain ⟨b1, h1, l1⟩ := perm_get hsrt h (a := 1) (by omega)
  have hpos := List.length_pos_iff.mpr hne
  have h00 : xs.perm[0]? = some b := by
    by_cases e : b0 = b
    · rw [h0, e]
    · by_cases ea : a = 0
      · subst ea; exact ha
      · have := perm_sorted hsrt h (show 0 < a by omega) h0 ha
        rw [hall b0 l0 e] at this
        rw [List.length_nil] at this; omega
  refine ⟨h00, b1, h1, l1, hall b1 l1 ?_⟩
  rintro rfl
  exact absurd (perm_inj hsrt h h00 h1) (by omega)

/-- the order of a shard with two lists -/
theorem perm_two {xs : ShardIndex} {vals : Nat → List UInt32} (h : IndexRep srt 65536 xs vals) {b b' : Nat} (hb : b < 65536) (hb' : b' < 65536) (hbb : b ≠ b')
    (hne : vals b ≠ []) (hne' : vals b' ≠ []) (hall : ∀ k, k < 65536 → k ≠ b → k ≠ b' → vals k = []) :
    ∃ b0 b1 b2, xs.perm[0]? = some b0 ∧ xs.perm[1]? = some b1 ∧ xs.perm[2]? = some b2 ∧ (b0 = b ∧ b1 = b' ∨ b0 = b' ∧ b1 = b) ∧ b2 < 65536 ∧ vals b2 = [] := by
  obtain ⟨a, ha⟩ := perm_index hsrt h hb
  obtain ⟨a', ha'⟩ := perm_index hsrt h hb'
  obtain ⟨b0, h0, l0⟩ := perm_get hsrt h (a := 0) (by omega)
  obtain ⟨b1, h1, l1⟩ := perm_get hsrt h (a := 1) (by omega)
  obtain ⟨b2, h2, l2⟩ := perm_get hsrt h (a := 2) (by omega)
  have hpos := List.length_pos_iff.mpr hne
  have hpos' := List.length_pos_iff.mpr hne'
  have haa : a ≠ a' := by rintro rfl; rw [ha] at ha'; injection ha' with e; exact hbb e
  -- an empty list is behind both
  have behind : ∀ (i : Nat) k, xs.perm[i]? = some k → vals k = [] → a < i ∧ a' < i := by
    intro i k hk he
    constructor
    · apply Classical.byContradiction
      intro hc
      by_cases e : i = a
      · subst e; rw [ha] at hk; injection hk with hk; subst hk; exact hne he
      · have := perm_sorted hsrt h (show i < a by omega) hk ha
        rw [he, List.length_nil] at this; omega
    · apply Classical.byContradiction
      intro hc
      by_cases e : i = a'
      · subst e; rw [ha'] at hk; injection hk with hk; subst hk; exact hne' he
      · have := perm_sorted hsrt h (show i < a' by omega) hk ha'
        rw [he, List.length_nil] at this; omega
  have c0 : b0 = b ∨ b0 = b' := by
    apply Classical.byContradiction
    intro hc
    have := behind 0 b0 h0 (hall b0 l0 (fun e => hc (.inl e)) (fun e => hc (.inr e)))
    omega
  have c1 : b1 = b ∨ b1 = b' := by
    apply Classical.byContradiction
    intro hc
    have := behind 1 b1 h1 (hall b1 l1 (fun e => hc (.inl e)) (fun e => hc (.inr e)))
    omega
  have n01 : b0 ≠ b1 := by rintro rfl; exact absurd (perm_inj hsrt h h0 h1) (by omega)
  have n02 : b0 ≠ b2 := by rintro rfl; exact absurd (perm_inj hsrt h h0 h2) (by omega)
  have n12 : b1 ≠ b2 := by rintro rfl; exact absurd (perm_inj hsrt h h1 h2) (by omega)
  have hor : b0 = b ∧ b1 = b' ∨ b0 = b' ∧ b1 = b := by omega
  exact ⟨b0, b1, b2, h0, h1, h2, hor, l2, hall b2 l2 (by omega) (by omega)⟩

/-- Two shards; the first has two lists, both longer than the only one of the second, and of which the last piece has at least two documents; the last piece of
that of the second has less than two.  Then the shorter one of the first two is delivered twice. -/
theorem delLim_again {x : Index} {vals : Nat → Nat → List UInt32} {D : UInt32 → Bytes × UInt32 × UInt32} (hx : Holds srt x 2 vals D)
    {cap : Nat} (hc : 2 ≤ cap) {q : QState} (hq : x.startQuery = .ok q) {b b' a : Nat} (hb : b < 65536) (hb' : b' < 65536) (ha : a < 65536) (hbb : b ≠ b')
    (hl : (vals 1 a).length < (vals 0 b).length) (hl' : (vals 1 a).length < (vals 0 b').length) (h2 : 2 ≤ (vals 1 a).length)
    (hm : 2 ≤ (vals 0 b).length % cap) (hm' : 2 ≤ (vals 0 b').length % cap) (hma : (vals 1 a).length % cap ≤ 1)
    (hall0 : ∀ k, k < 65536 → k ≠ b → k ≠ b' → vals 0 k = []) (hall1 : ∀ k, k < 65536 → k ≠ a → vals 1 k = []) :
    ∃ k p p', (p = b ∧ p' = b' ∨ p = b' ∧ p' = b) ∧ DelLim x 2 vals D cap q k
      ((pieces cap (vals 0 p)).map (fun ids => (0, p, ids)) ++ ((pieces cap (vals 0 p')).map (fun ids => (0, p', ids)) ++
        ((pieces cap (vals 1 a)).map (fun ids => (1, a, ids)) ++ ((pieces cap (vals 0 p')).map (fun ids => (0, p', ids)) ++ [])))) := by
  obtain ⟨x0, x1, hxx⟩ : ∃ x0 x1, x.shards = [x0, x1] := by
    have := hx.len
    match x.shards, this with
    | [x0, x1], _ => exact ⟨x0, x1, rfl⟩
  have g0 : x.shards[(0 : UInt32).toNat]? = some x0 := by rw [hxx]; rfl
  have g1 : x.shards[(1 : UInt32).toNat]? = some x1 := by rw [hxx]; rfl
  have r0 := hx.sh 0 x0 g0
  have r1 := hx.sh 1 x1 g1
  obtain ⟨b0, b1, b2, p0, p1, p2, hor, l2, e2⟩ := perm_two hsrt r0 hb hb' hbb (by intro e; rw [e] at hl; simp at hl) (by intro e; rw [e] at hl'; simp at hl') hall0
  obtain ⟨pa, a1, pa1, la1, ea1⟩ := perm_one hsrt r1 ha (by intro e; rw [e] at h2; simp at h2) hall1
  have lb0 : b0 < 65536 := by omega
  have lb1 : b1 < 65536 := by omega
  have m0 : (vals 1 a).length < (vals 0 b0).length ∧ 2 ≤ (vals 0 b0).length % cap := by rcases hor with ⟨e, _⟩ | ⟨e, _⟩ <;> rw [e] <;> exact ⟨by assumption, by assumption⟩
  have m1 : (vals 1 a).length < (vals 0 b1).length ∧ 2 ≤ (vals 0 b1).length % cap := by rcases hor with ⟨_, e⟩ | ⟨_, e⟩ <;> rw [e] <;> exact ⟨by assumption, by assumption⟩
  obtain ⟨s0, s01, s02, s03, s04, s05⟩ := readStateAt_rep r0 p0 lb0
  obtain ⟨s1, s11, s12, s13, s14, s15⟩ := readStateAt_rep r0 p1 lb1
  obtain ⟨s2, s21, s22, s23, s24, s25⟩ := readStateAt_rep r0 p2 l2
  obtain ⟨t0, t01, t02, t03, t04, t05⟩ := readStateAt_rep r1 pa ha
  obtain ⟨t1, t11, t12, t13, t14, t15⟩ := readStateAt_rep r1 pa1 la1
  have z2 : s2.total = 0 := by apply UInt32.toNat_inj.mp; rw [s25, e2]; rfl
  have z1 : t1.total = 0 := by apply UInt32.toNat_inj.mp; rw [t15, ea1]; rfl
  have d0 := hx.doc 0 b0 (by omega) lb0
  have d1 := hx.doc 0 b1 (by omega) lb1
  have da := hx.doc 1 a (by omega) ha
  have w0 : (vals 0 b0).length < 2 ^ 32 := by rw [← s05]; exact UInt32.toNat_lt _
  have w1 : (vals 0 b1).length < 2 ^ 32 := by rw [← s15]; exact UInt32.toNat_lt _
  have wa : (vals 1 a).length < 2 ^ 32 := by rw [← t05]; exact UInt32.toNat_lt _
  -- the start
  have hq0 : q = ⟨[some s0, some t0], 0, 2, 0⟩ ∨ q.shardStates = [some s0, some t0] ∧ q.i = 0 ∧ q.n = 2 := by
    unfold Index.startQuery at hq
    rw [hxx] at hq
    simp only [Index.initStates, s01, t01, bind, Except.bind, pure, Except.pure] at hq
    injection hq with hq
    right
    rw [← hq]
    refine ⟨rfl, ?_, rfl⟩
    simp only [QState.setMax, QState.maxLoop]
    have h1 : s0.total > 0 := by show 0 < s0.total; rw [UInt32.lt_iff_toNat_lt, s05]; show 0 < _; omega
    have h2 : ¬ t0.total > s0.total := by show ¬ s0.total < t0.total; rw [UInt32.lt_iff_toNat_lt, s05, t05]; omega
    rw [if_pos h1, if_neg h2]; rfl
  have hq0 : q.shardStates = [some s0, some t0] ∧ q.i = 0 ∧ q.n = 2 := by
    rcases hq0 with rfl | h
    · exact ⟨rfl, rfl, rfl⟩
    · exact h
  -- the next states
  have nx0 : nextState x0 s0 = .ok (some s1) := by
    unfold nextState
    rw [if_neg (by omega), if_neg (by rw [UInt32.le_iff_toNat_le]; show ¬ s0.total.toNat ≤ 1; omega), s04, s11]; rfl
  have nx1 : nextState x0 s1 = .ok (some s2) := by
    unfold nextState
    rw [if_neg (by omega), if_neg (by rw [UInt32.le_iff_toNat_le]; show ¬ s1.total.toNat ≤ 1; omega), s14, s21]; rfl
  have nxa : nextState x1 t0 = .ok (some t1) := by
    unfold nextState
    rw [if_neg (by omega), if_neg (by rw [UInt32.le_iff_toNat_le]; show ¬ t0.total.toNat ≤ 1; omega), t04, t11]; rfl
  have nxb : nextState x0 t0 = .ok (some s1) := by
    unfold nextState
    rw [if_neg (by omega), if_neg (by rw [UInt32.le_iff_toNat_le]; show ¬ t0.total.toNat ≤ 1; omega), t04, s11]; rfl
  have hgt : ∀ s : ReadState, 0 < s.total.toNat → s.total > 0 := by intro s h; show 0 < s.total; rw [UInt32.lt_iff_toNat_lt]; exact h
  have hlt1 : ¬ t0.total > s1.total := by show ¬ s1.total < t0.total; rw [UInt32.lt_iff_toNat_lt, s15, t05]; omega
  have z0 : ¬ (0 : UInt32) > 0 := by decide
  have zle : ∀ y : UInt32, ¬ 0 > y := by intro y; show ¬ y < 0; rw [UInt32.lt_iff_toNat_lt]; simp
  -- the states passed
  have mx1 : QState.maxLoop [some s1, some t0] 0 0 0 = 0 := by
    simp only [QState.maxLoop]; rw [if_pos (hgt _ (by omega)), if_neg hlt1]; rfl
  have mx2 : QState.maxLoop [some s2, some t0] 0 0 0 = 1 := by
    simp only [QState.maxLoop]; rw [z2, if_neg z0, if_pos (hgt _ (by omega))]; rfl
  have mx3 : QState.maxLoop [some s2, some t1] 0 0 0 = 0 := by
    simp only [QState.maxLoop]; rw [z2, z1, if_neg z0, if_neg z0]
  have mx4 : QState.maxLoop [some s1, some t1] 0 0 0 = 0 := by
    simp only [QState.maxLoop]; rw [if_pos (hgt _ (by omega)), z1, if_neg (zle _)]; rfl
  obtain ⟨q1, v1, k1, i1, n1, c1⟩ : ∃ q1, advance x q s0 q.i = .ok q1 ∧ q1.shardStates = [some s1, some t0] ∧ q1.i = 0 ∧ q1.n = 2 ∧ q1.nilCount = q.nilCount := by
    refine ⟨_, advance_eq (by rw [hq0.2.1]; exact g0) (by rw [hq0.1, hq0.2.1]; show _ < 2; decide) nx0, ?_, ?_, hq0.2.2, rfl⟩
    · simp only [QState.setMax]; rw [hq0.1, hq0.2.1]; rfl
    · simp only [QState.setMax]; rw [hq0.1, hq0.2.1]; exact mx1
  obtain ⟨q2, v2, k2, i2, n2, c2⟩ : ∃ q2, advance x q1 s1 q1.i = .ok q2 ∧ q2.shardStates = [some s2, some t0] ∧ q2.i = 1 ∧ q2.n = 2 ∧ q2.nilCount = q1.nilCount := by
    refine ⟨_, advance_eq (by rw [i1]; exact g0) (by rw [k1, i1]; show _ < 2; decide) nx1, ?_, ?_, n1, rfl⟩
    · simp only [QState.setMax]; rw [k1, i1]; rfl
    · simp only [QState.setMax]; rw [k1, i1]; exact mx2
  obtain ⟨q3, v3, k3, i3, n3, c3⟩ : ∃ q3, advance x q2 t0 q2.i = .ok q3 ∧ q3.shardStates = [some s2, some t1] ∧ q3.i = 0 ∧ q3.n = 2 ∧ q3.nilCount = q2.nilCount := by
    refine ⟨_, advance_eq (by rw [i2]; exact g1) (by rw [k2, i2]; show _ < 2; decide) nxa, ?_, ?_, n2, rfl⟩
    · simp only [QState.setMax]; rw [k2, i2]; rfl
    · simp only [QState.setMax]; rw [k2, i2]; exact mx3
  obtain ⟨q4, v4, k4, i4, n4, c4⟩ : ∃ q4, advance x q3 t0 q3.i = .ok q4 ∧ q4.shardStates = [some s1, some t1] ∧ q4.i = 0 ∧ q4.n = 2 ∧ q4.nilCount = q3.nilCount := by
    refine ⟨_, advance_eq (by rw [i3]; exact g0) (by rw [k3, i3]; show _ < 2; decide) nxb, ?_, ?_, n3, rfl⟩
    · simp only [QState.setMax]; rw [k3, i3]; rfl
    · simp only [QState.setMax]; rw [k3, i3]; exact mx4
  obtain ⟨q5, v5, k5, i5, n5, c5⟩ : ∃ q5, advance x q4 s1 q4.i = .ok q5 ∧ q5.shardStates = [some s2, some t1] ∧ q5.i = 0 ∧ q5.n = 2 ∧ q5.nilCount = q4.nilCount := by
    refine ⟨_, advance_eq (by rw [i4]; exact g0) (by rw [k4, i4]; show _ < 2; decide) nx1, ?_, ?_, n4, rfl⟩
    · simp only [QState.setMax]; rw [k4, i4]; rfl
    · simp only [QState.setMax]; rw [k4, i4]; exact mx3
  -- the end
  have empty0 : (x0.perm.drop 2).filter (fun k => decide (2 ≤ (vals 0 k).length)) = [] := by
    rw [List.filter_eq_nil_iff]
    intro k hk hd
    obtain ⟨i, hi⟩ := List.mem_iff_getElem?.mp hk
    rw [List.getElem?_drop] at hi
    have : (vals 0 k).length ≤ (vals 0 b2).length := by
      by_cases e : i = 0
      · subst e
        rw [Nat.add_zero, p2] at hi; injection hi with hi; rw [hi]; exact Nat.le_refl _
      · exact perm_sorted hsrt r0 (show 2 < 2 + i by omega) p2 hi
    rw [e2] at this
    simp at this hd
    rw [this] at hd; simp at hd
  have empty1 : (x1.perm.drop 1).filter (fun k => decide (2 ≤ (vals 1 k).length)) = [] := by
    rw [List.filter_eq_nil_iff]
    intro k hk hd
    obtain ⟨i, hi⟩ := List.mem_iff_getElem?.mp hk
    rw [List.getElem?_drop] at hi
    have : (vals 1 k).length ≤ (vals 1 a1).length := by
      by_cases e : i = 0
      · subst e
        rw [Nat.add_zero, pa1] at hi; injection hi with hi; rw [hi]; exact Nat.le_refl _
      · exact perm_sorted hsrt r1 (show 1 < 1 + i by omega) pa1 hi
    rw [ea1] at this
    simp at this hd
    rw [this] at hd; simp at hd
  have hend : DelLim x 2 vals D cap q5 0 [] := by
    refine .done ⟨n5, by rw [k5]; rfl, by simp, ?_, by rw [i5]; decide, .inr (by simp)⟩
    intro j xs s rem h1 h2 h3
    rw [hxx] at h1
    rw [k5] at h2
    match j, h1, h2, h3 with
    | 0, h1, h2, h3 =>
      injection h1 with h1; injection h2 with h2; injection h3 with h3
      subst h1 h2 h3
      exact ⟨2, by omega, s21, empty0.symm⟩
    | 1, h1, h2, h3 =>
      injection h1 with h1; injection h2 with h2; injection h3 with h3
      subst h1 h2 h3
      exact ⟨1, by omega, t11, empty1.symm⟩
    | j + 2, h1, _, _ => simp at h1
  obtain ⟨e5, f5⟩ := delLim_pieces' (vals := vals) hc n4 (src := s1) (by rw [k4, i4]; rfl) v5 _ w1 s12 d1 (.inl ⟨m1.2, c5, hend⟩)
  obtain ⟨e4, f4⟩ := delLim_pieces' (vals := vals) hc n2 (src := t0) (by rw [k2, i2]; rfl) v3 _ wa t02 da (.inr ⟨hma, q4, v4, by rw [c4, c3], f5⟩)
  obtain ⟨e3, f3⟩ := delLim_pieces' (vals := vals) hc n1 (src := s1) (by rw [k1, i1]; rfl) v2 _ w1 s12 d1 (.inl ⟨m1.2, c2, f4⟩)
  obtain ⟨e2, f2⟩ := delLim_pieces' (vals := vals) hc hq0.2.2 (src := s0) (by rw [hq0.1, hq0.2.1]; rfl) v1 _ w0 s02 d0 (.inl ⟨m0.2, c1, f3⟩)
  refine ⟨e2, b0, b1, hor, ?_⟩
  rw [hq0.2.1, i1, i2, i4, s03, s13, t03] at f2
  exact f2

end

end Dupi.Query
