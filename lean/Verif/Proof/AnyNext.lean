import Verif.Proof.AnyGet
import Verif.Proof.Query
/-! # The order in which `Next` visits the lists, from the numbers in the files of heads alone -/

namespace Dupi
namespace Query

/-- `cnt j q` is the number that the file of heads of shard `j` has for bucket `q` -/
structure Counted (srt : Sorter) (xs : ShardIndex) (cnt : Nat → Nat) : Prop where
  lenH : xs.heads.length = 65536
  lenC : xs.counts.length = 65536
  counts : ∀ b, b < 65536 → (xs.counts.getD b 0).toNat = cnt b
  perm : xs.perm = srt xs.counts

structure AllCounted (srt : Sorter) (x : Index) (n : Nat) (cnt : Nat → Nat → Nat) : Prop where
  len : x.shards.length = n
  sh : ∀ (j : Nat) s, x.shards[j]? = some s → Counted srt s (cnt j)

/-- a shard whose read state is `s` still has to visit the buckets `rem` -/
def VisitAt (xs : ShardIndex) (cnt : Nat → Nat) (s : Option ReadState) (rem : List Nat) : Prop :=
  match s with
  | none => rem = []
  | some rs => ∃ a, a < 65536 ∧ xs.readStateAt a = .ok rs ∧ rem = (xs.perm.drop a).filter fun q => 2 ≤ cnt q

/-- the state of an extraction between two blots -/
structure VInv (x : Index) (n : Nat) (cnt : Nat → Nat → Nat) (q : QState) (rems : List (List Nat)) : Prop where
  qn : q.n = UInt32.ofNat n
  lenS : q.shardStates.length = n
  lenR : rems.length = n
  at_ : ∀ (j : Nat) xs s rem, x.shards[j]? = some xs → q.shardStates[j]? = some s → rems[j]? = some rem → VisitAt xs (cnt j) s rem
  i : q.i.toNat < n
  max : q.i = QState.maxLoop q.shardStates 0 0 0 ∨ ∀ r ∈ rems, r = []

/-- how a call ends that gives no result -/
def _root_.Dupi.EndsAs {α : Type} (m : M α) : Spec.Fate → Prop
  | .result _ => False
  | .error => Errs m
  | .panic => m = .error .panic
  | .endless => m = .error .diverge

theorem _root_.Dupi.EndsAs.bind {α β : Type} {m : M α} {F : Spec.Fate} (h : EndsAs m F) (f : α → M β) : EndsAs (m >>= f) F := by
  cases F with
  | result _ => exact h
  | error => exact Errs.bind h f
  | panic => rw [show m = .error .panic from h]; rfl
  | endless => rw [show m = .error .diverge from h]; rfl

/-- the loop of fillBlot, without a limit, does what that of Get does -/
theorem fill_get (grow : Nat → Nat) (x : Index) (q : QState) (pos : UInt32) : ∀ (fuel : Nat) (rs : ReadState) (b : Blot),
    (∀ b', getLoop grow x false fuel rs b = .ok b' → ∀ q', advance x q rs pos = .ok q' → fillLoop grow x q pos false fuel rs b = .ok (b', q')) ∧
    (∀ F, EndsAs (getLoop grow x false fuel rs b) F → EndsAs (fillLoop grow x q pos false fuel rs b) F) := by
  intro fuel
  induction fuel with
  | zero =>
    intro rs b
    refine ⟨fun b' h => (by simp [getLoop] at h), fun F h => ?_⟩
    cases F <;> first | exact h | rfl | (obtain ⟨e, h⟩ := h; cases h) | cases h
  | succ fuel ih =>
    intro rs b
    simp only [getLoop, fillLoop, Bool.false_and, Bool.false_eq_true, if_false, Bool.not_false, Bool.true_or, if_true]
    cases hn : rs.next with
    | error f =>
      cases f with
      | err e =>
        by_cases he : e = .eof
        · subst he
          refine ⟨fun b' h q' hq => ?_, fun F h => ?_⟩
          · injection h with h
            simp only [hq, bind, Except.bind, pure, Except.pure, h]
          · cases F <;> first | exact h.elim | (obtain ⟨e, h⟩ := h; cases h) | cases h
        · refine ⟨fun b' h => ?_, fun F h => ?_⟩
          · cases e <;> first | exact absurd rfl he | cases h
          · cases F with
            | result _ => exact h.elim
            | error => cases e <;> first | exact absurd rfl he | exact ⟨_, rfl⟩
            | panic => cases e <;> first | exact absurd rfl he | cases h
            | endless => cases e <;> first | exact absurd rfl he | cases h
      | panic =>
        refine ⟨fun b' h => (by cases h), fun F h => ?_⟩
        cases F <;> first | exact h.elim | rfl | (obtain ⟨e, h⟩ := h; cases h) | cases h
      | diverge =>
        refine ⟨fun b' h => (by cases h), fun F h => ?_⟩
        cases F <;> first | exact h.elim | rfl | (obtain ⟨e, h⟩ := h; cases h) | cases h
    | ok v =>
      obtain ⟨docid, rs'⟩ := v
      have hadv : advance x q rs' pos = advance x q rs pos := by
        simp only [ReadState.next, bind, Except.bind] at hn
        cases hp : rs.posts.next rs.file with
        | error e => rw [hp] at hn; cases hn
        | ok w =>
          rw [hp] at hn
          simp only [pure, Except.pure, Except.ok.injEq, Prod.mk.injEq] at hn
          exact advance_congr x q (by rw [← hn.2]) (by rw [← hn.2]) pos
      obtain ⟨b1, g1, _⟩ := Blot.next_unlim grow b ([], 0, 0)
      simp only [g1, bind, Except.bind]
      cases hd : x.docid2Doc docid with
      | ok r =>
        simp only []
        obtain ⟨i1, i2⟩ := ih rs' (b1.setLast r)
        exact ⟨fun b' h q' hq => i1 b' h q' (by rw [hadv]; exact hq), i2⟩
      | error f =>
        cases f with
        | err e =>
          refine ⟨fun b' h => (by cases h), fun F h => ?_⟩
          cases F <;> first | exact h.elim | exact ⟨_, rfl⟩ | cases h
        | panic =>
          refine ⟨fun b' h => (by cases h), fun F h => ?_⟩
          cases F <;> first | exact h.elim | rfl | (obtain ⟨e, h⟩ := h; cases h) | cases h
        | diverge =>
          refine ⟨fun b' h => (by cases h), fun F h => ?_⟩
          cases F <;> first | exact h.elim | rfl | (obtain ⟨e, h⟩ := h; cases h) | cases h

/-- `rs` stands at the beginning of the list of its bucket -/
def AtHead (xs : ShardIndex) (rs : ReadState) : Prop := rs.file = xs.file ∧ ∃ h, xs.heads[rs.blot]? = some h ∧ rs.posts = Posts.new h

/-- From bucket `k` of shard `j` a blot with a nil slice gets `P`. -/
def Given (grow : Nat → Nat) (x : Index) (ff : Nat) (j k : Nat) (P : List Doc → Prop) : Prop :=
  ∀ xs, x.shards[j]? = some xs → ∀ rs, AtHead xs rs → rs.blot = k → ∀ b : Blot, b.docs = none →
    ∃ b', getLoop grow x false ff rs b = .ok b' ∧ b'.blot = b.blot ∧ P b'.vis

/-- Reading bucket `k` of shard `j` into a nil slice ends in this way. -/
def Fails (grow : Nat → Nat) (x : Index) (ff : Nat) (j k : Nat) (F : Spec.Fate) : Prop :=
  ∀ xs, x.shards[j]? = some xs → ∀ rs, AtHead xs rs → rs.blot = k → ∀ b : Blot, b.docs = none → EndsAs (getLoop grow x false ff rs b) F

section
variable {srt : Sorter} (hsrt : IsSorter srt)
include hsrt

theorem counted_get {xs : ShardIndex} {cnt : Nat → Nat} (h : Counted srt xs cnt) {a : Nat} (ha : a < 65536) :
    ∃ q, xs.perm[a]? = some q ∧ q < 65536 := by
  have hp := hsrt.perm xs.counts
  have hl : xs.perm.length = 65536 := by rw [h.perm, hp.length_eq, List.length_range, h.lenC]
  refine ⟨xs.perm[a]'(by omega), List.getElem?_eq_getElem _, ?_⟩
  have hm : xs.perm[a]'(by omega) ∈ srt xs.counts := by rw [← h.perm]; exact List.getElem_mem _
  have := (hp.mem_iff).mp hm
  rw [List.mem_range, h.lenC] at this; exact this

theorem counted_sorted {xs : ShardIndex} {cnt : Nat → Nat} (h : Counted srt xs cnt) {a b qa qb : Nat} (hab : a < b)
    (ha : xs.perm[a]? = some qa) (hb : xs.perm[b]? = some qb) : cnt qb ≤ cnt qa := by
  have hs := hsrt.sorted xs.counts
  rw [← h.perm] at hs
  obtain ⟨la, ea⟩ := List.getElem?_eq_some_iff.mp ha
  obtain ⟨lb, eb⟩ := List.getElem?_eq_some_iff.mp hb
  have := (List.pairwise_iff_getElem.mp hs) a b la lb hab
  rw [ea, eb, UInt32.le_iff_toNat_le] at this
  have hm : ∀ q, q ∈ xs.perm → q < 65536 := by
    intro q hq
    rw [h.perm] at hq
    have := ((hsrt.perm xs.counts).mem_iff).mp hq
    rwa [List.mem_range, h.lenC] at this
  rwa [h.counts qa (hm _ (List.mem_of_getElem? ha)), h.counts qb (hm _ (List.mem_of_getElem? hb))] at this

theorem counted_nodup {xs : ShardIndex} {cnt : Nat → Nat} (h : Counted srt xs cnt) : xs.perm.Nodup := by
  rw [h.perm]; exact ((hsrt.perm xs.counts).nodup_iff).mpr List.nodup_range

omit hsrt in
theorem readStateAt_counted {xs : ShardIndex} {cnt : Nat → Nat} (h : Counted srt xs cnt) {a q : Nat}
    (hq : xs.perm[a]? = some q) (hlt : q < 65536) : ∃ rs, xs.readStateAt a = .ok rs ∧ AtHead xs rs ∧ rs.blot = q ∧ rs.at_ = a ∧ rs.total.toNat = cnt q := by
  have hh := List.getElem?_eq_getElem (l := xs.heads) (i := q) (by rw [h.lenH]; exact hlt)
  have hc := List.getElem?_eq_getElem (l := xs.counts) (i := q) (by rw [h.lenC]; exact hlt)
  refine ⟨⟨xs.id, q, a, xs.counts[q]'(by rw [h.lenC]; exact hlt), Posts.new (xs.heads[q]'(by rw [h.lenH]; exact hlt)), xs.file⟩, ?_, ⟨rfl, _, hh, rfl⟩, rfl, rfl, ?_⟩
  · simp only [ShardIndex.readStateAt, ShardIndex.blotAt, hq, bind, Except.bind, ShardIndex.readStateForBlotAt, hh, hc]
  · rw [← h.counts q hlt, List.getD_eq_getElem?_getD, hc]; rfl

/-- an open read state and what its shard still has to deliver -/
theorem visitAt_some {xs : ShardIndex} {cnt : Nat → Nat} {rs : ReadState} {rem : List Nat}
    (hx : Counted srt xs cnt) (h : VisitAt xs cnt (some rs) rem) :
    rs.blot < 65536 ∧ AtHead xs rs ∧ rs.total.toNat = cnt rs.blot ∧
    (∀ q ∈ rem, cnt q ≤ rs.total.toNat) ∧
    (rs.total.toNat ≤ 1 → rem = [] ∧ nextState xs rs = .ok none) ∧
    (2 ≤ rs.total.toNat → ∃ rest o, rem = rs.blot :: rest ∧ nextState xs rs = .ok o ∧ VisitAt xs cnt o rest) := by
  obtain ⟨a, ha, h1, h2⟩ := h
  obtain ⟨q, hq, hlt⟩ := counted_get hsrt hx ha
  obtain ⟨rs', g1, g2, g3, g4, g5⟩ := readStateAt_counted hx hq hlt
  rw [h1] at g1; injection g1 with g1; subst g1
  subst g3
  have hl : xs.perm.length = 65536 := by rw [hx.perm, (hsrt.perm xs.counts).length_eq, List.length_range, hx.lenC]
  have hd : xs.perm.drop a = rs.blot :: xs.perm.drop (a + 1) := by
    rw [List.drop_eq_getElem_cons (by omega)]
    obtain ⟨la, ea⟩ := List.getElem?_eq_some_iff.mp hq
    rw [ea]
  have hle : ∀ q ∈ xs.perm.drop a, cnt q ≤ rs.total.toNat := by
    intro q hm
    rw [hd] at hm
    rcases List.mem_cons.mp hm with e | e
    · rw [e, g5]; exact Nat.le_refl _
    · obtain ⟨k, hk⟩ := List.getElem?_of_mem e
      rw [List.getElem?_drop] at hk
      rw [g5]
      exact counted_sorted hsrt hx (a := a) (b := a + 1 + k) (by omega) hq hk
  refine ⟨hlt, g2, g5, ?_, ?_, ?_⟩
  · intro q hm; rw [h2] at hm; exact hle q (List.mem_filter.mp hm).1
  · intro h
    refine ⟨?_, ?_⟩
    · rw [h2, List.filter_eq_nil_iff]
      intro q hm
      have := hle q hm
      simp; omega
    · unfold nextState
      split
      · rfl
      · rw [if_pos (by rw [UInt32.le_iff_toNat_le]; exact h)]
  · intro h
    refine ⟨(xs.perm.drop (a + 1)).filter fun q => 2 ≤ cnt q, ?_⟩
    have hrem : rem = rs.blot :: (xs.perm.drop (a + 1)).filter fun q => 2 ≤ cnt q := by
      rw [h2, hd, List.filter_cons_of_pos (by simp; omega)]
    by_cases he : a = 65535
    · refine ⟨none, hrem, by unfold nextState; rw [if_pos (by omega)], ?_⟩
      simp only [VisitAt]
      rw [List.drop_eq_nil_of_le (by omega)]; rfl
    · obtain ⟨q', hq', hlt'⟩ := counted_get hsrt hx (a := a + 1) (by omega)
      obtain ⟨rs', k1, _⟩ := readStateAt_counted hx hq' hlt'
      refine ⟨some rs', hrem, ?_, a + 1, by omega, k1, rfl⟩
      unfold nextState
      rw [if_neg (by omega), if_neg (by rw [UInt32.le_iff_toNat_le]; show ¬ rs.total.toNat ≤ 1; omega), g4, k1]; rfl

omit hsrt in
/-- the state after `advance` at the chosen shard -/
theorem VInv.advance {x : Index} {n : Nat} {cnt : Nat → Nat → Nat} (hx : AllCounted srt x n cnt)
    (hn : n < 2 ^ 32) {q : QState} {rems : List (List Nat)} (h : VInv x n cnt q rems) {src : ReadState} {pos : UInt32} {xs : ShardIndex}
    {o : Option ReadState} {rest : List Nat} (h1 : x.shards[pos.toNat]? = some xs) (h3 : nextState xs src = .ok o)
    (h4 : VisitAt xs (cnt pos.toNat) o rest) :
    ∃ q', Query.advance x q src pos = .ok q' ∧ VInv x n cnt q' (rems.set pos.toNat rest) ∧ q'.nilCount = q.nilCount ∧
      q'.shardStates = q.shardStates.set pos.toNat o := by
  have hlt : pos.toNat < n := by rw [← hx.len]; exact (List.getElem?_eq_some_iff.mp h1).1
  refine ⟨_, advance_eq h1 (by rw [h.lenS]; exact hlt) h3, ⟨h.qn, by simp [QState.setMax, h.lenS], by simp [h.lenR], ?_, ?_, .inl rfl⟩, rfl, rfl⟩
  · intro j ys s rem k1 k2 k3
    simp only [QState.setMax] at k2
    by_cases e : pos.toNat = j
    · subst e
      rw [List.getElem?_set_self (by rw [h.lenS]; exact hlt)] at k2
      rw [List.getElem?_set_self (by rw [h.lenR]; exact hlt)] at k3
      rw [h1] at k1
      injection k1 with k1; injection k2 with k2; injection k3 with k3
      subst k1 k2 k3; exact h4
    · rw [List.getElem?_set_ne e] at k2 k3
      exact h.at_ j ys s rem k1 k2 k3
  · simp only [QState.setMax]
    rcases maxLoop_spec (q.shardStates.set pos.toNat o) 0 0 0 (by simp [h.lenS]; omega) with ⟨g1, _⟩ | ⟨j, s, g1, g2, _⟩
    · rw [g1]; show (0 : UInt32).toNat < n; simp; omega
    · rw [g2]
      have := (List.getElem?_eq_some_iff.mp g1).1
      simp [h.lenS] at this; omega

/-- the lists that a query in a given state still visits, in order: pairs of shard and bucket -/
inductive Visits (x : Index) (n : Nat) (cnt : Nat → Nat → Nat) : QState → List (Nat × Nat) → Prop where
  | done {q : QState} : VInv x n cnt q (List.replicate n []) → Visits x n cnt q []
  | step {q q' : QState} {src : ReadState} {xs : ShardIndex} {E : List (Nat × Nat)} : q.n = UInt32.ofNat n → q.i.toNat < n →
      q.shardStates[q.i.toNat]? = some (some src) → x.shards[q.i.toNat]? = some xs → AtHead xs src → src.blot < 65536 → 2 ≤ cnt q.i.toNat src.blot →
      Query.advance x q src q.i = .ok q' → q'.nilCount = q.nilCount → Visits x n cnt q' E → Visits x n cnt q ((q.i.toNat, src.blot) :: E)

/-- Every state of an unlimited extraction visits what is left, each bucket once, most documents first. -/
theorem visits {x : Index} {n : Nat} {cnt : Nat → Nat → Nat} (hx : AllCounted srt x n cnt)
    (hn : n < 2 ^ 32) (k : Nat) : ∀ (q : QState) (rems : List (List Nat)), VInv x n cnt q rems → (∀ r ∈ rems, r.Nodup) → (rems.map List.length).sum = k →
    ∃ E, Visits x n cnt q E ∧ E.Nodup ∧ (∀ j b, (j, b) ∈ E ↔ ∃ r, rems[j]? = some r ∧ b ∈ r) ∧
      E.Pairwise (fun a b => cnt b.1 b.2 ≤ cnt a.1 a.2) := by
  induction k with
  | zero =>
    intro q rems h _ hk
    have hnil : ∀ r ∈ rems, r = [] := by
      intro r hr
      have := List.sum_eq_zero_iff_forall_eq_nat.mp hk r.length (List.mem_map_of_mem hr)
      exact List.length_eq_zero_iff.mp this
    have e : rems = List.replicate n [] := by
      rw [List.eq_replicate_iff]; exact ⟨h.lenR, hnil⟩
    refine ⟨[], .done (e ▸ h), by simp, ?_, by simp⟩
    intro j b
    constructor
    · simp
    · rintro ⟨r, hr, hb⟩; rw [hnil r (List.mem_of_getElem? hr)] at hb; simp at hb
  | succ k ih =>
    intro q rems h hnd hk
    -- some shard has something left
    obtain ⟨r0, hr0, hne⟩ : ∃ r ∈ rems, r ≠ [] := by
      false_or_by_contra
      rename_i hc
      have : (rems.map List.length).sum = 0 := by
        rw [List.sum_eq_zero_iff_forall_eq_nat]
        intro m hm
        obtain ⟨r, hr, rfl⟩ := List.mem_map.mp hm
        false_or_by_contra
        rename_i hh
        exact hc ⟨r, hr, fun e => hh (by rw [e]; rfl)⟩
      omega
    obtain ⟨j0, hj0⟩ := List.getElem?_of_mem hr0
    have hj0n : j0 < n := by rw [← h.lenR]; exact (List.getElem?_eq_some_iff.mp hj0).1
    have getS : ∀ j, j < n → ∃ s, q.shardStates[j]? = some s := fun j hj => ⟨_, List.getElem?_eq_getElem (by rw [h.lenS]; exact hj)⟩
    have getX : ∀ j, j < n → ∃ s, x.shards[j]? = some s := fun j hj => ⟨_, List.getElem?_eq_getElem (by rw [hx.len]; exact hj)⟩
    have getR : ∀ j, j < n → ∃ s, rems[j]? = some s := fun j hj => ⟨_, List.getElem?_eq_getElem (by rw [h.lenR]; exact hj)⟩
    have nonempty : ∀ j r, rems[j]? = some r → ∀ b ∈ r, ∃ s, q.shardStates[j]? = some (some s) ∧ cnt j b ≤ s.total.toNat ∧ 2 ≤ s.total.toNat := by
      intro j r hr b hb
      have hj : j < n := by rw [← h.lenR]; exact (List.getElem?_eq_some_iff.mp hr).1
      obtain ⟨s, hs⟩ := getS j hj
      obtain ⟨xs, hxs⟩ := getX j hj
      have hat := h.at_ j xs s r hxs hs hr
      cases s with
      | none => simp only [VisitAt] at hat; subst hat; simp at hb
      | some s =>
        obtain ⟨_, _, _, g4, g5, _⟩ := visitAt_some hsrt (hx.sh j xs hxs) hat
        refine ⟨s, hs, g4 b hb, ?_⟩
        false_or_by_contra
        rename_i hlt
        rw [(g5 (by omega)).1] at hb; simp at hb
    obtain ⟨b0, hb0⟩ := List.exists_mem_of_ne_nil r0 hne
    obtain ⟨s0, hs0, _, hs0t⟩ := nonempty j0 r0 hj0 b0 hb0
    -- so the chosen one has
    have hmax : q.i = QState.maxLoop q.shardStates 0 0 0 := by
      rcases h.max with e | e
      · exact e
      · exact absurd (e r0 hr0) hne
    rcases maxLoop_spec q.shardStates 0 0 0 (by rw [h.lenS]; omega) with ⟨_, hz⟩ | ⟨i, src, hi, hiq, _, hbest⟩
    · have := hz s0 (List.mem_of_getElem? hs0)
      rw [UInt32.le_iff_toNat_le] at this; simp at this; omega
    · rw [← hmax, Nat.zero_add] at hiq
      have hin : i < n := by rw [← h.lenS]; exact (List.getElem?_eq_some_iff.mp hi).1
      obtain ⟨xs, hxs⟩ := getX i hin
      obtain ⟨rem, hrem⟩ := getR i hin
      obtain ⟨g1, g2, g3, g4, g5, g6⟩ := visitAt_some hsrt (hx.sh i xs hxs) (h.at_ i xs (some src) rem hxs hi hrem)
      have h2 : 2 ≤ src.total.toNat := by
        have := hbest s0 (List.mem_of_getElem? hs0)
        rw [UInt32.le_iff_toNat_le] at this; omega
      obtain ⟨rest, o, f1, f2, f3⟩ := g6 h2
      subst f1
      rw [← hiq] at hxs hi hrem f3 hin
      obtain ⟨q', a1, a2, a3, _⟩ := VInv.advance hx hn h (src := src) (pos := q.i) hxs f2 f3
      have hmem : ∀ r ∈ rems.set q.i.toNat rest, r.Nodup := by
        intro r hr
        rcases List.mem_or_eq_of_mem_set hr with e | e
        · exact hnd r e
        · rw [e]; exact (List.nodup_cons.mp (hnd _ (List.mem_of_getElem? hrem))).2
      obtain ⟨E, e1, e2, e3, e4⟩ := ih q' (rems.set q.i.toNat rest) a2 hmem (by have := sum_set rems _ _ _ hrem; omega)
      have hlen : q.i.toNat < rems.length := by rw [h.lenR]; exact hin
      have hnotin : (q.i.toNat, src.blot) ∉ E := by
        rw [e3]
        rintro ⟨r, hr, hb⟩
        rw [List.getElem?_set_self hlen] at hr
        injection hr with hr; subst hr
        exact (List.nodup_cons.mp (hnd _ (List.mem_of_getElem? hrem))).1 hb
      rw [← hiq] at g3
      refine ⟨(q.i.toNat, src.blot) :: E, .step h.qn hin hi hxs g2 g1 (by omega) a1 a3 e1,
        List.nodup_cons.mpr ⟨hnotin, e2⟩, ?_, ?_⟩
      · intro j b
        rw [List.mem_cons, e3, Prod.mk.injEq]
        by_cases e : q.i.toNat = j
        · subst e
          rw [List.getElem?_set_self hlen, hrem]
          constructor
          · rintro (⟨_, rfl⟩ | ⟨r, hr, hb⟩)
            · exact ⟨_, rfl, by simp⟩
            · injection hr with hr; subst hr; exact ⟨_, rfl, by simp [hb]⟩
          · rintro ⟨r, hr, hb⟩
            injection hr with hr; subst hr
            rcases List.mem_cons.mp hb with e | e
            · exact .inl ⟨rfl, e⟩
            · exact .inr ⟨_, rfl, e⟩
        · rw [List.getElem?_set_ne e]
          constructor
          · rintro (⟨rfl, _⟩ | hh)
            · exact absurd rfl e
            · exact hh
          · intro hh; exact .inr hh
      · refine List.pairwise_cons.mpr ⟨?_, e4⟩
        rintro ⟨j, b⟩ hjb
        rw [e3] at hjb
        obtain ⟨r, hr, hb⟩ := hjb
        show cnt j b ≤ cnt q.i.toNat src.blot
        rw [← g3]
        have hback : ∃ r', rems[j]? = some r' ∧ b ∈ r' := by
          by_cases e : q.i.toNat = j
          · subst e
            rw [List.getElem?_set_self hlen] at hr
            injection hr with hr; subst hr
            exact ⟨_, hrem, by simp [hb]⟩
          · rw [List.getElem?_set_ne e] at hr; exact ⟨r, hr, hb⟩
        obtain ⟨r', hr', hb'⟩ := hback
        obtain ⟨s, hs, hle, _⟩ := nonempty j r' hr' b hb'
        have := hbest s (List.mem_of_getElem? hs)
        rw [UInt32.le_iff_toNat_le] at this; omega

/-- a pass over an exhausted shard with a read state -/
theorem visit_end {x : Index} {n : Nat} {cnt : Nat → Nat → Nat} (hx : AllCounted srt x n cnt)
    (hn : n < 2 ^ 32) {q : QState} (h : VInv x n cnt q (List.replicate n [])) {src : ReadState} (hs : q.shardStates[q.i.toNat]? = some (some src))
    {grow : Nat → Nat} {ff : Nat} (hff : ∀ j k, j < n → k < 65536 → cnt j k ≤ 1 → Given grow x ff j k fun l => l.length ≤ 1) {b : Blot} (hb : b.docs = none) :
    ∃ b' q1 q2, fillBlot grow x ff q b src q.i = .ok (b', q1) ∧ b'.len ≤ 1 ∧ Query.advance x q1 src q1.i = .ok q2 ∧
      VInv x n cnt q2 (List.replicate n []) ∧ q2.nilCount = q.nilCount ∧ opens q2 + 1 ≤ opens q := by
  have getX : ∀ j, j < n → ∃ s, x.shards[j]? = some s := fun j hj => ⟨_, List.getElem?_eq_getElem (by rw [hx.len]; exact hj)⟩
  obtain ⟨xs, hxs⟩ := getX _ h.i
  have hr : (List.replicate n ([] : List Nat))[q.i.toNat]? = some [] := by rw [List.getElem?_replicate, if_pos h.i]
  obtain ⟨g1, g2, g3, g4, g5, g6⟩ := visitAt_some hsrt (hx.sh _ xs hxs) (h.at_ _ xs _ _ hxs hs hr)
  have ht : src.total.toNat ≤ 1 := by
    false_or_by_contra
    rename_i hc
    obtain ⟨rest, o, e, _⟩ := g6 (by omega)
    simp at e
  have hset : ∀ j : Nat, (List.replicate n ([] : List Nat)).set j [] = List.replicate n [] := by
    intro j
    apply List.ext_getElem?
    intro k
    rw [List.getElem?_set]
    split
    · subst_vars; simp [List.getElem?_replicate]
    · rfl
  obtain ⟨q1, a1, a2, a3, a4⟩ := VInv.advance hx hn h (src := src) (pos := q.i) hxs (g5 ht).2 (rest := []) rfl
  rw [hset] at a2
  obtain ⟨ys, hys⟩ := getX _ a2.i
  have hns : nextState ys src = .ok none := by
    unfold nextState
    split
    · rfl
    · rw [if_pos (by rw [UInt32.le_iff_toNat_le]; exact ht)]
  obtain ⟨q2, c1, c2, c3, c4⟩ := VInv.advance hx hn a2 (src := src) (pos := q1.i) hys hns (rest := []) rfl
  rw [hset] at c2
  obtain ⟨b', f0, _, f3⟩ := hff _ _ h.i g1 (by omega) xs hxs src g2 rfl { b with blot := UInt32.ofNat src.blot * q.n + q.i } hb
  have f1 := (fill_get grow x q q.i ff src { b with blot := UInt32.ofNat src.blot * q.n + q.i }).1 b' f0 q1 a1
  refine ⟨b', q1, q2, ?_, ?_, c1, c2, by rw [c3, a3], ?_⟩
  · rw [← f1]; simp only [fillBlot, hb, Option.isSome_none]
  · have : b'.len = b'.vis.length := by unfold Blot.len Blot.vis; cases b'.docs <;> rfl
    rw [this]; exact f3
  · unfold opens
    rw [c4, a4]
    have hl1 : q.i.toNat < q.shardStates.length := by rw [h.lenS]; exact h.i
    have e1 : (q.shardStates.set q.i.toNat none).countP Option.isSome + 1 = q.shardStates.countP Option.isSome := by
      rw [List.countP_set hl1]
      have hg : q.shardStates[q.i.toNat] = some src := (List.getElem?_eq_some_iff.mp hs).2
      have hp : 0 < q.shardStates.countP Option.isSome := List.countP_pos_iff.mpr ⟨some src, List.mem_of_getElem? hs, rfl⟩
      simp [hg]; omega
    have e2 : ((q.shardStates.set q.i.toNat none).set q1.i.toNat none).countP Option.isSome ≤ (q.shardStates.set q.i.toNat none).countP Option.isSome := by
      rw [List.countP_set (by rw [List.length_set, h.lenS]; exact a2.i)]
      simp
    omega

omit hsrt in
theorem VInv.next {x : Index} {n : Nat} {cnt : Nat → Nat → Nat} {q : QState} (hn : n < 2 ^ 32) (h : VInv x n cnt q (List.replicate n [])) :
    VInv x n cnt { q with nilCount := q.nilCount + 1, i := if q.i + 1 = q.n then 0 else q.i + 1 } (List.replicate n []) := by
  refine ⟨h.qn, h.lenS, h.lenR, h.at_, ?_, .inr fun r hr => List.eq_of_mem_replicate hr⟩
  show (if q.i + 1 = q.n then (0 : UInt32) else q.i + 1).toNat < n
  have hi := h.i
  have e : q.n.toNat = n := by rw [h.qn]; simp only [UInt32.toNat_ofNat']; omega
  split
  · simp; omega
  · rename_i hne
    have : (q.i + 1).toNat = q.i.toNat + 1 := by rw [UInt32.toNat_add]; simp; omega
    rw [this]
    have : q.i.toNat + 1 ≠ n := by
      intro hc; apply hne; apply UInt32.toNat_inj.mp; omega
    omega

/-- Next when no list is left that is said to have two documents -/
theorem nextLoop_end {x : Index} {n : Nat} {cnt : Nat → Nat → Nat} (hx : AllCounted srt x n cnt)
    (hn : n < 2 ^ 32) {grow : Nat → Nat} {ff : Nat} (hff : ∀ j k, j < n → k < 65536 → cnt j k ≤ 1 → Given grow x ff j k fun l => l.length ≤ 1) (k : Nat) (fuel : Nat) : ∀ (q : QState) (dst : List Blot),
    VInv x n cnt q (List.replicate n []) → NilFrom k dst → k < dst.length →
    (opens q + toGo q ≤ fuel →
      ∃ r, nextLoop grow x ff fuel q k dst = .ok r ∧ r.n = k ∧ r.eof = (k == 0) ∧ r.dst.length = dst.length ∧
        (∀ i, i < k → r.dst[i]? = dst[i]?) ∧ VInv x n cnt r.state (List.replicate n []) ∧ r.state.nilCount = r.state.n) ∧
    (fuel < toGo q → nextLoop grow x ff fuel q k dst = .error .diverge) := by
  induction fuel with
  | zero =>
    intro q dst h _ _
    exact ⟨fun hc => by have := toGo_pos q; omega, fun _ => rfl⟩
  | succ fuel ih =>
    intro q dst h hnil hk
    obtain ⟨b, hb⟩ : ∃ b, dst[k]? = some b := ⟨_, List.getElem?_eq_getElem hk⟩
    obtain ⟨s, hs⟩ : ∃ s, q.shardStates[q.i.toNat]? = some s := ⟨_, List.getElem?_eq_getElem (by rw [h.lenS]; exact h.i)⟩
    cases s with
    | none =>
      simp only [nextLoop, hb, hs]
      obtain ⟨t1, t2⟩ := toGo_step q (q' := { q with nilCount := q.nilCount + 1 }) rfl rfl
      by_cases he : q.nilCount + 1 = q.n
      · simp only [he, if_true]
        have : toGo q = 1 := t1.mp he
        exact ⟨fun _ => ⟨_, rfl, rfl, rfl, rfl, fun _ _ => rfl, ⟨h.qn, h.lenS, h.lenR, h.at_, h.i, .inr fun r hr => List.eq_of_mem_replicate hr⟩, rfl⟩,
          fun hc => by omega⟩
      · simp only [he, if_false]
        have hne : toGo q ≠ 1 := fun e => he (t1.mpr e)
        have t2 := t2 hne
        have hq : toGo { q with nilCount := q.nilCount + 1, i := if q.i + 1 = q.n then 0 else q.i + 1 } = toGo { q with nilCount := q.nilCount + 1 } := rfl
        have hop : opens { q with nilCount := q.nilCount + 1, i := if q.i + 1 = q.n then 0 else q.i + 1 } = opens q := rfl
        obtain ⟨i1, i2⟩ := ih _ dst (h.next hn) hnil hk
        exact ⟨fun hc => i1 (by rw [hop, hq]; omega), fun hc => i2 (by rw [hq]; omega)⟩
    | some src =>
      have hbn := hnil k b (Nat.le_refl _) hb
      obtain ⟨b', q1, q2, f1, f2, f3, f4, f5, f6⟩ := visit_end hsrt hx hn h hs hff hbn
      simp only [nextLoop, hb, hs, f1, bind, Except.bind, f2, if_true, f3, hbn, Option.isSome_none]
      have hg : toGo q2 = toGo q := by unfold toGo; rw [f5, f4.qn, h.qn]
      obtain ⟨i1, i2⟩ := ih q2 (dst.set k (dropBlot false b')) f4 (by
        intro i c hi hc
        rw [List.getElem?_set] at hc
        split at hc
        · injection hc with hc
          rw [← hc]; exact dropBlot_nil _
        · exact hnil i c hi hc) (by simpa using hk)
      refine ⟨fun hc => ?_, fun hc => i2 (by omega)⟩
      obtain ⟨r, e1, e2, e3, e4, e5, e6⟩ := i1 (by omega)
      refine ⟨r, e1, e2, e3, by simpa using e4, fun i hi => ?_, e6⟩
      rw [e5 i hi, List.getElem?_set_ne (by omega)]

/-- what one call of Next does when `E` is still to be visited: `dst` from position `k` on is filled -/
structure VisitSpec (x : Index) (n : Nat) (cnt : Nat → Nat → Nat) (P : Nat × Nat → List Doc → Prop) (E : List (Nat × Nat)) (k : Nat)
    (dst : List Blot) (q : QState) (r : NextResult) : Prop where
  count : r.n = k + min E.length (dst.length - k)
  eof : r.eof = true ↔ r.n = 0 ∧ dst ≠ []
  len : r.dst.length = dst.length
  old : ∀ i, i < k → r.dst[i]? = dst[i]?
  new : ∀ (i : Nat) jb, k + i < dst.length → E[i]? = some jb → ∃ bl, r.dst[k + i]? = some bl ∧ bl.blot = UInt32.ofNat (jb.2 * n + jb.1) ∧ P jb bl.vis
  rest : Visits x n cnt r.state (E.drop (dst.length - k))

omit hsrt in
theorem Visits.n {x : Index} {n : Nat} {cnt : Nat → Nat → Nat} {q : QState} {E : List (Nat × Nat)} (h : Visits x n cnt q E) : q.n = UInt32.ofNat n := by
  cases h with
  | done h => exact h.qn
  | step h => exact h

/-- `A` is what comes first, and is given; `full` says whether that is all. -/
theorem nextLoop_visits {x : Index} {n : Nat} {cnt : Nat → Nat → Nat} (hx : AllCounted srt x n cnt) (hn : n < 2 ^ 32) {grow : Nat → Nat} {ff : Nat}
    {P : Nat × Nat → List Doc → Prop} {q : QState} {E : List (Nat × Nat)} (h : Visits x n cnt q E) :
    ∀ (A B : List (Nat × Nat)), E = A ++ B → (∀ jb ∈ A, Given grow x ff jb.1 jb.2 fun l => P jb l ∧ 2 ≤ l.length) →
    ∀ (k fuel : Nat) (dst : List Blot), NilFrom k dst → k ≤ dst.length →
    ((dst.length - k ≤ A.length ∧ dst.length - k < fuel ∨
        B = [] ∧ A.length + n + toGo q < fuel ∧ ∀ j k, j < n → k < 65536 → cnt j k ≤ 1 → Given grow x ff j k fun l => l.length ≤ 1) →
      ∃ r, nextLoop grow x ff fuel q k dst = .ok r ∧ VisitSpec x n cnt P E k dst q r) ∧
    (∀ jb B' F, B = jb :: B' → Fails grow x ff jb.1 jb.2 F → A.length < dst.length - k → A.length < fuel → EndsAs (nextLoop grow x ff fuel q k dst) F) := by
  induction h with
  | done h =>
    rename_i q0
    intro A B hE hA k fuel dst hnil hk
    obtain ⟨rfl, rfl⟩ := List.append_eq_nil_iff.mp hE.symm
    refine ⟨fun hor => ?_, fun jb B' F hB => by cases hB⟩
    by_cases he : k = dst.length
    · obtain ⟨f, rfl⟩ : ∃ f, fuel = f + 1 := ⟨fuel - 1, by rcases hor with ⟨_, h⟩ | ⟨_, h, _⟩ <;> omega⟩
      refine ⟨_, by simp only [nextLoop, List.getElem?_eq_none (show dst.length ≤ k by omega)]; rfl, ?_⟩
      refine ⟨by simp, ?_, rfl, fun _ _ => rfl, by simp, by simpa using .done h⟩
      · simp only [Bool.false_eq_true, false_iff, not_and, Decidable.not_not]
        intro e; exact List.length_eq_zero_iff.mp (by omega)
    · rcases hor with ⟨h1, h2⟩ | ⟨_, h2, hff⟩
      · simp only [List.length_nil] at h1; omega
      have ho : opens q0 ≤ n := by
        have := List.countP_le_length (p := Option.isSome) (l := q0.shardStates)
        rw [h.lenS] at this; exact this
      obtain ⟨r, e1, e2, e3, e4, e5, e6, e7⟩ := (nextLoop_end hsrt hx hn hff k fuel _ dst h hnil (by omega)).1 (by simp only [List.length_nil] at h2; omega)
      refine ⟨r, e1, ⟨by simpa using e2, ?_, e4, e5, by simp, by simpa using .done e6⟩⟩
      · rw [e3, e2]
        simp only [beq_iff_eq]
        constructor
        · intro h0; exact ⟨h0, by intro hc; simp [hc] at hk; simp [hc] at he; omega⟩
        · exact And.left
  | step s1 s2 s3 s4 s5 s6 s7 s8 s9 s10 ih =>
    rename_i q q' src xs E
    intro A B hE hA k fuel dst hnil hk
    have hfillF : ∀ (b : Blot) F, b.docs = none → EndsAs (getLoop grow x false ff src { b with blot := UInt32.ofNat src.blot * q.n + q.i }) F →
        EndsAs (fillBlot grow x ff q b src q.i) F := by
      intro b F hbn h
      simp only [fillBlot, hbn, Option.isSome_none]
      rw [hbn] at h
      exact (fill_get grow x q q.i ff src _).2 F h
    cases A with
    | nil =>
      refine ⟨?_, ?_⟩
      · rintro (⟨h1, h2⟩ | ⟨rfl, _⟩)
        · have he : k = dst.length := by simp only [List.length_nil] at h1; omega
          obtain ⟨f, rfl⟩ : ∃ f, fuel = f + 1 := ⟨fuel - 1, by omega⟩
          refine ⟨_, by simp only [nextLoop, List.getElem?_eq_none (show dst.length ≤ k by omega)]; rfl, ?_⟩
          refine ⟨by simp; omega, ?_, rfl, fun _ _ => rfl, by intro i j hi; omega, ?_⟩
          · simp only [Bool.false_eq_true, false_iff, not_and, Decidable.not_not]
            intro e; exact List.length_eq_zero_iff.mp (by omega)
          · rw [he, Nat.sub_self]; exact .step s1 s2 s3 s4 s5 s6 s7 s8 s9 s10
        · cases hE
      · rintro jb B' F rfl hF h1 h2
        rw [List.nil_append] at hE
        injection hE with hE _
        subst hE
        have hk' : k < dst.length := by omega
        obtain ⟨f, rfl⟩ : ∃ f, fuel = f + 1 := ⟨fuel - 1, by omega⟩
        obtain ⟨b, hb⟩ : ∃ b, dst[k]? = some b := ⟨_, List.getElem?_eq_getElem hk'⟩
        have hbn := hnil k b (Nat.le_refl _) hb
        simp only [nextLoop, hb, s3]
        exact (hfillF b F hbn (hF xs s4 src s5 rfl _ hbn)).bind _
    | cons jb0 A =>
      rw [List.cons_append] at hE
      injection hE with hE0 hE
      subst hE0
      by_cases he : k = dst.length
      · refine ⟨fun hor => ?_, fun jb B' F _ _ h1 => by omega⟩
        obtain ⟨f, rfl⟩ : ∃ f, fuel = f + 1 := ⟨fuel - 1, by rcases hor with ⟨_, h⟩ | ⟨_, h, _⟩ <;> omega⟩
        refine ⟨_, by simp only [nextLoop, List.getElem?_eq_none (show dst.length ≤ k by omega)]; rfl, ?_⟩
        refine ⟨by simp; omega, ?_, rfl, fun _ _ => rfl, by intro i j hi; omega, ?_⟩
        · simp only [Bool.false_eq_true, false_iff, not_and, Decidable.not_not]
          intro e; exact List.length_eq_zero_iff.mp (by omega)
        · rw [he, Nat.sub_self]; exact .step s1 s2 s3 s4 s5 s6 s7 s8 s9 s10
      · have hk' : k < dst.length := by omega
        obtain ⟨b, hb⟩ : ∃ b, dst[k]? = some b := ⟨_, List.getElem?_eq_getElem hk'⟩
        have hbn := hnil k b (Nat.le_refl _) hb
        obtain ⟨b', f0, f2, f3, f4⟩ := hA _ List.mem_cons_self xs s4 src s5 rfl { b with blot := UInt32.ofNat src.blot * q.n + q.i } hbn
        have f1 := (fill_get grow x q q.i ff src { b with blot := UInt32.ofNat src.blot * q.n + q.i }).1 b' f0 q' s8
        have hfill : fillBlot grow x ff q b src q.i = .ok (b', q') := by rw [← f1]; simp only [fillBlot, hbn, Option.isSome_none]
        have hlen : ¬ b'.len ≤ 1 := by
          have : b'.len = b'.vis.length := by unfold Blot.len Blot.vis; cases b'.docs <;> rfl
          rw [this]; omega
        have hqn : q'.n = q.n := by rw [s10.n, s1]
        have hg : toGo q' = toGo q := by unfold toGo; rw [hqn, s9]
        have hstep : ∀ f, nextLoop grow x ff (f + 1) q k dst = nextLoop grow x ff f q' (k + 1) (dst.set k b') := by
          intro f
          simp only [nextLoop, hb, s3, hfill, bind, Except.bind, hlen, if_false]
        have hih := fun f => ih A B hE (fun jb hjb => hA jb (List.mem_cons_of_mem _ hjb)) (k + 1) f (dst.set k b') (by
            intro i c hi hc
            rw [List.getElem?_set_ne (by omega)] at hc
            exact hnil i c (by omega) hc) (by simp; omega)
        simp only [List.length_set, List.length_cons] at hih ⊢
        refine ⟨fun hor => ?_, fun jb B' F hB hF h1 h2 => ?_⟩
        · obtain ⟨f, rfl⟩ : ∃ f, fuel = f + 1 := ⟨fuel - 1, by rcases hor with ⟨_, h⟩ | ⟨_, h, _⟩ <;> omega⟩
          obtain ⟨r, e1, e2⟩ := (hih f).1 (by
            rcases hor with ⟨h1, h2⟩ | ⟨h1, h2, h3⟩
            · exact .inl ⟨by omega, by omega⟩
            · exact .inr ⟨h1, by omega, h3⟩)
          have hl := e2.count
          rw [List.length_set] at hl
          refine ⟨r, ?_, ?_, ?_, ?_, ?_, ?_, ?_⟩
          · rw [hstep]; exact e1
          · rw [hl]; simp; omega
          · rw [e2.eof]; simp only [ne_eq, List.set_eq_nil_iff]
          · rw [e2.len, List.length_set]
          · intro i hi; rw [e2.old i (by omega), List.getElem?_set_ne (by omega)]
          · intro i jc hi hE
            cases i with
            | zero =>
              simp only [List.getElem?_cons_zero, Option.some.injEq] at hE
              subst hE
              refine ⟨b', ?_, ?_, f3⟩
              · rw [Nat.add_zero, e2.old k (by omega), List.getElem?_set_self hk']
              · rw [f2]
                apply UInt32.toNat_inj.mp
                rw [s1]
                simp [UInt32.toNat_add, UInt32.toNat_mul]
            | succ i =>
              have := e2.new i jc (by rw [List.length_set]; omega) (by simpa using hE)
              rwa [Nat.add_assoc, Nat.add_comm 1 i] at this
          · have := e2.rest
            rw [List.length_set] at this
            rw [show dst.length - k = (dst.length - (k + 1)) + 1 by omega]
            exact this
        · obtain ⟨f, rfl⟩ : ∃ f, fuel = f + 1 := ⟨fuel - 1, by omega⟩
          rw [hstep]
          exact (hih f).2 jb B' F hB hF (by omega) (by omega)

end
end Query
end Dupi
