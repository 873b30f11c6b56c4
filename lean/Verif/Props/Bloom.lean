import Verif.Model.Attic
/-! # The integer Bloom filter: C35 -/

namespace Dupi.Props
open Attic

/-- bit `p` of a byte string -/
def bit (d : Bytes) (p : Nat) : Bool :=
  match d[p / 8]? with
  | none => false
  | some b => b.toNat.testBit (p % 8)

theorem one_shl {m : Nat} (h : m < 8) : ((1 : UInt8) <<< UInt8.ofNat m).toNat = 2 ^ m := by
  rw [UInt8.toNat_shiftLeft, UInt8.toNat_ofNat']
  have h1 : m % 2 ^ 8 % 8 = m := by omega
  rw [h1, show (1 : UInt8).toNat = 1 from rfl, Nat.shiftLeft_eq, Nat.one_mul, Nat.mod_eq_of_lt]
  exact Nat.pow_lt_pow_right (by omega) h

theorem mask_ne {b : UInt8} {m : Nat} (h : m < 8) : (b &&& ((1 : UInt8) <<< UInt8.ofNat m) ≠ 0) ↔ b.toNat.testBit m = true := by
  rw [ne_eq, ← UInt8.toNat_inj, UInt8.toNat_and, one_shl h, show (0 : UInt8).toNat = 0 from rfl]
  constructor
  · intro hn
    cases ht : b.toNat.testBit m
    · refine absurd (Nat.eq_of_testBit_eq fun i => ?_) hn
      rw [Nat.testBit_and, Nat.testBit_two_pow, Nat.zero_testBit]
      by_cases hi : m = i
      · rw [← hi, ht, Bool.false_and]
      · rw [decide_eq_false hi, Bool.and_false]
    · rfl
  · intro ht he
    have := congrArg (fun n => n.testBit m) he
    simp only [Nat.testBit_and, Nat.testBit_two_pow, Nat.zero_testBit, ht] at this
    simp at this

theorem getBit_ok {d : Bytes} {p : Nat} (h : p / 8 < d.length) : getBit d p = .ok (bit d p) := by
  unfold getBit bit
  rw [List.getElem?_eq_getElem h]
  have := mask_ne (b := d[p / 8]) (m := p % 8) (by omega)
  simp only [ne_eq] at this ⊢
  congr 1
  rw [Bool.eq_iff_iff, decide_eq_true_iff, this]

theorem setBit_ok {d : Bytes} {p : Nat} (h : p / 8 < d.length) : ∃ d', setBit d p = .ok d' ∧ d'.length = d.length ∧
    ∀ q, bit d' q = (bit d q || decide (q = p)) := by
  unfold setBit
  rw [List.getElem?_eq_getElem h]
  refine ⟨_, rfl, by simp, fun q => ?_⟩
  unfold bit
  rw [List.getElem?_set]
  by_cases hq : p / 8 = q / 8
  · rw [if_pos hq, if_pos h]
    simp only [hq, List.getElem?_eq_getElem (hq ▸ h)]
    rw [UInt8.toNat_or, one_shl (by omega), Nat.testBit_or, Nat.testBit_two_pow]
    have : (decide (p % 8 = q % 8)) = decide (q = p) := by
      rw [Bool.eq_iff_iff, decide_eq_true_iff, decide_eq_true_iff]; omega
    rw [this]
  · rw [if_neg hq]
    have : decide (q = p) = false := decide_eq_false (by rintro rfl; exact hq rfl)
    rw [this, Bool.or_false]

/-- a filter of positive size, that is, of a number of bits that is not 0 as uint32 -/
def Sized (f : Filter) : Prop := 0 ≤ f.mbytes ∧ toU32 f.mbytes * 8 ≠ 0

/-- the positions of a value -/
def posn (f : Filter) (hh i : UInt32) : Nat := (((hh ^^^ (i + 97)) * prime) % (toU32 f.mbytes * 8)).toNat

theorem one_ok {f : Filter} (h : Sized f) (hh i : UInt32) : ∃ hb, f.one hh i = .ok hb ∧ hb.toNat = posn f hh i := by
  refine ⟨_, ?_, rfl⟩
  unfold Filter.one clamp; rw [if_neg h.2]

theorem posn_lt {f : Filter} (h : Sized f) (hh i : UInt32) : posn f hh i / 8 < f.mbytes.toNat := by
  have h1 : 0 < (toU32 f.mbytes * 8).toNat := by
    rcases Nat.eq_zero_or_pos (toU32 f.mbytes * 8).toNat with e | e
    · exact absurd (UInt32.toNat_inj.mp e) h.2
    · exact e
  unfold posn
  rw [UInt32.toNat_mod]
  have h2 := Nat.mod_lt ((hh ^^^ (i + 97)) * prime).toNat h1
  have h3 : (toU32 f.mbytes * 8).toNat ≤ f.mbytes.toNat * 8 := by
    rw [UInt32.toNat_mul, toU32, UInt32.toNat_ofNat']
    show _ * 8 % 2 ^ 32 ≤ _
    have h0 := h.1
    omega
  omega

theorem next_ofNat (i : UInt32) (j : Nat) : i + 1 + UInt32.ofNat j = i + UInt32.ofNat (j + 1) := by
  rw [UInt32.ofNat_add, UInt32.add_assoc, UInt32.add_comm 1]; rfl

theorem hasLoop_eq {f : Filter} (h : Sized f) {d : Bytes} (hd : d.length = f.mbytes.toNat) (hh : UInt32) : ∀ (n : Nat) (i : UInt32),
    f.hasLoop d hh n i = .ok ((List.range n).all fun j => bit d (posn f hh (i + UInt32.ofNat j))) := by
  intro n
  induction n with
  | zero => intro i; rfl
  | succ n ih =>
    intro i
    obtain ⟨hb, h1, h2⟩ := one_ok h hh i
    have h3 := getBit_ok (d := d) (p := hb.toNat) (by rw [h2, hd]; exact posn_lt h hh i)
    simp only [Filter.hasLoop, h1, h3, bind, Except.bind, pure, Except.pure]
    rw [List.range_succ_eq_map, List.all_cons, List.all_map, show UInt32.ofNat 0 = 0 from rfl, UInt32.add_zero, ← h2]
    cases hbit : bit d hb.toNat
    · simp
    · simp only [if_true, Bool.true_and]
      rw [ih]
      refine congrArg (fun g => Except.ok ((List.range n).all g)) (funext fun j => ?_)
      show bit d (posn f hh (i + 1 + UInt32.ofNat j)) = bit d (posn f hh (i + UInt32.ofNat (j + 1)))
      rw [next_ofNat]

theorem addLoop_eq {f : Filter} (h : Sized f) (hh : UInt32) : ∀ (n : Nat) (i : UInt32) (d : Bytes), d.length = f.mbytes.toNat →
    ∃ d', f.addLoop hh n i d = .ok d' ∧ d'.length = d.length ∧
      ∀ q, bit d' q = (bit d q || (List.range n).any fun j => decide (q = posn f hh (i + UInt32.ofNat j))) := by
  intro n
  induction n with
  | zero => intro i d _; exact ⟨d, rfl, rfl, by simp⟩
  | succ n ih =>
    intro i d hd
    obtain ⟨hb, h1, h2⟩ := one_ok h hh i
    obtain ⟨d1, g1, g2, g3⟩ := setBit_ok (d := d) (p := hb.toNat) (by rw [h2, hd]; exact posn_lt h hh i)
    obtain ⟨d2, k1, k2, k3⟩ := ih (i + 1) d1 (by rw [g2, hd])
    refine ⟨d2, ?_, by rw [k2, g2], fun q => ?_⟩
    · simp only [Filter.addLoop, h1, g1, bind, Except.bind]; exact k1
    · rw [k3, g3, List.range_succ_eq_map, List.any_cons, List.any_map, show UInt32.ofNat 0 = 0 from rfl, UInt32.add_zero, h2, Bool.or_assoc]
      refine congrArg (fun g => (bit d q || (decide (q = posn f hh i) || (List.range n).any g))) (funext fun j => ?_)
      show decide (q = posn f hh (i + 1 + UInt32.ofNat j)) = decide (q = posn f hh (i + UInt32.ofNat (j + 1)))
      rw [next_ofNat]

/-- the set has all bits of the value -/
def Has (f : Filter) (d : Bytes) (v : UInt32) : Prop := ∀ j, j < (toU32 f.k).toNat → bit d (posn f (hash v) (0 + UInt32.ofNat j)) = true

theorem has_iff {f : Filter} (h : Sized f) {d : Bytes} (hd : d.length = f.mbytes.toNat) (v : UInt32) :
    (f.has d v = .ok true ↔ Has f d v) ∧ (f.has d v = .ok false ↔ ¬ Has f d v) := by
  have : ((List.range (toU32 f.k).toNat).all fun j => bit d (posn f (hash v) (0 + UInt32.ofNat j))) = true ↔ Has f d v := by
    rw [List.all_eq_true]; unfold Has
    simp only [List.mem_range]
  rw [← this]
  unfold Filter.has
  rw [hasLoop_eq h hd]
  cases (List.range (toU32 f.k).toNat).all fun j => bit d (posn f (hash v) (0 + UInt32.ofNat j)) <;> simp

theorem zipLoop_ok (op : UInt8 → UInt8 → UInt8) (bop : Bool → Bool → Bool) (h0 : bop false false = false)
    (hop : ∀ a b m, m < 8 → (op a b).toNat.testBit m = bop (a.toNat.testBit m) (b.toNat.testBit m)) :
    ∀ a b : Bytes, a.length = b.length → ∃ r, zipLoop op a b = .ok r ∧ r.length = a.length ∧ ∀ q, bit r q = bop (bit a q) (bit b q) := by
  intro a
  induction a with
  | nil =>
    intro b hl
    cases b with
    | nil => exact ⟨[], rfl, rfl, fun q => by simp [bit, h0]⟩
    | cons => simp at hl
  | cons x a ih =>
    intro b hl
    cases b with
    | nil => simp at hl
    | cons y b =>
      obtain ⟨r, h1, h2, h3⟩ := ih b (by simpa using hl)
      refine ⟨op x y :: r, by simp [zipLoop, h1, bind, Except.bind, pure, Except.pure], by simp [h2], fun q => ?_⟩
      by_cases hq : q / 8 = 0
      · simp only [bit, hq, List.getElem?_cons_zero]; exact hop x y _ (by omega)
      · have := h3 (q - 8)
        unfold bit at this ⊢
        have e : q / 8 = (q - 8) / 8 + 1 := by omega
        have e' : (q - 8) % 8 = q % 8 := by omega
        rw [e, List.getElem?_cons_succ, List.getElem?_cons_succ, List.getElem?_cons_succ, ← e']
        exact this

theorem union_ok {f : Filter} (t o : BPosts) (hl : t.set.length = o.set.length) : ∃ r, t.union o = .ok r ∧ r.bloomer = t.bloomer ∧
    r.post = t.post ∧ r.total = t.total ∧ r.set.length = t.set.length ∧ (Has f t.set v → Has f r.set v) ∧ (Has f o.set v → Has f r.set v) := by
  obtain ⟨r, h1, h2, h3⟩ := zipLoop_ok (· ||| ·) (· || ·) rfl (fun a b m _ => by rw [UInt8.toNat_or, Nat.testBit_or]) t.set o.set hl
  refine ⟨{ t with set := r }, by simp [BPosts.union, h1, bind, Except.bind, pure, Except.pure], rfl, rfl, rfl, h2, ?_, ?_⟩
  · intro h j hj; rw [h3, h j hj]; simp
  · intro h j hj; rw [h3, h j hj]; simp

/-- what is done to a set -/
inductive BOp where
  | add (v : UInt32)
  | union (o : BPosts)

def BOp.run (t : BPosts) : List BOp → M BPosts
  | [] => .ok t
  | .add v :: ops => do
    let t ← t.addPost v
    run t ops
  | .union o :: ops => do
    let t ← t.union o
    run t ops

/-- the integers put into the set -/
def Given (f : Filter) (ops : List BOp) (v : UInt32) : Prop := ∃ op ∈ ops, match op with
  | .add w => w = v
  | .union o => f.has o.set v = .ok true

theorem run_spec {f : Filter} (h : Sized f) (ops : List BOp) : ∀ t : BPosts, t.bloomer = f → t.set.length = f.mbytes.toNat →
    (t.total ≠ 0 → Has f t.set t.post) → (∀ o, .union o ∈ ops → o.set.length = f.mbytes.toNat) →
    ∃ t', BOp.run t ops = .ok t' ∧ t'.bloomer = f ∧ t'.set.length = f.mbytes.toNat ∧
      ∀ v, (Has f t.set v ∨ Given f ops v) → Has f t'.set v := by
  induction ops with
  | nil => intro t h1 h2 _ _; exact ⟨t, rfl, h1, h2, fun v hv => hv.elim id (by rintro ⟨_, h, _⟩; cases h)⟩
  | cons op ops ih =>
    intro t h1 h2 h3 h4
    have h4' : ∀ o, BOp.union o ∈ ops → o.set.length = f.mbytes.toNat := fun o ho => h4 o (by simp [ho])
    cases op with
    | add w =>
      have key : ∃ t1, t.addPost w = .ok t1 ∧ t1.bloomer = f ∧ t1.set.length = f.mbytes.toNat ∧ t1.post = w ∧
          (∀ v, Has f t.set v → Has f t1.set v) ∧ Has f t1.set w := by
        unfold BPosts.addPost
        by_cases hc : t.post = w ∧ t.total ≠ 0
        · rw [if_pos hc]; exact ⟨t, rfl, h1, h2, hc.1, fun _ h => h, hc.1 ▸ h3 hc.2⟩
        · rw [if_neg hc, h1]
          obtain ⟨d', g1, g2, g3⟩ := addLoop_eq h (hash w) (toU32 f.k).toNat 0 t.set h2
          refine ⟨⟨t.total + 1, w, t.bloomer, d'⟩, by simp [Filter.add, g1, h1, bind, Except.bind, pure, Except.pure], h1, by rw [← h2, ← g2], rfl, ?_, ?_⟩
          · intro v hv j hj; rw [g3, hv j hj, Bool.true_or]
          · intro j hj
            rw [g3, Bool.or_eq_true]; right
            rw [List.any_eq_true]; exact ⟨j, List.mem_range.mpr hj, by simp⟩
      obtain ⟨t1, k1, k2, k3, k4, k5, k6⟩ := key
      obtain ⟨t', l1, l2, l3, l4⟩ := ih t1 k2 k3 (fun _ => k4 ▸ k6) h4'
      refine ⟨t', by simp [BOp.run, k1, bind, Except.bind, l1], l2, l3, fun v hv => l4 v ?_⟩
      rcases hv with hv | ⟨op, ho, hop⟩
      · exact .inl (k5 v hv)
      · rcases List.mem_cons.mp ho with rfl | ho
        · simp only at hop; subst hop; exact .inl k6
        · exact .inr ⟨op, ho, hop⟩
    | union o =>
      have hol := h4 o (by simp)
      have hv' : ∀ v, ∃ r, t.union o = .ok r ∧ r.bloomer = t.bloomer ∧ r.post = t.post ∧ r.total = t.total ∧ r.set.length = t.set.length ∧
          (Has f t.set v → Has f r.set v) ∧ (Has f o.set v → Has f r.set v) := fun v => union_ok (f := f) (v := v) t o (by rw [h2, hol])
      obtain ⟨r, k1, k2, k3, k4, k5, _⟩ := hv' 0
      have k6 : ∀ v, (Has f t.set v → Has f r.set v) ∧ (Has f o.set v → Has f r.set v) := by
        intro v
        obtain ⟨r', e1, _, _, _, _, e2⟩ := hv' v
        rw [k1] at e1; cases e1; exact e2
      obtain ⟨t', l1, l2, l3, l4⟩ := ih r (k2.trans h1) (k5.trans h2) (fun hn => k3 ▸ (k6 _).1 (h3 (k4 ▸ hn))) h4'
      refine ⟨t', by simp [BOp.run, k1, bind, Except.bind, l1], l2, l3, fun v hv => l4 v ?_⟩
      rcases hv with hv | ⟨op, ho, hop⟩
      · exact .inl ((k6 v).1 hv)
      · rcases List.mem_cons.mp ho with rfl | ho
        · exact .inl ((k6 v).2 (((has_iff h hol v).1).mp hop))
        · exact .inr ⟨op, ho, hop⟩

theorem init_ok {f : Filter} (h : Sized f) : BPosts.init f = .ok ⟨0, 0, f, List.replicate f.mbytes.toNat 0⟩ := by
  have : ¬ f.mbytes < 0 := by have := h.1; omega
  simp [BPosts.init, Filter.set, this, bind, Except.bind, pure, Except.pure]

/-- **C35.**  Start from an empty set of any size and any number of hash functions, and add integers and unite with other sets in any order:
nothing fails, and every integer that was added, or that one of the other sets has, is there. -/
theorem C35_no_false_negatives {f : Filter} (h : Sized f) (ops : List BOp) (hl : ∀ o, .union o ∈ ops → o.set.length = f.mbytes.toNat) :
    ∃ t t', BPosts.init f = .ok t ∧ BOp.run t ops = .ok t' ∧ ∀ v, Given f ops v → t'.hasPost v = .ok true := by
  obtain ⟨t', h1, h2, h3, h4⟩ := run_spec h ops ⟨0, 0, f, List.replicate f.mbytes.toNat 0⟩ rfl (by simp) (by simp) hl
  refine ⟨_, t', init_ok h, h1, fun v hv => ?_⟩
  unfold BPosts.hasPost
  rw [h2]
  exact (has_iff h h3 v).1.mpr (h4 v (.inr hv))

/-- **C35.**  The intersection has precisely the integers that both sets have. -/
theorem C35_intersect {f : Filter} (h : Sized f) (t o : BPosts) (ht : t.bloomer = f) (ho : o.bloomer = f) (h1 : t.set.length = f.mbytes.toNat)
    (h2 : o.set.length = f.mbytes.toNat) : ∃ r, t.intersect o = .ok r ∧
      ∀ v, r.hasPost v = .ok true ↔ (t.hasPost v = .ok true ∧ o.hasPost v = .ok true) := by
  obtain ⟨r, g1, g2, g3⟩ := zipLoop_ok (· &&& ·) (· && ·) rfl (fun a b m _ => by rw [UInt8.toNat_and, Nat.testBit_and]) t.set o.set (by rw [h1, h2])
  refine ⟨{ t with set := r }, by simp [BPosts.intersect, g1, bind, Except.bind, pure, Except.pure], fun v => ?_⟩
  unfold BPosts.hasPost
  simp only [ht, ho]
  rw [(has_iff h (g2.trans h1) v).1, (has_iff h h1 v).1, (has_iff h h2 v).1]
  unfold Has
  simp only [g3, Bool.and_eq_true]
  exact ⟨fun h => ⟨fun j hj => (h j hj).1, fun j hj => (h j hj).2⟩, fun h j hj => ⟨h.1 j hj, h.2 j hj⟩⟩

/-- **C35.**  The full set has every integer, and every position. -/
theorem C35_full {f : Filter} (h : Sized f) : ∃ t, BPosts.ones f = .ok t ∧ (∀ v, t.hasPost v = .ok true) ∧ ∀ p, p < 8 * f.mbytes.toNat → bit t.set p = true := by
  have hm : ¬ f.mbytes < 0 := by have := h.1; omega
  have hbit : ∀ p, p / 8 < f.mbytes.toNat → bit ((List.replicate f.mbytes.toNat 0).map fun _ => (0xff : UInt8)) p = true := by
    intro p hp
    unfold bit
    rw [List.getElem?_map, List.getElem?_replicate, if_pos hp]
    have : ∀ m : Fin 8, Nat.testBit (UInt8.toNat 0xff) m.val = true := by decide
    exact this ⟨p % 8, Nat.mod_lt _ (by decide)⟩
  refine ⟨⟨0, 0, f, (List.replicate f.mbytes.toNat 0).map fun _ => 0xff⟩, by simp [BPosts.ones, Filter.set, hm, bind, Except.bind, pure, Except.pure], fun v => ?_, fun p hp => hbit p (by omega)⟩
  exact (has_iff h (by simp) v).1.mpr fun j _ => hbit _ (posn_lt h _ _)

/-- An integer added again right after an intersection that removed it is not there: the set believes it still has it. -/
theorem C35_false_readd {f : Filter} (h : Sized f) (hk : (toU32 f.k).toNat ≠ 0) (v : UInt32) :
    ∃ t t1 t2, BPosts.init f = .ok t ∧ t.addPost v = .ok t1 ∧ t1.hasPost v = .ok true ∧ t1.intersect t = .ok t2 ∧
      t2.addPost v = .ok t2 ∧ t2.hasPost v = .ok false := by
  obtain ⟨d, g1, g2, g3⟩ := addLoop_eq h (hash v) (toU32 f.k).toNat 0 (List.replicate f.mbytes.toNat 0) (by simp)
  obtain ⟨r, k1, k2, k3⟩ := zipLoop_ok (· &&& ·) (· && ·) rfl (fun a b m _ => by rw [UInt8.toNat_and, Nat.testBit_and]) d
    (List.replicate f.mbytes.toNat 0) (by rw [g2])
  have hz : ∀ q, bit (List.replicate f.mbytes.toNat 0) q = false := by
    intro q
    unfold bit
    rw [List.getElem?_replicate]
    by_cases hq : q / 8 < f.mbytes.toNat
    · rw [if_pos hq]; simp
    · rw [if_neg hq]
  rw [List.length_replicate] at g2
  refine ⟨_, ⟨1, v, f, d⟩, ⟨1, v, f, r⟩, init_ok h, ?_, ?_, ?_, ?_, ?_⟩
  · simp [BPosts.addPost, Filter.add, g1, bind, Except.bind, pure, Except.pure]
  · refine (has_iff h g2 v).1.mpr fun j hj => ?_
    rw [g3, Bool.or_eq_true]; right
    rw [List.any_eq_true]; exact ⟨j, List.mem_range.mpr hj, by simp⟩
  · simp [BPosts.intersect, k1, bind, Except.bind, pure, Except.pure]
  · simp [BPosts.addPost]
  · refine (has_iff h (k2.trans g2) v).2.mpr fun hh => ?_
    have := hh 0 (by omega)
    rw [k3, hz, Bool.and_false] at this; cases this

/-- A filter of size 0 (or of any size that is 0 in bits as uint32) panics when used. -/
theorem C35_zero_size (f : Filter) (h0 : toU32 f.mbytes * 8 = 0) (hk : (toU32 f.k).toNat ≠ 0) (d : Bytes) (v : UInt32) :
    f.add d v = panic' ∧ f.has d v = panic' := by
  obtain ⟨n, hn⟩ : ∃ n, (toU32 f.k).toNat = n + 1 := ⟨(toU32 f.k).toNat - 1, by omega⟩
  constructor
  · simp [Filter.add, hn, Filter.addLoop, Filter.one, clamp, h0, bind, Except.bind, panic']
  · simp [Filter.has, hn, Filter.hasLoop, Filter.one, clamp, h0, bind, Except.bind, panic']

theorem onesLoop_mem (d : Bytes) : ∀ (i p : Nat), p ∈ onesLoop i d ↔ i * 8 ≤ p ∧ bit d (p - i * 8) = true := by
  induction d with
  | nil => intro i p; simp [onesLoop, bit]
  | cons b d ih =>
    intro i p
    rw [onesLoop, List.mem_append, ih]
    have hfirst : (p ∈ (if b = 0 then [] else (List.range 8).filterMap fun j => if b &&& ((1 : UInt8) <<< UInt8.ofNat j) ≠ 0 then some (i * 8 + j) else none)) ↔
        ∃ j, j < 8 ∧ p = i * 8 + j ∧ b.toNat.testBit j = true := by
      by_cases hb : b = 0
      · subst hb; simp
      · rw [if_neg hb, List.mem_filterMap]
        constructor
        · rintro ⟨j, hj, he⟩
          have hj8 := List.mem_range.mp hj
          by_cases hm : b &&& ((1 : UInt8) <<< UInt8.ofNat j) ≠ 0
          · rw [if_pos hm] at he; injection he with he
            exact ⟨j, hj8, he.symm, (mask_ne hj8).mp hm⟩
          · rw [if_neg hm] at he; cases he
        · rintro ⟨j, hj, rfl, ht⟩
          exact ⟨j, List.mem_range.mpr hj, by rw [if_pos ((mask_ne hj).mpr ht)]⟩
    rw [hfirst]
    constructor
    · rintro (⟨j, hj, rfl, ht⟩ | ⟨h1, h2⟩)
      · refine ⟨by omega, ?_⟩
        unfold bit
        rw [show i * 8 + j - i * 8 = j by omega, Nat.div_eq_of_lt hj, Nat.mod_eq_of_lt hj]; exact ht
      · refine ⟨by omega, ?_⟩
        unfold bit at h2 ⊢
        rw [show (p - i * 8) / 8 = (p - (i + 1) * 8) / 8 + 1 by omega, show (p - i * 8) % 8 = (p - (i + 1) * 8) % 8 by omega,
          List.getElem?_cons_succ]
        exact h2
    · rintro ⟨h1, h2⟩
      by_cases hp : p - i * 8 < 8
      · left
        refine ⟨p - i * 8, hp, by omega, ?_⟩
        unfold bit at h2
        rw [Nat.div_eq_of_lt hp, Nat.mod_eq_of_lt hp] at h2; exact h2
      · right
        refine ⟨by omega, ?_⟩
        unfold bit at h2 ⊢
        rw [show (p - i * 8) / 8 = (p - (i + 1) * 8) / 8 + 1 by omega, show (p - i * 8) % 8 = (p - (i + 1) * 8) % 8 by omega,
          List.getElem?_cons_succ] at h2
        exact h2

/-- **C35.**  `Ones` lists precisely the positions of the bits that are set. -/
theorem C35_ones (t : BPosts) (dst : List Nat) (p : Nat) : p ∈ t.bits dst ↔ p ∈ dst ∨ bit t.set p = true := by
  rw [BPosts.bits, List.mem_append, onesLoop_mem]; simp

/-- 2 bytes, 3 functions: filters of the kind exist, a set of two integers does not have everything -/
example : Sized ⟨3, 2⟩ := ⟨by decide, by decide +kernel⟩
example : (do let t ← BPosts.init ⟨3, 2⟩; let t ← t.addPost 5; let t ← t.addPost 77; return (← t.hasPost 5, ← t.hasPost 77, ← t.hasPost 6)) =
    Except.ok (true, true, false) := by decide +kernel

end Dupi.Props
