import Verif.Proof.AnyNum
import Verif.Proof.FnamesIO
/-! # Reading a path table from any bytes -/

namespace Dupi.Fnames
open Spec

theorem readUvarint32_exact (r : Bytes) (w : UInt32) (r' : Bytes) : readUvarint32 r = .ok (w, r') ↔ ∃ l, r = l ++ r' ∧ Num l w.toNat := by
  unfold readUvarint32
  simp only [bind, Except.bind]
  constructor
  · intro h
    cases hu : readUvarint r with
    | error e => rw [hu] at h; cases h
    | ok a =>
      obtain ⟨v, r1⟩ := a
      rw [hu] at h
      simp only [] at h
      by_cases hv : v % 2 ^ 32 ≠ v
      · rw [if_pos hv] at h; cases h
      · rw [if_neg hv] at h
        simp only [pure, Except.pure, Except.ok.injEq, Prod.mk.injEq] at h
        obtain ⟨rfl, rfl⟩ := h
        obtain ⟨l, h1, h2⟩ := (readUvarint_exact _ _ _).mp hu
        refine ⟨l, h1, ?_⟩
        rw [UInt32.toNat_ofNat', show v % 2 ^ 32 = v by omega]
        exact h2
  · rintro ⟨l, h1, h2⟩
    rw [(readUvarint_exact r _ r').mpr ⟨l, h1, h2⟩]
    simp only []
    have := w.toNat_lt
    rw [if_neg (by rw [Nat.mod_eq_of_lt this]; simp), UInt32.ofNat_toNat]
    rfl

theorem readUvarint32_tame (r : Bytes) : Tame (readUvarint32 r) := by
  unfold readUvarint32
  refine (readUvarint_tame r).bind fun a _ => ?_
  simp only []
  split
  · exact .fail _
  · exact .ok _

/-- what a node says -/
def says (n : Fname) : Bytes × Nat := (n.name, n.parent.toNat)

theorem says_set {d : Table} {i : Nat} {m : Fname} (h : ∀ n, d[i]? = some n → says m = says n) : (d.set i m).map says = d.map says := by
  apply List.ext_getElem?
  intro k
  rw [List.getElem?_map, List.getElem?_map]
  by_cases e : i = k
  · subst e
    by_cases hl : i < d.length
    · rw [List.getElem?_set_self hl, List.getElem?_eq_getElem hl]
      simp only [Option.map_some, Option.some.injEq]
      exact h _ (List.getElem?_eq_getElem hl)
    · rw [List.getElem?_eq_none (by simp; omega), List.getElem?_eq_none (by omega)]
  · rw [List.getElem?_set_ne e]

/-- one pass of the loop -/
theorem readLoop_step {n i : Nat} {d : Table} {l p name : Bytes} {parent : Nat} {r : Bytes} (h1 : Num l name.length) (h2 : Num p parent) (h3 : name.length < 2 ^ 32) (h4 : parent < 2 ^ 32) :
    (d.length ≤ parent ∧ readLoop (n + 1) i d (l ++ name ++ p ++ r) = .error .panic) ∨
    (parent < d.length ∧ ∃ d', readLoop (n + 1) i d (l ++ name ++ p ++ r) = readLoop n (i + 1) d' r ∧ d'.length = d.length ∧ d'.map says = (d.map says).set i (name, parent)) := by
  have e1 : (UInt32.ofNat name.length).toNat = name.length := by rw [UInt32.toNat_ofNat']; exact Nat.mod_eq_of_lt h3
  have e2 : (UInt32.ofNat parent).toNat = parent := by rw [UInt32.toNat_ofNat']; exact Nat.mod_eq_of_lt h4
  have g1 : readUvarint32 (l ++ name ++ p ++ r) = .ok (UInt32.ofNat name.length, name ++ (p ++ r)) :=
    (readUvarint32_exact _ _ _).mpr ⟨l, by simp, by rw [e1]; exact h1⟩
  have g2 : readFull (name ++ (p ++ r)) name.length = .ok (name, p ++ r) := (readFull_exact _ _ _ _).mpr ⟨rfl, rfl⟩
  have g3 : readUvarint32 (p ++ r) = .ok (UInt32.ofNat parent, r) := (readUvarint32_exact _ _ _).mpr ⟨p, rfl, by rw [e2]; exact h2⟩
  rw [readLoop]
  simp only [bind, Except.bind, g1, e1, g2, g3, e2]
  by_cases hp : parent < d.length
  · right
    refine ⟨hp, ?_⟩
    have hget : (d.set i { d.getD i zero with name := name, parent := UInt32.ofNat parent })[parent]? = some ((d.set i { d.getD i zero with name := name, parent := UInt32.ofNat parent })[parent]'(by simpa using hp)) :=
      List.getElem?_eq_getElem _
    rw [hget]
    refine ⟨_, rfl, by simp, ?_⟩
    rw [says_set]
    · rw [List.map_set]
      simp only [says, e2]
    · intro m hm
      rw [hget] at hm
      injection hm with hm
      rw [← hm]; rfl
  · left
    refine ⟨by omega, ?_⟩
    rw [List.getElem?_eq_none (by simp; omega)]

theorem readLoop_ok (ns : List (Bytes × Nat)) : ∀ (i : Nat) (d : Table) (bs r : Bytes), NodesAs bs ns → i + ns.length ≤ d.length → (∀ x ∈ ns, x.2 < d.length) →
    ∃ t, readLoop ns.length i d (bs ++ r) = .ok (t, r) ∧ t.length = d.length ∧ t.map says = (d.map says).take i ++ ns ++ (d.map says).drop (i + ns.length) := by
  induction ns with
  | nil =>
    intro i d bs r h _ _
    have h : bs = [] := h
    subst h
    exact ⟨d, rfl, rfl, by simp⟩
  | cons x ns ih =>
    intro i d bs r h hi hp
    obtain ⟨a, r1, e, ⟨l, p, e', n1, n2, n3, n4⟩, hr⟩ := h
    subst e
    rw [e', List.append_assoc]
    simp only [List.length_cons] at hi ⊢
    rcases readLoop_step (n := ns.length) (i := i) (d := d) (r := r1 ++ r) n1 n2 n3 n4 with ⟨k, _⟩ | ⟨_, d', k1, k2, k3⟩
    · have := hp x (by simp); omega
    · obtain ⟨t, t1, t2, t3⟩ := ih (i + 1) d' r1 r hr (by omega) (fun y hy => by rw [k2]; exact hp y (by simp [hy]))
      refine ⟨t, by rw [k1, t1], by omega, ?_⟩
      rw [t3, k3, show i + (ns.length + 1) = i + 1 + ns.length by omega, List.drop_set_of_lt (by omega)]
      congr 1
      have hlt : i < (d.map says).length := by rw [List.length_map]; omega
      rw [List.take_succ_eq_append_getElem (by simpa using hlt), List.getElem_set_self, List.take_set_of_le (Nat.le_refl _)]
      simp

theorem readLoop_stray (ns : List (Bytes × Nat)) : ∀ (n i : Nat) (d : Table) (bs r : Bytes), NodesAs bs ns → ns.length ≤ n → i + n ≤ d.length → (∃ x ∈ ns, d.length ≤ x.2) →
    readLoop n i d (bs ++ r) = .error .panic := by
  induction ns with
  | nil => intro n i d bs r _ _ _ h; obtain ⟨x, h, _⟩ := h; cases h
  | cons x ns ih =>
    intro n i d bs r h hn hi hs
    obtain ⟨a, r1, e, ⟨l, p, e', n1, n2, n3, n4⟩, hr⟩ := h
    subst e
    rw [e', List.append_assoc]
    simp only [List.length_cons] at hn
    obtain ⟨m, rfl⟩ : ∃ m, n = m + 1 := ⟨n - 1, by omega⟩
    rcases readLoop_step (n := m) (i := i) (d := d) (r := r1 ++ r) n1 n2 n3 n4 with ⟨_, k⟩ | ⟨k, d', k1, k2, k3⟩
    · exact k
    · rw [k1]
      refine ih m (i + 1) d' r1 r hr (by omega) (by omega) ?_
      obtain ⟨y, hy, hy2⟩ := hs
      rcases List.mem_cons.mp hy with rfl | hy
      · omega
      · exact ⟨y, hy, by omega⟩

theorem readLoop_tri (n : Nat) : ∀ (i : Nat) (d : Table) (r : Bytes), i + n ≤ d.length →
    (∃ bs ns r', r = bs ++ r' ∧ NodesAs bs ns ∧ ns.length = n ∧ ∀ x ∈ ns, x.2 < d.length) ∨
    (∃ bs ns r', r = bs ++ r' ∧ NodesAs bs ns ∧ ns.length ≤ n ∧ ∃ x ∈ ns, d.length ≤ x.2) ∨ Errs (readLoop n i d r) := by
  induction n with
  | zero => intro i d r _; exact .inl ⟨[], [], r, rfl, rfl, rfl, by simp⟩
  | succ n ih =>
    intro i d r hi
    have hdef : readLoop (n + 1) i d r = (do
      let (v, r) ← readUvarint32 r
      let (name, r) ← readFull r v.toNat
      let (parent, r) ← readUvarint32 r
      let d := d.set i { d.getD i zero with name := name, parent := parent }
      match d[parent.toNat]? with
      | none => panic'
      | some pn =>
        readLoop n (i + 1)
          (d.set parent.toNat { pn with children := (name, UInt32.ofNat i) :: pn.children }) r) := rfl
    rcases readUvarint32_tame r with ⟨⟨v, r1⟩, h1⟩ | ⟨e, h1⟩
    · obtain ⟨l, rfl, k1⟩ := (readUvarint32_exact _ _ _).mp h1
      rcases readFull_tame r1 v.toNat with ⟨⟨name, r2⟩, h2⟩ | ⟨e, h2⟩
      · obtain ⟨rfl, k2⟩ := (readFull_exact _ _ _ _).mp h2
        rcases readUvarint32_tame r2 with ⟨⟨parent, r3⟩, h3⟩ | ⟨e, h3⟩
        · obtain ⟨p, rfl, k3⟩ := (readUvarint32_exact _ _ _).mp h3
          have hnode : NodeAs (l ++ name ++ p) name parent.toNat :=
            ⟨l, p, rfl, by rw [k2]; exact k1, k3, by rw [k2]; exact v.toNat_lt, parent.toNat_lt⟩
          obtain ⟨l', p', e', n1, n2, n3, n4⟩ := hnode
          have hr : l ++ (name ++ (p ++ r3)) = l ++ name ++ p ++ r3 := by simp
          rw [hr, e']
          rcases readLoop_step (n := n) (i := i) (d := d) (r := r3) n1 n2 n3 n4 with ⟨k, kp⟩ | ⟨k, d', k1', k2', k3'⟩
          · right; left
            refine ⟨l' ++ name ++ p', [(name, parent.toNat)], r3, rfl, ⟨l' ++ name ++ p', [], by simp, ⟨l', p', rfl, n1, n2, n3, n4⟩, rfl⟩, by simp, _, List.mem_singleton.mpr rfl, k⟩
          · rw [k1']
            have cons : ∀ bs ns, NodesAs bs ns → NodesAs (l' ++ name ++ p' ++ bs) ((name, parent.toNat) :: ns) :=
              fun bs ns h => ⟨l' ++ name ++ p', bs, rfl, ⟨l', p', rfl, n1, n2, n3, n4⟩, h⟩
            rcases ih (i + 1) d' r3 (by omega) with ⟨bs, ns, r', g1, g2, g3, g4⟩ | ⟨bs, ns, r', g1, g2, g3, x, g4, g5⟩ | g
            · left
              refine ⟨_, _, r', by rw [g1]; simp, cons bs ns g2, by simp [g3], ?_⟩
              intro x hx
              rcases List.mem_cons.mp hx with rfl | hx
              · exact k
              · rw [← k2']; exact g4 x hx
            · right; left
              exact ⟨_, _, r', by rw [g1]; simp, cons bs ns g2, by simp only [List.length_cons]; omega, x, by simp [g4], by omega⟩
            · exact .inr (.inr g)
        · right; right
          rw [hdef]
          simp only [bind, Except.bind, h1, h2, h3]
          exact ⟨_, rfl⟩
      · right; right
        rw [hdef]
        simp only [bind, Except.bind, h1, h2]
        exact ⟨_, rfl⟩
    · right; right
      rw [hdef]
      simp only [bind, Except.bind, h1]
      exact ⟨_, rfl⟩

/-- reading a table from any bytes -/
theorem read_of_table {f : Bytes} {ns : List (Bytes × Nat)} (h : TableFile f ns) : ∃ t, read f = .ok t ∧ t.map says = ns := by
  obtain ⟨l, bs, rest, e, h1, h2, h3, h4⟩ := h
  have e1 : (UInt32.ofNat ns.length).toNat = ns.length := by rw [UInt32.toNat_ofNat']; exact Nat.mod_eq_of_lt h2
  have g1 : readUvarint32 f = .ok (UInt32.ofNat ns.length, bs ++ rest) := (readUvarint32_exact _ _ _).mpr ⟨l, by rw [e]; simp, by rw [e1]; exact h1⟩
  obtain ⟨t, t1, t2, t3⟩ := readLoop_ok ns 0 (List.replicate ns.length zero) bs rest h3 (by simp) (by simpa using h4)
  refine ⟨t, ?_, by simpa using t3⟩
  unfold read
  simp only [bind, Except.bind, g1, e1, t1, pure, Except.pure]

theorem read_of_stray {f : Bytes} (h : StrayFile f) : read f = .error .panic := by
  obtain ⟨l, bs, rest, n, ns, e, h1, h2, h3, h4, h5⟩ := h
  have e1 : (UInt32.ofNat n).toNat = n := by rw [UInt32.toNat_ofNat']; exact Nat.mod_eq_of_lt h2
  have g1 : readUvarint32 f = .ok (UInt32.ofNat n, bs ++ rest) := (readUvarint32_exact _ _ _).mpr ⟨l, by rw [e]; simp, by rw [e1]; exact h1⟩
  have t1 := readLoop_stray ns n 0 (List.replicate n zero) bs rest h3 h4 (by simp) (by simpa using h5)
  unfold read
  simp only [bind, Except.bind, g1, e1, t1]

theorem read_tri (f : Bytes) : (∃ ns, TableFile f ns) ∨ StrayFile f ∨ Errs (read f) := by
  rcases readUvarint32_tame f with ⟨⟨v, r⟩, h⟩ | ⟨e, h⟩
  · obtain ⟨l, e, h1⟩ := (readUvarint32_exact _ _ _).mp h
    have hv := v.toNat_lt
    rcases readLoop_tri v.toNat 0 (List.replicate v.toNat zero) r (by simp) with ⟨bs, ns, r', g1, g2, g3, g4⟩ | ⟨bs, ns, r', g1, g2, g3, g4⟩ | ⟨e', g⟩
    · left
      rw [List.length_replicate, ← g3] at g4
      exact ⟨ns, l, bs, r', by rw [e, g1]; simp, by rw [g3]; exact h1, by omega, g2, g4⟩
    · right; left
      rw [List.length_replicate] at g4
      exact ⟨l, bs, r', v.toNat, ns, by rw [e, g1]; simp, h1, hv, g2, g3, g4⟩
    · right; right
      unfold read
      simp only [bind, Except.bind, h, g]
      exact ⟨_, rfl⟩
  · right; right
    unfold read
    simp only [bind, Except.bind, h]
    exact ⟨_, rfl⟩

/-- **Exactly.** -/
theorem read_exact (f : Bytes) : (∀ ns, (∃ t, read f = .ok t ∧ t.map says = ns) ↔ TableFile f ns) ∧ (read f = .error .panic ↔ StrayFile f) ∧ read f ≠ .error .diverge := by
  have h := read_tri f
  refine ⟨fun ns => ⟨?_, read_of_table⟩, ⟨?_, read_of_stray⟩, ?_⟩
  · rintro ⟨t, h1, h2⟩
    rcases h with ⟨ns', h⟩ | h | ⟨e, h⟩
    · obtain ⟨t', h3, h4⟩ := read_of_table h
      rw [h1] at h3; injection h3 with h3
      rw [← h2, h3, h4]; exact h
    · rw [read_of_stray h] at h1; cases h1
    · rw [h] at h1; cases h1
  · intro h1
    rcases h with ⟨ns', h⟩ | h | ⟨e, h⟩
    · obtain ⟨t', h3, h4⟩ := read_of_table h
      rw [h1] at h3; cases h3
    · exact h
    · rw [h] at h1; cases h1
  · intro h1
    rcases h with ⟨ns', h⟩ | h | ⟨e, h⟩
    · obtain ⟨t', h3, h4⟩ := read_of_table h
      rw [h1] at h3; cases h3
    · rw [read_of_stray h] at h1; cases h1
    · rw [h] at h1; cases h1

/-! ## Paths -/

theorem leads_comps {t : Table} {i : Nat} {cs : List Bytes} : Leads (t.map says) i cs ↔ Comps t i cs := by
  constructor
  · intro h
    induction h with
    | root => exact .root
    | @step i name p cs h0 h1 _ ih =>
      rw [List.getElem?_map] at h1
      cases hn : t[i]? with
      | none => rw [hn] at h1; cases h1
      | some n =>
        rw [hn] at h1
        simp only [Option.map_some, Option.some.injEq, says, Prod.mk.injEq] at h1
        obtain ⟨rfl, rfl⟩ := h1
        exact .step h0 hn ih
  · intro h
    induction h with
    | root => exact .root
    | step h0 h1 _ ih =>
      refine .step h0 ?_ ih
      rw [List.getElem?_map, h1]; rfl

/-- the way to the root is no longer than there are nodes -/
theorem Comps.short {t : Table} {i : Nat} {cs : List Bytes} (h : Comps t i cs) (h0 : t ≠ []) : cs.length < t.length := by
  have key : ∀ m, m < cs.length + 1 → ∃ w, w < t.length ∧ ∃ cs', Comps t w cs' ∧ cs'.length = m := by
    induction h with
    | root =>
      intro m hm
      have := List.length_pos_iff.mpr h0
      exact ⟨0, this, [], .root, by simp at hm; simp [hm]⟩
    | @step i n cs hi hn hc ih =>
      intro m hm
      simp only [List.length_append, List.length_singleton] at hm
      by_cases e : m = cs.length + 1
      · exact ⟨i, (List.getElem?_eq_some_iff.mp hn).1, _, .step hi hn hc, by simp [e]⟩
      · exact ih m (by omega)
  have := Reuse.pigeonhole_rel (n := t.length) (m := cs.length + 1) (R := fun m w => ∃ cs', Comps t w cs' ∧ cs'.length = m) key (by
    rintro a b w ⟨c1, h1, rfl⟩ ⟨c2, h2, rfl⟩
    rw [h1.det h2])
  omega

/-- if the parents do not lead to the root the walk has no end -/
theorem absLoop_lost {t : Table} (hp : ∀ x ∈ t, x.parent.toNat < t.length) (fuel : Nat) : ∀ (i : Nat) (acc : List Bytes), i < t.length → (¬ ∃ cs, Comps t i cs) →
    absLoop t fuel i acc = .error .diverge := by
  induction fuel with
  | zero => intro i acc _ _; rfl
  | succ fuel ih =>
    intro i acc hi hn
    have hget := List.getElem?_eq_getElem hi
    have h0 : i ≠ 0 := by rintro rfl; exact hn ⟨[], .root⟩
    rw [absLoop, hget]
    simp only []
    rw [if_neg h0]
    refine ih _ _ (hp _ (List.getElem_mem hi)) ?_
    rintro ⟨cs, hc⟩
    exact hn ⟨_, .step h0 hget hc⟩

end Dupi.Fnames
