import Verif.Proof.Fnames
import Verif.Proof.PathSpec
/-! Writing and reading back the path table; observational equality of tables. -/

namespace Dupi.Fnames

/-- Two tables no caller can tell apart: same nodes, maps equal as maps. -/
structure Sim (d e : Table) : Prop where
  len : e.length = d.length
  node : ∀ (i : Nat) n m, d[i]? = some n → e[i]? = some m →
    m.parent = n.parent ∧ m.name = n.name ∧ ∀ x, get m.children x = get n.children x

theorem Sim.refl (d : Table) : Sim d d :=
  ⟨rfl, fun i n m h h' => by rw [h] at h'; cases h'; exact ⟨rfl, rfl, fun _ => rfl⟩⟩

theorem Sim.get? {d e} (h : Sim d e) {i : Nat} {n} (hn : d[i]? = some n) :
    ∃ m, e[i]? = some m ∧ m.parent = n.parent ∧ m.name = n.name ∧
      ∀ x, get m.children x = get n.children x := by
  have hlt : i < d.length := (List.getElem?_eq_some_iff.mp hn).1
  have : e[i]? = some (e[i]'(by rw [h.len]; exact hlt)) := List.getElem?_eq_getElem _
  exact ⟨_, this, h.node i n _ hn this⟩

theorem Sim.none {d e} (h : Sim d e) {i : Nat} (hn : d[i]? = none) : e[i]? = none := by
  rw [List.getElem?_eq_none_iff] at hn ⊢; rw [h.len]; exact hn

theorem Sim.symm {d e} (h : Sim d e) : Sim e d :=
  ⟨h.len.symm, fun i n m hn hm => by
    obtain ⟨h1, h2, h3⟩ := h.node i m n hm hn
    exact ⟨h1.symm, h2.symm, fun x => (h3 x).symm⟩⟩

theorem Sim.trans {d e f} (h : Sim d e) (h' : Sim e f) : Sim d f :=
  ⟨by rw [h'.len, h.len], fun i n m hn hm => by
    obtain ⟨k, hk, h1, h2, h3⟩ := h.get? hn
    obtain ⟨h4, h5, h6⟩ := h'.node i k m hk hm
    exact ⟨h4.trans h1, h5.trans h2, fun x => (h6 x).trans (h3 x)⟩⟩

theorem Sim.wf {d e} (h : Sim d e) (w : WF d) : WF e := by
  refine ⟨by rw [h.len]; exact w.small, ?_, ?_, ?_, ?_⟩
  · obtain ⟨r, hr, h1, h2⟩ := w.root
    obtain ⟨m, hm, e1, e2, _⟩ := h.get? hr
    exact ⟨m, hm, e1.trans h1, e2.trans h2⟩
  · intro i m hm hi
    obtain ⟨n, hn, e1, _, _⟩ := h.symm.get? hm
    rw [← e1]; exact w.parentLt i n hn hi
  · intro i m x hm hx
    obtain ⟨n, hn, _, _, e3⟩ := h.symm.get? hm
    rw [← e3] at hx ⊢
    obtain ⟨c, hc, h1, h2⟩ := w.child i n x hn hx
    obtain ⟨c', hc', f1, f2, _⟩ := h.get? hc
    exact ⟨c', hc', by rw [f1, h1], by rw [f2, h2]⟩
  · intro i m hm hi
    obtain ⟨n, hn, e1, e2, _⟩ := h.symm.get? hm
    obtain ⟨q, hq, h1⟩ := w.linked i n hn hi
    obtain ⟨q', hq', _, _, f3⟩ := h.get? hq
    exact ⟨q', by rw [← e1]; exact hq', by rw [f3, ← e2]; exact h1⟩

theorem Sim.absLoop {d e} (h : Sim d e) : ∀ fuel i acc, absLoop e fuel i acc = absLoop d fuel i acc := by
  intro fuel
  induction fuel with
  | zero => intros; rfl
  | succ f ih =>
    intro i acc
    rw [Fnames.absLoop, Fnames.absLoop]
    cases hd : d[i]? with
    | none => rw [h.none hd]
    | some n =>
      obtain ⟨m, hm, e1, e2, _⟩ := h.get? hd
      rw [hm]
      simp only [e1, e2, ih]

theorem Sim.abs {d e} (h : Sim d e) (v : UInt32) : abs e v = abs d v := by
  rw [Fnames.abs, Fnames.abs, h.len, h.absLoop]

theorem Sim.comps {d e i cs} (h : Sim d e) (hc : Comps d i cs) : Comps e i cs := by
  induction hc with
  | root => exact .root
  | step hi hn _ ih =>
    obtain ⟨m, hm, e1, e2, _⟩ := h.get? hn
    rw [← e2]; exact .step hi hm (by rw [e1]; exact ih)

theorem Sim.write {d e} (h : Sim d e) : write e = write d := by
  have hl := h.len
  have hnode := h.node
  have key : ∀ (d e : Table), e.length = d.length →
      (∀ (i : Nat) n m, d[i]? = some n → e[i]? = some m → m.parent = n.parent ∧ m.name = n.name) →
      e.flatMap writeNode = d.flatMap writeNode := by
    intro d
    induction d with
    | nil => intro e he _; rw [List.length_eq_zero_iff.mp he]
    | cons x xs ih =>
      intro e he hn
      cases e with
      | nil => simp at he
      | cons y ys =>
        have h0 := hn 0 x y rfl rfl
        rw [List.flatMap_cons, List.flatMap_cons, ih ys (by simpa using he)
          (fun i n m h1 h2 => hn (i + 1) n m h1 h2), writeNode, writeNode, h0.1, h0.2]
  rw [Fnames.write, Fnames.write, h.len,
    key d e hl (fun i n m h1 h2 => ⟨(hnode i n m h1 h2).1, (hnode i n m h1 h2).2.1⟩)]

theorem Sim.grow {d e p n m nm} (h : Sim d e) (hn : d[p.toNat]? = some n)
    (hm : e[p.toNat]? = some m) : Sim (grow d p n nm) (grow e p m nm) := by
  refine ⟨by simp [Fnames.grow, h.len], ?_⟩
  intro i a b ha hb
  rw [grow_get hn] at ha
  rw [grow_get hm, h.len] at hb
  obtain ⟨h1, h2, h3⟩ := h.node _ _ _ hn hm
  split at ha
  · rename_i hi
    rw [if_pos hi] at hb
    cases ha; cases hb
    exact ⟨h1, h2, fun x => by simp only [get_cons, h3]⟩
  · rename_i hi
    rw [if_neg hi] at hb
    split at ha
    · rename_i hi2; rw [if_pos hi2] at hb; cases ha; cases hb; exact ⟨rfl, rfl, fun _ => rfl⟩
    · rename_i hi2; rw [if_neg hi2] at hb; exact h.node i a b ha hb

/-- outcomes of adding to similar tables -/
def SimRes (r s : M (UInt32 × Table)) : Prop :=
  match r, s with
  | .ok (v, d), .ok (w, e) => v = w ∧ Sim d e
  | .error a, .error b => a = b
  | _, _ => False

theorem Sim.addParts {d e} (h : Sim d e) (p : UInt32) (ps : List Bytes) :
    SimRes (addParts d p ps) (addParts e p ps) := by
  induction ps generalizing d e p with
  | nil => exact ⟨rfl, h⟩
  | cons x xs ih =>
    rw [Fnames.addParts, Fnames.addParts]
    cases hd : d[p.toNat]? with
    | none => rw [h.none hd]; exact rfl
    | some n =>
      obtain ⟨m, hm, e1, e2, e3⟩ := h.get? hd
      rw [hm]
      simp only [e3]
      split
      · rw [h.len]
        have hg := h.grow (nm := x) hd hm
        simp only [Fnames.grow, h.len] at hg
        exact ih hg _
      · exact ih h _

theorem Sim.addAll {d e} (h : Sim d e) (cwd : Bytes) (ps : List Bytes) {ids d'}
    (hr : addAll cwd d ps = .ok (ids, d')) : ∃ e', addAll cwd e ps = .ok (ids, e') ∧ Sim d' e' := by
  induction ps generalizing d e ids d' with
  | nil => simp only [Fnames.addAll, Except.ok.injEq, Prod.mk.injEq] at hr; obtain ⟨rfl, rfl⟩ := hr; exact ⟨e, rfl, h⟩
  | cons p ps ih =>
    have hs := h.addParts 0 (pathParts (absPath cwd p))
    simp only [Fnames.addAll, addPath, bind, Except.bind] at hr ⊢
    cases h1 : Fnames.addParts d 0 (pathParts (absPath cwd p)) with
    | error f => rw [h1] at hr; simp at hr
    | ok r =>
      cases h2 : Fnames.addParts e 0 (pathParts (absPath cwd p)) with
      | error f => rw [h1, h2] at hs; exact hs.elim
      | ok s =>
        rw [h1, h2] at hs
        obtain ⟨v, d1⟩ := r
        obtain ⟨w, e1⟩ := s
        obtain ⟨rfl, hs⟩ := hs
        rw [h1] at hr
        simp only at hr ⊢
        cases h3 : Fnames.addAll cwd d1 ps with
        | error f => rw [h3] at hr; simp at hr
        | ok t =>
          obtain ⟨ids', d2⟩ := t
          rw [h3] at hr
          simp only [pure, Except.pure, Except.ok.injEq, Prod.mk.injEq] at hr
          obtain ⟨rfl, rfl⟩ := hr
          obtain ⟨e', he', hs'⟩ := ih hs h3
          exact ⟨e', by rw [he']; rfl, hs'⟩

/-! ### reading back -/

theorem readUvarint32_put (v : UInt32) (rest : Bytes) :
    readUvarint32 (writeUvarint32 v ++ rest) = .ok (v, rest) := by
  have hv := v.toNat_lt
  simp only [readUvarint32, writeUvarint32, readUvarint_put v.toNat rest (by omega),
    bind, Except.bind, Nat.mod_eq_of_lt hv, ne_eq, not_true_eq_false, if_false, pure, Except.pure,
    UInt32.ofNat_toNat]

theorem readFull_append (a b : Bytes) : readFull (a ++ b) a.length = .ok (a, b) := by
  simp [readFull]

/-- the table while reading back `d`, after `i` nodes -/
structure RInv (d : Table) (i : Nat) (t : Table) : Prop where
  len : t.length = d.length
  done : ∀ (j : Nat) n m, j < i → d[j]? = some n → t[j]? = some m → m.parent = n.parent ∧ m.name = n.name
  kids : ∀ (j : Nat) n m, d[j]? = some n → t[j]? = some m →
    ∀ x, get m.children x = if (get n.children x).toNat < i then get n.children x else 0

theorem readLoop_spec (d : Table) (hwf : WF d) (hname : ∀ n ∈ d, n.name.length < 2 ^ 32) (rest : Bytes) :
    ∀ k i t, i + k = d.length → RInv d i t →
      ∃ t', readLoop k i t ((d.drop i).flatMap writeNode ++ rest) = .ok (t', rest) ∧ RInv d d.length t' := by
  intro k
  induction k with
  | zero =>
    intro i t hi h
    have : i = d.length := by omega
    subst this
    exact ⟨t, by simp [readLoop], h⟩
  | succ k ih =>
    intro i t hi h
    have hilt : i < d.length := by omega
    have hdn : d[i]? = some d[i] := List.getElem?_eq_getElem hilt
    have hnl := hname d[i] (List.getElem_mem hilt)
    rw [List.drop_eq_getElem_cons hilt]
    generalize d[i] = n at hdn hnl
    have hnl' : (UInt32.ofNat n.name.length).toNat = n.name.length := by
      simp only [UInt32.toNat_ofNat']; omega
    have hpl : n.parent.toNat < d.length := by
      by_cases h0 : i = 0
      · subst h0
        obtain ⟨r, hr, h1, _⟩ := hwf.root
        rw [hdn] at hr; cases hr
        rw [h1]; simpa using hilt
      · have := hwf.parentLt i n hdn h0; omega
    have htl : i < t.length := by rw [h.len]; exact hilt
    have hti : t[i]? = some t[i] := List.getElem?_eq_getElem htl
    -- the node the loop stores
    generalize hm : t[i] = m at hti
    have hgetD : t.getD i zero = m := by rw [List.getD_eq_getElem?_getD, hti]; rfl
    generalize ht1 : t.set i { m with name := n.name, parent := n.parent } = t1
    have ht1l : t1.length = d.length := by rw [← ht1]; simp [h.len]
    have ht1g : ∀ j, t1[j]? = if i = j then some { m with name := n.name, parent := n.parent } else t[j]? := by
      intro j; rw [← ht1, List.getElem?_set]; simp only [htl, if_true]
    have hpn : t1[n.parent.toNat]? = some (t1[n.parent.toNat]'(by omega)) := List.getElem?_eq_getElem _
    generalize t1[n.parent.toNat]'(by omega) = pn at hpn
    have hstep : RInv d (i + 1)
        (t1.set n.parent.toNat { pn with children := (n.name, UInt32.ofNat i) :: pn.children }) := by
      have hg : ∀ j, (t1.set n.parent.toNat
            { pn with children := (n.name, UInt32.ofNat i) :: pn.children })[j]? =
          if n.parent.toNat = j then
            some { pn with children := (n.name, UInt32.ofNat i) :: pn.children } else t1[j]? := by
        intro j; rw [List.getElem?_set]; simp only [show n.parent.toNat < t1.length by omega, if_true]
      have hnp : ∀ (j : Nat) q b, j < i + 1 → d[j]? = some q → t1[j]? = some b →
          b.parent = q.parent ∧ b.name = q.name := by
        intro j q b hj hq hb
        rw [ht1g] at hb
        split at hb
        · rename_i hij; subst hij; rw [hdn] at hq; cases hq; cases hb; exact ⟨rfl, rfl⟩
        · exact h.done j q b (by omega) hq hb
      have hk1 : ∀ (j : Nat) q b, d[j]? = some q → t1[j]? = some b →
          ∀ x, get b.children x = if (get q.children x).toNat < i then get q.children x else 0 := by
        intro j q b hq hb x
        rw [ht1g] at hb
        split at hb
        · rename_i hij; subst hij; cases hb
          exact h.kids i q m hq hti x
        · exact h.kids j q b hq hb x
      have hiU : (UInt32.ofNat i).toNat = i := by
        simp only [UInt32.toNat_ofNat']; have := hwf.small; omega
      -- the map entry of node i in the original table
      have huniq : ∀ (j : Nat) q x, d[j]? = some q → (get q.children x).toNat = i → i ≠ 0 →
          j = n.parent.toNat ∧ x = n.name := by
        intro j q x hq hx h0
        have hne : get q.children x ≠ 0 := by
          intro h; rw [h] at hx; exact h0 (by simpa using hx.symm)
        obtain ⟨c, hc, h1, h2⟩ := hwf.child j q x hq hne
        rw [hx, hdn] at hc; cases hc
        exact ⟨h1.symm, h2.symm⟩
      refine ⟨by simp [ht1l], ?_, ?_⟩
      · intro j q b hj hq hb
        rw [hg] at hb
        split at hb
        · rename_i hpj; subst hpj; cases hb
          exact hnp _ q pn hj hq hpn
        · exact hnp j q b hj hq hb
      · intro j q b hq hb x
        rw [hg] at hb
        by_cases hcase : n.parent.toNat = j ∧ x = n.name
        · obtain ⟨rfl, rfl⟩ := hcase
          rw [if_pos rfl] at hb; cases hb
          rw [get_cons, if_pos rfl]
          by_cases h0 : i = 0
          · subst h0
            split
            · rename_i h1
              apply UInt32.toNat_inj.mp; rw [hiU]; omega
            · rfl
          · obtain ⟨q', hq', hqi⟩ := hwf.linked i n hdn h0
            rw [hq] at hq'; cases hq'
            rw [hqi, if_pos (by omega)]
            apply UInt32.toNat_inj.mp; rw [hiU, hqi]
        · have hval : get b.children x = if (get q.children x).toNat < i then get q.children x else 0 := by
            split at hb
            · rename_i hpj; subst hpj; cases hb
              rw [get_cons, if_neg (by intro hx; exact hcase ⟨rfl, hx⟩)]
              exact hk1 _ q pn hq hpn x
            · exact hk1 j q b hq hb x
          rw [hval]
          by_cases hx : (get q.children x).toNat = i
          · by_cases h0 : i = 0
            · rw [if_neg (by omega), if_pos (by omega)]
              apply UInt32.toNat_inj.mp; rw [hx, h0]; rfl
            · obtain ⟨e1, e2⟩ := huniq j q x hq hx h0
              exact absurd ⟨e1.symm, e2⟩ hcase
          · by_cases hlt : (get q.children x).toNat < i
            · rw [if_pos hlt, if_pos (by omega)]
            · rw [if_neg hlt, if_neg (by omega)]
    obtain ⟨t', ht', hr'⟩ := ih (i + 1) _ (by omega) hstep
    refine ⟨t', ?_, hr'⟩
    rw [readLoop]
    simp only [List.flatMap_cons, writeNode, List.append_assoc, readUvarint32_put, bind, Except.bind,
      hnl', readFull_append, hgetD, ht1, hpn]
    exact ht'

theorem read_write (d : Table) (hwf : WF d) (hlen : d.length < 2 ^ 32)
    (hname : ∀ n ∈ d, n.name.length < 2 ^ 32) : ∃ e, read (write d) = .ok e ∧ Sim d e := by
  have hl : (UInt32.ofNat d.length).toNat = d.length := by simp only [UInt32.toNat_ofNat']; omega
  have h0 : RInv d 0 (List.replicate d.length zero) := by
    refine ⟨by simp, fun j n m h => by omega, ?_⟩
    intro j n m hn hm x
    rw [List.getElem?_replicate] at hm
    split at hm
    · cases hm; simp [zero, get]
    · simp at hm
  obtain ⟨t, ht, hr⟩ := readLoop_spec d hwf hname [] d.length 0 _ (by omega) h0
  refine ⟨t, ?_, ⟨hr.len, ?_⟩⟩
  · rw [List.drop_zero, List.append_nil] at ht
    simp only [read, write, readUvarint32_put, bind, Except.bind, hl, ht, pure, Except.pure]
  · intro i n m hn hm
    have hi : i < d.length := (List.getElem?_eq_some_iff.mp hn).1
    obtain ⟨h1, h2⟩ := hr.done i n m hi hn hm
    refine ⟨h1, h2, fun x => ?_⟩
    rw [hr.kids i n m hn hm x]
    split
    · rfl
    · rename_i hge
      apply Eq.symm
      apply Classical.byContradiction
      intro hne
      obtain ⟨c, hc, _⟩ := hwf.child i n x hn hne
      exact hge ((List.getElem?_eq_some_iff.mp hc).1)

/-! ### names stay short -/

theorem addParts_names (ps : List Bytes) (B : Nat) : ∀ {d p v d'}, addParts d p ps = .ok (v, d') →
    (∀ n ∈ d, n.name.length < B) → (∀ x ∈ ps, x.length < B) → ∀ n ∈ d', n.name.length < B := by
  induction ps with
  | nil => intro d p v d' h hd _; cases h; exact hd
  | cons x xs ih =>
    intro d p v d' h hd hx
    rw [addParts] at h
    cases hn : d[p.toNat]? with
    | none => rw [hn] at h; cases h
    | some n =>
      rw [hn] at h
      simp only at h
      have hxs : ∀ y ∈ xs, y.length < B := fun y hy => hx y (List.mem_cons_of_mem _ hy)
      split at h
      · refine ih h ?_ hxs
        intro m hm
        rw [List.mem_append, List.mem_singleton] at hm
        rcases hm with hm | rfl
        · rcases List.mem_or_eq_of_mem_set hm with hm | rfl
          · exact hd m hm
          · exact hd n (List.mem_of_getElem? hn)
        · exact hx x (by simp)
      · exact ih h hd hxs

theorem splitSlash_mem_length (p : Bytes) : ∀ x ∈ splitSlash p, x.length ≤ p.length := by
  induction p with
  | nil => simp [splitSlash]
  | cons b bs ih =>
    rw [splitSlash]
    split
    · intro x hx
      rcases List.mem_cons.mp hx with rfl | hx
      · simp
      · have := ih x hx; simp; omega
    · split
      · intro x hx; simp at hx; subst hx; simp
      · rename_i q qs heq
        intro x hx
        rcases List.mem_cons.mp hx with rfl | hx
        · have := ih q (by rw [heq]; simp); simp; omega
        · have := ih x (by rw [heq]; exact List.mem_cons_of_mem _ hx); simp; omega

theorem pathParts_abs (cwd p : Bytes) :
    ∃ r, absPath cwd p = sep :: r ∧ pathParts (absPath cwd p) = splitSlash r := by
  obtain ⟨r, hr⟩ := absPath_cons cwd p
  exact ⟨r, hr, by rw [hr]; simp [pathParts, splitSlash]⟩

end Dupi.Fnames

namespace Dupi.Fnames

/-- the root, or on the way to one of the paths -/
def OnPaths (ps : List Bytes) (cs : List Bytes) : Prop := cs = [] ∨ ∃ p ∈ ps, cs <+: pathParts p

theorem OnPaths.mono {ps qs : List Bytes} (h : ∀ p ∈ ps, p ∈ qs) {cs : List Bytes} (hc : OnPaths ps cs) : OnPaths qs cs := by
  rcases hc with h0 | ⟨p, hp, h1⟩
  · exact .inl h0
  · exact .inr ⟨p, h p hp, h1⟩

theorem splitSlash_plain (p : Bytes) : ∀ e ∈ splitSlash p, (47 : UInt8) ∉ e := by
  induction p with
  | nil => simp [splitSlash]
  | cons b bs ih =>
    intro e he
    simp only [splitSlash] at he
    split at he
    · rcases List.mem_cons.mp he with rfl | he
      · simp
      · exact ih e he
    · rename_i hb
      split at he
      · simp at he; subst he; simpa using fun h => hb (by rw [sep, ← h])
      · rename_i p ps hp
        rcases List.mem_cons.mp he with rfl | he
        · have := ih p (by rw [hp]; simp)
          simp only [List.mem_cons, not_or]
          exact ⟨fun h => hb (by rw [sep, ← h]), this⟩
        · exact ih e (by rw [hp]; simp [he])

theorem joinSlash_append (a b : List Bytes) (ha : a ≠ []) (hb : b ≠ []) : joinSlash (a ++ b) = joinSlash a ++ sep :: joinSlash b := by
  induction a with
  | nil => exact absurd rfl ha
  | cons x a ih =>
    cases a with
    | nil =>
      cases b with
      | nil => exact absurd rfl hb
      | cons y b => simp [joinSlash]
    | cons y a =>
      have := ih (by simp)
      simp only [List.cons_append, joinSlash] at this ⊢
      rw [this]; simp

/-- what `ways` has -/
theorem mem_ways {p q : Bytes} : q ∈ Spec.ways p ↔ q ≠ [] ∧ (q = p ∨ ∃ r, p = q ++ 47 :: r) := by
  simp only [Spec.ways, List.mem_map, List.mem_filter, List.mem_range, Bool.or_eq_true, beq_iff_eq]
  constructor
  · rintro ⟨i, ⟨hi, h⟩, rfl⟩
    have hl : (p.take (i + 1)).length = i + 1 := by rw [List.length_take]; omega
    refine ⟨fun e => by rw [e] at hl; simp at hl, ?_⟩
    rcases h with h | h
    · exact .inl (List.take_of_length_le (List.getElem?_eq_none_iff.mp h))
    · right
      obtain ⟨h1, h2⟩ := List.getElem?_eq_some_iff.mp h
      refine ⟨p.drop (i + 2), ?_⟩
      conv => lhs; rw [← List.take_append_drop (i + 1) p, List.drop_eq_getElem_cons h1, h2]
  · rintro ⟨h0, h⟩
    have hl : 0 < q.length := List.length_pos_iff.mpr h0
    refine ⟨q.length - 1, ?_, ?_⟩
    · rw [Nat.sub_add_cancel hl]
      rcases h with h | ⟨r, h⟩
      · subst h; exact ⟨by omega, .inl (List.getElem?_eq_none (Nat.le_refl _))⟩
      · subst h; exact ⟨by simp; omega, .inr (by simp)⟩
    · rw [Nat.sub_add_cancel hl]
      rcases h with h | ⟨r, h⟩
      · subst h; exact List.take_length
      · subst h; simp

/-- what is on the way to a path has a text -/
theorem way_text {p : Bytes} {cs : List Bytes} (h0 : cs ≠ []) (h : cs <+: pathParts p) : ∃ q ∈ Spec.ways p, pathParts q = cs := by
  have key : ∀ l : List Bytes, l <+: splitSlash p → l ≠ [] → joinSlash l ≠ [] → joinSlash l ∈ Spec.ways p ∧ splitSlash (joinSlash l) = l := by
    intro l ⟨t, ht⟩ hl hj
    have hs : splitSlash (joinSlash l) = l := splitSlash_join l hl fun e he => splitSlash_plain p e (by rw [← ht]; simp [he])
    refine ⟨mem_ways.mpr ⟨hj, ?_⟩, hs⟩
    cases t with
    | nil => left; rw [List.append_nil] at ht; rw [ht, join_split]
    | cons a t =>
      right
      refine ⟨joinSlash (a :: t), ?_⟩
      rw [← join_split p, ← ht, joinSlash_append l _ hl (by simp), sep]
  unfold pathParts at h
  cases hs : splitSlash p with
  | nil => rw [hs] at h; exact absurd (List.prefix_nil.mp h) h0
  | cons a ps =>
    rw [hs] at h
    simp only at h
    by_cases ha : a = []
    · rw [if_pos ha] at h
      subst ha
      have hj : joinSlash ([] :: cs) ≠ [] := by
        cases cs with
        | nil => exact absurd rfl h0
        | cons c cs => simp [joinSlash]
      obtain ⟨k1, k2⟩ := key ([] :: cs) (by rw [hs]; obtain ⟨t, ht⟩ := h; exact ⟨t, by rw [← ht]; rfl⟩) (by simp) hj
      exact ⟨_, k1, by simp [pathParts, k2]⟩
    · rw [if_neg ha] at h
      have hc : ∃ cs', cs = a :: cs' := by
        obtain ⟨t, ht⟩ := h
        cases cs with
        | nil => exact absurd rfl h0
        | cons c cs => injection ht with h1 _; exact ⟨cs, by rw [h1]⟩
      obtain ⟨cs', rfl⟩ := hc
      have hj : joinSlash (a :: cs') ≠ [] := by
        cases cs' with
        | nil => simpa [joinSlash] using ha
        | cons c cs => simp [joinSlash, ha]
      obtain ⟨k1, k2⟩ := key (a :: cs') (by rw [hs]; exact h) (by simp) hj
      exact ⟨_, k1, by simp [pathParts, k2, ha]⟩

/-- a table with few paths is small -/
theorem FewPaths.small {ps : List Bytes} (hf : Spec.FewPaths ps) (d : Table) (h : WF d) (hc : ∀ i cs, Comps d i cs → OnPaths ps cs) : d.length < 2 ^ 32 := by
  have hex : ∀ i, ∃ cs, i < d.length → Comps d i cs := by
    intro i
    by_cases hi : i < d.length
    · obtain ⟨cs, h, _⟩ := h.comps i hi; exact ⟨cs, fun _ => h⟩
    · exact ⟨[], fun h => absurd h hi⟩
  let nm : Nat → List Bytes := fun i => (hex i).choose
  have hnm : ∀ i, i < d.length → Comps d i (nm i) := fun i => (hex i).choose_spec
  have hl : ((List.range d.length).map nm).length ≤ ([] :: (ps.flatMap Spec.ways).eraseDups.map pathParts).length := by
    refine List.Nodup.length_le_of_subset ?_ ?_
    · rw [List.Nodup, List.pairwise_map]
      refine List.Pairwise.imp_of_mem ?_ List.nodup_range
      intro i j hi hj hne e
      exact hne (h.comps_inj (hnm i (List.mem_range.mp hi)) (e ▸ hnm j (List.mem_range.mp hj)))
    · intro cs hcs
      obtain ⟨i, hi, rfl⟩ := List.mem_map.mp hcs
      rcases hc i _ (hnm i (List.mem_range.mp hi)) with h0 | ⟨p, hp, h1⟩
      · rw [h0]; exact List.mem_cons_self
      · by_cases h0 : nm i = []
        · rw [h0]; exact List.mem_cons_self
        obtain ⟨q, hq, e⟩ := way_text h0 h1
        exact List.mem_cons_of_mem _ (List.mem_map.mpr ⟨q, List.mem_eraseDups.mpr (List.mem_flatMap.mpr ⟨p, hp, hq⟩), e⟩)
  simp only [List.length_map, List.length_range, List.length_cons] at hl
  have := hf.1
  omega

theorem nodup_eraseDups' {α : Type} [BEq α] [LawfulBEq α] : ∀ (n : Nat) (l : List α), l.length ≤ n → l.eraseDups.Nodup
  | _, [], _ => by simp
  | n + 1, a :: l, h => by
    rw [List.eraseDups_cons, List.nodup_cons]
    have hlen := List.length_filter_le (fun b => !b == a) l
    refine ⟨fun hm => ?_, nodup_eraseDups' n _ (by simp only [List.length_cons] at h; omega)⟩
    have := List.mem_eraseDups.mp hm
    simp at this

theorem FewPaths.mono {ps qs : List Bytes} (h : ∀ p ∈ ps, p ∈ qs) (hf : Spec.FewPaths qs) : Spec.FewPaths ps := by
  refine ⟨?_, fun p hp => hf.2 p (h p hp)⟩
  have : (ps.flatMap Spec.ways).eraseDups.length ≤ (qs.flatMap Spec.ways).eraseDups.length := by
    refine List.Nodup.length_le_of_subset (nodup_eraseDups' _ _ (Nat.le_refl _)) fun q hq => ?_
    obtain ⟨p, hp, h1⟩ := List.mem_flatMap.mp (List.mem_eraseDups.mp hq)
    exact List.mem_eraseDups.mpr (List.mem_flatMap.mpr ⟨p, h p hp, h1⟩)
  have := hf.1
  omega

/-- it is enough that the lengths together are small -/
theorem FewPaths.of_sum {ps : List Bytes} (h : 1 + (ps.map List.length).sum < 2 ^ 32) : Spec.FewPaths ps := by
  constructor
  · have h1 : (ps.flatMap Spec.ways).eraseDups.length ≤ (ps.flatMap Spec.ways).length :=
      List.Nodup.length_le_of_subset (nodup_eraseDups' _ _ (Nat.le_refl _)) fun q hq => List.mem_eraseDups.mp hq
    have h2 : (ps.flatMap Spec.ways).length ≤ (ps.map List.length).sum := by
      clear h h1
      induction ps with
      | nil => simp
      | cons p ps ih =>
        simp only [List.flatMap_cons, List.length_append, List.map_cons, List.sum_cons]
        have : (Spec.ways p).length ≤ p.length := by
          rw [Spec.ways, List.length_map]
          have := List.length_filter_le (fun i => p[i + 1]? == none || p[i + 1]? == some 47) (List.range p.length)
          rwa [List.length_range] at this
        omega
    omega
  · intro p hp
    have : p.length ≤ (ps.map List.length).sum := by
      clear h
      induction ps with
      | nil => cases hp
      | cons q ps ih =>
        simp only [List.map_cons, List.sum_cons]
        rcases List.mem_cons.mp hp with rfl | hp
        · omega
        · have := ih hp; omega
    omega

/-- the paths in absolute form -/
def absPaths (cwd : Bytes) (ps : List Bytes) : List Bytes := ps.map (absPath cwd)

/-- total length of the absolute forms of some paths -/
def pathBytes (cwd : Bytes) (ps : List Bytes) : Nat := (ps.map fun p => (absPath cwd p).length).sum

theorem addAll_spec (cwd : Bytes) (ps : List Bytes) : ∀ {d : Table} {done : List Bytes}, WF d →
    (∀ n ∈ d, n.name.length < 2 ^ 32) → (∀ i cs, Comps d i cs → OnPaths done cs) → Spec.FewPaths (done ++ absPaths cwd ps) →
    ∃ ids d', addAll cwd d ps = .ok (ids, d') ∧ WF d' ∧ (∀ n ∈ d', n.name.length < 2 ^ 32) ∧
      ids.length = ps.length ∧ d.length ≤ d'.length ∧ d'.length ≤ d.length + pathBytes cwd ps ∧ d'.length < 2 ^ 32 ∧
      (∀ i cs, Comps d i cs → Comps d' i cs) ∧ (∀ i cs, Comps d' i cs → Comps d i cs ∨ ∃ p ∈ absPaths cwd ps, cs <+: pathParts p) ∧
      ∀ (k : Nat) (p : Bytes), ps[k]? = some p → ∃ id : UInt32, ids[k]? = some id ∧ id.toNat < d'.length ∧
        Comps d' id.toNat (pathParts (absPath cwd p)) := by
  induction ps with
  | nil =>
    intro d done h hn hc hf
    exact ⟨[], d, rfl, h, hn, rfl, Nat.le_refl _, by simp [pathBytes], FewPaths.small hf d h fun i cs hi => (hc i cs hi).mono (fun q hq => List.mem_append_left _ hq), fun _ _ h => h, fun _ _ h => .inl h, by simp⟩
  | cons p ps ih =>
    intro d done h hn hc hf
    simp only [pathBytes, List.map_cons, List.sum_cons]
    have e : done ++ absPaths cwd (p :: ps) = (done ++ [absPath cwd p]) ++ absPaths cwd ps := by simp [absPaths]
    rw [e] at hf
    have hf1 : Spec.FewPaths (done ++ [absPath cwd p]) := FewPaths.mono (fun q hq => List.mem_append_left _ hq) hf
    obtain ⟨r, hr, hpp⟩ := pathParts_abs cwd p
    have hpl : (pathParts (absPath cwd p)).length ≤ (absPath cwd p).length := by
      rw [hpp, hr]; have := splitSlash_length_le r; simpa using this
    have h0 : 0 < d.length := by
      obtain ⟨x, hx, _⟩ := h.root
      exact (List.getElem?_eq_some_iff.mp hx).1
    obtain ⟨v, d1, h1, h2, h3, h4, h5, h6, h7, h8, h9⟩ := addParts_room (FewPaths.small hf1) (pathParts (absPath cwd p))
      (p := 0) (cs := []) h (by simpa using h0) (by simpa using Comps.root) (fun i cs hi => (hc i cs hi).mono (by intro q hq; simp [hq]))
      (fun cs' hcs => .inr ⟨absPath cwd p, by simp, by simpa using hcs⟩)
    have hc1 : ∀ i cs, Comps d1 i cs → OnPaths (done ++ [absPath cwd p]) cs := by
      intro i cs hi
      rcases h9 i cs hi with hi | hi
      · exact (hc i cs hi).mono (by intro q hq; simp [hq])
      · exact .inr ⟨absPath cwd p, by simp, by simpa using hi⟩
    have hn1 := addParts_names _ (2 ^ 32) h1 hn (by
      intro x hx
      rw [hpp] at hx
      have := splitSlash_mem_length r x hx
      have : (absPath cwd p).length = r.length + 1 := by rw [hr]; rfl
      have := hf1.2 (absPath cwd p) (by simp)
      omega)
    obtain ⟨ids, d2, g1, g2, g3, g4, g5, g6, g7, g8, g9, g10⟩ := ih h2 hn1 hc1 hf
    refine ⟨v :: ids, d2, ?_, g2, g3, by simp [g4], by omega, by simp only [pathBytes] at g6; omega, g7,
      fun i cs hc => g8 i cs (h5 i cs hc), ?_, ?_⟩
    · simp only [addAll, addPath, h1, bind, Except.bind, g1, pure, Except.pure]
    · intro i cs hi
      rcases g9 i cs hi with hi | ⟨q, hq, hi⟩
      · rcases h9 i cs hi with hi | hi
        · exact .inl hi
        · exact .inr ⟨absPath cwd p, by simp [absPaths], by simpa using hi⟩
      · exact .inr ⟨q, by simp only [absPaths, List.map_cons]; exact List.mem_cons_of_mem _ hq, hi⟩
    · intro k q hk
      cases k with
      | zero =>
        simp only [List.getElem?_cons_zero, Option.some.injEq] at hk
        subst hk
        exact ⟨v, rfl, by omega, g8 _ _ (by simpa using h4)⟩
      | succ k =>
        simp only [List.getElem?_cons_succ] at hk
        obtain ⟨id, e1, e2, e3⟩ := g10 k q hk
        exact ⟨id, by simpa using e1, e2, e3⟩

theorem newFnames_on (ps : List Bytes) : ∀ i cs, Comps newFnames i cs → OnPaths ps cs := by
  intro i cs hc
  cases hc with
  | root => exact .inl rfl
  | step h0 hn _ =>
    have := (List.getElem?_eq_some_iff.mp hn).1
    simp [newFnames] at this; omega

theorem newFnames_names : ∀ n ∈ newFnames, n.name.length < 2 ^ 32 := by
  simp [newFnames, zero]

theorem absPaths_eq (cwd : Bytes) (ps : List Bytes) : absPaths cwd ps = ps.map fun p => Spec.placeName (Spec.place cwd p) :=
  List.map_congr_left fun p _ => absPath_place cwd p

theorem onPaths_add {cwd : Bytes} {d d' : Table} {done ps : List Bytes} (h : ∀ i cs, Comps d i cs → OnPaths done cs)
    (hc : ∀ i cs, Comps d' i cs → Comps d i cs ∨ ∃ p ∈ absPaths cwd ps, cs <+: pathParts p) : ∀ i cs, Comps d' i cs → OnPaths (done ++ absPaths cwd ps) cs := by
  intro i cs hi
  rcases hc i cs hi with hi | ⟨p, hp, hi⟩
  · exact (h i cs hi).mono fun q hq => List.mem_append_left _ hq
  · exact .inr ⟨p, List.mem_append_right _ hp, hi⟩

/-- adding twice -/
theorem addAll_two (cwd : Bytes) {old : List Bytes} (ps qs : List Bytes) {d0 : Table} (hw : WF d0) (hn : ∀ n ∈ d0, n.name.length < 2 ^ 32)
    (hc : ∀ i cs, Comps d0 i cs → OnPaths old cs) (hs : Spec.FewPaths (old ++ (ps ++ qs).map fun p => Spec.placeName (Spec.place cwd p))) :
    ∃ ids d ids' d', addAll cwd d0 ps = .ok (ids, d) ∧ WF d ∧ (∀ n ∈ d, n.name.length < 2 ^ 32) ∧ ids.length = ps.length ∧
      (∀ (k : Nat) (p : Bytes), ps[k]? = some p → ∃ id : UInt32, ids[k]? = some id ∧ id.toNat < d.length ∧ Comps d id.toNat (pathParts (absPath cwd p))) ∧ d.length < 2 ^ 32 ∧
      addAll cwd d qs = .ok (ids', d') ∧ WF d' ∧ d.length ≤ d'.length ∧ (∀ i cs, Comps d i cs → Comps d' i cs) ∧ d'.length < 2 ^ 32 := by
  have e : old ++ ((ps ++ qs).map fun p => Spec.placeName (Spec.place cwd p)) = (old ++ absPaths cwd ps) ++ absPaths cwd qs := by simp [absPaths_eq]
  rw [e] at hs
  obtain ⟨ids, d, h1, h2, h3, h4, h5, _, h6, h7, h8, h9⟩ := addAll_spec cwd ps hw hn hc (FewPaths.mono (fun q hq => List.mem_append_left _ hq) hs)
  obtain ⟨ids', d', g1, g2, g3, g4, g5, _, g6, g7, g8, g9⟩ := addAll_spec cwd qs h2 h3 (onPaths_add hc h8) hs
  exact ⟨ids, d, ids', d', h1, h2, h3, h4, h9, h6, g1, g2, g5, g7, g6⟩

end Dupi.Fnames
