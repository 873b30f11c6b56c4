import Verif.Proof.AnyTable
/-! Adding paths to a table that was read from any file. -/

namespace Dupi.Fnames
open Spec

/-- a node found as a child has the name it was looked for with, and the parent it was looked for under -/
structure Loose (d : Table) : Prop where
  par : ∀ n ∈ d, n.parent.toNat < d.length
  names : ∀ n ∈ d, n.name.length < 2 ^ 32
  child : ∀ i n nm, d[i]? = some n → get n.children nm ≠ 0 →
    ∃ c, d[(get n.children nm).toNat]? = some c ∧ c.parent.toNat = i ∧ c.name = nm

theorem readLoop_child (n : Nat) : ∀ (i : Nat) (d : Table) (r : Bytes) (t : Table) (r' : Bytes), readLoop n i d r = .ok (t, r') → i + n = d.length → d.length < 2 ^ 32 →
    (∀ (j : Nat) m nm, d[j]? = some m → get m.children nm ≠ 0 → (get m.children nm).toNat < i ∧ ∃ c, d[(get m.children nm).toNat]? = some c ∧ c.parent.toNat = j ∧ c.name = nm) →
    ∀ (j : Nat) m nm, t[j]? = some m → get m.children nm ≠ 0 → ∃ c, t[(get m.children nm).toNat]? = some c ∧ c.parent.toNat = j ∧ c.name = nm := by
  induction n with
  | zero =>
    intro i d r t r' h _ _ hd j m nm h1 h2
    injection h with h; injection h with h _; subst h
    exact (hd j m nm h1 h2).2
  | succ n ih =>
    intro i d r t r' h hi hl hd
    unfold readLoop at h
    simp only [bind, Except.bind] at h
    cases h1 : readUvarint32 r with
    | error e => rw [h1] at h; cases h
    | ok a1 =>
      obtain ⟨v, r1⟩ := a1
      rw [h1] at h
      simp only [] at h
      cases h2 : readFull r1 v.toNat with
      | error e => rw [h2] at h; cases h
      | ok a2 =>
        obtain ⟨name, r2⟩ := a2
        rw [h2] at h
        simp only [] at h
        cases h3 : readUvarint32 r2 with
        | error e => rw [h3] at h; cases h
        | ok a3 =>
          obtain ⟨parent, r3⟩ := a3
          rw [h3] at h
          simp only [] at h
          have hilt : i < d.length := by omega
          generalize hd1 : d.set i { d.getD i zero with name := name, parent := parent } = d1 at h
          have e1 : ∀ j, d1[j]? = if i = j then some { d.getD i zero with name := name, parent := parent } else d[j]? := by
            intro j
            rw [← hd1, List.getElem?_set]
            simp only [hilt, if_true]
          have hl1 : d1.length = d.length := by rw [← hd1, List.length_set]
          have hi32 : (UInt32.ofNat i).toNat = i := by rw [UInt32.toNat_ofNat']; exact Nat.mod_eq_of_lt (by omega)
          cases h4 : d1[parent.toNat]? with
          | none => rw [h4] at h; cases h
          | some pn =>
            rw [h4] at h
            simp only [] at h
            have hplt := (List.getElem?_eq_some_iff.mp h4).1
            refine ih (i + 1) _ r3 t r' h (by rw [List.length_set]; omega) (by rw [List.length_set]; omega) ?_
            -- the nodes of `d1`, as those of `d`
            have old : ∀ (j : Nat) m, d1[j]? = some m → ∃ m0, d[j]? = some m0 ∧ m0.children = m.children := by
              intro j m hm
              rw [e1] at hm
              by_cases e : i = j
              · rw [if_pos e] at hm; injection hm with hm
                refine ⟨d[i], by rw [← e]; exact List.getElem?_eq_getElem hilt, ?_⟩
                rw [← hm, List.getD_eq_getElem?_getD, List.getElem?_eq_getElem hilt]; rfl
              · rw [if_neg e] at hm; exact ⟨m, hm, rfl⟩
            have e2 : ∀ j, (d1.set parent.toNat { pn with children := (name, UInt32.ofNat i) :: pn.children })[j]? =
                if parent.toNat = j then some { pn with children := (name, UInt32.ofNat i) :: pn.children } else d1[j]? := by
              intro j
              rw [List.getElem?_set]
              simp only [hplt, if_true]
            -- names and parents of `d1` are kept
            have keep : ∀ (j : Nat) c, d1[j]? = some c → ∃ c', (d1.set parent.toNat { pn with children := (name, UInt32.ofNat i) :: pn.children })[j]? = some c' ∧
                c'.parent = c.parent ∧ c'.name = c.name := by
              intro j c hc
              rw [e2]
              by_cases e : parent.toNat = j
              · rw [if_pos e]; rw [← e, h4] at hc; injection hc with hc; exact ⟨_, rfl, by rw [hc], by rw [hc]⟩
              · rw [if_neg e]; exact ⟨c, hc, rfl, rfl⟩
            have lift : ∀ (j : Nat) m0 nm, d[j]? = some m0 → get m0.children nm ≠ 0 → (get m0.children nm).toNat < i + 1 ∧
                ∃ c, (d1.set parent.toNat { pn with children := (name, UInt32.ofNat i) :: pn.children })[(get m0.children nm).toNat]? = some c ∧ c.parent.toNat = j ∧ c.name = nm := by
              intro j m0 nm hm hg
              obtain ⟨k1, c, k2, k3, k4⟩ := hd j m0 nm hm hg
              have : d1[(get m0.children nm).toNat]? = some c := by rw [e1, if_neg (by omega)]; exact k2
              obtain ⟨c', p1, p2, p3⟩ := keep _ c this
              exact ⟨by omega, c', p1, by rw [p2]; exact k3, by rw [p3]; exact k4⟩
            intro j m nm hm hg
            rw [e2] at hm
            by_cases e : parent.toNat = j
            · rw [if_pos e] at hm; injection hm with hm
              subst hm
              simp only [get_cons] at hg ⊢
              by_cases en : nm = name
              · rw [if_pos en, hi32]
                refine ⟨by omega, ?_⟩
                obtain ⟨c', p1, p2, p3⟩ := keep i _ (by rw [e1, if_pos rfl])
                exact ⟨c', p1, by rw [p2]; exact e, by rw [p3]; exact en.symm⟩
              · rw [if_neg en] at hg ⊢
                obtain ⟨m0, q1, q2⟩ := old _ _ h4
                have := lift j m0 nm (e ▸ q1) (by rw [q2]; exact hg)
                rw [q2] at this
                exact this
            · rw [if_neg e] at hm
              obtain ⟨m0, q1, q2⟩ := old _ _ hm
              rw [← q2] at hg ⊢
              exact lift j m0 nm q1 hg

theorem NodesAs.short {ns : List (Bytes × Nat)} : ∀ {bs : Bytes}, NodesAs bs ns → ∀ x ∈ ns, x.1.length < 2 ^ 32 := by
  induction ns with
  | nil => intro bs _ x hx; cases hx
  | cons n ns ih =>
    rintro bs ⟨a, r, _, ⟨_, _, _, _, _, h, _⟩, hr⟩ x hx
    rcases List.mem_cons.mp hx with rfl | hx
    · exact h
    · exact ih hr x hx

theorem read_loose {f : Bytes} {t : Table} (h : read f = .ok t) : Loose t := by
  obtain ⟨l, bs, rest, e, h1, h2, h3, h4⟩ := ((read_exact f).1 _).mp ⟨t, h, rfl⟩
  refine ⟨fun n hn => ?_, fun n hn => NodesAs.short h3 (says n) (List.mem_map_of_mem hn), ?_⟩
  · have := h4 (says n) (List.mem_map_of_mem hn)
    rwa [List.length_map] at this
  · unfold read at h
    simp only [bind, Except.bind] at h
    cases hrv : readUvarint32 f with
    | error e => rw [hrv] at h; cases h
    | ok a =>
      obtain ⟨v, r⟩ := a
      rw [hrv] at h
      simp only [] at h
      cases hrl : readLoop v.toNat 0 (List.replicate v.toNat zero) r with
      | error e => rw [hrl] at h; cases h
      | ok a =>
        obtain ⟨t', r'⟩ := a
        rw [hrl] at h
        injection h with h
        subst h
        refine readLoop_child v.toNat 0 _ r _ r' hrl (by rw [List.length_replicate]; omega) (by rw [List.length_replicate]; exact v.toNat_lt) ?_
        intro j m nm hm hg
        rw [List.getElem?_replicate] at hm
        split at hm
        · injection hm with hm; subst hm; exact absurd rfl hg
        · cases hm

theorem grow_says {d : Table} {p : UInt32} {n : Fname} (hp : d[p.toNat]? = some n) (nm : Bytes) : (grow d p n nm).map says = d.map says ++ [(nm, p.toNat)] := by
  unfold grow
  rw [List.map_append, says_set (fun m hm => by rw [hp] at hm; injection hm with hm; rw [← hm]; rfl)]
  rfl

theorem grow_loose {d : Table} {p : UInt32} {n : Fname} {nm : Bytes} (h : Loose d) (hp : d[p.toNat]? = some n) (hs : d.length < 2 ^ 32)
    (hnm : nm.length < 2 ^ 32) : Loose (grow d p n nm) := by
  have hplt : p.toNat < d.length := (List.getElem?_eq_some_iff.mp hp).1
  have hlen : (UInt32.ofNat d.length).toNat = d.length := by simp only [UInt32.toNat_ofNat']; omega
  have hgl : (grow d p n nm).length = d.length + 1 := by simp [grow]
  have hmem : ∀ m ∈ grow d p n nm, (∃ m0 ∈ d, says m = says m0) ∨ says m = (nm, p.toNat) := by
    intro m hm
    have : says m ∈ (grow d p n nm).map says := List.mem_map_of_mem hm
    rw [grow_says hp, List.mem_append, List.mem_map, List.mem_singleton] at this
    rcases this with ⟨m0, k1, k2⟩ | k
    · exact .inl ⟨m0, k1, k2.symm⟩
    · exact .inr k
  refine ⟨fun m hm => ?_, fun m hm => ?_, ?_⟩
  · rcases hmem m hm with ⟨m0, k1, k2⟩ | k
    · have := h.par m0 k1
      have e : m.parent.toNat = m0.parent.toNat := congrArg Prod.snd k2
      omega
    · have e : m.parent.toNat = p.toNat := congrArg Prod.snd k
      omega
  · rcases hmem m hm with ⟨m0, k1, k2⟩ | k
    · have e : m.name = m0.name := congrArg Prod.fst k2
      rw [e]; exact h.names m0 k1
    · have e : m.name = nm := congrArg Prod.fst k
      rw [e]; exact hnm
  · have keep : ∀ (i : Nat) c, d[i]? = some c → ∃ c', (grow d p n nm)[i]? = some c' ∧ c'.parent = c.parent ∧ c'.name = c.name := by
      intro i c hc
      have hilt := (List.getElem?_eq_some_iff.mp hc).1
      rw [grow_get hp]
      by_cases e : i = p.toNat
      · rw [if_pos e]; rw [e, hp] at hc; injection hc with hc; exact ⟨_, rfl, by rw [hc], by rw [hc]⟩
      · rw [if_neg e, if_neg (by omega)]; exact ⟨c, hc, rfl, rfl⟩
    intro i m x hm hx
    rw [grow_get hp] at hm
    split at hm
    · rename_i h1; subst h1; cases hm
      simp only [get_cons] at hx ⊢
      by_cases hxn : x = nm
      · simp only [hxn, if_true, hlen]
        refine ⟨⟨p, nm, []⟩, ?_, rfl, rfl⟩
        rw [grow_get hp, if_neg (by omega), if_pos rfl]
      · simp only [hxn, if_false] at hx ⊢
        obtain ⟨c, hc, hc1, hc2⟩ := h.child _ _ _ hp hx
        obtain ⟨c', hc', h3, h4⟩ := keep _ _ hc
        exact ⟨c', hc', by rw [h3, hc1], by rw [h4, hc2]⟩
    · split at hm
      · cases hm; simp [get] at hx
      · obtain ⟨c, hc, hc1, hc2⟩ := h.child _ _ _ hm hx
        obtain ⟨c', hc', h3, h4⟩ := keep _ _ hc
        exact ⟨c', hc', by rw [h3, hc1], by rw [h4, hc2]⟩

/-- adding a path below a node -/
theorem addParts_loose (ps : List Bytes) : ∀ {d : Table} {p : UInt32} {cs : List Bytes}, Loose d → p.toNat < d.length → Comps d p.toNat cs →
    d.length + ps.length < 2 ^ 32 → (∀ nm ∈ ps, nm.length < 2 ^ 32) →
    ∃ v d', addParts d p ps = .ok (v, d') ∧ Loose d' ∧ v.toNat < d'.length ∧ Comps d' v.toNat (cs ++ ps) ∧ d.map says <+: d'.map says ∧ d'.length ≤ d.length + ps.length := by
  induction ps with
  | nil => intro d p cs h hp hc _ _; exact ⟨p, d, rfl, h, hp, by simpa using hc, List.prefix_refl _, by simp⟩
  | cons x xs ih =>
    intro d p cs h hp hc hl hnm
    simp only [List.length_cons] at hl
    have hn : d[p.toNat]? = some d[p.toNat] := List.getElem?_eq_getElem hp
    generalize d[p.toNat] = n at hn
    by_cases h0 : get n.children x = 0
    · have hgl : (grow d p n x).length = d.length + 1 := by simp [grow]
      have hlen : (UInt32.ofNat d.length).toNat = d.length := by simp only [UInt32.toNat_ofNat']; omega
      obtain ⟨v, d', k1, k2, k3, k4, k5, k6⟩ := ih (grow_loose (nm := x) h hn (by omega) (hnm x (by simp))) (p := UInt32.ofNat d.length) (by rw [hlen]; omega)
        (grow_comps_new (by omega) hn hc) (by omega) (fun nm h => hnm nm (by simp [h]))
      refine ⟨v, d', ?_, k2, k3, by simpa using k4, List.IsPrefix.trans ⟨_, (grow_says hn x).symm⟩ k5, by simp only [List.length_cons]; omega⟩
      rw [addParts, hn]
      simp only [h0, if_true]
      exact k1
    · obtain ⟨c, hc1, hc2, hc3⟩ := h.child _ _ _ hn h0
      have hclt := (List.getElem?_eq_some_iff.mp hc1).1
      have hc' : Comps d (get n.children x).toNat (cs ++ [x]) := by
        have := Comps.step (i := (get n.children x).toNat) (fun e => h0 (UInt32.toNat_inj.mp (by simpa using e))) hc1 (by rw [hc2]; exact hc)
        rwa [hc3] at this
      obtain ⟨v, d', k1, k2, k3, k4, k5, k6⟩ := ih h hclt hc' (by omega) (fun nm h => hnm nm (by simp [h]))
      refine ⟨v, d', ?_, k2, k3, by simpa using k4, k5, by simp only [List.length_cons]; omega⟩
      rw [addParts, hn]
      simp only [h0, if_false]
      exact k1

theorem addParts_empty (p : UInt32) {ps : List Bytes} (h : ps ≠ []) : addParts [] p ps = .error .panic := by
  cases ps with
  | nil => exact absurd rfl h
  | cons x xs => rfl

/-- what is written of such a table is read back -/
theorem write_tableFile {t : Table} (h : Loose t) (hl : t.length < 2 ^ 32) : TableFile (write t) (t.map says) := by
  have num : ∀ v, v < 2 ^ 64 → Num (putUvarint v) v := fun v hv => by
    obtain ⟨l, e, hn⟩ := (readUvarint_exact (putUvarint v) v []).mp (by simpa using readUvarint_put v [] hv)
    rw [List.append_nil] at e
    rwa [e]
  have num32 : ∀ n, n < 2 ^ 32 → Num (writeUvarint32 (UInt32.ofNat n)) n := fun n hn => by
    have : (UInt32.ofNat n).toNat = n := by rw [UInt32.toNat_ofNat']; exact Nat.mod_eq_of_lt hn
    unfold writeUvarint32
    rw [this]; exact num n (by omega)
  refine ⟨writeUvarint32 (UInt32.ofNat t.length), t.flatMap writeNode, [], by simp [write], by rw [List.length_map]; exact num32 _ hl, by rw [List.length_map]; exact hl, ?_, ?_⟩
  · have hn := h.names
    clear h hl
    induction t with
    | nil => rfl
    | cons n t ih =>
      refine ⟨writeNode n, t.flatMap writeNode, rfl, ⟨_, _, rfl, num32 _ (hn n (by simp)), ?_, hn n (by simp), n.parent.toNat_lt⟩, ih fun m hm => hn m (by simp [hm])⟩
      exact num _ (Nat.lt_trans n.parent.toNat_lt (by decide))
  · intro x hx
    obtain ⟨m, hm, rfl⟩ := List.mem_map.mp hx
    rw [List.length_map]
    exact h.par m hm

end Dupi.Fnames
