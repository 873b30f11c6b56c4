import Verif.Model.Fnames
import Verif.Proof.Path
import Verif.Proof.Varint
/-! The trie invariant of the path table and its preservation. -/

namespace Dupi.Fnames

/-- the names on the way from the root to a node -/
inductive Comps (d : Table) : Nat → List Bytes → Prop
  | root : Comps d 0 []
  | step {i n cs} : i ≠ 0 → d[i]? = some n → Comps d n.parent.toNat cs → Comps d i (cs ++ [n.name])

theorem Comps.det {d i cs cs'} (h : Comps d i cs) (h' : Comps d i cs') : cs = cs' := by
  induction h generalizing cs' with
  | root => cases h' with
    | root => rfl
    | step hi => exact absurd rfl hi
  | step hi hn _ ih => cases h' with
    | root => exact absurd rfl hi
    | step _ hn' hc =>
      rw [hn] at hn'; cases hn'
      rw [ih hc]

structure WF (d : Table) : Prop where
  small : d.length ≤ 2 ^ 32
  root : ∃ r, d[0]? = some r ∧ r.parent = 0 ∧ r.name = []
  parentLt : ∀ i n, d[i]? = some n → i ≠ 0 → n.parent.toNat < i
  child : ∀ i n nm, d[i]? = some n → get n.children nm ≠ 0 →
    ∃ c, d[(get n.children nm).toNat]? = some c ∧ c.parent.toNat = i ∧ c.name = nm
  linked : ∀ i n, d[i]? = some n → i ≠ 0 →
    ∃ q, d[n.parent.toNat]? = some q ∧ (get q.children n.name).toNat = i

theorem newFnames_wf : WF newFnames := by
  refine ⟨by simp [newFnames], ⟨zero, rfl, rfl, rfl⟩, ?_, ?_, ?_⟩
  · intro i n h hi; cases i <;> simp_all [newFnames]
  · intro i n nm h hc
    cases i with
    | zero => simp only [newFnames, List.getElem?_cons_zero, Option.some.injEq] at h; subst h; simp [zero, get] at hc
    | succ i => simp [newFnames] at h
  · intro i n h hi; cases i <;> simp_all [newFnames]

theorem WF.comps {d} (h : WF d) : ∀ i, i < d.length → ∃ cs, Comps d i cs ∧ cs.length ≤ i := by
  intro i
  induction i using Nat.strongRecOn with
  | _ i ih =>
    intro hi
    by_cases h0 : i = 0
    · subst h0; exact ⟨[], .root, by simp⟩
    · have hn : d[i]? = some d[i] := List.getElem?_eq_getElem hi
      have hlt := h.parentLt i _ hn h0
      obtain ⟨cs, hc, hl⟩ := ih _ hlt (by omega)
      exact ⟨_, .step h0 hn hc, by simp; omega⟩

/-- distinct nodes have distinct paths -/
theorem WF.comps_inj {d} (h : WF d) : ∀ {i cs}, Comps d i cs → ∀ {j}, Comps d j cs → i = j := by
  intro i cs hi
  induction hi with
  | root =>
    intro j hj
    generalize hcs : ([] : List Bytes) = cs at hj
    cases hj with
    | root => rfl
    | step => simp at hcs
  | @step i n cs hi hn hc ih =>
    intro j hj
    generalize hcs : cs ++ [n.name] = cs' at hj
    cases hj with
    | root => simp at hcs
    | @step _ m cs'' hj hm hc' =>
      have h2 := List.append_inj' hcs rfl
      obtain ⟨rfl, hnm⟩ := h2
      have hnm : n.name = m.name := by simpa using hnm
      have hp := ih hc'
      obtain ⟨q, hq, hqi⟩ := h.linked _ _ hn hi
      obtain ⟨q', hq', hqj⟩ := h.linked _ _ hm hj
      rw [← hp, hq] at hq'
      cases hq'
      rw [← hqi, ← hqj, hnm]

theorem absLoop_comps {d i cs} (h : Comps d i cs) (h0 : d ≠ []) :
    ∀ fuel acc, cs.length < fuel → absLoop d fuel i acc = .ok (acc ++ cs.reverse) := by
  induction h with
  | root =>
    intro fuel acc hf
    cases fuel with
    | zero => simp at hf
    | succ f =>
      cases d with
      | nil => exact absurd rfl h0
      | cons x xs => simp [absLoop]
  | step hi hn hc ih =>
    intro fuel acc hf
    cases fuel with
    | zero => simp at hf
    | succ f =>
      simp only [List.length_append, List.length_singleton] at hf
      rw [absLoop, hn]
      simp only [hi, if_false]
      rw [ih f _ (by omega)]
      simp

/-! ### reversing in place -/

theorem swap_length (n : Nat) (ps : List Bytes) (i : Nat) : (swap n ps i).length = ps.length := by
  simp [swap]

theorem foldl_swap (orig : List Bytes) : ∀ k, k ≤ orig.length / 2 →
    ((List.range k).foldl (swap (orig.length - 1)) orig).length = orig.length ∧
    ∀ j, j < orig.length →
      ((List.range k).foldl (swap (orig.length - 1)) orig)[j]? =
        if j < k ∨ orig.length - k ≤ j then orig[orig.length - 1 - j]? else orig[j]? := by
  intro k
  induction k with
  | zero => intro _; refine ⟨rfl, fun j hj => ?_⟩; rw [if_neg (by omega)]; rfl
  | succ k ih =>
    intro hk
    obtain ⟨hl, hget⟩ := ih (by omega)
    rw [List.range_succ, List.foldl_append]
    simp only [List.foldl_cons, List.foldl_nil]
    generalize (List.range k).foldl (swap (orig.length - 1)) orig = cur at *
    refine ⟨by rw [swap_length, hl], fun j hj => ?_⟩
    have ha := hget k (by omega)
    have hb := hget (orig.length - 1 - k) (by omega)
    rw [if_neg (by omega)] at ha hb
    simp only [swap, List.getElem?_set, List.length_set, List.getD_eq_getElem?_getD]
    rw [hl]
    by_cases h1 : orig.length - 1 - k = j
    · subst h1
      rw [if_pos rfl, if_pos (by omega), if_pos (by omega), ha]
      rw [show orig.length - 1 - (orig.length - 1 - k) = k by omega,
        List.getElem?_eq_getElem (by omega)]
      simp
    · rw [if_neg h1]
      by_cases h2 : k = j
      · subst h2
        rw [if_pos rfl, if_pos (by omega), if_pos (by omega), hb, List.getElem?_eq_getElem (by omega)]
        simp
      · rw [if_neg h2, hget j hj]
        by_cases h3 : j < k ∨ orig.length - k ≤ j
        · rw [if_pos h3, if_pos (by omega)]
        · rw [if_neg h3, if_neg (by omega)]

theorem revInPlace_eq (ps : List Bytes) : revInPlace ps = ps.reverse := by
  obtain ⟨hl, hget⟩ := foldl_swap ps (ps.length / 2) (Nat.le_refl _)
  apply List.ext_getElem?
  intro j
  by_cases hj : j < ps.length
  · rw [revInPlace, hget j hj, List.getElem?_reverse hj]
    split
    · rfl
    · have : ps.length - 1 - j = j := by omega
      rw [this]
  · rw [List.getElem?_eq_none (by rw [revInPlace, hl]; omega),
      List.getElem?_eq_none (by simp; omega)]

theorem WF.abs {d} (h : WF d) {v : UInt32} {cs} (hc : Comps d v.toNat cs) (hv : v.toNat < d.length) :
    abs d v = .ok (sep :: joinSlash cs) := by
  obtain ⟨cs', hc', hl⟩ := h.comps _ hv
  have := hc.det hc'; subst this
  have hne : d ≠ [] := by rintro rfl; simp at hv
  rw [Fnames.abs, absLoop_comps hc hne _ _ (by omega)]
  simp [bind, Except.bind, pure, Except.pure, revInPlace_eq]

/-! ### adding -/

/-- the table after creating a child `nm` of node `p` -/
def grow (d : Table) (p : UInt32) (n : Fname) (nm : Bytes) : Table :=
  d.set p.toNat { n with children := (nm, UInt32.ofNat d.length) :: n.children } ++ [⟨p, nm, []⟩]

theorem get_cons (nm nm' : Bytes) (c : UInt32) (m) :
    get ((nm, c) :: m) nm' = if nm' = nm then c else get m nm' := by
  simp only [get, List.lookup_cons]
  by_cases h : nm' = nm
  · simp [h]
  · rw [show (nm' == nm) = false by simpa using h, if_neg h]

theorem grow_get {d p n} (hp : d[p.toNat]? = some n) (nm : Bytes) (i : Nat) :
    (grow d p n nm)[i]? =
      if i = p.toNat then some { n with children := (nm, UInt32.ofNat d.length) :: n.children }
      else if i = d.length then some ⟨p, nm, []⟩ else d[i]? := by
  have hlt : p.toNat < d.length := (List.getElem?_eq_some_iff.mp hp).1
  unfold grow
  by_cases h1 : i = p.toNat
  · subst h1; rw [List.getElem?_append_left (by simpa using hlt)]; simp [hlt]
  · rw [if_neg h1]
    by_cases h2 : i = d.length
    · subst h2; simp
    · rw [if_neg h2]
      by_cases h3 : i < d.length
      · rw [List.getElem?_append_left (by simpa using h3), List.getElem?_set, if_neg (Ne.symm h1)]
      · rw [List.getElem?_eq_none (by simp; omega), List.getElem?_eq_none (by omega)]

theorem grow_wf {d p n nm} (h : WF d) (hp : d[p.toNat]? = some n) (h0 : get n.children nm = 0)
    (hs : d.length < 2 ^ 32) : WF (grow d p n nm) := by
  have hplt : p.toNat < d.length := (List.getElem?_eq_some_iff.mp hp).1
  have hlen : (UInt32.ofNat d.length).toNat = d.length := by
    simp only [UInt32.toNat_ofNat']; omega
  have hgrow : ∀ i m, d[i]? = some m → ∃ m', (grow d p n nm)[i]? = some m' ∧ m'.parent = m.parent ∧
      m'.name = m.name ∧ ∀ x, get m'.children x =
        if i = p.toNat ∧ x = nm then UInt32.ofNat d.length else get m.children x := by
    intro i m hi
    have hilt : i < d.length := (List.getElem?_eq_some_iff.mp hi).1
    rw [grow_get hp]
    by_cases h1 : i = p.toNat
    · subst h1; rw [hp] at hi; cases hi
      exact ⟨{ n with children := (nm, UInt32.ofNat d.length) :: n.children },
        by rw [if_pos rfl], rfl, rfl, fun x => by rw [get_cons]; simp⟩
    · exact ⟨m, by rw [if_neg h1, if_neg (by omega), hi], rfl, rfl, fun x => by simp [h1]⟩
  refine ⟨?_, ?_, ?_, ?_, ?_⟩
  · simp [grow]; omega
  · obtain ⟨r, hr, h1, h2⟩ := h.root
    obtain ⟨m', hm, h3, h4, _⟩ := hgrow 0 r hr
    exact ⟨m', hm, by rw [h3, h1], by rw [h4, h2]⟩
  · intro i m hm hi
    rw [grow_get hp] at hm
    split at hm
    · rename_i h1; subst h1; cases hm; exact h.parentLt _ n hp hi
    · split at hm
      · rename_i h2; subst h2; cases hm; exact hplt
      · exact h.parentLt _ _ hm hi
  · intro i m x hm hx
    rw [grow_get hp] at hm
    split at hm
    · rename_i h1; subst h1; cases hm
      simp only [get_cons] at hx ⊢
      by_cases hxn : x = nm
      · simp only [hxn, if_true, hlen]
        refine ⟨⟨p, nm, []⟩, ?_, rfl, rfl⟩
        rw [grow_get hp, if_neg (by omega), if_pos rfl]
      · simp only [hxn, if_false] at hx ⊢
        obtain ⟨c, hc, hc1, hc2⟩ := h.child _ _ _ hp hx
        obtain ⟨c', hc', h3, h4, _⟩ := hgrow _ _ hc
        exact ⟨c', hc', by rw [h3, hc1], by rw [h4, hc2]⟩
    · split at hm
      · cases hm; simp [get] at hx
      · obtain ⟨c, hc, hc1, hc2⟩ := h.child _ _ _ hm hx
        obtain ⟨c', hc', h3, h4, _⟩ := hgrow _ _ hc
        exact ⟨c', hc', by rw [h3, hc1], by rw [h4, hc2]⟩
  · intro i m hm hi
    rw [grow_get hp] at hm
    have old : ∀ m, d[i]? = some m → ∃ q, (grow d p n nm)[m.parent.toNat]? = some q ∧
        (get q.children m.name).toNat = i := by
      intro m hm
      obtain ⟨q, hq, hqi⟩ := h.linked _ _ hm hi
      obtain ⟨q', hq', _, _, hk⟩ := hgrow _ _ hq
      refine ⟨q', hq', ?_⟩
      rw [hk]
      by_cases hcase : m.parent.toNat = p.toNat ∧ m.name = nm
      · obtain ⟨e1, e2⟩ := hcase
        rw [e1, hp] at hq; cases hq
        rw [e2, h0] at hqi
        simp at hqi; omega
      · rw [if_neg hcase]; exact hqi
    split at hm
    · rename_i h1; subst h1; cases hm; exact old n hp
    · split at hm
      · rename_i h2; subst h2; cases hm
        obtain ⟨q', hq', _, _, hk⟩ := hgrow _ _ hp
        refine ⟨q', hq', ?_⟩
        simp only [hk, and_self, if_true, hlen]
      · exact old m hm

theorem grow_comps {d p n nm i cs} (hp : d[p.toNat]? = some n) (hc : Comps d i cs) :
    Comps (grow d p n nm) i cs := by
  induction hc with
  | root => exact .root
  | @step i m cs hi hm _ ih =>
    by_cases h1 : i = p.toNat
    · subst h1; rw [hp] at hm; cases hm
      exact .step (n := { n with children := (nm, UInt32.ofNat d.length) :: n.children }) hi
        (by rw [grow_get hp, if_pos rfl]) ih
    · have : i < d.length := (List.getElem?_eq_some_iff.mp hm).1
      exact .step hi (by rw [grow_get hp, if_neg h1, if_neg (by omega), hm]) ih

theorem grow_comps_new {d p n nm cs} (hs : d.length < 2 ^ 32) (hp : d[p.toNat]? = some n)
    (hc : Comps d p.toNat cs) :
    Comps (grow d p n nm) (UInt32.ofNat d.length).toNat (cs ++ [nm]) := by
  have hplt : p.toNat < d.length := (List.getElem?_eq_some_iff.mp hp).1
  have hlen : (UInt32.ofNat d.length).toNat = d.length := by
    simp only [UInt32.toNat_ofNat']; omega
  rw [hlen]
  exact .step (n := ⟨p, nm, []⟩) (by omega) (by rw [grow_get hp, if_neg (by omega), if_pos rfl])
    (grow_comps hp hc)

/-- a new node has the new path -/
theorem grow_comps_inv {d p n nm cs} (h : WF d) (hs : d.length < 2 ^ 32) (hp : d[p.toNat]? = some n) (hc : Comps d p.toNat cs)
    {i cs'} (hi : Comps (grow d p n nm) i cs') : Comps d i cs' ∨ cs' = cs ++ [nm] := by
  have hplt : p.toNat < d.length := (List.getElem?_eq_some_iff.mp hp).1
  by_cases hlt : i < d.length
  · obtain ⟨cs'', h1, _⟩ := h.comps i hlt
    rw [hi.det (grow_comps hp h1)]
    exact .inl h1
  · by_cases he : i = (UInt32.ofNat d.length).toNat
    · rw [he] at hi
      exact .inr (hi.det (grow_comps_new hs hp hc))
    · have hlen : (UInt32.ofNat d.length).toNat = d.length := by simp only [UInt32.toNat_ofNat']; omega
      cases hi with
      | root => exact .inl .root
      | step h0 hn _ =>
        have := (List.getElem?_eq_some_iff.mp hn).1
        simp [grow] at this; omega

/-- Adding to a table, if tables whose paths have `P` have fewer than `2 ^ 32` nodes. -/
theorem addParts_room {P : List Bytes → Prop} (hP : ∀ d, WF d → (∀ i cs, Comps d i cs → P cs) → d.length < 2 ^ 32) (ps : List Bytes) : ∀ {d p cs}, WF d → p.toNat < d.length →
    Comps d p.toNat cs → (∀ i cs', Comps d i cs' → P cs') → (∀ cs', cs' <+: cs ++ ps → P cs') →
    ∃ v d', addParts d p ps = .ok (v, d') ∧ WF d' ∧ v.toNat < d'.length ∧
      Comps d' v.toNat (cs ++ ps) ∧ (∀ i cs, Comps d i cs → Comps d' i cs) ∧
      d.length ≤ d'.length ∧ d'.length ≤ d.length + ps.length ∧ d'.length < 2 ^ 32 ∧ ∀ i cs', Comps d' i cs' → Comps d i cs' ∨ cs' <+: cs ++ ps := by
  induction ps with
  | nil => intro d p cs h hp hc h1 _; exact ⟨p, d, rfl, h, hp, by simpa using hc, fun _ _ h => h, by simp, by simp, hP d h h1, fun _ _ h => .inl h⟩
  | cons x xs ih =>
    intro d p cs h hp hc hd hps
    simp only [List.length_cons]
    have hs := hP d h hd
    have hn : d[p.toNat]? = some d[p.toNat] := List.getElem?_eq_getElem hp
    generalize d[p.toNat] = n at hn
    have hps' : ∀ cs', cs' <+: cs ++ [x] ++ xs → P cs' := fun cs' h => hps cs' (by simpa using h)
    by_cases h0 : get n.children x = 0
    · have hgl : (grow d p n x).length = d.length + 1 := by simp [grow]
      have hlen : (UInt32.ofNat d.length).toNat = d.length := by
        simp only [UInt32.toNat_ofNat']; omega
      obtain ⟨v, d', h1, h2, h3, h4, h5, h6, h7, h8, h9⟩ := ih (grow_wf (nm := x) h hn h0 (by omega))
        (p := UInt32.ofNat d.length) (by rw [hlen]; omega)
        (grow_comps_new (by omega) hn hc) (fun i cs' hi => by
          rcases grow_comps_inv h hs hn hc hi with hi | hi
          · exact hd i cs' hi
          · exact hps cs' (by rw [hi]; exact ⟨xs, by simp⟩)) hps'
      refine ⟨v, d', ?_, h2, h3, by simpa using h4, fun i cs hc => h5 i cs (grow_comps hn hc), by omega, by omega, h8, fun i cs' hi => ?_⟩
      · rw [addParts, hn]
        simp only [h0, if_true]
        exact h1
      · rcases h9 i cs' hi with hi | hi
        · rcases grow_comps_inv h hs hn hc hi with hi | hi
          · exact .inl hi
          · exact .inr (by rw [hi]; exact ⟨xs, by simp⟩)
        · exact .inr (by simpa using hi)
    · obtain ⟨c, hcc, hc1, hc2⟩ := h.child _ _ _ hn h0
      have hlt : (get n.children x).toNat < d.length := (List.getElem?_eq_some_iff.mp hcc).1
      have hne : (get n.children x).toNat ≠ 0 := by
        intro h; exact h0 (UInt32.toNat_inj.mp (by simpa using h))
      have hcomp : Comps d (get n.children x).toNat (cs ++ [x]) := by
        have := Comps.step hne hcc (by rw [hc1]; exact hc)
        rwa [hc2] at this
      obtain ⟨v, d', h1, h2, h3, h4, h5, h6, h7, h8, h9⟩ := ih h hlt hcomp hd hps'
      refine ⟨v, d', ?_, h2, h3, by simpa using h4, h5, h6, by omega, h8, fun i cs' hi => ?_⟩
      · rw [addParts, hn]
        simp only [h0, if_false]
        exact h1
      · rcases h9 i cs' hi with hi | hi
        · exact .inl hi
        · exact .inr (by simpa using hi)

/-- a prefix of a present path is present -/
theorem Comps.parent {d i cs nm} (h : Comps d i (cs ++ [nm])) :
    ∃ n, i ≠ 0 ∧ d[i]? = some n ∧ n.name = nm ∧ Comps d n.parent.toNat cs := by
  generalize hcs : cs ++ [nm] = cs' at h
  cases h with
  | root => simp at hcs
  | @step i n cs'' hi hn hc =>
    obtain ⟨rfl, h2⟩ := List.append_inj' hcs rfl
    exact ⟨n, hi, hn, by simpa using h2.symm, hc⟩

theorem Comps.prefix {d i c} (h : Comps d i c) :
    ∀ cs ys, c = cs ++ ys → ∃ j, Comps d j cs := by
  induction h with
  | root => intro cs ys h; cases cs with
    | nil => exact ⟨0, .root⟩
    | cons => simp at h
  | @step i n cs0 hi hn hc ih =>
    intro cs ys h
    rcases List.eq_nil_or_concat ys with rfl | ⟨ys', y, rfl⟩
    · exact ⟨i, by rw [List.append_nil] at h; rw [← h]; exact .step hi hn hc⟩
    · rw [List.concat_eq_append, ← List.append_assoc] at h
      exact ih cs ys' (List.append_inj' h rfl).1

/-- adding a path that is there changes nothing -/
theorem addParts_present (ps : List Bytes) : ∀ {d p v cs}, WF d →
    Comps d p.toNat cs → p.toNat < d.length → Comps d v (cs ++ ps) →
    ∃ v', addParts d p ps = .ok (v', d) ∧ v'.toNat = v := by
  induction ps with
  | nil =>
    intro d p v cs h hp _ hv
    exact ⟨p, rfl, h.comps_inj hp (by simpa using hv)⟩
  | cons x xs ih =>
    intro d p v cs h hp hlt hv
    obtain ⟨j, hj⟩ := hv.prefix (cs ++ [x]) xs (by simp)
    obtain ⟨n, hj0, hnj, hname, hpar⟩ := hj.parent
    have hjlt : j < d.length := (List.getElem?_eq_some_iff.mp hnj).1
    obtain ⟨q, hq, hqi⟩ := h.linked _ _ hnj hj0
    rw [← h.comps_inj hp hpar] at hq
    rw [hname] at hqi
    have hne : get q.children x ≠ 0 := by
      intro h0; rw [h0] at hqi; exact hj0 (by simpa using hqi.symm)
    obtain ⟨v', h1, h2⟩ := ih (p := get q.children x) h (by rw [hqi]; exact hj) (by omega)
      (by simpa using hv)
    exact ⟨v', by rw [addParts, hq]; simp only [hne, if_false]; exact h1, h2⟩

end Dupi.Fnames
