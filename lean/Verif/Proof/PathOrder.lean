import Verif.Model.FnamesString
import Verif.Spec.PathOrder
import Verif.Proof.FnamesIO
import Verif.Proof.PathSpec
/-! The order of a path table. -/

namespace Dupi.Fnames

/-- the text of a path given by its elements -/
def pathText (cs : List Bytes) : Bytes := cs.flatMap (47 :: ·)

theorem pathText_snoc (cs : List Bytes) (e : Bytes) : pathText (cs ++ [e]) = pathText cs ++ 47 :: e := by simp [pathText]

theorem pathText_join : ∀ (cs : List Bytes), cs ≠ [] → pathText cs = 47 :: joinSlash cs
  | [], h => absurd rfl h
  | [e], _ => by simp [pathText, joinSlash]
  | e :: f :: cs, _ => by
    have := pathText_join (f :: cs) (by simp)
    simp only [pathText, List.flatMap_cons, joinSlash, sep] at this ⊢
    rw [this]; simp

theorem pathText_split (r : Bytes) : pathText (splitSlash r) = 47 :: r := by
  rw [pathText_join _ (splitSlash_ne_nil r), join_split]

theorem pathText_inj {a b : List Bytes} (ha : ∀ e ∈ a, (47 : UInt8) ∉ e) (hb : ∀ e ∈ b, (47 : UInt8) ∉ e) (h : pathText a = pathText b) : a = b := by
  by_cases h1 : a = []
  · subst h1
    by_cases h2 : b = []
    · exact h2.symm
    · rw [pathText_join b h2] at h; simp [pathText] at h
  · by_cases h2 : b = []
    · subst h2; rw [pathText_join a h1] at h; simp [pathText] at h
    · rw [pathText_join a h1, pathText_join b h2] at h
      rw [← splitSlash_join a h1 ha, ← splitSlash_join b h2 hb, List.cons.inj h |>.2]

/-- the ways to a path are those to its directory, and itself -/
theorem ways_snoc (p e : Bytes) (he : (47 : UInt8) ∉ e) : Spec.ways (p ++ 47 :: e) = Spec.ways p ++ [p ++ 47 :: e] := by
  have hl : (p ++ 47 :: e).length = p.length + (e.length + 1) := by simp
  unfold Spec.ways
  rw [hl, List.range_add, List.filter_append, List.map_append]
  congr 1
  · have : ∀ i ∈ List.range p.length, ((p ++ 47 :: e)[i + 1]? == none || (p ++ 47 :: e)[i + 1]? == some 47) = (p[i + 1]? == none || p[i + 1]? == some 47) := by
      intro i hi
      rw [List.mem_range] at hi
      by_cases h : i + 1 < p.length
      · rw [List.getElem?_append_left h]
      · have : i + 1 = p.length := by omega
        rw [this]; simp
    rw [List.filter_congr this]
    apply List.map_congr_left
    intro i hi
    have := List.mem_range.mp (List.mem_filter.mp hi).1
    rw [List.take_append_of_le_length (by omega)]
  · rw [List.range_succ, List.map_append, List.filter_append]
    have h1 : (List.map (fun x => p.length + x) (List.range e.length)).filter
        (fun i => (p ++ 47 :: e)[i + 1]? == none || (p ++ 47 :: e)[i + 1]? == some 47) = [] := by
      rw [List.filter_eq_nil_iff]
      intro i hi
      obtain ⟨k, hk, rfl⟩ := List.mem_map.mp hi
      rw [List.mem_range] at hk
      have e1 : (p ++ 47 :: e)[p.length + k + 1]? = some e[k] := by
        rw [List.getElem?_append_right (by omega), show p.length + k + 1 - p.length = k + 1 by omega, List.getElem?_cons_succ, List.getElem?_eq_getElem hk]
      rw [e1]
      simp only [Bool.or_eq_true, beq_iff_eq, Option.some.injEq, reduceCtorEq, false_or]
      intro h
      exact he (h ▸ List.getElem_mem hk)
    rw [h1]
    have e2 : (p ++ 47 :: e)[p.length + e.length + 1]? = none := List.getElem?_eq_none (by rw [hl]; omega)
    simp only [List.map_cons, List.map_nil, List.nil_append, List.filter_cons, e2, beq_self_eq_true, Bool.true_or, if_true, List.filter_nil]
    rw [List.take_of_length_le (by rw [hl]; omega)]

theorem ways_nil : Spec.ways [] = [] := rfl

/-- going down from `t` through `ps`: the texts on the way -/
def below (t : Bytes) : List Bytes → List Bytes
  | [] => []
  | p :: ps => (t ++ 47 :: p) :: below (t ++ 47 :: p) ps

theorem ways_below (ps : List Bytes) : ∀ t : Bytes, (∀ e ∈ ps, (47 : UInt8) ∉ e) → Spec.ways (t ++ pathText ps) = Spec.ways t ++ below t ps := by
  induction ps with
  | nil => intro t _; simp [pathText, below]
  | cons p ps ih =>
    intro t h
    have := ih (t ++ 47 :: p) (fun e he => h e (List.mem_cons_of_mem _ he))
    rw [ways_snoc t p (h p (by simp))] at this
    have e1 : t ++ pathText (p :: ps) = t ++ 47 :: p ++ pathText ps := by simp [pathText]
    rw [e1, this, below]; simp

/-- the nodes of a table after the first are those of `L`, in order -/
structure Listed (d : Table) (L : List Bytes) : Prop where
  len : d.length = 1 + L.length
  node : ∀ (i : Nat) (q : Bytes), L[i]? = some q → ∃ cs : List Bytes, cs ≠ [] ∧ (∀ e ∈ cs, (47 : UInt8) ∉ e) ∧ q = pathText cs ∧ Comps d (i + 1) cs

theorem newFnames_listed : Listed newFnames [] := ⟨rfl, by simp⟩

theorem eraseDups_snoc (X : List Bytes) (a : Bytes) : (X ++ [a]).eraseDups = if a ∈ X.eraseDups then X.eraseDups else X.eraseDups ++ [a] := by
  rw [List.eraseDups_append]
  by_cases h : a ∈ X
  · rw [if_pos (List.mem_eraseDups.mpr h)]
    simp [List.removeAll, h]
  · rw [if_neg (fun h' => h (List.mem_eraseDups.mp h'))]
    simp [List.removeAll, h, List.eraseDups_cons]

/-- where a path of the table is listed -/
theorem Listed.find {d : Table} {L : List Bytes} (h : Listed d L) {i : Nat} {cs : List Bytes} (hi : i < d.length) (h0 : i ≠ 0) (hc : Comps d i cs) :
    L[i - 1]? = some (pathText cs) := by
  have hl := h.len
  have hk : i - 1 < L.length := by omega
  obtain ⟨cs', _, _, hq, hc'⟩ := h.node (i - 1) _ (List.getElem?_eq_getElem hk)
  rw [Nat.sub_add_cancel (by omega)] at hc'
  rw [List.getElem?_eq_getElem hk, hq, hc'.det hc]

theorem addParts_le (ps : List Bytes) : ∀ {d p v d'}, addParts d p ps = .ok (v, d') → d.length ≤ d'.length := by
  induction ps with
  | nil => intro d p v d' h; cases h; exact Nat.le_refl _
  | cons x xs ih =>
    intro d p v d' h
    rw [addParts] at h
    cases hn : d[p.toNat]? with
    | none => rw [hn] at h; cases h
    | some n =>
      rw [hn] at h
      simp only at h
      by_cases h0 : get n.children x = 0
      · rw [if_pos h0] at h
        have := ih h
        simp at this; omega
      · rw [if_neg h0] at h
        exact ih h

/-- adding a path lists what is new on the way to it -/
theorem Listed.addParts (ps : List Bytes) : ∀ {d : Table} {p v : UInt32} {d' : Table} {cs X : List Bytes}, WF d → p.toNat < d.length → Comps d p.toNat cs →
    (∀ e ∈ cs ++ ps, (47 : UInt8) ∉ e) → Fnames.addParts d p ps = .ok (v, d') → d'.length < 2 ^ 32 → Listed d X.eraseDups →
    Listed d' (X ++ below (pathText cs) ps).eraseDups := by
  induction ps with
  | nil => intro d p v d' cs X _ _ _ _ h _ hL; cases h; simpa [below] using hL
  | cons x xs ih =>
    intro d p v d' cs X w hp hc hs h hl hL
    have hle := addParts_le _ h
    have hn : d[p.toNat]? = some d[p.toNat] := List.getElem?_eq_getElem hp
    generalize d[p.toNat] = n at hn
    rw [Fnames.addParts, hn] at h
    simp only at h
    have e1 : X ++ below (pathText cs) (x :: xs) = X ++ [pathText (cs ++ [x])] ++ below (pathText (cs ++ [x])) xs := by
      rw [below, pathText_snoc]; simp
    rw [e1]
    have hs' : ∀ e ∈ cs ++ [x] ++ xs, (47 : UInt8) ∉ e := fun e he => hs e (by simpa using he)
    by_cases h0 : get n.children x = 0
    · rw [if_pos h0] at h
      have hgl : (grow d p n x).length = d.length + 1 := by simp [grow]
      have hd : d.length < 2 ^ 32 := by omega
      have hlen : (UInt32.ofNat d.length).toNat = d.length := by simp only [UInt32.toNat_ofNat']; omega
      have hnew := grow_comps_new (nm := x) hd hn hc
      have wg := grow_wf (nm := x) w hn h0 hd
      refine ih wg (by rw [hlen, hgl]; omega) hnew hs' h hl ?_
      rw [eraseDups_snoc, if_neg]
      · refine ⟨by rw [hgl, hL.len]; simp; omega, ?_⟩
        intro i q hi
        by_cases hk : i < X.eraseDups.length
        · rw [List.getElem?_append_left hk] at hi
          obtain ⟨cs', a1, a2, a3, a4⟩ := hL.node i q hi
          exact ⟨cs', a1, a2, a3, grow_comps hn a4⟩
        · have hk' : i = X.eraseDups.length := by
            have := (List.getElem?_eq_some_iff.mp hi).1
            simp at this; omega
          subst hk'
          simp only [List.getElem?_concat_length, Option.some.injEq] at hi
          refine ⟨cs ++ [x], by simp, fun e he => hs' e (List.mem_append_left _ he), hi.symm, ?_⟩
          rw [hlen, hL.len, Nat.add_comm] at hnew
          exact hnew
      · intro hm
        obtain ⟨k, hk⟩ := List.mem_iff_getElem?.mp hm
        obtain ⟨cs', a1, a2, a3, a4⟩ := hL.node k _ hk
        have hkl := (List.getElem?_eq_some_iff.mp hk).1
        have e2 := pathText_inj a2 (fun e he => hs' e (List.mem_append_left _ he)) a3.symm
        rw [e2] at a4
        have := wg.comps_inj (grow_comps hn a4) hnew
        rw [hlen, hL.len] at this
        omega
    · rw [if_neg h0] at h
      obtain ⟨c, hcc, hc1, hc2⟩ := w.child _ _ _ hn h0
      have hlt : (get n.children x).toNat < d.length := (List.getElem?_eq_some_iff.mp hcc).1
      have hne : (get n.children x).toNat ≠ 0 := fun h => h0 (UInt32.toNat_inj.mp (by simpa using h))
      have hcomp : Comps d (get n.children x).toNat (cs ++ [x]) := by
        have := Comps.step hne hcc (by rw [hc1]; exact hc)
        rwa [hc2] at this
      refine ih w hlt hcomp hs' h hl ?_
      rw [eraseDups_snoc, if_pos (List.mem_of_getElem? (hL.find hlt hne hcomp))]
      exact hL

theorem Listed.sim {d e : Table} {L : List Bytes} (h : Listed d L) (s : Sim d e) : Listed e L :=
  ⟨by rw [← h.len]; exact s.1, fun i q hi => by
    obtain ⟨cs, a1, a2, a3, a4⟩ := h.node i q hi
    exact ⟨cs, a1, a2, a3, s.comps a4⟩⟩

theorem ways_abs (cwd p : Bytes) : Spec.ways (absPath cwd p) = below [] (pathParts (absPath cwd p)) := by
  obtain ⟨r, hr, hpp⟩ := pathParts_abs cwd p
  have := ways_below (splitSlash r) [] (splitSlash_plain r)
  rw [pathText_split, ways_nil] at this
  rw [hpp, hr]
  simpa [sep] using this

theorem Listed.addAll (cwd : Bytes) (ps : List Bytes) : ∀ {d : Table} {ids : List UInt32} {d' : Table} {X done : List Bytes}, WF d →
    (∀ n ∈ d, n.name.length < 2 ^ 32) → (∀ i cs, Comps d i cs → OnPaths done cs) → Spec.FewPaths (done ++ absPaths cwd ps) →
    Fnames.addAll cwd d ps = .ok (ids, d') → Listed d X.eraseDups →
    Listed d' (X ++ (absPaths cwd ps).flatMap Spec.ways).eraseDups := by
  induction ps with
  | nil => intro d ids d' X done _ _ _ _ h hL; cases h; simpa [absPaths] using hL
  | cons p ps ih =>
    intro d ids d' X done w hnm hon hf h hL
    have e : done ++ absPaths cwd (p :: ps) = (done ++ absPaths cwd [p]) ++ absPaths cwd ps := by simp [absPaths]
    rw [e] at hf
    obtain ⟨i1, d1, h1, h2, h3, h4, h5, _, h6, h7, hc, h8⟩ := addAll_spec cwd [p] w hnm hon (FewPaths.mono (fun q hq => List.mem_append_left _ hq) hf)
    have h1' := h1
    simp only [Fnames.addAll, bind, Except.bind, pure, Except.pure] at h1' h
    cases hp : addPath cwd d p with
    | error f => rw [hp] at h; cases h
    | ok r =>
      rw [hp] at h h1'
      simp only [Except.ok.injEq, Prod.mk.injEq] at h h1'
      obtain ⟨_, rfl⟩ := h1'
      cases hr : Fnames.addAll cwd r.2 ps with
      | error f => rw [hr] at h; cases h
      | ok s =>
        rw [hr] at h
        simp only [Except.ok.injEq, Prod.mk.injEq] at h
        obtain ⟨_, rfl⟩ := h
        have h0 : 0 < d.length := by
          obtain ⟨x, hx, _⟩ := w.root
          exact (List.getElem?_eq_some_iff.mp hx).1
        obtain ⟨r0, hr0, hpp⟩ := pathParts_abs cwd p
        have := hL.addParts (pathParts (absPath cwd p)) (p := 0) (v := r.1) (d' := r.2) (cs := []) w (by simpa using h0) (by simpa using Comps.root)
          (by rw [hpp]; exact splitSlash_plain r0) hp h6
        have e2 : X ++ (absPaths cwd (p :: ps)).flatMap Spec.ways = X ++ below (pathText []) (pathParts (absPath cwd p)) ++ (absPaths cwd ps).flatMap Spec.ways := by
          simp [absPaths, ways_abs, pathText]
        rw [e2]
        exact ih h2 h3 (onPaths_add hon hc) hf hr this

/-- what a listed table prints -/
theorem Listed.string {d : Table} {L : List Bytes} (w : WF d) (hs : d.length < 2 ^ 32) (h : Listed d L) :
    Fnames.string d = .ok (Spec.asLines ([47] :: L)) := by
  have key : ∀ k, k ≤ d.length → (List.range k).foldlM (fun w i => do
      let a ← Fnames.abs d (UInt32.ofNat i)
      return w ++ (a ++ [10])) ([] : Bytes) = (.ok (Spec.asLines (([47] :: L).take k)) : M Bytes) := by
    intro k
    induction k with
    | zero => intro _; rfl
    | succ k ih =>
      intro hk
      have hk' : (UInt32.ofNat k).toNat = k := by simp only [UInt32.toNat_ofNat']; omega
      have hkl : k < ([47] :: L).length := by have := h.len; simp; omega
      obtain ⟨q, hq⟩ : ∃ q, ([47] :: L)[k]? = some q := ⟨_, List.getElem?_eq_getElem hkl⟩
      have ha : Fnames.abs d (UInt32.ofNat k) = .ok q := by
        cases k with
        | zero =>
          rw [w.abs (cs := []) (by simpa using Comps.root) (by simp; omega)]
          cases hq; rfl
        | succ k =>
          obtain ⟨cs, a1, a2, a3, a4⟩ := h.node k q (by simpa using hq)
          rw [w.abs (cs := cs) (by rw [hk']; exact a4) (by rw [hk']; omega), a3, pathText_join _ a1]
      rw [List.range_succ, List.foldlM_append, ih (by omega)]
      simp only [bind, Except.bind, List.foldlM_cons, List.foldlM_nil, ha, pure, Except.pure]
      rw [List.take_add_one, hq]
      simp [Spec.asLines]
  have := key d.length (Nat.le_refl _)
  rwa [List.take_of_length_le (by have := h.len; simp; omega)] at this

end Dupi.Fnames
