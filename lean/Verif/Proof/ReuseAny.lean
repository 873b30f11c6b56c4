import Verif.Proof.Reuse
/-! # Reusing the memory of documents: any program -/

namespace Dupi.Reuse
open Spec

/-- document number `k` has not been read yet -/
def Unread (base nw : Nat) (pre : List Act) (s : St) (k : Nat) : Prop :=
  (items pre).length ≤ k ∨ ∃ w did d, w < nw ∧ (s.core.workers w).2 = .computing did d ∧ did.toNat - base - 1 = k

/-- A session is one of the ordinary sessions, with the documents as they were when they were read. -/
theorem any_steps {u : Uni} {x : Indexer} {base : Nat} {m0 : Mem} {prog : List Act} {s0 s : St} (hb : base + (items prog).length + 1 < 2 ^ 32)
    (h : Steps u x s0 s) (hs0 : s0 = ⟨start x (reqsS base (items prog)), m0, prog⟩) :
    ∃ pre, Sync base m0 prog x.blotters.length pre s ∧ ∀ dats' : List Bytes, dats'.length = (items prog).length →
      ∃ dats : List Bytes, dats.length = (items prog).length ∧ (∀ k, Unread base x.blotters.length pre s k → dats[k]? = dats'[k]?) ∧
        (∀ k v, dats[k]? = some v → dats'[k]? = some v ∨ HasLater m0 prog k v) ∧
        ∃ n, Sched.Steps (x.params u) n (x.start (reqs (base + 1) (List.zipWith Item.doc (items prog) dats))) (s.core.map (useData base dats)) := by
  induction h with
  | refl =>
    subst hs0
    refine ⟨[], Sync.init .., ?_⟩
    intro dats' hl
    refine ⟨dats', hl, fun _ _ => rfl, fun k v h => .inl h, 0, ?_⟩
    have : (start x (reqsS base (items prog))).map (useData base dats') = x.start (reqs (base + 1) (List.zipWith Item.doc (items prog) dats')) := by
      rw [start, Sched.map_init, reqsS_map _ _ _ hl hb]; rfl
    rw [this]; exact .refl
  | @step s t _ hst ih =>
    obtain ⟨pre, hsync, ih⟩ := ih
    obtain ⟨pre', hsync', hdone⟩ := hsync.step hb hst
    refine ⟨pre', hsync', ?_⟩
    -- what is unread after the step was unread before
    have hun : ∀ k, Unread base x.blotters.length pre' t k → Unread base x.blotters.length pre s k := by
      intro k hk
      cases hdone with
      | write h1 h2 h3 h4 =>
        rcases hk with hk | ⟨w, did, d, g1, g2, g3⟩
        · exact .inl (by simpa [items_append, items] using hk)
        · exact .inr ⟨w, did, d, g1, by rw [← h2]; exact g2, g3⟩
      | add h1 h2 h3 h4 h5 =>
        rename_i i did' w' ds
        rcases hk with hk | ⟨w, did, d, g1, g2, g3⟩
        · exact .inl (by simp [items_append, items] at hk; omega)
        · by_cases e : w = w'
          · subst e
            rw [h5, Sched.upd_same] at g2
            injection g2 with c1 c2
            subst c1
            have hcl := hsync.cl _ h3
            have hget : (reqsS base (items prog))[(items pre).length]? = some (did', i.start, i.dat) := by
              have : ((reqsS base (items prog)).drop (items pre).length)[0]? = some (did', i.start, i.dat) := by rw [← hcl]; rfl
              simpa using this
            rw [reqsS_getElem, Option.map_eq_some_iff] at hget
            obtain ⟨i', q1, q2⟩ := hget
            have hk := (List.getElem?_eq_some_iff.mp q1).1
            have e1 : UInt32.ofNat (base + 1 + (items pre).length) = did' := congrArg Prod.fst q2
            have := congrArg UInt32.toNat e1
            simp only [UInt32.toNat_ofNat'] at this
            exact .inl (by omega)
          · rw [h5, Sched.upd_ne _ _ e] at g2
            exact .inr ⟨w, did, d, g1, g2, g3⟩
      | go h1 h2 h3 =>
        rcases hk with hk | ⟨w, did, d, g1, g2, g3⟩
        · exact .inl hk
        · exact .inr ⟨w, did, d, g1, h3 w did d g2, g3⟩
    intro dats' hl
    rcases hst.core with hc | ⟨hc, hm⟩
    · obtain ⟨dats, d1, d2, d3, n, d4⟩ := ih dats' hl
      exact ⟨dats, d1, fun k hk => d2 k (hun k hk), d3, n, by rw [hc]; exact d4⟩
    · rcases step_comp hc with hkeep | ⟨w, did, d, b, out, hw, c1, c2, c3⟩
      · obtain ⟨dats, d1, d2, d3, n, d4⟩ := ih dats' hl
        refine ⟨dats, d1, fun k hk => d2 k (hun k hk), d3, n + 1, .step d4 (hc.map _ (alike u x s.mem) ?_)⟩
        intro w did d hw g1 g2
        exact absurd (hkeep w did d g1) g2
      · -- the document is read in this step
        change w < x.blotters.length at hw
        obtain ⟨k, i, g1, g2, g3, g4⟩ := hsync.comp w did d hw c1
        have hk := (List.getElem?_eq_some_iff.mp g2).1
        have hdid : did.toNat - base - 1 = k := by rw [g3]; simp only [UInt32.toNat_ofNat']; omega
        obtain ⟨dats, d1, d2, d3, n, d4⟩ := ih (dats'.set k (d.2.read s.mem)) (by rw [List.length_set]; exact hl)
        have hdk : dats[k]? = some (d.2.read s.mem) := by
          rw [d2 k (.inr ⟨w, did, d, hw, c1, hdid⟩), List.getElem?_set]; simp [hl, hk]
        have hne : ∀ j, Unread base x.blotters.length pre' t j → j ≠ k := by
          rintro j hj rfl
          have hpre : pre' = pre := by
            cases hdone with
            | write h1 h2 h3 h4 =>
              have := congrArg (fun f => (f w).2) c2
              simp only [Sched.upd_same, h2, c1] at this
              cases this
            | add h1 h2 h3 h4 h5 =>
              rename_i i' did' w' ds
              rw [h3, h4] at c3
              injection c3 with c3
              have := congrArg List.length c3
              simp at this
            | go => rfl
          subst hpre
          rcases hj with hj | ⟨w', did', d', q1, q2, q3⟩
          · omega
          · have hnew : w' ≠ w := by
              rintro rfl
              rw [c2, Sched.upd_same] at q2; cases q2
            rw [c2, Sched.upd_ne _ _ hnew] at q2
            obtain ⟨k', i', p1, p2, p3, p4⟩ := hsync.comp w' did' d' q1 q2
            have hk' := (List.getElem?_eq_some_iff.mp p2).1
            have hkk : k' = j := by
              have : did'.toNat - base - 1 = k' := by rw [p3]; simp only [UInt32.toNat_ofNat']; omega
              omega
            have : did' = did := by rw [p3, g3, hkk]
            subst this
            exact hnew (hsync.uniq w' w did' d' d q1 hw q2 c1)
        refine ⟨dats, d1, ?_, ?_, n + 1, .step d4 (hc.map _ (alike u x s.mem) ?_)⟩
        · intro j hj
          rw [d2 j (hun j hj), List.getElem?_set_ne (Ne.symm (hne j hj))]
        · intro j v hv
          by_cases e : j = k
          · subst e
            rw [hdk] at hv; injection hv with hv
            refine .inr ⟨pre, s.prog, i, hsync.split, g1, g2, ?_⟩
            rw [← hv, g4, hsync.mem]; rfl
          · rcases d3 j v hv with h | h
            · rw [List.getElem?_set_ne (Ne.symm e)] at h; exact .inl h
            · exact .inr h
        · intro w' did' d' hw' q1 q2
          have hww : w' = w := by
            by_cases e : w' = w
            · exact e
            · rw [c2, Sched.upd_ne _ _ e] at q2; exact absurd q1 q2
          subst hww
          rw [c1] at q1
          injection q1 with e1 e2
          subst e1 e2
          simp only [params, useData, hdid, List.getD_eq_getElem?_getD, hdk, Option.getD_some]

theorem items_split {prog : List Act} : ∀ {k : Nat}, k < (items prog).length → ∃ pre d l, prog = pre ++ .add d :: l ∧ (items pre).length = k := by
  induction prog with
  | nil => intro k h; simp [items] at h
  | cons a prog ih =>
    intro k h
    cases a with
    | write b v =>
      obtain ⟨pre, d, l, h1, h2⟩ := ih (k := k) h
      exact ⟨.write b v :: pre, d, l, by rw [h1]; rfl, h2⟩
    | add d =>
      cases k with
      | zero => exact ⟨[], d, prog, rfl, rfl⟩
      | succ k =>
        obtain ⟨pre, d', l, h1, h2⟩ := ih (k := k) (by simpa [items] using h)
        exact ⟨.add d :: pre, d', l, by rw [h1]; rfl, by simp [items, h2]⟩

/-- the data at the `Add` -/
theorem dataAt_later (m0 : Mem) (prog : List Act) {k : Nat} {v : Bytes} (h : (dataAt m0 prog)[k]? = some v) : HasLater m0 prog k v := by
  have hk := (List.getElem?_eq_some_iff.mp h).1
  rw [dataAt_length] at hk
  obtain ⟨pre, d, l, h1, h2⟩ := items_split hk
  subst h1 h2
  rw [dataAt_add] at h
  injection h with h
  refine ⟨pre ++ [.add d], l, d, by simp, by simp [items_append, items], ?_, ?_⟩
  · simp [items_append, items]
  · rw [← h, memAfter_append]; rfl

/-! ### All the documents are read at the end -/

/-- adding documents without writing -/
def addAll (its : List Item) : List Act := its.map Act.add

theorem items_addAll (its : List Item) : items (addAll its) = its := by
  induction its with
  | nil => rfl
  | cons i its ih => simpa [addAll, items] using ih

theorem memAfter_addAll (its : List Item) (m : Mem) : memAfter m (addAll its) = m := by
  induction its with
  | nil => rfl
  | cons i its ih => simpa [addAll, memAfter] using ih

theorem docsAt_addAll (its : List Item) (m : Mem) : docsAt m (addAll its) = its.map fun i => i.doc (i.dat.read m) := by
  induction its with
  | nil => rfl
  | cons i its ih => simpa [addAll, docsAt, Item.doc, Slice.read] using ih

theorem sized_addAll (its : List Item) (m : Mem) : Sized m (addAll its) := by
  induction its with
  | nil => trivial
  | cons i its ih => simpa [addAll, Sized] using ih

/-- The caller runs its program before any shatterer reads its document. -/
theorem gather {u : Uni} {x : Indexer} {base : Nat} {m0 : Mem} {prog : List Act} (hb : base + (items prog).length + 1 < 2 ^ 32)
    (hz : Sized m0 prog) (hn : (items prog).length ≤ x.blotters.length) (pre : List Act) : ∀ l : List Act, prog = pre ++ l →
    ∃ s, Steps u x ⟨start x (reqsS base (items prog)), m0, prog⟩ s ∧ s.prog = l ∧ Sync base m0 prog x.blotters.length pre s ∧
      (∀ w, (items pre).length ≤ w → (s.core.workers w).2 = .idle) ∧
      ∀ dats : List Bytes, dats.length = (items prog).length → ∃ n,
        Sched.Steps (x.params u) n (x.start (reqs (base + 1) (List.zipWith Item.doc (items prog) dats))) (s.core.map (useData base dats)) := by
  induction pre using snocInd with
  | nil =>
    intro l hl
    simp only [List.nil_append] at hl
    subst hl
    refine ⟨_, .refl, rfl, Sync.init .., fun _ _ => rfl, ?_⟩
    intro dats hd
    refine ⟨0, ?_⟩
    have : (start x (reqsS base (items prog))).map (useData base dats) = x.start (reqs (base + 1) (List.zipWith Item.doc (items prog) dats)) := by
      rw [start, Sched.map_init, reqsS_map _ _ _ hd hb]; rfl
    rw [this]; exact .refl
  | snoc pre a ih =>
    intro l hl
    obtain ⟨s, g1, g2, g3, g4, g5⟩ := ih (a :: l) (by rw [hl]; simp)
    cases a with
    | write b v =>
      have hz' : Sized s.mem s.prog := by
        rw [g3.mem]; apply Sized.append (l := pre); rw [← g3.split]; exact hz
      rw [g2] at hz'
      have hst : Step u x s ⟨s.core, Sched.upd s.mem b v, l⟩ := .write g2 hz'.1
      obtain ⟨pre', h1, h2⟩ := g3.step hb hst
      have hp : pre' = pre ++ [.write b v] := by
        cases h2 with
        | write q => rw [g2] at q; injection q with q _; rw [q]
        | add q => rw [g2] at q; injection q with q _; cases q
        | go q => rw [g2] at q; have := congrArg List.length q; simp at this
      subst hp
      refine ⟨_, .step g1 hst, rfl, h1, ?_, g5⟩
      intro w hw
      exact g4 w (by simpa [items_append, items] using hw)
    | add d =>
      have hlen := congrArg List.length (congrArg items hl)
      rw [items_append, items_append] at hlen
      simp only [items, List.length_append, List.length_cons, List.length_nil] at hlen
      have hc : ∃ ds, s.core.client = .add ds := by
        false_or_by_contra
        rename_i hno
        have := g3.cl' (fun ds e => hno ⟨ds, e⟩)
        rw [g2] at this; cases this
      obtain ⟨ds, hc⟩ := hc
      have hds := g3.cl ds hc
      cases ds with
      | nil =>
        have := congrArg List.length hds
        rw [List.length_drop, reqsS_length] at this
        simp only [List.length_nil] at this
        omega
      | cons r ds =>
        obtain ⟨did, e⟩ := r
        have hg : Sched.Step (params u x s.mem) s.core { s.core.setW (items pre).length (.computing did e) with client := .add ds } :=
          .give hc (by show (items pre).length < x.blotters.length; omega) (g4 _ (Nat.le_refl _))
        have hst : Step u x s ⟨_, s.mem, l⟩ := .add g2 hg (by rw [hc]; rfl)
        obtain ⟨pre', h1, h2⟩ := g3.step hb hst
        have hp : pre' = pre ++ [.add d] := by
          cases h2 with
          | write q => rw [g2] at q; injection q with q _; cases q
          | add q => rw [g2] at q; injection q with q _; rw [q]
          | go q => rw [g2] at q; have := congrArg List.length q; simp at this
        subst hp
        refine ⟨_, .step g1 hst, rfl, h1, ?_, ?_⟩
        · intro w hw
          simp only [items_append, items, List.length_append, List.length_cons, List.length_nil] at hw
          show (Sched.upd s.core.workers (items pre).length _ w).2 = _
          rw [Sched.upd_ne _ _ (by omega)]
          exact g4 w (by omega)
        · intro dats hd
          obtain ⟨n, hn⟩ := g5 dats hd
          refine ⟨n + 1, .step hn (hg.map _ (alike u x s.mem) ?_)⟩
          intro w did' d' hw q1 q2
          exfalso
          apply q2
          show (Sched.upd s.core.workers (items pre).length _ w).2 = _
          by_cases ew : w = (items pre).length
          · rw [ew, g4 _ (Nat.le_refl _)] at q1; cases q1
          · rw [Sched.upd_ne _ _ ew]; exact q1

theorem steps_trans {u : Uni} {x : Indexer} {s r t : St} (h1 : Steps u x s r) (h2 : Steps u x r t) : Steps u x s t := by
  induction h2 with
  | refl => exact h1
  | step _ h ih => exact .step ih h

section
variable {u : Uni} {J : CfgCodec} {c : Config} {x : Indexer} {docs : List Document} (hU : Usable J c) (h : IndexerRep u c x docs)
  (cwd : Bytes) (m0 : Mem) (prog : List Act)

include hU h in
/-- With no more documents than shatterers all of them can be read after the last write. -/
theorem late (hz : Sized m0 prog) (hn : (items prog).length ≤ x.blotters.length)
    (hf : Fits u c (docs ++ added cwd (docsAt (memAfter m0 prog) (addAll (items prog))))) :
    ∃ t pre, Steps u x ⟨start x (reqsS docs.length (items prog)), m0, prog⟩ t ∧ t.core.client = .done ∧
      Safe u x docs.length (memAfter m0 prog) (addAll (items prog)) pre t := by
  have hsm := small cwd _ _ hf
  rw [items_addAll] at hsm
  obtain ⟨s, g1, g2, g3, g4, g5⟩ := gather (u := u) (base := docs.length) hsm hz hn prog [] (by simp)
  have hs : Safe u x docs.length (memAfter m0 prog) (addAll (items prog)) (addAll (items prog)) s := by
    refine ⟨⟨by rw [g2]; simp, by rw [memAfter_addAll, g3.mem], ?_, ?_, ?_, g3.uniq⟩, ?_, ?_, by rw [g2]; trivial⟩
    · rw [items_addAll]; exact g3.cl
    · exact g3.cl'
    · rw [items_addAll]; exact g3.comp
    · obtain ⟨n, hn⟩ := g5 (dataAt (memAfter m0 prog) (addAll (items prog))) (by rw [dataAt_length, items_addAll])
      refine ⟨n, ?_⟩
      rw [docsAt_eq, items_addAll]; exact hn
    · intro w did d hw hc
      obtain ⟨k, i, q1, q2, q3, q4⟩ := g3.comp w did d hw hc
      have hk := (List.getElem?_eq_some_iff.mp q2).1
      have : did.toNat - docs.length - 1 = k := by rw [q3]; simp only [UInt32.toNat_ofNat']; omega
      rw [this, q4, List.getD_eq_getElem?_getD, dataAt, docsAt_addAll, List.map_map, List.getElem?_map, q2, g3.mem]
      rfl
  obtain ⟨t, h1, h2⟩ := hs.finish hU h cwd _ _ hf (sized_addAll _ _) _ (Nat.le_refl _)
  obtain ⟨pre, h3⟩ := Safe.steps hU h cwd _ _ hf h1 hs
  exact ⟨t, pre, steps_trans g1 h1, h2, h3⟩

include h in
/-- adding the documents, with whatever data -/
theorem front_ok (dats : List Bytes) (hl : dats.length = (items prog).length) (hf : Fits u c (docs ++ added cwd (docsAt m0 prog))) :
    ∃ front, x.front.adds cwd ((items prog).map fun i => i.doc []) = .ok (reqs (docs.length + 1) ((items prog).map fun i => i.doc []), front) ∧
      x.front.adds cwd (List.zipWith Item.doc (items prog) dats) = .ok (reqs (docs.length + 1) (List.zipWith Item.doc (items prog) dats), front) := by
  have paths : ∀ (its : List Item) (ds es : List Bytes), ds.length = its.length → es.length = its.length →
      (added cwd (List.zipWith Item.doc its ds)).map (fun s => s.path) = (added cwd (List.zipWith Item.doc its es)).map (fun s => s.path) := by
    intro its
    induction its with
    | nil => intro ds es _ _; simp
    | cons i its ih =>
      intro ds es h1 h2
      cases ds with
      | nil => simp at h1
      | cons a ds =>
        cases es with
        | nil => simp at h2
        | cons b es =>
          have := ih ds es (by simpa using h1) (by simpa using h2)
          exact congrArg (List.cons _) this
  have hmap : ((items prog).map fun i => i.doc []) = List.zipWith Item.doc (items prog) (List.replicate (items prog).length []) := by
    apply List.ext_getElem?
    intro k
    rw [List.getElem?_map, List.getElem?_zipWith, List.getElem?_replicate]
    cases hk : (items prog)[k]? with
    | none => rfl
    | some i => simp [(List.getElem?_eq_some_iff.mp hk).1]
  have key : ∀ ds : List Bytes, ds.length = (items prog).length → ∃ front,
      x.front.adds cwd (List.zipWith Item.doc (items prog) ds) = .ok (reqs (docs.length + 1) (List.zipWith Item.doc (items prog) ds), front) := by
    intro ds hds
    have h1 := hf.ids
    have h2 := hf.paths
    obtain ⟨front, g, _⟩ := Front.adds_rep cwd (List.zipWith Item.doc (items prog) ds) h.front
      (by simpa [added, docsAt_length, hds] using h1)
      (by rw [docsAt_eq] at h2
          rw [List.map_append, paths _ ds (dataAt m0 prog) hds (dataAt_length _ _), ← List.map_append]; exact h2)
    exact ⟨front, g⟩
  obtain ⟨front, g1⟩ := key _ (List.length_replicate ..)
  obtain ⟨front', g2⟩ := key dats hl
  obtain ⟨rs', g3⟩ := adds_data cwd (items prog) dats hl (by rw [hmap]; exact g1)
  rw [g2] at g3
  injection g3 with g3
  injection g3 with _ g3
  subst g3
  exact ⟨front', by rw [hmap]; exact g1, g2⟩

end

end Dupi.Reuse
