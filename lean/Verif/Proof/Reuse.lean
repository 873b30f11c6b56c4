import Verif.Proof.SchedMap
import Verif.Proof.Indexer
import Verif.Spec.Reuse
/-! # Reusing the memory of documents -/

namespace Dupi.Reuse
open Spec

/-! ### Steps of the goroutine system, seen from the caller -/

section
variable {W S D α : Type}

/-- A document is handed over, or the caller goes on to close the index, or does not move. -/
theorem step_kinds {P : Sched.Params W S D α} {s t : Sched.St W S D α} (h : Sched.Step P s t) :
    (∃ did d ds w, s.client = .add ((did, d) :: ds) ∧ t.client = .add ds ∧ w < P.nw ∧
      t.workers = Sched.upd s.workers w ((s.workers w).1, .computing did d)) ∨
    ((t.client = s.client ∨ ((s.client = .add [] ∨ ∀ ds, s.client ≠ .add ds) ∧ ∀ ds, t.client ≠ .add ds)) ∧
      ∀ w did d, (t.workers w).2 = .computing did d → (s.workers w).2 = .computing did d) := by
  have keep : ∀ (w : Nat) (b : W) (v : Sched.WSt D α), (∀ did d, v ≠ .computing did d) →
      ∀ w' did d, (Sched.upd s.workers w (b, v) w').2 = .computing did d → (s.workers w').2 = .computing did d := by
    intro w b v hv w' did d h
    by_cases e : w' = w
    · subst e; rw [Sched.upd_same] at h; exact absurd h (hv did d)
    · rwa [Sched.upd_ne _ _ e] at h
  cases h with
  | give h1 h2 h3 => exact .inl ⟨_, _, _, _, h1, rfl, h2, rfl⟩
  | startShut h1 => exact .inr ⟨.inr ⟨.inl h1, nofun⟩, fun _ _ _ h => h⟩
  | shut h1 h2 h3 => exact .inr ⟨.inr ⟨.inr (by rw [h1]; exact nofun), nofun⟩, keep _ _ _ nofun⟩
  | startClose h1 => exact .inr ⟨.inr ⟨.inr (by rw [h1]; exact nofun), nofun⟩, fun _ _ _ h => h⟩
  | close h1 h2 => exact .inr ⟨.inr ⟨.inr (by rw [h1]; exact nofun), nofun⟩, fun _ _ _ h => h⟩
  | closeDone h1 => exact .inr ⟨.inr ⟨.inr (by rw [h1]; exact nofun), nofun⟩, fun _ _ _ h => h⟩
  | compute => exact .inr ⟨.inl rfl, keep _ _ _ nofun⟩
  | lock => exact .inr ⟨.inl rfl, keep _ _ _ nofun⟩
  | pass => exact .inr ⟨.inl rfl, keep _ _ _ nofun⟩
  | wait => exact .inr ⟨.inl rfl, keep _ _ _ nofun⟩
  | relock => exact .inr ⟨.inl rfl, keep _ _ _ nofun⟩
  | post => exact .inr ⟨.inl rfl, keep _ _ _ nofun⟩
  | @cross w w' j did did' ss ss' ps h1 h2 h3 h4 h5 h6 h7 h8 =>
    refine .inr ⟨.inl rfl, ?_⟩
    intro v did d h
    simp only [Sched.St.setW] at h
    by_cases e : v = w'
    · subst e; rw [Sched.upd_same] at h; cases h
    · rw [Sched.upd_ne _ _ e] at h
      by_cases e' : v = w
      · subst e'; rw [Sched.upd_same] at h; cases h
      · rwa [Sched.upd_ne _ _ e'] at h
  | serve => exact .inr ⟨.inl rfl, fun _ _ _ h => h⟩
  | ack => exact .inr ⟨.inl rfl, keep _ _ _ nofun⟩
  | ackClosed => exact .inr ⟨.inl rfl, keep _ _ _ nofun⟩
  | sent => exact .inr ⟨.inl rfl, keep _ _ _ nofun⟩
  | publish => exact .inr ⟨.inl rfl, keep _ _ _ nofun⟩
  | @broadcast w h1 h2 =>
    refine .inr ⟨.inl rfl, ?_⟩
    intro v did d h
    by_cases e : v = w
    · subst e; simp only [Sched.upd_same] at h; cases h
    · simp only [Sched.upd_ne _ _ e] at h
      generalize hx : (s.workers v).2 = y at h
      cases y <;> first | exact h | cases h
  | unlock => exact .inr ⟨.inl rfl, keep _ _ _ nofun⟩
  | exit => exact .inr ⟨.inl rfl, fun _ _ _ h => h⟩

/-- No shatterer finishes its computation, or one does. -/
theorem step_comp {P : Sched.Params W S D α} {s t : Sched.St W S D α} (h : Sched.Step P s t) :
    (∀ w did d, (s.workers w).2 = .computing did d → (t.workers w).2 = .computing did d) ∨
    (∃ w did d b out, w < P.nw ∧ (s.workers w).2 = .computing did d ∧ t.workers = Sched.upd s.workers w (b, .locking did out) ∧ t.client = s.client) := by
  have keep : ∀ (w : Nat) (b : W) (v : Sched.WSt D α), (∀ did d, (s.workers w).2 ≠ .computing did d) →
      ∀ w' did d, (s.workers w').2 = .computing did d → (Sched.upd s.workers w (b, v) w').2 = .computing did d := by
    intro w b v hv w' did d h
    by_cases e : w' = w
    · subst e; exact absurd h (hv did d)
    · rwa [Sched.upd_ne _ _ e]
  cases h with
  | give h1 h2 h3 => exact .inl (keep _ _ _ (by rw [h3]; exact nofun))
  | startShut h1 => exact .inl fun _ _ _ h => h
  | shut h1 h2 h3 => exact .inl (keep _ _ _ (by rw [h3]; exact nofun))
  | startClose h1 => exact .inl fun _ _ _ h => h
  | close h1 h2 => exact .inl fun _ _ _ h => h
  | closeDone h1 => exact .inl fun _ _ _ h => h
  | compute h1 h2 h3 => exact .inr ⟨_, _, _, _, _, h1, h2, rfl, rfl⟩
  | lock h1 h2 => exact .inl (keep _ _ _ (by rw [h2]; exact nofun))
  | pass h1 h2 => exact .inl (keep _ _ _ (by rw [h2]; exact nofun))
  | wait h1 h2 => exact .inl (keep _ _ _ (by rw [h2]; exact nofun))
  | relock h1 h2 => exact .inl (keep _ _ _ (by rw [h2]; exact nofun))
  | post h1 h2 h3 => exact .inl (keep _ _ _ (by rw [h3]; exact nofun))
  | @cross w w' j did did' ss ss' ps h1 h2 h3 h4 h5 h6 h7 h8 =>
    refine .inl ?_
    intro v did d h
    simp only [Sched.St.setW]
    by_cases e : v = w'
    · subst e; rw [h7] at h; cases h
    · rw [Sched.upd_ne _ _ e]
      by_cases e' : v = w
      · subst e'; rw [h5] at h; cases h
      · rwa [Sched.upd_ne _ _ e']
  | serve => exact .inl fun _ _ _ h => h
  | ack h1 h2 h3 => exact .inl (keep _ _ _ (by rw [h3]; exact nofun))
  | ackClosed h1 h2 h3 => exact .inl (keep _ _ _ (by rw [h3]; exact nofun))
  | sent h1 h2 => exact .inl (keep _ _ _ (by rw [h2]; exact nofun))
  | publish h1 h2 => exact .inl (keep _ _ _ (by rw [h2]; exact nofun))
  | @broadcast w h1 h2 =>
    refine .inl ?_
    intro v did d h
    by_cases e : v = w
    · subst e; rw [h2] at h; cases h
    · simp only [Sched.upd_ne _ _ e, h]; rfl
  | unlock h1 h2 => exact .inl (keep _ _ _ (by rw [h2]; exact nofun))
  | exit => exact .inl fun _ _ _ h => h

theorem left_nonadd {c : Sched.Client D} (h : ∀ ds, c ≠ .add ds) : left c = 0 := by
  cases c <;> first | rfl | exact absurd rfl (h _)

end

/-! ### Programs -/

theorem docsAt_append (l r : List Act) : ∀ m, docsAt m (l ++ r) = docsAt m l ++ docsAt (memAfter m l) r := by
  induction l with
  | nil => intro m; rfl
  | cons a l ih => intro m; cases a <;> simp [docsAt, memAfter, ih]

theorem memAfter_append (l r : List Act) : ∀ m, memAfter m (l ++ r) = memAfter (memAfter m l) r := by
  induction l with
  | nil => intro m; rfl
  | cons a l ih => intro m; cases a <;> simp [memAfter, ih]

theorem items_append (l r : List Act) : items (l ++ r) = items l ++ items r := by
  induction l with
  | nil => rfl
  | cons a l ih => cases a <;> simp [items, ih]

/-- the data of the documents at their `Add` -/
def dataAt (m : Mem) (prog : List Act) : List Bytes := (docsAt m prog).map fun d => d.dat.getD []

theorem docsAt_eq (prog : List Act) : ∀ m, docsAt m prog = List.zipWith Item.doc (items prog) (dataAt m prog) := by
  induction prog with
  | nil => intro m; rfl
  | cons a l ih =>
    intro m
    cases a with
    | write b v => exact ih _
    | add d =>
      simp only [docsAt, dataAt, items, List.map_cons, List.zipWith_cons_cons]
      congr 1
      exact ih m

theorem docsAt_length (prog : List Act) : ∀ m, (docsAt m prog).length = (items prog).length := by
  induction prog with
  | nil => intro m; rfl
  | cons a l ih => intro m; cases a <;> simp [docsAt, items, ih]

theorem dataAt_length (m : Mem) (prog : List Act) : (dataAt m prog).length = (items prog).length := by
  simp [dataAt, docsAt_length]

theorem dataAt_add {m : Mem} {pre l : List Act} {d : Item} :
    (dataAt m (pre ++ .add d :: l))[(items pre).length]? = some (d.dat.read (memAfter m pre)) := by
  simp only [dataAt, docsAt_append, List.map_append]
  rw [List.getElem?_append_right (by simp [docsAt_length])]
  simp [docsAt_length, docsAt, Slice.read]

theorem Sized.append {l r : List Act} : ∀ {m}, Sized m (l ++ r) → Sized (memAfter m l) r := by
  induction l with
  | nil => intro m h; exact h
  | cons a l ih =>
    intro m h
    cases a with
    | write b v => exact ih h.2
    | add d => exact ih (m := m) h

/-- the buffers of the documents added, the last one first -/
def bufs (pre : List Act) : List Nat := ((items pre).map fun d => d.dat.buf).reverse

theorem bufs_add (pre : List Act) (d : Item) : bufs (pre ++ [.add d]) = d.dat.buf :: bufs pre := by
  simp [bufs, items_append, items]

theorem bufs_write (pre : List Act) (b : Nat) (v : Bytes) : bufs (pre ++ [.write b v]) = bufs pre := by
  simp [bufs, items_append, items]

/-! ### Requests -/

/-- the requests of a session -/
def reqsS (base : Nat) (its : List Item) : List (UInt32 × UInt32 × Slice) :=
  requests (reqs (base + 1) (its.map fun i => i.doc [])) its

theorem reqsS_getElem (its : List Item) : ∀ (base k : Nat), (reqsS base its)[k]? = its[k]?.map fun i => (UInt32.ofNat (base + 1 + k), i.start, i.dat) := by
  induction its with
  | nil => intro base k; rfl
  | cons i its ih =>
    intro base k
    cases k with
    | zero => rfl
    | succ k =>
      have := ih (base + 1) k
      simp only [reqsS] at this
      simp only [reqsS, List.map_cons, reqs, requests, List.getElem?_cons_succ]
      rw [this, show base + 1 + 1 + k = base + 1 + (k + 1) by omega]

theorem reqsS_length (base : Nat) (its : List Item) : (reqsS base its).length = its.length := by
  induction its generalizing base with
  | nil => rfl
  | cons i its ih =>
    have := ih (base + 1)
    simp only [reqsS] at this
    simp [reqsS, reqs, requests, this]

/-- the documents with the data `dats` in place of the slices -/
def useData (base : Nat) (dats : List Bytes) (did : UInt32) (d : UInt32 × Slice) : UInt32 × Bytes := (d.1, dats.getD (did.toNat - base - 1) [])

theorem reqsS_map (base : Nat) (its : List Item) (dats : List Bytes) (hl : dats.length = its.length) (hb : base + its.length + 1 < 2 ^ 32) :
    (reqsS base its).map (Sched.reqMap (useData base dats)) = reqs (base + 1) (List.zipWith Item.doc its dats) := by
  apply List.ext_getElem?
  intro k
  rw [List.getElem?_map, reqsS_getElem, reqs_getElem, List.getElem?_zipWith]
  cases h1 : its[k]? with
  | none => rfl
  | some i =>
    have hk : k < its.length := (List.getElem?_eq_some_iff.mp h1).1
    have h2 : dats[k]? = some dats[k] := List.getElem?_eq_getElem (by omega)
    have h3 : (UInt32.ofNat (base + 1 + k)).toNat - base - 1 = k := by simp only [UInt32.toNat_ofNat']; omega
    simp only [h2, Sched.reqMap, useData, h3, Item.doc, List.getD_eq_getElem?_getD, Option.map_some, Option.getD_some]

/-- `doc2Id` does not look at the data. -/
theorem adds_data (cwd : Bytes) : ∀ (its : List Item) (dats : List Bytes), dats.length = its.length → ∀ {x : Front} {rs : List Front.Req} {x' : Front},
    x.adds cwd (its.map fun i => i.doc []) = .ok (rs, x') → ∃ rs', x.adds cwd (List.zipWith Item.doc its dats) = .ok (rs', x') := by
  intro its
  induction its with
  | nil => intro dats _ x rs x' h; simp only [List.map_nil, Front.adds] at h; injection h with h; injection h with _ h; subst h; exact ⟨[], by simp [Front.adds]⟩
  | cons i its ih =>
    intro dats hl x rs x' h
    cases dats with
    | nil => simp at hl
    | cons b dats =>
      simp only [List.map_cons, Front.adds] at h
      cases h1 : x.add cwd (i.doc []) with
      | error e => simp [h1, bind, Except.bind] at h
      | ok p =>
      obtain ⟨id, y⟩ := p
      simp only [h1, bind, Except.bind] at h
      cases h3 : y.adds cwd (its.map fun i => i.doc []) with
      | error e => simp [h3] at h
      | ok p =>
      obtain ⟨rs1, z⟩ := p
      simp only [h3, pure, Except.pure] at h
      obtain ⟨rs', h5⟩ := ih dats (by simpa using hl) h3
      injection h with h4; injection h4 with _ h4; subst h4
      have h6 : x.add cwd (i.doc b) = .ok (id, y) := h1
      exact ⟨_, by simp only [List.zipWith_cons_cons, Front.adds, h6, h5, bind, Except.bind, pure, Except.pure]; rfl⟩

/-! ### What the caller, the memory and the shatterers have to do with each other -/

structure Sync (base : Nat) (m0 : Mem) (prog : List Act) (nw : Nat) (pre : List Act) (s : St) : Prop where
  split : prog = pre ++ s.prog
  mem : s.mem = memAfter m0 pre
  cl : ∀ ds, s.core.client = .add ds → ds = (reqsS base (items prog)).drop (items pre).length
  cl' : (∀ ds, s.core.client ≠ .add ds) → items s.prog = []
  comp : ∀ w did d, w < nw → (s.core.workers w).2 = .computing did d → ∃ (k : Nat) (i : Item), k < (items pre).length ∧ (items prog)[k]? = some i ∧
    did = UInt32.ofNat (base + 1 + k) ∧ d = (i.start, i.dat)
  uniq : ∀ w w' did d d', w < nw → w' < nw → (s.core.workers w).2 = .computing did d → (s.core.workers w').2 = .computing did d' → w = w'

theorem Sync.init (base : Nat) (m0 : Mem) (prog : List Act) (nw : Nat) (x : Indexer) :
    Sync base m0 prog nw [] ⟨start x (reqsS base (items prog)), m0, prog⟩ where
  split := rfl
  mem := rfl
  cl := by intro ds h; simp only [start, Sched.init] at h; injection h with h; simp [← h, items]
  cl' := by intro h; exact absurd rfl (h _)
  comp := by intro w did d _ h; cases h
  uniq := by intro w w' did d d' _ _ h; cases h

/-- the part of `prog` that is done after a step -/
inductive Done (s : St) (pre : List Act) : St → List Act → Prop where
  | write {b : Nat} {v : Bytes} {t : St} : s.prog = .write b v :: t.prog → t.core = s.core → t.mem = Sched.upd s.mem b v → v.length = (s.mem b).length →
      Done s pre t (pre ++ [.write b v])
  | add {d : Item} {did : UInt32} {w : Nat} {t : St} {ds : List (UInt32 × UInt32 × Slice)} : s.prog = .add d :: t.prog → t.mem = s.mem →
      s.core.client = .add ((did, d.start, d.dat) :: ds) → t.core.client = .add ds →
      t.core.workers = Sched.upd s.core.workers w ((s.core.workers w).1, .computing did (d.start, d.dat)) → Done s pre t (pre ++ [.add d])
  | go {t : St} : t.prog = s.prog → t.mem = s.mem →
      (∀ w did d, (t.core.workers w).2 = .computing did d → (s.core.workers w).2 = .computing did d) → Done s pre t pre

theorem Sync.step {u : Uni} {x : Indexer} {base : Nat} {m0 : Mem} {prog pre : List Act} {s t : St} (hb : base + (items prog).length + 1 < 2 ^ 32)
    (h : Sync base m0 prog x.blotters.length pre s)
    (hs : Step u x s t) : ∃ pre', Sync base m0 prog x.blotters.length pre' t ∧ Done s pre t pre' := by
  cases hs with
  | @write b v l h1 h2 =>
    refine ⟨pre ++ [.write b v], ?_, .write (t := ⟨s.core, Sched.upd s.mem b v, l⟩) h1 rfl rfl h2⟩
    have hi : (items (pre ++ [.write b v])) = items pre := by simp [items_append, items]
    refine ⟨by rw [h.split, h1]; simp, ?_, ?_, ?_, ?_, h.uniq⟩
    · rw [memAfter_append, ← h.mem]; rfl
    · rw [hi]; exact h.cl
    · intro hc; have := h.cl' hc; rw [h1] at this; exact this
    · rw [hi]; exact h.comp
  | @add d l t h1 h2 h3 =>
    rcases step_kinds h2 with ⟨did, e, ds, w, k1, k2, k3, k4⟩ | ⟨k1, k2⟩
    · -- the document handed over is the one of the program
      have hcl := h.cl _ k1
      have hil : items (pre ++ [.add d]) = items pre ++ [d] := by simp [items_append, items]
      have hget : (items prog)[(items pre).length]? = some d := by
        rw [h.split, h1, items_append, List.getElem?_append_right (Nat.le_refl _)]; simp [items]
      have hr : (reqsS base (items prog))[(items pre).length]? = some (did, e) := by
        have : ((reqsS base (items prog)).drop (items pre).length)[0]? = some (did, e) := by rw [← hcl]; rfl
        simpa using this
      rw [reqsS_getElem, hget] at hr
      simp only [Option.map_some, Option.some.injEq, Prod.mk.injEq] at hr
      obtain ⟨e1, e2⟩ := hr
      subst e2
      refine ⟨pre ++ [.add d], ?_, .add (t := ⟨t, s.mem, l⟩) h1 rfl k1 k2 k4⟩
      have hw1 : ∀ w', w' ≠ w → t.workers w' = s.core.workers w' := fun w' hne => by rw [k4, Sched.upd_ne _ _ hne]
      have hw2 : (t.workers w).2 = .computing did (d.start, d.dat) := by rw [k4, Sched.upd_same]
      have hfresh : ∀ w' d', w' < x.blotters.length → (s.core.workers w').2 ≠ .computing did d' := by
        intro w' d' hw' hc
        obtain ⟨k, i, g1, g2, g3, _⟩ := h.comp w' did d' hw' hc
        have hk := (List.getElem?_eq_some_iff.mp g2).1
        have hk' := (List.getElem?_eq_some_iff.mp hget).1
        rw [← e1] at g3
        have := congrArg UInt32.toNat g3
        simp only [UInt32.toNat_ofNat'] at this
        omega
      refine ⟨by rw [h.split, h1]; simp, ?_, ?_, ?_, ?_, ?_⟩
      · rw [memAfter_append, ← h.mem]; rfl
      · intro ds' hds
        simp only at hds
        rw [k2] at hds; injection hds with hds; subst hds
        rw [hil, List.length_append, ← List.drop_drop, ← hcl]; rfl
      · intro hc; exact absurd k2 (hc ds)
      · intro w' did' d' hw' hc
        rw [hil, List.length_append]
        simp only at hc
        by_cases hne : w' = w
        · subst hne
          rw [hw2] at hc
          injection hc with c1 c2
          subst c1 c2
          exact ⟨_, d, by simp, hget, e1.symm, rfl⟩
        · rw [hw1 w' hne] at hc
          obtain ⟨k, i, g1, g2⟩ := h.comp w' did' d' hw' hc
          exact ⟨k, i, by omega, g2⟩
      · intro w1 w2 did' d1 d2 hl1 hl2 hc1 hc2
        simp only at hc1 hc2
        by_cases n1 : w1 = w <;> by_cases n2 : w2 = w
        · rw [n1, n2]
        · subst n1
          rw [hw2] at hc1; injection hc1 with c1 c2; subst c1
          rw [hw1 w2 n2] at hc2; exact absurd hc2 (hfresh w2 d2 hl2)
        · subst n2
          rw [hw2] at hc2; injection hc2 with c1 c2; subst c1
          rw [hw1 w1 n1] at hc1; exact absurd hc1 (hfresh w1 d1 hl1)
        · rw [hw1 w1 n1] at hc1; rw [hw1 w2 n2] at hc2
          exact h.uniq w1 w2 did' d1 d2 hl1 hl2 hc1 hc2
    · exfalso
      rcases k1 with k1 | ⟨k1, k3⟩
      · rw [k1] at h3; omega
      · rw [left_nonadd k3] at h3
        rcases k1 with k1 | k1
        · rw [k1] at h3; simp [left] at h3
        · rw [left_nonadd k1] at h3; omega
  | @go t h1 h2 =>
    rcases step_kinds h1 with ⟨did, e, ds, w, k1, k2, k3, k4⟩ | ⟨k1, k2⟩
    · rw [k1, k2] at h2; simp [left] at h2
    · refine ⟨pre, ⟨h.split, h.mem, ?_, ?_, ?_, ?_⟩, .go (t := ⟨t, s.mem, s.prog⟩) rfl rfl k2⟩
      · intro ds hds
        simp only at hds
        rcases k1 with k1 | ⟨_, k1⟩
        · exact h.cl ds (by rw [← k1]; exact hds)
        · exact absurd hds (k1 ds)
      · intro hc
        simp only at hc
        rcases k1 with k1 | ⟨k1, _⟩
        · rw [k1] at hc; exact h.cl' hc
        · rcases k1 with k1 | k1
          · have := h.cl _ k1
            have hl := congrArg List.length this
            rw [List.length_drop, reqsS_length, h.split, items_append, List.length_append] at hl
            exact List.length_eq_zero_iff.mp (by simpa using hl.symm)
          · exact h.cl' k1
      · intro w did d hw hc; exact h.comp w did d hw (k2 w did d hc)
      · intro w w' did d d' hw hw' hc hc'; exact h.uniq w w' did d d' hw hw' (k2 w did d hc) (k2 w' did d' hc')

theorem alike (u : Uni) (x : Indexer) (m : Mem) : Sched.Alike (params u x m) (x.params u) := ⟨rfl, rfl, rfl⟩

/-- the step of the goroutines in a step of the system -/
theorem Step.core {u : Uni} {x : Indexer} {s t : St} (h : Step u x s t) : t.core = s.core ∨ (Sched.Step (params u x s.mem) s.core t.core ∧ t.mem = s.mem) := by
  cases h with
  | write => exact .inl rfl
  | add _ h => exact .inr ⟨h, rfl⟩
  | go h => exact .inr ⟨h, rfl⟩

/-! ### Shatterers lag behind by no more than their number -/

theorem pigeonhole : ∀ (n m : Nat) (g : Nat → Nat), (∀ i, i < m → g i < n) → (∀ i j, i < m → j < m → g i = g j → i = j) → m ≤ n := by
  intro n
  induction n with
  | zero =>
    intro m g h _
    cases m with
    | zero => exact Nat.le_refl _
    | succ m => exact absurd (h 0 (by omega)) (by omega)
  | succ n ih =>
    intro m g h hi
    cases m with
    | zero => omega
    | succ m =>
      have : m ≤ n := by
        apply ih m fun i => if g i = n then g m else g i
        · intro i him
          have h1 := h i (by omega)
          have h2 := h m (by omega)
          by_cases e : g i = n
          · simp only [e, if_true]
            have : g m ≠ n := fun e' => by have := hi i m (by omega) (by omega) (e.trans e'.symm); omega
            omega
          · simp only [e, if_false]; omega
        · intro i j him hjm hg
          have g1 := hi i j (by omega) (by omega)
          have g2 := hi i m (by omega) (by omega)
          have g3 := hi j m (by omega) (by omega)
          by_cases ei : g i = n <;> by_cases ej : g j = n <;> simp only [ei, ej, if_true, if_false] at hg
          · exact g1 (ei.trans ej.symm)
          · have := g3 hg.symm; omega
          · have := g2 hg; omega
          · exact g1 hg
      omega

theorem pigeonhole_rel {n m : Nat} {R : Nat → Nat → Prop} (h : ∀ i, i < m → ∃ w, w < n ∧ R i w) (hi : ∀ i j w, R i w → R j w → i = j) : m ≤ n := by
  have hc : ∀ i, i < m → (Classical.epsilon fun w => w < n ∧ R i w) < n ∧ R i (Classical.epsilon fun w => w < n ∧ R i w) :=
    fun i him => Classical.epsilon_spec (h i him)
  apply pigeonhole n m fun i => Classical.epsilon fun w => w < n ∧ R i w
  · exact fun i him => (hc i him).1
  · intro i j him hjm e
    have h1 := (hc i him).2
    have h2 := (hc j hjm).2
    change Classical.epsilon _ = Classical.epsilon _ at e
    rw [← e] at h2
    exact hi i j _ h1 h2

/-- a shatterer has in hand one of the last `nw` documents -/
theorem window {W S D α : Type} {Γ : Sched.Env W S D α} {t : Sched.St W S D α} (h : Sched.Inv Γ t) {w : Nat} (hw : w < Γ.P.nw) {did : Nat}
    (hd : Sched.didOf (t.workers w).2 = some did) : Γ.base < did ∧ did ≤ Γ.base + Γ.sent t.client ∧ Γ.base + Γ.sent t.client < did + Γ.P.nw := by
  obtain ⟨h1, h2⟩ := h.fl1 w hw did hd
  have h0 := h.lo
  have hm : Γ.base + Γ.sent t.client - t.mono.toNat ≤ Γ.P.nw := by
    apply pigeonhole_rel (R := fun i w => Sched.didOf (t.workers w).2 = some (t.mono.toNat + 1 + i))
    · intro i him
      exact h.fl3 _ (by omega) (by omega)
    · intro i j w hi hj
      rw [hi] at hj; injection hj with hj; omega
  omega

theorem didOf_map {D D' α : Type} (f : UInt32 → D → D') (v : Sched.WSt D α) : Sched.didOf (v.map f) = Sched.didOf v := by cases v <;> rfl

theorem measure_map {W S D D' α : Type} {P : Sched.Params W S D α} {P' : Sched.Params W S D' α} (f : UInt32 → D → D') (hA : Sched.Alike P P')
    (s : Sched.St W S D α) : Sched.measure P' (s.map f) = Sched.measure P s := by
  have h1 : ∀ v : Sched.WSt D α, Sched.workW P.nw P.n (v.map f) = Sched.workW P.nw P.n v := by
    intro v; cases v <;> rfl
  have h2 : Sched.clientW P.nw P.n (s.client.map f) = Sched.clientW P.nw P.n s.client := by
    cases s.client <;> simp [Sched.Client.map, Sched.clientW]
  simp only [Sched.measure, Sched.St.map, h1, h2, hA.nw, hA.n]

/-! ### Programs that keep the documents long enough -/

section
variable {u : Uni} {J : CfgCodec} {c : Config} {x : Indexer} {docs : List Document} (hU : Usable J c) (h : IndexerRep u c x docs)
  (cwd : Bytes) (m0 : Mem) (prog : List Act) (hf : Fits u c (docs ++ added cwd (docsAt m0 prog)))

include hf in
theorem small : docs.length + (items prog).length + 1 < 2 ^ 32 := by
  have := hf.ids
  simpa [added, docsAt_length] using this

/-- what is known of the states of a session with a program that keeps its documents -/
structure Safe (u : Uni) (x : Indexer) (base : Nat) (m0 : Mem) (prog pre : List Act) (s : St) : Prop where
  sync : Sync base m0 prog x.blotters.length pre s
  run : ∃ k, Sched.Steps (x.params u) k (x.start (reqs (base + 1) (docsAt m0 prog))) (s.core.map (useData base (dataAt m0 prog)))
  data : ∀ w did d, w < x.blotters.length → (s.core.workers w).2 = .computing did d → d.2.read s.mem = (dataAt m0 prog).getD (did.toNat - base - 1) []
  keep : KeepsFrom x.blotters.length (bufs pre) s.prog

theorem Safe.same {base : Nat} {pre : List Act} {s : St} (hs : Safe u x base m0 prog pre s) :
    Sched.Same (params u x s.mem) (x.params u) (useData base (dataAt m0 prog)) s.core := by
  intro w did d hw hc
  have := hs.data w did d hw hc
  simp only [params, useData, this]

include hU h hf in
/-- the buffers the shatterers are reading -/
theorem Safe.reading {pre : List Act} {s : St} (hs : Safe u x docs.length m0 prog pre s) {w : Nat} {did : UInt32} {d : UInt32 × Slice}
    (hw : w < x.blotters.length) (hc : (s.core.workers w).2 = .computing did d) : d.2.buf ∈ (bufs pre).take x.blotters.length := by
  obtain ⟨k, hrun⟩ := hs.run
  have hi := sessionEnv_inv hU h cwd (docsAt m0 prog) hf hrun
  obtain ⟨j, i, g1, g2, g3, g4⟩ := hs.sync.comp w did d hw hc
  have hsm := small cwd m0 prog hf
  have hd := window hi (w := w) (did := did.toNat) hw (by
    simp only [Sched.St.map, didOf_map, hc]; rfl)
  rw [sessionEnv_base] at hd
  have hlen : (sessionEnv hU h cwd (docsAt m0 prog) hf).docs.length = (items prog).length := by
    show (reqs _ _).length = _
    rw [reqs_length, docsAt_length]
  have hsent : (sessionEnv hU h cwd (docsAt m0 prog) hf).sent (s.core.map (useData docs.length (dataAt m0 prog))).client = (items pre).length := by
    have hp := congrArg List.length (congrArg items hs.sync.split)
    rw [items_append, List.length_append] at hp
    cases hcl : s.core.client with
    | add ds =>
      have := congrArg List.length (hs.sync.cl ds hcl)
      rw [List.length_drop, reqsS_length] at this
      simp only [Sched.St.map, hcl, Sched.Client.map, Sched.Env.sent, hlen, List.length_map]
      omega
    | shut k =>
      have := hs.sync.cl' (by rw [hcl]; exact nofun)
      simp only [Sched.St.map, hcl, Sched.Client.map, Sched.Env.sent, hlen]
      rw [this] at hp; simpa using hp
    | close k =>
      have := hs.sync.cl' (by rw [hcl]; exact nofun)
      simp only [Sched.St.map, hcl, Sched.Client.map, Sched.Env.sent, hlen]
      rw [this] at hp; simpa using hp
    | done =>
      have := hs.sync.cl' (by rw [hcl]; exact nofun)
      simp only [Sched.St.map, hcl, Sched.Client.map, Sched.Env.sent, hlen]
      rw [this] at hp; simpa using hp
  rw [hsent] at hd
  have hnw : (sessionEnv hU h cwd (docsAt m0 prog) hf).P.nw = x.blotters.length := rfl
  rw [hnw] at hd
  have hj := (List.getElem?_eq_some_iff.mp g2).1
  have hdid : did.toNat = docs.length + 1 + j := by rw [g3]; simp only [UInt32.toNat_ofNat']; omega
  have hpre : (items pre)[j]? = some i := by
    rw [hs.sync.split, items_append, List.getElem?_append_left g1] at g2; exact g2
  rw [g4, List.mem_iff_getElem?]
  refine ⟨(items pre).length - 1 - j, ?_⟩
  rw [List.getElem?_take, if_pos (by omega), bufs, List.getElem?_reverse (by simp; omega)]
  simp only [List.length_map]
  rw [show (items pre).length - 1 - ((items pre).length - 1 - j) = j by omega, List.getElem?_map, hpre]
  rfl

theorem KeepsFrom.bufs_write {n : Nat} {pre : List Act} {b : Nat} {v : Bytes} {l : List Act} (h : KeepsFrom n (bufs pre) (.write b v :: l)) :
    b ∉ (bufs pre).take n ∧ KeepsFrom n (bufs (pre ++ [.write b v])) l := by
  rw [Reuse.bufs_write]; exact h

theorem Safe.init (hk : Keeps x.blotters.length prog) (hsm : docs.length + (items prog).length + 1 < 2 ^ 32) :
    Safe u x docs.length m0 prog [] ⟨start x (reqsS docs.length (items prog)), m0, prog⟩ where
  sync := Sync.init ..
  run := by
    refine ⟨0, ?_⟩
    have : (start x (reqsS docs.length (items prog))).map (useData docs.length (dataAt m0 prog)) = x.start (reqs (docs.length + 1) (docsAt m0 prog)) := by
      rw [start, Sched.map_init, reqsS_map _ _ _ (dataAt_length _ _) hsm, ← docsAt_eq]; rfl
    rw [this]; exact .refl
  data := by intro w did d _ h; cases h
  keep := hk

include hU h hf in
theorem Safe.step {pre : List Act} {s t : St} (hs : Safe u x docs.length m0 prog pre s) (st : Step u x s t) :
    ∃ pre', Safe u x docs.length m0 prog pre' t := by
  have hsm := small cwd m0 prog hf
  obtain ⟨pre', hsync, hdone⟩ := hs.sync.step hsm st
  refine ⟨pre', hsync, ?_, ?_, ?_⟩
  · obtain ⟨k, hrun⟩ := hs.run
    rcases st.core with hc | ⟨hc, _⟩
    · rw [hc]; exact ⟨k, hrun⟩
    · exact ⟨k + 1, .step hrun (hc.map _ (alike u x s.mem) (hs.same.same _))⟩
  · intro w did d hw hc
    cases hdone with
    | write h1 h2 h3 h4 =>
      rename_i b v
      rw [h2] at hc
      have hne : d.2.buf ≠ b := by
        intro e
        have h4 := hs.reading hU h cwd m0 prog hf hw hc
        have h5 := hs.keep
        rw [h1] at h5
        exact h5.1 (e ▸ h4)
      have : d.2.read t.mem = d.2.read s.mem := by rw [h3, Slice.read, Slice.read, Sched.upd_ne _ _ hne]
      rw [this]; exact hs.data w did d hw hc
    | add h1 h2 h3 h4 h5 =>
      rename_i i did' w' ds
      rw [h2]
      by_cases e : w = w'
      · subst e
        rw [h5, Sched.upd_same] at hc
        injection hc with c1 c2
        subst c1 c2
        have hcl := hs.sync.cl _ h3
        have hget : (reqsS docs.length (items prog))[(items pre).length]? = some (did', i.start, i.dat) := by
          have : ((reqsS docs.length (items prog)).drop (items pre).length)[0]? = some (did', i.start, i.dat) := by rw [← hcl]; rfl
          simpa using this
        rw [reqsS_getElem, Option.map_eq_some_iff] at hget
        obtain ⟨i', g1, g2⟩ := hget
        have hk := (List.getElem?_eq_some_iff.mp g1).1
        have hdid : did'.toNat = docs.length + 1 + (items pre).length := by
          have e1 : UInt32.ofNat (docs.length + 1 + (items pre).length) = did' := congrArg Prod.fst g2
          rw [← e1]; simp only [UInt32.toNat_ofNat']; omega
        rw [hdid, show docs.length + 1 + (items pre).length - docs.length - 1 = (items pre).length by omega, List.getD_eq_getElem?_getD]
        have := dataAt_add (m := m0) (pre := pre) (l := t.prog) (d := i)
        rw [← h1, ← hs.sync.split] at this
        rw [this, hs.sync.mem]; rfl
      · rw [h5, Sched.upd_ne _ _ e] at hc
        exact hs.data w did d hw hc
    | go h1 h2 h3 =>
      rw [h2]; exact hs.data w did d hw (h3 w did d hc)
  · have h0 := hs.keep
    cases hdone with
    | write h1 => rw [h1] at h0; exact (KeepsFrom.bufs_write h0).2
    | add h1 => rw [h1] at h0; rw [bufs_add]; exact h0
    | go h1 => rw [h1]; exact h0

include hU h hf in
theorem Safe.steps {s t : St} (st : Steps u x s t) : ∀ {pre : List Act}, Safe u x docs.length m0 prog pre s → ∃ pre', Safe u x docs.length m0 prog pre' t := by
  induction st with
  | refl => intro pre hs; exact ⟨pre, hs⟩
  | step _ h2 ih =>
    intro pre hs
    obtain ⟨pre1, h1⟩ := ih hs
    exact h1.step hU h cwd m0 prog hf h2

include hU h hf in
/-- the system can go on until the index is closed -/
theorem Safe.finish (hz : Sized m0 prog) : ∀ (n : Nat) {pre : List Act} {s : St}, Safe u x docs.length m0 prog pre s →
    Sched.measure (params u x s.mem) s.core + s.prog.length ≤ n → ∃ t, Steps u x s t ∧ t.core.client = .done := by
  have hnw : 0 < (sessionEnv hU h cwd (docsAt m0 prog) hf).P.nw := by
    show 0 < x.blotters.length
    rw [h.nw]; have := hU.shatters; omega
  have prepend : ∀ {s r t : St}, Step u x s r → Steps u x r t → Steps u x s t := by
    intro s r t h1 h2
    induction h2 with
    | refl => exact .step .refl h1
    | step _ h3 ih => exact .step ih h3
  intro n
  induction n with
  | zero =>
    intro pre s hs hm
    obtain ⟨k, hrun⟩ := hs.run
    have hi := sessionEnv_inv hU h cwd (docsAt m0 prog) hf hrun
    rcases hi.progress (sessionEnv_serves hU h cwd (docsAt m0 prog) hf) hnw with hfin | ⟨t, ht⟩
    · refine ⟨s, .refl, ?_⟩
      have := hfin.1
      simp only [Sched.St.map] at this
      cases hc : s.core.client <;> rw [hc] at this <;> first | rfl | cases this
    · have := Sched.Step.decreases ht
      rw [show (sessionEnv hU h cwd (docsAt m0 prog) hf).P = x.params u from rfl, measure_map _ (alike u x s.mem)] at this
      omega
  | succ n ih =>
    intro pre s hs hm
    cases hp : s.prog with
    | nil =>
      obtain ⟨k, hrun⟩ := hs.run
      have hi := sessionEnv_inv hU h cwd (docsAt m0 prog) hf hrun
      rcases hi.progress (sessionEnv_serves hU h cwd (docsAt m0 prog) hf) hnw with hfin | ⟨t', ht⟩
      · refine ⟨s, .refl, ?_⟩
        have := hfin.1
        simp only [Sched.St.map] at this
        cases hc : s.core.client <;> rw [hc] at this <;> first | rfl | cases this
      · obtain ⟨t, ht1, ht2⟩ := Sched.Step.unmap _ (alike u x s.mem) hs.same ht
        have hlt := Sched.Step.decreases ht1
        have hl : left s.core.client = left t.client := by
          have h0 : ∀ ds, s.core.client = .add ds → ds = [] := by
            intro ds hds
            have := hs.sync.cl ds hds
            rw [this]
            apply List.drop_eq_nil_of_le
            have := congrArg List.length (congrArg items hs.sync.split)
            rw [items_append, hp] at this
            rw [reqsS_length, this]; simp [items]
          rcases step_kinds ht1 with ⟨did, e, ds, w, k1, _⟩ | ⟨k1, _⟩
          · cases h0 _ k1
          · rcases k1 with k1 | ⟨k1, k3⟩
            · rw [k1]
            · rw [left_nonadd k3]
              rcases k1 with k1 | k1
              · rw [k1]; rfl
              · rw [left_nonadd k1]
        have hst : Step u x s ⟨t, s.mem, s.prog⟩ := .go ht1 hl
        obtain ⟨pre', hs'⟩ := hs.step hU h cwd m0 prog hf hst
        obtain ⟨r, h1, h2⟩ := ih hs' (by simp only; omega)
        exact ⟨r, prepend hst h1, h2⟩
    | cons a l =>
      cases a with
      | write b v =>
        have hz' : Sized s.mem s.prog := by
          rw [hs.sync.mem]; apply Sized.append (l := pre); rw [← hs.sync.split]; exact hz
        rw [hp] at hz'
        have hst : Step u x s ⟨s.core, Sched.upd s.mem b v, l⟩ := .write hp hz'.1
        obtain ⟨pre', hs'⟩ := hs.step hU h cwd m0 prog hf hst
        obtain ⟨r, h1, h2⟩ := ih hs' (by
          rw [hp, List.length_cons] at hm
          show Sched.measure (params u x _) s.core + l.length ≤ n
          have : Sched.measure (params u x (Sched.upd s.mem b v)) s.core = Sched.measure (params u x s.mem) s.core := rfl
          simp only [this]; omega)
        exact ⟨r, prepend hst h1, h2⟩
      | add d =>
        obtain ⟨k, hrun⟩ := hs.run
        have hi := sessionEnv_inv hU h cwd (docsAt m0 prog) hf hrun
        rcases hi.progress (sessionEnv_serves hU h cwd (docsAt m0 prog) hf) hnw with hfin | ⟨t', ht⟩
        · exfalso
          have := hfin.1
          have hc : ∀ ds, s.core.client ≠ .add ds := by
            intro ds hds
            simp only [Sched.St.map, hds, Sched.Client.map] at this
            cases this
          have := hs.sync.cl' hc
          rw [hp] at this; cases this
        · obtain ⟨t, ht1, ht2⟩ := Sched.Step.unmap _ (alike u x s.mem) hs.same ht
          have hlt := Sched.Step.decreases ht1
          have hst : ∃ r : St, Step u x s r ∧ r.core = t ∧ r.mem = s.mem ∧ r.prog.length ≤ s.prog.length := by
            rcases step_kinds ht1 with ⟨did, e, ds, w, k1, k2, _⟩ | ⟨k1, _⟩
            · exact ⟨⟨t, s.mem, l⟩, .add hp ht1 (by rw [k1, k2]; rfl), rfl, rfl, by rw [hp]; simp⟩
            · refine ⟨⟨t, s.mem, s.prog⟩, .go ht1 ?_, rfl, rfl, Nat.le_refl _⟩
              rcases k1 with k1 | ⟨k1, k3⟩
              · rw [k1]
              · rw [left_nonadd k3]
                rcases k1 with k1 | k1
                · rw [k1]; rfl
                · rw [left_nonadd k1]
          obtain ⟨r, hr1, hr2, hr3, hr4⟩ := hst
          obtain ⟨pre', hs'⟩ := hs.step hU h cwd m0 prog hf hr1
          obtain ⟨q, h1, h2⟩ := ih hs' (by rw [hr2, hr3]; omega)
          exact ⟨q, prepend hr1 h1, h2⟩

end

end Dupi.Reuse
