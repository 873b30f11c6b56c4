import Verif.Proof.FnamesIO
import Verif.Proof.FnamesTrunc
import Verif.Proof.PathSpec
/-! # C03, C04, C05, C44: the path table -/

namespace Dupi.Props
open Dupi.Fnames

/-- **C03.** After adding any sequence of paths, the path reported for the id of the `k`-th add is
the name of the place the `k`-th path leads to — also after any further adds `qs`. -/
theorem C03_abs (cwd : Bytes) (ps qs : List Bytes) (hs : Spec.FewPaths ((ps ++ qs).map fun p => Spec.placeName (Spec.place cwd p))) :
    ∃ ids d ids' d', addAll cwd newFnames ps = .ok (ids, d) ∧ addAll cwd d qs = .ok (ids', d') ∧
      ids.length = ps.length ∧
      ∀ (k : Nat) p, ps[k]? = some p → ∃ id, ids[k]? = some id ∧
        abs d id = .ok (Spec.placeName (Spec.place cwd p)) ∧ abs d' id = .ok (Spec.placeName (Spec.place cwd p)) := by
  obtain ⟨ids, d, ids', d', h1, h2, h3, h4, h8, hd, g1, g2, g5, g7, gd⟩ := addAll_two (old := []) cwd ps qs newFnames_wf newFnames_names (newFnames_on []) hs
  simp only [← absPath_place]
  refine ⟨ids, d, ids', d', h1, g1, h4, ?_⟩
  intro k p hk
  obtain ⟨id, e1, e2, e3⟩ := h8 k p hk
  obtain ⟨r, hr, hpp⟩ := pathParts_abs cwd p
  refine ⟨id, e1, ?_, ?_⟩
  · rw [h2.abs e3 e2, hpp, join_split, hr]
  · rw [g2.abs (g7 _ _ e3) (by omega), hpp, join_split, hr]

/-- **C04.** Two adds return the same id iff the paths lead to the same place. -/
theorem C04_ids (cwd : Bytes) (ps : List Bytes) (hs : Spec.FewPaths (ps.map fun p => Spec.placeName (Spec.place cwd p))) :
    ∃ ids d, addAll cwd newFnames ps = .ok (ids, d) ∧ ids.length = ps.length ∧
      ∀ (i j : Nat) (p q : Bytes) (v w : UInt32), ps[i]? = some p → ps[j]? = some q →
        ids[i]? = some v → ids[j]? = some w → (v = w ↔ Spec.place cwd p = Spec.place cwd q) := by
  simp only [← absPath_iff]
  obtain ⟨ids, d, h1, h2, h3, h4, h5, _, h6, h7, _, h8⟩ := addAll_spec cwd (done := []) ps newFnames_wf newFnames_names (newFnames_on []) (by rw [List.nil_append, absPaths_eq]; exact hs)
  refine ⟨ids, d, h1, h4, ?_⟩
  intro i j p q v w hp hq hv hw
  obtain ⟨v', e1, e2, e3⟩ := h8 i p hp
  obtain ⟨w', f1, f2, f3⟩ := h8 j q hq
  rw [hv] at e1; cases e1
  rw [hw] at f1; cases f1
  obtain ⟨r, hr, hpp⟩ := pathParts_abs cwd p
  obtain ⟨r', hr', hpp'⟩ := pathParts_abs cwd q
  constructor
  · rintro rfl
    have := e3.det f3
    rw [hpp, hpp'] at this
    have := congrArg joinSlash this
    rw [join_split, join_split] at this
    rw [hr, hr', this]
  · intro h
    apply UInt32.toNat_inj.mp
    apply h2.comps_inj e3
    rw [h]; exact f3

/-- **C04.** Adding a path that leads to the same place as one added before returns its id and leaves
the table as it is. -/
theorem C04_noGrowth (cwd : Bytes) (ps : List Bytes) (q : Bytes) (hs : Spec.FewPaths (ps.map fun p => Spec.placeName (Spec.place cwd p)))
    (k : Nat) (p : Bytes) (hk : ps[k]? = some p) (hq : Spec.place cwd q = Spec.place cwd p) :
    ∃ ids d id, addAll cwd newFnames ps = .ok (ids, d) ∧ ids[k]? = some id ∧
      addPath cwd d q = .ok (id, d) := by
  rw [← absPath_iff] at hq
  obtain ⟨ids, d, h1, h2, h3, h4, h5, _, h6, h7, _, h8⟩ := addAll_spec cwd (done := []) ps newFnames_wf newFnames_names (newFnames_on []) (by rw [List.nil_append, absPaths_eq]; exact hs)
  obtain ⟨id, e1, e2, e3⟩ := h8 k p hk
  obtain ⟨v, g1, g2⟩ := addParts_present (pathParts (absPath cwd q)) (p := 0) (cs := []) h2
    (by simpa using Comps.root) (by simp; omega) (by rw [hq]; simpa using e3)
  refine ⟨ids, d, id, h1, e1, ?_⟩
  rw [addPath, g1, UInt32.toNat_inj.mp g2]

/-- the path table of a whole history of sessions: each session reads the file the previous one
wrote (the first starts with a new table), adds paths, and writes the file (indexer.go:84-96,
116-130, 200-215) -/
def fnamesSessions (cwd : Bytes) (d : Table) : List (List Bytes) → M (List UInt32 × Table)
  | [] => .ok ([], d)
  | ps :: rest => do
    let (ids, d) ← addAll cwd d ps
    let d ← read (write d)
    let (ids', d) ← fnamesSessions cwd d rest
    return (ids ++ ids', d)

/-- **C05.** Reading back what was written gives a table reporting the same path for every id, on
which every later sequence of adds returns the ids it would have returned on the original. -/
theorem C05_roundtrip (cwd : Bytes) (ps qs : List Bytes)
    (hs : Spec.FewPaths ((ps ++ qs).map fun p => Spec.placeName (Spec.place cwd p))) :
    ∃ ids d e ids' d' e', addAll cwd newFnames ps = .ok (ids, d) ∧ read (write d) = .ok e ∧
      (∀ v, abs e v = abs d v) ∧ addAll cwd d qs = .ok (ids', d') ∧
      addAll cwd e qs = .ok (ids', e') ∧ (∀ v, abs e' v = abs d' v) ∧ write e' = write d' := by
  obtain ⟨ids, d, ids', d', h1, h2, h3, h4, h8, hd, g1, g2, g5, g7, gd⟩ := addAll_two (old := []) cwd ps qs newFnames_wf newFnames_names (newFnames_on []) hs
  obtain ⟨e, he, hsim⟩ := read_write d h2 (by omega) h3
  obtain ⟨e', he', hsim'⟩ := hsim.addAll cwd qs g1
  exact ⟨ids, d, e, ids', d', e', h1, he, hsim.abs, g1, he', hsim'.abs, hsim'.write⟩

/-- **C05.** Any number of write/read cycles between the adds makes no difference: same ids, same
reported paths, same bytes as one uninterrupted sequence of adds. -/
theorem C05_sessions (cwd : Bytes) (h : List (List Bytes))
    (hs : Spec.FewPaths (h.flatten.map fun p => Spec.placeName (Spec.place cwd p))) :
    ∃ ids d e, addAll cwd newFnames h.flatten = .ok (ids, d) ∧
      fnamesSessions cwd newFnames h = .ok (ids, e) ∧ (∀ v, abs e v = abs d v) ∧
      write e = write d := by
  have key : ∀ (h : List (List Bytes)) (d e : Table), WF d → (∀ n ∈ d, n.name.length < 2 ^ 32) →
      Sim d e → ∀ done, (∀ i cs, Comps d i cs → OnPaths done cs) → Spec.FewPaths (done ++ absPaths cwd h.flatten) →
      ∃ ids d' e', addAll cwd d h.flatten = .ok (ids, d') ∧
        fnamesSessions cwd e h = .ok (ids, e') ∧ Sim d' e' := by
    intro h
    induction h with
    | nil => intro d e _ _ hsim _ _ _; exact ⟨[], d, e, rfl, rfl, hsim⟩
    | cons ps rest ih =>
      intro d e hwf hnm hsim done hon hl
      have el : done ++ absPaths cwd (ps :: rest).flatten = (done ++ absPaths cwd ps) ++ absPaths cwd rest.flatten := by simp [absPaths]
      rw [el] at hl
      obtain ⟨ids, d1, h1, h2, h3, h4, h5, _, h6, h7, hc, h8⟩ := addAll_spec cwd ps hwf hnm hon (FewPaths.mono (fun q hq => List.mem_append_left _ hq) hl)
      obtain ⟨e1, he1, hs1⟩ := hsim.addAll cwd ps h1
      obtain ⟨e2, he2, hs2⟩ := read_write d1 h2 (by omega) h3
      obtain ⟨ids', d', e', g1, g2, g3⟩ := ih d1 e2 h2 h3 hs2 _ (onPaths_add hon hc) hl
      refine ⟨ids ++ ids', d', e', ?_, ?_, g3⟩
      · rw [List.flatten_cons]
        exact addAll_append cwd h1 g1
      · simp only [fnamesSessions, he1, bind, Except.bind, hs1.write, he2, g2, pure, Except.pure]
  obtain ⟨ids, d', e', g1, g2, g3⟩ := key h newFnames newFnames newFnames_wf newFnames_names
    (Sim.refl _) [] (newFnames_on []) (by rw [List.nil_append, absPaths_eq]; exact hs)
  exact ⟨ids, d', e', g1, g2, g3.abs, g3.write⟩
where
  addAll_append (cwd : Bytes) {d ps ids d1 qs ids' d2} (h : addAll cwd d ps = .ok (ids, d1))
      (h' : addAll cwd d1 qs = .ok (ids', d2)) : addAll cwd d (ps ++ qs) = .ok (ids ++ ids', d2) := by
    induction ps generalizing d ids with
    | nil => cases h; exact h'
    | cons p ps ih =>
      simp only [List.cons_append, addAll, bind, Except.bind] at h ⊢
      cases h1 : addPath cwd d p with
      | error f => rw [h1] at h; cases h
      | ok r =>
        rw [h1] at h
        simp only at h ⊢
        cases h2 : addAll cwd r.2 ps with
        | error f => rw [h2] at h; cases h
        | ok s =>
          rw [h2] at h
          simp only [pure, Except.pure, Except.ok.injEq, Prod.mk.injEq] at h
          obtain ⟨rfl, rfl⟩ := h
          rw [ih h2]; rfl

/-! ### C44: damaged files

The claim is false: a parent field out of range makes the reader panic, a parent cycle makes
every later path lookup run forever, and an empty table makes it panic. -/

theorem C44_read_panics : read [1, 0, 5] = panic' := by decide

/-- a 2-node file whose second node is its own parent reads fine, but `abs` of that node never ends -/
theorem C44_abs_diverges : ∃ d, read [2, 0, 0, 1, 97, 1] = .ok d ∧
    ∀ fuel acc, absLoop d fuel 1 acc = .error .diverge := by
  refine ⟨[⟨0, [], [([], 0)]⟩, ⟨1, [97], [([97], 1)]⟩], by decide, ?_⟩
  intro fuel
  induction fuel with
  | zero => intro acc; rfl
  | succ f ih => intro acc; rw [absLoop]; exact ih _

theorem C44_empty_table : read [0] = .ok [] ∧ abs [] 0 = panic' := by decide

/-- **C44**, what holds: on any table in which parents come before their children (checked by no
one when reading), the path of every id is defined.  Missing: files whose parent fields are damaged
(the witnesses above); for truncated files see `C44_truncated`. -/
theorem C44_abs_partial (d : Table)
    (hp : ∀ (i : Nat) n, d[i]? = some n → i ≠ 0 → n.parent.toNat < i) (v : UInt32)
    (hv : v.toNat < d.length) : ∃ s, abs d v = .ok s := by
  have hc : ∀ i, i < d.length → ∃ cs, Comps d i cs ∧ cs.length ≤ i := by
    intro i
    induction i using Nat.strongRecOn with
    | _ i ih =>
      intro hi
      by_cases h0 : i = 0
      · subst h0; exact ⟨[], .root, by simp⟩
      · have hn : d[i]? = some d[i] := List.getElem?_eq_getElem hi
        obtain ⟨cs, hc, hl⟩ := ih _ (hp i _ hn h0) (by have := hp i _ hn h0; omega)
        exact ⟨_, .step h0 hn hc, by have := hp i _ hn h0; simp; omega⟩
  obtain ⟨cs, h1, h2⟩ := hc _ hv
  refine ⟨sep :: joinSlash (revInPlace cs.reverse), ?_⟩
  rw [abs, absLoop_comps h1 (by rintro rfl; simp at hv) _ _ (by omega)]
  rfl

/-- **C44**, truncation: whatever paths were added, reading any proper prefix of the written table
fails with an error (no panic, no table with wrong paths). -/
theorem C44_truncated (cwd : Bytes) (ps : List Bytes) (hs : Spec.FewPaths (ps.map fun p => Spec.placeName (Spec.place cwd p))) :
    ∃ ids d, addAll cwd newFnames ps = .ok (ids, d) ∧ ∀ k, k < (write d).length → ∃ e, read ((write d).take k) = fail e := by
  obtain ⟨ids, d, h1, h2, h3, _, _, _, h6, _⟩ := addAll_spec cwd (done := []) ps newFnames_wf newFnames_names (newFnames_on []) (by rw [List.nil_append, absPaths_eq]; exact hs)
  exact ⟨ids, d, h1, fun k hk => read_trunc d h2 (by omega) h3 k hk⟩

-- non-vacuity: "/a/b", "c" in "/a", "/a/./x/../b/" (same as the first), "/"
example : addAll [47, 97] newFnames [[47, 97, 47, 98], [99], [47, 97, 47, 46, 47, 120, 47, 46, 46, 47, 98, 47], [47]]
    = .ok ([2, 3, 2, 4],
      [⟨0, [], [([], 4), ([97], 1)]⟩, ⟨0, [97], [([99], 3), ([98], 2)]⟩, ⟨1, [98], []⟩, ⟨1, [99], []⟩, ⟨0, [], []⟩]) := by
  decide +kernel
example : Spec.place [47, 97] [47, 97, 47, 46, 47, 120, 47, 46, 46, 47, 98, 47] = [[97], [98]] ∧ Spec.place [47, 97] [99] = [[97], [99]] ∧
    Spec.placeName [[97], [98]] = [47, 97, 47, 98] ∧ Spec.placeName [] = [47] := by decide +kernel
example : Spec.FewPaths ([[47, 97, 47, 98], [99]].map fun p => Spec.placeName (Spec.place [47, 97] p)) ∧ Spec.ways [47, 97, 47, 98] = [[47, 97], [47, 97, 47, 98]] := by decide +kernel

end Dupi.Props
