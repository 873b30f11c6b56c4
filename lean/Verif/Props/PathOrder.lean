import Verif.Proof.NamesFile
import Verif.Props.Fnames
import Verif.Props.Commands
/-! # C119: the order of paths, in the table, in the files and in print -/

namespace Dupi.Props
open Spec

theorem sessions_table (cwd : Bytes) (h : List (List Bytes)) : ∀ {t : Fnames.Table} {ps : List Bytes}, TableOf t ps →
    FewPaths (ps ++ Fnames.absPaths cwd h.flatten) → ∃ ids e, fnamesSessions cwd t h = .ok (ids, e) ∧ TableOf e (ps ++ Fnames.absPaths cwd h.flatten) ∧
      ids.length = h.flatten.length ∧ (∀ i cs, Fnames.Comps t i cs → Fnames.Comps e i cs) ∧ t.length ≤ e.length ∧
      ∀ (k : Nat) (p : Bytes), h.flatten[k]? = some p → ∃ id : UInt32, ids[k]? = some id ∧ id.toNat < e.length ∧ Fnames.Comps e id.toNat (Fnames.pathParts (absPath cwd p)) := by
  induction h with
  | nil => intro t ps ht _; exact ⟨[], t, rfl, by simpa [Fnames.absPaths] using ht, rfl, fun _ _ h => h, Nat.le_refl _, by simp⟩
  | cons qs h ih =>
    intro t ps ht hf
    have el : ps ++ Fnames.absPaths cwd (qs :: h).flatten = (ps ++ Fnames.absPaths cwd qs) ++ Fnames.absPaths cwd h.flatten := by simp [Fnames.absPaths]
    rw [el] at hf ⊢
    have hf1 := Fnames.FewPaths.mono (fun q hq => List.mem_append_left _ hq) hf
    obtain ⟨i1, t1, a1, a2, a3, a4⟩ := ht.add cwd qs hf1
    obtain ⟨_, _, b1, _, _, _, b5, _, _, b7, _, _⟩ := Fnames.addAll_spec cwd qs ht.wf ht.names ht.on hf1
    rw [a1] at b1; cases b1
    obtain ⟨e1, c1, c2⟩ := Fnames.read_write t1 a2.wf a2.small a2.names
    obtain ⟨i2, e, g1, g2, g3, g4, g5, g6⟩ := ih (a2.sim c2) hf
    have hlen : e1.length = t1.length := c2.len
    refine ⟨i1 ++ i2, e, by simp only [fnamesSessions, a1, c1, g1, bind, Except.bind, pure, Except.pure], g2, by simp [a3, g3],
      fun i cs hc => g4 i cs (c2.comps (b7 i cs hc)), by omega, ?_⟩
    intro k p hk
    rw [List.flatten_cons] at hk
    by_cases hkl : k < qs.length
    · rw [List.getElem?_append_left hkl] at hk
      obtain ⟨id, k1, k2, k3⟩ := a4 k p hk
      exact ⟨id, by rw [List.getElem?_append_left (by omega)]; exact k1, by omega, g4 _ _ (c2.comps k3)⟩
    · rw [List.getElem?_append_right (by omega)] at hk
      obtain ⟨id, k1, k2, k3⟩ := g6 _ p hk
      exact ⟨id, by rw [List.getElem?_append_right (by omega), a3]; exact k1, k2, k3⟩

theorem pathText_abs (cwd p : Bytes) : Fnames.pathText (Fnames.pathParts (absPath cwd p)) = placeName (place cwd p) := by
  obtain ⟨r, hr, hpp⟩ := Fnames.pathParts_abs cwd p
  rw [hpp, Fnames.pathText_split, ← absPath_place, hr]

/-- **C119.** Whatever paths are added in whatever sessions, a path gets the number it has among the paths and the directories on the way to them in the order in which they
are first needed, beginning with 1. -/
theorem C119_ids (cwd : Bytes) (h : List (List Bytes)) (hs : FewPaths (h.flatten.map fun p => placeName (place cwd p))) :
    ∃ ids e, fnamesSessions cwd Fnames.newFnames h = .ok (ids, e) ∧
      ids.map (fun id => id.toNat) = h.flatten.map fun p => wayNumber (h.flatten.map fun p => placeName (place cwd p)) (placeName (place cwd p)) := by
  rw [← Fnames.absPaths_eq] at hs ⊢
  obtain ⟨ids, e, h1, h2, h3, _, _, h6⟩ := sessions_table cwd h TableOf.new (by simpa using hs)
  rw [List.nil_append] at h2
  refine ⟨ids, e, h1, List.ext_getElem? fun k => ?_⟩
  rw [List.getElem?_map, List.getElem?_map]
  cases hk : h.flatten[k]? with
  | none =>
    rw [List.getElem?_eq_none_iff] at hk
    rw [List.getElem?_eq_none (by omega)]; rfl
  | some p =>
    obtain ⟨id, k1, k2, k3⟩ := h6 k p hk
    rw [k1]
    simp only [Option.map_some, Option.some.injEq]
    rw [← pathText_abs, h2.listed.number k2 k3]

/-- **C119.** The table is printed with one line for the root and one for each of them, in this order. -/
theorem C119_string (cwd : Bytes) (h : List (List Bytes)) (hs : FewPaths (h.flatten.map fun p => placeName (place cwd p))) :
    ∃ ids e, fnamesSessions cwd Fnames.newFnames h = .ok (ids, e) ∧ e.length = 1 + (wayOrder (h.flatten.map fun p => placeName (place cwd p))).length ∧
      Fnames.string e = .ok (asLines ([47] :: wayOrder (h.flatten.map fun p => placeName (place cwd p)))) := by
  rw [← Fnames.absPaths_eq] at hs ⊢
  obtain ⟨ids, e, h1, h2, _⟩ := sessions_table cwd h TableOf.new (by simpa using hs)
  rw [List.nil_append] at h2
  exact ⟨ids, e, h1, h2.listed.len, h2.listed.string h2.wf h2.small⟩

/-- **C119.** The files of names and of records of an index say this of its documents, and nothing else. -/
theorem C119_files {u : Uni} {J : CfgCodec} {c : Config} (hU : Usable J c) {h : Sessions} {d : Dir} (hh : History u J c h d) (hf : Fits u c (documents h)) :
    d .fnm = some (namesFile ((documents h).map fun s => s.path)) ∧ d .dmd = some (recordsFile (documents h)) := by
  obtain ⟨t, h1, h2⟩ := hh.table hf.paths
  refine ⟨by rw [h1, h2.listed.write h2.wf h2.names h2.small], ?_⟩
  obtain ⟨t', fs, k1, k2, k3⟩ := (hh.rep hU hf).front
  have hw : Fnames.write t' = Fnames.write t := by rw [h1] at k1; injection k1 with k1; exact k1.symm
  obtain ⟨e, e1, e2⟩ := Fnames.read_write t h2.wf h2.small h2.names
  obtain ⟨e', g1, g2⟩ := Fnames.read_write t' k3.wf (k3.small hf.paths) k3.names
  rw [hw, e1] at g1; cases g1
  have ht := h2.sim (e2.trans g2.symm)
  rw [k2, recordsFile, List.flatMap_cons]
  have key : fs.map Dmd.encode = (documents h).map fun s => big4 (wayNumber ((documents h).map fun s => s.path) s.path) ++ big4 s.start.toNat ++ big4 s.stop.toNat := by
    apply List.ext_getElem?
    intro i
    rw [List.getElem?_map, List.getElem?_map]
    have hl := k3.len
    cases hs : (documents h)[i]? with
    | none =>
      rw [List.getElem?_eq_none_iff] at hs
      rw [List.getElem?_eq_none (by omega)]; rfl
    | some s =>
      have hi := (List.getElem?_eq_some_iff.mp hs).1
      obtain ⟨q1, q2, q3, q4⟩ := k3.desc i fs[i] s (List.getElem?_eq_getElem _) hs
      rw [List.getElem?_eq_getElem (by omega)]
      simp only [Option.map_some, Option.some.injEq]
      have hp : Fnames.pathText (Fnames.pathParts s.path) = s.path := by
        obtain ⟨x, hx, hsx⟩ := List.mem_flatMap.mp (List.mem_of_getElem? hs)
        obtain ⟨y, _, rfl⟩ := List.mem_map.mp hsx
        simp only
        rw [← absPath_place, pathText_abs, absPath_place]
      rw [← hp, ht.listed.number q3 q4, ← q1, ← q2, ← be32_big4, ← be32_big4, ← be32_big4, Dmd.encode]
  rw [List.flatMap_def, key, ← List.flatMap_def]
  rfl

/-- **C119**, for any table, also one read from a damaged file: it is printed if every path can be told, and then as the lines of all of them; otherwise printing ends as telling
the first does that cannot be told. -/
theorem C119_any (t : Fnames.Table) :
    (∃ ls : List Bytes, ls.length = t.length ∧ (∀ (i : Nat) (l : Bytes), ls[i]? = some l → Fnames.abs t (UInt32.ofNat i) = .ok l) ∧ Fnames.string t = .ok (asLines ls)) ∨
    ∃ i f, i < t.length ∧ Fnames.abs t (UInt32.ofNat i) = .error f ∧ (∀ j, j < i → ∃ l, Fnames.abs t (UInt32.ofNat j) = .ok l) ∧ Fnames.string t = .error f := by
  have key : ∀ k, k ≤ t.length →
      (∃ ls : List Bytes, ls.length = k ∧ (∀ (i : Nat) (l : Bytes), ls[i]? = some l → Fnames.abs t (UInt32.ofNat i) = .ok l) ∧
        (List.range k).foldlM (fun w i => do
          let a ← Fnames.abs t (UInt32.ofNat i)
          return w ++ (a ++ [10])) ([] : Bytes) = (.ok (asLines ls) : M Bytes)) ∨
      ∃ i f, i < k ∧ Fnames.abs t (UInt32.ofNat i) = .error f ∧ (∀ j, j < i → ∃ l, Fnames.abs t (UInt32.ofNat j) = .ok l) ∧
        (List.range k).foldlM (fun w i => do
          let a ← Fnames.abs t (UInt32.ofNat i)
          return w ++ (a ++ [10])) ([] : Bytes) = (.error f : M Bytes) := by
    intro k
    induction k with
    | zero => intro _; exact .inl ⟨[], rfl, by simp, rfl⟩
    | succ k ih =>
      intro hk
      rw [List.range_succ, List.foldlM_append]
      rcases ih (by omega) with ⟨ls, h1, h2, h3⟩ | ⟨i, f, h1, h2, h3, h4⟩
      · rw [h3]
        cases ha : Fnames.abs t (UInt32.ofNat k) with
        | error f =>
          refine .inr ⟨k, f, by omega, ha, fun j hj => ⟨ls[j], h2 j _ (List.getElem?_eq_getElem _)⟩, ?_⟩
          simp only [bind, Except.bind, List.foldlM_cons, ha]
        | ok l =>
          refine .inl ⟨ls ++ [l], by simp [h1], ?_, ?_⟩
          · intro i l' hi
            by_cases hl : i < ls.length
            · rw [List.getElem?_append_left hl] at hi; exact h2 i l' hi
            · have : i = ls.length := by
                have := (List.getElem?_eq_some_iff.mp hi).1
                simp at this; omega
              subst this
              simp only [List.getElem?_concat_length, Option.some.injEq] at hi
              rw [← hi, h1]; exact ha
          · simp only [bind, Except.bind, List.foldlM_cons, List.foldlM_nil, ha, pure, Except.pure]
            simp [asLines]
      · refine .inr ⟨i, f, by omega, h2, h3, ?_⟩
        rw [h4]; rfl
  exact key t.length (Nat.le_refl _)

/-- both happen: a file without nodes is read as a table that is printed as nothing, and one in which a node is its own parent as one whose printing does not end -/
theorem C119_damaged : (∃ t, Fnames.read [0] = .ok t ∧ Fnames.string t = .ok []) ∧
    ∃ t, Fnames.read [2, 0, 0, 1, 97, 1] = .ok t ∧ Fnames.string t = .error .diverge := by
  exact ⟨⟨[], by decide, rfl⟩, ⟨[⟨0, [], [([], 0)]⟩, ⟨1, [97], [([97], 1)]⟩], by decide, by decide +kernel⟩⟩

-- non-vacuity: "/a/b" and "/a/c/d" and "/a" and "/", in two sessions
example : wayOrder [[47, 97, 47, 98], [47, 97, 47, 99, 47, 100], [47, 97], [47]] = [[47, 97], [47, 97, 47, 98], [47, 97, 47, 99], [47, 97, 47, 99, 47, 100], [47]] := by decide +kernel
example : fnamesSessions [47] Fnames.newFnames [[[97, 47, 98], [97, 47, 99, 47, 100]], [[97], [47]]] =
    .ok ([2, 4, 1, 5], [⟨0, [], [([], 5), ([97], 1), ([], 0)]⟩, ⟨0, [97], [([99], 3), ([98], 2)]⟩, ⟨1, [98], []⟩, ⟨1, [99], [([100], 4)]⟩, ⟨3, [100], []⟩, ⟨0, [], []⟩]) := by decide +kernel
example : namesFile [[47, 97, 47, 98], [47, 97]] = [3, 0, 0, 1, 97, 0, 1, 98, 1] := by
  have hs : ∀ n, n < 128 → leb n = [UInt8.ofNat n] := fun n h => by rw [leb, if_pos h]
  have hw : wayOrder [[47, 97, 47, 98], [47, 97]] = [[47, 97], [47, 97, 47, 98]] := by decide +kernel
  have h1 : nameOf [47, 97] = [97] ∧ nameOf [47, 97, 47, 98] = [98] ∧ parentOf [47, 97] = [] ∧ parentOf [47, 97, 47, 98] = [47, 97] := by decide +kernel
  have h2 : wayNumber [[47, 97, 47, 98], [47, 97]] [] = 0 ∧ wayNumber [[47, 97, 47, 98], [47, 97]] [47, 97] = 1 := by decide +kernel
  rw [namesFile, hw, List.flatMap_cons, List.flatMap_cons, List.flatMap_nil, h1.1, h1.2.1, h1.2.2.1, h1.2.2.2, h2.1, h2.2, hs _ (by decide), hs _ (by decide), hs _ (by decide), hs _ (by decide), hs 1 (by decide)]
  rfl
example : ∃ d, History asciiUni Json.codec exCmdConfig exCmdSessions d ∧ d .dmd = some (recordsFile (documents exCmdSessions)) := by
  obtain ⟨d, hd⟩ := History.exists (u := asciiUni) exCmd_usable _ _ [] exCmd_fits
  exact ⟨d, hd, (C119_files exCmd_usable hd exCmd_fits).2⟩

end Dupi.Props
