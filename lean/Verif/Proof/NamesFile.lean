import Verif.Proof.PathOrder
import Verif.Proof.Indexer
import Verif.Proof.CrashRun
/-! The files of names and records of an index. -/

namespace Dupi
open Spec

theorem leb_eq (n : Nat) : leb n = putUvarint n := by
  induction n using Nat.strongRecOn with
  | _ n ih =>
    rw [leb]
    by_cases h : n < 128
    · rw [if_pos h, putUvarint_small h]
    · rw [if_neg h, putUvarint_big (by omega), ih (n / 128) (by omega)]
      congr 1
      have key : ∀ y : Fin 256, y.val ||| 128 = 128 + y.val % 128 := by decide +kernel
      apply UInt8.toNat_inj.mp
      have := key ⟨n % 256, by omega⟩
      simp only [UInt8.toNat_or, UInt8.toNat_ofNat']
      have e : (0x80 : UInt8).toNat = 128 := rfl
      rw [e]
      simp only at this
      rw [show (2 : Nat) ^ 8 = 256 from rfl, this]; omega

theorem be32_big4 (x : UInt32) : be32 x = big4 x.toNat := by
  have h := x.toNat_lt
  simp only [be32, big4, List.cons.injEq, and_true]
  refine ⟨?_, ?_, ?_, ?_⟩ <;> apply UInt8.toNat_inj.mp <;> simp [Nat.shiftRight_eq_div_pow]

theorem pathText_last (cs : List Bytes) (e : Bytes) (he : (47 : UInt8) ∉ e) :
    nameOf (Fnames.pathText (cs ++ [e])) = e ∧ parentOf (Fnames.pathText (cs ++ [e])) = Fnames.pathText cs := by
  have h1 : ∀ b ∈ e.reverse, notSlash b = true := by
    intro b hb
    simp only [notSlash, decide_eq_true_eq]
    intro h; subst h; exact he (List.mem_reverse.mp hb)
  have h2 : (Fnames.pathText (cs ++ [e])).reverse = e.reverse ++ 47 :: (Fnames.pathText cs).reverse := by
    rw [Fnames.pathText_snoc]; simp
  constructor
  · rw [nameOf, h2, List.takeWhile_append_of_pos h1]; simp [notSlash]
  · rw [parentOf, h2, List.dropWhile_append_of_pos h1]; simp [notSlash]

namespace Fnames

theorem idx_of_nodup {L : List Bytes} (hn : L.Nodup) {i : Nat} {q : Bytes} (h : L[i]? = some q) : L.idxOf q = i := by
  obtain ⟨hi, rfl⟩ := List.getElem?_eq_some_iff.mp h
  exact hn.idxOf_getElem i hi

theorem pathText_nil_iff {cs : List Bytes} : pathText cs = [] ↔ cs = [] := by
  cases cs <;> simp [pathText]

/-- the number of a path in a table that lists them -/
theorem Listed.number {t : Table} {ps : List Bytes} (h : Listed t (wayOrder ps)) {i : Nat} {cs : List Bytes} (hi : i < t.length) (hc : Comps t i cs) :
    wayNumber ps (pathText cs) = i := by
  have hn : (wayOrder ps).Nodup := nodup_eraseDups' _ _ (Nat.le_refl _)
  by_cases h0 : i = 0
  · subst h0
    rw [Comps.det hc .root]; simp [wayNumber, pathText]
  · have := h.find hi h0 hc
    have hcs : cs ≠ [] := by
      intro e
      generalize hg : i = j at hc
      cases hc with
      | root => exact h0 hg
      | step _ _ _ => simp at e
    rw [wayNumber, if_neg (by rw [pathText_nil_iff]; exact hcs), idx_of_nodup hn this]; omega

theorem Listed.write {t : Table} {ps : List Bytes} (w : WF t) (nm : ∀ n ∈ t, n.name.length < 2 ^ 32) (hs : t.length < 2 ^ 32) (h : Listed t (wayOrder ps)) :
    Fnames.write t = namesFile ps := by
  have hl := h.len
  obtain ⟨r, hr, hrp, hrn⟩ := w.root
  cases t with
  | nil => simp at hr
  | cons n t =>
    simp only [List.getElem?_cons_zero, Option.some.injEq] at hr
    subst hr
    have hlt : (n :: t).length = t.length + 1 := rfl
    have hh : writeNode n = [0, 0] := by
      rw [writeNode, hrp, hrn]
      simp [writeUvarint32, putUvarint_small]
    have hn : (wayOrder ps).Nodup := nodup_eraseDups' _ _ (Nat.le_refl _)
    have key : t.map writeNode = (wayOrder ps).map fun q => leb (nameOf q).length ++ nameOf q ++ leb (wayNumber ps (parentOf q)) := by
      apply List.ext_getElem?
      intro i
      by_cases hi : i < t.length
      · have hil : i < (wayOrder ps).length := by omega
        rw [List.getElem?_map, List.getElem?_map, List.getElem?_eq_getElem hi, List.getElem?_eq_getElem hil]
        simp only [Option.map_some, Option.some.injEq]
        obtain ⟨cs, a1, a2, a3, a4⟩ := h.node i _ (List.getElem?_eq_getElem hil)
        rw [a3]
        rcases List.eq_nil_or_concat cs with rfl | ⟨cs', e, rfl⟩
        · exact absurd rfl a1
        · rw [List.concat_eq_append] at a2 a4 ⊢
          obtain ⟨m, _, b2, b3, b4⟩ := a4.parent
          rw [List.getElem?_cons_succ, List.getElem?_eq_getElem hi] at b2
          cases b2
          have hm := nm t[i] (List.mem_cons_of_mem _ (List.getElem_mem hi))
          have hlen : (UInt32.ofNat t[i].name.length).toNat = t[i].name.length := by simp only [UInt32.toNat_ofNat']; omega
          obtain ⟨c1, c2⟩ := pathText_last cs' e (a2 e (by simp))
          have hp := w.parentLt (i + 1) t[i] (by simp) (by omega)
          rw [c1, c2, h.number (by omega) b4, leb_eq, leb_eq, writeNode, writeUvarint32, hlen, writeUvarint32, b3]
      · rw [List.getElem?_eq_none (by simpa using hi), List.getElem?_eq_none (by simp; omega)]
    have hlen : (UInt32.ofNat (n :: t).length).toNat = (n :: t).length := by simp only [UInt32.toNat_ofNat']; omega
    rw [Fnames.write, writeUvarint32, hlen, List.flatMap_cons, hh, namesFile, leb_eq, ← hl, List.flatMap_def, key, ← List.flatMap_def]
    simp

end Fnames

theorem Front.adds_table (cwd : Bytes) (docs : List Doc) : ∀ {x y : Front} {rs : List Front.Req}, x.adds cwd docs = .ok (rs, y) →
    ∃ ids, Fnames.addAll cwd x.fnames (docs.map fun d => d.path) = .ok (ids, y.fnames) := by
  induction docs with
  | nil => intro x y rs h; cases h; exact ⟨[], rfl⟩
  | cons doc docs ih =>
    intro x y rs h
    simp only [Front.adds, Front.add, bind, Except.bind, pure, Except.pure] at h
    cases hp : Fnames.addPath cwd x.fnames doc.path with
    | error f => rw [hp] at h; cases h
    | ok r =>
      rw [hp] at h
      simp only at h
      cases hr : Front.adds cwd ⟨r.2, (Dmd.add x.dmds x.file ⟨r.1, doc.start, doc.stop⟩).2.1, (Dmd.add x.dmds x.file ⟨r.1, doc.start, doc.stop⟩).2.2⟩ docs with
      | error f => rw [hr] at h; cases h
      | ok s =>
        rw [hr] at h
        simp only [Except.ok.injEq, Prod.mk.injEq] at h
        obtain ⟨_, rfl⟩ := h
        obtain ⟨ids, hids⟩ := ih hr
        exact ⟨r.1 :: ids, by simp only [List.map_cons, Fnames.addAll, hp, hids, bind, Except.bind, pure, Except.pure]⟩

/-- the table a session writes -/
theorem Session.table {u : Uni} {J : CfgCodec} {cwd : Bytes} {x : Indexer} {docs : List Doc} {d d' : Dir} (h : Indexer.Session u J cwd x docs d d') :
    ∃ ids t, Fnames.addAll cwd x.front.fnames (docs.map fun d => d.path) = .ok (ids, t) ∧ d' .fnm = some (Fnames.write t) := by
  obtain ⟨h1, h2, h3, h4⟩ := h
  rename_i rs front k st
  obtain ⟨ids, hids⟩ := Front.adds_table cwd docs h1
  refine ⟨ids, front.fnames, hids, ?_⟩
  unfold Indexer.close at h4
  rw [(closeShards_spec _ _ h4).2 .fnm (fun j _ => ⟨by simp, by simp⟩)]
  cases Dmd.close front.dmds front.file <;> simp [Dir.set]

theorem open_table {J : CfgCodec} {d : Dir} {x : Indexer} (h : Indexer.open J d = .ok x) : ∃ b, d .fnm = some b ∧ Fnames.read b = .ok x.front.fnames := by
  simp only [Indexer.open, Dir.read, bind, Except.bind, pure, Except.pure] at h
  cases h1 : Config.readFrom J d with
  | error e => rw [h1] at h; cases h
  | ok c =>
    rw [h1] at h; simp only at h
    cases h2 : Indexer.makeShards c with
    | error e => rw [h2] at h; cases h
    | ok n =>
      rw [h2] at h; simp only at h
      cases h3 : Dmd.newAdder (d .dmd) c.docFlushRate with
      | error e => rw [h3] at h; cases h
      | ok a =>
        rw [h3] at h; simp only at h
        cases h4 : d .fnm with
        | none => rw [h4] at h; cases h
        | some b =>
          rw [h4] at h; simp only at h
          refine ⟨b, rfl, ?_⟩
          cases h5 : Fnames.read b with
          | error e => rw [h5] at h; cases h
          | ok t =>
            rw [h5] at h; simp only at h
            cases h6 : c.tokenConfig.fromConfig with
            | error e => rw [h6] at h; cases h
            | ok _ =>
              rw [h6] at h; simp only at h
              cases h7 : Indexer.openShards d n 0 with
              | error e => rw [h7] at h; cases h
              | ok xs =>
                rw [h7] at h; simp only at h
                cases h8 : Indexer.makeBlotters c with
                | error e => rw [h8] at h; cases h
                | ok bs =>
                  rw [h8] at h; cases h; rfl

theorem create_table {c : Config} {x : Indexer} (h : Indexer.create c = .ok x) : x.front.fnames = Fnames.newFnames := by
  simp only [Indexer.create, bind, Except.bind, pure, Except.pure] at h
  cases h2 : Indexer.makeShards c with
  | error e => rw [h2] at h; cases h
  | ok n =>
    rw [h2] at h; simp only at h
    cases h6 : c.tokenConfig.fromConfig with
    | error e => rw [h6] at h; cases h
    | ok _ =>
      rw [h6] at h; simp only at h
      cases h3 : Dmd.newAdder none c.docFlushRate with
      | error e => rw [h3] at h; cases h
      | ok a =>
        rw [h3] at h; simp only at h
        cases h8 : Indexer.makeBlotters c with
        | error e => rw [h8] at h; cases h
        | ok bs => rw [h8] at h; cases h; rfl

theorem documents_paths_snoc (h : Sessions) (cwd : Bytes) (docs : List Doc) :
    (documents (h ++ [(cwd, docs)])).map (fun s => s.path) = (documents h).map (fun s => s.path) ++ Fnames.absPaths cwd (docs.map fun d => d.path) := by
  simp [documents, added, Fnames.absPaths, absPath_place]

/-- the table an index was closed with -/
structure TableOf (t : Fnames.Table) (ps : List Bytes) : Prop where
  wf : Fnames.WF t
  names : ∀ n ∈ t, n.name.length < 2 ^ 32
  on : ∀ i cs, Fnames.Comps t i cs → Fnames.OnPaths ps cs
  small : t.length < 2 ^ 32
  listed : Fnames.Listed t (wayOrder ps)

theorem TableOf.sim {t e : Fnames.Table} {ps : List Bytes} (h : TableOf t ps) (s : Fnames.Sim t e) : TableOf e ps where
  wf := s.wf h.wf
  names := by
    intro n hn
    obtain ⟨i, hi⟩ := List.mem_iff_getElem?.mp hn
    obtain ⟨m, hm, _, h2, _⟩ := s.symm.get? hi
    rw [← h2]; exact h.names m (List.mem_of_getElem? hm)
  on := fun i cs hc => h.on i cs (s.symm.comps hc)
  small := by rw [s.len]; exact h.small
  listed := h.listed.sim s

theorem TableOf.add {t : Fnames.Table} {ps : List Bytes} (h : TableOf t ps) (cwd : Bytes) (qs : List Bytes) (hf : FewPaths (ps ++ Fnames.absPaths cwd qs)) :
    ∃ ids t', Fnames.addAll cwd t qs = .ok (ids, t') ∧ TableOf t' (ps ++ Fnames.absPaths cwd qs) ∧ ids.length = qs.length ∧
      ∀ (k : Nat) (p : Bytes), qs[k]? = some p → ∃ id : UInt32, ids[k]? = some id ∧ id.toNat < t'.length ∧ Fnames.Comps t' id.toNat (Fnames.pathParts (absPath cwd p)) := by
  obtain ⟨ids, t', h1, h2, h3, h4, _, _, h6, _, hc, h8⟩ := Fnames.addAll_spec cwd qs h.wf h.names h.on hf
  refine ⟨ids, t', h1, ⟨h2, h3, Fnames.onPaths_add h.on hc, h6, ?_⟩, h4, h8⟩
  have := Fnames.Listed.addAll cwd qs h.wf h.names h.on hf h1 h.listed
  rw [wayOrder, List.flatMap_append]; exact this

theorem TableOf.new : TableOf Fnames.newFnames [] :=
  ⟨Fnames.newFnames_wf, Fnames.newFnames_names, Fnames.newFnames_on [], by simp [Fnames.newFnames], Fnames.newFnames_listed⟩

theorem History.table {u : Uni} {J : CfgCodec} {c : Config} {h : Sessions} {d : Dir} (hh : History u J c h d)
    (hf : FewPaths ((documents h).map fun s => s.path)) : ∃ t, d .fnm = some (Fnames.write t) ∧ TableOf t ((documents h).map fun s => s.path) := by
  induction hh with
  | create h1 h2 =>
    rename_i x cwd docs d
    have e := documents_paths_snoc [] cwd docs
    rw [List.nil_append] at e
    rw [e] at hf ⊢
    obtain ⟨ids, t, g1, g2⟩ := Session.table h2
    rw [create_table h1] at g1
    obtain ⟨ids', t', k1, k2, _⟩ := TableOf.new.add cwd (docs.map fun d => d.path) (by simpa [documents] using hf)
    rw [k1] at g1; cases g1
    exact ⟨_, g2, by simpa [documents] using k2⟩
  | append h1 h2 h3 ih =>
    rename_i hist d0 d1 x cwd docs
    rw [documents_paths_snoc] at hf ⊢
    obtain ⟨t, a1, a2⟩ := ih (Fnames.FewPaths.mono (fun q hq => List.mem_append_left _ hq) hf)
    obtain ⟨b, b1, b2⟩ := open_table h2
    rw [a1] at b1; cases b1
    obtain ⟨e, e1, e2⟩ := Fnames.read_write t a2.wf a2.small a2.names
    rw [e1] at b2; cases b2
    obtain ⟨ids, t', g1, g2⟩ := Session.table h3
    obtain ⟨ids', t'', k1, k2, _⟩ := (a2.sim e2).add cwd (docs.map fun d => d.path) hf
    rw [k1] at g1; cases g1
    exact ⟨_, g2, k2⟩

end Dupi
