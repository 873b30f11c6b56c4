import Verif.Props.Exit
/-! # Any number of runs of dupi, one after the other: C74 -/

namespace Dupi.Props
open Spec Cmd Disk

/-- a run of the program: the files there are, what the process sees, its arguments -/
structure Call where
  fs : Files
  p : Proc
  args : List Bytes

/-- runs of the program one after the other, whatever they print and their status -/
inductive Calls (L : Lib) (readCfg : Bytes → M Config) : Disk → List Call → Disk → Prop where
  | nil {d : Disk} : Calls L readCfg d [] d
  | snoc {d d' d'' : Disk} {cs : List Call} {c : Call} {out : Bytes} {s : Nat} : Calls L readCfg d cs d' → Runs L readCfg d' c.fs c.p c.args d'' out s →
      Calls L readCfg d (cs ++ [c]) d''

/-- what a call of the index command is to do -/
noncomputable def asked (L : Lib) (readCfg : Bytes → M Config) (c : Call) : Option Disk.Op :=
  match indexRun L.S L.join readCfg c.p c.args with
  | some (.ok (op, _)) => some op
  | _ => none

/-- if the call makes an index, then with a configuration that can be used and has an absolute root -/
def Sane (L : Lib) (readCfg : Bytes → M Config) (c : Call) : Prop :=
  ∀ cwd cfg docs, asked L readCfg c = some (.create cwd cfg docs) → Usable L.J cfg ∧ cfg.indexRoot.head? = some 47

section
variable {L : Lib} {readCfg : Bytes → M Config}

/-- **C74**: a run that is not one of the index command leaves the disk as it is, whatever its arguments; -/
theorem C74_readers {d d' : Disk} {fs : Files} {p : Proc} {args : List Bytes} {out : Bytes} {s : Nat} (h : Runs L readCfg d fs p args d' out s)
    (hv : ∀ root rest, main L.join p.env args ≠ some (.index, root, rest)) : d' = d := by
  rcases h with h | ⟨h, h'⟩ | ⟨h, h'⟩ | ⟨h, h'⟩ | ⟨h, h'⟩ | ⟨h, h'⟩ | h | ⟨h, h'⟩ | ⟨h, h'⟩ <;> first | rfl | skip
  obtain ⟨root, rest, _, hm, _⟩ := indexRun_main h
  exact absurd hm (hv root rest)

/-- and a run changes the disk only as the index command asks to. -/
theorem C74_changes {d d' : Disk} {c : Call} {out : Bytes} {s : Nat} (h : Runs L readCfg d c.fs c.p c.args d' out s) :
    d' = d ∨ ∃ op, asked L readCfg c = some op ∧ Step L.u L.J L.srt d op d' := by
  rcases h with h | ⟨h, h'⟩ | ⟨h, h'⟩ | ⟨h, h'⟩ | ⟨h, h'⟩ | ⟨h, h'⟩ | h | ⟨h, h'⟩ | ⟨h, h'⟩ <;> first | exact .inl rfl | skip
  exact .inr ⟨_, by unfold asked; rw [h], h'⟩

theorem asked_made {c : Call} (hs : Sane L readCfg c) {op : Disk.Op} (h : asked L readCfg c = some op) : Made L.J op := by
  cases op with
  | create cwd cfg docs => exact hs _ _ _ h
  | append => trivial
  | remove => trivial
  | discard => trivial

end

/-! ## What there is after a sequence of runs -/

open Classical in
/-- the catalogue after a request, which is refused if the catalogue does not allow it -/
noncomputable def request (g : Catalogue) (op : Disk.Op) : Catalogue := if g.Allows op then g.after op else g

/-- the catalogue after some requests -/
noncomputable def requests (ops : List Disk.Op) : Catalogue := ops.foldl request fun _ => none

theorem requests_snoc (ops : List Disk.Op) (op : Disk.Op) : requests (ops ++ [op]) = request (requests ops) op := by simp [requests]

/-- making and adding, not removing -/
def Grows : Disk.Op → Prop
  | .create _ _ _ | .append _ _ _ => True
  | _ => False

theorem request_grows {g : Catalogue} {op : Disk.Op} (ho : Grows op) {q : List Bytes} {c : Config} {h : Sessions} (hg : g q = some (c, h)) :
    ∃ h', request g op q = some (c, h ++ h') := by
  unfold request
  split
  · rename_i hal
    cases op with
    | create cwd cfg docs =>
      have hne : q ≠ at_ (.create cwd cfg docs) := by rintro rfl; rw [Catalogue.Allows] at hal; rw [hg] at hal; cases hal
      exact ⟨[], by simp only [Catalogue.after, if_neg hne, hg, List.append_nil]⟩
    | append cwd root docs =>
      by_cases hq : q = at_ (.append cwd root docs)
      · exact ⟨[(cwd, docs)], by simp only [Catalogue.after, if_pos hq, hg, Option.map_some]⟩
      · exact ⟨[], by simp only [Catalogue.after, if_neg hq, hg, List.append_nil]⟩
    | remove => exact ho.elim
    | discard => exact ho.elim
  · exact ⟨[], by rw [hg, List.append_nil]⟩

section
variable {L : Lib} {readCfg : Bytes → M Config}

theorem asked_grows {c : Call} {op : Disk.Op} (h : asked L readCfg c = some op) : Grows op := by
  unfold asked at h
  split at h
  · rename_i op' err hi
    injection h with h
    subst h
    unfold indexRun at hi
    split at hi
    · split at hi
      · cases hi
      · injection hi with hi
        simp only [bind, Except.bind, pure, Except.pure] at hi
        split at hi
        · cases hi
        · split at hi <;> (cases hi; trivial)
    · cases hi
  · cases h

/-- there is room for all documents -/
def Room (u : Uni) (g : Catalogue) : Prop := ∀ q c h, g q = some (c, h) → Fits u c (documents h)

theorem Room.before {u : Uni} {g : Catalogue} {op : Disk.Op} (ho : Grows op) (h : Room u (request g op)) : Room u g := by
  intro q c s hq
  obtain ⟨s', hs'⟩ := request_grows ho hq
  have := h q c _ hs'
  rw [documents, List.flatMap_append] at this
  exact this.left

/-- **C74.**  After any number of runs of dupi, whatever their arguments and whether they failed or not, the disk shows what the index commands among them asked for, in
order; a request for a new index where there is one, and one to add to an index where there is none, have no effect. -/
theorem C74_sequence (hsrt : IsSorter L.srt) {cs : List Call} {d : Disk} (h : Calls L readCfg Disk.empty cs d) (hs : ∀ c ∈ cs, Sane L readCfg c)
    (hroom : Room L.u (requests (cs.filterMap (asked L readCfg)))) :
    ∃ ops, catalogue ops = requests (cs.filterMap (asked L readCfg)) ∧ (∀ op ∈ ops, Made L.J op) ∧ Steps L.u L.J L.srt Disk.empty ops d := by
  generalize hd : Disk.empty = d0 at h
  induction h with
  | nil => subst hd; exact ⟨[], rfl, by simp, .nil⟩
  | @snoc d2 d3 cs c out s h1 h2 ih =>
    subst hd
    cases ha : asked L readCfg c with
    | none =>
      rw [List.filterMap_append, List.filterMap_cons, ha] at hroom ⊢
      simp only [List.filterMap_nil, List.append_nil] at hroom ⊢
      rcases C74_changes h2 with rfl | ⟨op, ha', _⟩
      · exact ih (fun c hc => hs c (by simp [hc])) hroom
      · rw [ha] at ha'; cases ha'
    | some op =>
      rw [List.filterMap_append, List.filterMap_cons, ha] at hroom ⊢
      simp only [List.filterMap_nil] at hroom ⊢
      rw [requests_snoc] at hroom ⊢
      have hroom' := hroom.before (asked_grows ha)
      obtain ⟨ops, i1, i2, i3⟩ := ih (fun c hc => hs c (by simp [hc])) hroom'
      have hmade := asked_made (hs c (by simp)) ha
      have sh := Steps.shows i2 i3
      rw [i1] at sh
      obtain ⟨err, hi⟩ : ∃ err, indexRun L.S L.join readCfg c.p c.args = some (.ok (op, err)) := by
        unfold asked at ha
        split at ha
        · rename_i op' err hi
          injection ha with ha
          subst ha
          exact ⟨err, hi⟩
        · cases ha
      rw [runs_index hi] at h2
      rcases h2 with ⟨hst, _, _⟩ | ⟨rfl, _, _, ⟨cwd, cfg, docs, rfl, hno⟩ | ⟨cwd, root, docs, e, rfl, hno⟩⟩
      · have hal : (requests (cs.filterMap (asked L readCfg))).Allows op := by
          cases hst with
          | @create cwd cfg x docs d1 k1 k2 k3 =>
            rw [resolve_place] at k1
            show requests _ (Spec.place cwd cfg.indexRoot) = none
            cases hg : requests (cs.filterMap (asked L readCfg)) (Spec.place cwd cfg.indexRoot) with
            | none => rfl
            | some e =>
              obtain ⟨c', s'⟩ := e
              obtain ⟨_, hk, _⟩ := sh.held hg
              rw [k1] at hk; cases hk
          | @append cwd root x docs d1 k1 k2 =>
            show (requests _ (Spec.place cwd root)).isSome
            cases hg : requests (cs.filterMap (asked L readCfg)) (Spec.place cwd root) with
            | some e => rfl
            | none =>
              have := C52_open i2 i3 cwd root
              rw [i1, hg] at this
              rw [this.2] at k1; cases k1
          | remove => exact (asked_grows ha).elim
          | discard => exact (asked_grows ha).elim
        refine ⟨ops ++ [op], ?_, ?_, .snoc i3 hst⟩
        · rw [request, if_pos hal, ← i1]
          simp [catalogue]
        · intro o ho
          rcases List.mem_append.mp ho with ho | ho
          · exact i2 o ho
          · rw [List.mem_singleton] at ho
            subst ho
            exact hmade
      · refine ⟨ops, ?_, i2, i3⟩
        have hal : ¬ (requests (cs.filterMap (asked L readCfg))).Allows (.create cwd cfg docs) := by
          intro hal
          rw [resolve_place] at hno
          exact hno (sh.free hal)
        rw [i1, request, if_neg hal]
      · refine ⟨ops, ?_, i2, i3⟩
        have hal : ¬ (requests (cs.filterMap (asked L readCfg))).Allows (.append cwd root docs) := by
          intro hal
          have hal : (requests (cs.filterMap (asked L readCfg)) (Spec.place cwd root)).isSome := hal
          cases hg : requests (cs.filterMap (asked L readCfg)) (Spec.place cwd root) with
          | none => rw [hg] at hal; cases hal
          | some e =>
            obtain ⟨c', s'⟩ := e
            have := C52_open i2 i3 cwd root
            rw [i1, hg] at this
            obtain ⟨_, _, _, _, y, hy⟩ := this hsrt (hroom' _ _ _ hg)
            rw [hy] at hno; cases hno
        rw [i1, request, if_neg hal]

/-- **C74**, extract: after any runs, extract prints the blots of exactly the documents that were added to the index at its root, or ends with status 1 if there is none. -/
theorem C74_extract (hsrt : IsSorter L.srt) {cs : List Call} {d : Disk} (h : Calls L readCfg Disk.empty cs d) (hs : ∀ c ∈ cs, Sane L readCfg c)
    (hroom : Room L.u (requests (cs.filterMap (asked L readCfg)))) {fs : Files} {p : Proc} {gopts opts : List Opt} (hg : RootOpts gopts)
    (ho : ∀ o ∈ opts, ExtractOpt L.S o) {l rest : List Bytes} (hl : Rest l rest) (hff : 2 ^ 32 ≤ L.ff) (hfuel : 2 ^ 32 + 2 ^ 32 + 2 ^ 32 < L.fuel) (hk : 2 ^ 32 < L.k)
    (hσ : |sigmaOf L.S opts| ≤ 2 ^ 20) :
    match requests (cs.filterMap (asked L readCfg)) (Spec.place p.cwd (promised L.join p.env gopts)) with
    | none => ∀ (d' : Disk) (o : Bytes) (s : Nat),
      Runs L readCfg d fs p (gopts.flatMap Opt.args ++ Verb.extract.name :: (opts.flatMap Opt.args ++ l)) d' o s ↔ d' = d ∧ o = [] ∧ s = 1
    | some (c, h) => ∃ out, Prints L.u c (documents h) (sigmaOf L.S opts) out ∧ ∀ (d' : Disk) (o : Bytes) (s : Nat),
      Runs L readCfg d fs p (gopts.flatMap Opt.args ++ Verb.extract.name :: (opts.flatMap Opt.args ++ l)) d' o s ↔
        d' = d ∧ (o = if isOn opts jsonB then extractJson out else if isOn opts [98] then extractBlots out else extractText out) ∧ s = 0 := by
  obtain ⟨ops, i1, i2, i3⟩ := C74_sequence hsrt h hs hroom
  cases hc : requests (cs.filterMap (asked L readCfg)) (Spec.place p.cwd (promised L.join p.env gopts)) with
  | none => exact C73_no_index i2 i3 hg (v := .extract) (by simp) ho hl (by rw [i1]; exact hc)
  | some e =>
    obtain ⟨c, hh⟩ := e
    exact C73_extract i2 i3 hg (by rw [i1]; exact hc) (hroom _ _ _ hc) hsrt ho hl hff hfuel hk hσ

end

/-- runs of verbs other than index ask for nothing -/
theorem asked_other {L : Lib} {readCfg : Bytes → M Config} {c : Call} {v : Verb} (hv : v ≠ .index) {root : Bytes} {rest : List Bytes}
    (hm : main L.join c.p.env c.args = some (v, root, rest)) : asked L readCfg c = none := by
  unfold asked
  cases hi : indexRun L.S L.join readCfg c.p c.args with
  | none => rfl
  | some r =>
    obtain ⟨_, _, _, h, _⟩ := indexRun_main hi
    rw [hm] at h
    injection h with h
    injection h with h
    exact absurd h hv

/-- and a run of index in proper form asks for an index with the plain configuration -/
theorem asked_new {L : Lib} {readCfg : Bytes → M Config} {fs : Files} {p : Proc} {gopts opts : List Opt} (hg : RootOpts gopts) (ho : NewIndex L.S opts) {l paths : List Bytes}
    (hl : Rest l paths) (hr : Readable L.join p.look paths) :
    asked L readCfg ⟨fs, p, gopts.flatMap Opt.args ++ Verb.index.name :: (opts.flatMap Opt.args ++ l)⟩ =
      some (.create p.cwd (plainConfig (absPath p.cwd (promised L.join p.env gopts)) (intOf L.S opts [110] 4) (intOf L.S opts [115] 4))
        ((filesOf L.join p.look paths).filterMap docOf)) := by
  unfold asked
  rw [C63_index L.S L.join readCfg hg ho hl p hr]

/-- `dupi -r=x index t`, `dupi -r=x like /n` (which fails), `dupi -r=y extract` (which fails), `dupi -r=x blot /n` -/
def exCalls : List Call :=
  [⟨exCmdFiles, exProc, [[45, 114, 61, 120], Verb.index.name, [116]]⟩, ⟨exCmdFiles, exProc, [[45, 114, 61, 120], Verb.like.name, [47, 110]]⟩,
    ⟨exCmdFiles, exProc, [[45, 114, 61, 121], Verb.extract.name]⟩, ⟨exCmdFiles, exProc, [[45, 114, 61, 120], Verb.blot.name, [47, 110]]⟩]

/-- then `dupi -r=x extract -sigma 0` prints the blots of both files -/
theorem C74_nonvacuous (readCfg : Bytes → M Config) : ∃ d, Calls exLib readCfg Disk.empty exCalls d ∧
    ∃ out, Prints asciiUni exCmdConfig (documents exCmdSessions) 0 out ∧ ∀ (d' : Disk) (o : Bytes) (s : Nat),
      Runs exLib readCfg d exCmdFiles exProc [[45, 114, 61, 120], Verb.extract.name, [45] ++ sigmaB, [48]] d' o s ↔ d' = d ∧ o = extractText out ∧ s = 0 := by
  obtain ⟨d, r1, ⟨d2, o2, r2⟩, ⟨d4, o4, r4⟩, _, ⟨d3, o3, r3⟩, _⟩ := C73_nonvacuous readCfg
  have m2 : main exLib.join exProc.env [[45, 114, 61, 120], Verb.like.name, [47, 110]] = some (.like, promised exJoin exProc.env exCmdOpts, [[47, 110]]) :=
    C57_runs_partial exJoin exProc.env exCmd_root.1 exCmd_root.2 .like [[47, 110]]
  have m3 : main exLib.join exProc.env [[45, 114, 61, 121], Verb.extract.name] = some (.extract, promised exJoin exProc.env [⟨[114], [121], .equals, false⟩], []) :=
    C57_runs_partial exJoin exProc.env (opts := [⟨[114], [121], .equals, false⟩]) (by simp [RootOpt]) (by simp [Apart]) .extract []
  have m4 : main exLib.join exProc.env [[45, 114, 61, 120], Verb.blot.name, [47, 110]] = some (.blot, promised exJoin exProc.env exCmdOpts, [[47, 110]]) :=
    C57_runs_partial exJoin exProc.env exCmd_root.1 exCmd_root.2 .blot [[47, 110]]
  have e2 : d2 = d := C74_readers r2 (by intro root rest; rw [m2]; simp)
  have e3 : d3 = d := C74_readers r3 (by intro root rest; rw [m3]; simp)
  have e4 : d4 = d := C74_readers r4 (by intro root rest; rw [m4]; simp)
  subst e2
  rw [e3] at r3
  rw [e4] at r4
  have hcalls : Calls exLib readCfg Disk.empty exCalls d2 := .snoc (.snoc (.snoc (.snoc .nil r1) r2) r3) r4
  have hcfg : plainConfig (absPath exProc.cwd (promised exLib.join exProc.env exCmdOpts)) (intOf exLib.S [] [110] 4) (intOf exLib.S [] [115] 4) = exCmdConfig := by
    have : absPath exProc.cwd (promised exJoin exProc.env exCmdOpts) = [47, 120] := by decide +kernel
    show plainConfig (absPath exProc.cwd (promised exJoin exProc.env exCmdOpts)) _ _ = _
    rw [this]; rfl
  have hv : filesOf exLib.join exProc.look [[116]] = [([116, 47, 112], .data exText1), ([116, 47, 113], .data exText2)] := by
    show filesOf exJoin _ _ = _
    simp [filesOf, exProc, visibleAll, visible, Hidden, exJoin]
  have hr : Readable exLib.join exProc.look [[116]] := by
    intro p hp
    rw [List.mem_singleton] at hp
    subst hp
    refine ⟨_, rfl, by simp [Open, OpenAll, exProc], ?_⟩
    intro f hf
    have : f ∈ filesOf exLib.join exProc.look [[116]] := by
      simp only [filesOf, List.flatMap_cons, List.flatMap_nil, List.append_nil]
      exact hf
    rw [hv] at this
    simp only [List.mem_cons, List.not_mem_nil, or_false] at this
    rcases this with rfl | rfl <;> exact ⟨_, rfl⟩
  have a1 : asked exLib readCfg ⟨exCmdFiles, exProc, [[45, 114, 61, 120], Verb.index.name, [116]]⟩ =
      some (.create [47] exCmdConfig [⟨[116, 47, 112], 0, 22, some exText1⟩, ⟨[116, 47, 113], 0, 24, some exText2⟩]) := by
    have := asked_new (L := exLib) (readCfg := readCfg) (fs := exCmdFiles) (p := exProc) exCmd_root (opts := []) ⟨by simp, rfl, rfl, rfl⟩ (l := [[116]]) (paths := [[116]])
      (.plain (by simp)) hr
    rw [hcfg, hv] at this
    exact this
  have a2 : asked exLib readCfg ⟨exCmdFiles, exProc, [[45, 114, 61, 120], Verb.like.name, [47, 110]]⟩ = none := asked_other (v := .like) (by simp) m2
  have a3 : asked exLib readCfg ⟨exCmdFiles, exProc, [[45, 114, 61, 121], Verb.extract.name]⟩ = none := asked_other (v := .extract) (by simp) m3
  have a4 : asked exLib readCfg ⟨exCmdFiles, exProc, [[45, 114, 61, 120], Verb.blot.name, [47, 110]]⟩ = none := asked_other (v := .blot) (by simp) m4
  have hask : exCalls.filterMap (asked exLib readCfg) = exCmdOps := by
    simp only [exCalls, List.filterMap_cons, a1, a2, a3, a4, List.filterMap_nil]
    rfl
  have hreq : requests exCmdOps = catalogue exCmdOps := by
    simp only [requests, catalogue, exCmdOps, List.foldl_cons, List.foldl_nil]
    rw [request, if_pos (by rfl)]
  have hroom : Room asciiUni (requests exCmdOps) := by
    intro q c h hq
    rw [hreq] at hq
    simp only [catalogue, exCmdOps, List.foldl_cons, List.foldl_nil, Catalogue.after] at hq
    split at hq
    · injection hq with hq
      injection hq with h1 h2
      subst h1 h2
      exact exCmd_fits
    · cases hq
  refine ⟨d2, hcalls, ?_⟩
  have := C74_extract (L := exLib) (readCfg := readCfg) mergeSorter_isSorter hcalls (by
      intro c hc cwd cfg docs hs
      simp only [exCalls, List.mem_cons, List.not_mem_nil, or_false] at hc
      rcases hc with rfl | rfl | rfl | rfl
      · rw [a1] at hs
        injection hs with hs
        injection hs with _ h2 _
        subst h2
        exact ⟨exCmd_usable, by decide +kernel⟩
      · rw [a2] at hs; cases hs
      · rw [a3] at hs; cases hs
      · rw [a4] at hs; cases hs) (by rw [hask]; exact hroom) (fs := exCmdFiles) (p := exProc) exCmd_root
      (opts := [⟨sigmaB, [48], .apart, false⟩]) (by simp [ExtractOpt, exLib, exFloat]) (l := []) (rest := []) (.plain (by simp)) (by decide) (by decide) (by decide)
      (by simp [sigmaOf, valueOf, exLib, exFloat])
  have hcat : requests (exCalls.filterMap (asked exLib readCfg)) (Spec.place exProc.cwd (promised exLib.join exProc.env exCmdOpts)) = some (exCmdConfig, exCmdSessions) := by
    rw [hask, hreq]; exact exCmd_cat
  rw [hcat] at this
  have hσ : sigmaOf exLib.S [⟨sigmaB, [48], .apart, false⟩] = 0 := by simp [sigmaOf, valueOf, exLib, exFloat]
  rw [hσ] at this
  exact this

end Dupi.Props
