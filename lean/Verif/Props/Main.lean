import Verif.Proof.Main
import Verif.Props.Config
/-! # The command line: C57, C58 -/

namespace Dupi.Props
open Spec Cmd

theorem ofName_name (v : Verb) : Verb.ofName v.name = some v := by cases v <;> decide

theorem ofName_some {a : Bytes} {v : Verb} (h : Verb.ofName a = some v) : a = v.name := by
  have := List.find?_some h
  simpa using (eq_of_beq this).symm

theorem ofName_dash (b : Bytes) : Verb.ofName (45 :: b) = none := by
  cases h : Verb.ofName (45 :: b) with
  | none => rfl
  | some v => have := ofName_some h; cases v <;> simp [Verb.name] at this

/-- arguments none of which is a verb -/
def NoVerb (l : List Bytes) : Prop := ∀ a ∈ l, Verb.ofName a = none

theorem splitArgs_verb {g : List Bytes} (hg : NoVerb g) (v : Verb) (rest : List Bytes) : splitArgs (g ++ v.name :: rest) = (g, v.name :: rest) := by
  have : (g ++ v.name :: rest).findIdx? (fun a => (Verb.ofName a).isSome) = some g.length := by
    rw [List.findIdx?_eq_some_iff_getElem]
    refine ⟨by simp, by simp [ofName_name], ?_⟩
    intro j hj
    rw [List.getElem_append_left hj, hg _ (List.getElem_mem hj)]
    simp
  simp [splitArgs, this]

/-- the options -r ROOT and -r=ROOT -/
def RootOpt (o : Opt) : Prop := o.name = [114] ∧ o.style ≠ .bare

/-- the option is not written with a verb as an argument of its own -/
def Apart (o : Opt) : Prop := o.style = .apart → ∀ v : Verb, o.value ≠ v.name

theorem RootOpt.fine {o : Opt} (h : RootOpt o) : Flag.Fine gFlags o := by
  obtain ⟨h1, h2⟩ := h
  exact ⟨by rw [h1]; decide, by rw [h1]; decide, by rw [h1]; exact ⟨h2, rfl⟩⟩

theorem RootOpt.noVerb {o : Opt} (h : RootOpt o) (ha : Apart o) : NoVerb o.args := by
  obtain ⟨name, value, style, two⟩ := o
  intro a hm
  cases style with
  | bare => exact absurd rfl h.2
  | equals =>
    cases two <;> simp [Opt.args] at hm <;> subst hm <;> exact ofName_dash _
  | apart =>
    simp only [Opt.args, List.mem_cons, List.not_mem_nil, or_false] at hm
    rcases hm with rfl | rfl
    · cases two <;> exact ofName_dash _
    · cases hn : Verb.ofName a with
      | none => rfl
      | some v => exact absurd (ofName_some hn) (ha rfl v)

theorem noVerb_opts {opts : List Opt} (h : ∀ o ∈ opts, RootOpt o) (ha : ∀ o ∈ opts, Apart o) : NoVerb (opts.flatMap Opt.args) := by
  intro a hm
  obtain ⟨o, ho, hm⟩ := List.mem_flatMap.mp hm
  exact (h o ho).noVerb (ha o ho) a hm

/-- The root the usage message promises: the last -r unless that is empty, $DUPIROOT unless that is empty, .dupi in the home directory -/
def promised (join : Bytes → Bytes → Bytes) (env : Env) (opts : List Opt) : Bytes :=
  match valueOf opts [114] with
  | some (b :: r) => b :: r
  | _ =>
    match env.dupiroot, env.home with
    | b :: r, _ => b :: r
    | [], [] => [100, 117, 112, 105]
    | [], b :: h => join (b :: h) [46, 100, 117, 112, 105]

theorem root_promised (join : Bytes → Bytes → Bytes) (env : Env) (opts : List Opt) :
    getIndexRoot join env (opts.map fun o => (o.name, o.value)) = promised join env opts := by
  unfold getIndexRoot promised
  simp only [Flag.last_valueOf]
  obtain ⟨d, h⟩ := env
  cases valueOf opts [114] with
  | none => cases d <;> cases h <;> simp
  | some r => cases r <;> cases d <;> cases h <;> simp

/-- **C57, where it holds.**  Global options, in any way of writing, followed by a verb and its arguments: the verb is run with these arguments and on
the promised root, unless the value of an option -r is an argument of its own and the name of a verb. -/
theorem C57_runs_partial (join : Bytes → Bytes → Bytes) (env : Env) {opts : List Opt} (h : ∀ o ∈ opts, RootOpt o) (ha : ∀ o ∈ opts, Apart o)
    (v : Verb) (rest : List Bytes) :
    main join env (opts.flatMap Opt.args ++ v.name :: rest) = some (v, promised join env opts, rest) := by
  have hp := Flag.parse_opts (fun o ho => (h o ho).fine) (l := []) (r := []) (.plain (by simp))
  rw [List.append_nil] at hp
  unfold main
  simp only [splitArgs_verb (noVerb_opts h ha), ofName_name, hp, root_promised]

/-- **C57 is false**: with the root "index" (or "like", ...) written as an argument of its own, no verb is run, whatever follows. -/
theorem C57_false_root_named_as_verb (join : Bytes → Bytes → Bytes) (env : Env) {opts : List Opt} (h : ∀ o ∈ opts, RootOpt o) (ha : ∀ o ∈ opts, Apart o)
    (two : Bool) (w : Verb) (l : List Bytes) :
    main join env (opts.flatMap Opt.args ++ (⟨[114], w.name, .apart, two⟩ : Opt).args ++ l) = none := by
  have hd : NoVerb [(if two then [45, 45] else [45]) ++ [114]] := by
    intro a hm
    simp only [List.mem_singleton] at hm
    subst hm
    cases two <;> exact ofName_dash _
  have hg : NoVerb (opts.flatMap Opt.args ++ [(if two then [45, 45] else [45]) ++ [114]]) := by
    intro a hm
    rcases List.mem_append.mp hm with hm | hm
    · exact noVerb_opts h ha a hm
    · exact hd a hm
  have e : opts.flatMap Opt.args ++ (⟨[114], w.name, .apart, two⟩ : Opt).args ++ l =
      (opts.flatMap Opt.args ++ [(if two then [45, 45] else [45]) ++ [114]]) ++ w.name :: l := by simp [Opt.args]
  have key : ∀ opts : List Opt, (∀ o ∈ opts, RootOpt o) → Flag.parse gFlags (opts.flatMap Opt.args ++ [(if two then [45, 45] else [45]) ++ [114]]) = none := by
    intro opts
    induction opts with
    | nil => intro _; cases two <;> rfl
    | cons o opts ih =>
      intro h
      rw [List.flatMap_cons, List.append_assoc, Flag.parse_opt ((h o (by simp)).fine), ih fun o' h' => h o' (by simp [h'])]
      rfl
  rw [e]
  unfold main
  simp only [splitArgs_verb hg, ofName_name, key opts h]

/-- **C57 is false** of a command line that should be refused: a word before the options that is no verb (a misspelt one, say) is not refused: the options
are ignored and the verb is run on the default root. -/
theorem C57_false_stray (join : Bytes → Bytes → Bytes) (env : Env) {opts : List Opt} (h : ∀ o ∈ opts, RootOpt o) (ha : ∀ o ∈ opts, Apart o)
    (w : Bytes) (hw : w.head? ≠ some 45) (hw' : ∀ v : Verb, w ≠ v.name) (v : Verb) (rest : List Bytes) :
    main join env (w :: opts.flatMap Opt.args ++ v.name :: rest) = some (v, promised join env [], rest) := by
  have hg : NoVerb (w :: opts.flatMap Opt.args) := by
    intro a hm
    rcases List.mem_cons.mp hm with rfl | hm
    · cases hn : Verb.ofName a with
      | none => rfl
      | some v => exact absurd (ofName_some hn) (hw' v)
    · exact noVerb_opts h ha a hm
  have hp := Flag.parse_rest gFlags (l := w :: opts.flatMap Opt.args) (.plain (by simp; exact .inl hw))
  unfold main
  simp only [splitArgs_verb hg, ofName_name, hp]
  exact congrArg (fun r => some (v, r, rest)) (root_promised join env [])

/-- `dupi -r x index f` and `dupi -r index extract` -/
example (join : Bytes → Bytes → Bytes) (env : Env) : main join env [[45, 114], [120], Verb.index.name, [102]] = some (.index, [120], [[102]]) ∧
    main join env [[45, 114], Verb.index.name, Verb.extract.name] = none ∧
    main join env [[45, 114, 61] ++ Verb.index.name, Verb.extract.name] = some (.extract, Verb.index.name, []) :=
  ⟨C57_runs_partial join env (opts := [⟨[114], [120], .apart, false⟩]) (by simp [RootOpt]) (by simp [Apart]; intro v; cases v <;> decide) .index [[102]],
    C57_false_root_named_as_verb join env (opts := []) (by simp) (by simp) false .index [Verb.extract.name],
    C57_runs_partial join env (opts := [⟨[114], Verb.index.name, .equals, false⟩]) (by simp [RootOpt]) (by simp [Apart]) .extract []⟩

/-! ## C58 -/

section
variable {F : Type} (S : Strconv F)

/-- an option of the index command, as its usage message has them -/
def IndexOpt (o : Opt) : Prop :=
  ((o.name = [116] ∨ o.name = [115] ∨ o.name = [110]) ∧ o.style ≠ .bare ∧ (S.parseInt o.value).isSome) ∨
    ((o.name = [97] ∨ o.name = [118]) ∧ ((o.style = .bare ∧ o.value = Flag.trueB) ∨ (o.style = .equals ∧ (Flag.parseBool o.value).isSome))) ∨
    (o.name = [99] ∧ o.style ≠ .bare)

theorem IndexOpt.fine {o : Opt} (h : IndexOpt S o) : Flag.Fine (verbFlags S .index) o := by
  obtain ⟨name, value, style, two⟩ := o
  rcases h with ⟨h1 | h1 | h1, h2, h3⟩ | ⟨h1 | h1, h2⟩ | ⟨h1, h2⟩ <;> simp only at h1 <;> subst h1
  all_goals refine ⟨rfl, (by simp), ?_⟩
  · exact ⟨h2, h3⟩
  · exact ⟨h2, h3⟩
  · exact ⟨h2, h3⟩
  · exact h2
  · exact h2
  · exact ⟨h2, rfl⟩

/-- the value of an integer option -/
def intOf (opts : List Opt) (n : Bytes) (default : Int) : Int := ((valueOf opts n).bind S.parseInt).getD default

/-- sequences of 10 words, the given numbers of shards and shatterers -/
def plainConfig (root : Bytes) (shards shatters : Int) : Config := ⟨root, 10, shards, shatters, 16384, ⟨wordsSimple⟩, ⟨10, 1⟩⟩

/-- **C58, where it holds.**  Without -a and -c the index command creates, for any options in any way of writing, followed by paths,
an index at the root with the numbers of shards and shatterers of -n and -s (4 if not given) and adds the paths, if -t is 10 or not given. -/
theorem C58_index_partial {opts : List Opt} (h : ∀ o ∈ opts, IndexOpt S o) {l paths : List Bytes} (hl : Rest l paths)
    (cwd root : Bytes) (readCfg : Bytes → M Config) (ha : Flag.lastBool (opts.map fun o => (o.name, o.value)) [97] = false)
    (hc : (valueOf opts [99]).getD [] = []) (ht : intOf S opts [116] 10 = 10) :
    ∃ st, Flag.parse (verbFlags S .index) (opts.flatMap Opt.args ++ l) = some (st, paths) ∧
      getIndexer S cwd readCfg root st = .ok (.create (plainConfig (absPath cwd root) (intOf S opts [110] 4) (intOf S opts [115] 4))) := by
  refine ⟨_, Flag.parse_opts (fun o ho => (h o ho).fine) hl, ?_⟩
  unfold getIndexer
  simp only [ha, Bool.false_eq_true, if_false, Flag.last_valueOf, hc, ne_eq, not_true, lastInt, if_false]
  unfold intOf at *
  rw [ht]
  rfl

/-- **C58 is false** of -t: with any value other than 10 the command fails before it adds anything. -/
theorem C58_false_t {opts : List Opt} (h : ∀ o ∈ opts, IndexOpt S o) {l paths : List Bytes} (hl : Rest l paths)
    (cwd root : Bytes) (readCfg : Bytes → M Config) (ha : Flag.lastBool (opts.map fun o => (o.name, o.value)) [97] = false)
    (hc : (valueOf opts [99]).getD [] = []) (ht : intOf S opts [116] 10 ≠ 10) :
    ∃ st, Flag.parse (verbFlags S .index) (opts.flatMap Opt.args ++ l) = some (st, paths) ∧
      getIndexer S cwd readCfg root st = fail (.msg "inconsistent sequence config") := by
  refine ⟨_, Flag.parse_opts (fun o ho => (h o ho).fine) hl, ?_⟩
  unfold getIndexer
  simp only [ha, Bool.false_eq_true, if_false, Flag.last_valueOf, hc, ne_eq, not_true, lastInt]
  unfold intOf at ht
  rw [C33_refuses_partial _ _ _ _ ht]
  rfl

/-- **C58**, -a: the index at the root is opened, whatever other options there are. -/
theorem C58_add_partial {opts : List Opt} (h : ∀ o ∈ opts, IndexOpt S o) {l paths : List Bytes} (hl : Rest l paths)
    (cwd root : Bytes) (readCfg : Bytes → M Config) (ha : Flag.lastBool (opts.map fun o => (o.name, o.value)) [97] = true) :
    ∃ st, Flag.parse (verbFlags S .index) (opts.flatMap Opt.args ++ l) = some (st, paths) ∧ getIndexer S cwd readCfg root st = .ok (.openAt root) := by
  refine ⟨_, Flag.parse_opts (fun o ho => (h o ho).fine) hl, ?_⟩
  unfold getIndexer
  rw [if_pos ha]

/-- **C58**, -c without -a: the configuration read is used as it is, whatever other options there are. -/
theorem C58_config_partial {opts : List Opt} (h : ∀ o ∈ opts, IndexOpt S o) {l paths : List Bytes} (hl : Rest l paths)
    (cwd root : Bytes) (readCfg : Bytes → M Config) (ha : Flag.lastBool (opts.map fun o => (o.name, o.value)) [97] = false)
    (p : Bytes) (hp : p ≠ []) (hc : valueOf opts [99] = some p) :
    ∃ st, Flag.parse (verbFlags S .index) (opts.flatMap Opt.args ++ l) = some (st, paths) ∧
      getIndexer S cwd readCfg root st = (readCfg p).map Target.create := by
  refine ⟨_, Flag.parse_opts (fun o ho => (h o ho).fine) hl, ?_⟩
  unfold getIndexer
  simp only [ha, Bool.false_eq_true, if_false, Flag.last_valueOf, hc, Option.getD_some, hp, ne_eq, not_false_iff, if_true]
  cases readCfg p <;> rfl

/-- **C58**, like: the files are the arguments, if the first does not look like an option; -/
theorem C58_like_partial {l : List Bytes} (hl : ∀ a ∈ l.head?, a.head? ≠ some 45 ∨ a = [45]) : likeFiles S l = some l := by
  unfold likeFiles
  rw [Flag.parse_rest _ (.plain hl)]
  rfl

/-- but **C58 is false** of like with "--": "--" is taken for a file. -/
theorem C58_false_like (l : List Bytes) : likeFiles S ([45, 45] :: l) = some ([45, 45] :: l) := by
  unfold likeFiles
  rw [Flag.parse_rest _ .dashes]
  rfl

end

/-- decimal numbers of one digit -/
def exStrconv : Strconv Unit := ⟨fun b => match b with
  | [d] => if 48 ≤ d ∧ d ≤ 57 then some (d.toNat - 48) else none
  | _ => none, fun _ => none⟩

/-- `dupi index -n 8 -v f` -/
example : ∃ st, Flag.parse (verbFlags exStrconv .index) [[45, 110], [56], [45, 118], [102]] = some (st, [[102]]) ∧
    getIndexer exStrconv [47] (fun _ => fail (.msg "")) [114] st = .ok (.create (plainConfig [47, 114] 8 4)) :=
  C58_index_partial exStrconv (opts := [⟨[110], [56], .apart, false⟩, ⟨[118], Flag.trueB, .bare, false⟩])
    (by intro o ho; simp only [List.mem_cons, List.not_mem_nil, or_false] at ho; rcases ho with rfl | rfl
        · exact .inl ⟨.inr (.inr rfl), by decide, by decide⟩
        · exact .inr (.inl ⟨.inr rfl, .inl ⟨rfl, rfl⟩⟩))
    (l := [[102]]) (paths := [[102]]) (.plain (by simp)) [47] [114] _ (by decide) (by decide) (by decide)

/-- `dupi index -t 5 f` -/
example : ∃ st, Flag.parse (verbFlags exStrconv .index) [[45, 116], [53], [102]] = some (st, [[102]]) ∧
    getIndexer exStrconv [47] (fun _ => fail (.msg "")) [114] st = fail (.msg "inconsistent sequence config") :=
  C58_false_t exStrconv (opts := [⟨[116], [53], .apart, false⟩])
    (by intro o ho; simp only [List.mem_cons, List.not_mem_nil, or_false] at ho; subst ho; exact .inl ⟨.inl rfl, by decide, by decide⟩)
    (l := [[102]]) (paths := [[102]]) (.plain (by simp)) [47] [114] _ (by decide) (by decide) (by decide)

end Dupi.Props
