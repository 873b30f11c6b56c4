import Verif.Proof.Misuse
import Verif.Props.Exit
/-! # All command lines: C73 -/

namespace Dupi.Props
open Spec Cmd Disk

/-- the usage of the verbs -/
def verbUsage (S : Strconv ℝ) : Verb → Usage
  | .index => ⟨[[97], [118]], [[116], [115], [110], [99]], fun n x => n = [99] ∨ (S.parseInt x).isSome, fun x => (Flag.parseBool x).isSome⟩
  | .extract => ⟨[jsonB, [98]], [sigmaB], fun _ x => (S.parseFloat x).isSome, fun x => (Flag.parseBool x).isSome⟩
  | v => ⟨switches v, [], fun _ _ => False, fun x => (Flag.parseBool x).isSome⟩

/-- the usage of the global options -/
def rootUsage : Usage := ⟨[], [[114]], fun _ _ => True, fun x => (Flag.parseBool x).isSome⟩

theorem describes_root : Flag.Describes rootUsage gFlags where
  named n h := by simp [rootUsage] at h; subst h; exact ⟨by simp, by simp, by simp⟩
  toggle n h := by simp [rootUsage] at h
  value n h := by simp [rootUsage] at h; subst h; exact ⟨_, rfl, by simp [rootUsage]⟩
  other n _ h := by simp [rootUsage] at h; simp [gFlags, h]
  truth _ := Iff.rfl

theorem describes_verb (S : Strconv ℝ) (v : Verb) : Flag.Describes (verbUsage S v) (verbFlags S v) := by
  refine ⟨?_, ?_, ?_, ?_, ?_⟩
  · intro n h
    cases v <;> simp [verbUsage, switches, jsonB, sigmaB, offsetsB, allB, filesB] at h
    · rcases h with (rfl | rfl) | rfl | rfl | rfl | rfl <;> exact ⟨by simp, by simp, by simp⟩
    · rcases h with (rfl | rfl) | rfl <;> exact ⟨by simp, by simp, by simp⟩
    · subst h; exact ⟨by simp, by simp, by simp⟩
    · subst h; exact ⟨by simp, by simp, by simp⟩
    · rcases h with rfl | rfl <;> exact ⟨by simp, by simp, by simp⟩
  · intro n h
    cases v <;> simp [verbUsage, switches, jsonB, sigmaB, offsetsB, allB, filesB] at h
    · rcases h with rfl | rfl <;> rfl
    · rcases h with rfl | rfl <;> rfl
    · subst h; rfl
    · subst h; rfl
    · rcases h with rfl | rfl <;> rfl
  · intro n h
    cases v <;> simp [verbUsage, switches, jsonB, sigmaB, offsetsB, allB, filesB] at h
    · rcases h with rfl | rfl | rfl | rfl <;> exact ⟨_, rfl, by simp [verbUsage]⟩
    · subst h; exact ⟨_, rfl, by simp [verbUsage]⟩
  · intro n h1 h2
    refine verbFlags_none S ?_
    intro h
    cases v <;> simp only [optNames, verbUsage, List.mem_cons, List.not_mem_nil, or_false] at h h1 h2
    · rcases h with h | h | h | h | h | h <;> simp [h] at h1 h2
    · rcases h with h | h | h <;> simp [h] at h1 h2
    all_goals exact h1 h
  · intro x; cases v <;> rfl

/-- The usage is the one of the theorems on the verbs. -/
theorem proper_verb (S : Strconv ℝ) (v : Verb) (o : Opt) : (verbUsage S v).Proper o ↔ VerbOpt S v o := by
  cases v <;> simp only [verbUsage, Usage.Proper, VerbOpt, IndexOpt, ExtractOpt, Switch, Flag.trueB, List.mem_cons, List.not_mem_nil, or_false, false_and, false_or]
  constructor
  · rintro (⟨h1 | h1 | h1 | h1, h2, h3⟩ | h)
    · exact .inl ⟨.inl h1, h2, by simpa [h1] using h3⟩
    · exact .inl ⟨.inr (.inl h1), h2, by simpa [h1] using h3⟩
    · exact .inl ⟨.inr (.inr h1), h2, by simpa [h1] using h3⟩
    · exact .inr (.inr ⟨h1, h2⟩)
    · exact .inr (.inl h)
  · rintro (⟨h1 | h1 | h1, h2, h3⟩ | h | ⟨h1, h2⟩)
    · exact .inl ⟨.inl h1, h2, .inr h3⟩
    · exact .inl ⟨.inr (.inl h1), h2, .inr h3⟩
    · exact .inl ⟨.inr (.inr (.inl h1)), h2, .inr h3⟩
    · exact .inr h
    · exact .inl ⟨.inr (.inr (.inr h1)), h2, .inl h1⟩

/-- no argument is the name of a verb -/
def Verbless (args : List Bytes) : Prop := ∀ a ∈ args, ∀ v : Verb, a ≠ v.name

theorem verbless_noVerb {args : List Bytes} (h : Verbless args) : NoVerb args := by
  intro a ha
  cases hn : Verb.ofName a with
  | none => rfl
  | some v => exact absurd (ofName_some hn) (h a ha v)

section
variable (L : Lib) (readCfg : Bytes → M Config) (d : Disk) (fs : Files) (p : Proc)

/-- **C73**, command lines: after anything that comes before the verb without being improper, and any proper options of the verb, an improper one: dupi does nothing
and ends with status 2, or with status 0 if the improper option is an unknown -h or -help, whatever follows. -/
theorem C73_misused {gopts opts : List Opt} (hg : ∀ o ∈ gopts, rootUsage.Proper o) {gl grest : List Bytes} (hgl : Rest gl grest)
    (hpre : Verbless (gopts.flatMap Opt.args ++ gl)) (v : Verb) (ho : ∀ o ∈ opts, (verbUsage L.S v).Proper o) {l : List Bytes} {help : Bool}
    (hl : (verbUsage L.S v).Misused l help) (d' : Disk) (out : Bytes) (s : Nat) :
    Runs L readCfg d fs p (gopts.flatMap Opt.args ++ gl ++ v.name :: (opts.flatMap Opt.args ++ l)) d' out s ↔
      d' = d ∧ out = [] ∧ s = if help then 0 else 2 := by
  obtain ⟨h1, h2⟩ := (describes_verb L.S v).misused hl
  have hp := (describes_verb L.S v).parse_misused ho h1
  have hh : Flag.helps (verbFlags L.S v) (opts.flatMap Opt.args ++ l) = help := by
    clear hp h1
    induction opts with
    | nil => exact h2
    | cons x xs ih =>
      rw [List.flatMap_cons, List.append_assoc, helps_opt ((describes_verb L.S v).fine (ho x (by simp))), ih fun o h => ho o (by simp [h])]
  have hm : ∃ r, main L.join p.env (gopts.flatMap Opt.args ++ gl ++ v.name :: (opts.flatMap Opt.args ++ l)) = some (v, r, opts.flatMap Opt.args ++ l) := by
    have hq := Flag.parse_opts (fun o h => describes_root.fine (hg o h)) hgl
    unfold main
    simp only [splitArgs_verb (verbless_noVerb hpre), ofName_name, hq]
    exact ⟨_, rfl⟩
  obtain ⟨r, hm⟩ := hm
  rw [runs_flags L readCfg d fs p hm hp, hh]

theorem runs_usage {args : List Bytes} (hm : main L.join p.env args = none) (d' : Disk) (o : Bytes) (s : Nat) :
    Runs L readCfg d fs p args d' o s ↔ d' = d ∧ o = [] ∧ s = 1 := by
  have hi (r : M (Disk.Op × Bool)) : ¬ indexRun L.S L.join readCfg p args = some r := by
    intro h
    obtain ⟨_, _, _, h1, _⟩ := indexRun_main h
    rw [hm] at h1; simp at h1
  constructor
  · rintro (h | ⟨h, h'⟩ | ⟨h, h'⟩ | ⟨h, h'⟩ | ⟨h, h'⟩ | ⟨h, h'⟩ | h | ⟨h, h'⟩ | ⟨h, h'⟩)
    · exact ⟨rfl, rfl, rfl⟩
    · rw [hm] at h; simp at h
    · rw [hm] at h; simp at h
    · rw [hm] at h; simp at h
    · rw [hm] at h; simp at h
    · exact absurd h (hi _)
    · exact absurd h (hi _)
    · exact absurd h (hi _)
    · exact absurd h (hi _)
  · rintro ⟨rfl, rfl, rfl⟩
    exact .usage hm

/-- **C73**, command lines: with an improper option before the verb dupi does nothing and ends with status 1, even if the option asks for help. -/
theorem C73_global {gopts : List Opt} (hg : ∀ o ∈ gopts, rootUsage.Proper o) {gl : List Bytes} {help : Bool} (hgl : rootUsage.Misused gl help)
    (hpre : Verbless (gopts.flatMap Opt.args ++ gl)) (v : Verb) (rest : List Bytes) (d' : Disk) (out : Bytes) (s : Nat) :
    Runs L readCfg d fs p (gopts.flatMap Opt.args ++ gl ++ v.name :: rest) d' out s ↔ d' = d ∧ out = [] ∧ s = 1 := by
  refine runs_usage L readCfg d fs p ?_ d' out s
  have hq := describes_root.parse_misused hg (describes_root.misused hgl).1
  unfold main
  simp only [splitArgs_verb (verbless_noVerb hpre), ofName_name, hq]

end

/-- what a command line can be -/
inductive Line (S : Strconv ℝ) : List Bytes → Prop where
  /-- without a verb -/
  | noVerb {args : List Bytes} : Verbless args → Line S args
  /-- with an improper option before the verb -/
  | global {gopts : List Opt} {gl : List Bytes} {help : Bool} {v : Verb} {rest : List Bytes} : (∀ o ∈ gopts, rootUsage.Proper o) → rootUsage.Misused gl help →
      Verbless (gopts.flatMap Opt.args ++ gl) → Line S (gopts.flatMap Opt.args ++ gl ++ v.name :: rest)
  /-- with an improper option after the verb -/
  | misused {gopts opts : List Opt} {gl grest l : List Bytes} {help : Bool} {v : Verb} : (∀ o ∈ gopts, rootUsage.Proper o) → Rest gl grest →
      Verbless (gopts.flatMap Opt.args ++ gl) → (∀ o ∈ opts, (verbUsage S v).Proper o) → (verbUsage S v).Misused l help →
      Line S (gopts.flatMap Opt.args ++ gl ++ v.name :: (opts.flatMap Opt.args ++ l))
  /-- with proper options -/
  | proper {gopts opts : List Opt} {gl grest l rest : List Bytes} {v : Verb} : (∀ o ∈ gopts, rootUsage.Proper o) → Rest gl grest →
      Verbless (gopts.flatMap Opt.args ++ gl) → (∀ o ∈ opts, (verbUsage S v).Proper o) → Rest l rest →
      Line S (gopts.flatMap Opt.args ++ gl ++ v.name :: (opts.flatMap Opt.args ++ l))

theorem verb_split (args : List Bytes) : Verbless args ∨ ∃ pre v rest, args = pre ++ Verb.name v :: rest ∧ Verbless pre := by
  induction args with
  | nil => exact .inl (by simp [Verbless])
  | cons a args ih =>
    by_cases ha : ∃ v : Verb, a = v.name
    · obtain ⟨v, rfl⟩ := ha
      exact .inr ⟨[], v, args, rfl, by simp [Verbless]⟩
    · have ha : ∀ v : Verb, a ≠ v.name := fun v h => ha ⟨v, h⟩
      rcases ih with h | ⟨pre, v, rest, rfl, h⟩
      · left
        intro b hb
        rcases List.mem_cons.mp hb with rfl | hb
        · exact ha
        · exact h b hb
      · refine .inr ⟨a :: pre, v, rest, rfl, ?_⟩
        intro b hb
        rcases List.mem_cons.mp hb with rfl | hb
        · exact ha
        · exact h b hb

/-- Every command line is one of these. -/
theorem C73_lines (S : Strconv ℝ) (args : List Bytes) : Line S args := by
  rcases verb_split args with h | ⟨pre, v, rest, rfl, h⟩
  · exact .noVerb h
  · obtain ⟨gopts, gl, h1, rfl, h2⟩ := rootUsage.classify _ pre (Nat.le_refl _)
    rcases h2 with ⟨grest, h2⟩ | ⟨b, h2⟩
    · obtain ⟨opts, l, h3, rfl, h4⟩ := (verbUsage S v).classify _ rest (Nat.le_refl _)
      rcases h4 with ⟨r, h4⟩ | ⟨b, h4⟩
      · exact .proper h1 h2 h h3 h4
      · exact .misused h1 h2 h h3 h4
    · exact .global h1 h2 h

/-- `dupi index -n x -help`: status 2; `dupi index -s 2 -h`: status 0 (if "x" is not an integer and "2" is); `dupi -h index`: status 1 -/
example (S : Strconv ℝ) (h : S.parseInt [120] = none) (h2 : (S.parseInt [50]).isSome) :
    (verbUsage S .index).Misused [[45, 110], [120], [45, 104, 101, 108, 112]] false ∧
      (verbUsage S .index).Proper ⟨[115], [50], .apart, false⟩ ∧ (verbUsage S .index).Misused [[45, 104]] true ∧ rootUsage.Misused [[45, 104]] true := by
  refine ⟨?_, ?_, ?_, ?_⟩
  · exact .value (o := ⟨[110], [120], .apart, false⟩) (rest := [[45, 104, 101, 108, 112]]) (by simp [verbUsage]) (by simp) (by simp [verbUsage, h])
  · exact .inl ⟨by simp [verbUsage], by simp, .inr h2⟩
  · exact .unknown (o := ⟨[104], [], .bare, false⟩) (rest := []) ⟨by simp, by simp, by simp⟩ (by simp [verbUsage]) (by simp [verbUsage])
  · exact .unknown (o := ⟨[104], [], .bare, false⟩) (rest := []) ⟨by simp, by simp, by simp⟩ (by simp [rootUsage]) (by simp [rootUsage])

end Dupi.Props
