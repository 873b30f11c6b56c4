import Verif.Model.Program
import Verif.Props.Commands
/-! # The exit status of dupi: C73 -/

namespace Dupi.Props
open Spec Cmd Disk

/-! ## What a run can be -/

section
variable {L : Lib} {readCfg : Bytes → M Config} {d : Disk} {fs : Files} {p : Proc} {args : List Bytes}

theorem indexRun_main {r : M (Disk.Op × Bool)} (h : indexRun L.S L.join readCfg p args = some r) :
    ∃ root rest q, main L.join p.env args = some (.index, root, rest) ∧ Flag.parse (verbFlags L.S .index) rest = some q := by
  unfold indexRun at h
  split at h
  · rename_i root rest hm
    refine ⟨root, rest, ?_⟩
    split at h
    · simp at h
    · rename_i q _ hq; exact ⟨_, hm, hq⟩
  · simp at h

/-- a verb other than index with proper flags -/
theorem runs_query {v : Verb} {root : Bytes} {rest : List Bytes} (hm : main L.join p.env args = some (v, root, rest)) (hv : v ≠ .index)
    (hp : (Flag.parse (verbFlags L.S v) rest).isSome) {out : Bytes} {err : Bool} (hq : query L d fs p args v = some (.ok (out, err))) (d' : Disk) (o : Bytes) (s : Nat) :
    Runs L readCfg d fs p args d' o s ↔ d' = d ∧ o = out ∧ s = statusOf err := by
  have hi (r : M (Disk.Op × Bool)) : ¬ indexRun L.S L.join readCfg p args = some r := by
    intro h
    obtain ⟨_, _, _, h1, _⟩ := indexRun_main h
    rw [hm] at h1; simp only [Option.some.injEq, Prod.mk.injEq] at h1; exact hv h1.1
  constructor
  · rintro (h | ⟨h, h'⟩ | ⟨h, h'⟩ | ⟨h, h'⟩ | ⟨h, h'⟩ | ⟨h, h'⟩ | h | ⟨h, h'⟩ | ⟨h, h'⟩)
    · rw [hm] at h; simp at h
    · rw [hm] at h; simp only [Option.some.injEq, Prod.mk.injEq] at h; obtain ⟨rfl, rfl, rfl⟩ := h; rw [h'] at hp; simp at hp
    · rw [hm] at h; simp only [Option.some.injEq, Prod.mk.injEq] at h; obtain ⟨rfl, rfl, rfl⟩ := h; rw [hq] at h'
      simp only [Option.some.injEq, Except.ok.injEq, Prod.mk.injEq] at h'; obtain ⟨rfl, rfl⟩ := h'; exact ⟨rfl, rfl, rfl⟩
    · rw [hm] at h; simp only [Option.some.injEq, Prod.mk.injEq] at h; obtain ⟨rfl, rfl, rfl⟩ := h; rw [hq] at h'; simp at h'
    · rw [hm] at h; simp only [Option.some.injEq, Prod.mk.injEq] at h; obtain ⟨rfl, rfl, rfl⟩ := h; rw [hq] at h'; simp at h'
    · exact absurd h (hi _)
    · exact absurd h (hi _)
    · exact absurd h (hi _)
    · exact absurd h (hi _)
  · rintro ⟨rfl, rfl, rfl⟩
    exact .query hm hq

/-- the index command -/
theorem runs_index {op : Disk.Op} {err : Bool} (hi : indexRun L.S L.join readCfg p args = some (.ok (op, err))) (d' : Disk) (o : Bytes) (s : Nat) :
    Runs L readCfg d fs p args d' o s ↔ (Step L.u L.J L.srt d op d' ∧ o = [] ∧ s = statusOf err) ∨
      (d' = d ∧ o = [] ∧ s = 1 ∧ ((∃ cwd c docs, op = .create cwd c docs ∧ d (resolve cwd c.indexRoot) ≠ none) ∨
        ∃ cwd root docs e, op = .append cwd root docs ∧ d.openIndexer L.J cwd root = .error (.err e))) := by
  obtain ⟨root, rest, q, hm, hp⟩ := indexRun_main hi
  constructor
  · rintro (h | ⟨h, h'⟩ | ⟨h, h'⟩ | ⟨h, h'⟩ | ⟨h, h'⟩ | ⟨h, h'⟩ | h | ⟨h, h'⟩ | ⟨h, h'⟩)
    · rw [hm] at h; simp at h
    · rw [hm] at h; simp only [Option.some.injEq, Prod.mk.injEq] at h; obtain ⟨rfl, rfl, rfl⟩ := h; rw [h'] at hp; simp at hp
    · rw [hm] at h; simp only [Option.some.injEq, Prod.mk.injEq] at h; obtain ⟨rfl, rfl, rfl⟩ := h; simp [query] at h'
    · rw [hm] at h; simp only [Option.some.injEq, Prod.mk.injEq] at h; obtain ⟨rfl, rfl, rfl⟩ := h; simp [query] at h'
    · rw [hm] at h; simp only [Option.some.injEq, Prod.mk.injEq] at h; obtain ⟨rfl, rfl, rfl⟩ := h; simp [query] at h'
    · rw [hi] at h; simp only [Option.some.injEq, Except.ok.injEq, Prod.mk.injEq] at h; obtain ⟨rfl, rfl⟩ := h; exact .inl ⟨h', rfl, rfl⟩
    · rw [hi] at h; simp at h
    · rw [hi] at h; simp only [Option.some.injEq, Except.ok.injEq, Prod.mk.injEq] at h; obtain ⟨rfl, rfl⟩ := h
      exact .inr ⟨rfl, rfl, rfl, .inl ⟨_, _, _, rfl, h'⟩⟩
    · rw [hi] at h; simp only [Option.some.injEq, Except.ok.injEq, Prod.mk.injEq] at h; obtain ⟨rfl, rfl⟩ := h
      exact .inr ⟨rfl, rfl, rfl, .inr ⟨_, _, _, _, rfl, h'⟩⟩
  · rintro (⟨h, rfl, rfl⟩ | ⟨rfl, rfl, rfl, ⟨cwd, c, docs, rfl, h⟩ | ⟨cwd, root, docs, e, rfl, h⟩⟩)
    · exact .index hi h
    · exact .indexThere hi h
    · exact .indexNone hi h

theorem statusOf_zero (err : Bool) : statusOf err = 0 ↔ err = false := by cases err <;> simp [statusOf]

end

/-! ## Wrong command lines -/

section
variable (L : Lib) (readCfg : Bytes → M Config) (d : Disk) (fs : Files) (p : Proc)

/-- **C73**, command lines: without a verb dupi does nothing and ends with status 1; -/
theorem C73_no_verb {args : List Bytes} (h : ∀ a ∈ args, ∀ v : Verb, a ≠ v.name) (d' : Disk) (o : Bytes) (s : Nat) :
    Runs L readCfg d fs p args d' o s ↔ d' = d ∧ o = [] ∧ s = 1 := by
  have hm : main L.join p.env args = none := by
    have hno : ∀ a ∈ args, Verb.ofName a = none := by
      intro a ha
      cases hn : Verb.ofName a with
      | none => rfl
      | some v => exact absurd (ofName_some hn) (h a ha v)
    unfold main
    cases hl : (splitArgs args).2 with
    | nil => rfl
    | cons a r =>
      have ha : a ∈ args := by
        have : a ∈ (splitArgs args).2 := by rw [hl]; simp
        unfold splitArgs at this
        split at this <;> exact List.mem_of_mem_drop this
      simp only [hno a ha]
  have hi (r : M (Disk.Op × Bool)) : ¬ indexRun L.S L.join readCfg p args = some r := by
    intro h
    obtain ⟨_, _, _, h1, _⟩ := indexRun_main h
    rw [hm] at h1; simp at h1
  constructor
  · rintro (h | ⟨h, h'⟩ | ⟨h, h'⟩ | ⟨h, h'⟩ | ⟨h, h'⟩ | ⟨h, h'⟩ | h | ⟨h, h'⟩ | ⟨h, h'⟩)
    · exact ⟨rfl, rfl, rfl⟩
    · rw [hm] at h; simp at h
    · rw [hm] at h; simp at h
    · rw [hm] at h; simp at h
    · rw [hm] at h; simp at h
    · exact absurd h (hi _)
    · exact absurd h (hi _)
    · exact absurd h (hi _)
    · exact absurd h (hi _)
  · rintro ⟨rfl, rfl, rfl⟩
    exact .usage hm

/-- the verb of a command line that does not end with a usage message -/
theorem query_start {v : Verb} {args : List Bytes} {r : M (Bytes × Bool)} (h : query L d fs p args v = some r) : (start L.S L.join v p.env args).isSome := by
  cases hs : start L.S L.join v p.env args with
  | some _ => rfl
  | none => cases v <;> simp [query, blotRun, unblotRun, inspectRun, likeRun, hs] at h

theorem runs_flags {args : List Bytes} {v : Verb} {root : Bytes} {rest : List Bytes} (hm : main L.join p.env args = some (v, root, rest))
    (hp : Flag.parse (verbFlags L.S v) rest = none) (d' : Disk) (o : Bytes) (s : Nat) :
    Runs L readCfg d fs p args d' o s ↔ d' = d ∧ o = [] ∧ s = if Flag.helps (verbFlags L.S v) rest then 0 else 2 := by
  have hi (r : M (Disk.Op × Bool)) : ¬ indexRun L.S L.join readCfg p args = some r := by
    intro h
    obtain ⟨_, _, _, h1, h2⟩ := indexRun_main h
    rw [hm] at h1; simp only [Option.some.injEq, Prod.mk.injEq] at h1; obtain ⟨rfl, rfl, rfl⟩ := h1; rw [hp] at h2; simp at h2
  have hs : start L.S L.join v p.env args = none := by unfold start; simp [hm, hp]
  have hq (v' : Verb) (root' : Bytes) (rest' : List Bytes) (r : M (Bytes × Bool)) (h : main L.join p.env args = some (v', root', rest')) :
      ¬ query L d fs p args v' = some r := by
    intro h'
    rw [hm] at h; simp only [Option.some.injEq, Prod.mk.injEq] at h; obtain ⟨rfl, rfl, rfl⟩ := h
    have := query_start L d fs p h'
    rw [hs] at this; simp at this
  constructor
  · rintro (h | ⟨h, h'⟩ | ⟨h, h'⟩ | ⟨h, h'⟩ | ⟨h, h'⟩ | ⟨h, h'⟩ | h | ⟨h, h'⟩ | ⟨h, h'⟩)
    · rw [hm] at h; simp at h
    · rw [hm] at h; simp only [Option.some.injEq, Prod.mk.injEq] at h; obtain ⟨rfl, rfl, rfl⟩ := h; exact ⟨rfl, rfl, rfl⟩
    · exact absurd h' (hq _ _ _ _ h)
    · exact absurd h' (hq _ _ _ _ h)
    · exact absurd h' (hq _ _ _ _ h)
    · exact absurd h (hi _)
    · exact absurd h (hi _)
    · exact absurd h (hi _)
    · exact absurd h (hi _)
  · rintro ⟨rfl, rfl, rfl⟩
    exact .flags hm hp
end


theorem helps_opt {fs : Bytes → Option Flag.Kind} {o : Opt} (h : Flag.Fine fs o) (args : List Bytes) : Flag.helps fs (o.args ++ args) = Flag.helps fs args := by
  obtain ⟨name, value, style, two⟩ := o
  obtain ⟨h1, h2, h3⟩ := h
  simp only at h1 h2 h3
  have hne : name ≠ [] := by rintro rfl; simp at h1
  have a1 := Flag.arg_fine two (m := []) h1
  rw [List.append_nil, Flag.cut_plain name h2 hne] at a1
  have a2 := Flag.arg_fine two (m := 61 :: value) h1
  rw [Flag.cut_eq name value h2 hne] at a2
  cases hk : fs name with
  | none => simp [hk] at h3
  | some k =>
    rw [hk] at h3
    cases k with
    | bool =>
      rcases h3 with ⟨rfl, rfl⟩ | ⟨rfl, hv⟩
      · simp only [Opt.args, List.cons_append, List.nil_append]
        rw [Flag.helps]
        simp only [a1, hk, Option.getD_none]
        rw [if_pos (by decide)]
      · simp only [Opt.args, List.cons_append, List.nil_append, List.append_assoc]
        rw [Flag.helps]
        simp only [a2, hk, Option.getD_some, hv, if_true]
    | value ok =>
      obtain ⟨hs, hv⟩ := h3
      cases style with
      | bare => exact absurd rfl hs
      | apart =>
        simp only [Opt.args, List.cons_append, List.nil_append]
        rw [Flag.helps]
        simp only [a1, hk, hv, if_true]
      | equals =>
        simp only [Opt.args, List.cons_append, List.nil_append, List.append_assoc]
        rw [Flag.helps]
        simp only [a2, hk, hv, if_true]

/-- an option of a verb, as its usage message has them -/
def VerbOpt (S : Strconv ℝ) : Verb → Opt → Prop
  | .index => IndexOpt S
  | .extract => ExtractOpt S
  | v => Switch (switches v)

theorem VerbOpt.fine {S : Strconv ℝ} {v : Verb} {o : Opt} (h : VerbOpt S v o) : Flag.Fine (verbFlags S v) o := by
  cases v
  · exact IndexOpt.fine S h
  · exact ExtractOpt.fine h
  all_goals exact Switch.fine h

/-- the names of the options of the verbs -/
def optNames : Verb → List Bytes
  | .index => [[116], [97], [118], [115], [110], [99]]
  | .extract => [jsonB, sigmaB, [98]]
  | v => switches v

theorem verbFlags_none (S : Strconv ℝ) {v : Verb} {n : Bytes} (h : n ∉ optNames v) : verbFlags S v n = none := by
  cases v <;> simp only [optNames, switches, List.mem_cons, List.not_mem_nil, or_false, not_or] at h <;> unfold verbFlags
  · simp only [h, or_self, if_false]
  · simp only [jsonB, sigmaB] at h
    simp only [h, or_self, if_false]
  · simp only [offsetsB] at h
    simp only [h, if_false]
  · simp only [allB] at h
    simp only [h, if_false]
  · simp only [jsonB, filesB] at h
    simp only [h, or_self, if_false]
  · rfl

section
variable (L : Lib) (readCfg : Bytes → M Config) (d : Disk) (fs : Files) (p : Proc)

/-- **C73**, command lines: with an option the verb does not have, in any way it may be written, after any proper ones and whatever follows, dupi does nothing
and ends with status 2, or with status 0 if the option is -h or -help. -/
theorem C73_unknown {gopts opts : List Opt} (hg : RootOpts gopts) (v : Verb) (ho : ∀ o ∈ opts, VerbOpt L.S v o) {o : Opt} (hn : o.name ∉ optNames v)
    (hhead : ∀ b ∈ o.name.head?, b ≠ 45) (hne : o.name ≠ []) (heq : 61 ∉ o.name) (rest : List Bytes) (d' : Disk) (out : Bytes) (s : Nat) :
    Runs L readCfg d fs p (gopts.flatMap Opt.args ++ v.name :: (opts.flatMap Opt.args ++ (o.args ++ rest))) d' out s ↔
      d' = d ∧ out = [] ∧ s = if o.name = [104] ∨ o.name = [104, 101, 108, 112] then 0 else 2 := by
  have hnone := verbFlags_none L.S hn
  have hfst : o.name.head?.any (fun b => b != 45 && b != 61) = true := by
    obtain ⟨name, value, style, two⟩ := o
    cases name with
    | nil => exact absurd rfl hne
    | cons b bs =>
      simp only [List.head?_cons, Option.mem_def, Option.some.injEq, forall_eq', List.mem_cons, not_or] at hhead heq
      simp [hhead, Ne.symm heq.1]
  have key : ∃ a r val, o.args ++ rest = a :: r ∧ Flag.arg a = .flag o.name val := by
    have a1 := Flag.arg_fine o.two (m := []) hfst
    rw [List.append_nil, Flag.cut_plain o.name heq hne] at a1
    have a2 := Flag.arg_fine o.two (m := 61 :: o.value) hfst
    rw [Flag.cut_eq o.name o.value heq hne] at a2
    unfold Opt.args
    cases o.style with
    | apart => exact ⟨_, _, _, rfl, a1⟩
    | equals => exact ⟨_, _, _, rfl, by rw [List.append_assoc]; exact a2⟩
    | bare => exact ⟨_, _, _, rfl, a1⟩
  obtain ⟨a, r, val, e1, e2⟩ := key
  have hp : Flag.parse (verbFlags L.S v) (opts.flatMap Opt.args ++ (o.args ++ rest)) = none := by
    rw [e1]
    clear e1
    induction opts with
    | nil => simp only [List.flatMap_nil, List.nil_append]; rw [Flag.parse]; simp only [e2, hnone]
    | cons x xs ih =>
      rw [List.flatMap_cons, List.append_assoc, Flag.parse_opt (ho x (by simp)).fine, ih fun o h => ho o (by simp [h])]
      rfl
  have hh : Flag.helps (verbFlags L.S v) (opts.flatMap Opt.args ++ (o.args ++ rest)) = (o.name = [104] || o.name = [104, 101, 108, 112]) := by
    rw [e1]
    clear e1 hp
    induction opts with
    | nil => simp only [List.flatMap_nil, List.nil_append]; rw [Flag.helps]; simp only [e2, hnone]
    | cons x xs ih =>
      rw [List.flatMap_cons, List.append_assoc, helps_opt (ho x (by simp)).fine, ih fun o h => ho o (by simp [h])]
  rw [runs_flags L readCfg d fs p (C57_runs_partial L.join p.env hg.1 hg.2 v _) hp, hh]
  simp

end

/-! ## Verbs that read an index -/

section
variable {L : Lib} {readCfg : Bytes → M Config} {ops : List Disk.Op} {d : Disk} (hm : ∀ op ∈ ops, Made L.J op) (hs : Steps L.u L.J L.srt Disk.empty ops d)
  {fs : Files} {p : Proc} {gopts opts : List Opt} (hg : RootOpts gopts)
include hm hs hg

/-- **C73**, no index: of the verbs that read an index, each prints nothing and ends with status 1 if there is none at the promised root, whatever its options and
arguments. -/
theorem C73_no_index {v : Verb} (hv : v ≠ .index) (ho : ∀ o ∈ opts, VerbOpt L.S v o) {l rest : List Bytes} (hl : Rest l rest)
    (hc : catalogue ops (Spec.place p.cwd (promised L.join p.env gopts)) = none) (d' : Disk) (out : Bytes) (s : Nat) :
    Runs L readCfg d fs p (gopts.flatMap Opt.args ++ v.name :: (opts.flatMap Opt.args ++ l)) d' out s ↔ d' = d ∧ out = [] ∧ s = 1 := by
  have h1 := C52_open hm hs p.cwd (promised L.join p.env gopts)
  rw [hc] at h1
  have hp := Flag.parse_opts (fun o h => (ho o h).fine) hl
  have hmain := C57_runs_partial L.join p.env hg.1 hg.2 v (opts.flatMap Opt.args ++ l)
  have st : start L.S L.join v p.env (gopts.flatMap Opt.args ++ v.name :: (opts.flatMap Opt.args ++ l)) =
      some (promised L.join p.env gopts, opts.map (fun o => (o.name, o.value)), opts.flatMap Opt.args ++ l, rest) := by
    unfold start
    simp only [hmain, if_true, hp, Option.map_some]
  refine (runs_query hmain hv (by rw [hp]; rfl) (out := []) (err := true) ?_ d' out s)
  cases v
  · exact absurd rfl hv
  · simp only [query, st, h1.1, fail]
  · simp only [query, blotRun, st, Option.map_some, h1.1, opened, fail]
  · simp only [query, unblotRun, st, Option.map_some, h1.1, opened, fail]
  · simp only [query, inspectRun, st, h1.1, opened, fail]
  · simp only [query, likeRun, st, Option.map_some, h1.1, opened, fail]


variable {c : Config} {h : Sessions} (hc : catalogue ops (Spec.place p.cwd (promised L.join p.env gopts)) = some (c, h)) (hf : Fits L.u c (documents h))
  (hsrt : IsSorter L.srt)
include hc hf hsrt

/-- **C73**, extract: with an index at the promised root, the status is 0; -/
theorem C73_extract (ho : ∀ o ∈ opts, ExtractOpt L.S o) {l rest : List Bytes} (hl : Rest l rest)
    (hff : 2 ^ 32 ≤ L.ff) (hfuel : 2 ^ 32 + 2 ^ 32 + 2 ^ 32 < L.fuel) (hk : 2 ^ 32 < L.k)
    (hσ : |sigmaOf L.S opts| ≤ 2 ^ 20) :
    ∃ out, Prints L.u c (documents h) (sigmaOf L.S opts) out ∧ ∀ (d' : Disk) (o : Bytes) (s : Nat),
      Runs L readCfg d fs p (gopts.flatMap Opt.args ++ Verb.extract.name :: (opts.flatMap Opt.args ++ l)) d' o s ↔
        d' = d ∧ (o = if isOn opts jsonB then extractJson out else if isOn opts [98] then extractBlots out else extractText out) ∧ s = 0 := by
  have h1 := C52_open hm hs p.cwd (promised L.join p.env gopts)
  rw [hc] at h1
  obtain ⟨x, q, h2, h3, _⟩ := h1 hsrt hf
  have hp := Flag.parse_opts (fun o h => (ho o h).fine) hl
  have hmain := C57_runs_partial L.join p.env hg.1 hg.2 .extract (opts.flatMap Opt.args ++ l)
  have st : start L.S L.join .extract p.env (gopts.flatMap Opt.args ++ Verb.extract.name :: (opts.flatMap Opt.args ++ l)) =
      some (promised L.join p.env gopts, opts.map (fun o => (o.name, o.value)), opts.flatMap Opt.args ++ l, rest) := by
    unfold start
    simp only [hmain, if_true, hp, Option.map_some]
  obtain ⟨out, e, hpr⟩ := extract_any hsrt L.S L.join L.fused L.fused' L.grow hff hfuel hk hm hs hg ho hl p hc hf hσ
  refine ⟨out, hpr, runs_query hmain (by simp) (by rw [hp]; rfl) (err := false) ?_⟩
  simp only [query, st, h2, e, Option.map_some]
  rfl

/-- inspect: so it is; -/
theorem C73_inspect (ho : ∀ o ∈ opts, Switch (switches .inspect) o) {l rest : List Bytes} (hl : Rest l rest) :
    ∃ out, ∀ (d' : Disk) (o : Bytes) (s : Nat),
      Runs L readCfg d fs p (gopts.flatMap Opt.args ++ Verb.inspect.name :: (opts.flatMap Opt.args ++ l)) d' o s ↔ d' = d ∧ o = out ∧ s = 0 := by
  have hp := Flag.parse_opts (fun o h => (ho o h).fine (S := L.S)) hl
  have hmain := C57_runs_partial L.join p.env hg.1 hg.2 .inspect (opts.flatMap Opt.args ++ l)
  obtain ⟨_, _, _, _, e, _⟩ := inspect_figures hsrt L.S L.join hm hs hg hl p hc hf L.fused ho L.fl
  exact ⟨_, runs_query hmain (by simp) (by rw [hp]; rfl) (err := false) e⟩

variable (hsm : c.numShards < 65536)
include hsm

/-- blot: so it is, whether the files can be read or not, -/
theorem C73_blot (ho : ∀ o ∈ opts, Switch (switches .blot) o) (hoff : isOn opts offsetsB = false) {l rest : List Bytes} (hl : Rest l rest) :
    ∃ num : Nat → Bytes, (∀ n, Numeral 16 n (num n)) ∧ ∀ (d' : Disk) (o : Bytes) (s : Nat),
      Runs L readCfg d fs p (gopts.flatMap Opt.args ++ Verb.blot.name :: (opts.flatMap Opt.args ++ l)) d' o s ↔
        d' = d ∧ (o = rest.flatMap fun f => match fs f with
          | none => []
          | some dat => (blotsOf L.u c dat).flatMap fun x => num (x.toNat % numBuckets c) ++ [10]) ∧ s = 0 := by
  have hp := Flag.parse_opts (fun o h => (ho o h).fine (S := L.S)) hl
  have hmain := C57_runs_partial L.join p.env hg.1 hg.2 .blot (opts.flatMap Opt.args ++ l)
  obtain ⟨num, h1, e⟩ := C65_blot hsrt L.S L.join hm hs hg hl p hc hf hsm fs ho hoff
  exact ⟨num, h1, runs_query hmain (by simp) (by rw [hp]; rfl) (err := false) e⟩

/-- so **C73 is false** of blot: the status is 0 also if none of the files can be read, and then nothing is printed. -/
theorem C73_false_blot (ho : ∀ o ∈ opts, Switch (switches .blot) o) (hoff : isOn opts offsetsB = false) {l rest : List Bytes} (hl : Rest l rest)
    (hbad : ∀ f ∈ rest, fs f = none) (d' : Disk) (o : Bytes) (s : Nat) :
    Runs L readCfg d fs p (gopts.flatMap Opt.args ++ Verb.blot.name :: (opts.flatMap Opt.args ++ l)) d' o s ↔ d' = d ∧ o = [] ∧ s = 0 := by
  obtain ⟨num, _, e⟩ := C73_blot (readCfg := readCfg) (fs := fs) hm hs hg hc hf hsrt hsm ho hoff hl
  rw [e]
  have : (rest.flatMap fun f => match fs f with
      | none => ([] : Bytes)
      | some dat => (blotsOf L.u c dat).flatMap fun x => num (x.toNat % numBuckets c) ++ [10]) = [] := by
    rw [List.flatMap_eq_nil_iff]
    intro f hf
    rw [hbad f hf]
  rw [this]

variable (hun : Unchanged fs (documents h)) (hfuel : (documents h).length < L.fuel)
include hun hfuel

/-- unblot: the status is 0 if all arguments are hexadecimal numbers of buckets, -/
theorem C73_unblot (hk : Skips L.skip) (hord : ∀ i m, (L.ord i m).Perm m) (ho : ∀ o ∈ opts, Switch (switches .unblot) o) {bs : List UInt32} {ts l : List Bytes} (hl : Rest l ts)
    (hb : List.Forall₂ (fun b t => Numeral 16 b.toNat t ∧ b.toNat < numBuckets c) bs ts) :
    ∃ out, ∀ (d' : Disk) (o : Bytes) (s : Nat),
      Runs L readCfg d fs p (gopts.flatMap Opt.args ++ Verb.unblot.name :: (opts.flatMap Opt.args ++ l)) d' o s ↔ d' = d ∧ o = out ∧ s = 0 := by
  have hp := Flag.parse_opts (fun o h => (ho o h).fine (S := L.S)) hl
  have hmain := C57_runs_partial L.join p.env hg.1 hg.2 .unblot (opts.flatMap Opt.args ++ l)
  obtain ⟨_, _, _, _, e⟩ := C66_unblot hsrt L.S L.join hm hs hg p hc hf hsm hun hk L.grow hfuel hord ho hl hb
  exact ⟨_, runs_query hmain (by simp) (by rw [hp]; rfl) (err := false) e⟩

/-- and 1 if one of them is not read as a number; -/
theorem C73_unblot_stops (hk : Skips L.skip) (hord : ∀ i m, (L.ord i m).Perm m) (ho : ∀ o ∈ opts, Switch (switches .unblot) o) {bs : List UInt32} {ts more l : List Bytes}
    {junk : Bytes} (hl : Rest l (ts ++ junk :: more)) (hb : List.Forall₂ (fun b t => Numeral 16 b.toNat t ∧ b.toNat < numBuckets c) bs ts)
    (hj : scanHex L.skip junk = none) :
    ∃ out, ∀ (d' : Disk) (o : Bytes) (s : Nat),
      Runs L readCfg d fs p (gopts.flatMap Opt.args ++ Verb.unblot.name :: (opts.flatMap Opt.args ++ l)) d' o s ↔ d' = d ∧ o = out ∧ s = 1 := by
  have hp := Flag.parse_opts (fun o h => (ho o h).fine (S := L.S)) hl
  have hmain := C57_runs_partial L.join p.env hg.1 hg.2 .unblot (opts.flatMap Opt.args ++ l)
  obtain ⟨_, _, _, _, e⟩ := C66_unblot_stops hsrt L.S L.join hm hs hg p hc hf hsm hun hk L.grow hfuel hord ho hl hb hj
  exact ⟨_, runs_query hmain (by simp) (by rw [hp]; rfl) (err := true) e⟩

/-- like: the status is 0 exactly if all files can be read. -/
theorem C73_like (h0 : ∀ s ∈ documents h, s.start = 0) (hord : ∀ i m, (L.ord' i m).Perm m) {files : List Bytes}
    (hdash : ∀ a ∈ files.head?, a.head? ≠ some 45 ∨ a = [45]) (hlen : ∀ f ∈ files, ∀ dat, fs f = some dat → dat.length < 2 ^ 32) :
    ∃ out, ∀ (d' : Disk) (o : Bytes) (s : Nat),
      Runs L readCfg d fs p (gopts.flatMap Opt.args ++ Verb.like.name :: files) d' o s ↔
        d' = d ∧ o = out ∧ s = if ∀ f ∈ files, fs f ≠ none then 0 else 1 := by
  have hp := Flag.parse_rest (verbFlags L.S .like) (.plain hdash)
  have hmain := C57_runs_partial L.join p.env hg.1 hg.2 .like files
  by_cases hall : ∀ f ∈ files, fs f ≠ none
  · obtain ⟨_, _, _, _, e⟩ := C67_like hsrt L.S L.join hm hs hg p hc hf hsm hun h0 L.grow hfuel hord hdash (files := files) (by
      intro f hf
      cases hd : fs f with
      | none => exact absurd hd (hall f hf)
      | some dat => exact ⟨dat, rfl, hlen f hf dat hd⟩)
    rw [if_pos hall]
    exact ⟨_, runs_query hmain (by simp) (by rw [hp]; rfl) (err := false) e⟩
  · obtain ⟨good, bad, more, rfl, hgood, hbad⟩ : ∃ good bad more, files = good ++ bad :: more ∧ (∀ f ∈ good, fs f ≠ none) ∧ fs bad = none := by
      clear hmain hp hlen hdash
      induction files with
      | nil => simp at hall
      | cons f files ih =>
        by_cases hd : fs f = none
        · exact ⟨[], f, files, rfl, by simp, hd⟩
        · obtain ⟨good, bad, more, rfl, h1, h2⟩ := ih (by
            intro hh; apply hall; intro g hg'
            rcases List.mem_cons.mp hg' with rfl | hg'
            · exact hd
            · exact hh g hg')
          refine ⟨f :: good, bad, more, rfl, ?_, h2⟩
          intro g hg'
          rcases List.mem_cons.mp hg' with rfl | hg'
          · exact hd
          · exact h1 g hg'
    obtain ⟨_, _, _, _, e⟩ := C67_like_stops hsrt L.S L.join hm hs hg p hc hf hsm hun h0 L.grow hfuel hord hdash (by
      intro f hf
      cases hd : fs f with
      | none => exact absurd hd (hgood f hf)
      | some dat => exact ⟨dat, rfl, hlen f (by simp [hf]) dat hd⟩) hbad
    rw [if_neg hall]
    exact ⟨_, runs_query hmain (by simp) (by rw [hp]; rfl) (err := true) e⟩

end

/-! ## index -/

/-- no file below the arguments that is visible and cannot be opened -/
def Openable (join : Bytes → Bytes → Bytes) (look : Bytes → Bytes × Option Node) (paths : List Bytes) : Prop :=
  ∀ f ∈ filesOf join look paths, f.2 ≠ .openFails

theorem doPaths_iff (join : Bytes → Bytes → Bytes) (look : Bytes → Bytes × Option Node) (paths : List Bytes) (hq : Openable join look paths) (added : List Doc) :
    (doPaths join look paths added).1 = false ↔ Readable join look paths := by
  refine ⟨?_, fun h => by rw [doPaths_readable join look paths h]⟩
  induction paths generalizing added with
  | nil => intro _ p hp; simp at hp
  | cons p ps ih =>
    intro he
    rw [doPaths] at he
    simp only [Bool.or_eq_false_iff] at he
    intro p' hp'
    rcases List.mem_cons.mp hp' with rfl | hp'
    · cases hn : (look p').2 with
      | none => rw [hn] at he; simp [doPath] at he
      | some node =>
        rw [hn] at he
        obtain ⟨h1, h2, _⟩ := C42_complete_partial join (fun _ => true) p' (look p').1 node added (by
          intro f hf
          refine ⟨hq f ?_, fun _ _ => rfl⟩
          simp only [filesOf, List.flatMap_cons, hn, List.mem_append]
          exact .inl hf) he.1
        refine ⟨node, rfl, h1, fun f hf => ?_⟩
        obtain ⟨doc, hd, _⟩ := h2 f hf
        obtain ⟨a, b⟩ := f
        cases b with
        | data dat => exact ⟨dat, rfl⟩
        | openFails => simp [docOf] at hd
        | readFails => simp [docOf] at hd
    · exact ih (fun f hf => hq f (by simp only [filesOf, List.flatMap_cons, List.mem_append]; exact .inr hf)) _ he.2 p' hp'

theorem indexRun_new (S : Strconv ℝ) (join : Bytes → Bytes → Bytes) (readCfg : Bytes → M Config) {gopts opts : List Opt} (hg : RootOpts gopts) (ho : NewIndex S opts)
    {l paths : List Bytes} (hl : Rest l paths) (p : Proc) :
    indexRun S join readCfg p (gopts.flatMap Opt.args ++ Verb.index.name :: (opts.flatMap Opt.args ++ l)) =
      some (.ok (.create p.cwd (plainConfig (absPath p.cwd (promised join p.env gopts)) (intOf S opts [110] 4) (intOf S opts [115] 4))
        (doPaths join p.look paths []).2, (doPaths join p.look paths []).1)) := by
  obtain ⟨st, h1, h2⟩ := C58_index_partial S ho.1 hl p.cwd (promised join p.env gopts) readCfg ho.2.1 ho.2.2.1 ho.2.2.2
  unfold indexRun
  simp only [C57_runs_partial join p.env hg.1 hg.2 .index, h1, h2, bind, Except.bind]
  rfl

theorem indexRun_add (S : Strconv ℝ) (join : Bytes → Bytes → Bytes) (readCfg : Bytes → M Config) {gopts opts : List Opt} (hg : RootOpts gopts) (ho : ∀ o ∈ opts, IndexOpt S o)
    (ha : Flag.lastBool (opts.map fun o => (o.name, o.value)) [97] = true) {l paths : List Bytes} (hl : Rest l paths) (p : Proc) :
    indexRun S join readCfg p (gopts.flatMap Opt.args ++ Verb.index.name :: (opts.flatMap Opt.args ++ l)) =
      some (.ok (.append p.cwd (promised join p.env gopts) (doPaths join p.look paths []).2, (doPaths join p.look paths []).1)) := by
  obtain ⟨st, h1, h2⟩ := C58_add_partial S ho hl p.cwd (promised join p.env gopts) readCfg ha
  unfold indexRun
  simp only [C57_runs_partial join p.env hg.1 hg.2 .index, h1, h2, bind, Except.bind]
  rfl

section
variable {L : Lib} {readCfg : Bytes → M Config} {ops : List Disk.Op} {d : Disk} (hm : ∀ op ∈ ops, Made L.J op) (hs : Steps L.u L.J L.srt Disk.empty ops d)
  {fs : Files} {p : Proc} {gopts opts : List Opt} (hg : RootOpts gopts) {l paths : List Bytes} (hl : Rest l paths)
include hm hs hg hl

/-- **C73**, index: if there is an index at the promised root, nothing is done and the status is 1, -/
theorem C73_index_there (ho : NewIndex L.S opts) {c : Config} {h : Sessions} (hc : catalogue ops (Spec.place p.cwd (promised L.join p.env gopts)) = some (c, h))
    (d' : Disk) (o : Bytes) (s : Nat) :
    Runs L readCfg d fs p (gopts.flatMap Opt.args ++ Verb.index.name :: (opts.flatMap Opt.args ++ l)) d' o s ↔ d' = d ∧ o = [] ∧ s = 1 := by
  obtain ⟨k, hk, _⟩ := (Steps.shows hm hs).held hc
  have hr : d (resolve p.cwd (absPath p.cwd (promised L.join p.env gopts))) ≠ none := by
    rw [resolve_place, place_absPath, hk]; simp
  rw [runs_index (indexRun_new L.S L.join readCfg hg ho hl p)]
  constructor
  · rintro (⟨h, _, _⟩ | ⟨h1, h2, h3, _⟩)
    · cases h with
      | create h' _ _ => exact absurd h' hr
    · exact ⟨h1, h2, h3⟩
  · rintro ⟨rfl, rfl, rfl⟩
    exact .inr ⟨rfl, rfl, rfl, .inl ⟨_, _, _, rfl, hr⟩⟩

/-- and so it is with -a if there is none. -/
theorem C73_add_none (ho : ∀ o ∈ opts, IndexOpt L.S o) (ha : Flag.lastBool (opts.map fun o => (o.name, o.value)) [97] = true)
    (hc : catalogue ops (Spec.place p.cwd (promised L.join p.env gopts)) = none) (d' : Disk) (o : Bytes) (s : Nat) :
    Runs L readCfg d fs p (gopts.flatMap Opt.args ++ Verb.index.name :: (opts.flatMap Opt.args ++ l)) d' o s ↔ d' = d ∧ o = [] ∧ s = 1 := by
  have h1 := C52_open hm hs p.cwd (promised L.join p.env gopts)
  rw [hc] at h1
  rw [runs_index (indexRun_add L.S L.join readCfg hg ho ha hl p)]
  constructor
  · rintro (⟨h, _, _⟩ | ⟨h1, h2, h3, _⟩)
    · cases h with
      | append h' _ => rw [h1.2] at h'; cases h'
    · exact ⟨h1, h2, h3⟩
  · rintro ⟨rfl, rfl, rfl⟩
    exact .inr ⟨rfl, rfl, rfl, .inr ⟨_, _, _, _, rfl, h1.2⟩⟩

/-- **C73**, a new index: with a free root and no visible file that cannot be opened, nothing is printed, and the status is 0 exactly if everything visible below
the arguments can be read; then an index of it was made.  Missing: files that cannot be opened. -/
theorem C73_index_partial (ho : NewIndex L.S opts) (hc : catalogue ops (Spec.place p.cwd (promised L.join p.env gopts)) = none)
    (hq : Openable L.join p.look paths) {d' : Disk} {o : Bytes} {s : Nat}
    (h : Runs L readCfg d fs p (gopts.flatMap Opt.args ++ Verb.index.name :: (opts.flatMap Opt.args ++ l)) d' o s) :
    o = [] ∧ (s = 0 ↔ Readable L.join p.look paths) ∧ (s = 0 ∨ s = 1) ∧
      (s = 0 → Step L.u L.J L.srt d (.create p.cwd (plainConfig (absPath p.cwd (promised L.join p.env gopts)) (intOf L.S opts [110] 4) (intOf L.S opts [115] 4))
        ((filesOf L.join p.look paths).filterMap docOf)) d') := by
  have hr : d (resolve p.cwd (absPath p.cwd (promised L.join p.env gopts))) = none := by
    rw [resolve_place, place_absPath]; exact (Steps.shows hm hs).free hc
  rw [runs_index (indexRun_new L.S L.join readCfg hg ho hl p)] at h
  have hiff := doPaths_iff L.join p.look paths hq []
  rcases h with ⟨h, rfl, rfl⟩ | ⟨_, _, _, ⟨_, _, _, e, h⟩ | ⟨_, _, _, _, e, _⟩⟩
  · refine ⟨rfl, by rw [statusOf_zero, hiff], by cases (doPaths L.join p.look paths []).1 <;> simp [statusOf], ?_⟩
    intro h0
    rw [statusOf_zero, hiff] at h0
    rw [doPaths_readable L.join p.look paths h0, List.nil_append] at h
    exact h
  · cases e
    exact absurd hr h
  · cases e

/-- **C73**, -a: with an index at the promised root and no visible file that cannot be opened, the same holds; then everything was added.  Missing: files that
cannot be opened. -/
theorem C73_add_partial (ho : ∀ o ∈ opts, IndexOpt L.S o) (ha : Flag.lastBool (opts.map fun o => (o.name, o.value)) [97] = true) (hsrt : IsSorter L.srt)
    {c : Config} {hh : Sessions} (hc : catalogue ops (Spec.place p.cwd (promised L.join p.env gopts)) = some (c, hh)) (hf : Fits L.u c (documents hh))
    (hq : Openable L.join p.look paths) {d' : Disk} {o : Bytes} {s : Nat}
    (h : Runs L readCfg d fs p (gopts.flatMap Opt.args ++ Verb.index.name :: (opts.flatMap Opt.args ++ l)) d' o s) :
    o = [] ∧ (s = 0 ↔ Readable L.join p.look paths) ∧ (s = 0 ∨ s = 1) ∧
      (s = 0 → Step L.u L.J L.srt d (.append p.cwd (promised L.join p.env gopts) ((filesOf L.join p.look paths).filterMap docOf)) d') := by
  have h1 := C52_open hm hs p.cwd (promised L.join p.env gopts)
  rw [hc] at h1
  obtain ⟨_, _, _, _, y, hy⟩ := h1 hsrt hf
  rw [runs_index (indexRun_add L.S L.join readCfg hg ho ha hl p)] at h
  have hiff := doPaths_iff L.join p.look paths hq []
  rcases h with ⟨h, rfl, rfl⟩ | ⟨_, _, _, ⟨_, _, _, e, h⟩ | ⟨_, _, _, _, e, h⟩⟩
  · refine ⟨rfl, by rw [statusOf_zero, hiff], by cases (doPaths L.join p.look paths []).1 <;> simp [statusOf], ?_⟩
    intro h0
    rw [statusOf_zero, hiff] at h0
    rw [doPaths_readable L.join p.look paths h0, List.nil_append] at h
    exact h
  · cases e
  · cases e
    rw [hy] at h; cases h

/-- A run with status 0 is possible if everything visible can be read and the index has room for it. -/
theorem C73_index_possible (ho : NewIndex L.S opts) (hc : catalogue ops (Spec.place p.cwd (promised L.join p.env gopts)) = none)
    (hU : Usable L.J (plainConfig (absPath p.cwd (promised L.join p.env gopts)) (intOf L.S opts [110] 4) (intOf L.S opts [115] 4)))
    (hr : Readable L.join p.look paths)
    (hf : Fits L.u (plainConfig (absPath p.cwd (promised L.join p.env gopts)) (intOf L.S opts [110] 4) (intOf L.S opts [115] 4)) (fileDocs p.cwd (filesOf L.join p.look paths))) :
    ∃ d', Runs L readCfg d fs p (gopts.flatMap Opt.args ++ Verb.index.name :: (opts.flatMap Opt.args ++ l)) d' [] 0 := by
  obtain ⟨x, g1, g2⟩ := create_rep (u := L.u) hU
  rw [← documents_files] at hf
  simp only [documents, List.flatMap_cons, List.flatMap_nil, List.append_nil] at hf
  obtain ⟨d1, hd1⟩ := Session.exists hU g2 p.cwd _ hf (d := Dir.empty) (.inl rfl)
  refine ⟨_, .index (C63_index L.S L.join readCfg hg ho hl p hr) (.create ?_ g1 hd1)⟩
  show d (resolve p.cwd (absPath p.cwd (promised L.join p.env gopts))) = none
  rw [resolve_place, place_absPath]; exact (Steps.shows hm hs).free hc

end

section
variable {L : Lib} {readCfg : Bytes → M Config} {ops : List Disk.Op} {d : Disk} (hm : ∀ op ∈ ops, Made L.J op) (hs : Steps L.u L.J L.srt Disk.empty ops d)
  {fs : Files} {p : Proc} {gopts opts : List Opt} (hg : RootOpts gopts) {l : List Bytes} {path : Bytes} (hl : Rest l [path])
include hm hs hg hl

/-- **C73 is false** of index: if there is a file that cannot be opened in a directory to be indexed, the status is 0, though nothing after it, whatever it is, is
in the index that is made. -/
theorem C73_false_index (ho : NewIndex L.S opts) (hc : catalogue ops (Spec.place p.cwd (promised L.join p.env gopts)) = none) {name n : Bytes} {before after : List (Bytes × Node)}
    (hlook : p.look path = (name, some (.dir (some (before ++ (n, .file .openFails) :: after))))) (hname : ¬ Hidden name) (hn : ¬ Hidden n)
    (hb : OpenAll before) (hb' : ∀ f ∈ visibleAll L.join path before, ∃ dat, f.2 = .data dat)
    (hU : Usable L.J (plainConfig (absPath p.cwd (promised L.join p.env gopts)) (intOf L.S opts [110] 4) (intOf L.S opts [115] 4)))
    (hf : Fits L.u (plainConfig (absPath p.cwd (promised L.join p.env gopts)) (intOf L.S opts [110] 4) (intOf L.S opts [115] 4)) (fileDocs p.cwd (visibleAll L.join path before))) :
    ∃ d', Step L.u L.J L.srt d (.create p.cwd (plainConfig (absPath p.cwd (promised L.join p.env gopts)) (intOf L.S opts [110] 4) (intOf L.S opts [115] 4))
        ((visibleAll L.join path before).filterMap docOf)) d' ∧
      Runs L readCfg d fs p (gopts.flatMap Opt.args ++ Verb.index.name :: (opts.flatMap Opt.args ++ l)) d' [] 0 := by
  have hd : doPaths L.join p.look [path] [] = (false, (visibleAll L.join path before).filterMap docOf) := by
    simp only [doPaths, hlook]
    rw [C42_false_open L.join (fun _ => true) path name before after n [] hname hn ?_ hb]
    · rfl
    · intro f hf
      obtain ⟨dat, hd⟩ := hb' f hf
      obtain ⟨a, b⟩ := f
      simp only at hd
      subst hd
      exact ⟨_, rfl, rfl⟩
  have hi := indexRun_new L.S L.join readCfg hg ho hl p
  rw [hd] at hi
  obtain ⟨x, g1, g2⟩ := create_rep (u := L.u) hU
  rw [← documents_files] at hf
  simp only [documents, List.flatMap_cons, List.flatMap_nil, List.append_nil] at hf
  obtain ⟨d1, hd1⟩ := Session.exists hU g2 p.cwd _ hf (d := Dir.empty) (.inl rfl)
  have hfree : d (resolve p.cwd (absPath p.cwd (promised L.join p.env gopts))) = none := by
    rw [resolve_place, place_absPath]; exact (Steps.shows hm hs).free hc
  exact ⟨_, .create hfree g1 hd1, .index hi (.create hfree g1 hd1)⟩

end

/-! ## Non-vacuity -/

noncomputable def exLib : Lib where
  S := exFloat
  join := exJoin
  J := Json.codec
  srt := mergeSorter
  u := asciiUni
  skip := some
  fl := fun _ => []
  fused := false
  fused' := false
  grow := fun n => n
  ff := 2 ^ 32
  fuel := 2 ^ 40
  k := 2 ^ 33
  ord := fun _ m => m
  ord' := fun _ m => m

/-- a directory "t" with a file "p", a file that cannot be opened and a file "q" -/
def exProcShut : Proc := ⟨[47], ⟨[], []⟩, fun p =>
  if p = [116] then ([116], some (.dir (some [([112], .file (.data exText1)), ([112, 112], .file .openFails), ([113], .file (.data exText2))]))) else (p, none)⟩

/-- `dupi -r=x index t` ends with status 0, and the index is one of "t/p" alone -/
theorem C73_false_index_ex (readCfg : Bytes → M Config) (fs : Files) :
    ∃ d', Step asciiUni Json.codec mergeSorter Disk.empty (.create [47] exCmdConfig [⟨[116, 47, 112], 0, 22, some exText1⟩]) d' ∧
      Runs exLib readCfg Disk.empty fs exProcShut [[45, 114, 61, 120], Verb.index.name, [116]] d' [] 0 := by
  have hc : plainConfig (absPath exProcShut.cwd (promised exLib.join exProcShut.env exCmdOpts)) (intOf exLib.S [] [110] 4) (intOf exLib.S [] [115] 4) = exCmdConfig := by
    have : absPath exProcShut.cwd (promised exJoin exProcShut.env exCmdOpts) = [47, 120] := by decide +kernel
    show plainConfig (absPath exProcShut.cwd (promised exJoin exProcShut.env exCmdOpts)) _ _ = _
    rw [this]; rfl
  have hv : visibleAll exLib.join [116] [([112], .file (.data exText1))] = [([116, 47, 112], .data exText1)] := by
    show visibleAll exJoin [116] _ = _
    simp [visibleAll, visible, Hidden, exJoin]
  have := C73_false_index (L := exLib) (readCfg := readCfg) (ops := []) (d := Disk.empty) (by simp) .nil (fs := fs) (p := exProcShut) exCmd_root
    (opts := []) (l := [[116]]) (path := [116]) (.plain (by simp)) ⟨by simp, rfl, rfl, rfl⟩ rfl (name := [116]) (n := [112, 112])
    (before := [([112], .file (.data exText1))]) (after := [([113], .file (.data exText2))]) rfl (by decide) (by decide) (by simp [OpenAll, Open])
    (by rw [hv]; intro f hf; rw [List.mem_singleton] at hf; subst hf; exact ⟨_, rfl⟩) (by rw [hc]; exact exCmd_usable) (by
      rw [hc, hv]
      refine ⟨?_, ?_, ?_⟩ <;> decide +kernel)
  rw [hc, hv] at this
  exact this

/-- `dupi -r=x index t`, `dupi -r=x like /n` and `dupi -r=x blot /n`, where "/n" does not exist, `dupi -r=x extract -sigma 0`, `dupi -r=y extract`,
`dupi -r=x like -h` -/
theorem C73_nonvacuous (readCfg : Bytes → M Config) : ∃ d,
    Runs exLib readCfg Disk.empty exCmdFiles exProc [[45, 114, 61, 120], Verb.index.name, [116]] d [] 0 ∧
    (∃ d' out, Runs exLib readCfg d exCmdFiles exProc [[45, 114, 61, 120], Verb.like.name, [47, 110]] d' out 1) ∧
    (∃ d' out, Runs exLib readCfg d exCmdFiles exProc [[45, 114, 61, 120], Verb.blot.name, [47, 110]] d' out 0) ∧
    (∃ d' out, Runs exLib readCfg d exCmdFiles exProc [[45, 114, 61, 120], Verb.extract.name, [45] ++ sigmaB, [48]] d' out 0) ∧
    (∃ d' out, Runs exLib readCfg d exCmdFiles exProc [[45, 114, 61, 121], Verb.extract.name] d' out 1) ∧
    (∃ d' out, Runs exLib readCfg d exCmdFiles exProc [[45, 114, 61, 120], Verb.like.name, [45, 104]] d' out 0) := by
  have hcfg : plainConfig (absPath exProc.cwd (promised exLib.join exProc.env exCmdOpts)) (intOf exLib.S [] [110] 4) (intOf exLib.S [] [115] 4) = exCmdConfig := by
    have : absPath exProc.cwd (promised exJoin exProc.env exCmdOpts) = [47, 120] := by decide +kernel
    show plainConfig (absPath exProc.cwd (promised exJoin exProc.env exCmdOpts)) _ _ = _
    rw [this]; rfl
  have hv : filesOf exLib.join exProc.look [[116]] = [([116, 47, 112], .data exText1), ([116, 47, 113], .data exText2)] := by
    show filesOf exJoin _ _ = _
    simp [filesOf, exProc, visibleAll, visible, Hidden, exJoin]
  have hr : Readable exLib.join exProc.look [[116]] := by
    intro p hp
    rw [List.mem_singleton] at hp
    subst hp
    refine ⟨_, rfl, by simp [Open, OpenAll, exProc], ?_⟩
    intro f hf
    have : f ∈ filesOf exLib.join exProc.look [[116]] := by
      simp only [filesOf, List.flatMap_cons, List.flatMap_nil, List.append_nil]
      exact hf
    rw [hv] at this
    simp only [List.mem_cons, List.not_mem_nil, or_false] at this
    rcases this with rfl | rfl <;> exact ⟨_, rfl⟩
  obtain ⟨d, hd⟩ := C73_index_possible (L := exLib) (readCfg := readCfg) (ops := []) (d := Disk.empty) (by simp) .nil (fs := exCmdFiles) (p := exProc) exCmd_root
    (opts := []) (l := [[116]]) (paths := [[116]]) (.plain (by simp)) ⟨by simp, rfl, rfl, rfl⟩ rfl (by rw [hcfg]; exact exCmd_usable) hr (by
      rw [hcfg, hv]
      have h1 : fileDocs exProc.cwd [([116, 47, 112], .data exText1), ([116, 47, 113], .data exText2)] = documents exCmdSessions := by decide +kernel
      rw [h1]; exact exCmd_fits)
  have hq : Openable exLib.join exProc.look [[116]] := by
    intro f hf
    rw [hv] at hf
    simp only [List.mem_cons, List.not_mem_nil, or_false] at hf
    rcases hf with rfl | rfl <;> simp
  obtain ⟨_, _, _, h1⟩ := C73_index_partial (L := exLib) (readCfg := readCfg) (ops := []) (d := Disk.empty) (by simp) .nil (fs := exCmdFiles) (p := exProc) exCmd_root
    (opts := []) (l := [[116]]) (paths := [[116]]) (.plain (by simp)) ⟨by simp, rfl, rfl, rfl⟩ rfl hq hd
  have hstep := h1 rfl
  rw [hcfg, hv] at hstep
  have hs : Steps exLib.u exLib.J exLib.srt Disk.empty exCmdOps d := Steps.snoc .nil hstep
  have hm : ∀ op ∈ exCmdOps, Made exLib.J op := exCmd_made
  have hmiss : catalogue exCmdOps (Spec.place exProc.cwd (promised exLib.join exProc.env [⟨[114], [121], .equals, false⟩])) = none := by
    have h1 : Spec.place exProc.cwd (promised exJoin exProc.env [⟨[114], [121], .equals, false⟩]) = [[121]] := by decide +kernel
    have h2 : Spec.place [47] exCmdConfig.indexRoot = [[120]] := by decide +kernel
    show catalogue exCmdOps (Spec.place exProc.cwd (promised exJoin exProc.env [⟨[114], [121], .equals, false⟩])) = none
    simp only [h1, catalogue, exCmdOps, List.foldl_cons, List.foldl_nil, Catalogue.after, at_, h2]
    decide
  have hn : exCmdFiles [47, 110] = none := by decide +kernel
  refine ⟨d, hd, ?_, ?_, ?_, ?_, ?_⟩
  · obtain ⟨out, e⟩ := C73_like (L := exLib) (readCfg := readCfg) hm hs (fs := exCmdFiles) (p := exProc) exCmd_root exCmd_cat exCmd_fits mergeSorter_isSorter (by decide)
      exCmd_unchanged (by rw [exCmd_docs]; decide) (by rw [exCmd_docs]; simp) (fun _ _ => .refl _) (files := [[47, 110]]) (by simp) (by
        intro f hf dat hd; rw [List.mem_singleton] at hf; subst hf; rw [hn] at hd; cases hd)
    exact ⟨d, out, (e d out 1).mpr ⟨rfl, rfl, by simp [hn]⟩⟩
  · exact ⟨d, [], (C73_false_blot (L := exLib) (readCfg := readCfg) hm hs (fs := exCmdFiles) (p := exProc) exCmd_root exCmd_cat exCmd_fits mergeSorter_isSorter (by decide)
      (opts := []) (by simp) rfl (l := [[47, 110]]) (rest := [[47, 110]]) (.plain (by simp)) (by simp [hn]) d [] 0).mpr ⟨rfl, rfl, rfl⟩⟩
  · obtain ⟨out, _, e⟩ := C73_extract (L := exLib) (readCfg := readCfg) hm hs (fs := exCmdFiles) (p := exProc) exCmd_root exCmd_cat exCmd_fits mergeSorter_isSorter
      (opts := [⟨sigmaB, [48], .apart, false⟩]) (by simp [ExtractOpt, exLib, exFloat]) (l := []) (rest := []) (.plain (by simp)) (by decide) (by decide) (by decide)
      (by simp [sigmaOf, valueOf, exLib, exFloat])
    exact ⟨d, _, (e d _ 0).mpr ⟨rfl, rfl, rfl⟩⟩
  · exact ⟨d, [], (C73_no_index (L := exLib) (readCfg := readCfg) hm hs (fs := exCmdFiles) (p := exProc) (gopts := [⟨[114], [121], .equals, false⟩])
      ⟨by simp [RootOpt], by simp [Apart]⟩ (v := .extract) (by simp) (opts := []) (by simp) (l := []) (rest := []) (.plain (by simp)) hmiss d [] 1).mpr ⟨rfl, rfl, rfl⟩⟩
  · exact ⟨d, [], (C73_unknown exLib readCfg d exCmdFiles exProc exCmd_root .like (opts := []) (by simp) (o := ⟨[104], [], .bare, false⟩) (by simp [optNames, switches])
      (by simp) (by simp) (by simp) [] d [] 0).mpr ⟨rfl, rfl, rfl⟩⟩

end Dupi.Props
