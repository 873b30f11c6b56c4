import Verif.Model.Commands
import Verif.Props.Run
import Verif.Props.Tree
import Verif.Props.BlotCmd
import Verif.Props.Unblot
import Verif.Props.Like
/-! # What inspect, blot, unblot and like print: C64, C65, C66, C67 -/

namespace Dupi.Props
open Spec Cmd Disk Fl

/-- a boolean option with one of the names -/
def Switch (names : List Bytes) (o : Opt) : Prop :=
  o.name ∈ names ∧ ((o.style = .bare ∧ o.value = Flag.trueB) ∨ (o.style = .equals ∧ (Flag.parseBool o.value).isSome))

/-- "files", "offsets", "all" -/
def filesB : Bytes := [102, 105, 108, 101, 115]
def offsetsB : Bytes := [111, 102, 102, 115, 101, 116, 115]
def allB : Bytes := [97, 108, 108]

/-- the boolean options of the verbs -/
def switches : Verb → List Bytes
  | .inspect => [jsonB, filesB]
  | .blot => [offsetsB]
  | .unblot => [allB]
  | _ => []

theorem Switch.fine {F : Type} {S : Strconv F} {v : Verb} {o : Opt} (h : Switch (switches v) o) : Flag.Fine (verbFlags S v) o := by
  obtain ⟨name, value, style, two⟩ := o
  obtain ⟨h1, h2⟩ := h
  cases v <;> simp only [switches, List.mem_cons, List.not_mem_nil, or_false] at h1
  · subst h1; exact ⟨rfl, by simp [offsetsB], h2⟩
  · subst h1; exact ⟨rfl, by simp [allB], h2⟩
  · rcases h1 with h1 | h1 <;> subst h1
    · exact ⟨rfl, by simp [jsonB], h2⟩
    · exact ⟨rfl, by simp [filesB], h2⟩

theorem start_opts {F : Type} (S : Strconv F) (join : Bytes → Bytes → Bytes) (v : Verb) (env : Env) {gopts opts : List Opt} (hg : RootOpts gopts)
    (ho : ∀ o ∈ opts, Switch (switches v) o) {l rest : List Bytes} (hl : Rest l rest) :
    start S join v env (gopts.flatMap Opt.args ++ v.name :: (opts.flatMap Opt.args ++ l)) =
      some (promised join env gopts, opts.map (fun o => (o.name, o.value)), opts.flatMap Opt.args ++ l, rest) := by
  unfold start
  simp only [C57_runs_partial join env hg.1 hg.2 v, if_true, Flag.parse_opts (fun o h => (ho o h).fine) hl, Option.map_some]

theorem lastBool_isOn (opts : List Opt) (n : Bytes) : Flag.lastBool (opts.map fun o => (o.name, o.value)) n = isOn opts n := by
  unfold Flag.lastBool isOn; rw [Flag.last_valueOf]

/-- `t` is a number of hundredths with two places after the point -/
def Places2 (k : Nat) (t : Bytes) : Prop :=
  ∃ w a b, Numeral 10 (k / 100) w ∧ Numeral 10 (k / 10 % 10) [a] ∧ Numeral 10 (k % 10) [b] ∧ t = w ++ [46, a, b]

theorem digit_numeral {n : Nat} (h : n < 10) : Numeral 10 n [digit n] := by
  have := (digits_numeral (k := 8) (by omega) n).1
  rw [digits, dif_pos (by omega)] at this
  exact this

theorem fixed2_places {x : ℝ} (hx : 0 ≤ x) : ∃ k : Nat, Places2 k (fixed2 x) ∧ |(k : ℝ) / 100 - x| ≤ 1 / 200 := by
  refine ⟨(Fl.rint (100 * |x|)).toNat, ?_, ?_⟩
  · refine ⟨_, _, _, (digits_numeral (k := 8) (by omega) _).1, digit_numeral (Nat.mod_lt _ (by omega)), digit_numeral (Nat.mod_lt _ (by omega)), ?_⟩
    unfold fixed2
    rw [if_neg (not_lt.mpr hx)]
    rfl
  · rw [abs_of_nonneg hx]
    have h1 := Fl.rint_err (100 * x)
    have h0 : 0 ≤ Fl.rint (100 * x) := by
      rw [abs_le] at h1
      by_contra hc
      have h2 : Fl.rint (100 * x) ≤ -1 := by omega
      have h3 : ((Fl.rint (100 * x) : ℤ) : ℝ) ≤ -1 := by exact_mod_cast h2
      linarith
    have h2 : (((Fl.rint (100 * x)).toNat : ℕ) : ℝ) = ((Fl.rint (100 * x) : ℤ) : ℝ) := by
      have : (((Fl.rint (100 * x)).toNat : ℤ)) = Fl.rint (100 * x) := Int.toNat_of_nonneg h0
      exact_mod_cast this
    rw [h2]
    rw [abs_le] at h1 ⊢
    constructor <;> linarith

section
variable {u : Uni} {J : CfgCodec} {srt : Sorter} (hsrt : IsSorter srt) {F : Type} (S : Strconv F) (join : Bytes → Bytes → Bytes)
  {ops : List Disk.Op} {d : Disk} (hm : ∀ op ∈ ops, Made J op) (hs : Steps u J srt Disk.empty ops d)
  {gopts opts : List Opt} (hg : RootOpts gopts) {l rest : List Bytes} (hl : Rest l rest) (p : Proc)
  {c : Config} {h : Sessions} (hc : catalogue ops (Spec.place p.cwd (promised join p.env gopts)) = some (c, h)) (hf : Fits u c (documents h))
include hsrt hm hs hg hl hc hf

/-- the figures -/
theorem inspect_figures (fused : Bool) (ho : ∀ o ∈ opts, Switch (switches .inspect) o) (fl : ℝ → Bytes) :
    ∃ (nodes : List Bytes) (st : Index.Stats) (m s : ℝ),
      inspectRun S join fl J srt fused d p (gopts.flatMap Opt.args ++ Verb.inspect.name :: (opts.flatMap Opt.args ++ l)) =
        some (.ok (if isOn opts jsonB then statsJson fl c.indexRoot st m s else statsText c.indexRoot st m s, false)) ∧
      st.numDocs = (documents h).length + 1 ∧ nodes.Nodup ∧ (∀ q, q ∈ nodes ↔ q = [] ∨ ∃ s ∈ documents h, OnWay s.path q) ∧ st.numPaths = nodes.length ∧
      st.numPosts = ((documents h).map fun s => (bucketsOf u c s.dat).length).sum ∧ st.numBlots = numBuckets c ∧
      0 ≤ m ∧ |m - mean (bucketSizes u c (documents h))| ≤ mean (bucketSizes u c (documents h)) / 2 ^ 51 ∧
      0 ≤ s ∧ |s - sd (bucketSizes u c (documents h))| ≤
        (65541 + c.numShards.toNat) / 2 ^ 52 * sd (bucketSizes u c (documents h)) + mean (bucketSizes u c (documents h)) / 2 ^ 50 ∧
      (∃ y, round y = some m) ∧ (∃ y, round y = some s) := by
  have h1 := C52_open hm hs p.cwd (promised join p.env gopts)
  rw [hc] at h1
  obtain ⟨x, q, h2, h3, _⟩ := h1 hsrt hf
  obtain ⟨_, _, _, hU, _⟩ := (Steps.shows hm hs).held hc
  obtain ⟨_, _, _, _, hcfg, _⟩ := h3.rep hU hsrt hf
  obtain ⟨dd, k1, k2⟩ := h3.ex
  obtain ⟨nodes, n1, n2, n3⟩ := C29_paths hU k1 hf k2
  obtain ⟨m1, m2, m3⟩ := C29_stats_partial hU hsrt h3 hf
  obtain ⟨m, s, e1, e2, e3⟩ := stats_abs hU hsrt fused h3 hf
  have hm0 : 0 ≤ m ∧ 0 ≤ s := by
    obtain ⟨m', s', v, g1, g2, _, g4, _⟩ := stats_near hU hsrt fused h3 hf
    rw [e1] at g1
    injection g1 with g1
    injection g1 with g1 g1'
    subst g1 g1'
    exact ⟨(mul_nonneg (rk_pos _).le g2.pos).trans g2.lower, (mul_nonneg (rk_pos _).le g4.pos).trans g4.lower⟩
  refine ⟨nodes, x.stats, m, s, ?_, m3, n1, n2, n3, m2, m1, hm0.1, e2, hm0.2, e3, ?_⟩
  · unfold inspectRun
    rw [start_opts S join .inspect p.env hg ho hl]
    simp only [lastBool_isOn, h2, e1, Option.map_some, hcfg]
    rfl
  · unfold Index.blotStats at e1
    obtain ⟨m', f1, e1⟩ := Option.bind_eq_some_iff.mp e1
    obtain ⟨s', f2, e1⟩ := Option.bind_eq_some_iff.mp e1
    injection e1 with e1
    injection e1 with e4 e5
    subst e4 e5
    constructor
    · obtain ⟨_, _, f1⟩ := Option.bind_eq_some_iff.mp f1
      obtain ⟨_, _, f1⟩ := Option.bind_eq_some_iff.mp f1
      unfold Fl.div at f1
      split at f1
      · cases f1
      · exact ⟨_, f1⟩
    · obtain ⟨_, _, f2⟩ := Option.bind_eq_some_iff.mp f2
      obtain ⟨_, _, f2⟩ := Option.bind_eq_some_iff.mp f2
      obtain ⟨_, _, f2⟩ := Option.bind_eq_some_iff.mp f2
      unfold Fl.sqrt at f2
      split at f2
      · cases f2
      · exact ⟨_, f2⟩

/-- **C64**, where it holds.  After any operations on a disk, `dupi [-r ROOT] inspect [-files]` prints, of the index at the promised root: where it was made; the number of
nodes in the tree of paths of its documents; the numbers of postings and of buckets; mean and deviation of the numbers of documents in a bucket, to
hundredths.  Missing: the number of documents, for which one more is printed. -/
theorem C64_inspect_partial (fused : Bool) (ho : ∀ o ∈ opts, Switch (switches .inspect) o) (hj : isOn opts jsonB = false) (fl : ℝ → Bytes) :
    ∃ (nodes : List Bytes) (t1 t2 t3 t4 t5 t6 : Bytes) (a b : Nat),
      inspectRun S join fl J srt fused d p (gopts.flatMap Opt.args ++ Verb.inspect.name :: (opts.flatMap Opt.args ++ l)) =
        some (.ok (ascii "dupi index at " ++ c.indexRoot ++ ascii ":\n\t- " ++ t1 ++ ascii " docs\n\t- " ++ t2 ++ ascii " nodes in path tree\n\t- " ++ t3 ++
          ascii " posts\n\t- " ++ t4 ++ ascii " blots\n\t- " ++ t5 ++ ascii " mean docs per blot\n\t- " ++ t6 ++ ascii " sigma (std deviation)\n", false)) ∧
      Numeral 10 ((documents h).length + 1) t1 ∧
      nodes.Nodup ∧ (∀ q, q ∈ nodes ↔ q = [] ∨ ∃ s ∈ documents h, OnWay s.path q) ∧ Numeral 10 nodes.length t2 ∧
      Numeral 10 (((documents h).map fun s => (bucketsOf u c s.dat).length).sum) t3 ∧ Numeral 10 (numBuckets c) t4 ∧
      Places2 a t5 ∧ |(a : ℝ) / 100 - mean (bucketSizes u c (documents h))| ≤ 1 / 200 + mean (bucketSizes u c (documents h)) / 2 ^ 51 ∧
      Places2 b t6 ∧ |(b : ℝ) / 100 - sd (bucketSizes u c (documents h))| ≤
        1 / 200 + ((65541 + c.numShards.toNat) / 2 ^ 52 * sd (bucketSizes u c (documents h)) + mean (bucketSizes u c (documents h)) / 2 ^ 50) := by
  obtain ⟨nodes, st, m, s, e1, m1, n1, n2, n3, m2, m3, hm0, e2, hs0, e3, _⟩ := inspect_figures hsrt S join hm hs hg hl p hc hf fused ho fl
  obtain ⟨a, a1, a2⟩ := fixed2_places hm0
  obtain ⟨b, b1, b2⟩ := fixed2_places hs0
  have num (n : Nat) : Numeral 10 n (dec64 n) := (digits_numeral (k := 8) (by omega) n).1
  refine ⟨nodes, _, _, _, _, _, _, a, b, ?_, num _, n1, n2, num _, num _, num _, a1, ?_, b1, ?_⟩
  · rw [e1, hj]
    simp only [Bool.false_eq_true, if_false, statsText, m1, m2, m3, n3]
  · rw [show (a : ℝ) / 100 - mean (bucketSizes u c (documents h)) = ((a : ℝ) / 100 - m) + (m - mean (bucketSizes u c (documents h))) by ring]
    exact (abs_add_le _ _).trans (add_le_add a2 e2)
  · rw [show (b : ℝ) / 100 - sd (bucketSizes u c (documents h)) = ((b : ℝ) / 100 - s) + (s - sd (bucketSizes u c (documents h))) by ring]
    exact (abs_add_le _ _).trans (add_le_add b2 e3)

/-- **C64 is false** of the number of documents: it is never the one printed. -/
theorem C64_false_docs (fused : Bool) (ho : ∀ o ∈ opts, Switch (switches .inspect) o) (hj : isOn opts jsonB = false) (fl : ℝ → Bytes) :
    ¬ ∃ t after, inspectRun S join fl J srt fused d p (gopts.flatMap Opt.args ++ Verb.inspect.name :: (opts.flatMap Opt.args ++ l)) =
        some (.ok (ascii "dupi index at " ++ c.indexRoot ++ ascii ":\n\t- " ++ t ++ ascii " docs\n" ++ after, false)) ∧ Numeral 10 (documents h).length t := by
  rintro ⟨t, after, e, ht⟩
  obtain ⟨nodes, t1, t2, t3, t4, t5, t6, a, b, e', ht1, _⟩ := C64_inspect_partial hsrt S join hm hs hg hl p hc hf fused ho hj fl
  rw [e] at e'
  injection e' with e'; injection e' with e'; injection e' with e'
  have hno {n : Nat} {t : Bytes} (h : Numeral 10 n t) : (32 : UInt8) ∉ t := by
    intro hmem
    obtain ⟨v, _, hv⟩ := h.2.1 32 hmem
    simp [digitVal] at hv
  have hd : ascii " docs\n" = 32 :: ascii "docs\n" := by decide
  have hd' : ascii " docs\n\t- " = 32 :: ascii "docs\n\t- " := by decide
  simp only [List.append_assoc, List.append_cancel_left_eq, hd, hd', List.cons_append] at e'
  obtain ⟨rfl, _⟩ := split_first (hno ht) (hno ht1) e'
  have := ht.2.2.1.symm.trans ht1.2.2.1
  omega

end

/-! ## blot -/

/-- the lines blot prints for a file that has the content `dat`, for a way to write numbers -/
def blotLines (u : Uni) (c : Config) (num : Nat → Bytes) (dat : Bytes) : Bytes :=
  (blotsOf u c dat).flatMap fun x => num (x.toNat % numBuckets c) ++ [10]

theorem blotFiles_spec (u : Uni) {c : Config} (hF : Findable c) (fs : Files) (files : List Bytes) :
    blotFiles u fs c false files = .ok (files.flatMap fun f => ((fs f).map (blotLines u c fun n => digits 14 n)).getD []) := by
  induction files with
  | nil => rfl
  | cons f files ih =>
    have h1 : blotFile u fs c false f = .ok (((fs f).map (blotLines u c fun n => digits 14 n)).getD []) := by
      unfold blotFile
      cases hd : fs f with
      | none => rfl
      | some dat =>
        obtain ⟨⟨out, o1, o2⟩, _⟩ := C43_blots_partial u hF dat
        simp only [Bool.false_eq_true, if_false, o1, bind, Except.bind, pure, Except.pure, Option.map_some, Option.getD_some]
        have : (out.flatMap fun b => hex b ++ [10]) = (out.map UInt32.toNat).flatMap fun n => digits 14 n ++ [10] := by
          rw [List.flatMap_map]; rfl
        rw [this, o2, List.flatMap_map]; rfl
    simp only [blotFiles, h1, ih, bind, Except.bind, pure, Except.pure, List.flatMap_cons]

section
variable {u : Uni} {J : CfgCodec} {srt : Sorter} (hsrt : IsSorter srt) {F : Type} (S : Strconv F) (join : Bytes → Bytes → Bytes)
  {ops : List Disk.Op} {d : Disk} (hm : ∀ op ∈ ops, Made J op) (hs : Steps u J srt Disk.empty ops d)
  {gopts opts : List Opt} (hg : RootOpts gopts) {l rest : List Bytes} (hl : Rest l rest) (p : Proc)
  {c : Config} {h : Sessions} (hc : catalogue ops (Spec.place p.cwd (promised join p.env gopts)) = some (c, h)) (hf : Fits u c (documents h))
  (hsm : c.numShards < 65536)
include hsrt hm hs hg hl hc hf hsm

/-- **C65.**  After any operations on a disk, `dupi [-r ROOT] blot FILES` prints, for each of the files that can be read, in order, and of each of
these for each blot of its text, in order, the number of the bucket in hexadecimal on a line, and nothing else; it ends without an error. -/
theorem C65_blot (fs : Files) (ho : ∀ o ∈ opts, Switch (switches .blot) o) (hoff : isOn opts offsetsB = false) :
    ∃ num : Nat → Bytes, (∀ n, Numeral 16 n (num n)) ∧
      blotRun S join J srt u d fs p (gopts.flatMap Opt.args ++ Verb.blot.name :: (opts.flatMap Opt.args ++ l)) =
        some (.ok (rest.flatMap fun f => match fs f with
          | none => []
          | some dat => (blotsOf u c dat).flatMap fun x => num (x.toNat % numBuckets c) ++ [10], false)) := by
  have h1 := C52_open hm hs p.cwd (promised join p.env gopts)
  rw [hc] at h1
  obtain ⟨x, q, h2, h3, _⟩ := h1 hsrt hf
  obtain ⟨_, _, _, hU, _⟩ := (Steps.shows hm hs).held hc
  obtain ⟨_, _, _, _, hcfg, _⟩ := h3.rep hU hsrt hf
  have hF : Findable c := ⟨hU.cons, hU.shards, hsm⟩
  refine ⟨fun n => digits 14 n, fun n => (digits_numeral (k := 14) (by omega) n).1, ?_⟩
  unfold blotRun
  rw [start_opts S join .blot p.env hg ho hl]
  have hoff' : isOn opts [111, 102, 102, 115, 101, 116, 115] = false := hoff
  simp only [Option.map_some, lastBool_isOn, hoff', h2, opened, hcfg, blotFiles_spec u hF, bind, Except.bind, pure, Except.pure]
  have e : (fun f => ((fs f).map (blotLines u c fun n => digits 14 n)).getD []) = fun f => match fs f with
      | none => []
      | some dat => (blotsOf u c dat).flatMap fun x => digits 14 (x.toNat % numBuckets c) ++ [10] := by
    funext f
    cases fs f <;> rfl
  rw [e]

end

/-! ## unblot -/

theorem hexVal_digitVal {b : UInt8} {v : Nat} (h : digitVal b = some v) : hexVal b = some v := by
  unfold digitVal at h
  unfold hexVal
  simp only [UInt8.le_iff_toNat_le, UInt8.reduceToNat]
  split at h
  · rename_i g; rw [if_pos g]; exact h
  · rename_i g
    rw [if_neg g]
    split at h
    · rename_i g'; rw [if_pos g']; exact h
    · cases h

/-- a hexadecimal number is read as that number -/
theorem scanHex_numeral {skip : Bytes → Option Bytes} (hk : Skips skip) {b : UInt32} {t : Bytes} (h : Numeral 16 b.toNat t) : scanHex skip t = some b := by
  obtain ⟨h1, h2, h3, _⟩ := h
  have hv : ∀ a ∈ t, hexVal a = digitVal a := by
    intro a ha
    obtain ⟨v, _, hv⟩ := h2 a ha
    rw [hv, hexVal_digitVal hv]
  have h4 : hexValue t = b.toNat := by
    rw [← h3, hexValue]
    have key : ∀ (t : Bytes) (n : Nat), (∀ a ∈ t, hexVal a = digitVal a) →
        t.foldl (fun n b => 16 * n + (hexVal b).getD 0) n = t.foldl (fun a b => 16 * a + (digitVal b).getD 0) n := by
      intro t
      induction t with
      | nil => intro n _; rfl
      | cons a t ih =>
        intro n hv
        rw [List.foldl_cons, List.foldl_cons, hv a (by simp)]
        exact ih _ fun a ha => hv a (by simp [ha])
    exact key t 0 hv
  rw [C59_hex_partial hk (fun a ha => by rw [hv a ha]; obtain ⟨v, _, hv⟩ := h2 a ha; rw [hv]; rfl) h1, h4, if_pos b.toNat_lt]
  simp

/-- The groups for a blot: each text that is the first passage with that blot of some document, once, with all these documents; without -all only
those with at least two. -/
structure GroupsOf (u : Uni) (c : Config) (docs : List Document) (all : Bool) (b : UInt32) (g : List (Bytes × List Document)) : Prop where
  nodup : (g.map Prod.fst).Nodup
  mem : ∀ t ds, (t, ds) ∈ g ↔ ds = (found u c docs b.toNat).filter (fun s => firstText u c b s.dat = t) ∧ ds ≠ [] ∧ (all = true ∨ 2 ≤ ds.length)

/-- a line for a document: a tab, the path, a space, where it begins and where it ends -/
def entryLine (num : Nat → Bytes) (d : Doc) : Bytes := [9] ++ d.path ++ [32] ++ num d.start.toNat ++ [58] ++ num d.stop.toNat ++ [10]

/-- what is printed for some groups -/
def groupLines (num : Nat → Bytes) (g : List (Bytes × List Document)) : Bytes :=
  g.flatMap fun p => ascii "text:\n'''\n" ++ p.1 ++ ascii "'''\n" ++ p.2.flatMap fun s => entryLine num (Document.loaded s)

theorem lookup_mem {β : Type} (m : List (Bytes × β)) (hn : (m.map Prod.fst).Nodup) (t : Bytes) (v : β) : (t, v) ∈ m ↔ m.lookup t = some v := by
  induction m with
  | nil => simp
  | cons a m ih =>
    obtain ⟨k, w⟩ := a
    rw [List.map_cons, List.nodup_cons] at hn
    rw [List.mem_cons, List.lookup_cons]
    by_cases e : t = k
    · subst e
      have : ∀ v, (t, v) ∉ m := fun v hv => hn.1 (List.mem_map.mpr ⟨_, hv, rfl⟩)
      simp [this, eq_comm]
    · rw [ih hn.2]
      have : (t == k) = false := by simpa using e
      simp [this, e]

theorem groups_ordered {u : Uni} {c : Config} {docs : List Document} {b : UInt32} (all : Bool) {m mo : Groups} (hn : (m.map Prod.fst).Nodup)
    (hl : ∀ t, m.lookup t = if (found u c docs b.toNat).filter (fun s => firstText u c b s.dat = t) = [] then none
      else some (((found u c docs b.toNat).filter fun s => firstText u c b s.dat = t).map Document.loaded))
    (hp : mo.Perm (m.filter fun g => all || decide (2 ≤ g.2.length))) :
    ∃ g, GroupsOf u c docs all b g ∧ mo.flatMap groupText = groupLines (digits 8) g := by
  have hmem : ∀ t ds, (t, ds) ∈ mo ↔ ds = ((found u c docs b.toNat).filter fun s => firstText u c b s.dat = t).map Document.loaded ∧ ds ≠ [] ∧
      (all = true ∨ 2 ≤ ds.length) := by
    intro t ds
    rw [hp.mem_iff, List.mem_filter, lookup_mem m hn, hl]
    simp only [Bool.or_eq_true, decide_eq_true_eq]
    split
    · rename_i h0; simp only [h0, List.map_nil, reduceCtorEq, false_and, false_iff]; rintro ⟨h1, h2, _⟩; exact h2 h1
    · rename_i h0
      constructor
      · rintro ⟨e, h⟩
        injection e with e
        exact ⟨e.symm, by rw [← e]; simpa using h0, h⟩
      · rintro ⟨e, _, h⟩
        exact ⟨by rw [e], h⟩
  refine ⟨mo.map fun p => (p.1, (found u c docs b.toNat).filter fun s => firstText u c b s.dat = p.1), ⟨?_, ?_⟩, ?_⟩
  · rw [List.map_map]
    show (mo.map fun p => p.1).Nodup
    have h1 : (mo.map Prod.fst).Perm ((m.filter fun g => all || decide (2 ≤ g.2.length)).map Prod.fst) := hp.map _
    exact h1.nodup_iff.mpr (hn.sublist (List.filter_sublist.map _))
  · intro t ds
    constructor
    · intro h
      obtain ⟨⟨t', ds'⟩, h1, h2⟩ := List.mem_map.mp h
      simp only [Prod.mk.injEq] at h2
      obtain ⟨rfl, rfl⟩ := h2
      obtain ⟨g1, g2, g3⟩ := (hmem t' ds').mp h1
      refine ⟨rfl, fun e => g2 (by rw [g1, e]; rfl), g3.imp id fun g3 => ?_⟩
      rw [g1, List.length_map] at g3
      exact g3
    · rintro ⟨h1, h2, h3⟩
      subst h1
      have := (hmem t _).mpr ⟨rfl, by simpa using h2, h3.imp id fun h => by rw [List.length_map]; exact h⟩
      exact List.mem_map.mpr ⟨_, this, rfl⟩
  · unfold groupLines
    rw [List.flatMap_map]
    refine List.flatMap_congr fun p hpm => ?_
    obtain ⟨g1, _⟩ := (hmem p.1 p.2).mp hpm
    rw [groupText, g1, List.flatMap_map]
    simp only [entryText, entryLine, dkey, dec, List.append_assoc, List.cons_append, List.nil_append]

section
variable {u : Uni} {J : CfgCodec} {srt : Sorter} {c : Config} (hU : Usable J c) (hsrt : IsSorter srt)
  {h : Sessions} {x : Index} {q : QState} (hr : Reading u J srt c h x q) (hf : Fits u c (documents h)) (hsm : c.numShards < 65536)
  {fs : Files} (hun : Unchanged fs (documents h)) {skip : Bytes → Option Bytes} (hk : Skips skip) (grow : Nat → Nat) {fuel : Nat} (hfuel : (documents h).length < fuel)
  {ord : Nat → Groups → Groups} (hord : ∀ i m, (ord i m).Perm m)
include hU hsrt hr hf hsm hun hk hfuel hord

theorem unblotArgs_spec (all : Bool) {bs : List UInt32} {ts : List Bytes}
    (hb : List.Forall₂ (fun b t => Numeral 16 b.toNat t ∧ b.toNat < numBuckets c) bs ts) (tail : List Bytes) : ∀ i,
    ∃ gs, List.Forall₂ (GroupsOf u c (documents h) all) bs gs ∧ unblotArgs skip u fs grow x fuel q all ord i (ts ++ tail) =
      (unblotArgs skip u fs grow x fuel q all ord (i + ts.length) tail).map fun t => (gs.flatMap (groupLines (digits 8)) ++ t.1, t.2) := by
  induction hb with
  | nil =>
    intro i
    refine ⟨[], .nil, ?_⟩
    simp only [List.nil_append, List.length_nil, Nat.add_zero, List.flatMap_nil]
    cases unblotArgs skip u fs grow x fuel q all ord i tail <;> rfl
  | @cons b t bs ts hbt _ ih =>
    intro i
    obtain ⟨m, m1, m2, m3⟩ := C40_unblot hU hsrt hr hf hsm fs hun grow b hbt.2 all fuel hfuel
    obtain ⟨g, g1, g2⟩ := groups_ordered all m2 m3 (hord i _)
    obtain ⟨gs, k1, k2⟩ := ih (i + 1)
    refine ⟨g :: gs, .cons g1 k1, ?_⟩
    rw [List.cons_append, unblotArgs, scanHex_numeral hk hbt.1]
    simp only [m1, opened, bind, Except.bind, pure, Except.pure]
    rw [k2, List.length_cons, show i + 1 + ts.length = i + (ts.length + 1) by omega]
    cases unblotArgs skip u fs grow x fuel q all ord (i + (ts.length + 1)) tail with
    | error e => rfl
    | ok r => simp only [Except.map, g2, List.flatMap_cons, List.append_assoc]

end

section
variable {u : Uni} {J : CfgCodec} {srt : Sorter} (hsrt : IsSorter srt) {F : Type} (S : Strconv F) (join : Bytes → Bytes → Bytes)
  {ops : List Disk.Op} {d : Disk} (hm : ∀ op ∈ ops, Made J op) (hs : Steps u J srt Disk.empty ops d)
  {gopts opts : List Opt} (hg : RootOpts gopts) (p : Proc)
  {c : Config} {h : Sessions} (hc : catalogue ops (Spec.place p.cwd (promised join p.env gopts)) = some (c, h)) (hf : Fits u c (documents h))
  (hsm : c.numShards < 65536) {fs : Files} (hun : Unchanged fs (documents h)) {skip : Bytes → Option Bytes} (hk : Skips skip)
  (grow : Nat → Nat) {fuel : Nat} (hfuel : (documents h).length < fuel) {ord : Nat → Groups → Groups} (hord : ∀ i m, (ord i m).Perm m)
include hsrt hm hs hg hc hf hsm hun hk hfuel hord

/-- **C66.**  After any operations on a disk, if the files still contain the documents, `dupi [-r ROOT] unblot [-all] BLOTS` prints for each of the blots, given
as hexadecimal numbers of buckets, in order, the groups of documents: for each text, the text and a line for each of its documents, with its path, where it
begins and where it ends in decimal. -/
theorem C66_unblot (ho : ∀ o ∈ opts, Switch (switches .unblot) o) {bs : List UInt32} {ts l : List Bytes} (hl : Rest l ts)
    (hb : List.Forall₂ (fun b t => Numeral 16 b.toNat t ∧ b.toNat < numBuckets c) bs ts) :
    ∃ (num : Nat → Bytes) (gs : List (List (Bytes × List Document))), (∀ n, Numeral 10 n (num n)) ∧
      List.Forall₂ (GroupsOf u c (documents h) (isOn opts allB)) bs gs ∧
      unblotRun S join J srt u skip grow fuel ord d fs p (gopts.flatMap Opt.args ++ Verb.unblot.name :: (opts.flatMap Opt.args ++ l)) =
        some (.ok (gs.flatMap (groupLines num), false)) := by
  have h1 := C52_open hm hs p.cwd (promised join p.env gopts)
  rw [hc] at h1
  obtain ⟨x, q, h2, h3, _⟩ := h1 hsrt hf
  obtain ⟨_, _, _, hU, _⟩ := (Steps.shows hm hs).held hc
  obtain ⟨gs, g1, g2⟩ := unblotArgs_spec hU hsrt h3 hf hsm hun hk grow hfuel hord (isOn opts allB) hb [] 0
  refine ⟨digits 8, gs, fun n => (digits_numeral (k := 8) (by omega) n).1, g1, ?_⟩
  unfold unblotRun
  rw [start_opts S join .unblot p.env hg ho hl]
  simp only [Option.map_some, lastBool_isOn, h2, opened, h3.start, bind, Except.bind]
  rw [List.append_nil] at g2
  exact congrArg some (g2.trans (by simp [unblotArgs, Except.map]))

/-- An argument that is no number ends the run with an error, after the groups for the blots before it were printed. -/
theorem C66_unblot_stops (ho : ∀ o ∈ opts, Switch (switches .unblot) o) {bs : List UInt32} {ts more l : List Bytes} {junk : Bytes} (hl : Rest l (ts ++ junk :: more))
    (hb : List.Forall₂ (fun b t => Numeral 16 b.toNat t ∧ b.toNat < numBuckets c) bs ts) (hj : scanHex skip junk = none) :
    ∃ (num : Nat → Bytes) (gs : List (List (Bytes × List Document))), (∀ n, Numeral 10 n (num n)) ∧
      List.Forall₂ (GroupsOf u c (documents h) (isOn opts allB)) bs gs ∧
      unblotRun S join J srt u skip grow fuel ord d fs p (gopts.flatMap Opt.args ++ Verb.unblot.name :: (opts.flatMap Opt.args ++ l)) =
        some (.ok (gs.flatMap (groupLines num), true)) := by
  have h1 := C52_open hm hs p.cwd (promised join p.env gopts)
  rw [hc] at h1
  obtain ⟨x, q, h2, h3, _⟩ := h1 hsrt hf
  obtain ⟨_, _, _, hU, _⟩ := (Steps.shows hm hs).held hc
  obtain ⟨gs, g1, g2⟩ := unblotArgs_spec hU hsrt h3 hf hsm hun hk grow hfuel hord (isOn opts allB) hb (junk :: more) 0
  refine ⟨digits 8, gs, fun n => (digits_numeral (k := 8) (by omega) n).1, g1, ?_⟩
  unfold unblotRun
  rw [start_opts S join .unblot p.env hg ho hl]
  simp only [Option.map_some, lastBool_isOn, h2, opened, h3.start, bind, Except.bind]
  exact congrArg some (g2.trans (by simp [unblotArgs, Except.map, hj]))

/-- **C66.**  A blot that `dupi blot` prints for a file, given to `dupi unblot -all`, leads back to the documents with that text: a line for each of
them is printed, under the text of its first passage with that blot. -/
theorem C66_blot_unblot (ho : ∀ o ∈ opts, Switch (switches .unblot) o) (hall : isOn opts allB = true) {s : Document} (hmem : s ∈ documents h)
    {b : UInt32} {t : Bytes} (hb : b.toNat ∈ (blotsOf u c s.dat).map fun x => x.toNat % numBuckets c) (ht : Numeral 16 b.toNat t) {l : List Bytes} (hl : Rest l [t]) :
    ∃ (num : Nat → Bytes) (before between after : Bytes), (∀ n, Numeral 10 n (num n)) ∧
      unblotRun S join J srt u skip grow fuel ord d fs p (gopts.flatMap Opt.args ++ Verb.unblot.name :: (opts.flatMap Opt.args ++ l)) =
        some (.ok (before ++ (ascii "text:\n'''\n" ++ firstText u c b s.dat ++ ascii "'''\n") ++ between ++ entryLine num (Document.loaded s) ++ after, false)) := by
  obtain ⟨_, _, _, hU, _⟩ := (Steps.shows hm hs).held hc
  have hN : 0 < numBuckets c := by have := hU.shards; unfold numBuckets; omega
  obtain ⟨y, hy, hyb⟩ := List.mem_map.mp hb
  have hlt : b.toNat < numBuckets c := by rw [← hyb]; exact Nat.mod_lt _ hN
  obtain ⟨num, gs, g1, g2, g3⟩ := C66_unblot hsrt S join hm hs hg p hc hf hsm hun hk grow hfuel hord ho hl (bs := [b]) (.cons ⟨ht, hlt⟩ .nil)
  obtain ⟨g, rfl⟩ : ∃ g, gs = [g] := by
    cases g2 with
    | cons _ h => cases h; exact ⟨_, rfl⟩
  have hgo : GroupsOf u c (documents h) (isOn opts allB) b g := by
    cases g2 with
    | cons h _ => exact h
  have hfound : s ∈ (found u c (documents h) b.toNat).filter fun s' => firstText u c b s'.dat = firstText u c b s.dat := by
    rw [List.mem_filter]
    refine ⟨List.mem_filter.mpr ⟨hmem, ?_⟩, by simp⟩
    simp only [hasBlot, List.any_eq_true, decide_eq_true_eq]
    refine ⟨y, hy, ?_⟩
    rw [← hyb]
    show _ = (y.toNat % numBuckets c) % numBuckets c
    rw [Nat.mod_mod]; rfl
  have hin := (hgo.mem _ _).mpr ⟨rfl, List.ne_nil_of_mem hfound, .inl hall⟩
  obtain ⟨a1, a2, ha⟩ := List.append_of_mem hin
  obtain ⟨e1, e2, he⟩ := List.append_of_mem hfound
  rw [he] at ha
  refine ⟨num, groupLines num a1, e1.flatMap (fun s => entryLine num (Document.loaded s)), e2.flatMap (fun s => entryLine num (Document.loaded s)) ++ groupLines num a2, g1, ?_⟩
  rw [g3, ha]
  simp [groupLines]

end

/-! ## like -/

/-- The documents like prints for a text: those that have a passage in common with it, of which only the last in its bucket counts -/
def Alike (u : Uni) (c : Config) (docs : List Document) (dat : Bytes) (k : DocKey) : Prop :=
  ∃ s ∈ docs, (s.path, s.start, s.stop) = k ∧
    ∃ (i j : Nat) (r r' : Nat × Nat) (b : Nat), passage u c s.dat i = some r ∧ passage u c dat j = some r' ∧ textAt s.dat r = textAt dat r' ∧
      bucketAt u c dat j = some b ∧ ∀ j', j < j' → bucketAt u c dat j' ≠ some b

/-- what is printed for a file -/
def likeLines (num : Nat → Bytes) (f : Bytes) (ks : List DocKey) : Bytes :=
  ascii "like " ++ f ++ ascii ":\n" ++ ks.flatMap fun k => entryLine num ⟨k.1, k.2.1, k.2.2, none⟩

section
variable {u : Uni} {J : CfgCodec} {srt : Sorter} {c : Config} (hU : Usable J c) (hsrt : IsSorter srt)
  {h : Sessions} {x : Index} {q : QState} (hr : Reading u J srt c h x q) (hf : Fits u c (documents h)) (hsm : c.numShards < 65536)
  {fs : Files} (hun : Unchanged fs (documents h)) (h0 : ∀ s ∈ documents h, s.start = 0) (grow : Nat → Nat) {fuel : Nat} (hfuel : (documents h).length < fuel)
  {ord : Nat → List DocKey → List DocKey} (hord : ∀ i m, (ord i m).Perm m)
include hU hsrt hr hf hsm hun h0 hfuel hord

theorem likeFilesRun_spec {files : List Bytes} (hread : ∀ f ∈ files, ∃ dat, fs f = some dat ∧ dat.length < 2 ^ 32) (tail : List Bytes) : ∀ i,
    ∃ ks, List.Forall₂ (fun f ks => ∃ dat, fs f = some dat ∧ ks.Nodup ∧ ∀ k, k ∈ ks ↔ Alike u c (documents h) dat k) files ks ∧
      likeFilesRun u fs grow x fuel ord i (files ++ tail) = (likeFilesRun u fs grow x fuel ord (i + files.length) tail).map fun t =>
        ((List.zipWith (likeLines (digits 8)) files ks).flatten ++ t.1, t.2) := by
  induction files with
  | nil =>
    intro i
    refine ⟨[], .nil, ?_⟩
    simp only [List.nil_append, List.length_nil, Nat.add_zero, List.zipWith_nil_left, List.flatten_nil]
    cases likeFilesRun u fs grow x fuel ord i tail <;> rfl
  | cons f files ih =>
    intro i
    obtain ⟨dat, hd, hlen⟩ := hread f (by simp)
    obtain ⟨out, o1, o2, o3⟩ := C41_like hU hsrt hr hf hsm fs hun h0 grow fuel hfuel dat hlen
    obtain ⟨ks, k1, k2⟩ := ih (fun f hf => hread f (by simp [hf])) (i + 1)
    refine ⟨ord i out :: ks, .cons ⟨dat, hd, (hord i out).nodup_iff.mpr o2, fun k => by rw [(hord i out).mem_iff]; exact o3 k⟩ k1, ?_⟩
    rw [List.cons_append, likeFilesRun, hd]
    simp only [hr.start, o1, opened, bind, Except.bind, pure, Except.pure]
    rw [k2, List.length_cons, show i + 1 + files.length = i + (files.length + 1) by omega]
    have e : (ord i out).flatMap entryText = (ord i out).flatMap fun k => entryLine (digits 8) ⟨k.1, k.2.1, k.2.2, none⟩ := by
      refine List.flatMap_congr fun k _ => ?_
      simp only [entryText, entryLine, dec, List.append_assoc, List.cons_append, List.nil_append]
    cases likeFilesRun u fs grow x fuel ord (i + (files.length + 1)) tail with
    | error e => rfl
    | ok r => simp only [Except.map, List.zipWith_cons_cons, List.flatten_cons, likeLines, e, List.append_assoc]

end

section
variable {u : Uni} {J : CfgCodec} {srt : Sorter} (hsrt : IsSorter srt) {F : Type} (S : Strconv F) (join : Bytes → Bytes → Bytes)
  {ops : List Disk.Op} {d : Disk} (hm : ∀ op ∈ ops, Made J op) (hs : Steps u J srt Disk.empty ops d)
  {gopts : List Opt} (hg : RootOpts gopts) (p : Proc)
  {c : Config} {h : Sessions} (hc : catalogue ops (Spec.place p.cwd (promised join p.env gopts)) = some (c, h)) (hf : Fits u c (documents h))
  (hsm : c.numShards < 65536) {fs : Files} (hun : Unchanged fs (documents h)) (h0 : ∀ s ∈ documents h, s.start = 0)
  (grow : Nat → Nat) {fuel : Nat} (hfuel : (documents h).length < fuel) {ord : Nat → List DocKey → List DocKey} (hord : ∀ i m, (ord i m).Perm m)
include hsrt hm hs hg hc hf hsm hun h0 hfuel hord

/-- **C67.**  After any operations on a disk, if the documents begin at 0 in their files and these are unchanged, `dupi [-r ROOT] like FILES` prints for each
file, in order, its name and then, in any order but each once, the documents of the index that have a passage in common with it, with path, start and end. -/
theorem C67_like {files : List Bytes} (hdash : ∀ a ∈ files.head?, a.head? ≠ some 45 ∨ a = [45])
    (hread : ∀ f ∈ files, ∃ dat, fs f = some dat ∧ dat.length < 2 ^ 32) :
    ∃ (num : Nat → Bytes) (ks : List (List DocKey)), (∀ n, Numeral 10 n (num n)) ∧
      List.Forall₂ (fun f ks => ∃ dat, fs f = some dat ∧ ks.Nodup ∧ ∀ k, k ∈ ks ↔ Alike u c (documents h) dat k) files ks ∧
      likeRun S join J srt u grow fuel ord d fs p (gopts.flatMap Opt.args ++ Verb.like.name :: files) =
        some (.ok ((List.zipWith (likeLines num) files ks).flatten, false)) := by
  have h1 := C52_open hm hs p.cwd (promised join p.env gopts)
  rw [hc] at h1
  obtain ⟨x, q, h2, h3, _⟩ := h1 hsrt hf
  obtain ⟨_, _, _, hU, _⟩ := (Steps.shows hm hs).held hc
  obtain ⟨ks, k1, k2⟩ := likeFilesRun_spec hU hsrt h3 hf hsm hun h0 grow hfuel hord hread [] 0
  refine ⟨digits 8, ks, fun n => (digits_numeral (k := 8) (by omega) n).1, k1, ?_⟩
  unfold likeRun
  have := start_opts S join .like p.env hg (opts := []) (by simp) (.plain hdash)
  simp only [List.flatMap_nil, List.nil_append] at this
  rw [this]
  simp only [Option.map_some, h2, opened]
  rw [List.append_nil] at k2
  exact congrArg some (k2.trans (by simp [likeFilesRun, Except.map]))

/-- The first file that cannot be read ends the run with an error, after what there is to print about the files before it. -/
theorem C67_like_stops {files more : List Bytes} {bad : Bytes} (hdash : ∀ a ∈ (files ++ bad :: more).head?, a.head? ≠ some 45 ∨ a = [45])
    (hread : ∀ f ∈ files, ∃ dat, fs f = some dat ∧ dat.length < 2 ^ 32) (hbad : fs bad = none) :
    ∃ (num : Nat → Bytes) (ks : List (List DocKey)), (∀ n, Numeral 10 n (num n)) ∧
      List.Forall₂ (fun f ks => ∃ dat, fs f = some dat ∧ ks.Nodup ∧ ∀ k, k ∈ ks ↔ Alike u c (documents h) dat k) files ks ∧
      likeRun S join J srt u grow fuel ord d fs p (gopts.flatMap Opt.args ++ Verb.like.name :: (files ++ bad :: more)) =
        some (.ok ((List.zipWith (likeLines num) files ks).flatten, true)) := by
  have h1 := C52_open hm hs p.cwd (promised join p.env gopts)
  rw [hc] at h1
  obtain ⟨x, q, h2, h3, _⟩ := h1 hsrt hf
  obtain ⟨_, _, _, hU, _⟩ := (Steps.shows hm hs).held hc
  obtain ⟨ks, k1, k2⟩ := likeFilesRun_spec hU hsrt h3 hf hsm hun h0 grow hfuel hord hread (bad :: more) 0
  refine ⟨digits 8, ks, fun n => (digits_numeral (k := 8) (by omega) n).1, k1, ?_⟩
  unfold likeRun
  have := start_opts S join .like p.env hg (opts := []) (by simp) (.plain hdash)
  simp only [List.flatMap_nil, List.nil_append] at this
  rw [this]
  simp only [Option.map_some, h2, opened]
  exact congrArg some (k2.trans (by simp [likeFilesRun, Except.map, hbad]))

end

/-- Without an index at the promised root, all four print nothing and end with an error. -/
theorem C64_no_index {u : Uni} {J : CfgCodec} {srt : Sorter} {F : Type} (S : Strconv F) (join : Bytes → Bytes → Bytes)
    {ops : List Disk.Op} {d : Disk} (hm : ∀ op ∈ ops, Made J op) (hs : Steps u J srt Disk.empty ops d)
    {gopts : List Opt} (hg : RootOpts gopts) {l rest : List Bytes} (hl : Rest l rest) (p : Proc) (hc : catalogue ops (Spec.place p.cwd (promised join p.env gopts)) = none)
    (fs : Files) (skip : Bytes → Option Bytes) (grow : Nat → Nat) (fuel : Nat) (ord : Nat → Groups → Groups) (ord' : Nat → List DocKey → List DocKey) (fused : Bool) (fl : ℝ → Bytes) :
    inspectRun S join fl J srt fused d p (gopts.flatMap Opt.args ++ Verb.inspect.name :: l) = some (.ok ([], true)) ∧
    blotRun S join J srt u d fs p (gopts.flatMap Opt.args ++ Verb.blot.name :: l) = some (.ok ([], true)) ∧
    unblotRun S join J srt u skip grow fuel ord d fs p (gopts.flatMap Opt.args ++ Verb.unblot.name :: l) = some (.ok ([], true)) ∧
    likeRun S join J srt u grow fuel ord' d fs p (gopts.flatMap Opt.args ++ Verb.like.name :: l) = some (.ok ([], true)) := by
  have h1 := C52_open hm hs p.cwd (promised join p.env gopts)
  rw [hc] at h1
  have st (v : Verb) := start_opts S join v p.env hg (opts := []) (by simp) hl
  simp only [List.flatMap_nil, List.nil_append, List.map_nil] at st
  refine ⟨?_, ?_, ?_, ?_⟩
  · simp only [inspectRun, st, h1.1, opened, fail]
  · simp only [blotRun, st, Option.map_some, h1.1, opened, fail]
  · simp only [unblotRun, st, Option.map_some, h1.1, opened, fail]
  · simp only [likeRun, st, Option.map_some, h1.1, opened, fail]

/-! ## Non-vacuity -/

/-- files with the texts of the example -/
def exCmdFiles : Files := fun f => if f = [47, 116, 47, 112] then some exText1 else if f = [47, 116, 47, 113] then some exText2 else none

def exCmdConfig : Config := plainConfig [47, 120] 4 4

def exCmdOps : List Disk.Op := [.create [47] exCmdConfig [⟨[116, 47, 112], 0, 22, some exText1⟩, ⟨[116, 47, 113], 0, 24, some exText2⟩]]

def exCmdSessions : Sessions := [([47], [⟨[116, 47, 112], 0, 22, some exText1⟩, ⟨[116, 47, 113], 0, 24, some exText2⟩])]

theorem exCmd_docs : documents exCmdSessions = [⟨[47, 116, 47, 112], 0, 22, exText1⟩, ⟨[47, 116, 47, 113], 0, 24, exText2⟩] := by decide +kernel

theorem exCmd_fits : Fits asciiUni exCmdConfig (documents exCmdSessions) := by
  refine ⟨?_, ?_, ?_⟩ <;> rw [exCmd_docs]
  · decide
  · decide
  · decide +kernel

theorem exCmd_usable : Usable Json.codec exCmdConfig :=
  plainConfig_usable (isText_iff.mpr (by decide +kernel)) (by decide) (by decide) (by decide) (by decide)

theorem exCmd_made : ∀ op ∈ exCmdOps, Made Json.codec op := by
  intro op h
  rw [exCmdOps, List.mem_singleton] at h
  subst h
  exact ⟨exCmd_usable, by decide +kernel⟩

theorem exCmd_disk : ∃ d, Steps asciiUni Json.codec mergeSorter Disk.empty exCmdOps d := by
  obtain ⟨x, g1, g2⟩ := create_rep (u := asciiUni) exCmd_usable
  obtain ⟨d1, hd1⟩ := Session.exists exCmd_usable g2 [47] [⟨[116, 47, 112], 0, 22, some exText1⟩, ⟨[116, 47, 113], 0, 24, some exText2⟩]
    (by have := exCmd_fits; simpa [documents, exCmdSessions] using this) (d := Dir.empty) (.inl rfl)
  exact ⟨_, Steps.snoc .nil (.create rfl g1 hd1)⟩

/-- `dupi -r=x` in the directory / -/
def exCmdOpts : List Opt := [⟨[114], [120], .equals, false⟩]

theorem exCmd_root : RootOpts exCmdOpts := ⟨by simp [exCmdOpts, RootOpt], by simp [exCmdOpts, Apart]⟩

theorem exCmd_cat : catalogue exCmdOps (Spec.place exProc.cwd (promised exJoin exProc.env exCmdOpts)) = some (exCmdConfig, exCmdSessions) := by
  have h1 : Spec.place exProc.cwd (promised exJoin exProc.env exCmdOpts) = [[120]] := by decide +kernel
  have h2 : Spec.place [47] exCmdConfig.indexRoot = [[120]] := by decide +kernel
  simp only [h1, catalogue, exCmdOps, List.foldl_cons, List.foldl_nil, Catalogue.after, at_, h2, if_true]
  rfl

theorem exCmd_unchanged : Unchanged exCmdFiles (documents exCmdSessions) := by
  have : ∀ s ∈ documents exCmdSessions, ((exCmdFiles s.path).any fun f => decide (Covers s f)) = true ∧ s.dat.length < 2 ^ 32 := by
    decide +kernel
  intro s hs
  obtain ⟨h1, h2⟩ := this s hs
  cases hf : exCmdFiles s.path with
  | none => rw [hf] at h1; cases h1
  | some f => rw [hf] at h1; exact ⟨f, rfl, by simpa using h1, h2⟩

/-- `dupi -r=x inspect -files` -/
theorem C64_nonvacuous (fl : ℝ → Bytes) : ∃ d, Steps asciiUni Json.codec mergeSorter Disk.empty exCmdOps d ∧ ∃ t after,
    inspectRun exFloat exJoin fl Json.codec mergeSorter false d exProc [[45, 114, 61, 120], Verb.inspect.name, [45] ++ filesB] =
      some (.ok (ascii "dupi index at /x:\n\t- " ++ t ++ ascii " docs\n" ++ after, false)) ∧ Numeral 10 3 t := by
  obtain ⟨d, hd⟩ := exCmd_disk
  refine ⟨d, hd, ?_⟩
  obtain ⟨nodes, t1, t2, t3, t4, t5, t6, a, b, e1, e2, _⟩ := C64_inspect_partial mergeSorter_isSorter exFloat exJoin exCmd_made hd exCmd_root (.plain (by simp)) exProc exCmd_cat
    exCmd_fits false (l := []) (opts := [⟨filesB, Flag.trueB, .bare, false⟩]) (by simp [Switch, switches]) rfl fl
  rw [exCmd_docs] at e2
  refine ⟨t1, ascii "\t- " ++ (t2 ++ (ascii " nodes in path tree\n\t- " ++ (t3 ++ (ascii " posts\n\t- " ++ (t4 ++ (ascii " blots\n\t- " ++
    (t5 ++ (ascii " mean docs per blot\n\t- " ++ (t6 ++ ascii " sigma (std deviation)\n"))))))))), e1.trans ?_, e2⟩
  have h1 : ascii "dupi index at " ++ exCmdConfig.indexRoot ++ ascii ":\n\t- " = ascii "dupi index at /x:\n\t- " := by decide +kernel
  have h2 : ascii " docs\n\t- " = ascii " docs\n" ++ ascii "\t- " := by decide +kernel
  rw [h1, h2]
  simp only [List.append_assoc]

/-- `dupi -r=x blot /t/p /none`: eleven words, one blot -/
theorem C65_nonvacuous : ∃ d, Steps asciiUni Json.codec mergeSorter Disk.empty exCmdOps d ∧ ∃ n t, Numeral 16 n t ∧
    blotRun exFloat exJoin Json.codec mergeSorter asciiUni d exCmdFiles exProc [[45, 114, 61, 120], Verb.blot.name, [47, 116, 47, 112], [47, 110]] =
      some (.ok (t ++ [10], false)) := by
  obtain ⟨d, hd⟩ := exCmd_disk
  refine ⟨d, hd, ?_⟩
  obtain ⟨num, n1, n2⟩ := C65_blot mergeSorter_isSorter exFloat exJoin exCmd_made hd exCmd_root (l := [[47, 116, 47, 112], [47, 110]]) (.plain (by simp)) exProc exCmd_cat
    exCmd_fits (by decide) exCmdFiles (opts := []) (by simp) rfl
  have h1 : (blotsOf asciiUni exCmdConfig exText1).length = 1 := by decide +kernel
  have h2 : exCmdFiles [47, 116, 47, 112] = some exText1 := by decide +kernel
  have h3 : exCmdFiles [47, 110] = none := by decide +kernel
  obtain ⟨x, hx⟩ := List.length_eq_one_iff.mp h1
  refine ⟨_, _, n1 (x.toNat % numBuckets exCmdConfig), n2.trans ?_⟩
  simp only [List.flatMap_cons, List.flatMap_nil, h2, h3, hx, List.append_nil]

/-- the blot of the file leads back to it with unblot -/
theorem C66_nonvacuous : ∃ d, Steps asciiUni Json.codec mergeSorter Disk.empty exCmdOps d ∧ ∃ t num before after, (∀ n, Numeral 10 n (num n)) ∧
    unblotRun exFloat exJoin Json.codec mergeSorter asciiUni some (fun n => n) 10 (fun _ m => m) d exCmdFiles exProc
        [[45, 114, 61, 120], Verb.unblot.name, [45] ++ allB, t] =
      some (.ok (before ++ entryLine num ⟨[47, 116, 47, 112], 0, 22, none⟩ ++ after, false)) := by
  obtain ⟨d, hd⟩ := exCmd_disk
  refine ⟨d, hd, ?_⟩
  have h1 : (blotsOf asciiUni exCmdConfig exText1).length = 1 := by decide +kernel
  obtain ⟨x, hx⟩ := List.length_eq_one_iff.mp h1
  have hl : x.toNat % numBuckets exCmdConfig < 2 ^ 32 := Nat.lt_of_le_of_lt (Nat.mod_le _ _) x.toNat_lt
  have hn := hex_numeral (UInt32.ofNat (x.toNat % numBuckets exCmdConfig))
  have hd0 : (⟨[47, 116, 47, 112], 0, 22, exText1⟩ : Document) ∈ documents exCmdSessions := by rw [exCmd_docs]; simp
  have hne : (hex (UInt32.ofNat (x.toNat % numBuckets exCmdConfig))).head? ≠ some 45 := by
    intro e
    obtain ⟨v, _, hv⟩ := hn.2.1 45 (List.mem_of_mem_head? e)
    simp [digitVal] at hv
  obtain ⟨num, before, between, after, n1, n2⟩ := C66_blot_unblot mergeSorter_isSorter exFloat exJoin exCmd_made hd exCmd_root exProc exCmd_cat exCmd_fits (by decide)
    exCmd_unchanged (skip := some) (fun _ _ _ _ => rfl) (fun n => n) (fuel := 10) (by rw [exCmd_docs]; decide) (ord := fun _ m => m) (fun _ _ => .refl _)
    (opts := [⟨allB, Flag.trueB, .bare, false⟩]) (by simp [Switch, switches]) rfl hd0 (b := UInt32.ofNat (x.toNat % numBuckets exCmdConfig))
    (by rw [hx, List.map_cons, List.map_nil, List.mem_singleton, UInt32.toNat_ofNat', Nat.mod_eq_of_lt hl]) hn
    (l := [hex (UInt32.ofNat (x.toNat % numBuckets exCmdConfig))]) (.plain (by simp [hne]))
  exact ⟨_, num, _, after, n1, n2⟩

/-- `dupi -r=x like /t/q`: the file itself is found -/
theorem C67_nonvacuous : ∃ d, Steps asciiUni Json.codec mergeSorter Disk.empty exCmdOps d ∧ ∃ num before after, (∀ n, Numeral 10 n (num n)) ∧
    likeRun exFloat exJoin Json.codec mergeSorter asciiUni (fun n => n) 10 (fun _ m => m) d exCmdFiles exProc
        [[45, 114, 61, 120], Verb.like.name, [47, 116, 47, 113]] =
      some (.ok (ascii "like /t/q:\n" ++ before ++ entryLine num ⟨[47, 116, 47, 113], 0, 24, none⟩ ++ after, false)) := by
  obtain ⟨d, hd⟩ := exCmd_disk
  refine ⟨d, hd, ?_⟩
  obtain ⟨num, ks, n1, n2, n3⟩ := C67_like mergeSorter_isSorter exFloat exJoin exCmd_made hd exCmd_root exProc exCmd_cat exCmd_fits (by decide)
    exCmd_unchanged (by rw [exCmd_docs]; simp) (fun n => n) (fuel := 10) (by rw [exCmd_docs]; decide) (ord := fun _ m => m) (fun _ _ => .refl _)
    (files := [[47, 116, 47, 113]]) (by simp) (by
      intro f hf; rw [List.mem_singleton] at hf; subst hf; exact ⟨exText2, by decide +kernel, by decide⟩)
  cases n2 with
  | @cons _ k _ ks hk hks =>
    cases hks
    obtain ⟨dat, k1, _, k3⟩ := hk
    have : dat = exText2 := by
      have h : exCmdFiles [47, 116, 47, 113] = some exText2 := by decide +kernel
      rw [h] at k1; injection k1 with k1; exact k1.symm
    subst this
    have hin : (([47, 116, 47, 113], 0, 24) : DocKey) ∈ k := by
      refine (k3 _).mpr ⟨⟨[47, 116, 47, 113], 0, 24, exText2⟩, by rw [exCmd_docs]; simp, rfl, ?_⟩
      have hp : (passage asciiUni exCmdConfig exText2 1).isSome := by decide +kernel
      have hb : (bucketAt asciiUni exCmdConfig exText2 1).isSome := by decide +kernel
      obtain ⟨r, hr⟩ := Option.isSome_iff_exists.mp hp
      obtain ⟨b, hb⟩ := Option.isSome_iff_exists.mp hb
      refine ⟨1, 1, r, r, b, hr, hr, rfl, hb, fun j' hj' => ?_⟩
      have hlen : (blotsOf asciiUni exCmdConfig exText2).length = 2 := by decide +kernel
      rw [bucketAt, List.getElem?_eq_none (by rw [hlen]; omega)]
      simp
    obtain ⟨a1, a2, ha⟩ := List.append_of_mem hin
    refine ⟨num, a1.flatMap fun k => entryLine num ⟨k.1, k.2.1, k.2.2, none⟩, a2.flatMap fun k => entryLine num ⟨k.1, k.2.1, k.2.2, none⟩, n1, n3.trans ?_⟩
    have h1 : ascii "like " ++ [47, 116, 47, 113] ++ ascii ":\n" = ascii "like /t/q:\n" := by decide +kernel
    simp only [List.zipWith_cons_cons, List.zipWith_nil_left, List.flatten_cons, List.flatten_nil, List.append_nil, likeLines, h1, ha, List.flatMap_append,
      List.flatMap_cons, ← List.append_assoc]

end Dupi.Props
