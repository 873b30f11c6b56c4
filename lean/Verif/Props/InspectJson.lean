import Verif.Props.Commands
import Verif.Proof.JsonWrite
import Verif.Spec.JsonNum
/-! # C71: what dupi inspect -json prints -/

namespace Dupi.Props
open Spec Cmd Disk Fl

theorem NumberIs.number {t : Bytes} {x : ℝ} (h : NumberIs t x) : JNumber t := by
  obtain ⟨s, i, f, e, g, df, rfl, h1, h2, h3, h4, h5, _⟩ := h
  refine ⟨s, i, f, e, rfl, h1, h2, h3, ?_, ?_⟩
  · rcases h4 with ⟨h, _⟩ | ⟨h, h'⟩
    · exact .inl h
    · exact .inr ⟨df, h, h'⟩
  · rcases h5 with ⟨h, _⟩ | ⟨c, h, d, h6, h7, h8, h9, _⟩
    · exact .inl h
    · exact .inr ⟨c, h, d, h6, h7, h8, h9⟩

/-- `fl` writes float64s as numbers that are read back as the same float64s (that is: these are the nearest) -/
def WritesFloats (fl : ℝ → Bytes) : Prop := ∀ x, Is64 x → |x| < 2 ^ 1024 → ∃ q, NumberIs (fl x) q ∧ Fl.round q = some x

theorem round_lt {x y : ℝ} (h : Fl.round x = some y) : |y| < 2 ^ 1024 := by
  unfold Fl.round at h
  split at h
  · rename_i hlt
    injection h with h
    subst h
    exact hlt
  · cases h

section
variable {u : Uni} {J : CfgCodec} {srt : Sorter} (hsrt : IsSorter srt) {F : Type} (S : Strconv F) (join : Bytes → Bytes → Bytes)
  {ops : List Disk.Op} {d : Disk} (hm : ∀ op ∈ ops, Made J op) (hs : Steps u J srt Disk.empty ops d)
  {gopts opts : List Opt} (hg : RootOpts gopts) {l rest : List Bytes} (hl : Rest l rest) (p : Proc)
  {c : Config} {h : Sessions} (hc : catalogue ops (Spec.place p.cwd (promised join p.env gopts)) = some (c, h)) (hf : Fits u c (documents h))
  {fl : ℝ → Bytes} (hfl : WritesFloats fl)
include hsrt hm hs hg hl hc hf hfl

/-- **C71**, where it holds.  After any operations on a disk, `dupi [-r ROOT] inspect -json` prints a JSON text: an object with the root, the number of nodes in the tree of
paths, the numbers of postings and of buckets, and mean and deviation of the numbers of documents in a bucket: read as float64s they are as close
to them as C55 says.  Missing: the number of documents, for which one more is printed. -/
theorem C71_inspect_partial (fused : Bool) (ho : ∀ o ∈ opts, Switch (switches .inspect) o) (hj : isOn opts jsonB = true) :
    ∃ (t : Bytes) (cs : List Char) (nodes : List Bytes) (t1 t2 t3 t4 t5 t6 : Bytes) (m s q5 q6 : ℝ),
      inspectRun S join fl J srt fused d p (gopts.flatMap Opt.args ++ Verb.inspect.name :: (opts.flatMap Opt.args ++ l)) = some (.ok (t, false)) ∧
      IsJson (.obj [("Root".toList, .str cs), ("NumDocs".toList, .num t1), ("NumPaths".toList, .num t2), ("NumPosts".toList, .num t3), ("NumBlots".toList, .num t4),
        ("BlotMean".toList, .num t5), ("BlotSigma".toList, .num t6)]) t ∧ Repair c.indexRoot cs ∧
      Numeral 10 ((documents h).length + 1) t1 ∧
      nodes.Nodup ∧ (∀ q, q ∈ nodes ↔ q = [] ∨ ∃ s ∈ documents h, OnWay s.path q) ∧ Numeral 10 nodes.length t2 ∧
      Numeral 10 (((documents h).map fun s => (bucketsOf u c s.dat).length).sum) t3 ∧ Numeral 10 (numBuckets c) t4 ∧
      NumberIs t5 q5 ∧ Fl.round q5 = some m ∧ |m - mean (bucketSizes u c (documents h))| ≤ mean (bucketSizes u c (documents h)) / 2 ^ 51 ∧
      NumberIs t6 q6 ∧ Fl.round q6 = some s ∧ |s - sd (bucketSizes u c (documents h))| ≤
        (65541 + c.numShards.toNat) / 2 ^ 52 * sd (bucketSizes u c (documents h)) + mean (bucketSizes u c (documents h)) / 2 ^ 50 := by
  obtain ⟨nodes, st, m, s, e1, m1, n1, n2, n3, m2, m3, _, e2, _, e3, ⟨y, hy⟩, y', hy'⟩ := inspect_figures hsrt S join hm hs hg hl p hc hf fused ho fl
  obtain ⟨cs, r1, r2⟩ := Json.str_text c.indexRoot
  obtain ⟨q5, a1, a2⟩ := hfl m (round_is64 hy) (round_lt hy)
  obtain ⟨q6, b1, b2⟩ := hfl s (round_is64 hy') (round_lt hy')
  have num (n : Nat) := Json.nat_numeral n
  refine ⟨_, cs, nodes, _, _, _, _, fl m, fl s, m, s, q5, q6, by rw [e1, hj, if_pos rfl], ?_, r1, num _, n1, n2, num _, num _, num _, a1, a2, e2, b1, b2, e3⟩
  refine ⟨[], _, [], by simp only [List.nil_append, List.append_nil]; rfl, Json.blank_nil, ?_, Json.blank_nil⟩
  unfold statsJson
  rw [m1, n3, m2, m3]
  exact Json.object_text 0 (.cons (Json.member_text "Root" r2) (.cons (Json.member_text "NumDocs" (Json.nat_text _)) (.cons (Json.member_text "NumPaths" (Json.nat_text _))
    (.cons (Json.member_text "NumPosts" (Json.nat_text _)) (.cons (Json.member_text "NumBlots" (Json.nat_text _)) (.cons (Json.member_text "BlotMean" (.num (NumberIs.number a1)))
    (.cons (Json.member_text "BlotSigma" (.num (NumberIs.number b1))) .nil))))))) (by simp)

/-- **C71 is false** of the number of documents: in no reading of the output it is the one under "NumDocs". -/
theorem C71_false_docs (fused : Bool) (ho : ∀ o ∈ opts, Switch (switches .inspect) o) (hj : isOn opts jsonB = true) :
    ¬ ∃ t ms n, inspectRun S join fl J srt fused d p (gopts.flatMap Opt.args ++ Verb.inspect.name :: (opts.flatMap Opt.args ++ l)) = some (.ok (t, false)) ∧
      IsJson (.obj ms) t ∧ ("NumDocs".toList, JVal.num n) ∈ ms ∧ Numeral 10 (documents h).length n := by
  rintro ⟨t, ms, n, e, hj', hmem, hn⟩
  obtain ⟨t', cs, nodes, t1, t2, t3, t4, t5, t6, m, s, q5, q6, e', j, _, hn', _⟩ := C71_inspect_partial hsrt S join hm hs hg hl p hc hf hfl fused ho hj
  rw [e] at e'
  injection e' with e'; injection e' with e'; injection e' with e'
  subst e'
  have := Json.isJson_unique hj' j
  injection this with this
  subst this
  have k1 : "NumDocs".toList ≠ "Root".toList := by decide
  have k2 : "NumDocs".toList ≠ "NumPaths".toList := by decide
  have k3 : "NumDocs".toList ≠ "NumPosts".toList := by decide
  have k4 : "NumDocs".toList ≠ "NumBlots".toList := by decide
  have k5 : "NumDocs".toList ≠ "BlotMean".toList := by decide
  have k6 : "NumDocs".toList ≠ "BlotSigma".toList := by decide
  simp only [List.mem_cons, Prod.mk.injEq, k1, k2, k3, k4, k5, k6, false_and, false_or, or_false, true_and, List.not_mem_nil, JVal.num.injEq] at hmem
  subst hmem
  have := hn.2.2.1.symm.trans hn'.2.2.1
  omega

end

/-! ## Non-vacuity -/

theorem digitsNat_enc (n : Nat) : digitsNat (Json.encNat n) = n := by
  obtain ⟨⟨h1, h2⟩, h3⟩ := Json.nat_digits n
  have key : ∀ (t : Bytes) (a : Nat), (∀ b ∈ t, 48 ≤ b.toNat ∧ b.toNat ≤ 57) →
      t.foldl (fun a b => 10 * a + (b.toNat - 48)) a = t.foldl (fun a b => 10 * a + (digitVal b).getD 0) a := by
    intro t
    induction t with
    | nil => intro a _; rfl
    | cons b t ih =>
      intro a hb
      rw [List.foldl_cons, List.foldl_cons, ih _ fun x hx => hb x (by simp [hx]), digitVal, if_pos (hb b (by simp))]
      rfl
  exact (key _ 0 h2).trans (Json.nat_numeral n).2.2.1

/-- every float64 can be written -/
theorem is64_number {x : ℝ} (h : Is64 x) : ∃ t, NumberIs t x := by
  obtain ⟨k, e, _, _, rfl⟩ := h
  have hs : ((if (if k < 0 then [(45 : UInt8)] else []) = [45] then -1 else 1 : ℝ)) * (k.natAbs : ℝ) = (k : ℝ) := by
    by_cases hk : k < 0
    · rw [if_pos hk, if_pos rfl]
      have : ((k.natAbs : ℤ) : ℝ) = ((-k : ℤ) : ℝ) := by congr 1; omega
      rw [Int.cast_natCast] at this
      rw [this]; push_cast; ring
    · rw [if_neg hk, if_neg (by simp)]
      have : ((k.natAbs : ℤ) : ℝ) = ((k : ℤ) : ℝ) := by congr 1; omega
      rw [Int.cast_natCast] at this
      rw [this]; ring
  by_cases he : 0 ≤ e
  · obtain ⟨j, rfl⟩ := Int.eq_ofNat_of_zero_le he
    refine ⟨_, if k < 0 then [45] else [], Json.encNat (k.natAbs * 2 ^ j), [], [], 0, [], rfl, ?_, (Json.nat_digits _).1, (Json.nat_digits _).2, .inl ⟨rfl, rfl⟩, .inl ⟨rfl, rfl⟩, ?_⟩
    · split <;> simp
    · rw [List.append_nil, digitsNat_enc]
      push_cast
      rw [← mul_assoc, hs]
      simp
  · obtain ⟨j, hj⟩ : ∃ j : ℕ, e = -(j : ℤ) := ⟨e.natAbs, by omega⟩
    subst hj
    refine ⟨_, if k < 0 then [45] else [], Json.encNat (k.natAbs * 5 ^ j), [], 101 :: ([45] ++ Json.encNat j), -(j : ℤ), [], rfl, ?_, (Json.nat_digits _).1, (Json.nat_digits _).2,
      .inl ⟨rfl, rfl⟩, .inr ⟨101, [45], Json.encNat j, rfl, .inl rfl, .inr (.inr rfl), (Json.nat_digits _).1, by rw [if_pos rfl, digitsNat_enc]⟩, ?_⟩
    · split <;> simp
    · rw [List.append_nil, digitsNat_enc]
      push_cast
      rw [← mul_assoc, hs]
      simp only [List.length_nil, Nat.cast_zero, sub_zero, zpow_neg, zpow_natCast]
      rw [show (10 : ℝ) = 5 * 2 by norm_num, mul_pow]
      field_simp

theorem is64_round {x : ℝ} (h : Is64 x) (hb : |x| < 2 ^ 1024) : Fl.round x = some x := by
  obtain ⟨k, e, hk, he, rfl⟩ := h
  by_cases h1 : |k| < 2 ^ 53
  · exact round_exact k e h1 he hb
  · have h2 : |k| = 2 ^ 53 := by omega
    obtain ⟨k', rfl⟩ : ∃ k', k = 2 * k' := by
      rcases abs_eq (by norm_num : (0 : ℤ) ≤ 2 ^ 53) |>.mp h2 with h | h
      · exact ⟨2 ^ 52, by rw [h]; norm_num⟩
      · exact ⟨-2 ^ 52, by rw [h]; norm_num⟩
    have e1 : (((2 * k' : ℤ)) : ℝ) * 2 ^ e = (k' : ℝ) * 2 ^ (e + 1) := by
      rw [zpow_add₀ (by norm_num), zpow_one]; push_cast; ring
    rw [e1] at hb ⊢
    refine round_exact k' (e + 1) ?_ (by omega) hb
    rw [abs_mul] at h2
    norm_num at h2
    omega

open Classical in
/-- some way to write float64s -/
noncomputable def exWrite (x : ℝ) : Bytes := if h : ∃ t, NumberIs t x then h.choose else []

theorem exWrite_ok : WritesFloats exWrite := by
  intro x hx hb
  have h := is64_number hx
  refine ⟨x, ?_, is64_round hx hb⟩
  unfold exWrite
  rw [dif_pos h]
  exact h.choose_spec

/-- `dupi -r=x inspect -json` -/
theorem C71_nonvacuous : ∃ d, Steps asciiUni Json.codec mergeSorter Disk.empty exCmdOps d ∧ ∃ t ms n,
    inspectRun exFloat exJoin exWrite Json.codec mergeSorter false d exProc [[45, 114, 61, 120], Verb.inspect.name, [45] ++ jsonB] = some (.ok (t, false)) ∧
      IsJson (.obj ms) t ∧ ("NumDocs".toList, JVal.num n) ∈ ms ∧ Numeral 10 3 n := by
  obtain ⟨d, hd⟩ := exCmd_disk
  refine ⟨d, hd, ?_⟩
  obtain ⟨t, cs, nodes, t1, t2, t3, t4, t5, t6, m, s, q5, q6, e, j, _, hn, _⟩ := C71_inspect_partial mergeSorter_isSorter exFloat exJoin exCmd_made hd exCmd_root
    (.plain (by simp)) exProc exCmd_cat exCmd_fits exWrite_ok false (l := []) (opts := [⟨jsonB, Flag.trueB, .bare, false⟩]) (by simp [Switch, switches]) rfl
  rw [exCmd_docs] at hn
  exact ⟨t, _, t1, e, j, by simp, hn⟩

end Dupi.Props
