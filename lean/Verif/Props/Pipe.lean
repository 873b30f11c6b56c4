import Verif.Model.Pipe
import Verif.Props.Commands
/-! # C91: `dupi extract -b | xargs dupi unblot` prints the passages that documents have in common -/

namespace Dupi.Props
open Spec Cmd Disk

/-! ## The words -/

theorem xargsWords_append (x : Bytes) (hx : ∀ b ∈ x, isBlank b = false) (w l : Bytes) : xargsWords w (x ++ l) = xargsWords (x.reverse ++ w) l := by
  induction x generalizing w with
  | nil => rfl
  | cons b x ih =>
    rw [List.cons_append, xargsWords, hx b List.mem_cons_self]
    simp only [Bool.false_eq_true, if_false]
    rw [ih (fun a ha => hx a (List.mem_cons_of_mem _ ha)), List.reverse_cons, List.append_assoc]
    rfl

theorem xargsWords_lines (ws : List Bytes) (h : ∀ w ∈ ws, w ≠ [] ∧ ∀ b ∈ w, isBlank b = false) : xargsWords [] (ws.flatMap fun w => w ++ [10]) = ws := by
  induction ws with
  | nil => rfl
  | cons w ws ih =>
    obtain ⟨h1, h2⟩ := h w List.mem_cons_self
    rw [List.flatMap_cons, List.append_assoc, xargsWords_append w h2, List.append_nil, List.cons_append, List.nil_append, xargsWords,
      if_pos (by decide), if_neg (by simpa using h1), List.reverse_reverse, ih fun w hw => h w (List.mem_cons_of_mem _ hw)]

theorem hex_plain (b : UInt32) : hex b ≠ [] ∧ (∀ a ∈ hex b, isBlank a = false) ∧ (hex b).head? ≠ some 45 := by
  obtain ⟨h1, h2, _⟩ := hex_numeral b
  refine ⟨h1, fun a ha => ?_, fun e => ?_⟩
  · obtain ⟨v, _, hv⟩ := h2 a ha
    unfold isBlank
    rw [Bool.or_eq_false_iff, Bool.or_eq_false_iff, beq_eq_false_iff_ne, beq_eq_false_iff_ne, beq_eq_false_iff_ne]
    refine ⟨⟨?_, ?_⟩, ?_⟩ <;> rintro rfl <;> simp [digitVal] at hv
  · obtain ⟨v, _, hv⟩ := h2 45 (List.mem_of_mem_head? e)
    simp [digitVal] at hv

theorem words_extractBlots (out : List Blot) : xargsWords [] (extractBlots out) = out.map fun b => hex b.blot := by
  have e : extractBlots out = (out.map fun b => hex b.blot).flatMap fun w => w ++ [10] := by unfold extractBlots; rw [List.flatMap_map]
  rw [e]
  refine xargsWords_lines _ fun w hw => ?_
  obtain ⟨b, _, rfl⟩ := List.mem_map.mp hw
  exact ⟨(hex_plain _).1, (hex_plain _).2.1⟩

/-- words in batches are the blots in batches -/
theorem split_map {α β : Type} (f : α → β) : ∀ (bss : List (List β)) (l : List α), bss.flatten = l.map f → ∃ lss : List (List α), lss.flatten = l ∧ bss = lss.map (List.map f) := by
  intro bss
  induction bss with
  | nil => intro l h; exact ⟨[], by simpa using h, rfl⟩
  | cons b bss ih =>
    intro l h
    rw [List.flatten_cons] at h
    obtain ⟨l1, l2, rfl, h1, h2⟩ := List.map_eq_append_iff.mp h.symm
    obtain ⟨lss, k1, k2⟩ := ih l2 h2.symm
    exact ⟨l1 :: lss, by rw [List.flatten_cons, k1], by rw [k2, ← h1]; rfl⟩

/-! ## The runs -/

section
variable {u : Uni} {J : CfgCodec} {srt : Sorter} (hsrt : IsSorter srt) {F : Type} (S : Strconv F) (join : Bytes → Bytes → Bytes)
  {ops : List Disk.Op} {d : Disk} (hm : ∀ op ∈ ops, Made J op) (hs : Steps u J srt Disk.empty ops d)
  {gopts opts : List Opt} (hg : RootOpts gopts) (p : Proc)
  {c : Config} {h : Sessions} (hc : catalogue ops (Spec.place p.cwd (promised join p.env gopts)) = some (c, h)) (hf : Fits u c (documents h))
  (hsm : c.numShards < 65536) {fs : Files} (hun : Unchanged fs (documents h)) {skip : Bytes → Option Bytes} (hk : Skips skip)
  (grow : Nat → Nat) {fuel : Nat} (hfuel : (documents h).length < fuel)
include hsrt hm hs hg hc hf hsm hun hk hfuel

theorem unblot_words {ord : Nat → Groups → Groups} (hord : ∀ i m, (ord i m).Perm m) (ho : ∀ o ∈ opts, Switch (switches .unblot) o) (bs : List UInt32) (hb : ∀ b ∈ bs, b.toNat < numBuckets c) :
    ∃ gs, List.Forall₂ (GroupsOf u c (documents h) (isOn opts allB)) bs gs ∧
      unblotRun S join J srt u skip grow fuel ord d fs p (gopts.flatMap Opt.args ++ Verb.unblot.name :: (opts.flatMap Opt.args ++ bs.map hex)) =
        some (.ok (gs.flatMap (groupLines (digits 8)), false)) := by
  have h1 := C52_open hm hs p.cwd (promised join p.env gopts)
  rw [hc] at h1
  obtain ⟨x, q, h2, h3, _⟩ := h1 hsrt hf
  obtain ⟨_, _, _, hU, _⟩ := (Steps.shows hm hs).held hc
  have hbt : List.Forall₂ (fun b t => Numeral 16 b.toNat t ∧ b.toNat < numBuckets c) bs (bs.map hex) := by
    clear hc
    induction bs with
    | nil => exact .nil
    | cons b bs ih => exact .cons ⟨hex_numeral b, hb b List.mem_cons_self⟩ (ih fun b h => hb b (List.mem_cons_of_mem _ h))
  obtain ⟨gs, g1, g2⟩ := unblotArgs_spec hU hsrt h3 hf hsm hun hk grow hfuel hord (isOn opts allB) hbt [] 0
  refine ⟨gs, g1, ?_⟩
  have hl : Rest (bs.map hex) (bs.map hex) := .plain (by
    intro w hw
    cases bs with
    | nil => cases hw
    | cons b bs => cases hw; exact .inl (hex_plain b).2.2)
  unfold unblotRun
  rw [start_opts S join .unblot p.env hg ho hl]
  simp only [Option.map_some, lastBool_isOn, h2, opened, h3.start, bind, Except.bind]
  rw [List.append_nil] at g2
  exact congrArg some (g2.trans (by simp [unblotArgs, Except.map]))

theorem xargs_unblot (ord : Nat → Nat → Groups → Groups) (hord : ∀ j i m, (ord j i m).Perm m) (ho : ∀ o ∈ opts, Switch (switches .unblot) o) : ∀ (bss : List (List UInt32)) (n : Nat),
    (∀ b ∈ bss.flatten, b.toNat < numBuckets c) → ∃ gs, List.Forall₂ (GroupsOf u c (documents h) (isOn opts allB)) bss.flatten gs ∧
      xargs (fun j ws => unblotRun S join J srt u skip grow fuel (ord j) d fs p (gopts.flatMap Opt.args ++ Verb.unblot.name :: (opts.flatMap Opt.args ++ ws))) n (bss.map (List.map hex)) =
        some (.ok (gs.flatMap (groupLines (digits 8)), false)) := by
  intro bss
  induction bss with
  | nil => intro n _; exact ⟨[], .nil, rfl⟩
  | cons bs bss ih =>
    intro n hb
    rw [List.flatten_cons] at hb ⊢
    obtain ⟨g1, k1, k2⟩ := unblot_words hsrt S join hm hs hg p hc hf hsm hun hk grow hfuel (hord n) ho bs (fun b h => hb b (List.mem_append_left _ h))
    obtain ⟨g2, k3, k4⟩ := ih (n + 1) (fun b h => hb b (List.mem_append_right _ h))
    refine ⟨g1 ++ g2, List.rel_append k1 k3, ?_⟩
    rw [List.map_cons, xargs]
    simp only [k2, k4, List.flatMap_append, Bool.or_self]

end

section
variable {u : Uni} {J : CfgCodec} {srt : Sorter} (hsrt : IsSorter srt) (S : Strconv ℝ) (join : Bytes → Bytes → Bytes) (fused fused' : Bool)
  {ff fuel k : Nat} (hff : 2 ^ 32 ≤ ff) (hfuel : 2 ^ 32 + 2 ^ 32 + 2 ^ 32 < fuel) (hk : 2 ^ 32 < k)
  {ops : List Disk.Op} {d : Disk} (hm : ∀ op ∈ ops, Made J op) (hs : Steps u J srt Disk.empty ops d)
  {gopts eopts opts : List Opt} (hg : RootOpts gopts) (he : ∀ o ∈ eopts, ExtractOpt S o) (hj : isOn eopts jsonB = false) (hbo : isOn eopts [98] = true)
  (ho : ∀ o ∈ opts, Switch (switches .unblot) o) (p : Proc)
  {c : Config} {h : Sessions} (hc : catalogue ops (Spec.place p.cwd (promised join p.env gopts)) = some (c, h)) (hf : Fits u c (documents h))
  (hsm : c.numShards < 65536) {fs : Files} (hun : Unchanged fs (documents h)) {skip : Bytes → Option Bytes} (hkp : Skips skip)
  (grow : Nat → Nat) {fuel' : Nat} (hfuel' : (documents h).length < fuel')
include hsrt hff hfuel hk hm hs hg he hj hbo ho hc hf hsm hun hkp hfuel'

/-- **C91.**  After any operations on a disk, if the files still contain the documents: `dupi [-r ROOT] extract -b [options]` succeeds, and if what it
prints is given by xargs, in whatever portions, to `dupi [-r ROOT] unblot [-all]`, every run succeeds, and together they print for each of the blots,
the most frequent first, its groups of documents. -/
theorem C91_pipe (hσ : |sigmaOf S eopts| ≤ 2 ^ 20) :
    ∃ text out, extractRun S join J srt fused fused' grow ff fuel k d p (gopts.flatMap Opt.args ++ Verb.extract.name :: eopts.flatMap Opt.args) = some (.ok text) ∧
      Prints u c (documents h) (sigmaOf S eopts) out ∧ xargsWords [] text = out.map (fun b => hex b.blot) ∧
      ∀ (wss : List (List Bytes)) (ord : Nat → Nat → Groups → Groups), wss.flatten = xargsWords [] text → (∀ j i m, (ord j i m).Perm m) →
        ∃ gs, List.Forall₂ (GroupsOf u c (documents h) (isOn opts allB)) (out.map Blot.blot) gs ∧
          xargs (fun j ws => unblotRun S join J srt u skip grow fuel' (ord j) d fs p (gopts.flatMap Opt.args ++ Verb.unblot.name :: (opts.flatMap Opt.args ++ ws))) 0 wss =
            some (.ok (gs.flatMap (groupLines (digits 8)), false)) := by
  obtain ⟨out, h1, h2⟩ := C63_extract hsrt S join fused fused' grow hff hfuel hk hm hs hg he hj (l := []) (rest := []) (.plain (by simp)) p hc hf hσ
  rw [hbo, List.append_nil] at h1
  refine ⟨extractBlots out, out, h1, h2, words_extractBlots out, fun wss ord hw hord => ?_⟩
  rw [words_extractBlots, ← Function.comp_def hex Blot.blot, ← List.map_map] at hw
  obtain ⟨bss, k1, k2⟩ := split_map hex wss (out.map Blot.blot) hw
  obtain ⟨gs, g1, g2⟩ := xargs_unblot hsrt S join hm hs hg p hc hf hsm hun hkp grow hfuel' ord hord ho bss 0 (by
    intro b hb
    rw [k1] at hb
    obtain ⟨x, hx, rfl⟩ := List.mem_map.mp hb
    exact (h2.sound x hx).1)
  rw [k1] at g1
  exact ⟨gs, g1, by rw [k2]; exact g2⟩

end

/-! ## The texts -/

theorem forall2_mem {α β : Type} {R : α → β → Prop} {l : List α} {m : List β} (h : List.Forall₂ R l m) : (∀ a ∈ l, ∃ b ∈ m, R a b) ∧ ∀ b ∈ m, ∃ a ∈ l, R a b := by
  induction h with
  | nil => exact ⟨fun _ h => absurd h List.not_mem_nil, fun _ h => absurd h List.not_mem_nil⟩
  | cons k1 _ ih =>
    refine ⟨fun a ha => ?_, fun b hb => ?_⟩
    · rcases List.mem_cons.mp ha with rfl | ha
      · exact ⟨_, List.mem_cons_self, k1⟩
      · obtain ⟨b, l1, l2⟩ := ih.1 a ha; exact ⟨b, List.mem_cons_of_mem _ l1, l2⟩
    · rcases List.mem_cons.mp hb with rfl | hb
      · exact ⟨_, List.mem_cons_self, k1⟩
      · obtain ⟨a, l1, l2⟩ := ih.2 b hb; exact ⟨a, List.mem_cons_of_mem _ l1, l2⟩

/-- the text is one of the passages of the document, and no passage of the document before it is in the same bucket -/
def FirstWith (u : Uni) (c : Config) (w dat : Bytes) : Prop :=
  ∃ i r, passage u c dat i = some r ∧ textAt dat r = w ∧ ∀ i', i' < i → bucketAt u c dat i' ≠ bucketAt u c dat i

/-- the same for a given bucket -/
def FirstAt (u : Uni) (c : Config) (b : Nat) (w dat : Bytes) : Prop :=
  ∃ i r, passage u c dat i = some r ∧ textAt dat r = w ∧ bucketAt u c dat i = some b ∧ ∀ i', i' < i → bucketAt u c dat i' ≠ some b

theorem first_iff {u : Uni} {c : Config} (hcons : Consistent c) {b : UInt32} (hb : b.toNat < numBuckets c) (w dat : Bytes) :
    (hasBlot u c dat b.toNat = true ∧ firstText u c b dat = w) ↔ FirstAt u c b.toNat w dat := by
  have hget : ∀ i, bucketAt u c dat i = some b.toNat ↔ ∃ x, (blotsOf u c dat)[i]? = some x ∧ x.toNat % numBuckets c = b.toNat := by
    intro i; unfold bucketAt; rw [Option.map_eq_some_iff]
  constructor
  · rintro ⟨h1, h2⟩
    cases hi : (blotsOf u c dat).findIdx? fun x => x.toNat % numBuckets c = b.toNat with
    | none =>
      rw [List.findIdx?_eq_none_iff] at hi
      simp only [hasBlot, List.any_eq_true, decide_eq_true_eq] at h1
      obtain ⟨x, hx, he⟩ := h1
      have := hi x hx
      rw [show c.numShards.toNat * 65536 = numBuckets c from rfl, Nat.mod_eq_of_lt hb] at he
      simp [he] at this
    | some i =>
      obtain ⟨hlt, h3, h4⟩ := List.findIdx?_eq_some_iff_getElem.mp hi
      obtain ⟨r, hr⟩ := Option.isSome_iff_exists.mp ((passage_some hcons dat i).1.mp hlt)
      refine ⟨i, r, hr, ?_, (hget i).mpr ⟨_, List.getElem?_eq_getElem hlt, by simpa using h3⟩, fun i' hi' he => ?_⟩
      · rw [← h2, firstText, hi, Option.bind_some, hr]; rfl
      · obtain ⟨x, hx, hxb⟩ := (hget i').mp he
        obtain ⟨hlt', rfl⟩ := List.getElem?_eq_some_iff.mp hx
        have := h4 i' hi'
        simp [hxb] at this
  · rintro ⟨i, r, h1, h2, h3, h4⟩
    obtain ⟨x, hx, hxb⟩ := (hget i).mp h3
    obtain ⟨hlt, rfl⟩ := List.getElem?_eq_some_iff.mp hx
    have hi : (blotsOf u c dat).findIdx? (fun x => x.toNat % numBuckets c = b.toNat) = some i := by
      refine List.findIdx?_eq_some_iff_getElem.mpr ⟨hlt, by simpa using hxb, fun j hj => ?_⟩
      have := h4 j hj
      intro e
      exact this ((hget j).mpr ⟨_, List.getElem?_eq_getElem (by omega), by simpa using e⟩)
    refine ⟨?_, by rw [firstText, hi, Option.bind_some, h1]; exact h2⟩
    simp only [hasBlot, List.any_eq_true, decide_eq_true_eq]
    exact ⟨_, List.getElem_mem hlt, by rw [show c.numShards.toNat * 65536 = numBuckets c from rfl, hxb, Nat.mod_eq_of_lt hb]⟩

/-- the bucket of a passage is given by its text -/
theorem first_bucket {u : Uni} {c : Config} (hcons : Consistent c) {b : Nat} {w dat dat' : Bytes} (h1 : FirstAt u c b w dat) (h2 : FirstWith u c w dat') : FirstAt u c b w dat' := by
  obtain ⟨i, r, g1, g2, g3, _⟩ := h1
  obtain ⟨j, r', k1, k2, k3⟩ := h2
  have hj : j < (blotsOf u c dat').length := (passage_some hcons dat' j).1.mpr (by rw [k1]; rfl)
  have hi : i < (blotsOf u c dat).length := (passage_some hcons dat i).1.mpr (by rw [g1]; rfl)
  have e := same_text u c hcons dat dat' i j _ _ r r' (List.getElem?_eq_getElem hi) (List.getElem?_eq_getElem hj) g1 k1 (g2.trans k2.symm)
  have hb : bucketAt u c dat' j = some b := by
    unfold bucketAt at g3 ⊢
    rw [List.getElem?_eq_getElem hj, ← e, ← List.getElem?_eq_getElem hi]
    exact g3
  exact ⟨j, r', k1, k2, hb, fun i' hi' => by have := k3 i' hi'; rwa [hb] at this⟩

theorem FirstAt.with {u : Uni} {c : Config} {b : Nat} {w dat : Bytes} (h : FirstAt u c b w dat) : FirstWith u c w dat := by
  obtain ⟨i, r, g1, g2, g3, g4⟩ := h
  exact ⟨i, r, g1, g2, fun i' hi' => by rw [g3]; exact g4 i' hi'⟩

theorem FirstWith.at {u : Uni} {c : Config} (hcons : Consistent c) (hN : 0 < numBuckets c) {w dat : Bytes} (h : FirstWith u c w dat) :
    ∃ b : UInt32, b.toNat < numBuckets c ∧ FirstAt u c b.toNat w dat := by
  obtain ⟨i, r, g1, g2, g3⟩ := h
  have hi : i < (blotsOf u c dat).length := (passage_some hcons dat i).1.mpr (by rw [g1]; rfl)
  have hb : bucketAt u c dat i = some ((blotsOf u c dat)[i].toNat % numBuckets c) := by unfold bucketAt; rw [List.getElem?_eq_getElem hi]; rfl
  have hl : (blotsOf u c dat)[i].toNat % numBuckets c < 2 ^ 32 := Nat.lt_of_le_of_lt (Nat.mod_le _ _) (UInt32.toNat_lt _)
  refine ⟨UInt32.ofNat ((blotsOf u c dat)[i].toNat % numBuckets c), ?_, i, r, g1, g2, ?_, fun i' hi' => ?_⟩
  · rw [toNat_ofNat_lt hl]; exact Nat.mod_lt _ hN
  · rw [toNat_ofNat_lt hl]; exact hb
  · rw [toNat_ofNat_lt hl, ← hb]; exact g3 i' hi'

open Classical in
/-- **C91.**  With -sigma 0 and not more than 1.4 documents per bucket on average, the pipeline (without -all) prints exactly the texts which are, in at least two documents,
the first passage in their bucket: each such text once, with all these documents in order. -/
theorem C91_texts {u : Uni} {J : CfgCodec} {c : Config} (hU : Usable J c) {docs : List Document} {σ : ℝ} {out : List Blot} (hp : Prints u c docs σ out) (hσ : σ = 0)
    (havg : 5 * (bucketSizes u c docs).sum ≤ 7 * numBuckets c) {gs : List (List (Bytes × List Document))}
    (hgs : List.Forall₂ (GroupsOf u c docs false) (out.map Blot.blot) gs) :
    (gs.flatten.map Prod.fst).Nodup ∧
      ∀ w ds, (w, ds) ∈ gs.flatten ↔ ds = docs.filter (fun s => FirstWith u c w s.dat) ∧ 2 ≤ ds.length := by
  have hcons := hU.cons
  have hN : 0 < numBuckets c := by have := hU.shards; unfold numBuckets; omega
  have hfil : ∀ (b : UInt32), b.toNat < numBuckets c → ∀ w, (found u c docs b.toNat).filter (fun s => firstText u c b s.dat = w) = docs.filter fun s => FirstAt u c b.toNat w s.dat := by
    intro b hb w
    unfold found
    rw [List.filter_filter]
    refine List.filter_congr fun s _ => ?_
    rw [← Bool.decide_eq_true (b := hasBlot u c s.dat b.toNat), ← Bool.decide_and, decide_eq_decide, ← first_iff hcons hb]
    exact And.comm
  have hfil2 : ∀ (b : Nat) w s, s ∈ docs → FirstAt u c b w s.dat → docs.filter (fun s => FirstAt u c b w s.dat) = docs.filter fun s => FirstWith u c w s.dat := by
    intro b w s _ h
    refine List.filter_congr fun s' _ => ?_
    rw [decide_eq_decide]
    exact ⟨FirstAt.with, first_bucket hcons h⟩
  have hout : ∀ b ∈ out.map Blot.blot, b.toNat < numBuckets c := by
    intro b hb; obtain ⟨x, hx, rfl⟩ := List.mem_map.mp hb; exact (hp.sound x hx).1
  -- the members of a group
  have hmem : ∀ b g, b.toNat < numBuckets c → GroupsOf u c docs false b g → ∀ w ds, (w, ds) ∈ g ↔
      ds = docs.filter (fun s => FirstWith u c w s.dat) ∧ 2 ≤ ds.length ∧ ∀ s ∈ ds, FirstAt u c b.toNat w s.dat := by
    intro b g hb hg w ds
    rw [hg.mem, hfil b hb]
    constructor
    · rintro ⟨rfl, h2, h3⟩
      obtain ⟨s, hs⟩ := List.exists_mem_of_ne_nil _ h2
      obtain ⟨s1, s2⟩ := List.mem_filter.mp hs
      refine ⟨hfil2 _ _ s s1 (by simpa using s2), h3.resolve_left (by simp), fun s hs => by simpa using (List.mem_filter.mp hs).2⟩
    · rintro ⟨h1, h2, h3⟩
      have hne : ds ≠ [] := by rintro rfl; simp at h2
      obtain ⟨s, hs⟩ := List.exists_mem_of_ne_nil _ hne
      have hsd : s ∈ docs := by rw [h1] at hs; exact (List.mem_filter.mp hs).1
      exact ⟨h1.trans (hfil2 _ _ s hsd (h3 s hs)).symm, hne, .inr h2⟩
  constructor
  · have hnd := hp.nodup
    revert hnd hout
    generalize out.map Blot.blot = bs at hgs
    induction hgs with
    | nil => intro _ _; exact List.nodup_nil
    | @cons b g bs gs hg hgs' ih =>
      intro hout hnd
      rw [List.nodup_cons] at hnd
      rw [List.flatten_cons, List.map_append, List.nodup_append]
      refine ⟨hg.nodup, ih (fun b h => hout b (List.mem_cons_of_mem _ h)) hnd.2, ?_⟩
      rintro w hw w' hw' rfl
      obtain ⟨⟨_, ds⟩, h1, rfl⟩ := List.mem_map.mp hw
      obtain ⟨⟨w', ds'⟩, h2, h2'⟩ := List.mem_map.mp hw'
      simp only at h2'; subst h2'
      obtain ⟨g', hg', h2⟩ := List.mem_flatten.mp h2
      obtain ⟨b', hb', hgb⟩ : ∃ b' ∈ bs, GroupsOf u c docs false b' g' := (forall2_mem hgs').2 g' hg'
      obtain ⟨k1, k2, k3⟩ := (hmem b g (hout b List.mem_cons_self) hg _ _).mp h1
      obtain ⟨l1, l2, l3⟩ := (hmem b' g' (hout b' (List.mem_cons_of_mem _ hb')) hgb _ _).mp h2
      have hds : ds = ds' := k1.trans l1.symm
      subst hds
      obtain ⟨s, hs⟩ := List.exists_mem_of_ne_nil ds (by rintro rfl; simp at k2)
      obtain ⟨i, r, a1, a2, a3, a4⟩ := k3 s hs
      obtain ⟨j, r', b1, b2, b3, b4⟩ := l3 s hs
      have hj : j < (blotsOf u c s.dat).length := (passage_some hcons s.dat j).1.mpr (by rw [b1]; rfl)
      have hi : i < (blotsOf u c s.dat).length := (passage_some hcons s.dat i).1.mpr (by rw [a1]; rfl)
      have e := same_text u c hcons s.dat s.dat i j _ _ r r' (List.getElem?_eq_getElem hi) (List.getElem?_eq_getElem hj) a1 b1 (a2.trans b2.symm)
      have : b.toNat = b'.toNat := by
        unfold bucketAt at a3 b3
        rw [List.getElem?_eq_getElem hi, e, ← List.getElem?_eq_getElem hj, b3] at a3
        exact (Option.some.inj a3).symm
      exact hnd.1 (by rw [UInt32.toNat_inj.mp this]; exact hb')
  · intro w ds
    constructor
    · intro h
      obtain ⟨g, hg, h⟩ := List.mem_flatten.mp h
      obtain ⟨b, hb, hgb⟩ : ∃ b ∈ out.map Blot.blot, GroupsOf u c docs false b g := (forall2_mem hgs).2 g hg
      obtain ⟨k1, k2, _⟩ := (hmem b g (hout b hb) hgb _ _).mp h
      exact ⟨k1, k2⟩
    · rintro ⟨h1, h2⟩
      have hne : ds ≠ [] := by rintro rfl; simp at h2
      obtain ⟨s, hs⟩ := List.exists_mem_of_ne_nil _ hne
      rw [h1] at hs
      obtain ⟨s1, s2⟩ := List.mem_filter.mp hs
      obtain ⟨b, hb, hfa⟩ := FirstWith.at hcons hN (by simpa using s2)
      have hall : ∀ s ∈ ds, FirstAt u c b.toNat w s.dat := by
        intro s' hs'
        rw [h1] at hs'
        exact first_bucket hcons hfa (by simpa using (List.mem_filter.mp hs').2)
      have h2' : 2 ≤ (found u c docs b.toNat).length := by
        have e := hfil b hb w
        rw [hfil2 _ _ s s1 hfa, ← h1] at e
        have := List.length_filter_le (fun s : Document => decide (firstText u c b s.dat = w)) (found u c docs b.toNat)
        rw [e] at this
        omega
      have hin := hp.all hU hσ havg hb h2'
      obtain ⟨g, hg, hgb⟩ : ∃ g ∈ gs, GroupsOf u c docs false b g := (forall2_mem hgs).1 b hin
      exact List.mem_flatten.mpr ⟨g, hg, (hmem b g hb hgb _ _).mpr ⟨h1, h2, hall⟩⟩

/-- **C91.**  With any -sigma: what is printed as a text is the text of a passage of each of the documents named below it, of which there are at least two. -/
theorem C91_sound {u : Uni} {J : CfgCodec} {c : Config} (hU : Usable J c) {docs : List Document} {σ : ℝ} {out : List Blot} (hp : Prints u c docs σ out)
    {gs : List (List (Bytes × List Document))} (hgs : List.Forall₂ (GroupsOf u c docs false) (out.map Blot.blot) gs) {w : Bytes} {ds : List Document} (h : (w, ds) ∈ gs.flatten) :
    ds.Sublist docs ∧ 2 ≤ ds.length ∧ ∀ s ∈ ds, ∃ i r, passage u c s.dat i = some r ∧ textAt s.dat r = w := by
  obtain ⟨g, hg, h⟩ := List.mem_flatten.mp h
  obtain ⟨b, hb, hgb⟩ := (forall2_mem hgs).2 g hg
  obtain ⟨x, hx, rfl⟩ := List.mem_map.mp hb
  obtain ⟨rfl, _, h3⟩ := (hgb.mem w ds).mp h
  refine ⟨List.filter_sublist.trans List.filter_sublist, h3.resolve_left (by simp), fun s hs => ?_⟩
  obtain ⟨s1, s2⟩ := List.mem_filter.mp hs
  obtain ⟨i, r, k1, k2, _⟩ := (first_iff hU.cons (hp.sound x hx).1 w s.dat).mp ⟨(List.mem_filter.mp s1).2, by simpa using s2⟩
  exact ⟨i, r, k1, k2⟩

/-! ## It does not print all that documents have in common -/

/-- `-b -sigma 0` -/
def exPipeOpts : List Opt := [⟨[98], Flag.trueB, .bare, false⟩, ⟨sigmaB, [48], .apart, false⟩]

/-- "x a a a a a a a a a a z b b b b b b b b b b." -/
def exTwice1 : Bytes := ascii "x a a a a a a a a a a z b b b b b b b b b b."
/-- "w z b b b b b b b b b b." -/
def exTwice2 : Bytes := ascii "w z b b b b b b b b b b."

def exPipeFiles : Files := fun f => if f = [47, 116, 47, 112] then some exTwice1 else if f = [47, 116, 47, 113] then some exTwice2 else none

def exPipeSessions : Sessions := [([47], [⟨[116, 47, 112], 0, 44, some exTwice1⟩, ⟨[116, 47, 113], 0, 24, some exTwice2⟩])]

def exPipeOps : List Disk.Op := [.create [47] exCmdConfig [⟨[116, 47, 112], 0, 44, some exTwice1⟩, ⟨[116, 47, 113], 0, 24, some exTwice2⟩]]

theorem exPipe_docs : documents exPipeSessions = [⟨[47, 116, 47, 112], 0, 44, exTwice1⟩, ⟨[47, 116, 47, 113], 0, 24, exTwice2⟩] := by decide +kernel

theorem exPipe_fits : Fits asciiUni exCmdConfig (documents exPipeSessions) := by
  refine ⟨?_, ?_, ?_⟩ <;> rw [exPipe_docs]
  · decide
  · decide +kernel
  · decide +kernel

theorem exPipe_made : ∀ op ∈ exPipeOps, Made Json.codec op := by
  intro op h
  rw [exPipeOps, List.mem_singleton] at h
  subst h
  exact ⟨exCmd_usable, by decide +kernel⟩

theorem exPipe_disk : ∃ d, Steps asciiUni Json.codec mergeSorter Disk.empty exPipeOps d := by
  obtain ⟨x, g1, g2⟩ := create_rep (u := asciiUni) exCmd_usable
  obtain ⟨d1, hd1⟩ := Session.exists exCmd_usable g2 [47] [⟨[116, 47, 112], 0, 44, some exTwice1⟩, ⟨[116, 47, 113], 0, 24, some exTwice2⟩]
    (by have := exPipe_fits; simpa [documents, exPipeSessions] using this) (d := Dir.empty) (.inl rfl)
  exact ⟨_, Steps.snoc .nil (.create rfl g1 hd1)⟩

theorem exPipe_cat : catalogue exPipeOps (Spec.place exProc.cwd (promised exJoin exProc.env exCmdOpts)) = some (exCmdConfig, exPipeSessions) := by
  have h1 : Spec.place exProc.cwd (promised exJoin exProc.env exCmdOpts) = [[120]] := by decide +kernel
  have h2 : Spec.place [47] exCmdConfig.indexRoot = [[120]] := by decide +kernel
  simp only [h1, catalogue, exPipeOps, List.foldl_cons, List.foldl_nil, Catalogue.after, at_, h2, if_true]
  rfl

theorem exPipe_unchanged : Unchanged exPipeFiles (documents exPipeSessions) := by
  have : ∀ s ∈ documents exPipeSessions, ((exPipeFiles s.path).any fun f => decide (Covers s f)) = true ∧ s.dat.length < 2 ^ 32 := by
    decide +kernel
  intro s hs
  obtain ⟨h1, h2⟩ := this s hs
  cases hf : exPipeFiles s.path with
  | none => rw [hf] at h1; cases h1
  | some f => rw [hf] at h1; exact ⟨f, rfl, by simpa using h1, h2⟩

theorem exPipe_sigma : sigmaOf exFloat exPipeOpts = 0 := by simp [sigmaOf, valueOf, exFloat, exPipeOpts, sigmaB]

theorem few_buckets {docs : List Document} (h : numBlots asciiUni exCmdConfig docs ≤ 100000) : 5 * (bucketSizes asciiUni exCmdConfig docs).sum ≤ 7 * numBuckets exCmdConfig := by
  have := bucketSizes_sum_le asciiUni exCmdConfig docs
  have h2 : numBuckets exCmdConfig = 262144 := rfl
  rw [h2]; omega

/-- **C91, false as stated.**  Two documents contain "z b b b b b b b b b b" verbatim, and it is a passage of both, but with `-sigma 0` the pipeline prints nothing: the blots of
"x a a a a a a a a a a" and of this passage are the same, since words which occur twice cancel, and only the first passage of a document with a blot is considered. -/
theorem C91_false (grow : Nat → Nat) : ∃ d, Steps asciiUni Json.codec mergeSorter Disk.empty exPipeOps d ∧
    (∃ i j r r', passage asciiUni exCmdConfig exTwice1 i = some r ∧ passage asciiUni exCmdConfig exTwice2 j = some r' ∧
      textAt exTwice1 r = textAt exTwice2 r' ∧ textAt exTwice1 r = ascii "z b b b b b b b b b b") ∧
    ∃ text, extractRun exFloat exJoin Json.codec mergeSorter false false grow (2 ^ 32) (2 ^ 40) (2 ^ 33) d exProc (exCmdOpts.flatMap Opt.args ++ Verb.extract.name :: exPipeOpts.flatMap Opt.args) = some (.ok text) ∧
      text ≠ [] ∧
      ∀ (wss : List (List Bytes)) (ord : Nat → Nat → Groups → Groups), wss.flatten = xargsWords [] text → (∀ j i m, (ord j i m).Perm m) →
        xargs (fun j ws => unblotRun exFloat exJoin Json.codec mergeSorter asciiUni some grow 10 (ord j) d exPipeFiles exProc (exCmdOpts.flatMap Opt.args ++ Verb.unblot.name :: ws)) 0 wss =
          some (.ok ([], false)) := by
  obtain ⟨d, hd⟩ := exPipe_disk
  refine ⟨d, hd, ?_, ?_⟩
  · have h1 : ∃ i, i < 12 ∧ ∃ j, j < 2 ∧ ((passage asciiUni exCmdConfig exTwice1 i).map (textAt exTwice1)) = some (ascii "z b b b b b b b b b b") ∧
        ((passage asciiUni exCmdConfig exTwice2 j).map (textAt exTwice2)) = some (ascii "z b b b b b b b b b b") :=
      ⟨11, by decide, 1, by decide, by decide +kernel, by decide +kernel⟩
    obtain ⟨i, _, j, _, h2, h3⟩ := h1
    obtain ⟨r, r1, r2⟩ := Option.map_eq_some_iff.mp h2
    obtain ⟨r', r1', r2'⟩ := Option.map_eq_some_iff.mp h3
    exact ⟨i, j, r, r', r1, r1', r2.trans r2'.symm, r2⟩
  · obtain ⟨text, out, h1, h2, h4, h3⟩ := C91_pipe (opts := []) mergeSorter_isSorter exFloat exJoin false false (ff := 2 ^ 32) (fuel := 2 ^ 40) (k := 2 ^ 33) (by decide) (by decide) (by decide)
      exPipe_made hd exCmd_root (eopts := exPipeOpts) (by simp [exPipeOpts, ExtractOpt, exFloat]) rfl rfl (by simp) exProc exPipe_cat exPipe_fits (by decide) exPipe_unchanged
      (skip := some) (fun _ _ _ _ => rfl) grow (fuel' := 10) (by rw [exPipe_docs]; decide) (by rw [exPipe_sigma]; norm_num)
    have havg := few_buckets (docs := documents exPipeSessions) (by rw [exPipe_docs]; decide +kernel)
    refine ⟨text, h1, ?_, fun wss ord hw hord => ?_⟩
    · have h0 : (0 : UInt32) ∈ out.map Blot.blot := h2.all exCmd_usable exPipe_sigma havg (by decide) (by rw [exPipe_docs]; decide +kernel)
      rintro rfl
      have : out = [] := List.map_eq_nil_iff.mp (h4.symm.trans rfl)
      rw [this] at h0
      exact absurd h0 List.not_mem_nil
    · obtain ⟨gs, g1, g2⟩ := h3 wss ord hw hord
      refine g2.trans ?_
      obtain ⟨_, t2⟩ := C91_texts exCmd_usable h2 exPipe_sigma havg g1
      have hnil : gs.flatten = [] := by
        rw [List.eq_nil_iff_forall_not_mem]
        rintro ⟨w, ds⟩ hmem
        obtain ⟨k1, k2⟩ := (t2 w ds).mp hmem
        have hdec : ∀ i, i < 12 → ∀ j, j < 2 → ((passage asciiUni exCmdConfig exTwice1 i).map (textAt exTwice1)) = ((passage asciiUni exCmdConfig exTwice2 j).map (textAt exTwice2)) →
            (∃ i', i' < i ∧ bucketAt asciiUni exCmdConfig exTwice1 i' = bucketAt asciiUni exCmdConfig exTwice1 i) := by decide +kernel
        rw [exPipe_docs] at k1
        have hboth : FirstWith asciiUni exCmdConfig w exTwice1 ∧ FirstWith asciiUni exCmdConfig w exTwice2 := by
          rw [k1] at k2
          by_cases h1 : FirstWith asciiUni exCmdConfig w exTwice1 <;> by_cases h2 : FirstWith asciiUni exCmdConfig w exTwice2 <;> simp [List.filter, h1, h2] at k2 ⊢
        obtain ⟨⟨i, r, a1, a2, a3⟩, ⟨j, r', b1, b2, b3⟩⟩ := hboth
        have hi : i < 12 := by
          have e : (blotsOf asciiUni exCmdConfig exTwice1).length = 12 := by decide +kernel
          rw [← e]; exact (passage_some exCmd_usable.cons _ i).1.mpr (by rw [a1]; rfl)
        have hj : j < 2 := by
          have e : (blotsOf asciiUni exCmdConfig exTwice2).length = 2 := by decide +kernel
          rw [← e]; exact (passage_some exCmd_usable.cons _ j).1.mpr (by rw [b1]; rfl)
        obtain ⟨i', k3, k4⟩ := hdec i hi j hj (by rw [a1, b1, Option.map_some, Option.map_some, a2, b2])
        exact a3 i' k3 k4
      have : gs.flatMap (groupLines (digits 8)) = [] := by
        rw [List.flatMap_eq_nil_iff]
        intro g hg
        rw [List.flatten_eq_nil_iff.mp hnil g hg]; rfl
      rw [this]

/-! ## Non-vacuity -/

/-- with the texts "a b ... k." and "x A B ... K!" and `unblot -all`, both passages are printed -/
theorem C91_nonvacuous (grow : Nat → Nat) : ∃ d, Steps asciiUni Json.codec mergeSorter Disk.empty exCmdOps d ∧
    ∃ text, extractRun exFloat exJoin Json.codec mergeSorter false false grow (2 ^ 32) (2 ^ 40) (2 ^ 33) d exProc (exCmdOpts.flatMap Opt.args ++ Verb.extract.name :: exPipeOpts.flatMap Opt.args) = some (.ok text) ∧
      ∀ (wss : List (List Bytes)) (ord : Nat → Nat → Groups → Groups), wss.flatten = xargsWords [] text → (∀ j i m, (ord j i m).Perm m) →
        ∃ before after, xargs (fun j ws => unblotRun exFloat exJoin Json.codec mergeSorter asciiUni some grow 10 (ord j) d exCmdFiles exProc
            (exCmdOpts.flatMap Opt.args ++ Verb.unblot.name :: (([45] ++ allB) :: ws))) 0 wss =
          some (.ok (before ++ (ascii "text:\n'''\na b c d e f g h i j k'''\n\t/t/p 0:22\n") ++ after, false)) := by
  obtain ⟨d, hd⟩ := exCmd_disk
  refine ⟨d, hd, ?_⟩
  obtain ⟨text, out, h1, h2, h4, h3⟩ := C91_pipe (opts := [⟨allB, Flag.trueB, .bare, false⟩]) mergeSorter_isSorter exFloat exJoin false false (ff := 2 ^ 32) (fuel := 2 ^ 40) (k := 2 ^ 33) (by decide) (by decide) (by decide)
    exCmd_made hd exCmd_root (eopts := exPipeOpts) (by simp [exPipeOpts, ExtractOpt, exFloat]) rfl rfl (by simp [Switch, switches]) exProc exCmd_cat exCmd_fits (by decide) exCmd_unchanged
    (skip := some) (fun _ _ _ _ => rfl) grow (fuel' := 10) (by rw [exCmd_docs]; decide) (by rw [exPipe_sigma]; norm_num)
  refine ⟨text, h1, fun wss ord hw hord => ?_⟩
  obtain ⟨gs, g1, g2⟩ := h3 wss ord hw hord
  have havg := few_buckets (docs := documents exCmdSessions) (by rw [exCmd_docs]; decide +kernel)
  have hb : ((blotsOf asciiUni exCmdConfig exText1)[0]?.map fun x => UInt32.ofNat (x.toNat % numBuckets exCmdConfig)) = some ((blotsOf asciiUni exCmdConfig exText1).headD 0 % 262144) := by decide +kernel
  generalize hx : (blotsOf asciiUni exCmdConfig exText1).headD 0 % 262144 = b at hb
  have hlt : b.toNat < numBuckets exCmdConfig := by rw [← hx]; decide +kernel
  have h0 : b ∈ out.map Blot.blot := h2.all exCmd_usable exPipe_sigma havg hlt (by rw [exCmd_docs, ← hx]; decide +kernel)
  obtain ⟨g, hg, hgb⟩ := (forall2_mem g1).1 b h0
  have hm : (ascii "a b c d e f g h i j k", [(⟨[47, 116, 47, 112], 0, 22, exText1⟩ : Document)]) ∈ g := by
    refine (hgb.mem _ _).mpr ⟨?_, by simp, .inl rfl⟩
    rw [exCmd_docs, ← hx]; decide +kernel
  obtain ⟨A, B, rfl⟩ := List.append_of_mem hg
  obtain ⟨A', B', rfl⟩ := List.append_of_mem hm
  refine ⟨A.flatMap (groupLines (digits 8)) ++ groupLines (digits 8) A', groupLines (digits 8) B' ++ B.flatMap (groupLines (digits 8)), g2.trans ?_⟩
  have e : ascii "text:\n'''\na b c d e f g h i j k'''\n\t/t/p 0:22\n" = groupLines (digits 8) [(ascii "a b c d e f g h i j k", [(⟨[47, 116, 47, 112], 0, 22, exText1⟩ : Document)])] := by decide +kernel
  rw [e]
  simp [groupLines, List.flatMap_append]

end Dupi.Props
