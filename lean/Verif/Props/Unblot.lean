import Verif.Props.Query
import Verif.Props.Find
import Verif.Model.Cmd
/-! # The unblot command: C40 -/

namespace Dupi.Props
open Spec

theorem groups_lookup (m : Cmd.Groups) (k t : Bytes) (d : Doc) :
    (m.add k d).lookup t = if t = k then some ((m.lookup k).getD [] ++ [d]) else m.lookup t := by
  induction m with
  | nil =>
    by_cases h : t = k
    · simp [Cmd.Groups.add, h]
    · have : (t == k) = false := by simpa using h
      simp [Cmd.Groups.add, List.lookup_cons, h, this]
  | cons g m ih =>
    obtain ⟨k', ds⟩ := g
    unfold Cmd.Groups.add
    by_cases hk : k' = k
    · subst hk
      rw [if_pos rfl, List.lookup_cons, List.lookup_cons, List.lookup_cons]
      by_cases h : t = k'
      · subst h; simp
      · have : (t == k') = false := by simpa using h
        simp [this, h]
    · rw [if_neg hk, List.lookup_cons, ih, List.lookup_cons, List.lookup_cons]
      have hkk : (k == k') = false := by simpa using fun e => hk e.symm
      rw [hkk]
      by_cases h : t = k'
      · subst h; simp [hk]
      · have : (t == k') = false := by simpa using h
        rw [this]

theorem groups_keys (m : Cmd.Groups) (k : Bytes) (d : Doc) (h : (m.map Prod.fst).Nodup) :
    ((m.add k d).map Prod.fst).Nodup ∧ ∀ t ∈ (m.add k d).map Prod.fst, t = k ∨ t ∈ m.map Prod.fst := by
  induction m with
  | nil => simp [Cmd.Groups.add]
  | cons g m ih =>
    obtain ⟨k', ds⟩ := g
    obtain ⟨h1, h2⟩ := List.nodup_cons.mp h
    unfold Cmd.Groups.add
    by_cases hk : k' = k
    · rw [if_pos hk]
      exact ⟨h, fun t ht => .inr ht⟩
    · rw [if_neg hk]
      obtain ⟨i1, i2⟩ := ih h2
      refine ⟨List.nodup_cons.mpr ⟨fun hm => ?_, i1⟩, fun t ht => ?_⟩
      · rcases i2 _ hm with e | e
        · exact hk e
        · exact h1 e
      · rcases List.mem_cons.mp ht with rfl | ht
        · right; simp
        · rcases i2 t ht with e | e
          · exact .inl e
          · exact .inr (List.mem_cons_of_mem _ e)

/-- the first text in a document under the blot `b` -/
def firstText (u : Uni) (c : Config) (b : UInt32) (dat : Bytes) : Bytes :=
  ((((blotsOf u c dat).findIdx? fun x => x.toNat % numBuckets c = b.toNat).bind (passage u c dat)).map (textAt dat)).getD []

/-- how unblot shows a document: the end of a whole file is known after loading it -/
def Document.loaded (s : Document) : Doc :=
  ⟨s.path, s.start, if s.start = 0 ∧ s.stop = 0 then UInt32.ofNat s.dat.length else s.stop, none⟩

/-- the files contain the documents -/
def Unchanged (fs : Files) (docs : List Document) : Prop :=
  ∀ s ∈ docs, ∃ f, fs s.path = some f ∧ Covers s f ∧ s.dat.length < 2 ^ 32

theorem findBlot_shown {u : Uni} {fs : Files} {c : Config} (b : UInt32) {s : Document} {d : Doc} (hl : s.shown.load fs = .ok d) :
    Index.findBlot u fs c b s.shown = if d.dat.isSome then Index.findBlot u fs c b d else Index.findBlot u fs c b s.shown := by
  split
  · rename_i h
    obtain ⟨dat, hd⟩ := Option.isSome_iff_exists.mp h
    have h1 : s.shown.ensure fs = .ok d := hl
    have h2 : d.ensure fs = .ok d := by simp [Doc.ensure, hd]
    simp only [Index.findBlot, h1, h2, bind, Except.bind]
  · rfl

theorem unblotLoop_spec (u : Uni) (fs : Files) {c : Config} (hF : Findable c) (b : UInt32) (w : Nat) (ss : List Document)
    (hun : Unchanged fs ss) (hb : ∀ s ∈ ss, ∃ x ∈ blotsOf u c s.dat, x.toNat % numBuckets c = b.toNat) : ∀ m : Cmd.Groups,
    Cmd.unblotLoop u fs c b (ss.map Document.shown) m w = .ok (ss.foldl (fun m s => m.add (firstText u c b s.dat) (Document.loaded s)) m, w) := by
  induction ss with
  | nil => intro m; rfl
  | cons s ss ih =>
    intro m
    obtain ⟨f, hf, hcov, hlen⟩ := hun s (by simp)
    have hload := C34_load_partial fs s f hf hcov
    generalize hd : (⟨s.path, s.start, if s.start = 0 ∧ s.stop = 0 then UInt32.ofNat f.length else s.stop, some s.dat⟩ : Doc) = d at hload
    have hdd : d.dat = some s.dat := by rw [← hd]
    have hds : d.start = s.start := by rw [← hd]
    have hfb := findBlot_shown (u := u) (c := c) b hload
    rw [hdd] at hfb
    simp only [Option.isSome_some, if_true] at hfb
    have hfind := C27_find u fs hF b d s.dat hdd
    have hfirst : ∃ i, (blotsOf u c s.dat).findIdx? (fun x => x.toNat % numBuckets c = b.toNat) = some i := by
      obtain ⟨x, hx, hxb⟩ := hb s (by simp)
      have : ((blotsOf u c s.dat).findIdx? (fun x => x.toNat % numBuckets c = b.toNat)).isSome := by
        rw [List.findIdx?_isSome, List.any_eq_true]; exact ⟨x, hx, by simpa using hxb⟩
      exact Option.isSome_iff_exists.mp this
    obtain ⟨i, hi⟩ := hfirst
    rw [hi] at hfind
    obtain ⟨r, hp, hr⟩ := hfind
    obtain ⟨_, _, _, _, _, hle, hle'⟩ := (passage_some hF.cons s.dat i).2 r hp
    have hsub : ∀ n, n ≤ s.dat.length → (d.start + UInt32.ofNat n - d.start).toNat = n := by
      intro n hn
      rw [UInt32.add_comm, UInt32.add_sub_cancel, toNat_ofNat_lt (by omega)]
    have hsl : slice s.dat (d.start + UInt32.ofNat r.1 - d.start).toNat (d.start + UInt32.ofNat r.2 - d.start).toNat = .ok (firstText u c b s.dat) := by
      rw [hsub _ (by omega), hsub _ hle', slice, if_pos ⟨hle, hle'⟩, firstText, hi, Option.bind_some, hp]
      rfl
    have hshow : ({ d with dat := none } : Doc) = Document.loaded s := by
      rw [← hd]
      unfold Document.loaded
      unfold Covers at hcov
      by_cases h0 : s.start = 0 ∧ s.stop = 0
      · rw [if_pos h0] at hcov ⊢; rw [if_pos h0, hcov]
      · rw [if_neg h0, if_neg h0]
    rw [List.map_cons, List.foldl_cons, Cmd.unblotLoop, hfb, hr]
    simp only [hdd, Option.getD_some, hsl, bind, Except.bind, hshow]
    exact ih (fun s hs => hun s (by simp [hs])) (fun s hs => hb s (by simp [hs])) _

theorem groups_foldl (key : Document → Bytes) (val : Document → Doc) (ss : List Document) : ∀ m : Cmd.Groups, (m.map Prod.fst).Nodup →
    let r := ss.foldl (fun m s => m.add (key s) (val s)) m
    (r.map Prod.fst).Nodup ∧ ∀ t, r.lookup t = if ss.filter (fun s => key s = t) = [] then m.lookup t
      else some ((m.lookup t).getD [] ++ (ss.filter fun s => key s = t).map val) := by
  induction ss with
  | nil => intro m h; exact ⟨h, fun t => by simp⟩
  | cons s ss ih =>
    intro m h
    obtain ⟨i1, i2⟩ := ih (m.add (key s) (val s)) (groups_keys m _ _ h).1
    refine ⟨i1, fun t => ?_⟩
    rw [List.foldl_cons, i2 t, groups_lookup]
    by_cases hk : key s = t
    · subst hk
      rw [if_pos rfl, List.filter_cons_of_pos (by simp), if_neg (List.cons_ne_nil _ _)]
      by_cases he : ss.filter (fun x => key x = key s) = []
      · rw [if_pos he, he]; rfl
      · rw [if_neg he]; simp
    · have hk' : ¬ t = key s := fun e => hk e.symm
      simp only [if_neg hk']
      rw [List.filter_cons_of_neg (by simpa using hk)]

section
variable {u : Uni} {J : CfgCodec} {srt : Sorter} {c : Config} (hU : Usable J c) (hsrt : IsSorter srt)
include hU hsrt

/-- **C40.**  For every blot below the number of buckets, if the files still contain the documents, unblot gives no
warning and omits no document: the groups it makes are the texts under the blot, and the group of a text is all documents returned by
`Get` whose first passage with that blot has this text, in order.  (Of these it prints all, or those with at least two documents.) -/
theorem C40_unblot {h : Sessions} {x : Index} {q : QState} (hr : Reading u J srt c h x q) (hf : Fits u c (documents h))
    (hs : c.numShards < 65536) (fs : Files) (hun : Unchanged fs (documents h)) (grow : Nat → Nat) (b : UInt32) (hb : b.toNat < numBuckets c)
    (all : Bool) (fuel : Nat) (hfuel : (documents h).length < fuel) :
    ∃ m : Cmd.Groups, Cmd.unblot u fs grow x fuel q all b = .ok (m.filter (fun g => all || decide (2 ≤ g.2.length)), 0) ∧ (m.map Prod.fst).Nodup ∧
      ∀ t, m.lookup t = if (found u c (documents h) b.toNat).filter (fun s => firstText u c b s.dat = t) = [] then none
        else some (((found u c (documents h) b.toNat).filter fun s => firstText u c b s.dat = t).map Document.loaded) := by
  obtain ⟨r, g1, g2, g3⟩ := C21_get hU hsrt hr hf grow b fuel hfuel (q' := q) rfl
  obtain ⟨_, _, _, _, hcfg, _⟩ := hr.rep hU hsrt hf
  have hF : Findable c := ⟨hU.cons, hU.shards, hs⟩
  have hsub : ∀ s ∈ found u c (documents h) b.toNat, s ∈ documents h ∧ ∃ x ∈ blotsOf u c s.dat, x.toNat % numBuckets c = b.toNat := by
    intro s hs
    obtain ⟨m1, m2⟩ := List.mem_filter.mp hs
    refine ⟨m1, ?_⟩
    simp only [hasBlot, List.any_eq_true, decide_eq_true_eq] at m2
    obtain ⟨x, hx, he⟩ := m2
    refine ⟨x, hx, ?_⟩
    rw [numBuckets] at hb ⊢
    rw [he, Nat.mod_eq_of_lt hb]
  have hloop := unblotLoop_spec u fs hF b 0 (found u c (documents h) b.toNat) (fun s hs => hun s (hsub s hs).1) (fun s hs => (hsub s hs).2) []
  obtain ⟨k1, k2⟩ := groups_foldl (fun s => firstText u c b s.dat) Document.loaded (found u c (documents h) b.toNat) [] (by simp)
  refine ⟨_, ?_, k1, fun t => ?_⟩
  · simp only [Cmd.unblot, g1, bind, Except.bind, g3, hcfg, hloop, pure, Except.pure]
  · rw [k2 t]; simp

/-- A blot at or above the number of buckets is a different matter: `Get` reduces it, `FindBlot` does not, so that every document
causes a warning. -/
theorem C40_false_large {h : Sessions} {x : Index} {q : QState} (hr : Reading u J srt c h x q) (hf : Fits u c (documents h))
    (hs : c.numShards < 65536) (fs : Files) (hun : Unchanged fs (documents h)) (grow : Nat → Nat) (b : UInt32) (hb : numBuckets c ≤ b.toNat)
    (all : Bool) (fuel : Nat) (hfuel : (documents h).length < fuel) :
    Cmd.unblot u fs grow x fuel q all b = .ok ([], (found u c (documents h) b.toNat).length) := by
  obtain ⟨r, g1, g2, g3⟩ := C21_get hU hsrt hr hf grow b fuel hfuel (q' := q) rfl
  obtain ⟨_, _, _, _, hcfg, _⟩ := hr.rep hU hsrt hf
  have hF : Findable c := ⟨hU.cons, hU.shards, hs⟩
  have hN : 0 < numBuckets c := by
    have := hU.shards; unfold numBuckets; omega
  have hloop : ∀ (ss : List Document) (w : Nat), Unchanged fs ss →
      Cmd.unblotLoop u fs c b (ss.map Document.shown) [] w = .ok ([], w + ss.length) := by
    intro ss
    induction ss with
    | nil => intro w _; rfl
    | cons s ss ih =>
      intro w hun
      obtain ⟨f, hf, hcov, hlen⟩ := hun s (by simp)
      have hload := C34_load_partial fs s f hf hcov
      have hfb := findBlot_shown (u := u) (c := c) b hload
      simp only [Option.isSome_some, if_true] at hfb
      have hfind := C27_find u fs hF b ⟨s.path, s.start, if s.start = 0 ∧ s.stop = 0 then UInt32.ofNat f.length else s.stop, some s.dat⟩ s.dat rfl
      rw [show (blotsOf u c s.dat).findIdx? (fun x => x.toNat % numBuckets c = b.toNat) = none by
        rw [List.findIdx?_eq_none_iff]
        intro x _
        have := Nat.mod_lt x.toNat hN
        simp; omega] at hfind
      simp only at hfind
      rw [List.map_cons, Cmd.unblotLoop, hfb, hfind]
      simp only []
      rw [ih (w + 1) (fun s hs => hun s (by simp [hs])), List.length_cons]
      congr 2; omega
  have hsub : Unchanged fs (found u c (documents h) b.toNat) := fun s hs => hun s (List.mem_filter.mp hs).1
  simp only [Cmd.unblot, g1, bind, Except.bind, g3, hcfg, hloop _ 0 hsub, pure, Except.pure, Nat.zero_add, List.filter_nil]

end

/-- files that contain the documents of the example -/
def exFiles : Files := fun p =>
  if p = [47, 112] then some [97, 32, 98, 32, 99, 32, 100, 46]
  else if p = [47, 113] then some [0xff]
  else if p = [47, 119, 47, 112] then some ([46, 46, 46] ++ [120, 32, 65, 44, 32, 98, 32, 32, 67, 33] ++ [97])
  else none

instance (s : Document) (f : Bytes) : Decidable (Covers s f) := by unfold Covers; infer_instance

theorem exUnchanged : Unchanged exFiles (documents exHistory) := by
  have : ∀ s ∈ documents exHistory, ((exFiles s.path).any fun f => decide (Covers s f)) = true ∧ s.dat.length < 2 ^ 32 := by
    decide +kernel
  intro s hs
  obtain ⟨h1, h2⟩ := this s hs
  cases hf : exFiles s.path with
  | none => rw [hf] at h1; cases h1
  | some f => rw [hf] at h1; exact ⟨f, rfl, by simpa using h1, h2⟩

/-- in the example the two documents are in two groups, as the texts differ -/
example : (found asciiUni exQConfig (documents exHistory) ((fnv32 [99] ^^^ fnv32 [98]).toNat % numBuckets exQConfig)).map
    (fun s => firstText asciiUni exQConfig (UInt32.ofNat ((fnv32 [99] ^^^ fnv32 [98]).toNat % numBuckets exQConfig)) s.dat) =
    [[97, 32, 98, 32, 99], [65, 44, 32, 98, 32, 32, 67]] := by decide +kernel

end Dupi.Props
