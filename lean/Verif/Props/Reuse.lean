import Verif.Proof.ReuseAny
import Verif.Props.Sched
import Verif.Props.Query
/-! # C81: when the memory of a document may be reused -/

namespace Dupi.Props
open Spec Reuse

section
variable {u : Uni} {J : CfgCodec} {c : Config} (hU : Usable J c) {docs : List Document} {x : Indexer} {d : Dir} (hx : Opened u J c docs x d)
  (cwd : Bytes) (m : Mem) (prog : List Act) (hf : Fits u c (docs ++ added cwd (docsAt m prog)))

include hU hx hf

/-- **C81.**  If a program writes to a buffer only after as many further documents have been added as
there are shatterers, then no write goes to a buffer that is being read, in any execution. -/
theorem C81_race (hk : Keeps c.numShatters.toNat prog) {rs : List Front.Req} {front : Front}
    (hrs : x.front.adds cwd ((items prog).map fun i => i.doc []) = .ok (rs, front)) {s : Reuse.St}
    (hs : Reuse.Steps u x ⟨Reuse.start x (requests rs (items prog)), m, prog⟩ s) {b : Nat} {v : Bytes} {l : List Act} (hp : s.prog = .write b v :: l) :
    ¬ BeingRead s b c.numShatters.toNat := by
  obtain ⟨hr, _⟩ := hx.rep hU hf.left
  obtain ⟨front', g1, _⟩ := front_ok hr cwd m prog _ (dataAt_length m prog) hf
  rw [g1] at hrs; injection hrs with hrs; injection hrs with e1 e2; subst e1 e2
  rw [← hr.nw] at hk ⊢
  obtain ⟨pre, hsafe⟩ := Safe.steps hU hr cwd m prog hf hs (Safe.init m prog hk (small cwd m prog hf))
  rintro ⟨w, hw, did, e, h1, h2⟩
  have h3 := hsafe.reading hU hr cwd m prog hf hw h1
  have h4 := hsafe.keep
  rw [hp] at h4
  exact h4.1 (h2 ▸ h3)

/-- **C81.**  The index of such a program is the one of the documents as they were when they were
added; and there is one. -/
theorem C81_kept (hz : Sized m prog) (hk : Keeps c.numShatters.toNat prog) {d' : Dir} :
    Reuse.Session u J cwd x m prog d d' ↔ Indexer.Session u J cwd x (docsAt m prog) d d' := by
  obtain ⟨hr, hcfg⟩ := hx.rep hU hf.left
  rw [← hr.nw] at hk
  obtain ⟨front, g1, g2⟩ := front_ok hr cwd m prog _ (dataAt_length m prog) hf
  rw [← docsAt_eq] at g2
  have hinit := Safe.init (u := u) (x := x) m prog hk (small cwd m prog hf)
  have done : ∀ {t : Reuse.St}, t.core.client = .done → (t.core.map (useData docs.length (dataAt m prog))).client = .done := by
    intro t ht; simp only [Sched.St.map, ht]; rfl
  constructor
  · rintro ⟨h1, h2, h3, h4⟩
    rw [g1] at h1; injection h1 with h1; injection h1 with e1 e2; subst e1 e2
    obtain ⟨pre, hs⟩ := Safe.steps hU hr cwd m prog hf h2 hinit
    obtain ⟨k, hrun⟩ := hs.run
    exact .run g2 hrun (done h3) h4
  · intro h
    obtain ⟨t, h1, h2⟩ := hinit.finish hU hr cwd m prog hf hz _ (Nat.le_refl _)
    obtain ⟨pre, hs⟩ := Safe.steps hU hr cwd m prog hf h1 hinit
    obtain ⟨k, hrun⟩ := hs.run
    obtain ⟨front', g3, g4⟩ := Front.adds_rep cwd (docsAt m prog) hr.front hf.ids hf.paths
    rw [g2] at g3; injection g3 with g3; injection g3 with _ e2; subst e2
    obtain ⟨d1, k1, _⟩ := close_rep hU hr cwd _ hf hrun (done h2) g4 hcfg
    have := C20_schedule hU hx cwd _ hf h (.run g2 hrun (done h2) k1)
    subst this
    exact .run g1 h1 h2 k1

/-- **C81.**  Whatever the program writes and when: the index is the one of documents each of which has
data it had at some moment after its `Add`.  (Each document is read at one moment.) -/
theorem C81_any {d' : Dir} (h : Reuse.Session u J cwd x m prog d d') :
    ∃ dats : List Bytes, dats.length = (items prog).length ∧ (∀ k v, dats[k]? = some v → HasLater m prog k v) ∧
      Indexer.Session u J cwd x (List.zipWith Item.doc (items prog) dats) d d' := by
  obtain ⟨hr, hcfg⟩ := hx.rep hU hf.left
  obtain ⟨h1, h2, h3, h4⟩ := h
  rename_i rs front t
  obtain ⟨front', g1, _⟩ := front_ok hr cwd m prog _ (dataAt_length m prog) hf
  rw [g1] at h1; injection h1 with h1; injection h1 with e1 e2; subst e1 e2
  obtain ⟨pre, _, hall⟩ := any_steps (small cwd m prog hf) h2 rfl
  obtain ⟨dats, d1, _, d3, n, d4⟩ := hall (dataAt m prog) (dataAt_length m prog)
  obtain ⟨front2, g3, g4⟩ := front_ok hr cwd m prog dats d1 hf
  rw [g1] at g3; injection g3 with g3; injection g3 with _ e2; subst e2
  refine ⟨dats, d1, fun k v hk => ?_, .run g4 d4 ?_ h4⟩
  · rcases d3 k v hk with h | h
    · exact dataAt_later m prog h
    · exact h
  · simp only [Sched.St.map, h3]; rfl

end

section
variable {u : Uni} {J : CfgCodec} {c : Config} (hU : Usable J c) {docs : List Document} {x : Indexer} {d : Dir} (hx : Opened u J c docs x d)
  (cwd : Bytes) (m : Mem) (prog : List Act)

include hU hx

/-- **C81.**  With no more documents than shatterers there is an execution in which all the documents
are read after all the writes. -/
theorem C81_late (hz : Sized m prog) (hn : (items prog).length ≤ c.numShatters.toNat)
    (hf : Fits u c (docs ++ added cwd ((items prog).map fun i => i.doc (i.dat.read (memAfter m prog))))) :
    ∃ d', Reuse.Session u J cwd x m prog d d' ∧
      Indexer.Session u J cwd x ((items prog).map fun i => i.doc (i.dat.read (memAfter m prog))) d d' := by
  rw [← docsAt_addAll] at hf ⊢
  obtain ⟨hr, hcfg⟩ := hx.rep hU hf.left
  rw [← hr.nw] at hn
  obtain ⟨t, pre, h1, h2, h3⟩ := late hU hr cwd m prog hz hn hf
  obtain ⟨front, g1, g2⟩ := front_ok hr cwd _ _ _ (dataAt_length (memAfter m prog) (addAll (items prog))) hf
  rw [← docsAt_eq] at g2
  rw [items_addAll] at g1
  obtain ⟨k, hrun⟩ := h3.run
  obtain ⟨front', g3, g4⟩ := Front.adds_rep cwd (docsAt (memAfter m prog) (addAll (items prog))) hr.front hf.ids hf.paths
  rw [g2] at g3; injection g3 with g3; injection g3 with _ e2; subst e2
  have hdone : (t.core.map (useData docs.length (dataAt (memAfter m prog) (addAll (items prog))))).client = .done := by
    simp only [Sched.St.map, h2]; rfl
  obtain ⟨d1, k1, _⟩ := close_rep hU hr cwd _ hf hrun hdone g4 hcfg
  exact ⟨d1, .run g1 h1 h2 k1, .run g2 hrun hdone k1⟩

end

theorem Opened.history {u : Uni} {J : CfgCodec} {c : Config} {docs : List Document} {x : Indexer} {d d' : Dir} (hx : Opened u J c docs x d)
    {cwd : Bytes} {new : List Doc} (h : Indexer.Session u J cwd x new d d') : ∃ hs, History u J c hs d' ∧ documents hs = docs ++ added cwd new := by
  cases hx with
  | create h1 => exact ⟨_, .create h1 h, by simp [documents]⟩
  | append h1 h2 => exact ⟨_, .append h1 h2 h, documents_snoc _ _ _⟩

/-- sessions that end in the same directory added documents to be found under the same blots -/
theorem session_found {u : Uni} {J : CfgCodec} {c : Config} (hU : Usable J c) {docs : List Document} {x : Indexer} {d d' : Dir}
    (hx : Opened u J c docs x d) {cwd : Bytes} {new new' : List Doc} (hf : Fits u c (docs ++ added cwd new)) (hf' : Fits u c (docs ++ added cwd new'))
    (h : Indexer.Session u J cwd x new d d') (h' : Indexer.Session u J cwd x new' d d') (b : UInt32) :
    (found u c (added cwd new) b.toNat).length = (found u c (added cwd new') b.toNat).length := by
  obtain ⟨hs, g1, g2⟩ := hx.history h
  obtain ⟨hs', g1', g2'⟩ := hx.history h'
  rw [← g2] at hf
  rw [← g2'] at hf'
  obtain ⟨y, q, k1, k2⟩ := reading_exists hU mergeSorter_isSorter g1 hf
  obtain ⟨y', q', k1', k2'⟩ := reading_exists hU mergeSorter_isSorter g1' hf'
  have := k1.symm.trans k1'; injection this with this; subst this
  have := k2.start.symm.trans k2'.start; injection this with this; subst this
  obtain ⟨r, r1, _, r2⟩ := C21_get hU mergeSorter_isSorter k2 hf (fun n => n) b (max (documents hs).length (documents hs').length + 1) (by omega) rfl
  obtain ⟨r', r1', _, r2'⟩ := C21_get hU mergeSorter_isSorter k2' hf' (fun n => n) b (max (documents hs).length (documents hs').length + 1) (by omega) rfl
  rw [r1] at r1'; injection r1' with r1'; subst r1'
  rw [r2] at r2'
  have := congrArg List.length r2'
  rw [g2, g2'] at this
  simp only [found, List.filter_append, List.map_append, List.length_append, List.length_map] at this
  simp only [found]
  omega

/-- A program that uses `n` buffers in turn: it adds `n` documents and then writes `v` to the buffer of
the first one, for the next one. -/
def rotate (n : Nat) (len : Nat) (v : Bytes) : List Act :=
  addAll ((List.range n).map fun i => ⟨[], 0, UInt32.ofNat len, ⟨i, 0, len⟩⟩) ++ [.write 0 v]

theorem keepsFrom_addAll {n : Nat} {l : List Act} : ∀ (its : List Item) (h : List Nat),
    KeepsFrom n ((its.map fun i => i.dat.buf).reverse ++ h) l → KeepsFrom n h (addAll its ++ l) := by
  intro its
  induction its with
  | nil => intro h hk; exact hk
  | cons i its ih =>
    intro h hk
    refine ih (i.dat.buf :: h) ?_
    simpa using hk

/-- it waits until `n - 1` further documents have been added -/
theorem rotate_keeps (n len : Nat) (v : Bytes) : Keeps n (rotate (n + 1) len v) := by
  apply keepsFrom_addAll
  refine ⟨?_, trivial⟩
  rw [List.map_map, List.append_nil]
  intro h
  rw [List.mem_iff_getElem?] at h
  obtain ⟨k, hk⟩ := h
  rw [List.getElem?_take] at hk
  split at hk
  · rename_i hkn
    rw [List.getElem?_reverse (by simp; omega), List.getElem?_map] at hk
    simp only [List.length_map, List.length_range] at hk
    rw [List.getElem?_range (by omega)] at hk
    simp only [Option.map_some, Function.comp, Option.some.injEq] at hk
    omega
  · cases hk

/-- **C81.**  False if the memory is reused earlier.  Take any configuration, any open indexer, any two
texts of the same length of which one has a blot the other does not have, and a program that uses as
many buffers in turn as there are shatterers (one if there is one shatterer).  In some execution the index that
results is not one of the documents as they were when they were added. -/
theorem C81_false {u : Uni} {J : CfgCodec} {c : Config} (hU : Usable J c) {docs : List Document} {x : Indexer} {d : Dir} (hx : Opened u J c docs x d)
    (cwd : Bytes) {n : Nat} (hn : c.numShatters.toNat = n + 1) {w v : Bytes} (hl : v.length = w.length) {b : UInt32}
    (hv : hasBlot u c v b.toNat = true) (hw : hasBlot u c w b.toNat = false)
    (hf : Fits u c (docs ++ added cwd (docsAt (fun _ => w) (rotate (n + 1) w.length v))))
    (hf' : Fits u c (docs ++ added cwd (docsAt (fun i => if i = 0 then v else w) (rotate (n + 1) w.length v)))) :
    Keeps n (rotate (n + 1) w.length v) ∧ Sized (fun _ => w) (rotate (n + 1) w.length v) ∧
    ∃ d', Reuse.Session u J cwd x (fun _ => w) (rotate (n + 1) w.length v) d d' ∧
      ¬ Indexer.Session u J cwd x (docsAt (fun _ => w) (rotate (n + 1) w.length v)) d d' := by
  have hsz : ∀ (its : List Item) (m : Mem) (l : List Act), Sized m (addAll its ++ l) ↔ Sized m l := by
    intro its m l
    induction its with
    | nil => exact Iff.rfl
    | cons i its ih => exact ih
  have hsized : Sized (fun _ => w) (rotate (n + 1) w.length v) := (hsz _ _ _).mpr ⟨hl, trivial⟩
  refine ⟨rotate_keeps _ _ _, hsized, ?_⟩
  have hit : items (rotate (n + 1) w.length v) = (List.range (n + 1)).map fun i => (⟨[], 0, UInt32.ofNat w.length, ⟨i, 0, w.length⟩⟩ : Item) := by
    rw [rotate, items_append, items_addAll]; simp [items]
  have hmem : memAfter (fun _ => w) (rotate (n + 1) w.length v) = fun i => if i = 0 then v else w := by
    rw [rotate, memAfter_append, memAfter_addAll]; rfl
  have hdoc : ∀ mm : Mem, docsAt mm (rotate (n + 1) w.length v) =
      (items (rotate (n + 1) w.length v)).map fun i => i.doc (i.dat.read mm) := by
    intro mm
    rw [hit, rotate, docsAt_append, docsAt_addAll]; simp [docsAt]
  obtain ⟨d', h1, h2⟩ := C81_late hU hx cwd (fun _ => w) (rotate (n + 1) w.length v) hsized (by rw [hit]; simp [hn])
    (by rw [hmem, ← hdoc]; exact hf')
  rw [hmem, ← hdoc] at h2
  refine ⟨d', h1, fun h3 => ?_⟩
  have := session_found hU hx hf' hf h2 h3 b
  have none : ∀ i, (Slice.mk i 0 w.length).read (fun _ => w) = w := by intro i; simp [Slice.read]
  have fst : (Slice.mk 0 0 w.length).read (fun i => if i = 0 then v else w) = v := by simp [Slice.read, ← hl]
  have h0 : found u c (added cwd (docsAt (fun _ => w) (rotate (n + 1) w.length v))) b.toNat = [] := by
    rw [found, List.filter_eq_nil_iff]
    intro s hs
    rw [hdoc, hit, List.map_map, added, List.map_map, List.mem_map] at hs
    obtain ⟨i, _, rfl⟩ := hs
    simp [Item.doc, none, hw]
  have h4 : found u c (added cwd (docsAt (fun i => if i = 0 then v else w) (rotate (n + 1) w.length v))) b.toNat ≠ [] := by
    rw [found, ne_eq, List.filter_eq_nil_iff]
    intro hall
    refine hall ⟨placeName (Spec.place cwd []), 0, UInt32.ofNat w.length, v⟩ ?_ hv
    rw [hdoc, hit, List.map_map, added, List.map_map, List.mem_map]
    exact ⟨0, by simp, by simp [Item.doc, fst]⟩
  rw [h0] at this
  exact h4 (List.length_eq_zero_iff.mp this)

/-- three buffers in turn are enough for the two shatterers of the example configuration, and the buffers are reused -/
def exTurns : List Act :=
  [.write 0 [97, 32, 98, 32, 99, 46], .add ⟨[112], 0, 6, ⟨0, 0, 6⟩⟩, .write 1 [97, 32, 98, 32, 100, 46], .add ⟨[113], 0, 6, ⟨1, 0, 6⟩⟩,
   .write 2 [97, 32, 98, 32, 101, 46], .add ⟨[114], 0, 5, ⟨2, 0, 5⟩⟩, .write 0 [97, 32, 98, 32, 102, 46], .add ⟨[115], 0, 6, ⟨0, 0, 6⟩⟩]

example : exQConfig.numShatters.toNat = 2 ∧ Keeps 2 exTurns ∧ Sized (fun _ => [0, 0, 0, 0, 0, 0]) exTurns := by
  refine ⟨rfl, ?_, ?_⟩ <;> simp [Keeps, KeepsFrom, Sized, exTurns]

example : docsAt (fun _ => [0, 0, 0, 0, 0, 0]) exTurns =
    [⟨[112], 0, 6, some [97, 32, 98, 32, 99, 46]⟩, ⟨[113], 0, 6, some [97, 32, 98, 32, 100, 46]⟩, ⟨[114], 0, 5, some [97, 32, 98, 32, 101]⟩,
     ⟨[115], 0, 6, some [97, 32, 98, 32, 102, 46]⟩] := by decide

/-- such a program leaves an index -/
example : ∃ d', ∃ x, Indexer.create exQConfig = .ok x ∧
    Reuse.Session asciiUni ⟨fun _ => [], fun _ => .ok exQConfig⟩ [47] x (fun _ => [0, 0, 0, 0, 0, 0]) exTurns Dir.empty d' := by
  obtain ⟨x, hx, hr⟩ := create_rep (u := asciiUni) exUsable
  have hf : Fits asciiUni exQConfig ([] ++ added [47] (docsAt (fun _ => [0, 0, 0, 0, 0, 0]) exTurns)) :=
    ⟨by decide, by decide +kernel, by decide +kernel⟩
  obtain ⟨d', hd⟩ := Session.exists exUsable hr [47] _ hf (d := Dir.empty) (.inl rfl)
  refine ⟨d', x, hx, (C81_kept exUsable (.create hx) [47] _ _ hf ?_ ?_).mpr hd⟩
  · simp [Sized, exTurns]
  · show Keeps 2 exTurns
    simp [Keeps, KeepsFrom, exTurns]

/-- two buffers are not enough: the texts "a b c." and "a b d." differ in a blot -/
example : ∃ d', ∃ x, Indexer.create exQConfig = .ok x ∧
    Reuse.Session asciiUni ⟨fun _ => [], fun _ => .ok exQConfig⟩ [47] x (fun _ => [97, 32, 98, 32, 99, 46])
      (rotate 2 6 [97, 32, 98, 32, 100, 46]) Dir.empty d' ∧
    ¬ Indexer.Session asciiUni ⟨fun _ => [], fun _ => .ok exQConfig⟩ [47] x (docsAt (fun _ => [97, 32, 98, 32, 99, 46])
      (rotate 2 6 [97, 32, 98, 32, 100, 46])) Dir.empty d' := by
  obtain ⟨x, hx, _⟩ := create_rep (u := asciiUni) exUsable
  obtain ⟨_, _, d', h1, h2⟩ := C81_false exUsable (.create (u := asciiUni) hx) [47] (n := 1) rfl (w := [97, 32, 98, 32, 99, 46])
    (v := [97, 32, 98, 32, 100, 46]) rfl (b := fnv32 [100] ^^^ fnv32 [98]) (by decide +kernel) (by decide +kernel)
    ⟨by decide, by decide +kernel, by decide +kernel⟩ ⟨by decide, by decide +kernel, by decide +kernel⟩
  exact ⟨d', x, hx, h1, h2⟩

end Dupi.Props
