import Verif.Proof.Disk
import Verif.Props.Query
import Verif.Props.ConfigFile
/-! # Several indexes on a disk, and directories that are moved or copied: C52, C53 -/

namespace Dupi.Props
open Spec Disk

section
variable {u : Uni} {J : CfgCodec} {srt : Sorter}

/-- **C52.**  Programs create indexes, append to them and remove them, in any directories and from any working directories.  Afterwards a root
leads to an index exactly if the catalogue has one at the place the root leads to, and the index opened is the one made by the sessions in the
catalogue. -/
theorem C52_open {ops : List Op} {k : Disk} (hm : ∀ op ∈ ops, Made J op) (hs : Steps u J srt Disk.empty ops k) (cwd root : Bytes) :
    match catalogue ops (Spec.place cwd root) with
    | none => k.openIndex J srt cwd root = fail .notExist ∧ k.openIndexer J cwd root = fail .notExist
    | some (c, h) => IsSorter srt → Fits u c (documents h) →
        ∃ x q, k.openIndex J srt cwd root = .ok x ∧ Reading u J srt c h x q ∧ ∃ y, k.openIndexer J cwd root = .ok y := by
  have sh := Steps.shows hm hs
  cases hg : catalogue ops (Spec.place cwd root) with
  | none =>
    have h1 := sh.free hg
    simp only [openIndex_own (sh.own cwd root), openIndexer_own (sh.own cwd root), Disk.dir, h1, Option.getD_none]
    exact ⟨rfl, rfl⟩
  | some e =>
    obtain ⟨c, h⟩ := e
    intro hsrt hf
    obtain ⟨d, h1, h2, h3, _⟩ := sh.held hg
    simp only [openIndex_own (sh.own cwd root), openIndexer_own (sh.own cwd root), Disk.dir, h1, Option.getD_some]
    obtain ⟨x, q, g1, g2⟩ := reading_exists h3 hsrt h2 hf
    obtain ⟨y, g3, _⟩ := open_rep h3 (History.rep h3 h2 hf) hf
    exact ⟨x, q, g1, g2, y, g3⟩

/-- **C52.**  In particular queries answer for the documents of that index and of no other. -/
theorem C52_get {ops : List Op} {k : Disk} (hm : ∀ op ∈ ops, Made J op) (hs : Steps u J srt Disk.empty ops k) (hsrt : IsSorter srt) {cwd root : Bytes}
    {c : Config} {h : Sessions} (hg : catalogue ops (Spec.place cwd root) = some (c, h)) (hf : Fits u c (documents h)) :
    ∃ x q, k.openIndex J srt cwd root = .ok x ∧ x.startQuery = .ok q ∧ ∀ grow b fuel, (documents h).length < fuel →
      ∃ r, Query.get grow x fuel q ⟨b, none⟩ = .ok r ∧ r.vis = (found u c (documents h) b.toNat).map Document.shown := by
  have := C52_open hm hs cwd root
  rw [hg] at this
  obtain ⟨x, q, g1, g2, _⟩ := this hsrt hf
  obtain ⟨_, _, _, hU, _⟩ := (Steps.shows hm hs).held hg
  refine ⟨x, q, g1, g2.start, fun grow b fuel hfuel => ?_⟩
  obtain ⟨r, r1, _, r2⟩ := C21_get hU hsrt g2 hf grow b fuel hfuel (q' := q) rfl
  exact ⟨r, r1, r2⟩

/-- **C52.**  An operation changes no byte of the other indexes; what is removed is the index that was opened, with everything below its directory. -/
theorem C52_apart {ops : List Op} {k k' : Disk} (hm : ∀ op ∈ ops, Made J op) (hs : Steps u J srt Disk.empty ops k) {op : Op} (hop : Step u J srt k op k') (p : List Bytes) :
    match op with
    | .create _ _ _ => (p ≠ at_ op → k' p = k p) ∧ (p = at_ op → k p = none ∧ k' p ≠ none)
    | .append _ _ _ => (p ≠ at_ op → k' p = k p) ∧ (p = at_ op → k p ≠ none ∧ k' p ≠ none)
    | .remove _ _ => (¬ at_ op <+: p → k' p = k p) ∧ (at_ op <+: p → k' p = none)
    | .discard _ _ _ => (¬ at_ op <+: p → k' p = k p) ∧ (at_ op <+: p → k' p = none) := by
  have sh := Steps.shows hm hs
  cases hop with
  | create h1 h2 h3 =>
    simp only [at_]
    rw [resolve_place] at *
    exact ⟨fun h => by simp [Disk.set, h], fun h => by simp [Disk.set, h, h1]⟩
  | append h1 h2 =>
    obtain ⟨s, d0, g1, g2, g3, g4, g5, g6⟩ := sh.openIndexer h1
    simp only [at_]
    rw [g5]
    exact ⟨fun h => by simp [Disk.set, h], fun h => by simp [Disk.set, h, g2]⟩
  | remove h1 =>
    obtain ⟨s, g1, g2⟩ := sh.openIndex h1
    simp only [at_]
    rw [g2]
    exact ⟨fun h => by simp [Disk.removeAll, h], fun h => by simp [Disk.removeAll, h]⟩
  | discard h1 h2 =>
    obtain ⟨s, d0, g1, g2, g3, g4, g5, g6⟩ := sh.openIndexer h1
    simp only [at_]
    rw [g5]
    refine ⟨fun h => ?_, fun h => by simp [Disk.removeAll, h]⟩
    have : p ≠ _ := fun e => h (by rw [e]; exact List.prefix_rfl)
    simp [Disk.removeAll, Disk.set, h, this]

/-- the configurations `CreateIndexer` makes are among those the theorems speak of, and the index is where the root given to it leads -/
theorem C52_created (cwd root : Bytes) (n : Int) (h1 : 0 < n) (h2 : n < 2 ^ 32) (h3 : IsText (absPath cwd root)) (docs : List Doc) :
    ∃ c, Config.new cwd root n 10 = .ok c ∧ Made Json.codec (.create cwd c docs) ∧ at_ (.create cwd c docs) = Spec.place cwd root := by
  obtain ⟨c, g1, g2, _, g3⟩ := C48_created cwd root n h1 h2 h3
  exact ⟨c, g1, ⟨g3, by rw [g2]; exact absPath_head cwd root⟩, by rw [at_, g2, place_absPath]⟩

/-- the documents of every index fit -/
def FitAll (u : Uni) (g : Catalogue) : Prop := ∀ p c h, g p = some (c, h) → Fits u c (documents h)

/-- **C52.**  Everything the catalogue allows can be done: creating an index where there is none (also where one was removed), appending to and
removing one where there is one. -/
theorem C52_possible {ops : List Op} {k : Disk} (hm : ∀ op ∈ ops, Made J op) (hs : Steps u J srt Disk.empty ops k) {op : Op} (hop : Made J op)
    (ha : (catalogue ops).Allows op) (hf : FitAll u (catalogue ops)) (hf' : ∀ cwd root docs, op = .discard cwd root docs →
      FitAll u (catalogue (ops ++ [.append cwd root docs]))) (hf'' : FitAll u (catalogue (ops ++ [op]))) (hsrt : IsSorter srt) :
    ∃ k', Step u J srt k op k' := by
  have sh := Steps.shows hm hs
  have happ : ∀ cwd root docs, ((catalogue ops) (Spec.place cwd root)).isSome → FitAll u (catalogue (ops ++ [.append cwd root docs])) →
      ∃ x d, k.openIndexer J cwd root = .ok x ∧ Indexer.Session u J cwd x docs (k.dir (resolve cwd x.config.indexRoot)) d := by
    intro cwd root docs hi hfa
    obtain ⟨⟨c, h⟩, hg⟩ := Option.isSome_iff_exists.mp hi
    obtain ⟨d, h1, h2, h3, h4, _⟩ := sh.held hg
    have hfn : Fits u c (documents h ++ added cwd docs) := by
      rw [← documents_snoc]
      exact hfa (Spec.place cwd root) c _ (by simp [catalogue, Catalogue.after, at_]; exact hg)
    have hr := History.rep h3 h2 hfn.left
    obtain ⟨x, g1, g2⟩ := open_rep h3 hr hfn.left
    obtain ⟨d', hd'⟩ := Session.exists h3 g2 cwd docs hfn (.inr hr.cfg)
    have hx : k.openIndexer J cwd root = .ok x := by
      rw [openIndexer_own (sh.own cwd root), Disk.dir, h1, Option.getD_some, g1]
    refine ⟨x, d', hx, ?_⟩
    obtain ⟨_, _, _, e1, _, _, e2, _⟩ := sh.openIndexer hx
    rw [e2, Disk.dir, h1, Option.getD_some]
    exact hd'
  cases op with
  | create cwd c docs =>
    have hg : (catalogue ops) (Spec.place cwd c.indexRoot) = none := ha
    have h1 := sh.free hg
    obtain ⟨x, g1, g2⟩ := create_rep (u := u) hop.1
    have hfn : Fits u c ([] ++ added cwd docs) := by
      have := hf'' (Spec.place cwd c.indexRoot) c [(cwd, docs)] (by simp [catalogue, Catalogue.after, at_])
      simpa [documents] using this
    obtain ⟨d, hd⟩ := Session.exists hop.1 g2 cwd docs hfn (d := Dir.empty) (.inl rfl)
    exact ⟨_, .create (by rw [resolve_place]; exact h1) g1 hd⟩
  | append cwd root docs =>
    obtain ⟨x, d, h1, h2⟩ := happ cwd root docs ha hf''
    exact ⟨_, .append h1 h2⟩
  | remove cwd root =>
    obtain ⟨⟨c, h⟩, hg⟩ := Option.isSome_iff_exists.mp (show ((catalogue ops) (Spec.place cwd root)).isSome from ha)
    have := C52_open hm hs cwd root
    rw [hg] at this
    obtain ⟨x, q, g1, _⟩ := this hsrt (hf _ c h hg)
    exact ⟨_, .remove g1⟩
  | discard cwd root docs =>
    obtain ⟨x, d, h1, h2⟩ := happ cwd root docs ha (hf' cwd root docs rfl)
    exact ⟨_, .discard h1 h2⟩

end

/-! ## C53 -/

section
variable {J : CfgCodec} {srt : Sorter}

/-- **C53.**  On any disk, however it came about: if the root recorded in the configuration file leads to the directory the file is in, opening gives the
index in that directory. -/
theorem C53_partial {k : Disk} {cwd root : Bytes} {c : Config} (hc : Config.readFrom J (k.dir (Spec.place cwd root)) = .ok c)
    (h : Spec.place cwd c.indexRoot = Spec.place cwd root) :
    k.openIndex J srt cwd root = Index.open J srt (k.dir (Spec.place cwd root)) ∧
      k.openIndexer J cwd root = Indexer.open J (k.dir (Spec.place cwd root)) :=
  ⟨openIndex_own fun c' hc' => by rw [hc] at hc'; cases hc'; exact h, openIndexer_own fun c' hc' => by rw [hc] at hc'; cases hc'; exact h⟩

/-- when there is nothing where the recorded root leads -/
theorem open_elsewhere {k : Disk} {cwd root : Bytes} {c : Config} (hc : Config.readFrom J (k.dir (Spec.place cwd root)) = .ok c)
    (h : k (Spec.place cwd c.indexRoot) = none) (h1 : 0 ≤ c.numShards) (h2 : 1 ≤ c.docFlushRate) :
    k.openIndex J srt cwd root = fail .notExist ∧ k.openIndexer J cwd root = fail .notExist := by
  unfold openIndex openIndexer
  rw [readConfig_eq, hc]
  simp only [bind, Except.bind, resolve_place, Disk.dir, h, Option.getD_none]
  refine ⟨rfl, ?_⟩
  obtain ⟨a, ha, _⟩ := Dmd.newAdder_none c.docFlushRate h2
  have hd : Dir.empty .dmd = none := rfl
  simp only [Indexer.openWith, Indexer.makeShards, if_neg (show ¬ c.numShards < 0 by omega), hd, ha, bind, Except.bind]
  rfl

variable {u : Uni}

/-- **C53 is false** of moved directories: an index whose directory was moved cannot be opened any more, neither for reading nor for appending. -/
theorem C53_false_moved {ops : List Op} {k : Disk} (hm : ∀ op ∈ ops, Made J op) (hs : Steps u J srt Disk.empty ops k) {p q : List Bytes} (hpq : q ≠ p)
    (hp : (catalogue ops p).isSome) {cwd root : Bytes} (hr : Spec.place cwd root = q) :
    (k.move p q).openIndex J srt cwd root = fail .notExist ∧ (k.move p q).openIndexer J cwd root = fail .notExist := by
  obtain ⟨⟨c, h⟩, hg⟩ := Option.isSome_iff_exists.mp hp
  obtain ⟨d, h1, h2, h3, h4, _⟩ := (Steps.shows hm hs).held hg
  refine open_elsewhere (c := c) ?_ ?_ (by have := h3.shards; omega) h3.flush
  · rw [hr, Disk.dir, Disk.move, if_pos rfl, h1]
    exact readFrom_of h3 (h2.cfg h3)
  · rw [h4, Disk.move, if_neg (Ne.symm hpq), if_pos rfl]

/-- **C53 is false** of copies: under the root of a copy one opens the original, -/
theorem C53_false_copied {ops : List Op} {k : Disk} (hm : ∀ op ∈ ops, Made J op) (hs : Steps u J srt Disk.empty ops k) {p q : List Bytes} (hpq : q ≠ p)
    {c : Config} {h : Sessions} (hp : catalogue ops p = some (c, h)) {cwd root : Bytes} (hr : Spec.place cwd root = q) :
    (k.copy p q).openIndex J srt cwd root = Index.open J srt (k.dir p) ∧ (k.copy p q).openIndexer J cwd root = Indexer.open J (k.dir p) ∧
      ∀ k'' op, Step u J srt (k.copy p q) op k'' → at_ op = q →
        match op with
        | .create _ _ _ => False
        | .append cwd _ docs => k'' q = k p ∧ ∃ d', k'' p = some d' ∧ History u J c (h ++ [(cwd, docs)]) d'
        | .remove _ _ => k'' p = none ∧ (¬ p <+: q → k'' q = k p)
        | .discard _ _ _ => k'' p = none ∧ (¬ p <+: q → k'' q = k p) := by
  obtain ⟨d, h1, h2, h3, h4, _⟩ := (Steps.shows hm hs).held hp
  have hcq : (k.copy p q) q = some d := by rw [Disk.copy, if_pos rfl, h1]
  have hcp : (k.copy p q) p = some d := by rw [Disk.copy, if_neg (Ne.symm hpq), h1]
  have hrd : Config.readFrom J d = .ok c := readFrom_of h3 (h2.cfg h3)
  have o1 : ∀ cwd root, Spec.place cwd root = q → (k.copy p q).openIndex J srt cwd root = Index.open J srt d := by
    intro cwd root hr
    unfold openIndex
    rw [readConfig_eq, hr, Disk.dir, hcq, Option.getD_some, hrd, Index.open_eq, hrd]
    simp only [bind, Except.bind]
    rw [resolve_place, h4, Disk.dir, hcp]; rfl
  have o2 : ∀ cwd root, Spec.place cwd root = q → (k.copy p q).openIndexer J cwd root = Indexer.open J d := by
    intro cwd root hr
    unfold openIndexer
    rw [readConfig_eq, hr, Disk.dir, hcq, Option.getD_some, hrd, Indexer.open_eq, hrd]
    simp only [bind, Except.bind]
    rw [resolve_place, h4, Disk.dir, hcp]; rfl
  have c1 : ∀ x, Index.open J srt d = .ok x → x.config = c := by
    intro x hx
    rw [Index.open_eq, hrd] at hx
    exact Index.openWith_config hx
  have c2 : ∀ x, Indexer.open J d = .ok x → x.config = c := by
    intro x hx
    rw [Indexer.open_eq, hrd] at hx
    exact Indexer.openWith_config hx
  have hd : k.dir p = d := by rw [Disk.dir, h1]; rfl
  rw [hd]
  refine ⟨o1 cwd root hr, o2 cwd root hr, ?_⟩
  intro k'' op hs' hat
  cases hs' with
  | create g1 g2 g3 =>
    rename_i cwd' c' x docs' d'
    rw [resolve_place, show Spec.place cwd' c'.indexRoot = q from hat, hcq] at g1
    cases g1
  | append g1 g2 =>
    rename_i cwd' root' x docs' d'
    rw [o2 _ _ hat] at g1
    have := c2 _ g1
    rw [this, resolve_place, h4] at g2 ⊢
    rw [Disk.dir, hcp, Option.getD_some] at g2
    refine ⟨?_, d', by simp [Disk.set], .append h2 g1 g2⟩
    rw [Disk.set, if_neg hpq, hcq, h1]
  | remove g1 =>
    rw [o1 _ _ hat] at g1
    rw [c1 _ g1, resolve_place, h4]
    refine ⟨by simp [Disk.removeAll], fun hn => ?_⟩
    rw [Disk.removeAll, if_neg hn, hcq, h1]
  | discard g1 g2 =>
    rw [o2 _ _ hat] at g1
    rw [c2 _ g1, resolve_place, h4]
    refine ⟨by simp [Disk.removeAll], fun hn => ?_⟩
    rw [Disk.removeAll, if_neg hn, Disk.set, if_neg hpq, hcq, h1]

/-- **C53 is false** of indexes created with a relative root (`IndexerFromConfig`): opened from a working directory from which that root leads
somewhere else, where nothing is, they cannot be opened, not even under an absolute root. -/
theorem C53_false_relative {k k' : Disk} {cwd cwd' root : Bytes} {c : Config} {docs : List Doc} (hU : Usable J c) (hs : Step u J srt k (.create cwd c docs) k')
    (hr : Spec.place cwd' root = Spec.place cwd c.indexRoot) (hne : Spec.place cwd' c.indexRoot ≠ Spec.place cwd c.indexRoot)
    (hfree : k (Spec.place cwd' c.indexRoot) = none) :
    k'.openIndex J srt cwd' root = fail .notExist ∧ k'.openIndexer J cwd' root = fail .notExist := by
  cases hs with
  | create g1 g2 g3 =>
    rename_i x d
    rw [resolve_place]
    refine open_elsewhere (c := c) ?_ ?_ (by have := hU.shards; omega) hU.flush
    · rw [hr, Disk.dir, Disk.set, if_pos rfl, Option.getD_some]
      have := Session.cfg g3 (.inl rfl)
      rw [create_config g2] at this
      exact readFrom_of hU this
    · rw [Disk.set, if_neg hne, hfree]

end

/-! ### roots that are not UTF-8 -/

theorem isText_append {a b : Bytes} (ha : IsText a) (hb : IsText b) : IsText (a ++ b) := by
  obtain ⟨x, rfl⟩ := ha
  obtain ⟨y, rfl⟩ := hb
  exact ⟨x ++ y, by simp [utf8]⟩

theorem isText_nil : IsText [] := ⟨[], rfl⟩

theorem isText_slash : IsText [47] := ⟨['/'], by decide⟩

theorem clean_isText (s : Bytes) : IsText (Json.clean s) := by
  unfold Json.clean
  have hr := Json.decode_isRune s
  generalize decode s = rs at hr
  induction rs with
  | nil => exact isText_nil
  | cons r rs ih =>
    rw [List.flatMap_cons]
    refine isText_append ?_ (ih fun x hx => hr x (by simp [hx]))
    unfold Json.cleanRune
    split
    · rename_i h
      obtain ⟨b, t, rfl⟩ := hr r (by simp)
      obtain ⟨c, hc⟩ := rune_char h
      exact ⟨[c], by rw [hc]; simp [utf8, runeOf]⟩
    · exact isText_iff.mpr (by decide)

/-- a character other than '/' has no byte '/' -/
theorem encodeChar_slash {c : Char} (h : (47 : UInt8) ∈ String.utf8EncodeChar c) : String.utf8EncodeChar c = [47] := by
  rw [← encodeRune_char] at h ⊢
  have hv := char_valid c
  generalize c.toNat = n at h hv
  have hlt : n < 0x110000 := by
    rcases hv with h | h <;> omega
  have key : ∀ m, m < 256 → UInt8.ofNat m = 47 → m = 47 := by
    intro m hm h
    have := congrArg UInt8.toNat h
    rwa [ofNat_toNat8 hm] at this
  unfold encodeRune at h ⊢
  repeat' split at h
  all_goals simp only [List.mem_cons, List.not_mem_nil, or_false] at h
  · rename_i h1
    rw [if_pos h1, ← h]
  all_goals
    exfalso
    first
    | rcases h with h | h | h | h <;> have := key _ (by omega) h.symm <;> omega
    | rcases h with h | h | h <;> have := key _ (by omega) h.symm <;> omega
    | rcases h with h | h <;> have := key _ (by omega) h.symm <;> omega

theorem splitSlash_plain (a b : Bytes) (h : (47 : UInt8) ∉ a) : ∃ p ps, splitSlash b = p :: ps ∧ splitSlash (a ++ b) = (a ++ p) :: ps := by
  obtain ⟨p, ps, hb⟩ : ∃ p ps, splitSlash b = p :: ps := by
    cases hb : splitSlash b with
    | nil => exact absurd hb (splitSlash_ne_nil b)
    | cons p ps => exact ⟨p, ps, rfl⟩
  refine ⟨p, ps, hb, ?_⟩
  induction a with
  | nil => simpa using hb
  | cons x a ih =>
    rw [List.cons_append, splitSlash, if_neg (by intro e; apply h; simp [e, sep]), ih (fun hm => h (by simp [hm]))]
    rfl

theorem splitSlash_isText {s : Bytes} (h : IsText s) : ∀ e ∈ splitSlash s, IsText e := by
  obtain ⟨cs, rfl⟩ := h
  induction cs with
  | nil => intro e he; simp [utf8, splitSlash] at he; subst he; exact isText_nil
  | cons c cs ih =>
    have hu : utf8 (c :: cs) = String.utf8EncodeChar c ++ utf8 cs := by simp [utf8]
    rw [hu]
    by_cases hc : (47 : UInt8) ∈ String.utf8EncodeChar c
    · rw [encodeChar_slash hc, List.singleton_append, splitSlash, if_pos rfl]
      intro e he
      rcases List.mem_cons.mp he with rfl | he
      · exact isText_nil
      · exact ih e he
    · obtain ⟨p, ps, g1, g2⟩ := splitSlash_plain (String.utf8EncodeChar c) (utf8 cs) hc
      rw [g2]
      rw [g1] at ih
      intro e he
      rcases List.mem_cons.mp he with rfl | he
      · exact isText_append ⟨[c], by simp [utf8]⟩ (ih p (by simp))
      · exact ih e (by simp [he])

theorem foldl_step_isText (es : List Bytes) : ∀ at_ : List Bytes, (∀ e ∈ es, IsText e) → (∀ e ∈ at_, IsText e) → ∀ e ∈ es.foldl step at_, IsText e := by
  induction es with
  | nil => intro at_ _ h; exact h
  | cons x es ih =>
    intro at_ h1 h2
    refine ih _ (fun e he => h1 e (by simp [he])) ?_
    intro e he
    unfold step at he
    split at he
    · exact h2 e he
    · split at he
      · exact h2 e (List.dropLast_subset _ he)
      · rcases List.mem_append.mp he with he | he
        · exact h2 e he
        · simp at he; subst he; exact h1 _ (by simp)

theorem placeName_isText (l : List Bytes) (h : ∀ e ∈ l, IsText e) : IsText (placeName l) := by
  have hj : IsText (joinSlash l) := by
    induction l with
    | nil => exact isText_nil
    | cons p l ih =>
      cases l with
      | nil => exact h p (by simp)
      | cons q l =>
        rw [joinSlash_cons p (by simp)]
        exact isText_append (h p (by simp)) (isText_append isText_slash (ih fun e he => h e (by simp [he])))
  rw [placeName, ← joinSlash_intersperse]
  exact isText_append isText_slash hj

/-- the place of an absolute path that is a text has a name that is a text -/
theorem place_isText {s : Bytes} (h : IsText s) (h0 : s.head? = some 47) (cwd : Bytes) : IsText (placeName (Spec.place cwd s)) := by
  apply placeName_isText
  unfold Spec.place
  rw [if_pos h0]
  refine foldl_step_isText _ _ (fun e he => ?_) (by simp)
  rw [← elems_split] at he
  exact splitSlash_isText h e ((List.mem_filter.mp he).1)

theorem clean_slash (t : Bytes) : (Json.clean (47 :: t)).head? = some 47 := by
  unfold Json.clean
  rw [decode_cons]
  rfl

/-- **C53 is false** of indexes created under a root that is not UTF-8: the root is recorded with U+FFFD in place of the bytes in question, and the index
cannot be opened (unless there is another one where the changed root leads). -/
theorem C53_false_utf8 {u : Uni} {srt : Sorter} {k k' : Disk} {cwd root : Bytes} {n : Int} {c : Config} {docs : List Doc} (h1 : 0 < n) (h2 : n < 2 ^ 32)
    (hc : Config.new cwd root n 10 = .ok c) (ht : ¬ IsText (absPath cwd root)) (hs : Step u Json.codec srt k (.create cwd c docs) k') :
    ∃ p, p ≠ Spec.place cwd root ∧ (k p = none → ∀ cwd' root', Spec.place cwd' root' = Spec.place cwd root →
      k'.openIndex Json.codec srt cwd' root' = fail .notExist ∧ k'.openIndexer Json.codec cwd' root' = fail .notExist) := by
  obtain ⟨c', g1, g2⟩ := C13_nonvacuous cwd root n
  rw [hc] at g1
  injection g1 with g1
  subst g1
  injection hc with hc
  have hroot : c.indexRoot = absPath cwd root := by rw [← hc]
  have hsh : c.numShards = n := by rw [← hc]
  have hfl : c.docFlushRate = 16384 := by rw [← hc]
  have hi : Json.Ints c := by
    rw [← hc]
    exact ⟨⟨by show (-2 ^ 63 : Int) ≤ 10; decide, by show (10 : Int) < 2 ^ 63; decide⟩, ⟨by show -2 ^ 63 ≤ n; omega, by show n < 2 ^ 63; omega⟩,
      ⟨by show (-2 ^ 63 : Int) ≤ 2; decide, by show (2 : Int) < 2 ^ 63; decide⟩, ⟨by show (-2 ^ 63 : Int) ≤ 16384; decide, by show (16384 : Int) < 2 ^ 63; decide⟩,
      ⟨by show (-2 ^ 63 : Int) ≤ 10; decide, by show (10 : Int) < 2 ^ 63; decide⟩, ⟨by show (-2 ^ 63 : Int) ≤ 1; decide, by show (1 : Int) < 2 ^ 63; decide⟩⟩
  have hck : c.check = .ok () := by rw [← hc]; unfold Config.check; rw [if_neg]; show ¬ (10 : Int) ≠ u64ToI64 (i64ToU64 (1 * 10)); decide
  obtain ⟨t, hcl⟩ := absPath_cons cwd root
  have hhead : (Json.clean c.indexRoot).head? = some 47 := by rw [hroot, hcl]; exact clean_slash t
  have habs : ∀ cwd', Spec.place cwd' (Json.clean c.indexRoot) = Spec.place cwd (Json.clean c.indexRoot) := by
    intro cwd'; unfold Spec.place; rw [if_pos hhead, if_pos hhead]
  have hne : Spec.place cwd (Json.clean c.indexRoot) ≠ Spec.place cwd root := by
    intro e
    have := place_isText (clean_isText c.indexRoot) hhead cwd
    rw [e, ← absPath_place] at this
    exact ht this
  refine ⟨_, hne, fun hfree cwd' root' hr => ?_⟩
  cases hs with
  | create k1 k2 k3 =>
    rename_i x d
    rw [resolve_place, hroot, place_absPath]
    refine open_elsewhere (c := Json.cleanConfig c) ?_ ?_ (by show 0 ≤ c.numShards; omega) (by show 1 ≤ c.docFlushRate; omega)
    · rw [hr, Disk.dir, Disk.set, if_pos rfl, Option.getD_some]
      have e1 := Session.cfg k3 (.inl rfl)
      rw [create_config k2] at e1
      have e2 := read_written c hi hck Dir.empty
      rw [if_pos (by simp [Blank, Dir.empty])] at e2
      rw [← e2]
      simp only [Config.readFrom, Dir.read, e1]
      rw [show (c.writeTo Json.codec Dir.empty) .cfg = some (Json.codec.enc c ++ [10]) by simp [Config.writeTo, Dir.set, Dir.empty, writeAt]]
    · show (k.set _ d) (Spec.place cwd' (Json.clean c.indexRoot)) = none
      rw [habs, Disk.set, if_neg hne, hfree]

/-! ### the assumptions can be met -/

theorem FitAll.after {u : Uni} {g : Catalogue} (hg : FitAll u g) (op : Op)
    (h : match op with
      | .create cwd c docs => Fits u c (documents [(cwd, docs)])
      | .append cwd root docs => ∀ c h, g (Spec.place cwd root) = some (c, h) → Fits u c (documents (h ++ [(cwd, docs)]))
      | _ => True) : FitAll u (g.after op) := by
  intro p c s hp
  cases op with
  | create cwd c' docs =>
    simp only [Catalogue.after] at hp
    split at hp
    · cases hp; exact h
    · exact hg p c s hp
  | append cwd root docs =>
    simp only [Catalogue.after] at hp
    split at hp
    · rename_i e
      cases he : g p with
      | none => rw [he] at hp; cases hp
      | some x =>
        rw [he] at hp; cases hp
        exact h x.1 x.2 (by rw [← he, e]; rfl)
    · exact hg p c s hp
  | remove cwd root =>
    simp only [Catalogue.after] at hp
    split at hp
    · cases hp
    · exact hg p c s hp
  | discard cwd root docs =>
    simp only [Catalogue.after] at hp
    split at hp
    · cases hp
    · exact hg p c s hp

/-- the configuration of `CreateIndexer` in the directory "/", for one letter as the root -/
def exDConfig (b : UInt8) : Config := ⟨[47, b], 10, 2, 2, 16384, ⟨wordsSimple⟩, ⟨10, 1⟩⟩

def exDDoc : Doc := ⟨[112], 0, 6, some [97, 32, 98, 32, 99, 46]⟩

/-- indexes "/a" and "/b", a second session at "/a", called "a" this time, then "/b" is removed and created again -/
def exDOps : List Op :=
  [.create [47] (exDConfig 97) [exDDoc], .create [47] (exDConfig 98) [exDDoc], .append [47] [97] [exDDoc], .remove [47, 120] [47, 98],
    .create [47] (exDConfig 98) []]

theorem exDMade (b : UInt8) (hb : b = 97 ∨ b = 98) (docs : List Doc) : Made Json.codec (.create [47] (exDConfig b) docs) := by
  refine ⟨?_, by rcases hb with rfl | rfl <;> decide⟩
  obtain ⟨c, h1, _, _, h2⟩ := C48_created [47] [b] 2 (by decide) (by decide) (isText_iff.mpr (by rcases hb with rfl | rfl <;> decide))
  have : c = exDConfig b := by
    injection h1 with h1
    rw [← h1, exDConfig]
    congr 1
    rcases hb with rfl | rfl <;> decide
  rw [← this]; exact h2

theorem exDMades : ∀ op ∈ exDOps, Made Json.codec op := by
  intro op ho
  simp only [exDOps, List.mem_cons, List.not_mem_nil, or_false] at ho
  rcases ho with rfl | rfl | rfl | rfl | rfl
  · exact exDMade 97 (.inl rfl) _
  · exact exDMade 98 (.inr rfl) _
  · trivial
  · trivial
  · exact exDMade 98 (.inr rfl) _

instance (g : Catalogue) (op : Op) : Decidable (g.Allows op) := by
  cases op <;> (unfold Catalogue.Allows; infer_instance)

theorem C52_nonvacuous : ∃ k, Steps asciiUni Json.codec mergeSorter Disk.empty exDOps k := by
  have hfit : ∀ (b : UInt8) (docs : List Doc), b = 97 ∨ b = 98 → docs = [exDDoc] ∨ docs = [] ∨ docs = [exDDoc, exDDoc] →
      Fits asciiUni (exDConfig b) (documents [([47], docs)]) := by
    intro b docs hb hd
    rcases hb with rfl | rfl <;> rcases hd with rfl | rfl | rfl <;> exact ⟨by decide +kernel, by decide +kernel, by decide +kernel⟩
  have f0 : FitAll asciiUni (catalogue []) := fun p c h hp => by cases hp
  have f1 := f0.after (.create [47] (exDConfig 97) [exDDoc]) (hfit 97 _ (.inl rfl) (.inl rfl))
  have f2 := f1.after (.create [47] (exDConfig 98) [exDDoc]) (hfit 98 _ (.inr rfl) (.inl rfl))
  have f3 := f2.after (.append [47] [97] [exDDoc]) (by
    intro c h hp
    have : some (exDConfig 97, [([47], [exDDoc])]) = some (c, h) := by rw [← hp]; decide +kernel
    cases this
    exact ⟨by decide +kernel, by decide +kernel, by decide +kernel⟩)
  have f4 := f3.after (.remove [47, 120] [47, 98]) trivial
  have f5 := f4.after (.create [47] (exDConfig 98) []) (hfit 98 _ (.inr rfl) (.inr (.inl rfl)))
  have s0 : Steps asciiUni Json.codec mergeSorter Disk.empty [] Disk.empty := .nil
  obtain ⟨k1, t1⟩ := C52_possible (op := .create [47] (exDConfig 97) [exDDoc]) (by simp) s0 (exDMade 97 (.inl rfl) _) rfl f0 (by simp) f1 mergeSorter_isSorter
  have s1 := s0.snoc t1
  obtain ⟨k2, t2⟩ := C52_possible (op := .create [47] (exDConfig 98) [exDDoc]) (fun op ho => exDMades op (by revert ho; simp [exDOps]; exact .inl)) s1
    (exDMade 98 (.inr rfl) _) (by decide +kernel) f1 (by simp) f2 mergeSorter_isSorter
  have s2 := s1.snoc t2
  obtain ⟨k3, t3⟩ := C52_possible (op := .append [47] [97] [exDDoc]) (fun op ho => exDMades op (by revert ho; simp [exDOps]; rintro (h | h) <;> simp [h])) s2
    trivial (by decide +kernel) f2 (by simp) f3 mergeSorter_isSorter
  have s3 := s2.snoc t3
  obtain ⟨k4, t4⟩ := C52_possible (op := .remove [47, 120] [47, 98]) (fun op ho => exDMades op (by revert ho; simp [exDOps]; rintro (h | h | h) <;> simp [h])) s3
    trivial (by decide +kernel) f3 (by simp) f4 mergeSorter_isSorter
  have s4 := s3.snoc t4
  obtain ⟨k5, t5⟩ := C52_possible (op := .create [47] (exDConfig 98) []) (fun op ho => exDMades op (by revert ho; simp [exDOps]; rintro (h | h | h | h) <;> simp [h])) s4
    (exDMade 98 (.inr rfl) _) (by decide +kernel) f4 (by simp) f5 mergeSorter_isSorter
  exact ⟨k5, s4.snoc t5⟩

/-- an index to move or copy, as C53 has it: "/a", to "/c" -/
example : (catalogue exDOps [[97]]).isSome ∧ (catalogue exDOps [[98]]).isSome ∧ catalogue exDOps [[99]] = none ∧ ¬ ([[97]] : List Bytes) <+: [[99]] ∧
    Spec.place [47] [99] = [[99]] := by decide +kernel

/-- a root that is not UTF-8 and with which an index can be created -/
example : ¬ IsText (absPath [47] [0xFF]) ∧ ∃ c k', Config.new [47] [0xFF] 2 10 = .ok c ∧
    Step asciiUni Json.codec mergeSorter Disk.empty (.create [47] c [exDDoc]) k' := by
  refine ⟨fun h => by have := isText_iff.mp h; revert this; decide, ?_⟩
  obtain ⟨c, h1, h2⟩ := C13_nonvacuous [47] [0xFF] 2
  have h3 := h1
  injection h1 with h1
  have hU : Usable ⟨Json.codec.enc, fun _ => .ok c⟩ c :=
    ⟨h2, by rw [← h1]; show (10 : Int) < 2 ^ 63; decide, by rw [← h1]; show (0 : Int) < 2; decide, by rw [← h1]; show (2 : Int) < 2 ^ 32; decide,
      by rw [← h1]; show (0 : Int) < 2; decide, by rw [← h1]; show (1 : Int) ≤ 16384; decide, rfl⟩
  have hf : Fits asciiUni c ([] ++ added [47] [exDDoc]) := by
    subst h1
    exact ⟨by decide +kernel, by decide +kernel, by decide +kernel⟩
  obtain ⟨x, g1, g2⟩ := create_rep (u := asciiUni) hU
  obtain ⟨d, hd⟩ := Session.exists hU g2 [47] [exDDoc] hf (d := Dir.empty) (.inl rfl)
  refine ⟨c, _, h3, .create rfl g1 (d := d) ?_⟩
  cases hd with
  | run a1 a2 a3 a4 => exact .run a1 a2 a3 a4

/-- a relative root, which leads elsewhere from another working directory -/
example : Spec.place [47] [47, 97] = Spec.place [47] [97] ∧ Spec.place [47, 120] [97] ≠ Spec.place [47] [97] ∧
    Spec.place [47, 120] [47, 97] = Spec.place [47] [97] := by decide

end Dupi.Props
