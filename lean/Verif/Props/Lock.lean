import Verif.Model.Lock
import Verif.Proof.PathSpec
/-! # The lock of an index: C32 -/

namespace Dupi.Props
open Lock Spec

namespace LockInv

/-- the lock that goes with a phase -/
def Ok (h : Handle) : Prop :=
  match h.phase with
  | .waiting | .gone => h.mode = none
  | .opening | .live | .failed => h.mode = some h.kind.mode
  | .unlocking | .unlocked => h.mode = none ∨ h.mode = some .sh

structure Inv (w : World) : Prop where
  ok : ∀ (i : Nat) h, w[i]? = some h → Ok h
  ex : ∀ (i j : Nat) h o, w[i]? = some h → w[j]? = some o → i ≠ j → h.file = o.file → h.mode = some .ex → o.mode = none

/-- a change of one handle that takes no new lock -/
theorem Inv.weaken {w : World} (inv : Inv w) {i : Nat} {h h' : Handle} (hi : w[i]? = some h) (hok : Ok h') (hf : h'.file = h.file)
    (hm : h'.mode = none ∨ h'.mode = h.mode) : Inv (w.set i h') := by
  have hlt : i < w.length := by
    rcases Nat.lt_or_ge i w.length with h1 | h1
    · exact h1
    · rw [List.getElem?_eq_none h1] at hi; cases hi
  have get : ∀ (j : Nat) o, (w.set i h')[j]? = some o → (j = i ∧ o = h') ∨ (j ≠ i ∧ w[j]? = some o) := by
    intro j o ho
    rw [List.getElem?_set] at ho
    by_cases e : i = j
    · subst e; rw [if_pos rfl, if_pos hlt] at ho; exact .inl ⟨rfl, (Option.some.inj ho).symm⟩
    · rw [if_neg e] at ho; exact .inr ⟨Ne.symm e, ho⟩
  constructor
  · intro j o ho
    rcases get j o ho with ⟨_, rfl⟩ | ⟨_, ho⟩
    · exact hok
    · exact inv.ok j o ho
  · intro j k a b ha hb hjk hfile hmode
    rcases get j a ha with ⟨rfl, rfl⟩ | ⟨hja, ha'⟩
    · rcases get k b hb with ⟨rfl, rfl⟩ | ⟨_, hb⟩
      · exact absurd rfl hjk
      · rcases hm with hm | hm
        · rw [hm] at hmode; cases hmode
        · exact inv.ex _ k h b hi hb hjk (hf ▸ hfile) (hm ▸ hmode)
    · rcases get k b hb with ⟨rfl, rfl⟩ | ⟨_, hb⟩
      · rcases hm with hm | hm
        · exact hm
        · rw [hm]; exact inv.ex j _ a h ha' hi hjk (hfile.trans hf) hmode
      · exact inv.ex j k a b ha' hb hjk hfile hmode

/-- a change of one handle that takes a lock that is free -/
theorem Inv.grant {w : World} (inv : Inv w) {i : Nat} {h h' : Handle} (hi : w[i]? = some h) (hok : Ok h') (hf : h'.file = h.file) {m : Mode}
    (hm : h'.mode = some m) (free : Free w i h.file m) : Inv (w.set i h') := by
  have hlt : i < w.length := by
    rcases Nat.lt_or_ge i w.length with h1 | h1
    · exact h1
    · rw [List.getElem?_eq_none h1] at hi; cases hi
  have get : ∀ (j : Nat) o, (w.set i h')[j]? = some o → (j = i ∧ o = h') ∨ (j ≠ i ∧ w[j]? = some o) := by
    intro j o ho
    rw [List.getElem?_set] at ho
    by_cases e : i = j
    · subst e; rw [if_pos rfl, if_pos hlt] at ho; exact .inl ⟨rfl, (Option.some.inj ho).symm⟩
    · rw [if_neg e] at ho; exact .inr ⟨Ne.symm e, ho⟩
  constructor
  · intro j o ho
    rcases get j o ho with ⟨_, rfl⟩ | ⟨_, ho⟩
    · exact hok
    · exact inv.ok j o ho
  · intro j k a b ha hb hjk hfile hmode
    rcases get j a ha with ⟨rfl, rfl⟩ | ⟨hja, ha'⟩
    · rcases get k b hb with ⟨rfl, rfl⟩ | ⟨hk, hb⟩
      · exact absurd rfl hjk
      · rw [hm] at hmode; cases hmode
        exact free k b hb hk (hfile.symm.trans hf)
    · rcases get k b hb with ⟨rfl, rfl⟩ | ⟨_, hb⟩
      · have := free j a ha' hja (hfile.trans hf)
        cases m with
        | sh => exact absurd hmode this
        | ex => rw [hmode] at this; cases this
      · exact inv.ex j k a b ha' hb hjk hfile hmode

theorem inv {w : World} (hr : Reach w) : Inv w := by
  induction hr with
  | start => exact ⟨by simp, by simp⟩
  | step w w' _ hs ih =>
    cases hs with
    | new k file =>
      have get : ∀ (j : Nat) o, (w ++ [(⟨k, file, .waiting, none⟩ : Handle)])[j]? = some o → w[j]? = some o ∨ o = ⟨k, file, .waiting, none⟩ := by
        intro j o ho
        rcases Nat.lt_or_ge j w.length with h1 | h1
        · rw [List.getElem?_append_left h1] at ho; exact .inl ho
        · rw [List.getElem?_append_right h1] at ho
          have := List.mem_of_getElem? ho
          exact .inr (by simpa using this)
      constructor
      · intro j o ho
        rcases get j o ho with ho | rfl
        · exact ih.ok j o ho
        · rfl
      · intro i j h o hi hj hij hf hm
        rcases get i h hi with hi | rfl
        · rcases get j o hj with hj | rfl
          · exact ih.ex i j h o hi hj hij hf hm
          · rfl
        · cases hm
    | lock i h hi hp free => exact ih.grant hi (by simp [Ok]) rfl rfl free
    | ready i h hi hp =>
      have := ih.ok i h hi; unfold Ok at this; rw [hp] at this
      exact ih.weaken hi this rfl (.inr rfl)
    | fail i h hi hp =>
      have := ih.ok i h hi; unfold Ok at this; rw [hp] at this
      exact ih.weaken hi this rfl (.inr rfl)
    | close i h hi hp =>
      refine ih.weaken hi ?_ rfl ?_
      · by_cases hm : h.mode = some unlockMode
        · simp only [Ok, if_pos hm]; exact .inr hm
        · simp only [Ok, if_neg hm]; exact .inl trivial
      · by_cases hm : h.mode = some unlockMode
        · simp only [if_pos hm]; exact .inr trivial
        · simp only [if_neg hm]; exact .inl trivial
    | unlock i h hi hp free => exact ih.grant hi (.inr rfl) rfl rfl free
    | unlockErr i h hi hp =>
      have := ih.ok i h hi; unfold Ok at this; rw [hp] at this
      exact ih.weaken hi this rfl (.inr rfl)
    | closed i h hi hp => exact ih.weaken hi rfl rfl (.inl rfl)
    | collect i h hi hp => exact ih.weaken hi rfl rfl (.inl rfl)
    | die i h hi => exact ih.weaken hi rfl rfl (.inl rfl)

end LockInv
open LockInv

/-- the object of a handle is in use: it was handed out and its `Close` has not come to the lock yet -/
def InUse (h : Handle) : Prop := h.phase = .live

/-- **C32, creating.**  In every state any number of processes can reach: while an indexer that creates an index is in use,
nothing else — creating, appending or reading — is in use or even past its lock on the same lock file. -/
theorem C32_creating_partial {w : World} (hr : Reach w) (i j : Nat) (h o : Handle) (hi : w[i]? = some h) (hj : w[j]? = some o) (hij : i ≠ j)
    (hk : h.kind = .creator) (hu : InUse h) (hf : h.file = o.file) : ¬ InUse o ∧ o.phase ≠ .opening := by
  have inv := LockInv.inv hr
  have h1 := inv.ok i h hi
  unfold InUse at hu
  unfold Ok at h1; rw [hu, hk] at h1
  have h2 := inv.ex i j h o hi hj hij hf h1
  have h3 := inv.ok j o hj
  unfold Ok at h3
  constructor
  · intro hl; unfold InUse at hl; rw [hl, h2] at h3; cases h3
  · intro hl; rw [hl, h2] at h3; cases h3

/-- the same seen from the other side: while a reader or an appender is in use, no index is being created under its lock -/
theorem C32_not_while_used_partial {w : World} (hr : Reach w) (i j : Nat) (h o : Handle) (hi : w[i]? = some h) (hj : w[j]? = some o) (hij : i ≠ j)
    (hk : o.kind = .creator) (hu : InUse h) (hf : h.file = o.file) : ¬ InUse o := fun ho =>
  (C32_creating_partial hr j i o h hj hi (Ne.symm hij) hk ho hf.symm).1 hu

/-- **C32, release.**  Once everything that used a lock file is closed (or dead, or still waiting), any request for the lock is granted. -/
theorem C32_release {w : World} (hr : Reach w) (i : Nat) (file : List Bytes) (m : Mode)
    (h : ∀ (j : Nat) o, w[j]? = some o → j ≠ i → o.file = file → o.phase = .gone ∨ o.phase = .waiting) : Free w i file m := by
  intro j o ho hji hf
  have h1 := (LockInv.inv hr).ok j o ho
  have h2 : o.mode = none := by
    unfold Ok at h1
    rcases h j o ho hji hf with hp | hp <;> rw [hp] at h1 <;> exact h1
  cases m with
  | sh => simp [h2]
  | ex => exact h2

/-- A closed indexer or index gives up its lock, and closing never waits for ever on its own account: `Unlock` may return at once when no one else
has an exclusive lock, and then the handle is closed. -/
theorem C32_close {w : World} (_ : Reach w) (i : Nat) (h : Handle) (hi : w[i]? = some h) (hp : h.phase = .unlocking)
    (hfree : ∀ (j : Nat) o, w[j]? = some o → j ≠ i → o.file = h.file → o.mode ≠ some .ex) :
    ∃ w1 w2, Step w w1 ∧ Step w1 w2 ∧ w2[i]? = some { h with phase := .gone, mode := none } := by
  have hlt : i < w.length := by
    rcases Nat.lt_or_ge i w.length with h1 | h1
    · exact h1
    · rw [List.getElem?_eq_none h1] at hi; cases hi
  refine ⟨_, _, .unlock w i h hi hp hfree, .closed _ i { h with phase := .unlocked, mode := some unlockMode } ?_ rfl, ?_⟩
  · rw [List.getElem?_set, if_pos rfl, if_pos hlt]
  · rw [List.getElem?_set, if_pos rfl, if_pos (by simpa using hlt)]

/-- Two indexers can append to one index at the same time, and a reader can have it open as well. -/
theorem C32_false_appending (file : List Bytes) : Reach [⟨.appender, file, .live, some .sh⟩, ⟨.appender, file, .live, some .sh⟩,
    ⟨.reader, file, .live, some .sh⟩] := by
  have s0 := Reach.step _ _ .start (.new [] .appender file)
  have s1 := Reach.step _ _ s0 (.new _ .appender file)
  have s2 := Reach.step _ _ s1 (.new _ .reader file)
  have s3 := Reach.step _ _ s2 (.lock _ 0 ⟨.appender, file, .waiting, none⟩ rfl rfl (by
    intro j o ho; match j with | 0 => simp | 1 => simp at ho; subst ho; simp [Kind.mode] | 2 => simp at ho; subst ho; simp [Kind.mode] | j + 3 => simp at ho))
  have s4 := Reach.step _ _ s3 (.lock _ 1 ⟨.appender, file, .waiting, none⟩ rfl rfl (by
    intro j o ho; match j with | 0 => simp at ho; subst ho; simp [Kind.mode] | 1 => simp | 2 => simp at ho; subst ho; simp [Kind.mode] | j + 3 => simp at ho))
  have s5 := Reach.step _ _ s4 (.lock _ 2 ⟨.reader, file, .waiting, none⟩ rfl rfl (by
    intro j o ho; match j with | 0 => simp at ho; subst ho; simp [Kind.mode] | 1 => simp at ho; subst ho; simp [Kind.mode] | 2 => simp | j + 3 => simp at ho))
  have s6 := Reach.step _ _ s5 (.ready _ 0 ⟨.appender, file, .opening, some .sh⟩ rfl rfl)
  have s7 := Reach.step _ _ s6 (.ready _ 1 ⟨.appender, file, .opening, some .sh⟩ rfl rfl)
  exact Reach.step _ _ s7 (.ready _ 2 ⟨.reader, file, .opening, some .sh⟩ rfl rfl)

/-- `Unlock` does not unlock: as long as the handle is not closed, nobody else can get the lock exclusively. -/
theorem C32_false_unlock {w w' : World} (i : Nat) (h : Handle) (hi : w[i]? = some h)
    (hs : w' = w.set i { h with phase := .unlocked, mode := some unlockMode }) (j : Nat) (hij : j ≠ i) : ¬ Free w' j h.file .ex := by
  subst hs
  have hlt : i < w.length := by
    rcases Nat.lt_or_ge i w.length with h1 | h1
    · exact h1
    · rw [List.getElem?_eq_none h1] at hi; cases hi
  intro hf
  have := hf i { h with phase := .unlocked, mode := some unlockMode } (by rw [List.getElem?_set, if_pos rfl, if_pos hlt]) (Ne.symm hij) rfl
  cases this

/-- An attempt to create an index that fails (the directory exists, say) keeps its exclusive lock until its handle is collected or the process ends:
nobody can open the index that is there. -/
theorem C32_false_failed {w : World} (hr : Reach w) (i : Nat) (h : Handle) (hi : w[i]? = some h) (hk : h.kind = .creator) (hp : h.phase = .failed)
    (j : Nat) (hij : j ≠ i) (m : Mode) : ¬ Free w j h.file m := by
  have h1 := (LockInv.inv hr).ok i h hi
  unfold Ok at h1; rw [hp, hk] at h1
  intro hf
  have := hf i h hi (Ne.symm hij) rfl
  cases m with
  | sh => exact this h1
  | ex => simp only at this; rw [this] at h1; cases h1

/-- such a state is reached -/
example (file : List Bytes) : Reach [⟨.creator, file, .failed, some .ex⟩] := by
  have s0 := Reach.step _ _ .start (.new [] .creator file)
  have s1 := Reach.step _ _ s0 (.lock _ 0 ⟨.creator, file, .waiting, none⟩ rfl rfl (by
    intro j o ho; match j with | 0 => simp | j + 1 => simp at ho))
  exact Reach.step _ _ s1 (.fail _ 0 ⟨.creator, file, .opening, some .ex⟩ rfl rfl)

/-- a creator in use while another waits -/
example (file : List Bytes) : ∃ w : World, Reach w ∧ w[0]? = some ⟨.creator, file, .live, some .ex⟩ ∧ w[1]? = some ⟨.reader, file, .waiting, none⟩ := by
  have s0 := Reach.step _ _ .start (.new [] .creator file)
  have s1 := Reach.step _ _ s0 (.lock _ 0 ⟨.creator, file, .waiting, none⟩ rfl rfl (by
    intro j o ho; match j with | 0 => simp | j + 1 => simp at ho))
  have s2 := Reach.step _ _ s1 (.ready _ 0 ⟨.creator, file, .opening, some .ex⟩ rfl rfl)
  exact ⟨_, Reach.step _ _ s2 (.new _ .reader file), rfl, rfl⟩

/-! ## which file is locked -/

theorem foldl_step_nodots (es : List Bytes) : ∀ at_ : List Bytes, (∀ e ∈ at_, e ≠ [46] ∧ e ≠ [46, 46]) →
    ∀ e ∈ es.foldl step at_, e ≠ [46] ∧ e ≠ [46, 46] := by
  induction es with
  | nil => intro at_ h; exact h
  | cons x es ih =>
    intro at_ h
    refine ih _ ?_
    intro e he
    unfold step at he
    by_cases h1 : x = [46]
    · rw [if_pos h1] at he; exact h e he
    · rw [if_neg h1] at he
      by_cases h2 : x = [46, 46]
      · rw [if_pos h2] at he; exact h e (List.dropLast_subset _ he)
      · rw [if_neg h2] at he
        rcases List.mem_append.mp he with he | he
        · exact h e he
        · simp at he; subst he; exact ⟨h1, h2⟩

theorem place_nodots (cwd p : Bytes) : ∀ e ∈ place cwd p, e ≠ [46] ∧ e ≠ [46, 46] := by
  unfold place
  refine foldl_step_nodots _ _ ?_
  split
  · simp
  · exact foldl_step_nodots _ _ (by simp)

theorem foldl_step_plain (es at_ : List Bytes) (h : ∀ e ∈ es, e ≠ [46] ∧ e ≠ [46, 46]) : es.foldl step at_ = at_ ++ es := by
  induction es generalizing at_ with
  | nil => simp
  | cons e es ih =>
    rw [List.foldl_cons, ih _ (fun x hx => h x (by simp [hx]))]
    have := h e (by simp)
    simp [step, this.1, this.2]

theorem elems_noSlash {e : Bytes} (h0 : e ≠ []) (h : (47 : UInt8) ∉ e) : elems e = [e] := by
  rw [← elems_split, splitSlash_noSlash e h]; simp [h0]

/-- the place of a path with a plain last element -/
theorem place_snoc (cwd pre e : Bytes) (hpre : pre = [] ∨ ∃ q, pre = q ++ [47]) (h0 : e ≠ []) (hs : (47 : UInt8) ∉ e) (h1 : e ≠ [46]) (h2 : e ≠ [46, 46]) :
    place cwd (pre ++ e) = place cwd pre ++ [e] := by
  have hst : ∀ l, step l e = l ++ [e] := fun l => by simp [step, h1, h2]
  rcases hpre with rfl | ⟨q, rfl⟩
  · rw [List.nil_append]
    unfold place
    rw [elems_noSlash h0 hs]
    have hh : e.head? ≠ some 47 := by
      intro he
      cases e with
      | nil => exact h0 rfl
      | cons b e => simp at he; subst he; exact hs (by simp)
    rw [if_neg hh, if_neg (by simp)]
    simp only [List.foldl_cons, List.foldl_nil, hst]
    rfl
  · have e1 : elems (q ++ [47] ++ e) = elems q ++ [e] := by
      rw [List.append_assoc, List.singleton_append]; rw [show q ++ 47 :: e = q ++ sep :: e from rfl, elems_append, elems_noSlash h0 hs]
    have e2 : elems (q ++ [47]) = elems q := by
      rw [show q ++ [47] = q ++ sep :: [] from rfl, elems_append]
      have : elems [] = [] := rfl
      rw [this, List.append_nil]
    have e3 : (q ++ [47] ++ e).head? = (q ++ [47]).head? := by cases q <;> rfl
    unfold place
    rw [e1, e2, e3, List.foldl_append]
    simp only [List.foldl_cons, List.foldl_nil, hst]

theorem elems_placeName (l : List Bytes) (h : ∀ e ∈ l, e ≠ [] ∧ (47 : UInt8) ∉ e) : elems (placeName l) = l := by
  unfold placeName
  rw [elems_cons_sep, ← joinSlash_intersperse, ← elems_split]
  cases l with
  | nil => decide
  | cons a l =>
    rw [splitSlash_join _ (by simp) (fun e he => (h e he).2)]
    exact List.filter_eq_self.mpr fun e he => by simpa using (h e he).1

theorem placeName_snoc (l : List Bytes) (e x : Bytes) : ∃ pre, placeName (l ++ [e]) ++ x = pre ++ (e ++ x) ∧ (∃ q, pre = q ++ [47]) ∧
    pre.head? = some 47 ∧ elems pre = elems (placeName l) := by
  cases l with
  | nil => exact ⟨[47], by simp [placeName], ⟨[], rfl⟩, rfl, by decide⟩
  | cons a l =>
    refine ⟨placeName (a :: l) ++ [47], ?_, ⟨_, rfl⟩, rfl, ?_⟩
    · unfold placeName
      rw [← joinSlash_intersperse, ← joinSlash_intersperse]
      have : ∀ (l : List Bytes), l ≠ [] → joinSlash (l ++ [e]) = joinSlash l ++ 47 :: e := by
        intro l
        induction l with
        | nil => intro h; exact absurd rfl h
        | cons b l ih =>
          intro _
          cases l with
          | nil => rfl
          | cons c l =>
            rw [List.cons_append, joinSlash_cons b (by simp), ih (by simp), joinSlash_cons b (by simp)]; simp
      rw [this _ (by simp)]; simp
    · rw [show placeName (a :: l) ++ [47] = placeName (a :: l) ++ sep :: [] from rfl, elems_append]
      have : elems [] = [] := rfl
      rw [this, List.append_nil]

theorem place_placeName_ext (cwd : Bytes) (l : List Bytes) (e x : Bytes) (h : ∀ a ∈ l ++ [e], a ≠ [] ∧ (47 : UInt8) ∉ a)
    (hd : ∀ a ∈ l, a ≠ [46] ∧ a ≠ [46, 46]) (hx : (47 : UInt8) ∉ e ++ x) (h1 : e ++ x ≠ [46]) (h2 : e ++ x ≠ [46, 46]) :
    place cwd (placeName (l ++ [e]) ++ x) = l ++ [e ++ x] := by
  obtain ⟨pre, p1, p2, p3, p4⟩ := placeName_snoc l e x
  have he := (h e (by simp)).1
  rw [p1, place_snoc cwd pre (e ++ x) (.inr p2) (by simp [he]) hx h1 h2]
  unfold place
  rw [p3, if_pos rfl, p4, elems_placeName l (fun a ha => h a (by simp [ha])), foldl_step_plain _ _ hd, List.nil_append]

/-- **C32.**  Readers and writers lock the same file when the last element of the root is a name (not ".", "..", and no slash after it). -/
theorem C32_same_file_partial (cwd pre e : Bytes) (hpre : pre = [] ∨ ∃ q, pre = q ++ [47]) (h0 : e ≠ []) (hs : (47 : UInt8) ∉ e) (h1 : e ≠ [46])
    (h2 : e ≠ [46, 46]) : place cwd (readerLock (pre ++ e)) = place cwd (writerLock cwd (pre ++ e)) := by
  have g0 : e ++ dotLock ≠ [] := by simp [dotLock]
  have g1 : (47 : UInt8) ∉ e ++ dotLock := by simp [dotLock, hs]
  have g2 : e ++ dotLock ≠ [46] := by intro h; have := congrArg List.length h; simp [dotLock] at this
  have g3 : e ++ dotLock ≠ [46, 46] := by intro h; have := congrArg List.length h; simp [dotLock] at this
  unfold readerLock writerLock lockPath
  rw [absPath_place, place_snoc cwd pre e hpre h0 hs h1 h2, List.append_assoc, place_snoc cwd pre _ hpre g0 g1 g2 g3]
  rw [place_placeName_ext cwd _ e dotLock ?_ (place_nodots cwd pre) g1 g2 g3]
  intro a ha
  rcases List.mem_append.mp ha with ha | ha
  · exact place_good cwd pre a ha
  · simp at ha; subst ha; exact ⟨h0, hs⟩

/-- With a slash at the end of the root (of any directory but "/") a reader locks another file than the writers do. -/
theorem C32_false_slash (cwd root : Bytes) (h : place cwd (root ++ [47]) ≠ []) :
    place cwd (readerLock (root ++ [47])) ≠ place cwd (writerLock cwd (root ++ [47])) := by
  have hr : place cwd (readerLock (root ++ [47])) = place cwd (root ++ [47]) ++ [dotLock] :=
    place_snoc cwd (root ++ [47]) dotLock (.inr ⟨root, rfl⟩) (by decide) (by decide) (by decide) (by decide)
  have hw : (place cwd (writerLock cwd (root ++ [47]))).length = (place cwd (root ++ [47])).length := by
    unfold writerLock lockPath
    rw [absPath_place]
    have hgood := place_good cwd (root ++ [47])
    have hdots := place_nodots cwd (root ++ [47])
    generalize place cwd (root ++ [47]) = l at h hgood hdots
    obtain ⟨k, e, rfl⟩ : ∃ k e, l = k ++ [e] := ⟨l.dropLast, l.getLast h, (List.dropLast_concat_getLast h).symm⟩
    have he := hgood e (by simp)
    rw [place_placeName_ext cwd k e dotLock hgood (fun a ha => hdots a (by simp [ha])) (by simp [dotLock, he.2])
      (by intro h; have := congrArg List.length h; simp [dotLock] at this) (by intro h; have := congrArg List.length h; simp [dotLock] at this)]
    simp
  intro he
  have := congrArg List.length he
  rw [hr, hw] at this
  simp at this

end Dupi.Props
