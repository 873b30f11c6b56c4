import Verif.Model.Pointers
import Verif.Props.Shared
/-! # C125: pointers to the documents of a blot -/

namespace Dupi
namespace Props

/-- a blot whose slice lies in memory -/
def Placed (m : Mem) (b : HBlot) : Prop := ∀ s, b.docs = some s → s.len ≤ s.cap ∧ s.off + s.cap ≤ m.length

/-- the documents a blot shows -/
def shows (m : Mem) (b : HBlot) : List Doc :=
  match b.docs with
  | none => []
  | some s => (m.drop s.off).take s.len

theorem doc_ok {b : HBlot} {i : Int} {a : Nat} : b.doc i = .ok a ↔ ∃ s, b.docs = some s ∧ 0 ≤ i ∧ i < s.len ∧ a = s.off + i.toNat := by
  unfold HBlot.doc
  cases h : b.docs with
  | none => simp [panic']
  | some s =>
    simp only [Option.some.injEq, exists_eq_left']
    split
    · rename_i g
      simp only [Except.ok.injEq, g, true_and]
      exact eq_comm
    · rename_i g
      simp only [panic', reduceCtorEq, false_iff, not_and]
      intro h1 h2
      exact absurd ⟨h1, h2⟩ g

/-- **C125.**  `Doc(i)` is a pointer to document `i` of those the blot shows; it panics precisely if there is no such document. -/
theorem C125_doc {m : Mem} {b : HBlot} (h : Placed m b) (i : Int) :
    (∃ a, b.doc i = .ok a ∧ 0 ≤ i ∧ i < (shows m b).length ∧ m[a]? = (shows m b)[i.toNat]?) ∨
    (b.doc i = panic' ∧ ¬ (0 ≤ i ∧ i < (shows m b).length)) := by
  unfold HBlot.doc shows
  cases hd : b.docs with
  | none =>
    right
    refine ⟨rfl, ?_⟩
    simp only [List.length_nil]
    omega
  | some s =>
    obtain ⟨h1, h2⟩ := h s hd
    have hl : ((m.drop s.off).take s.len).length = s.len := by
      rw [List.length_take, List.length_drop]
      omega
    simp only [hl]
    split
    · rename_i g
      left
      refine ⟨_, rfl, g.1, g.2, ?_⟩
      rw [List.getElem?_take_of_lt (by omega), List.getElem?_drop]
    · rename_i g
      exact .inr ⟨rfl, g⟩

/-- **C125.**  As long as `Blot.Next` finds room, pointers to the documents of the blot stay what they are: `Doc(i)` is the same pointer
after it, to the same document. -/
theorem C125_room {grow : Nat → Nat} {lim : Bool} {m m' : Mem} {b b' : HBlot} (hroom : b.len < b.cap)
    (hn : b.next grow lim m = .ok (m', b')) {i : Int} {a : Nat} (ha : b.doc i = .ok a) : b'.doc i = .ok a ∧ m'[a]? = m[a]? := by
  obtain ⟨s, hs, h0, h1, rfl⟩ := doc_ok.mp ha
  unfold HBlot.len HBlot.cap at hroom
  rw [hs] at hroom
  simp only at hroom
  unfold HBlot.next at hn
  rw [hs] at hn
  cases lim <;> simp only [hroom, if_true, Except.ok.injEq, Prod.mk.injEq] at hn <;> obtain ⟨rfl, rfl⟩ := hn
  · refine ⟨doc_ok.mpr ⟨_, rfl, h0, by simp only; omega, rfl⟩, ?_⟩
    rw [List.getElem?_set_ne (by omega)]
  · exact ⟨doc_ok.mpr ⟨_, rfl, h0, by simp only; omega, rfl⟩, rfl⟩

/-- **C125 is false without room.**  When `Blot.Next` has to make a new array, no pointer to a document of the blot is one afterwards:
`Doc(i)` is another pointer, to a copy.  What is then written through the old pointer, whatever it is, the blot does not show. -/
theorem C125_false {grow : Nat → Nat} {m m' : Mem} {b b' : HBlot} (h : Placed m b) (hfull : b.len = b.cap)
    (hn : b.next grow false m = .ok (m', b')) {i : Int} {a : Nat} (ha : b.doc i = .ok a) :
    (∃ a', b'.doc i = .ok a' ∧ a' ≠ a ∧ m'[a']? = m[a]? ∧ m'[a]? = m[a]?) ∧ (∀ j a', b'.doc j = .ok a' → a' ≠ a) ∧
      ∀ d : Doc, shows (m'.set a d) b' = shows m' b' := by
  obtain ⟨s, hs, h0, h1, rfl⟩ := doc_ok.mp ha
  obtain ⟨p1, p2⟩ := h s hs
  unfold HBlot.len HBlot.cap at hfull
  rw [hs] at hfull
  simp only at hfull
  unfold HBlot.next at hn
  rw [hs] at hn
  simp only [hfull, Nat.lt_irrefl, if_false, Except.ok.injEq, Prod.mk.injEq] at hn
  obtain ⟨rfl, rfl⟩ := hn
  refine ⟨⟨m.length + i.toNat, doc_ok.mpr ⟨_, rfl, h0, by simp only; omega, rfl⟩, by omega, ?_, ?_⟩, ?_, ?_⟩
  · have hl : ((m.drop s.off).take s.cap).length = s.cap := by
      rw [List.length_take, List.length_drop]
      omega
    rw [List.getElem?_append_right (by omega), Nat.add_sub_cancel_left, List.getElem?_append_left (by omega),
      List.getElem?_take_of_lt (by omega), List.getElem?_drop]
  · rw [List.getElem?_append_left (by omega)]
  · intro j a' hj
    obtain ⟨s', e, j0, j1, rfl⟩ := doc_ok.mp hj
    simp only [Option.some.injEq] at e
    subst e
    simp only
    omega
  · intro d
    unfold shows
    simp only
    rw [List.set_append_left _ _ (by omega), List.drop_left' (by simp), List.drop_left' rfl]

/-- A blot that was given a slice keeps its pointers over `Get`, however many documents it is filled with. -/
theorem getLoopH_keeps {grow : Nat → Nat} {x : Index} {fuel : Nat} {rs : ReadState} {m m' : Mem} {b b' : HBlot}
    (h : Query.getLoopH grow x true fuel rs m b = .ok (m', b')) {i : Int} {a : Nat} (ha : b.doc i = .ok a) : b'.doc i = .ok a ∧ m'[a]? = m[a]? := by
  induction fuel generalizing rs m b with
  | zero => simp [Query.getLoopH] at h
  | succ fuel ih =>
    unfold Query.getLoopH at h
    split at h
    · simp only [Except.ok.injEq, Prod.mk.injEq] at h
      obtain ⟨rfl, rfl⟩ := h
      exact ⟨ha, rfl⟩
    · split at h
      · simp only [Except.ok.injEq, Prod.mk.injEq] at h
        obtain ⟨rfl, rfl⟩ := h
        exact ⟨ha, rfl⟩
      · cases h
      · simp only [bind, Except.bind] at h
        cases hn : b.next grow true m with
        | error e => rw [hn] at h; cases h
        | ok r =>
          obtain ⟨m1, b1⟩ := r
          rw [hn] at h
          simp only at h
          have hroom : b.len < b.cap := by
            unfold HBlot.next at hn
            unfold HBlot.len HBlot.cap
            cases hd : b.docs with
            | none => rw [hd] at hn; cases hn
            | some s =>
              rw [hd] at hn
              simp only at hn ⊢
              split at hn
              · assumption
              · cases hn
          obtain ⟨k1, k2⟩ := C125_room hroom hn ha
          split at h
          · cases h
          · cases h
          · obtain ⟨g1, g2⟩ := ih h k1
            refine ⟨g1, g2.trans (.trans ?_ k2)⟩
            obtain ⟨s, hs, h0, h1, rfl⟩ := doc_ok.mp ha
            unfold HBlot.next at hn
            rw [hs] at hn
            unfold HBlot.len HBlot.cap at hroom
            rw [hs] at hroom
            simp only at hroom
            simp only [hroom, if_true, Except.ok.injEq, Prod.mk.injEq] at hn
            obtain ⟨rfl, rfl⟩ := hn
            unfold HBlot.setLast
            simp only [Nat.add_eq_zero_iff, Nat.one_ne_zero, and_false, if_false]
            rw [List.getElem?_modify]
            simp only [if_neg (show ¬ s.off + (s.len + 1) - 1 = s.off + i.toNat by omega)]
            simp

/-- **C125** of `Get`: pointers to documents a blot had before the call point to the same documents of the blot after it. -/
theorem C125_get {grow : Nat → Nat} {x : Index} {fuel : Nat} {q : QState} {m m' : Mem} {b b' : HBlot}
    (h : Query.getH grow x fuel q m b = .ok (m', b')) {i : Int} {a : Nat} (ha : b.doc i = .ok a) : b'.doc i = .ok a ∧ m'[a]? = m[a]? := by
  obtain ⟨s, hs, _⟩ := doc_ok.mp ha
  unfold Query.getH at h
  split at h
  · cases h
  · split at h
    · cases h
    · simp only [bind, Except.bind] at h
      split at h
      · cases h
      · rw [hs] at h
        exact getLoopH_keeps h ha

/-- the slice of a blot has the same place and capacity as before -/
def SamePlace (b b' : HBlot) : Prop := ∀ s, b.docs = some s → ∃ s', b'.docs = some s' ∧ s'.off = s.off ∧ s'.cap = s.cap

theorem SamePlace.trans {a b c : HBlot} (h : SamePlace a b) (h' : SamePlace b c) : SamePlace a c := by
  intro s hs
  obtain ⟨s1, e1, e2, e3⟩ := h s hs
  obtain ⟨s2, g1, g2, g3⟩ := h' s1 e1
  exact ⟨s2, g1, g2.trans e2, g3.trans e3⟩

theorem next_place {grow : Nat → Nat} {m m' : Mem} {b b' : HBlot} (h : b.next grow true m = .ok (m', b')) : SamePlace b b' := by
  intro s hs
  unfold HBlot.next at h
  rw [hs] at h
  simp only at h
  split at h
  · simp only [Except.ok.injEq, Prod.mk.injEq] at h
    obtain ⟨rfl, rfl⟩ := h
    exact ⟨_, rfl, rfl, rfl⟩
  · cases h

theorem fillLoopH_stays {grow : Nat → Nat} {x : Index} {q q' : QState} {pos : UInt32} {fuel : Nat} {src : ReadState} {m m' : Mem} {b b' : HBlot}
    (h : Query.fillLoopH grow x q pos true fuel src m b = .ok (m', b', q')) : SamePlace b b' := by
  induction fuel generalizing src m b with
  | zero => simp [Query.fillLoopH] at h
  | succ fuel ih =>
    unfold Query.fillLoopH at h
    split at h
    · split at h
      · simp only [bind, Except.bind, pure, Except.pure] at h
        split at h
        · cases h
        · simp only [Except.ok.injEq, Prod.mk.injEq] at h
          obtain ⟨rfl, rfl, rfl⟩ := h
          exact fun s hs => ⟨s, hs, rfl, rfl⟩
      · cases h
      · simp only [bind, Except.bind] at h
        cases hn : b.next grow true m with
        | error e => rw [hn] at h; cases h
        | ok r =>
          obtain ⟨m1, b1⟩ := r
          rw [hn] at h
          simp only at h
          split at h
          · cases h
          · exact (next_place hn).trans (ih h)
    · simp only [Except.ok.injEq, Prod.mk.injEq] at h
      obtain ⟨rfl, rfl, rfl⟩ := h
      exact fun s hs => ⟨s, hs, rfl, rfl⟩

theorem nextLoopH_stays {grow : Nat → Nat} {x : Index} {ff fuel : Nat} {q : QState} {n : Nat} {m : Mem} {dst : List HBlot} {r : Query.NextResultH}
    (h : Query.nextLoopH grow x ff fuel q n m dst = .ok r) (j : Nat) (b : HBlot) (hj : dst[j]? = some b) : ∃ b', r.dst[j]? = some b' ∧ SamePlace b b' := by
  induction fuel generalizing q n m dst b with
  | zero => simp [Query.nextLoopH] at h
  | succ fuel ih =>
    have same : ∃ b', dst[j]? = some b' ∧ SamePlace b b' := ⟨b, hj, fun s hs => ⟨s, hs, rfl, rfl⟩⟩
    have step {c c' : HBlot} (hc : dst[n]? = some c) (hp : SamePlace c c') {q' : QState} {n' : Nat} {m' : Mem}
        (h' : Query.nextLoopH grow x ff fuel q' n' m' (dst.set n c') = .ok r) : ∃ b', r.dst[j]? = some b' ∧ SamePlace b b' := by
      by_cases e : n = j
      · subst e
        rw [hc] at hj
        injection hj with hj
        subst hj
        obtain ⟨hlt, _⟩ := List.getElem?_eq_some_iff.mp hc
        obtain ⟨b', g1, g2⟩ := ih h' c' (by rw [List.getElem?_set_self hlt])
        exact ⟨b', g1, hp.trans g2⟩
      · exact ih h' b (by rw [List.getElem?_set_ne e, hj])
    unfold Query.nextLoopH at h
    split at h
    · injection h with h
      subst h
      exact same
    · rename_i c hc
      split at h
      · cases h
      · simp only at h
        split at h
        · injection h with h
          subst h
          exact same
        · exact ih h b hj
      · simp only [bind, Except.bind] at h
        split at h
        · cases h
        · rename_i t ht
          obtain ⟨m1, c1, q1⟩ := t
          simp only at h
          have hp : SamePlace c c1 := by
            intro s hs
            unfold Query.fillBlotH at ht
            simp only [hs, Option.isSome_some] at ht
            exact fillLoopH_stays ht s rfl
          split at h
          · split at h
            · cases h
            · refine step hc (fun s hs => ?_) h
              obtain ⟨s', e1, e2, e3⟩ := hp s hs
              unfold Query.dropBlotH
              rw [hs, e1]
              exact ⟨_, rfl, e2, e3⟩
          · exact step hc hp h

/-- **C125** of `Query.Next`: the blots a client gave slices to stay where they are.  `Doc(i)` after the call is the pointer it was before, if the
blot still has a document `i` (it may be another document: a blot given up is filled anew). -/
theorem C125_next {grow : Nat → Nat} {x : Index} {ff fuel : Nat} {q : QState} {m : Mem} {dst : List HBlot} {r : Query.NextResultH}
    (h : Query.nextH grow x ff fuel q m dst = .ok r) {j : Nat} {b : HBlot} (hj : dst[j]? = some b) {i : Int} {a : Nat} (ha : b.doc i = .ok a) :
    ∃ b', r.dst[j]? = some b' ∧ (b'.doc i = .ok a ∨ (b'.doc i = panic' ∧ (b'.len : Int) ≤ i)) := by
  obtain ⟨b', g1, g2⟩ := nextLoopH_stays h j b hj
  obtain ⟨s, hs, h0, h1, rfl⟩ := doc_ok.mp ha
  obtain ⟨s', e1, e2, e3⟩ := g2 s hs
  refine ⟨b', g1, ?_⟩
  by_cases hi : i < s'.len
  · exact .inl (doc_ok.mpr ⟨s', e1, h0, hi, by rw [e2]⟩)
  · refine .inr ⟨?_, ?_⟩
    · unfold HBlot.doc
      rw [e1]
      exact if_neg fun g => hi g.2
    · unfold HBlot.len
      rw [e1]
      simp only
      omega

theorem fillLoopH_keeps {grow : Nat → Nat} {x : Index} {q q' : QState} {pos : UInt32} {fuel : Nat} {src : ReadState} {m m' : Mem} {b b' : HBlot}
    (h : Query.fillLoopH grow x q pos true fuel src m b = .ok (m', b', q')) {i : Int} {a : Nat} (ha : b.doc i = .ok a) : b'.doc i = .ok a ∧ m'[a]? = m[a]? := by
  induction fuel generalizing src m b with
  | zero => simp [Query.fillLoopH] at h
  | succ fuel ih =>
    unfold Query.fillLoopH at h
    split at h
    · rename_i hroom
      simp only [Bool.not_true, Bool.false_or, decide_eq_true_eq] at hroom
      split at h
      · simp only [bind, Except.bind, pure, Except.pure] at h
        split at h
        · cases h
        · simp only [Except.ok.injEq, Prod.mk.injEq] at h
          obtain ⟨rfl, rfl, rfl⟩ := h
          exact ⟨ha, rfl⟩
      · cases h
      · simp only [bind, Except.bind] at h
        cases hn : b.next grow true m with
        | error e => rw [hn] at h; cases h
        | ok r =>
          obtain ⟨m1, b1⟩ := r
          rw [hn] at h
          simp only at h
          obtain ⟨k1, k2⟩ := C125_room hroom hn ha
          split at h
          · cases h
          · obtain ⟨g1, g2⟩ := ih h k1
            refine ⟨g1, g2.trans (.trans ?_ k2)⟩
            obtain ⟨s, hs, h0, h1, rfl⟩ := doc_ok.mp ha
            unfold HBlot.next at hn
            rw [hs] at hn
            unfold HBlot.len HBlot.cap at hroom
            rw [hs] at hroom
            simp only at hroom
            simp only [hroom, if_true, Except.ok.injEq, Prod.mk.injEq] at hn
            obtain ⟨rfl, rfl⟩ := hn
            unfold HBlot.setLast
            simp only [Nat.add_eq_zero_iff, Nat.one_ne_zero, and_false, if_false]
            rw [List.getElem?_modify]
            simp only [if_neg (show ¬ s.off + (s.len + 1) - 1 = s.off + i.toNat by omega)]
            simp
    · simp only [Except.ok.injEq, Prod.mk.injEq] at h
      obtain ⟨rfl, rfl, rfl⟩ := h
      exact ⟨ha, rfl⟩

theorem nextLoopH_one_done {grow : Nat → Nat} {x : Index} {ff fuel : Nat} {q : QState} {m : Mem} {b : HBlot} {r : Query.NextResultH}
    (h : Query.nextLoopH grow x ff fuel q 1 m [b] = .ok r) : r.mem = m ∧ r.dst = [b] := by
  cases fuel with
  | zero => simp [Query.nextLoopH] at h
  | succ fuel =>
    unfold Query.nextLoopH at h
    simp only [List.getElem?_cons_succ, List.getElem?_nil, Except.ok.injEq] at h
    subst h
    exact ⟨rfl, rfl⟩

/-- **C125** of `Query.Next` with one blot that has at least two documents already: it is not given up, so pointers to its documents point to the
same documents of it after the call. -/
theorem C125_next_one {grow : Nat → Nat} {x : Index} {ff fuel : Nat} {q : QState} {m : Mem} {b : HBlot} {r : Query.NextResultH} (h2 : 2 ≤ b.len)
    (h : Query.nextH grow x ff fuel q m [b] = .ok r) {i : Int} {a : Nat} (ha : b.doc i = .ok a) :
    ∃ b', r.dst = [b'] ∧ b'.doc i = .ok a ∧ r.mem[a]? = m[a]? := by
  unfold Query.nextH at h
  obtain ⟨s, hs, _⟩ := doc_ok.mp ha
  induction fuel generalizing q with
  | zero => simp [Query.nextLoopH] at h
  | succ fuel ih =>
    unfold Query.nextLoopH at h
    simp only [List.getElem?_cons_zero] at h
    split at h
    · cases h
    · split at h
      · injection h with h
        subst h
        exact ⟨b, rfl, ha, rfl⟩
      · exact ih h
    · simp only [bind, Except.bind] at h
      split at h
      · cases h
      · rename_i t ht
        obtain ⟨m1, c1, q1⟩ := t
        simp only at h
        have hk {j : Int} {a : Nat} (hj : b.doc j = .ok a) : c1.doc j = .ok a ∧ m1[a]? = m[a]? := by
          obtain ⟨s', hs', g0, g1, g2⟩ := doc_ok.mp hj
          unfold Query.fillBlotH at ht
          simp only [hs', Option.isSome_some] at ht
          exact fillLoopH_keeps ht (doc_ok.mpr ⟨s', rfl, g0, g1, g2⟩)
        have hlen : ¬ c1.len ≤ 1 := by
          have hb : s.len = b.len := by unfold HBlot.len; rw [hs]
          obtain ⟨s1, e1, _, e3, _⟩ := doc_ok.mp (hk (j := 1) (doc_ok.mpr ⟨s, hs, by omega, by omega, rfl⟩)).1
          have hc : c1.len = s1.len := by unfold HBlot.len; rw [e1]
          omega
        rw [if_neg hlen] at h
        simp only [List.set_cons_zero, Nat.zero_add] at h
        obtain ⟨e1, e2⟩ := nextLoopH_one_done h
        obtain ⟨k1, k2⟩ := hk ha
        exact ⟨c1, e2, k1, by rw [e1, k2]⟩

/-- There is a blot with room and a full one, with pointers to their documents; `Next` of both ends. -/
theorem C125_nonvacuous : ∃ (m : Mem) (b c : HBlot), Placed m b ∧ Placed m c ∧ b.len < b.cap ∧ c.len = c.cap ∧ (∃ a, b.doc 0 = .ok a) ∧ (∃ a, c.doc 0 = .ok a) ∧
    (∀ grow lim, ∃ r, b.next grow lim m = .ok r) ∧ ∀ grow, ∃ r, c.next grow false m = .ok r := by
  refine ⟨[Doc.zero, Doc.zero], ⟨0, some ⟨0, 1, 2⟩⟩, ⟨0, some ⟨0, 2, 2⟩⟩, ?_, ?_, by decide, by decide, ⟨0, by rfl⟩, ⟨0, by rfl⟩, ?_, ?_⟩
  · intro s hs
    cases hs
    decide
  · intro s hs
    cases hs
    decide
  · intro grow lim
    cases lim <;> exact ⟨_, rfl⟩
  · intro grow
    exact ⟨_, rfl⟩

/-- There is an index, and a blot with a pointer to a document, of which `Get` ends with more documents than before; and `Next` ends. -/
theorem C125_nonvacuous_calls : ∃ (x : Index) (q q' : QState) (m : Mem) (b : HBlot), b.doc 0 = .ok 0 ∧
    (∃ m' b', Query.getH (fun _ => 0) x (2 ^ 32) q m b = .ok (m', b') ∧ b'.len = 3) ∧ ∃ r, Query.nextH (fun _ => 0) x (2 ^ 32) 3 q' m [b] = .ok r := by
  have hf : Fits asciiUni (exLimConfig 2) (Spec.documents exAgainHistory) := ⟨by decide +kernel, by decide +kernel, by decide +kernel⟩
  have hU := exLimUsable 2 (by decide) (by decide)
  obtain ⟨d, hd⟩ := History.exists (u := asciiUni) hU [47] _ [] hf
  obtain ⟨x, q, _, h⟩ := reading_exists hU mergeSorter_isSorter hd hf
  have lc : (Spec.found asciiUni (exLimConfig 2) (Spec.documents exAgainHistory) 0x5d7c).length = 5 := by decide +kernel
  have hl : (Spec.documents exAgainHistory).length < 2 ^ 32 := by decide +kernel
  refine ⟨x, q, ⟨[none], 0, 1, 0⟩, List.replicate 3 Doc.zero, ⟨0x5d7c, some ⟨0, 1, 3⟩⟩, rfl, ?_, ⟨_, rfl⟩⟩
  have hok : HBlot.Ok (List.replicate 3 Doc.zero) ⟨0x5d7c, some ⟨0, 1, 3⟩⟩ := by
    intro s hs
    cases hs
    decide
  have hg := C22_get_limited hU mergeSorter_isSorter h hf (fun _ => 0) 0x5d7c [Doc.zero] [Doc.zero, Doc.zero] (2 ^ 32) hl (q' := q) rfl
  rcases Query.getH_view (fun _ => 0) x (2 ^ 32) q hok with ⟨f, _, e⟩ | ⟨m', b', e1, e2, e3, _⟩
  · rw [show HBlot.view (List.replicate 3 Doc.zero) ⟨0x5d7c, some ⟨0, 1, 3⟩⟩ = ⟨0x5d7c, some ⟨[Doc.zero], [Doc.zero, Doc.zero]⟩⟩ from rfl] at e
    rw [hg] at e
    cases e
  · refine ⟨m', b', e1, ?_⟩
    rw [show HBlot.view (List.replicate 3 Doc.zero) ⟨0x5d7c, some ⟨0, 1, 3⟩⟩ = ⟨0x5d7c, some ⟨[Doc.zero], [Doc.zero, Doc.zero]⟩⟩ from rfl, hg] at e2
    injection e2 with e2
    rw [← HBlot.view_len e3, ← e2]
    unfold Blot.len
    simp only [List.length_append, List.length_zipWith, List.length_cons, List.length_nil]
    change 0 + 1 + min (0 + 1 + 1) (Spec.found asciiUni (exLimConfig 2) (Spec.documents exAgainHistory) 0x5d7c).length = 3
    rw [lc]
    rfl

/-- `Next` ends for a blot with two documents, on every index (here at the end of a query). -/
theorem C125_next_one_nonvacuous (x : Index) : ∃ (q : QState) (m : Mem) (b : HBlot) (r : Query.NextResultH), 2 ≤ b.len ∧ b.doc 1 = .ok 1 ∧
    Query.nextH (fun _ => 0) x 1 1 q m [b] = .ok r :=
  ⟨⟨[none], 0, 1, 0⟩, [Doc.zero, Doc.zero], ⟨0, some ⟨0, 2, 2⟩⟩, _, by decide, rfl, rfl⟩

end Props
end Dupi
