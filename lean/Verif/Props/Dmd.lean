import Verif.Proof.Dmd
/-! # C06, C07, C29 (counting records): document ids and metadata over whole histories -/

namespace Dupi.Props
open Dupi.Dmd

/-- All documents of a history of sessions, in the order they were added. -/
def allDocs (h : List (Int × List Fields)) : List Fields := h.flatMap Prod.snd

private theorem sessions_file (h : List (Int × List Fields)) :
    ∀ (file : Option Bytes) (pre : List Fields), (∀ s ∈ h, 1 ≤ s.1) →
      ((file = none ∧ pre = [zeroFields]) ∨ (file = some (pre.flatMap encode) ∧ pre ≠ [])) →
      pre.length + (allDocs h).length < 2 ^ 32 →
      ∃ ids file', sessions file h = .ok (ids, file') ∧
        ids.map UInt32.toNat = List.range' pre.length (allDocs h).length ∧
        ((h = [] ∧ file' = file) ∨ file' = some ((pre ++ allDocs h).flatMap encode)) := by
  induction h with
  | nil => intro file pre _ _ _; exact ⟨[], file, rfl, by simp [allDocs], .inl ⟨rfl, rfl⟩⟩
  | cons s rest ih =>
    obtain ⟨fr, xs⟩ := s
    intro file pre hfr hfile hlen
    have h1 : (1 : Int) ≤ fr := hfr (fr, xs) (by simp)
    simp only [allDocs, List.flatMap_cons, List.length_append] at hlen
    have hopen : ∃ t, newAdder file fr = .ok t ∧ Inv t file pre := by
      rcases hfile with ⟨rfl, rfl⟩ | ⟨rfl, hne⟩
      · exact newAdder_none fr h1
      · exact newAdder_some fr h1 pre hne (by omega)
    obtain ⟨t, ht, hinv⟩ := hopen
    obtain ⟨hadds, hids⟩ := adds_inv xs hinv (by omega)
    have hclose := close_inv hadds
    have hpre : pre ≠ [] := hinv.nonempty
    obtain ⟨ids', file', hrest, hids', hf'⟩ := ih (some ((pre ++ xs).flatMap encode)) (pre ++ xs)
      (fun s hs => hfr s (List.mem_cons_of_mem _ hs)) (.inr ⟨rfl, by simp [hpre]⟩)
      (by simp only [List.length_append, allDocs]; omega)
    refine ⟨(adds t file xs).1 ++ ids', file', ?_, ?_, ?_⟩
    · simp only [sessions, session, ht, bind, Except.bind, pure, Except.pure, hclose, hrest]
    · simp only [List.map_append, hids, hids', allDocs, List.flatMap_cons, List.length_append,
        List.range'_append_1]
    · right
      rcases hf' with ⟨rfl, rfl⟩ | hf'
      · simp [allDocs]
      · rw [hf']; simp [allDocs]

/-- **C06.** Over any history of closed sessions followed by one still open session, whatever the
flush rates, the `k`-th document ever added gets id `k`. -/
theorem C06_ids (h : List (Int × List Fields)) (fr : Int) (xs : List Fields)
    (hfr : ∀ s ∈ h, 1 ≤ s.1) (hfr' : 1 ≤ fr)
    (hlen : (allDocs h).length + xs.length < 2 ^ 32 - 1) :
    ∃ ids file t, sessions none h = .ok (ids, file) ∧ newAdder file fr = .ok t ∧
      (ids ++ (adds t file xs).1).map UInt32.toNat
        = List.range' 1 ((allDocs h).length + xs.length) ∧
      (last (adds t file xs).2.1).toNat = (allDocs h).length + xs.length := by
  obtain ⟨ids, file, hs, hids, hf⟩ := sessions_file h none [zeroFields] hfr (.inl ⟨rfl, rfl⟩)
    (by simp; omega)
  simp only [List.length_singleton] at hids
  have hopen : ∃ t, newAdder file fr = .ok t ∧ Inv t file ([zeroFields] ++ allDocs h) := by
    rcases hf with ⟨rfl, rfl⟩ | rfl
    · exact newAdder_none fr hfr'
    · exact newAdder_some fr hfr' _ (by simp) (by simp; omega)
  obtain ⟨t, ht, hinv⟩ := hopen
  obtain ⟨hfin, h2⟩ := adds_inv xs hinv (by simp; omega)
  refine ⟨ids, file, t, hs, ht, ?_, ?_⟩
  · rw [List.map_append, hids, h2, ← List.range'_append_1]
    simp [Nat.add_comm]
  · obtain ⟨hs, hne, done, h1, _, h3, _⟩ := hfin
    have hl := congrArg List.length h1
    simp only [List.length_append, List.length_cons, List.length_nil] at hl hs
    simp only [last, UInt32.toNat_sub, UInt32.toNat_add, h3, UInt32.toNat_ofNat', UInt32.toNat_one]
    omega

/-- **C07.** After any history of sessions, looking up the id of an added document gives the
metadata it was added with; ids beyond the last one assigned are rejected. -/
theorem C07_lookup (h : List (Int × List Fields)) (hne : h ≠ [])
    (hfr : ∀ s ∈ h, 1 ≤ s.1) (hlen : (allDocs h).length < 2 ^ 32 - 1) :
    ∃ ids file, sessions none h = .ok (ids, some file) ∧
      (∀ (k : Nat) x, (allDocs h)[k]? = some x → ∃ id, ids[k]? = some id ∧ lookup file id = .ok x) ∧
      (∀ did : UInt32, did ≠ 0 → did ∉ ids → lookup file did = fail .eof) := by
  obtain ⟨ids, file, hs, hids, hf⟩ := sessions_file h none [zeroFields] hfr (.inl ⟨rfl, rfl⟩)
    (by simp; omega)
  simp only [hne, false_and, false_or] at hf
  subst hf
  simp only [List.length_singleton] at hids
  have hidlen : ids.length = (allDocs h).length := by
    have := congrArg List.length hids; simpa using this
  have hget : ∀ k (hk : k < ids.length), (ids[k]).toNat = 1 + k := by
    intro k hk
    have h1 : (ids.map UInt32.toNat)[k]? = (List.range' 1 (allDocs h).length)[k]? := by rw [hids]
    rw [List.getElem?_map, List.getElem?_eq_getElem hk,
      List.getElem?_range' (by omega)] at h1
    simpa using h1
  refine ⟨ids, _, hs, ?_, ?_⟩
  · intro k x hk
    obtain ⟨hk', hx⟩ := List.getElem?_eq_some_iff.mp hk
    refine ⟨ids[k], List.getElem?_eq_getElem (by omega), ?_⟩
    have hid := hget k (by omega)
    rw [lookup_encode _ _ (by rw [hid]; simp; omega)]
    simp only [hid, Nat.add_comm 1 k]
    simp [hx]
  · intro did h0 hnot
    refine lookup_past _ _ ?_
    apply Nat.le_of_not_lt
    intro hlt
    simp only [List.length_append, List.length_singleton] at hlt
    have hpos : did.toNat ≠ 0 := fun h => h0 (UInt32.toNat_inj.mp (by simpa using h))
    have := hget (did.toNat - 1) (by omega)
    apply hnot
    have he : did = ids[did.toNat - 1]'(by omega) := UInt32.toNat_inj.mp (by rw [this]; omega)
    rw [he]; exact List.getElem_mem _

/-- The file holds one record more than there are documents, so `NumDocs` — and with it
`Stats().NumDocs` — is one too large (C29 is false for NumDocs). -/
theorem C29_numDocs_off_by_one (h : List (Int × List Fields)) (hne : h ≠ [])
    (hfr : ∀ s ∈ h, 1 ≤ s.1) (hlen : (allDocs h).length < 2 ^ 32 - 1) :
    ∃ ids file, sessions none h = .ok (ids, some file) ∧
      numDocs file = (allDocs h).length + 1 := by
  obtain ⟨ids, file, hs, hids, hf⟩ := sessions_file h none [zeroFields] hfr (.inl ⟨rfl, rfl⟩)
    (by simp; omega)
  simp only [hne, false_and, false_or] at hf
  subst hf
  refine ⟨ids, _, hs, ?_⟩
  rw [numDocs, encodeAll_length, rcdSize]
  simp

/-- A flush rate of zero makes the very first `NewAdder` on a directory panic. -/
theorem C06_flushRate_zero : newAdder none 0 = panic' := by decide

-- non-vacuity: two sessions with flush rates 1 and 2
example : sessions none [(1, [⟨7, 0, 5⟩, ⟨8, 1, 9⟩]), (2, [⟨9, 0, 1⟩])]
    = .ok ([1, 2, 3], some (([⟨0, 0, 0⟩, ⟨7, 0, 5⟩, ⟨8, 1, 9⟩, ⟨9, 0, 1⟩] : List Fields).flatMap encode)) := by
  decide +kernel
example : lookup (([⟨0, 0, 0⟩, ⟨7, 0, 5⟩, ⟨8, 1, 9⟩] : List Fields).flatMap encode) 2 = .ok ⟨8, 1, 9⟩ := by
  decide +kernel

end Dupi.Props
