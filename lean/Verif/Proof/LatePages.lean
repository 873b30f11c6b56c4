import Verif.Spec.LatePages
import Verif.Proof.AnyGet
import Verif.Props.PowerLoss
/-! Pages of a list that are in another file too. -/

namespace Dupi
open Spec

theorem number_one {f : Bytes} {p v v' : Int} {n n' : Nat} (h : NumberAt f p v n) (h' : NumberAt f p v' n') : v = v' ∧ n = n' := by
  have h1 := (readVarintAt_any f _ _ _).mpr h
  rw [(readVarintAt_any f _ _ _).mpr h'] at h1
  injection h1 with h1
  injection h1 with h1 h2
  exact ⟨h1.symm, h2.symm⟩

theorem same_drop {f f' : Bytes} {p e : Nat} (h : ∀ i, p ≤ i → i < e → f'[i]? = f[i]?) : (f'.drop p).take (e - p) = (f.drop p).take (e - p) := by
  apply List.ext_getElem?
  intro i
  by_cases hi : i < e - p
  · rw [List.getElem?_take_of_lt hi, List.getElem?_take_of_lt hi, List.getElem?_drop, List.getElem?_drop]
    exact h _ (by omega) (by omega)
  · rw [List.getElem?_eq_none (by simp; omega), List.getElem?_eq_none (by simp; omega)]

/-- a number is in the other file too, if its bytes are -/
theorem number_same {f f' : Bytes} {p v : Int} {n : Nat} (h : NumberAt f p v n) (hs : SameBytes f f' p (p + n)) : NumberAt f' p v n := by
  obtain ⟨h0, bs, b, rest, h1, h2, h3, h4⟩ := h
  have hp : ((p.toNat : Nat) : Int) = p := Int.toNat_of_nonneg h0
  have hd := same_drop (f := f) (f' := f') (p := p.toNat) (e := p.toNat + n) fun i i1 i2 => hs i (by omega) (by omega)
  rw [Nat.add_sub_cancel_left, h1] at hd
  have hb : (bs ++ b :: rest).take n = bs ++ [b] := by
    rw [show bs ++ b :: rest = (bs ++ [b]) ++ rest by simp, List.take_append_of_le_length (by simp; omega), List.take_of_length_le (by simp; omega)]
  rw [hb] at hd
  refine ⟨h0, bs, b, (f'.drop p.toNat).drop n, ?_, h2, h3, h4⟩
  refine (List.take_append_drop n _).symm.trans ?_
  rw [hd]
  simp

theorem getBE64_take {b b' : Bytes} (h : b'.take 8 = b.take 8) (hl : 8 ≤ b.length) : getBE64 b' = getBE64 b := by
  match b, hl with
  | b0 :: b1 :: b2 :: b3 :: b4 :: b5 :: b6 :: b7 :: t, _ =>
    simp only [List.take_succ_cons, List.take_zero] at h
    match b', h with
    | a0 :: a1 :: a2 :: a3 :: a4 :: a5 :: a6 :: a7 :: t', h =>
      simp only [List.take_succ_cons, List.take_zero, List.cons.injEq, and_true] at h
      obtain ⟨rfl, rfl, rfl, rfl, rfl, rfl, rfl, rfl⟩ := h
      rfl

theorem Spec.PageTo.page {f : Bytes} {p : Int} {ds : List Nat} {r e : Int} (h : PageTo f p ds r e) : PageAt f p ds r := by
  obtain ⟨n, v, h1, h2, h3, _⟩ := h
  exact ⟨n, v, h1, h2, h3⟩

theorem Spec.PageAt.to {f : Bytes} {p : Int} {ds : List Nat} {r : Int} (h : PageAt f p ds r) : ∃ e, PageTo f p ds r e := by
  obtain ⟨n, v, h1, h2, h3⟩ := h
  exact ⟨_, n, v, h1, h2, h3, rfl⟩

/-- a page is in the other file too, if its bytes are -/
theorem Spec.PageTo.same {f f' : Bytes} {p : Int} {ds : List Nat} {r e : Int} (h : PageTo f p ds r e) (hs : SameBytes f f' p e) : PageTo f' p ds r e := by
  obtain ⟨n, v, ⟨h1, h2, h3, h4, w, h5, h6⟩, h7, h8, rfl⟩ := h
  have h0 := h1.1
  have hlen : p + n + v ≤ f'.length := by
    have hl : (p + n + v - 1).toNat < f.length := by omega
    have := hs (p + n + v - 1).toNat (by omega) (by omega)
    rw [List.getElem?_eq_getElem hl] at this
    have := (List.getElem?_eq_some_iff.mp this).1
    omega
  refine ⟨n, v, ⟨number_same h1 fun i i1 i2 => hs i i1 (by omega), h2, h3, hlen, w, ?_, h6⟩, h7, ?_, rfl⟩
  · rw [← h5]
    refine getBE64_take ?_ (by rw [List.length_drop]; omega)
    have := same_drop (f := f) (f' := f') (p := (p + n + v - 8).toNat) (e := (p + n + v - 8).toNat + 8) fun i i1 i2 => hs i (by omega) (by omega)
    rwa [Nat.add_sub_cancel_left] at this
  · have := same_drop (f := f) (f' := f') (p := (p + n).toNat) (e := (p + n).toNat + (v.toNat - 8)) fun i i1 i2 => hs i (by omega) (by omega)
    rw [Nat.add_sub_cancel_left] at this
    rw [this]; exact h8

theorem Spec.KeptPages.pages {f f' : Bytes} : ∀ {dss : List (List Nat)} {p q : Int}, KeptPages f f' p dss q → Pages f' p dss q ∧ Pages f p dss q := by
  intro dss
  induction dss with
  | nil => intro p q h; exact ⟨h, h⟩
  | cons ds dss ih =>
    rintro p q ⟨h1, r, e, h2, h3, h4⟩
    exact ⟨⟨h1, r, (h2.same h3).page, (ih h4).1⟩, h1, r, h2.page, (ih h4).2⟩

/-- where something is gone no page is, and no length that makes a reader panic -/
theorem Spec.Gone.no {f f' : Bytes} {q : Int} {ds : List Nat} {r e : Int} (hp : PageTo f q ds r e) (hg : Gone f f' q e) :
    ¬ WildAt f' q ∧ ¬ ∃ ds r, PageAt f' q ds r := by
  obtain ⟨n, v, ⟨h1, h2, h3, h4, w, h5, h6⟩, h7, h8, rfl⟩ := hp
  have h0 := h1.1
  rcases hg with hz | ⟨hl, hs⟩
  · obtain ⟨hl, hg⟩ := List.getElem?_eq_some_iff.mp hz
    have hn : NumberAt f' q 0 1 := by
      refine ⟨h0, [], 0, f'.drop (q.toNat + 1), ?_, rfl, by decide, by simp, by decide, by decide, by decide⟩
      rw [List.nil_append, ← hg, ← List.drop_eq_getElem_cons hl]
    refine ⟨?_, ?_⟩
    · rintro ⟨v', n', k1, k2⟩
      have := (number_one hn k1).1
      omega
    · rintro ⟨_, _, n', v', ⟨k1, k2, _⟩, _⟩
      have := (number_one hn k1).1
      omega
  · have key : ∀ v' n', NumberAt f' q v' n' → v' = v ∧ n' = n := by
      intro v' n' k
      have hq : q + n' ≤ f'.length := by
        obtain ⟨_, bs, b, rest, e1, e2, _⟩ := k
        have := congrArg List.length e1
        simp only [List.length_drop, List.length_append, List.length_cons] at this
        omega
      have k' : NumberAt f q v' n' := number_same k fun i i1 i2 => (hs i i1 (by omega)).symm
      exact number_one k' h1
    refine ⟨?_, ?_⟩
    · rintro ⟨v', n', k1, k2⟩
      have := (key _ _ k1).1
      omega
    · rintro ⟨_, _, n', v', ⟨k1, k2, _, k4, _⟩, _⟩
      obtain ⟨rfl, rfl⟩ := key _ _ k1
      omega

/-- the pages of a list up to the first that has not all its bytes -/
theorem kept_first {f : Bytes} (f' : Bytes) : ∀ {dss : List (List Nat)} {p q : Int}, Pages f p dss q →
    KeptPages f f' p dss q ∨ ∃ dss1 ds dss2 r s e, dss = dss1 ++ ds :: dss2 ∧ KeptPages f f' p dss1 r ∧ r ≠ -1 ∧ PageTo f r ds s e ∧ ¬ SameBytes f f' r e := by
  intro dss
  induction dss with
  | nil => intro p q h; exact .inl h
  | cons ds dss ih =>
    rintro p q ⟨h1, r, h2, h3⟩
    obtain ⟨e, h2⟩ := h2.to
    by_cases hs : SameBytes f f' p e
    · rcases ih h3 with h | ⟨dss1, ds', dss2, r', s, e', rfl, k1, k2⟩
      · exact .inl ⟨h1, r, e, h2, hs, h⟩
      · exact .inr ⟨ds :: dss1, ds', dss2, r', s, e', rfl, ⟨h1, r, e, h2, hs, k1⟩, k2⟩
    · exact .inr ⟨[], ds, dss, p, r, e, rfl, rfl, h1, h2, hs⟩

end Dupi
