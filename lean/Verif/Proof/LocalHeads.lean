import Verif.Spec.Heads
import Verif.Proof.Local

/-! Which bytes of a file of heads belong to which list. -/

namespace Dupi
open Spec

def top (b : UInt8) : Bool := decide (128 ≤ b.toNat)

/-- a number of which only bits below the top bits of bytes have changed is a number of as many bytes, or none -/
theorem readUvarintLoop_shape (x : Nat) : ∀ (a s : Bytes) (i acc : Nat), a.map top = (putUvarint x).map top →
    (∃ v, readUvarintLoop (a ++ s) i acc = .ok (v, s)) ∨ Errs (readUvarintLoop (a ++ s) i acc) := by
  induction x using Nat.strongRecOn with
  | ind x ih =>
    intro a s i acc h
    by_cases hx : x < 128
    · rw [putUvarint_small hx] at h
      obtain ⟨b, rfl⟩ : ∃ b, a = [b] := by
        cases a with
        | nil => cases h
        | cons b a =>
          cases a with
          | nil => exact ⟨b, rfl⟩
          | cons c a => simp at h
      have hb : b < 0x80 := by
        have h1 : top b = top (UInt8.ofNat x) := by simpa using h
        have h2 : (UInt8.ofNat x).toNat = x := by rw [UInt8.toNat_ofNat']; omega
        simp only [top, h2, decide_eq_decide] at h1
        rw [u8_lt_iff]
        have : (0x80 : UInt8).toNat = 128 := rfl
        omega
      rw [List.singleton_append, readUvarintLoop]
      by_cases h1 : i = maxVarintLen64
      · rw [if_pos h1]; exact .inr ⟨_, rfl⟩
      · rw [if_neg h1]
        simp only [if_pos hb]
        by_cases h2 : i = maxVarintLen64 - 1 ∧ b > 1
        · rw [if_pos h2]; exact .inr ⟨_, rfl⟩
        · rw [if_neg h2]; exact .inl ⟨_, rfl⟩
    · rw [putUvarint_big (by omega)] at h
      cases a with
      | nil => cases h
      | cons b a =>
        rw [List.map_cons, List.map_cons, List.cons.injEq] at h
        have hb : ¬ b < 0x80 := by
          have h1 := h.1
          have h2 := u8_cont_not_lt x
          rw [u8_lt_iff] at h2 ⊢
          have : (0x80 : UInt8).toNat = 128 := rfl
          simp only [top, decide_eq_decide] at h1
          omega
        rw [List.cons_append, readUvarintLoop]
        by_cases h1 : i = maxVarintLen64
        · rw [if_pos h1]; exact .inr ⟨_, rfl⟩
        · rw [if_neg h1]
          simp only [if_neg hb]
          exact ih (x / 128) (by omega) a s _ _ h.2

theorem readVarint_shape (x : Int) (a s : Bytes) (h : a.map top = (putVarint x).map top) :
    (∃ v, readVarint (a ++ s) = .ok (v, s)) ∨ Errs (readVarint (a ++ s)) := by
  unfold readVarint readUvarint
  rcases readUvarintLoop_shape (zigzag x) a s 0 0 h with ⟨v, hv⟩ | ⟨e, he⟩
  · exact .inl ⟨unzigzag v, by simp only [hv, bind, Except.bind, pure, Except.pure]⟩
  · exact .inr ⟨e, by simp only [he, bind, Except.bind, fail]⟩

/-- what the byte at an offset of a file of heads belongs to, the first entry being that of list `k` -/
def partAt : List Poster → Nat → Nat → Option (Nat × Part)
  | [], _, _ => none
  | p :: ps, k, i =>
    if i < (putVarint p.head).length then some (k, .head)
    else if i < (putVarint p.head).length + (putVarint p.total.toNat).length then some (k, .count)
    else if i < (putVarint p.head).length + (putVarint p.total.toNat).length + 4 then some (k, .last)
    else partAt ps (k + 1) (i - ((putVarint p.head).length + (putVarint p.total.toNat).length + 4))

theorem partAt_ge (ps : List Poster) : ∀ k i k' r, partAt ps k i = some (k', r) → k ≤ k' := by
  induction ps with
  | nil => intro k i k' r h; cases h
  | cons p ps ih =>
    intro k i k' r h
    rw [partAt] at h
    by_cases h1 : i < (putVarint p.head).length
    · rw [if_pos h1] at h; injection h with h; injection h with h _; omega
    · rw [if_neg h1] at h
      by_cases h2 : i < (putVarint p.head).length + (putVarint p.total.toNat).length
      · rw [if_pos h2] at h; injection h with h; injection h with h _; omega
      · rw [if_neg h2] at h
        by_cases h3 : i < (putVarint p.head).length + (putVarint p.total.toNat).length + 4
        · rw [if_pos h3] at h; injection h with h; injection h with h _; omega
        · rw [if_neg h3] at h
          have := ih _ _ _ _ h
          omega

theorem map_eq_of_getElem? {α β : Type} (g : α → β) : ∀ (a b : List α), a.length = b.length →
    (∀ (i : Nat) x y, a[i]? = some x → b[i]? = some y → g x = g y) → a.map g = b.map g
  | [], [], _, _ => rfl
  | x :: a, y :: b, hl, h => by
    rw [List.map_cons, List.map_cons, h 0 x y rfl rfl, map_eq_of_getElem? g a b (by simpa using hl) (fun i x y hx hy => h (i + 1) x y (by simpa using hx) (by simpa using hy))]

/-- a list of the length of three others, one after the other, is divided accordingly -/
theorem split4 {f' A B C R : Bytes} (h : f'.length = (A ++ (B ++ (C ++ R))).length) :
    ∃ a b c r, f' = a ++ (b ++ (c ++ r)) ∧ a.length = A.length ∧ b.length = B.length ∧ c.length = C.length ∧ r.length = R.length := by
  simp only [List.length_append] at h
  refine ⟨f'.take A.length, (f'.drop A.length).take B.length, ((f'.drop A.length).drop B.length).take C.length, ((f'.drop A.length).drop B.length).drop C.length,
    by simp only [List.take_append_drop], ?_, ?_, ?_, ?_⟩ <;> simp <;> omega

theorem entry_bytes (p : Poster) (ps : List Poster) : (p :: ps).flatMap ShardIndexer.iixEntry =
    putVarint p.head ++ (putVarint p.total.toNat ++ (be32 p.current ++ ps.flatMap ShardIndexer.iixEntry)) := by
  simp only [List.flatMap_cons, ShardIndexer.iixEntry, List.append_assoc]

theorem get_left (a s : Bytes) (i : Nat) : (a ++ s)[a.length + i]? = s[i]? := by
  rw [List.getElem?_append_right (by omega), Nat.add_sub_cancel_left]

theorem get_right {n : Nat} {A : Bytes} (h : n = A.length) (S : Bytes) (i : Nat) : (A ++ S)[n + i]? = S[i]? := by
  rw [h, get_left]

/-- reading a file of heads of which bits were changed, but no top bit of a number -/
theorem readIix_parts (ps : List Poster) : ∀ (k0 : Nat) (f' : Bytes), f'.length = (ps.flatMap ShardIndexer.iixEntry).length →
    (∀ p ∈ ps, -(2 ^ 63) ≤ p.head ∧ p.head < 2 ^ 63) →
    (∀ (i k : Nat) (w : Part) x y, partAt ps k0 i = some (k, w) → w ≠ .last → f'[i]? = some x → (ps.flatMap ShardIndexer.iixEntry)[i]? = some y → SameTop x y) →
    (Errs (ShardIndex.readIix ps.length f') ∨ ∃ es, ShardIndex.readIix ps.length f' = .ok es ∧ es.length = ps.length ∧
      ∀ (k : Nat) p, ps[k]? = some p → (∀ i, partAt ps k0 i = some (k0 + k, .head) → f'[i]? = (ps.flatMap ShardIndexer.iixEntry)[i]?) →
        (es[k]?).map Prod.fst = some p.head) ∧
    ((∀ (i k : Nat) (w : Part), partAt ps k0 i = some (k, w) → w ≠ .last → f'[i]? = (ps.flatMap ShardIndexer.iixEntry)[i]?) →
      ShardIndex.readIix ps.length f' = .ok (ps.map fun p => (p.head, p.total))) := by
  induction ps with
  | nil => intro k0 f' _ _ _; exact ⟨.inr ⟨[], rfl, rfl, by simp⟩, fun _ => rfl⟩
  | cons p ps ih =>
    intro k0 f' hl hb htop
    have ht := p.total.toNat_lt
    rw [entry_bytes] at hl htop ⊢
    obtain ⟨a, b, c, r, rfl, la, lb, lc, lr⟩ := split4 hl
    rw [be32_length] at lc
    obtain ⟨hb1, hb2⟩ := hb p (by simp)
    -- which part the bytes are in
    have pa : ∀ i, i < a.length → partAt (p :: ps) k0 i = some (k0, .head) := fun i hi => by rw [partAt, if_pos (by omega)]
    have pb : ∀ i, i < b.length → partAt (p :: ps) k0 (a.length + i) = some (k0, .count) := fun i hi => by
      rw [partAt, if_neg (by omega), if_pos (by omega)]
    have pr : ∀ i, partAt (p :: ps) k0 (a.length + (b.length + (c.length + i))) = partAt ps (k0 + 1) i := fun i => by
      rw [partAt, if_neg (by omega), if_neg (by omega), if_neg (by omega)]
      congr 1; omega
    have ga : ∀ i, i < a.length → (a ++ (b ++ (c ++ r)))[i]? = a[i]? ∧
        (putVarint p.head ++ (putVarint p.total.toNat ++ (be32 p.current ++ ps.flatMap ShardIndexer.iixEntry)))[i]? = (putVarint p.head)[i]? := fun i hi => by
      rw [List.getElem?_append_left hi, List.getElem?_append_left (by omega)]; exact ⟨rfl, rfl⟩
    have gb : ∀ i, i < b.length → (a ++ (b ++ (c ++ r)))[a.length + i]? = b[i]? ∧
        (putVarint p.head ++ (putVarint p.total.toNat ++ (be32 p.current ++ ps.flatMap ShardIndexer.iixEntry)))[a.length + i]? = (putVarint p.total.toNat)[i]? := fun i hi => by
      rw [get_left, get_right la, List.getElem?_append_left hi, List.getElem?_append_left (by omega)]; exact ⟨rfl, rfl⟩
    have gr : ∀ i, (a ++ (b ++ (c ++ r)))[a.length + (b.length + (c.length + i))]? = r[i]? ∧
        (putVarint p.head ++ (putVarint p.total.toNat ++ (be32 p.current ++ ps.flatMap ShardIndexer.iixEntry)))[a.length + (b.length + (c.length + i))]? =
          (ps.flatMap ShardIndexer.iixEntry)[i]? := fun i => by
      rw [get_left, get_left, get_left, get_right la, get_right lb, get_right (by rw [be32_length]; exact lc)]; exact ⟨rfl, rfl⟩
    have ta : a.map top = (putVarint p.head).map top := by
      refine map_eq_of_getElem? top a _ la fun i x y hx hy => ?_
      have hi : i < a.length := (List.getElem?_eq_some_iff.mp hx).1
      have := htop i k0 .head x y (pa i hi) nofun (by rw [(ga i hi).1]; exact hx) (by rw [(ga i hi).2]; exact hy)
      simp only [top, decide_eq_decide]; exact this
    have tb : b.map top = (putVarint p.total.toNat).map top := by
      refine map_eq_of_getElem? top b _ lb fun i x y hx hy => ?_
      have hi : i < b.length := (List.getElem?_eq_some_iff.mp hx).1
      have := htop (a.length + i) k0 .count x y (pb i hi) nofun (by rw [(gb i hi).1]; exact hx) (by rw [(gb i hi).2]; exact hy)
      simp only [top, decide_eq_decide]; exact this
    have hc : readFull (c ++ r) 4 = .ok (c, r) := (readFull_exact _ _ _ _).mpr ⟨rfl, lc⟩
    obtain ⟨i1, i2⟩ := ih (k0 + 1) r lr (fun q hq => hb q (by simp [hq])) (fun i k w x y hp hw hx hy =>
      htop (a.length + (b.length + (c.length + i))) k w x y (by rw [pr]; exact hp) hw (by rw [(gr i).1]; exact hx) (by rw [(gr i).2]; exact hy))
    constructor
    · simp only [List.length_cons, ShardIndex.readIix]
      rcases readVarint_shape p.head a (b ++ (c ++ r)) ta with ⟨v, hv⟩ | ⟨e, he⟩
      · rcases readVarint_shape p.total.toNat b (c ++ r) tb with ⟨v', hv'⟩ | ⟨e, he⟩
        · simp only [hv, hv', bind, Except.bind]
          by_cases hct : v' < 0 ∨ 2 ^ 32 ≤ v'
          · rw [if_pos hct]; exact .inl ⟨_, rfl⟩
          · rw [if_neg hct]
            simp only [hc]
            rcases i1 with ⟨e, he⟩ | ⟨es, e1, e2, e3⟩
            · rw [he]; exact .inl ⟨e, rfl⟩
            · rw [e1]
              refine .inr ⟨_, rfl, by simp [e2], fun k q hq hk => ?_⟩
              cases k with
              | zero =>
                simp only [List.getElem?_cons_zero, Option.some.injEq] at hq
                subst hq
                have ea : a = putVarint p.head := by
                  apply List.ext_getElem?
                  intro i
                  by_cases hi : i < a.length
                  · have := hk i (by rw [pa i hi]; rfl)
                    rwa [(ga i hi).1, (ga i hi).2] at this
                  · rw [List.getElem?_eq_none (by omega), List.getElem?_eq_none (by omega)]
                rw [ea, readVarint_put _ _ hb1 hb2] at hv
                injection hv with hv
                injection hv with hv _
                simp [hv]
              | succ k =>
                have := e3 k q (by simpa using hq) (fun i hi => by
                  have := hk (a.length + (b.length + (c.length + i))) (by rw [pr, hi]; congr 2; omega)
                  rwa [(gr i).1, (gr i).2] at this)
                simpa using this
        · simp only [hv, he, bind, Except.bind, fail]; exact .inl ⟨e, rfl⟩
      · simp only [he, bind, Except.bind, fail]; exact .inl ⟨e, rfl⟩
    · intro hall
      have ea : a = putVarint p.head := by
        apply List.ext_getElem?
        intro i
        by_cases hi : i < a.length
        · have := hall i _ _ (pa i hi) nofun
          rwa [(ga i hi).1, (ga i hi).2] at this
        · rw [List.getElem?_eq_none (by omega), List.getElem?_eq_none (by omega)]
      have eb : b = putVarint p.total.toNat := by
        apply List.ext_getElem?
        intro i
        by_cases hi : i < b.length
        · have := hall _ _ _ (pb i hi) nofun
          rwa [(gb i hi).1, (gb i hi).2] at this
        · rw [List.getElem?_eq_none (by omega), List.getElem?_eq_none (by omega)]
      simp only [List.length_cons, ShardIndex.readIix]
      rw [ea, readVarint_put _ _ hb1 hb2]
      simp only [bind, Except.bind]
      rw [eb, readVarint_put _ _ (by omega) (by omega)]
      simp only []
      rw [if_neg (by omega)]
      simp only [hc]
      rw [i2 (fun i k w hp hw => by
        have := hall (a.length + (b.length + (c.length + i))) k w (by rw [pr]; exact hp) hw
        rwa [(gr i).1, (gr i).2] at this)]
      simp [pure, Except.pure]

theorem partAt_some (ps : List Poster) : ∀ (k i : Nat), i < (ps.flatMap ShardIndexer.iixEntry).length → partAt ps k i ≠ none := by
  induction ps with
  | nil => intro k i h; simp at h
  | cons p ps ih =>
    intro k i h
    rw [entry_bytes] at h
    simp only [List.length_append, be32_length] at h
    rw [partAt]
    by_cases h1 : i < (putVarint p.head).length
    · rw [if_pos h1]; nofun
    · rw [if_neg h1]
      by_cases h2 : i < (putVarint p.head).length + (putVarint p.total.toNat).length
      · rw [if_pos h2]; nofun
      · rw [if_neg h2]
        by_cases h3 : i < (putVarint p.head).length + (putVarint p.total.toNat).length + 4
        · rw [if_pos h3]; nofun
        · rw [if_neg h3]; exact ih _ _ (by omega)

theorem countP_range_add (m n : Nat) (q : Nat → Bool) : (List.range (m + n)).countP q = (List.range m).countP q + (List.range n).countP (fun i => q (m + i)) := by
  rw [List.range_add, List.countP_append, List.countP_map]; rfl

theorem countP_range_const {n : Nat} {q : Nat → Bool} (b : Bool) (h : ∀ i, i < n → q i = b) : (List.range n).countP q = if b then n else 0 := by
  cases b with
  | true => simp only [if_true]; rw [List.countP_eq_length.mpr (fun i hi => h i (by simpa using hi)), List.length_range]
  | false => simp only [Bool.false_eq_true, if_false]; rw [List.countP_eq_zero]; intro i hi; rw [h i (by simpa using hi)]; nofun

theorem partAt_count (ps : List Poster) : (∀ p ∈ ps, -(2 ^ 63) ≤ p.head ∧ p.head < 2 ^ 63) → ∀ k k0 : Nat,
    (List.range (ps.flatMap ShardIndexer.iixEntry).length).countP (fun i => partAt ps k0 i = some (k, .head)) ≤ 10 ∧
    (List.range (ps.flatMap ShardIndexer.iixEntry).length).countP (fun i => partAt ps k0 i = some (k, .count)) ≤ 5 ∧
    (List.range (ps.flatMap ShardIndexer.iixEntry).length).countP (fun i => partAt ps k0 i = some (k, .last)) ≤ 4 := by
  induction ps with
  | nil => intro _ k k0; simp
  | cons p ps ih =>
    intro hb k k0
    obtain ⟨hb1, hb2⟩ := hb p (by simp)
    have hla : (putVarint p.head).length ≤ 10 := putUvarint_length_u64 (zigzag_lt _ hb1 hb2)
    have ht := p.total.toNat_lt
    have hlb : (putVarint p.total.toNat).length ≤ 5 := putUvarint_length_le 4 _ (by unfold zigzag; rw [if_neg (by omega)]; omega)
    have hih := ih (fun q hq => hb q (by simp [hq])) k (k0 + 1)
    rw [entry_bytes]
    simp only [List.length_append, be32_length, countP_range_add]
    have pa : ∀ i, i < (putVarint p.head).length → partAt (p :: ps) k0 i = some (k0, .head) := fun i hi => by rw [partAt, if_pos (by omega)]
    have pb : ∀ i, i < (putVarint p.total.toNat).length → partAt (p :: ps) k0 ((putVarint p.head).length + i) = some (k0, .count) := fun i hi => by
      rw [partAt, if_neg (by omega), if_pos (by omega)]
    have pc : ∀ i, i < 4 → partAt (p :: ps) k0 ((putVarint p.head).length + ((putVarint p.total.toNat).length + i)) = some (k0, .last) := fun i hi => by
      rw [partAt, if_neg (by omega), if_neg (by omega), if_pos (by omega)]
    have pr : ∀ i, partAt (p :: ps) k0 ((putVarint p.head).length + ((putVarint p.total.toNat).length + (4 + i))) = partAt ps (k0 + 1) i := fun i => by
      rw [partAt, if_neg (by omega), if_neg (by omega), if_neg (by omega)]
      congr 1; omega
    simp only [pr]
    have hz : k = k0 → ∀ w, (List.range (ps.flatMap ShardIndexer.iixEntry).length).countP (fun i => decide (partAt ps (k0 + 1) i = some (k, w))) = 0 := by
      intro e w
      rw [List.countP_eq_zero]
      intro i _ hc
      have := partAt_ge ps _ _ _ _ (of_decide_eq_true hc)
      omega
    have ea : ∀ w : Part, (List.range (putVarint p.head).length).countP (fun i => decide (partAt (p :: ps) k0 i = some (k, w))) =
        if decide (k0 = k ∧ Part.head = w) then (putVarint p.head).length else 0 := fun w =>
      countP_range_const _ fun i hi => by rw [pa i hi]; simp
    have eb : ∀ w : Part, (List.range (putVarint p.total.toNat).length).countP (fun i => decide (partAt (p :: ps) k0 ((putVarint p.head).length + i) = some (k, w))) =
        if decide (k0 = k ∧ Part.count = w) then (putVarint p.total.toNat).length else 0 := fun w =>
      countP_range_const _ fun i hi => by rw [pb i hi]; simp
    have ec : ∀ w : Part, (List.range 4).countP (fun i => decide (partAt (p :: ps) k0 ((putVarint p.head).length + ((putVarint p.total.toNat).length + i)) = some (k, w))) =
        if decide (k0 = k ∧ Part.last = w) then 4 else 0 := fun w =>
      countP_range_const _ fun i hi => by rw [pc i hi]; simp
    simp only [ea, eb, ec]
    by_cases e : k = k0
    · simp only [hz e]
      subst e
      simp
      omega
    · have e' : ¬ k0 = k := fun h => e h.symm
      simp only [e', false_and, decide_false, Bool.false_eq_true, if_false, Nat.zero_add]
      exact hih

end Dupi
