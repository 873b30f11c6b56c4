import Verif.Model.Query
import Verif.Proof.Crash
import Verif.Proof.Cut
import Verif.Props.Query
import Verif.Spec.Damage
import Verif.Proof.Varint
import Verif.Proof.Reuse
/-! # Posting files with any contents -/

namespace Dupi
open Spec

/-! ## Numbers -/

theorem unzigzag_signed (m : Nat) : unzigzag m = signed m := by
  unfold unzigzag signed
  by_cases h : m % 2 = 0
  · rw [if_neg (by omega), if_pos h]
  · rw [if_pos h, if_neg h]

theorem uvarintLoop_any (bs : Bytes) : ∀ (b : UInt8) (i x : Nat), (∀ c ∈ bs, 128 ≤ c.toNat) → b.toNat < 128 → i + bs.length < 10 → x < 2 ^ (7 * i) →
    (x + sevens (bs ++ [b]) * 2 ^ (7 * i) < 2 ^ 64 → uvarintLoop (bs ++ [b]) i x = (x + sevens (bs ++ [b]) * 2 ^ (7 * i), ((i + bs.length + 1 : Nat) : Int))) ∧
    (¬ x + sevens (bs ++ [b]) * 2 ^ (7 * i) < 2 ^ 64 → (uvarintLoop (bs ++ [b]) i x).2 < 0) := by
  induction bs with
  | nil =>
    intro b i x _ hb hi hx
    simp only [List.nil_append, List.length_nil, Nat.add_zero, sevens, Nat.mul_zero] at hi ⊢
    have hb' : b.toNat % 128 = b.toNat := Nat.mod_eq_of_lt hb
    have hlt : b < 0x80 := (u8_lt_iff b _).mpr hb
    rw [hb']
    unfold uvarintLoop
    rw [if_neg (by show ¬ i = 10; omega), if_pos hlt]
    have hgt : b > 1 ↔ 1 < b.toNat := u8_lt_iff 1 b
    by_cases h9 : i = 9
    · subst h9
      by_cases h1 : 1 < b.toNat
      · rw [if_pos ⟨rfl, hgt.mpr h1⟩]
        refine ⟨fun h => ?_, fun _ => by simp only []; omega⟩
        exfalso
        have : 2 * 2 ^ (7 * 9) ≤ b.toNat * 2 ^ (7 * 9) := Nat.mul_le_mul_right _ h1
        simp only [Nat.reduceMul, Nat.reducePow] at this h
        omega
      · rw [if_neg (fun h => h1 (hgt.mp h.2)), or_shift _ _ _ hx]
        refine ⟨fun _ => rfl, fun h => ?_⟩
        exfalso
        apply h
        have : b.toNat * 2 ^ (7 * 9) ≤ 1 * 2 ^ (7 * 9) := Nat.mul_le_mul_right _ (by omega)
        simp only [Nat.reduceMul, Nat.reducePow] at this hx ⊢
        omega
    · rw [if_neg (fun h => h9 h.1), or_shift _ _ _ hx]
      refine ⟨fun _ => rfl, fun h => ?_⟩
      exfalso
      apply h
      have h1 : b.toNat * 2 ^ (7 * i) ≤ 127 * 2 ^ (7 * i) := Nat.mul_le_mul_right _ (by omega)
      have h2 : 2 ^ (7 * i) ≤ 2 ^ 56 := Nat.pow_le_pow_right (by decide) (by omega)
      simp only [Nat.reducePow] at h2 ⊢
      omega
  | cons c bs ih =>
    intro b i x hc hb hi hx
    have hc' := hc c (by simp)
    have hlt : ¬ c < 0x80 := fun h => by have := (u8_lt_iff c _).mp h; change c.toNat < 128 at this; omega
    simp only [List.length_cons] at hi
    rw [List.cons_append]
    unfold uvarintLoop
    rw [if_neg (by show ¬ i = 10; omega), if_neg hlt, u8_and7f_toNat, or_shift _ _ _ hx]
    have hm : c.toNat % 128 < 128 := Nat.mod_lt _ (by decide)
    have hx' : x + c.toNat % 128 * 2 ^ (7 * i) < 2 ^ (7 * (i + 1)) := by
      have h1 : c.toNat % 128 * 2 ^ (7 * i) ≤ 127 * 2 ^ (7 * i) := Nat.mul_le_mul_right _ (by omega)
      have h2 : 2 ^ (7 * (i + 1)) = 128 * 2 ^ (7 * i) := by rw [show 7 * (i + 1) = 7 * i + 7 by omega, Nat.pow_add]; omega
      omega
    have := ih b (i + 1) _ (fun d hd => hc d (by simp [hd])) hb (by omega) hx'
    have e : x + c.toNat % 128 * 2 ^ (7 * i) + sevens (bs ++ [b]) * 2 ^ (7 * (i + 1)) = x + sevens (c :: (bs ++ [b])) * 2 ^ (7 * i) := by
      rw [show 7 * (i + 1) = 7 * i + 7 by omega, Nat.pow_add]
      simp only [sevens, Nat.add_mul]
      rw [Nat.mul_comm 128 (sevens _), Nat.mul_assoc, Nat.mul_comm (2 ^ (7 * i)) (2 ^ 7), Nat.add_assoc]
    rw [e, show i + 1 + bs.length + 1 = i + (bs.length + 1) + 1 by omega] at this
    exact this

theorem varint_any (bs : Bytes) (b : UInt8) (hc : ∀ c ∈ bs, 128 ≤ c.toNat) (hb : b.toNat < 128) (hl : bs.length < 10) :
    (sevens (bs ++ [b]) < 2 ^ 64 → varint (bs ++ [b]) = (signed (sevens (bs ++ [b])), ((bs.length + 1 : Nat) : Int))) ∧
    (¬ sevens (bs ++ [b]) < 2 ^ 64 → (varint (bs ++ [b])).2 < 0) := by
  have := uvarintLoop_any bs b 0 0 hc hb (by omega) (by decide)
  simp only [Nat.mul_zero, Nat.pow_zero, Nat.mul_one, Nat.zero_add] at this
  refine ⟨fun h => ?_, fun h => this.2 h⟩
  unfold varint uvarint
  rw [this.1 h]
  simp only []
  rw [unzigzag_signed]

theorem readVarintAtLoop_any (f : Bytes) (p : Int) (fuel : Nat) : ∀ (acc r : Bytes), readVarintAtLoop f p fuel acc = .ok r ↔
    0 ≤ p + acc.length ∧ ∃ bs b rest, f.drop (p + acc.length).toNat = bs ++ b :: rest ∧ r = acc ++ (bs ++ [b]) ∧ bs.length < fuel ∧
      (∀ c ∈ bs, 128 ≤ c.toNat) ∧ b.toNat < 128 := by
  induction fuel with
  | zero =>
    intro acc r
    constructor
    · intro h; cases h
    · rintro ⟨_, _, _, _, _, _, h, _⟩; omega
  | succ fuel ih =>
    intro acc r
    unfold readVarintAtLoop readAt
    simp only [bind, Except.bind]
    by_cases hp : p + acc.length < 0
    · rw [if_pos hp]
      constructor
      · intro h; cases h
      · rintro ⟨h, _⟩; omega
    · rw [if_neg hp, if_neg (by decide)]
      by_cases hl : (p + acc.length).toNat + 1 ≤ f.length
      · rw [if_pos hl]
        have hd : ∃ b rest, f.drop (p + acc.length).toNat = b :: rest := by
          cases h : f.drop (p + acc.length).toNat with
          | nil => have := List.drop_eq_nil_iff.mp h; omega
          | cons b rest => exact ⟨b, rest, rfl⟩
        obtain ⟨b, rest, hd⟩ := hd
        rw [hd]
        simp only [List.take_succ_cons, List.take_zero, List.all_cons, List.all_nil, Bool.and_true, decide_eq_true_eq]
        by_cases hb : b < 0x80
        · rw [if_pos hb]
          have hb' : b.toNat < 128 := (u8_lt_iff b _).mp hb
          constructor
          · intro h
            simp only [pure, Except.pure, Except.ok.injEq] at h
            exact ⟨by omega, [], b, rest, rfl, by rw [← h]; rfl, by simp, by simp, hb'⟩
          · rintro ⟨_, bs, b2, rest2, h1, h2, h3, h4, h5⟩
            cases bs with
            | nil =>
              simp only [List.nil_append, List.cons.injEq] at h1
              rw [h2, h1.1]; rfl
            | cons c bs =>
              simp only [List.cons_append, List.cons.injEq] at h1
              have := h4 c (by simp)
              rw [← h1.1] at this
              omega
        · rw [if_neg hb]
          have hb' : 128 ≤ b.toNat := by
            by_cases h : 128 ≤ b.toNat
            · exact h
            · exact absurd ((u8_lt_iff b 0x80).mpr (show b.toNat < 128 by omega)) hb
          rw [ih]
          have e : p + ((acc ++ [b]).length : Int) = p + acc.length + 1 := by simp only [List.length_append, List.length_singleton]; omega
          have hdr : f.drop (p + (acc.length : Int) + 1).toNat = rest := by
            rw [show (p + (acc.length : Int) + 1).toNat = (p + (acc.length : Int)).toNat + 1 by omega, ← List.drop_drop, hd]; rfl
          rw [e, hdr]
          constructor
          · rintro ⟨_, bs, b2, rest2, h1, h2, h3, h4, h5⟩
            refine ⟨by omega, b :: bs, b2, rest2, by rw [h1]; rfl, by rw [h2]; simp, by simp; omega, ?_, h5⟩
            intro c hc
            rcases List.mem_cons.mp hc with rfl | hc
            · exact hb'
            · exact h4 c hc
          · rintro ⟨_, bs, b2, rest2, h1, h2, h3, h4, h5⟩
            cases bs with
            | nil =>
              simp only [List.nil_append, List.cons.injEq] at h1
              rw [h1.1] at hb'; omega
            | cons c bs =>
              simp only [List.cons_append, List.cons.injEq] at h1
              obtain ⟨rfl, h1⟩ := h1
              refine ⟨by omega, bs, b2, rest2, h1, by rw [h2]; simp, by simp only [List.length_cons] at h3; omega, fun d hd => h4 d (by simp [hd]), h5⟩
      · rw [if_neg hl]
        constructor
        · intro h; cases h
        · rintro ⟨_, bs, b, rest, h1, _⟩
          have := congrArg List.length h1
          simp only [List.length_drop, List.length_append, List.length_cons] at this
          omega

/-- `readVarintAt` reads the number that is there. -/
theorem readVarintAt_any (f : Bytes) (p v : Int) (n : Nat) : readVarintAt f p = .ok (v, n) ↔ NumberAt f p v n := by
  unfold readVarintAt NumberAt
  simp only [bind, Except.bind]
  have key := readVarintAtLoop_any f p maxVarintLen64 []
  simp only [List.length_nil, Int.ofNat_zero, Int.add_zero, List.nil_append] at key
  cases hl : readVarintAtLoop f p maxVarintLen64 [] with
  | error e =>
    constructor
    · intro h; cases h
    · rintro ⟨h0, bs, b, rest, h1, h2, h3, h4, h5, _⟩
      rw [(key _).mpr ⟨h0, bs, b, rest, h1, rfl, by show _ < 10; omega, h4, h5⟩] at hl
      cases hl
  | ok r =>
    obtain ⟨h0, bs, b, rest, h1, rfl, h3, h4, h5⟩ := (key r).mp hl
    have h3' : bs.length < 10 := h3
    obtain ⟨g1, g2⟩ := varint_any bs b h4 h5 h3'
    by_cases h64 : sevens (bs ++ [b]) < 2 ^ 64
    · simp only [g1 h64]
      rw [if_neg (by omega)]
      constructor
      · intro h
        simp only [pure, Except.pure, Except.ok.injEq, Prod.mk.injEq, List.length_append, List.length_singleton] at h
        exact ⟨h0, bs, b, rest, h1, h.2, by omega, h4, h5, h64, h.1.symm⟩
      · rintro ⟨_, bs2, b2, rest2, k1, k2, k3, k4, k5, k6, k7⟩
        have e := (key _).mpr ⟨h0, bs2, b2, rest2, k1, rfl, by show _ < 10; omega, k4, k5⟩
        rw [hl] at e
        injection e with e
        rw [e, k7]
        simp only [pure, Except.pure, List.length_append, List.length_singleton, k2]
    · have := g2 h64
      cases hv : varint (bs ++ [b]) with
      | mk v' m' =>
        rw [hv] at this
        simp only [] at this ⊢
        rw [if_pos (by omega)]
        constructor
        · intro h; cases h
        · rintro ⟨_, bs2, b2, rest2, k1, k2, k3, k4, k5, k6, k7⟩
          have e := (key _).mpr ⟨h0, bs2, b2, rest2, k1, rfl, by show _ < 10; omega, k4, k5⟩
          rw [hl] at e
          injection e with e
          rw [e] at h64
          exact absurd k6 h64

theorem readVarintAtLoop_err (f : Bytes) (p : Int) (fuel : Nat) : ∀ acc, (∃ r, readVarintAtLoop f p fuel acc = .ok r) ∨ ∃ e, readVarintAtLoop f p fuel acc = fail e := by
  induction fuel with
  | zero => intro acc; exact .inr ⟨_, rfl⟩
  | succ fuel ih =>
    intro acc
    unfold readVarintAtLoop readAt
    simp only [bind, Except.bind]
    by_cases h1 : p + acc.length < 0
    · rw [if_pos h1]; exact .inr ⟨_, rfl⟩
    · rw [if_neg h1, if_neg (by decide)]
      by_cases h2 : (p + acc.length).toNat + 1 ≤ f.length
      · rw [if_pos h2]
        simp only []
        split
        · exact .inl ⟨_, rfl⟩
        · exact ih _
      · rw [if_neg h2]; exact .inr ⟨_, rfl⟩

theorem readVarintAt_err (f : Bytes) (p : Int) : (∃ v n, NumberAt f p v n) ∨ ∃ e, readVarintAt f p = fail e := by
  cases h : readVarintAt f p with
  | ok r => exact .inl ⟨r.1, r.2, (readVarintAt_any f p r.1 r.2).mp h⟩
  | error e =>
    right
    unfold readVarintAt at h
    simp only [bind, Except.bind] at h
    rcases readVarintAtLoop_err f p maxVarintLen64 [] with ⟨r, hr⟩ | ⟨e', hr⟩
    · rw [hr] at h
      simp only [] at h
      split at h
      · injection h with h; exact ⟨_, by rw [← h]⟩
      · cases h
    · rw [hr] at h
      injection h with h
      exact ⟨e', by rw [← h]⟩

theorem Spec.NumberAt.unique {f : Bytes} {p v v' : Int} {n n' : Nat} (h : NumberAt f p v n) (h' : NumberAt f p v' n') : v' = v ∧ n' = n := by
  have h1 := (readVarintAt_any f p v n).mpr h
  have h2 := (readVarintAt_any f p v' n').mpr h'
  rw [h1] at h2
  injection h2 with h2
  injection h2 with a b
  exact ⟨a.symm, b.symm⟩

theorem Spec.NumberAt.pos {f : Bytes} {p v : Int} {n : Nat} (h : NumberAt f p v n) : 0 ≤ p ∧ p + n ≤ f.length ∧ 1 ≤ n := by
  obtain ⟨h0, bs, b, rest, h1, h2, _⟩ := h
  have := congrArg List.length h1
  simp only [List.length_drop, List.length_append, List.length_cons] at this
  omega

/-! ## Links -/

theorem Spec.ChunkAt.unique {f : Bytes} {p v v' q q' : Int} {n n' : Nat} (h : ChunkAt f p n v q) (h' : ChunkAt f p n' v' q') : v' = v ∧ n' = n ∧ q' = q := by
  obtain ⟨h1, _, _, _, w, h2, h3⟩ := h
  obtain ⟨g1, _, _, _, w', g2, g3⟩ := h'
  obtain ⟨rfl, rfl⟩ := h1.unique g1
  rw [h2] at g2
  injection g2 with g2
  subst g2
  exact ⟨rfl, rfl, g3.trans h3.symm⟩

theorem Spec.Follow.unique {f : Bytes} : ∀ {k : Nat} {p q q' : Int}, Follow f k p q → Follow f k p q' → q' = q
  | 0, _, _, _, h, h' => h'.trans h.symm
  | k + 1, _, _, _, ⟨_, _, _, h1, _, h2⟩, ⟨_, _, _, g1, _, g2⟩ => by
    obtain ⟨_, _, rfl⟩ := h1.unique g1
    exact Follow.unique h2 g2

theorem Spec.Follow.add {f : Bytes} : ∀ {a b : Nat} {p q r : Int}, Follow f a p q → Follow f b q r → Follow f (a + b) p r
  | 0, b, p, q, r, h, h' => by rw [Nat.zero_add]; rw [show q = p from h] at h'; exact h'
  | a + 1, b, p, q, r, ⟨n, v, s, h1, h2, h3⟩, h' => by
    rw [show a + 1 + b = (a + b) + 1 by omega]
    exact ⟨n, v, s, h1, h2, h3.add h'⟩

theorem Spec.Follow.split {f : Bytes} : ∀ {a b : Nat} {p r : Int}, Follow f (a + b) p r → ∃ q, Follow f a p q ∧ Follow f b q r
  | 0, b, p, r, h => ⟨p, rfl, by rw [Nat.zero_add] at h; exact h⟩
  | a + 1, b, p, r, h => by
    rw [show a + 1 + b = (a + b) + 1 by omega] at h
    obtain ⟨n, v, s, h1, h2, h3⟩ := h
    obtain ⟨q, g1, g2⟩ := h3.split
    exact ⟨q, ⟨n, v, s, h1, h2, g1⟩, g2⟩

/-- one link more than there are bytes in the file: a place was visited twice -/
theorem endless_of_follow {f : Bytes} {p q : Int} (h : Follow f (f.length + 1) p q) : Endless f p := by
  have hex : ∀ i, i < f.length + 1 → ∃ w : Nat, w < f.length ∧ Follow f i p (w : Int) := by
    intro i hi
    rw [show f.length + 1 = i + ((f.length - i) + 1) by omega] at h
    obtain ⟨r, h1, n, v, s, h2, _⟩ := h.split
    have := h2.1.pos
    refine ⟨r.toNat, by omega, ?_⟩
    rw [show ((r.toNat : Nat) : Int) = r by omega]
    exact h1
  have hc : ∃ (i j w : Nat), i < j ∧ Follow f i p (w : Int) ∧ Follow f j p (w : Int) := by
    apply Classical.byContradiction
    intro hn
    have := Reuse.pigeonhole_rel (R := fun i (w : Nat) => Follow f i p (w : Int)) hex (fun i j w hi hj => by
      rcases Nat.lt_trichotomy i j with h | h | h
      · exact absurd ⟨i, j, w, h, hi, hj⟩ hn
      · exact h
      · exact absurd ⟨j, i, w, h, hj, hi⟩ hn)
    omega
  obtain ⟨i, j, w, hij, hi, hj⟩ := hc
  rw [show j = i + (j - i) by omega] at hj
  obtain ⟨r, g1, g2⟩ := hj.split
  obtain rfl := hi.unique g1
  have hloop : ∀ m, Follow f (m * (j - i)) (w : Int) (w : Int) := by
    intro m
    induction m with
    | zero => rw [Nat.zero_mul]; exact rfl
    | succ m ih => rw [Nat.add_mul, Nat.one_mul]; exact ih.add g2
  intro k
  have hk := hi.add (hloop k)
  have hle : k ≤ i + k * (j - i) := by
    have : k * 1 ≤ k * (j - i) := Nat.mul_le_mul_left _ (by omega)
    omega
  rw [show i + k * (j - i) = k + (i + k * (j - i) - k) by omega] at hk
  obtain ⟨r, m1, _⟩ := hk.split
  exact ⟨r, m1⟩

theorem Spec.ChunkAt.more {f : Bytes} {p v q : Int} {n : Nat} (h : ChunkAt f p n v q) (hq : q ≠ -1) : Follow f 1 p q := ⟨n, v, q, h, hq, rfl⟩

theorem slice_readAt_link {f : Bytes} {p v : Int} {n : Nat} (hp : 0 ≤ p) (h8 : 8 < v) (hl : p + n + v ≤ f.length) :
    ∃ b, readAt f (p + n) v.toNat = .ok b ∧ ∃ l, slice b (v.toNat - 8) v.toNat = .ok l ∧ ∃ w, getBE64 l = .ok w ∧ getBE64 (f.drop (p + n + v - 8).toNat) = .ok w := by
  have h1 : readAt f (p + n) v.toNat = .ok ((f.drop (p + n).toNat).take v.toNat) := by
    unfold readAt
    rw [if_neg (by omega), if_neg (by omega), if_pos (by omega)]
  refine ⟨_, h1, ?_⟩
  have hlen : ((f.drop (p + n).toNat).take v.toNat).length = v.toNat := by
    rw [List.length_take, List.length_drop]; omega
  have h2 : slice ((f.drop (p + n).toNat).take v.toNat) (v.toNat - 8) v.toNat =
      .ok ((((f.drop (p + n).toNat).take v.toNat).drop (v.toNat - 8)).take (v.toNat - (v.toNat - 8))) := by
    unfold slice
    rw [if_pos ⟨by omega, by omega⟩]
  refine ⟨_, h2, ?_⟩
  have e1 : (((f.drop (p + n).toNat).take v.toNat).drop (v.toNat - 8)).take (v.toNat - (v.toNat - 8)) = (f.drop (p + n + v - 8).toNat).take 8 := by
    rw [List.drop_take, List.drop_drop, show v.toNat - (v.toNat - 8) = 8 by omega, List.take_take, show min 8 8 = 8 by rfl,
      show (p + (n : Int)).toNat + (v.toNat - 8) = (p + n + v - 8).toNat by omega]
  rw [e1]
  have hlen8 : 8 ≤ (f.drop (p + n + v - 8).toNat).length := by rw [List.length_drop]; omega
  match h : f.drop (p + n + v - 8).toNat, hlen8 with
  | b0 :: b1 :: b2 :: b3 :: b4 :: b5 :: b6 :: b7 :: r, _ => exact ⟨_, rfl, rfl⟩

/-! ## Going to the last link, to append -/

theorem readToLinkLoop_step (f : Bytes) (fuel : Nat) (p : Int) :
    (∃ n v q, ChunkAt f p n v q ∧ q ≠ -1 ∧ Poster.readToLinkLoop f (fuel + 1) p = Poster.readToLinkLoop f fuel q) ∨
    (HugeAt f p ∧ Poster.readToLinkLoop f (fuel + 1) p = .error .panic) ∨
    (¬ HugeAt f p ∧ (∀ n v q, ChunkAt f p n v q → q = -1) ∧ Tame (Poster.readToLinkLoop f (fuel + 1) p)) := by
  rw [Poster.readToLinkLoop]
  simp only [bind, Except.bind]
  rcases readVarintAt_err f p with ⟨v, n, hn⟩ | ⟨e, he⟩
  · rw [(readVarintAt_any f p v n).mpr hn]
    simp only []
    by_cases hh : 2 ^ 62 ≤ v
    · rw [if_pos hh]; exact .inr (.inl ⟨⟨v, n, hn, hh⟩, rfl⟩)
    · rw [if_neg hh]
      have nh : ¬ HugeAt f p := by
        rintro ⟨v', n', h1, h2⟩
        obtain ⟨rfl, _⟩ := hn.unique h1
        exact hh h2
      by_cases h8 : v ≤ 8
      · rw [if_pos h8]
        refine .inr (.inr ⟨nh, ?_, .inr ⟨_, rfl⟩⟩)
        intro n' v' q hc
        obtain ⟨rfl, _⟩ := hn.unique hc.1
        exact absurd hc.2.1 (by omega)
      · rw [if_neg h8]
        by_cases hl : p + n + v ≤ f.length
        · obtain ⟨b, h1, l, h2, w, h3, h4⟩ := slice_readAt_link hn.pos.1 (by omega) hl
          rw [h1]
          simp only []
          rw [h2]
          simp only []
          rw [h3]
          simp only []
          have hc : ChunkAt f p n v (u64ToI64 w) := ⟨hn, by omega, by omega, hl, w, h4, rfl⟩
          by_cases hm : u64ToI64 w = -1
          · rw [if_pos hm]
            refine .inr (.inr ⟨nh, ?_, .inl ⟨_, rfl⟩⟩)
            intro n' v' q hc'
            rw [(hc.unique hc').2.2, hm]
          · rw [if_neg hm]
            exact .inl ⟨n, v, _, hc, hm, rfl⟩
        · have : readAt f (p + n) v.toNat = fail .eof := by
            have := hn.pos
            unfold readAt
            rw [if_neg (by omega), if_neg (by omega), if_neg (by omega)]
          rw [this]
          refine .inr (.inr ⟨nh, ?_, .inr ⟨_, rfl⟩⟩)
          intro n' v' q hc
          obtain ⟨rfl, rfl⟩ := hn.unique hc.1
          exact absurd hc.2.2.2.1 hl
  · rw [he]
    refine .inr (.inr ⟨?_, ?_, .inr ⟨_, rfl⟩⟩)
    · rintro ⟨v', n', h1, _⟩
      rw [(readVarintAt_any f p v' n').mpr h1] at he
      cases he
    · intro n' v' q hc
      rw [(readVarintAt_any f p v' n').mpr hc.1] at he
      cases he

theorem readToLinkLoop_any (f : Bytes) (fuel : Nat) : ∀ p : Int,
    (∃ q, Follow f fuel p q ∧ Poster.readToLinkLoop f fuel p = .error .diverge) ∨
    (∃ k q, k < fuel ∧ Follow f k p q ∧ HugeAt f q ∧ Poster.readToLinkLoop f fuel p = .error .panic) ∨
    (∃ k q, k < fuel ∧ Follow f k p q ∧ ¬ HugeAt f q ∧ (∀ n v r, ChunkAt f q n v r → r = -1) ∧ Tame (Poster.readToLinkLoop f fuel p)) := by
  induction fuel with
  | zero => intro p; exact .inl ⟨p, rfl, rfl⟩
  | succ fuel ih =>
    intro p
    rcases readToLinkLoop_step f fuel p with ⟨n, v, q, h1, h2, h3⟩ | ⟨h1, h2⟩ | ⟨h1, h2, h3⟩
    · rw [h3]
      rcases ih q with ⟨r, g1, g2⟩ | ⟨k, r, g0, g1, g2⟩ | ⟨k, r, g0, g1, g2⟩
      · exact .inl ⟨r, ⟨n, v, q, h1, h2, g1⟩, g2⟩
      · exact .inr (.inl ⟨k + 1, r, by omega, ⟨n, v, q, h1, h2, g1⟩, g2⟩)
      · exact .inr (.inr ⟨k + 1, r, by omega, ⟨n, v, q, h1, h2, g1⟩, g2⟩)
    · exact .inr (.inl ⟨0, p, by omega, rfl, h1, h2⟩)
    · exact .inr (.inr ⟨0, p, by omega, rfl, h1, h2, h3⟩)

/-- where the links end they do not go on -/
theorem Spec.Endless.goes {f : Bytes} {p q : Int} {k : Nat} (h : Endless f p) (hk : Follow f k p q) : ∃ n v r, ChunkAt f q n v r ∧ r ≠ -1 := by
  obtain ⟨s, hs⟩ := h (k + 1)
  obtain ⟨q', h1, n, v, r, h2, h3, _⟩ := hs.split
  obtain rfl := hk.unique h1
  exact ⟨n, v, r, h2, h3⟩

theorem Spec.HugeAt.not_chunk {f : Bytes} {p : Int} (h : HugeAt f p) {n : Nat} {v q : Int} (hc : ChunkAt f p n v q) : False := by
  obtain ⟨v', n', h1, h2⟩ := h
  obtain ⟨rfl, _⟩ := hc.1.unique h1
  have := hc.2.2.1
  omega

theorem follow_end_unique {f : Bytes} {p q q' : Int} {k k' : Nat} (h : Follow f k p q) (h' : Follow f k' p q')
    (he : ∀ n v r, ChunkAt f q n v r → r = -1) (he' : ∀ n v r, ChunkAt f q' n v r → r = -1) : q' = q := by
  rcases Nat.lt_trichotomy k k' with hl | rfl | hl
  · rw [show k' = k + ((k' - k - 1) + 1) by omega] at h'
    obtain ⟨r, h1, n, v, s, h2, h3, _⟩ := h'.split
    obtain rfl := h.unique h1
    exact absurd (he n v s h2) h3
  · exact h.unique h'
  · rw [show k = k' + ((k - k' - 1) + 1) by omega] at h
    obtain ⟨r, h1, n, v, s, h2, h3, _⟩ := h.split
    obtain rfl := h'.unique h1
    exact absurd (he' n v s h2) h3

/-- Going to the last link: no end if the links do not end, a panic if they lead to a huge length, otherwise a result or an error. -/
theorem readToLink_exact (f : Bytes) (p : Int) :
    (Poster.readToLinkLoop f (f.length + 1) p = .error .diverge ↔ Endless f p) ∧
    (Poster.readToLinkLoop f (f.length + 1) p = .error .panic ↔ ∃ k q, Follow f k p q ∧ HugeAt f q) ∧
    (¬ Endless f p → (¬ ∃ k q, Follow f k p q ∧ HugeAt f q) → Tame (Poster.readToLinkLoop f (f.length + 1) p)) := by
  rcases readToLinkLoop_any f (f.length + 1) p with ⟨q, h1, h2⟩ | ⟨k, q, _, h1, h2, h3⟩ | ⟨k, q, _, h1, h2, h3, h4⟩
  · have he := endless_of_follow h1
    rw [h2]
    refine ⟨⟨fun _ => he, fun _ => rfl⟩, ⟨fun h => (by cases h), ?_⟩, fun h => absurd he h⟩
    rintro ⟨k, r, g1, g2⟩
    obtain ⟨n, v, s, g3, _⟩ := he.goes g1
    exact (g2.not_chunk g3).elim
  · rw [h3]
    refine ⟨⟨fun h => (by cases h), fun h => ?_⟩, ⟨fun _ => ⟨k, q, h1, h2⟩, fun _ => rfl⟩, fun _ h => absurd ⟨k, q, h1, h2⟩ h⟩
    obtain ⟨n, v, s, g3, _⟩ := h.goes h1
    exact (h2.not_chunk g3).elim
  · refine ⟨⟨fun h => ?_, fun h => ?_⟩, ⟨fun h => ?_, ?_⟩, fun _ _ => h4⟩
    · rw [h] at h4; rcases h4 with ⟨_, h⟩ | ⟨_, h⟩ <;> cases h
    · obtain ⟨n, v, s, g3, g4⟩ := h.goes h1
      exact absurd (h3 n v s g3) g4
    · rw [h] at h4; rcases h4 with ⟨_, h⟩ | ⟨_, h⟩ <;> cases h
    · rintro ⟨k', r, g1, g2⟩
      obtain rfl := follow_end_unique h1 g1 h3 (fun n v s hc => (g2.not_chunk hc).elim)
      exact absurd g2 h2

/-! ## Get -/

theorem decodeLoop_any (buf : Bytes) (fuel : Nat) : ∀ (i : Nat) (cur : UInt32) (ds : List UInt32), i ≤ buf.length → buf.length < i + fuel →
    Errs (Posts.decodeLoop buf fuel i cur ds) ∨
    ∃ j cur' ds', Posts.decodeLoop buf fuel i cur ds = .ok (j, cur', ds') ∧ j + 8 = buf.length ∧ i < j ∧ ds.length < ds'.length ∧ ds'.length + i ≤ ds.length + j := by
  induction fuel with
  | zero =>
    intro i cur ds hi hf
    omega
  | succ fuel ih =>
    intro i cur ds hi hf
    rw [Posts.decodeLoop]
    simp only []
    cases hu : uvarint (buf.drop i) with
    | mk d t =>
      simp only []
      by_cases ht : t ≤ 0
      · rw [if_pos ht]; exact .inl ⟨_, rfl⟩
      · rw [if_neg ht]
        by_cases h32 : d % 2 ^ 32 ≠ d
        · rw [if_pos h32]; exact .inl ⟨_, rfl⟩
        · rw [if_neg h32]
          by_cases hm : ((i + t.toNat : Nat) : Int) > (buf.length : Int) - 8
          · rw [if_pos hm]; exact .inl ⟨_, rfl⟩
          · rw [if_neg hm]
            by_cases he : ((i + t.toNat : Nat) : Int) = (buf.length : Int) - 8
            · rw [if_pos he]
              refine .inr ⟨_, _, _, rfl, by omega, by omega, ?_, ?_⟩ <;> simp only [List.length_append, List.length_singleton] <;> omega
            · rw [if_neg he]
              rcases ih (i + t.toNat) (cur + UInt32.ofNat d) (ds ++ [cur + UInt32.ofNat d]) (by omega) (by omega) with h | ⟨j, c', ds', h1, h2, h3, h4, h5⟩
              · exact .inl h
              · simp only [List.length_append, List.length_singleton] at h4 h5
                exact .inr ⟨j, c', ds', h1, h2, by omega, by omega, by omega⟩

theorem wrapErr_errs {α : Type} (s : String) (e : Err) : Posts.wrapErr s (fail e : M α) = fail (.wrap s e) := rfl

theorem readNext_any (p : Posts) (f : Bytes) :
    Errs (p.readNext f) ∨ (WildAt f p.nextpos ∧ p.readNext f = .error .panic) ∨
    ∃ p' n v, p.readNext f = .ok p' ∧ ChunkAt f p.nextpos n v p'.nextpos ∧ p'.i = 0 ∧ 1 ≤ p'.docids.length ∧ p'.docids.length ≤ 522 := by
  unfold Posts.readNext
  simp only [bind, Except.bind]
  rcases readVarintAt_err f p.nextpos with ⟨v, n, hn⟩ | ⟨e, he⟩
  · rw [(readVarintAt_any f _ v n).mpr hn]
    simp only [Posts.wrapErr]
    by_cases hw : v < 0 ∨ (Posts.bufLen : Int) < v
    · rw [if_pos hw]
      exact .inr (.inl ⟨⟨v, n, hn, hw⟩, rfl⟩)
    · rw [if_neg hw]
      have hv : 0 ≤ v ∧ v ≤ 530 := by
        have : ¬ (v < 0 ∨ (530 : Int) < v) := hw
        omega
      have hp := hn.pos
      by_cases hl : p.nextpos + n + v ≤ f.length
      · have hr : ∃ b, readAt f (p.nextpos + n) v.toNat = .ok b ∧ b.length = v.toNat := by
          unfold readAt
          rw [if_neg (by omega)]
          by_cases h0 : v.toNat = 0
          · rw [if_pos h0]; exact ⟨_, rfl, by rw [h0]; rfl⟩
          · rw [if_neg h0, if_pos (by omega)]
            exact ⟨_, rfl, by rw [List.length_take, List.length_drop]; omega⟩
        obtain ⟨b, hb, hbl⟩ := hr
        rw [hb]
        simp only []
        rcases decodeLoop_any b (b.length + 1) 0 p.current [] (by omega) (by omega) with ⟨e, h⟩ | ⟨j, c', ds', h1, h2, h3, h4, h5⟩
        · rw [h]; exact .inl ⟨_, rfl⟩
        · rw [h1]
          simp only []
          simp only [List.length_nil] at h4 h5
          obtain ⟨b', k1, l, k2, w, k3, k4⟩ := slice_readAt_link hp.1 (by omega : 8 < v) hl
          rw [hb] at k1
          injection k1 with k1
          subst k1
          have hd : getBE64 (b.drop j) = .ok w := by
            unfold slice at k2
            rw [if_pos ⟨by omega, by omega⟩] at k2
            injection k2 with k2
            rw [show v.toNat - 8 = j by omega, List.take_of_length_le (by rw [List.length_drop]; omega)] at k2
            rw [k2]; exact k3
          rw [hd]
          refine .inr (.inr ⟨_, n, v, rfl, ⟨hn, by omega, by omega, hl, w, k4, rfl⟩, rfl, ?_, ?_⟩)
          · show 1 ≤ ds'.length; omega
          · show ds'.length ≤ 522; omega
      · have : readAt f (p.nextpos + n) v.toNat = fail .eof := by
          unfold readAt
          rw [if_neg (by omega), if_neg (by omega), if_neg (by omega)]
        rw [this]
        exact .inl ⟨_, rfl⟩
  · rw [he]; exact .inl ⟨_, rfl⟩

theorem postsNext_any (p : Posts) (f : Bytes) (hi : p.i ≤ p.docids.length) :
    Errs (p.next f) ∨ (p.i = p.docids.length ∧ p.nextpos ≠ -1 ∧ WildAt f p.nextpos ∧ p.next f = .error .panic) ∨
    ∃ d p', p.next f = .ok (d, p') ∧ p'.i ≤ p'.docids.length ∧
      ((p.i < p.docids.length ∧ p' = { p with i := p.i + 1 }) ∨
       (p.i = p.docids.length ∧ p.nextpos ≠ -1 ∧ (∃ n v, ChunkAt f p.nextpos n v p'.nextpos) ∧ p'.docids.length - p'.i + 1 ≤ 522)) := by
  unfold Posts.next
  simp only [bind, Except.bind]
  by_cases h : p.i = p.docids.length
  · rw [if_pos h]
    by_cases hn : p.nextpos = -1
    · rw [if_pos hn]; exact .inl ⟨_, rfl⟩
    · rw [if_neg hn]
      rcases readNext_any p f with ⟨e, he⟩ | ⟨hw, he⟩ | ⟨p', n, v, h1, h2, h3, h4, h5⟩
      · rw [he]; exact .inl ⟨_, rfl⟩
      · rw [he]; exact .inr (.inl ⟨h, hn, hw, rfl⟩)
      · rw [h1]
        simp only [h3]
        rw [List.getElem?_eq_getElem (by omega : 0 < p'.docids.length)]
        exact .inr (.inr ⟨_, _, rfl, by show 0 + 1 ≤ _; omega, .inr ⟨h, hn, ⟨n, v, h2⟩, by show p'.docids.length - (0 + 1) + 1 ≤ 522; omega⟩⟩)
  · rw [if_neg h]
    simp only [pure, Except.pure]
    have hlt : p.i < p.docids.length := by omega
    rw [List.getElem?_eq_getElem hlt]
    exact .inr (.inr ⟨_, _, rfl, by show p.i + 1 ≤ p.docids.length; omega, .inl ⟨hlt, rfl⟩⟩)

theorem setLast_facts (b : Blot) (r : Bytes × UInt32 × UInt32) : (b.setLast r).docs.isSome = b.docs.isSome ∧ (b.setLast r).cap = b.cap ∧ (b.setLast r).len = b.len := by
  obtain ⟨bl, ds⟩ := b
  rcases ds with _ | ⟨v, s⟩
  · exact ⟨rfl, rfl, rfl⟩
  · unfold Blot.setLast
    simp only []
    cases hv : v.getLast? with
    | none => exact ⟨rfl, rfl, rfl⟩
    | some d =>
      have hne : v ≠ [] := by intro h; subst h; cases hv
      have hl : (v.dropLast ++ [{ d with path := r.1, start := r.2.1, stop := r.2.2 }]).length = v.length := by
        rw [List.length_append, List.length_dropLast, List.length_singleton]
        have := List.length_pos_iff.mpr hne
        omega
      exact ⟨rfl, by simp only [Blot.cap, hl], by simp only [Blot.len, hl]⟩

/-- one pass of the loop of `Get` on any file -/
theorem getLoop_any (grow : Nat → Nat) (x : Index) (lim : Bool) (f : Bytes) (head : Int) (hdoc : ∀ did, Tame (x.docid2Doc did))
    (hw : ∀ k q, Follow f k head q → ¬ WildAt f q) (fuel : Nat) : ∀ (rs : ReadState) (b : Blot) (k : Nat), rs.file = f → rs.posts.i ≤ rs.posts.docids.length →
    (rs.posts.nextpos = -1 ∨ Follow f k head rs.posts.nextpos) → (lim = true → b.docs.isSome = true) →
    ((lim = true ∧ b.cap - b.len < fuel) ∨
      (¬ Endless f head ∧ k ≤ f.length ∧ (rs.posts.docids.length - rs.posts.i) + (if rs.posts.nextpos = -1 then 0 else 522 * (f.length + 1 - k)) < fuel)) →
    Tame (Query.getLoop grow x lim fuel rs b) := by
  induction fuel with
  | zero =>
    intro rs b k _ _ _ _ h
    rcases h with ⟨_, h⟩ | ⟨_, _, h⟩ <;> exact absurd h (Nat.not_lt_zero _)
  | succ fuel ih =>
    intro rs b k hf hi hp hs hm
    rw [Query.getLoop]
    by_cases hfull : (lim && b.len == b.cap) = true
    · rw [if_pos hfull]; exact .inl ⟨_, rfl⟩
    · rw [if_neg hfull]
      unfold ReadState.next
      simp only [bind, Except.bind]
      rw [hf]
      rcases postsNext_any rs.posts f hi with ⟨e, he⟩ | ⟨h1, h2, h3, _⟩ | ⟨d, p', h1, h2, h3⟩
      · rw [he]
        cases e <;> first | exact .inl ⟨_, rfl⟩ | exact .inr ⟨_, rfl⟩
      · rcases hp with hp | hp
        · exact absurd hp h2
        · exact absurd h3 (hw _ _ hp)
      · rw [h1]
        simp only []
        have hb : ∃ b', b.next grow lim = .ok b' ∧ b'.docs.isSome = true ∧ (lim = true → b'.cap = b.cap ∧ b'.len = b.len + 1 ∧ b.len < b.cap) := by
          obtain ⟨bl, ds⟩ := b
          cases lim with
          | false =>
            rcases ds with _ | ⟨v, _ | ⟨s, ss⟩⟩
            · exact ⟨_, rfl, rfl, by intro h; cases h⟩
            · exact ⟨_, rfl, rfl, by intro h; cases h⟩
            · exact ⟨_, rfl, rfl, by intro h; cases h⟩
          | true =>
            rcases ds with _ | ⟨v, _ | ⟨s, ss⟩⟩
            · exact absurd (hs rfl) (by simp)
            · exact absurd hfull (by simp [Blot.len, Blot.cap])
            · refine ⟨_, rfl, rfl, fun _ => ?_⟩
              refine ⟨?_, ?_, ?_⟩
              · show (v ++ [s]).length + ss.length = v.length + (ss.length + 1)
                rw [List.length_append, List.length_singleton]; omega
              · show (v ++ [s]).length = v.length + 1
                rw [List.length_append, List.length_singleton]
              · show v.length < v.length + (ss.length + 1)
                omega
        obtain ⟨b', hb1, hb2, hb3⟩ := hb
        simp only [pure, Except.pure, hb1]
        rcases hdoc d with ⟨r, hr⟩ | ⟨e, he⟩
        · rw [hr]
          simp only []
          obtain ⟨s1, s2, s3⟩ := setLast_facts b' r
          have hk : ∃ k', (p'.nextpos = -1 ∨ Follow f k' head p'.nextpos) ∧
              ((lim = true ∧ (b'.setLast r).cap - (b'.setLast r).len < fuel) ∨
                (¬ Endless f head ∧ k' ≤ f.length ∧ (p'.docids.length - p'.i) + (if p'.nextpos = -1 then 0 else 522 * (f.length + 1 - k')) < fuel)) := by
            have hlim : lim = true → b.cap - b.len < fuel + 1 → (b'.setLast r).cap - (b'.setLast r).len < fuel := by
              intro hl h
              obtain ⟨c1, c2, c3⟩ := hb3 hl
              rw [s2, s3, c1, c2]; omega
            rcases h3 with ⟨g1, rfl⟩ | ⟨g1, g2, ⟨n, v, g3⟩, g4⟩
            · refine ⟨k, hp, ?_⟩
              rcases hm with ⟨m1, m2⟩ | ⟨m1, m2, m3⟩
              · exact .inl ⟨m1, hlim m1 m2⟩
              · refine .inr ⟨m1, m2, ?_⟩
                show rs.posts.docids.length - (rs.posts.i + 1) + (if rs.posts.nextpos = -1 then 0 else 522 * (f.length + 1 - k)) < fuel
                omega
            · rcases hp with hp | hp
              · exact absurd hp g2
              · by_cases hn : p'.nextpos = -1
                · refine ⟨k, .inl hn, ?_⟩
                  rcases hm with ⟨m1, m2⟩ | ⟨m1, m2, m3⟩
                  · exact .inl ⟨m1, hlim m1 m2⟩
                  · refine .inr ⟨m1, m2, ?_⟩
                    rw [if_pos hn]
                    rw [if_neg g2] at m3
                    omega
                · have hfo : Follow f (k + 1) head p'.nextpos := hp.add (g3.more hn)
                  refine ⟨k + 1, .inr hfo, ?_⟩
                  rcases hm with ⟨m1, m2⟩ | ⟨m1, m2, m3⟩
                  · exact .inl ⟨m1, hlim m1 m2⟩
                  · have hk1 : k + 1 ≤ f.length := by
                      by_cases h : k + 1 = f.length + 1
                      · rw [h] at hfo; exact absurd (endless_of_follow hfo) m1
                      · omega
                    refine .inr ⟨m1, hk1, ?_⟩
                    rw [if_neg hn]
                    rw [if_neg g2] at m3
                    omega
          obtain ⟨k', hk1, hk2⟩ := hk
          exact ih { rs with posts := p', file := f } (b'.setLast r) k' rfl h2 hk1 (fun _ => by rw [s1]; exact hb2) hk2
        · rw [he]; exact .inr ⟨_, rfl⟩

/-! ## Other posting files -/

/-- the index, with other posting files -/
def Index.withFiles (fs : Nat → Bytes) (x : Index) : Index :=
  { x with shards := x.shards.mapIdx fun i s => { s with file := fs i } }

theorem openShards_with (srt : Sorter) {d d' : Dir} {fs : Nat → Bytes} (h1 : ∀ i, d' (.iix i) = d (.iix i)) (h2 : ∀ i b, d (.pos i) = some b → d' (.pos i) = some (fs i)) (n : Nat) :
    ∀ i xs, Index.openShards srt d n i = .ok xs → Index.openShards srt d' n i = .ok (xs.mapIdx fun k s => { s with file := fs (k + i) }) := by
  induction n with
  | zero =>
    intro i xs h
    injection h with h
    subst h
    rfl
  | succ n ih =>
    intro i xs h
    unfold Index.openShards at h ⊢
    have hi : d'.read (.iix i) = d.read (.iix i) := by unfold Dir.read; rw [h1]
    rw [hi]
    simp only [bind, Except.bind] at h ⊢
    cases g1 : d.read (.iix i) with
    | error e => rw [g1] at h; cases h
    | ok iix =>
      rw [g1] at h
      simp only [] at h ⊢
      cases g2 : ShardIndex.readIix ShardIndexer.nBlots iix with
      | error e => rw [g2] at h; cases h
      | ok es =>
        rw [g2] at h
        simp only [] at h ⊢
        cases g3 : d (.pos i) with
        | none => unfold Dir.read at h; rw [g3] at h; cases h
        | some b =>
          have hb' := h2 i b g3
          have r : d.read (.pos i) = .ok b := by unfold Dir.read; rw [g3]
          have r' : d'.read (.pos i) = .ok (fs i) := by unfold Dir.read; rw [hb']
          rw [r] at h
          rw [r']
          simp only [] at h ⊢
          cases g4 : Index.openShards srt d n (i + 1) with
          | error e => rw [g4] at h; cases h
          | ok xs1 =>
            rw [g4] at h
            rw [ih (i + 1) xs1 g4]
            simp only [pure, Except.pure, Except.ok.injEq] at h ⊢
            subst h
            rw [List.mapIdx_cons]
            have e : (xs1.mapIdx fun k s => ({ s with file := fs (k + 1 + i) } : ShardIndex)) = xs1.mapIdx fun k s => { s with file := fs (k + (i + 1)) } := by
              congr 1; funext k s; rw [show k + 1 + i = k + (i + 1) by omega]
            rw [e, Nat.zero_add]

theorem open_with {J : CfgCodec} {srt : Sorter} {d d' : Dir} {fs : Nat → Bytes} {x : Index} (h1 : ∀ f, (∀ i, f ≠ .pos i) → d' f = d f)
    (h2 : ∀ i b, d (.pos i) = some b → d' (.pos i) = some (fs i)) (h : Index.open J srt d = .ok x) : Index.open J srt d' = .ok (x.withFiles fs) := by
  unfold Index.open at h ⊢
  have e1 : Config.readFrom J d' = Config.readFrom J d := by unfold Config.readFrom Dir.read; rw [h1 .cfg (fun i => by intro h; cases h)]
  have e2 : d'.read .dmd = d.read .dmd := by unfold Dir.read; rw [h1 .dmd (fun i => by intro h; cases h)]
  have e3 : d'.read .fnm = d.read .fnm := by unfold Dir.read; rw [h1 .fnm (fun i => by intro h; cases h)]
  rw [e1, e2, e3]
  simp only [bind, Except.bind] at h ⊢
  cases g1 : Config.readFrom J d with
  | error e => rw [g1] at h; cases h
  | ok c =>
    rw [g1] at h
    simp only [] at h ⊢
    cases g2 : d.read .dmd with
    | error e => rw [g2] at h; cases h
    | ok dmd =>
      rw [g2] at h
      simp only [] at h ⊢
      cases g3 : d.read .fnm with
      | error e => rw [g3] at h; cases h
      | ok fnm =>
        rw [g3] at h
        simp only [] at h ⊢
        cases g4 : Fnames.read fnm with
        | error e => rw [g4] at h; cases h
        | ok t =>
          rw [g4] at h
          simp only [] at h ⊢
          by_cases hc : c.numShards < 0
          · rw [if_pos hc] at h; cases h
          · rw [if_neg hc] at h ⊢
            cases g5 : Index.openShards srt d c.numShards.toNat 0 with
            | error e => rw [g5] at h; cases h
            | ok xs =>
              rw [g5] at h
              simp only [pure, Except.pure, Except.ok.injEq] at h
              subst h
              rw [openShards_with srt (fun i => h1 (.iix i) (fun j => by intro h; cases h)) h2 _ _ _ g5]
              rfl

theorem readStateAt_with (s : ShardIndex) (f : Bytes) (i : Nat) : ({ s with file := f } : ShardIndex).readStateAt i = (s.readStateAt i).map fun r => { r with file := f } := by
  unfold ShardIndex.readStateAt
  have : ({ s with file := f } : ShardIndex).blotAt i = s.blotAt i := rfl
  rw [this]
  simp only [bind, Except.bind]
  cases s.blotAt i with
  | error e => rfl
  | ok b =>
    unfold ShardIndex.readStateForBlotAt
    simp only []
    cases s.heads[b]? <;> cases s.counts[b]? <;> rfl

theorem initStates_with (l : List ShardIndex) : ∀ (fs : Nat → Bytes) (ss : List (Option ReadState)), Index.initStates l = .ok ss →
    ∃ ss', Index.initStates (l.mapIdx fun i s => { s with file := fs i }) = .ok ss' := by
  induction l with
  | nil => intro fs ss _; exact ⟨[], rfl⟩
  | cons s l ih =>
    intro fs ss h
    rw [List.mapIdx_cons]
    simp only [Index.initStates, readStateAt_with, bind, Except.bind] at h ⊢
    cases h1 : s.readStateAt 0 with
    | error e => rw [h1] at h; cases h
    | ok rs =>
      rw [h1] at h
      simp only [Except.map] at h ⊢
      cases h2 : Index.initStates l with
      | error e => rw [h2] at h; cases h
      | ok ss1 =>
        obtain ⟨ss', h3⟩ := ih (fun i => fs (i + 1)) ss1 h2
        rw [h3]
        exact ⟨_, rfl⟩

theorem startQuery_with {x : Index} {q : QState} (fs : Nat → Bytes) (h : x.startQuery = .ok q) :
    ∃ q', (x.withFiles fs).startQuery = .ok q' ∧ q'.n = q.n := by
  unfold Index.startQuery at h ⊢
  simp only [bind, Except.bind] at h ⊢
  cases h1 : Index.initStates x.shards with
  | error e => rw [h1] at h; cases h
  | ok ss =>
    rw [h1] at h
    obtain ⟨ss', h2⟩ := initStates_with x.shards fs ss h1
    have h2' : Index.initStates (x.withFiles fs).shards = .ok ss' := h2
    rw [h2']
    simp only [pure, Except.pure, Except.ok.injEq] at h ⊢
    refine ⟨_, rfl, ?_⟩
    rw [← h]
    simp only [QState.setMax, Index.withFiles, List.length_mapIdx]

/-- `Get` on an index with any posting files -/
theorem get_any (grow : Nat → Nat) (x : Index) (q : QState) (b : Blot) (fuel : Nat) (hq : q.n ≠ 0) {s : ShardIndex} {h : Int} {n : UInt32}
    (hs : x.shards[(b.blot % q.n).toNat]? = some s) (hh : s.heads[(b.blot / q.n).toUInt16.toNat]? = some h) (hn : s.counts[(b.blot / q.n).toUInt16.toNat]? = some n)
    (hdoc : ∀ did, Tame (x.docid2Doc did)) (f1 : ∀ k p, Follow s.file k h p → ¬ WildAt s.file p)
    (f2 : (b.docs.isSome = true ∧ b.cap - b.len < fuel) ∨ (¬ Endless s.file h ∧ 522 * (s.file.length + 1) < fuel)) :
    Tame (Query.get grow x fuel q b) := by
  unfold Query.get
  rw [if_neg hq, hs]
  simp only [bind, Except.bind, ShardIndex.readStateFor, ShardIndex.readStateForBlotAt]
  rw [hh, hn]
  simp only []
  refine getLoop_any grow x b.docs.isSome s.file _ hdoc f1 fuel _ b 0 rfl (Nat.le_refl _) (.inr ?_) (fun h => h) ?_
  · exact rfl
  · rcases f2 with ⟨g1, g2⟩ | ⟨g1, g2⟩
    · exact .inl ⟨g1, g2⟩
    · refine .inr ⟨g1, Nat.zero_le _, ?_⟩
      have key : ∀ (c : Prop) [Decidable c], 0 - 0 + (if c then 0 else 522 * (s.file.length + 1 - 0)) < fuel := by
        intro c _
        split
        · exact Nat.lt_of_le_of_lt (Nat.zero_le _) g2
        · rw [Nat.sub_zero, Nat.sub_zero, Nat.zero_add]; exact g2
      exact key _

end Dupi
