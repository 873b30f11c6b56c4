import Verif.Proof.AnyDir
import Verif.Proof.CutAppend
import Verif.Spec.AnyAppend
/-! # Opening any directory to append: numbers, entries, links -/

namespace Dupi
open Spec

/-! ## Numbers whose errors are not looked at -/

theorem readUvarintLax_value (rest : Bytes) (b : UInt8) : ∀ (cs : Bytes) (i x : Nat), i + cs.length < 10 → x < 2 ^ (7 * i) → (∀ c ∈ cs, 128 ≤ c.toNat) →
    (b.toNat < 128 ∨ i + cs.length = 9) →
    Poster.readUvarintLax (cs ++ b :: rest) i x =
      (if i + cs.length = 9 ∧ 1 < b.toNat ∧ b.toNat < 128 then x + sevens cs * 2 ^ (7 * i) else (x + sevens (cs ++ [b]) * 2 ^ (7 * i)) % 2 ^ 64, rest) := by
  intro cs
  induction cs with
  | nil =>
    intro i x hi hx _ hb
    simp only [List.length_nil, Nat.add_zero, List.nil_append] at hi hb ⊢
    unfold Poster.readUvarintLax
    rw [if_neg (by simp only [maxVarintLen64]; omega)]
    simp only [sevens, Nat.zero_mul, Nat.add_zero, Nat.mul_zero]
    by_cases hc : b < 0x80
    · have hc' : b.toNat < 128 := (u8_lt_iff b _).mp hc
      have hgt : b > 1 ↔ 1 < b.toNat := u8_lt_iff 1 b
      rw [if_pos hc]
      by_cases hov : i = 9 ∧ 1 < b.toNat
      · rw [if_pos (by exact ⟨hov.1, hgt.mpr hov.2⟩), if_pos ⟨hov.1, hov.2, hc'⟩]
      · rw [if_neg (by intro h; exact hov ⟨h.1, hgt.mp h.2⟩), if_neg (by rintro ⟨h1, h2, _⟩; exact hov ⟨h1, h2⟩), or_shift _ _ _ hx, Nat.mod_eq_of_lt hc']
        rw [Nat.mod_eq_of_lt]
        by_cases h9 : i = 9
        · subst h9
          have h1 : 2 ^ (7 * 9) = 9223372036854775808 := by decide
          rw [h1] at hx ⊢
          have : b.toNat ≤ 1 := by apply Classical.byContradiction; intro h; exact hov ⟨rfl, by omega⟩
          omega
        · have h2 : 2 ^ (7 * i) ≤ 2 ^ 56 := Nat.pow_le_pow_right (by decide) (by omega)
          have h3 : b.toNat * 2 ^ (7 * i) ≤ 127 * 2 ^ (7 * i) := Nat.mul_le_mul_right _ (by omega)
          simp only [Nat.reducePow] at h2 ⊢
          omega
    · rw [if_neg hc, u8_and7f_toNat, or_shift _ _ _ hx]
      have hc' : ¬ b.toNat < 128 := fun h => hc ((u8_lt_iff b _).mpr h)
      have h9 : i = 9 := by omega
      subst h9
      rw [if_neg (by omega)]
      unfold Poster.readUvarintLax
      rw [if_pos rfl]
  | cons c cs ih =>
    intro i x hi hx hcs hb
    simp only [List.length_cons, List.cons_append] at hi hb ⊢
    have hc' : 128 ≤ c.toNat := hcs c (by simp)
    have hc : ¬ c < 0x80 := fun h => absurd ((u8_lt_iff c _).mp h) (by show ¬ c.toNat < 128; omega)
    rw [Poster.readUvarintLax, if_neg (by simp only [maxVarintLen64]; omega), if_neg hc, u8_and7f_toNat, or_shift _ _ _ hx]
    have hm : c.toNat % 128 < 128 := Nat.mod_lt _ (by decide)
    have hx' : x + c.toNat % 128 * 2 ^ (7 * i) < 2 ^ (7 * (i + 1)) := by
      have h1 : c.toNat % 128 * 2 ^ (7 * i) ≤ 127 * 2 ^ (7 * i) := Nat.mul_le_mul_right _ (by omega)
      have h2 : 2 ^ (7 * (i + 1)) = 128 * 2 ^ (7 * i) := by rw [show 7 * (i + 1) = 7 * i + 7 by omega, Nat.pow_add]; omega
      omega
    have e : ∀ s : Bytes, x + c.toNat % 128 * 2 ^ (7 * i) + sevens s * 2 ^ (7 * (i + 1)) = x + sevens (c :: s) * 2 ^ (7 * i) := by
      intro s
      rw [show 7 * (i + 1) = 7 * i + 7 by omega, Nat.pow_add]
      simp only [sevens, Nat.add_mul]
      rw [Nat.mul_comm 128 (sevens _), Nat.mul_assoc, Nat.mul_comm (2 ^ (7 * i)) (2 ^ 7), Nat.add_assoc]
    rw [ih (i + 1) _ (by omega) hx' (fun d hd => hcs d (by simp [hd])) (by rcases hb with h | h; exact .inl h; exact .inr (by omega)), e, e,
      show i + 1 + cs.length = i + (cs.length + 1) by omega]

theorem lax_exact {m rest : Bytes} {v : Nat} (h : LaxValue m v) : Poster.readUvarintLax (m ++ rest) 0 0 = (v, rest) := by
  obtain ⟨cs, b, rfl, h1, h2, h3, h4⟩ := h
  rw [List.append_assoc, List.singleton_append, readUvarintLax_value rest b cs 0 0 (by omega) (by decide) h2 (by omega)]
  simp only [Nat.zero_add, Nat.mul_zero, Nat.pow_zero, Nat.mul_one]
  rcases h4 with ⟨a1, a2, a3, rfl⟩ | ⟨a1, rfl⟩
  · rw [if_pos ⟨a1, a2, a3⟩]
  · rw [if_neg a1]

/-- there is a number, or the file ended -/
theorem lax_any (r : Bytes) : (Poster.readUvarintLax r 0 0).2 = [] ∨ ∃ m, r = m ++ (Poster.readUvarintLax r 0 0).2 ∧ LaxValue m (Poster.readUvarintLax r 0 0).1 := by
  rcases readUvarintLax_digits r 0 0 (by decide) with h | ⟨cs, b, g1, g2, g3, g4⟩
  · exact .inl h
  · right
    have e := readUvarintLax_value (Poster.readUvarintLax r 0 0).2 b cs 0 0 g2 (by decide) g3 g4
    rw [← g1] at e
    refine ⟨cs ++ [b], by rw [List.append_assoc]; exact g1, cs, b, rfl, by omega, g3, by omega, ?_⟩
    rw [e]
    simp only [Nat.zero_add, Nat.mul_zero, Nat.pow_zero, Nat.mul_one]
    by_cases hc : cs.length = 9 ∧ 1 < b.toNat ∧ b.toNat < 128
    · rw [if_pos hc]; exact .inl ⟨hc.1, hc.2.1, hc.2.2, rfl⟩
    · rw [if_neg hc]; exact .inr ⟨hc, rfl⟩

/-! ## Entries -/

/-- the list as a session has it, before its last link is looked for -/
def ListEntry.poster (e : ListEntry) (link : Int) : Poster := ⟨link, e.head, UInt32.ofNat e.last, UInt32.ofNat e.count, []⟩

theorem posterInit_of {a : Bytes} {e : ListEntry} (h : AppendEntry a e) (r' : Bytes) : Poster.initAppend (a ++ r') = .ok (ListEntry.poster e (-1), r') := by
  obtain ⟨l, m, t, k, v, rfl, h1, h2, h3, h4, h5, h6, h7⟩ := h
  have a1 := (readVarint_exact (l ++ m ++ t ++ r') e.head (m ++ (t ++ r'))).mpr ⟨l, k, by simp, h1, h2⟩
  have a2 : Poster.readVarintLax (m ++ (t ++ r')) = ((e.count : Int), t ++ r') := by
    unfold Poster.readVarintLax
    rw [lax_exact h3]
    simp only [unzigzag_signed, h4]
  simp only [Poster.initAppend, bind, Except.bind, a1, a2]
  rw [if_neg (by omega)]
  match t, h6 with
  | [b0, b1, b2, b3], _ =>
    simp only [Poster.read4, readByte, bind, Except.bind, pure, Except.pure, List.cons_append, List.nil_append]
    rw [getBE32_four]
    simp only [ListEntry.poster, Int.toNat_natCast, h7]

theorem posterInit_exact (r : Bytes) (p : Poster) (r' : Bytes) :
    Poster.initAppend r = .ok (p, r') ↔ ∃ a e, r = a ++ r' ∧ AppendEntry a e ∧ p = ListEntry.poster e (-1) := by
  constructor
  · intro h
    simp only [Poster.initAppend, bind, Except.bind] at h
    cases h1 : readVarint r with
    | error e => rw [h1] at h; cases h
    | ok v =>
      obtain ⟨hd, r1⟩ := v
      simp only [h1] at h
      obtain ⟨l, k, e1, n1, s1⟩ := (readVarint_exact _ _ _).mp h1
      by_cases hc : (Poster.readVarintLax r1).1 < 0 ∨ 2 ^ 32 ≤ (Poster.readVarintLax r1).1
      · rw [if_pos hc] at h; cases h
      · rw [if_neg hc] at h
        cases h2 : Poster.read4 (Poster.readVarintLax r1).2 with
        | error e => rw [h2] at h; cases h
        | ok v =>
          obtain ⟨t, r2⟩ := v
          simp only [h2] at h
          obtain ⟨e2, n2⟩ := read4_inv h2
          have hl1 : (Poster.readVarintLax r1).1 = signed (Poster.readUvarintLax r1 0 0).1 := unzigzag_signed _
          have hl2 : (Poster.readVarintLax r1).2 = (Poster.readUvarintLax r1 0 0).2 := rfl
          rcases lax_any r1 with g | ⟨m, g1, g2⟩
          · rw [hl2, g] at e2
            have := congrArg List.length e2
            simp only [List.length_nil, List.length_append] at this
            omega
          · have hA : AppendEntry (l ++ m ++ t) ⟨hd, (Poster.readVarintLax r1).1.toNat, four t⟩ :=
              ⟨l, m, t, k, _, rfl, n1, s1, g2, by rw [← hl1]; show _ = (((Poster.readVarintLax r1).1.toNat : Nat) : Int); omega, by show (Poster.readVarintLax r1).1.toNat < 2 ^ 32; omega, n2, rfl⟩
            match t, n2 with
            | [b0, b1, b2, b3], _ =>
              rw [getBE32_four] at h
              simp only [pure, Except.pure, Except.ok.injEq, Prod.mk.injEq] at h
              obtain ⟨rfl, rfl⟩ := h
              refine ⟨_, _, ?_, hA, rfl⟩
              rw [e1, g1, ← hl2, e2]
              simp
  · rintro ⟨a, e, rfl, h, rfl⟩
    exact posterInit_of h r'

theorem appendIix_exact (n : Nat) : ∀ (r : Bytes) (ps : List Poster),
    ShardIndexer.readIix n r = .ok ps ↔ ∃ es, AppendEntries r es ∧ es.length = n ∧ ps = es.map fun e => ListEntry.poster e (-1) := by
  induction n with
  | zero =>
    intro r ps
    constructor
    · intro h; cases h; exact ⟨[], trivial, rfl, rfl⟩
    · rintro ⟨es, _, h, rfl⟩; rw [List.length_eq_zero_iff.mp h]; rfl
  | succ n ih =>
    intro r ps
    simp only [ShardIndexer.readIix, bind, Except.bind]
    constructor
    · intro h
      cases h1 : Poster.initAppend r with
      | error e => rw [h1] at h; cases h
      | ok v =>
        obtain ⟨p, r'⟩ := v
        simp only [h1] at h
        cases h2 : ShardIndexer.readIix n r' with
        | error e => rw [h2] at h; cases h
        | ok ps' =>
          simp only [h2, pure, Except.pure, Except.ok.injEq] at h
          obtain ⟨a, e, g1, g2, rfl⟩ := (posterInit_exact _ _ _).mp h1
          obtain ⟨es, g3, g4, rfl⟩ := (ih _ _).mp h2
          exact ⟨e :: es, ⟨a, r', g1, g2, g3⟩, by rw [List.length_cons, g4], h.symm⟩
    · rintro ⟨es, h1, h2, rfl⟩
      cases es with
      | nil => cases h2
      | cons e es =>
        obtain ⟨a, r', rfl, g2, g3⟩ := h1
        rw [posterInit_of g2]
        simp only []
        rw [(ih r' _).mpr ⟨es, g3, by simpa using h2, rfl⟩]
        rfl

/-! ## Links -/

theorem readToLinkLoop_last {f : Bytes} {p v : Int} {n : Nat} (h : ChunkAt f p n v (-1)) (fuel : Nat) : Poster.readToLinkLoop f (fuel + 1) p = .ok (p + n + v - 8) := by
  obtain ⟨h1, h2, h3, h4, w, h5, h6⟩ := h
  rw [Poster.readToLinkLoop]
  simp only [bind, Except.bind]
  rw [(readVarintAt_any f p v n).mpr h1]
  simp only []
  rw [if_neg (by omega), if_neg (by omega)]
  obtain ⟨b, g1, l, g2, w', g3, g4⟩ := slice_readAt_link h1.pos.1 (by omega) h4
  rw [h5] at g4
  injection g4 with g4
  subst g4
  rw [g1]
  simp only []
  rw [g2]
  simp only []
  rw [g3]
  simp only []
  rw [if_pos h6.symm]
  rfl

theorem readToLinkLoop_ok {f : Bytes} (fuel : Nat) : ∀ {p l : Int}, Poster.readToLinkLoop f fuel p = .ok l →
    ∃ k q n v, Follow f k p q ∧ ChunkAt f q n v (-1) ∧ l = q + n + v - 8 := by
  induction fuel with
  | zero => intro p l h; cases h
  | succ fuel ih =>
    intro p l h
    rcases readToLinkLoop_step f fuel p with ⟨n, v, q, h1, h2, h3⟩ | ⟨h1, h2⟩ | ⟨h1, h2, h3⟩
    · rw [h3] at h
      obtain ⟨k, q', n', v', g1, g2, g3⟩ := ih h
      exact ⟨k + 1, q', n', v', ⟨n, v, q, h1, h2, g1⟩, g2, g3⟩
    · rw [h2] at h; cases h
    · clear h3
      have hs := h
      rw [Poster.readToLinkLoop] at h
      simp only [bind, Except.bind] at h
      rcases readVarintAt_err f p with ⟨v, n, hn⟩ | ⟨e, he⟩
      · rw [(readVarintAt_any f p v n).mpr hn] at h
        simp only [] at h
        by_cases hh : 2 ^ 62 ≤ v
        · rw [if_pos hh] at h; cases h
        · rw [if_neg hh] at h
          by_cases h8 : v ≤ 8
          · rw [if_pos h8] at h; cases h
          · rw [if_neg h8] at h
            by_cases hl : p + n + v ≤ f.length
            · obtain ⟨b, a1, l', a2, w, a3, a4⟩ := slice_readAt_link hn.pos.1 (by omega) hl
              have hc : ChunkAt f p n v (u64ToI64 w) := ⟨hn, by omega, by omega, hl, w, a4, rfl⟩
              have hm := h2 n v _ hc
              rw [hm] at hc
              rw [readToLinkLoop_last hc] at hs
              injection hs with hs
              exact ⟨0, p, n, v, rfl, hc, hs.symm⟩
            · have : readAt f (p + n) v.toNat = fail .eof := by
                have := hn.pos
                unfold readAt
                rw [if_neg (by omega), if_neg (by omega), if_neg (by omega)]
              rw [this] at h; cases h
      · rw [he] at h; cases h

theorem readToLinkLoop_follow {f : Bytes} {q v : Int} {n : Nat} (hc : ChunkAt f q n v (-1)) (k : Nat) : ∀ {p : Int}, Follow f k p q → ∀ fuel, k < fuel →
    Poster.readToLinkLoop f fuel p = .ok (q + n + v - 8) := by
  induction k with
  | zero =>
    intro p h fuel hf
    obtain ⟨fuel, rfl⟩ : ∃ x, fuel = x + 1 := ⟨fuel - 1, by omega⟩
    cases h
    exact readToLinkLoop_last hc fuel
  | succ k ih =>
    intro p h fuel hf
    obtain ⟨fuel, rfl⟩ : ∃ x, fuel = x + 1 := ⟨fuel - 1, by omega⟩
    obtain ⟨n', v', r, g1, g2, g3⟩ := h
    rcases readToLinkLoop_step f fuel p with ⟨n1, v1, q1, h1, h2, h3⟩ | ⟨h1, h2⟩ | ⟨h1, h2, h3⟩
    · obtain ⟨_, _, rfl⟩ := h1.unique g1
      rw [h3]
      exact ih g3 fuel (by omega)
    · exact (h1.not_chunk g1).elim
    · exact absurd (h2 _ _ _ g1) g2

theorem readToLinkLoop_exact (f : Bytes) (p l : Int) : Poster.readToLinkLoop f (f.length + 1) p = .ok l ↔
    ∃ k q n v, Follow f k p q ∧ ChunkAt f q n v (-1) ∧ l = q + n + v - 8 := by
  constructor
  · exact readToLinkLoop_ok _
  · rintro ⟨k, q, n, v, h1, h2, rfl⟩
    rw [← readToLinkLoop_len f p (f.length + 1 + k) (by omega)]
    exact readToLinkLoop_follow h2 k h1 _ (by omega)

theorem readToLink_poster (f : Bytes) (e : ListEntry) :
    (∀ p, (ListEntry.poster e (-1)).readToLink f = .ok p ↔ ∃ l, LastLink f e.head l ∧ p = ListEntry.poster e l) ∧
    ((ListEntry.poster e (-1)).readToLink f = .error .panic ↔ e.head ≠ -1 ∧ LeadsHuge f e.head) ∧
    ((ListEntry.poster e (-1)).readToLink f = .error .diverge ↔ e.head ≠ -1 ∧ Endless f e.head) := by
  unfold Poster.readToLink
  by_cases h : e.head = -1
  · rw [if_pos (by exact h)]
    refine ⟨fun p => ⟨fun g => ?_, ?_⟩, ⟨fun g => (by cases g), fun g => absurd h g.1⟩, ⟨fun g => (by cases g), fun g => absurd h g.1⟩⟩
    · cases g; exact ⟨-1, .inl ⟨h, rfl⟩, rfl⟩
    · rintro ⟨l, ⟨_, rfl⟩ | ⟨g, _⟩, rfl⟩
      · rfl
      · exact absurd h g
  · rw [if_neg (by exact h), if_neg (by intro g; exact g rfl)]
    show (∀ p, (bind (Poster.readToLinkLoop f (f.length + 1) e.head) _) = _ ↔ _) ∧ _
    have ex := readToLink_exact f e.head
    cases hl : Poster.readToLinkLoop f (f.length + 1) e.head with
    | ok l =>
      have hl' := (readToLinkLoop_exact f e.head l).mp hl
      rw [hl] at ex
      simp only [ListEntry.poster, hl, bind, Except.bind, pure, Except.pure]
      refine ⟨fun p => ⟨fun g => ?_, ?_⟩, ⟨fun g => (by cases g), fun g => ?_⟩, ⟨fun g => (by cases g), fun g => ?_⟩⟩
      · cases g; exact ⟨l, .inr ⟨h, hl'⟩, rfl⟩
      · rintro ⟨l', ⟨g, _⟩ | ⟨_, g⟩, rfl⟩
        · exact absurd g h
        · have := (readToLinkLoop_exact f e.head l').mpr g
          rw [hl] at this
          injection this with this
          rw [this]
      · exact (by cases ex.2.1.mpr g.2)
      · exact (by cases ex.1.mpr g.2)
    | error x =>
      have hno : ∀ l, ¬ LastLink f e.head l := by
        rintro l (⟨g, _⟩ | ⟨_, g⟩)
        · exact h g
        · have := (readToLinkLoop_exact f e.head l).mpr g
          rw [hl] at this
          cases this
      rw [hl] at ex
      simp only [ListEntry.poster, hl, bind, Except.bind]
      refine ⟨fun p => ⟨fun g => (by cases g), ?_⟩, ⟨fun g => ⟨h, ?_⟩, fun g => ?_⟩, ⟨fun g => ⟨h, ?_⟩, fun g => ?_⟩⟩
      · rintro ⟨l, g, _⟩; exact absurd g (hno l)
      · injection g with g; subst g; exact ex.2.1.mp rfl
      · have := ex.2.1.mpr g.2; injection this with this; rw [this]
      · injection g with g; subst g; exact ex.1.mp rfl
      · have := ex.1.mpr g.2; injection this with this; rw [this]

/-- `P` is what the first list without a last link has -/
def FirstBad (f : Bytes) (P : Int → Prop) : List ListEntry → Prop
  | [] => False
  | e :: es => e.head ≠ -1 ∧ P e.head ∨ (∃ l, LastLink f e.head l) ∧ FirstBad f P es

theorem firstBad_iff (f : Bytes) (P : Int → Prop) (es : List ListEntry) : FirstBad f P es ↔
    ∃ (k : Nat) (e : ListEntry), es[k]? = some e ∧ e.head ≠ -1 ∧ P e.head ∧ ∀ (j : Nat) (e' : ListEntry), j < k → es[j]? = some e' → ∃ l, LastLink f e'.head l := by
  induction es with
  | nil => simp [FirstBad]
  | cons e es ih =>
    rw [FirstBad, ih]
    constructor
    · rintro (⟨h1, h2⟩ | ⟨h1, k, e', h2, h3, h4, h5⟩)
      · exact ⟨0, e, rfl, h1, h2, fun j _ hj => absurd hj (by omega)⟩
      · refine ⟨k + 1, e', by simpa using h2, h3, h4, ?_⟩
        intro j e'' hj hs
        cases j with
        | zero => simp only [List.getElem?_cons_zero, Option.some.injEq] at hs; rw [← hs]; exact h1
        | succ j => exact h5 j e'' (by omega) (by simpa using hs)
    · rintro ⟨k, e', h2, h3, h4, h5⟩
      cases k with
      | zero => simp only [List.getElem?_cons_zero, Option.some.injEq] at h2; subst h2; exact .inl ⟨h3, h4⟩
      | succ k =>
        refine .inr ⟨h5 0 e (by omega) rfl, k, e', by simpa using h2, h3, h4, ?_⟩
        intro j e'' hj hs
        exact h5 (j + 1) e'' (by omega) (by simpa using hs)

/-- these are the lists with their last links -/
inductive ListsLinked (f : Bytes) : List ListEntry → List Poster → Prop
  | nil : ListsLinked f [] []
  | cons {e : ListEntry} {p : Poster} {es : List ListEntry} {ps : List Poster} : (∃ l, LastLink f e.head l ∧ p = ListEntry.poster e l) → ListsLinked f es ps → ListsLinked f (e :: es) (p :: ps)

theorem readLinks_exact (f : Bytes) (es : List ListEntry) :
    (∀ ps, ShardIndexer.readLinks f (es.map fun e => ListEntry.poster e (-1)) = .ok ps ↔ ListsLinked f es ps) ∧
    (ShardIndexer.readLinks f (es.map fun e => ListEntry.poster e (-1)) = .error .panic ↔ FirstBad f (LeadsHuge f) es) ∧
    (ShardIndexer.readLinks f (es.map fun e => ListEntry.poster e (-1)) = .error .diverge ↔ FirstBad f (Endless f) es) := by
  induction es with
  | nil =>
    refine ⟨fun ps => ⟨fun h => ?_, fun h => ?_⟩, ⟨fun h => (by cases h), fun h => h.elim⟩, ⟨fun h => (by cases h), fun h => h.elim⟩⟩
    · cases h; exact .nil
    · cases h; rfl
  | cons e es ih =>
    obtain ⟨i1, i2, i3⟩ := ih
    obtain ⟨p1, p2, p3⟩ := readToLink_poster f e
    simp only [List.map_cons, ShardIndexer.readLinks, bind, Except.bind]
    cases h : (ListEntry.poster e (-1)).readToLink f with
    | error x =>
      rw [h] at p1 p2 p3
      have hno : ∀ l, ¬ LastLink f e.head l := fun l g => by cases (p1 _).mpr ⟨l, g, rfl⟩
      simp only []
      refine ⟨fun ps => ⟨fun g => (by cases g), ?_⟩, ⟨fun g => .inl (p2.mp ?_), ?_⟩, ⟨fun g => .inl (p3.mp ?_), ?_⟩⟩
      · rintro (_ | ⟨⟨l, g, _⟩, _⟩); exact absurd g (hno l)
      · injection g with g; rw [g]
      · rintro (g | ⟨⟨l, g⟩, _⟩)
        · have := p2.mpr g; injection this with this; rw [this]
        · exact absurd g (hno l)
      · injection g with g; rw [g]
      · rintro (g | ⟨⟨l, g⟩, _⟩)
        · have := p3.mpr g; injection this with this; rw [this]
        · exact absurd g (hno l)
    | ok p =>
      rw [h] at p1 p2 p3
      obtain ⟨l, hl, rfl⟩ := (p1 p).mp rfl
      have hn2 : ¬ (e.head ≠ -1 ∧ LeadsHuge f e.head) := fun g => by cases p2.mpr g
      have hn3 : ¬ (e.head ≠ -1 ∧ Endless f e.head) := fun g => by cases p3.mpr g
      simp only []
      cases h2 : ShardIndexer.readLinks f (es.map fun e => ListEntry.poster e (-1)) with
      | error x =>
        rw [h2] at i1 i2 i3
        simp only []
        refine ⟨fun ps => ⟨fun g => (by cases g), ?_⟩, ⟨fun g => .inr ⟨⟨l, hl⟩, i2.mp ?_⟩, ?_⟩, ⟨fun g => .inr ⟨⟨l, hl⟩, i3.mp ?_⟩, ?_⟩⟩
        · rintro (_ | ⟨_, g⟩); cases (i1 _).mpr g
        · injection g with g; rw [g]
        · rintro (g | ⟨_, g⟩)
          · exact absurd g hn2
          · have := i2.mpr g; injection this with this; rw [this]
        · injection g with g; rw [g]
        · rintro (g | ⟨_, g⟩)
          · exact absurd g hn3
          · have := i3.mpr g; injection this with this; rw [this]
      | ok ps' =>
        rw [h2] at i1 i2 i3
        simp only [pure, Except.pure]
        refine ⟨fun ps => ⟨fun g => ?_, ?_⟩, ⟨fun g => (by cases g), ?_⟩, ⟨fun g => (by cases g), ?_⟩⟩
        · cases g; exact .cons ⟨l, hl, rfl⟩ ((i1 _).mp rfl)
        · rintro (_ | ⟨g, g'⟩)
          have e1 := (p1 _).mpr g
          have e2 := (i1 _).mpr g'
          injection e1 with e1
          injection e2 with e2
          rw [e1, e2]
        · rintro (g | ⟨_, g⟩)
          · exact absurd g hn2
          · cases i2.mpr g
        · rintro (g | ⟨_, g⟩)
          · exact absurd g hn3
          · cases i3.mpr g

theorem ListsLinked.get {f : Bytes} {es : List ListEntry} {ps : List Poster} (h : ListsLinked f es ps) : ps.length = es.length ∧
    ∀ (k : Nat) (e : ListEntry), es[k]? = some e → ∃ l, LastLink f e.head l ∧ ps[k]? = some (ListEntry.poster e l) := by
  induction h with
  | nil => exact ⟨rfl, fun k e h => by cases k <;> cases h⟩
  | @cons e p es ps h _ ih =>
    obtain ⟨l, h1, rfl⟩ := h
    refine ⟨by simp [ih.1], fun k e' hk => ?_⟩
    cases k with
    | zero => simp only [List.getElem?_cons_zero, Option.some.injEq] at hk; subst hk; exact ⟨l, h1, rfl⟩
    | succ k => exact ih.2 k e' (by simpa using hk)

theorem listsLinked_exists {f : Bytes} {es : List ListEntry} (h : ∀ e ∈ es, ∃ l, LastLink f e.head l) : ∃ ps, ListsLinked f es ps := by
  induction es with
  | nil => exact ⟨[], .nil⟩
  | cons e es ih =>
    obtain ⟨l, hl⟩ := h e (by simp)
    obtain ⟨ps, hps⟩ := ih fun e' he' => h e' (by simp [he'])
    exact ⟨_, .cons ⟨l, hl, rfl⟩ hps⟩

theorem ListsLinked.all {f : Bytes} {es : List ListEntry} {ps : List Poster} (h : ListsLinked f es ps) : ∀ e ∈ es, ∃ l, LastLink f e.head l := by
  induction h with
  | nil => intro e he; cases he
  | cons h _ ih =>
    intro e he
    rcases List.mem_cons.mp he with rfl | he
    · exact ⟨_, h.choose_spec.1⟩
    · exact ih e he

/-! ## Shards -/

/-- opening one shard -/
def appendShard (d : Dir) (i : Nat) : M ShardIndexer := do
  let iix ← d.read (.iix i)
  let post ← d.read (.pos i)
  ShardIndexer.initAppend ShardIndexer.nBlots ⟨post, iix⟩

theorem appendShards_succ (d : Dir) (n i : Nat) : Indexer.openShards d (n + 1) i =
    (appendShard d i).bind fun x => (Indexer.openShards d n (i + 1)).bind fun xs => .ok (x :: xs) := by
  simp only [Indexer.openShards, appendShard, bind, Except.bind, pure, Except.pure]
  cases d.read (.iix i) with
  | error e => rfl
  | ok iix =>
    simp only []
    cases d.read (.pos i) with
    | error e => rfl
    | ok post => rfl

theorem shardInit_exact (d : Dir) (i : Nat) :
    (∀ x, appendShard d i = .ok x ↔ ∃ es, AppendShard d i x.file es ∧ ListsLinked x.file es x.ind) ∧
    (appendShard d i = .error .panic ↔ ShardStops LeadsHuge d i) ∧
    (appendShard d i = .error .diverge ↔ ShardStops Endless d i) := by
  unfold appendShard Dir.read
  cases h1 : d (.iix i) with
  | none =>
    refine ⟨fun x => ⟨fun h => (by cases h), ?_⟩, ⟨fun h => (by cases h), ?_⟩, ⟨fun h => (by cases h), ?_⟩⟩
    · rintro ⟨es, ⟨iix, h, _⟩, _⟩; rw [h1] at h; cases h
    · rintro ⟨post, es, k, e, ⟨iix, h, _⟩, _⟩; rw [h1] at h; cases h
    · rintro ⟨post, es, k, e, ⟨iix, h, _⟩, _⟩; rw [h1] at h; cases h
  | some iix =>
    cases h2 : d (.pos i) with
    | none =>
      refine ⟨fun x => ⟨fun h => (by cases h), ?_⟩, ⟨fun h => (by cases h), ?_⟩, ⟨fun h => (by cases h), ?_⟩⟩
      · rintro ⟨es, ⟨iix, _, h, _⟩, _⟩; rw [h2] at h; cases h
      · rintro ⟨post, es, k, e, ⟨iix, _, h, _⟩, _⟩; rw [h2] at h; cases h
      · rintro ⟨post, es, k, e, ⟨iix, _, h, _⟩, _⟩; rw [h2] at h; cases h
    | some post =>
      have hsh : ∀ post' es, AppendShard d i post' es → post' = post ∧ AppendEntries iix es ∧ es.length = 65536 := by
        rintro post' es ⟨iix', g1, g2, g3, g4⟩
        rw [h1] at g1; rw [h2] at g2
        injection g1 with g1; injection g2 with g2
        subst g1
        exact ⟨g2.symm, g3, g4⟩
      simp only [ShardIndexer.initAppend, bind, Except.bind, pure, Except.pure]
      rcases appendIix_any ShardIndexer.nBlots iix with ⟨e, h⟩ | ⟨ps, h, _⟩
      · have hno : ∀ post' es, ¬ AppendShard d i post' es := by
          intro post' es g
          obtain ⟨_, g1, g2⟩ := hsh _ _ g
          have := (appendIix_exact ShardIndexer.nBlots iix _).mpr ⟨es, g1, g2, rfl⟩
          rw [h] at this; cases this
        rw [h]
        refine ⟨fun x => ⟨fun h => (by cases h), ?_⟩, ⟨fun h => (by cases h), ?_⟩, ⟨fun h => (by cases h), ?_⟩⟩
        · rintro ⟨es, g, _⟩; exact absurd g (hno _ _)
        · rintro ⟨post, es, k, e, g, _⟩; exact absurd g (hno _ _)
        · rintro ⟨post, es, k, e, g, _⟩; exact absurd g (hno _ _)
      · obtain ⟨es, g1, g2, rfl⟩ := (appendIix_exact _ _ _).mp h
        have hA : AppendShard d i post es := ⟨iix, h1, h2, g1, g2⟩
        have hun : ∀ es', AppendEntries iix es' → es'.length = 65536 → (es'.map fun e => ListEntry.poster e (-1)) = es.map fun e => ListEntry.poster e (-1) := by
          intro es' a1 a2
          have := (appendIix_exact ShardIndexer.nBlots iix _).mpr ⟨es', a1, a2, rfl⟩
          rw [h] at this; injection this with this; exact this.symm
        rw [h]
        obtain ⟨r1, r2, r3⟩ := readLinks_exact post es
        simp only []
        have hst : ∀ P, ShardStops P d i ↔ ∃ es', (es'.map fun e => ListEntry.poster e (-1)) = (es.map fun e => ListEntry.poster e (-1)) ∧ AppendShard d i post es' ∧ FirstBad post (P post) es' := by
          intro P
          constructor
          · rintro ⟨post', es', k, e, a1, a2⟩
            obtain ⟨rfl, b1, b2⟩ := hsh _ _ a1
            exact ⟨es', hun es' b1 b2, a1, (firstBad_iff _ _ _).mpr ⟨k, e, a2⟩⟩
          · rintro ⟨es', _, a1, a2⟩
            obtain ⟨k, e, a3⟩ := (firstBad_iff _ _ _).mp a2
            exact ⟨post, es', k, e, a1, a3⟩
        cases h3 : ShardIndexer.readLinks post (es.map fun e => ListEntry.poster e (-1)) with
        | error x =>
          rw [h3] at r1 r2 r3
          simp only []
          refine ⟨fun x => ⟨fun h => (by cases h), ?_⟩, ⟨fun h => (hst _).mpr ⟨es, rfl, hA, r2.mp (by injection h with h; rw [h])⟩, fun h => ?_⟩,
            ⟨fun h => (hst _).mpr ⟨es, rfl, hA, r3.mp (by injection h with h; rw [h])⟩, fun h => ?_⟩⟩
          · rintro ⟨es', a1, a2⟩
            obtain ⟨e1, b1, b2⟩ := hsh _ _ a1
            rw [e1] at a2
            have := (readLinks_exact post es').1 _ |>.mpr a2
            rw [hun es' b1 b2, h3] at this
            cases this
          · obtain ⟨es', e1, _, a⟩ := (hst _).mp h
            have := (readLinks_exact post es').2.1.mpr a
            rw [e1, h3] at this
            injection this with this; rw [this]
          · obtain ⟨es', e1, _, a⟩ := (hst _).mp h
            have := (readLinks_exact post es').2.2.mpr a
            rw [e1, h3] at this
            injection this with this; rw [this]
        | ok ps =>
          rw [h3] at r1 r2 r3
          simp only []
          refine ⟨fun x => ⟨fun h => ?_, ?_⟩, ⟨fun h => (by cases h), fun h => ?_⟩, ⟨fun h => (by cases h), fun h => ?_⟩⟩
          · injection h with h
            subst h
            exact ⟨es, hA, (r1 ps).mp rfl⟩
          · rintro ⟨es', a1, a2⟩
            obtain ⟨e1, b1, b2⟩ := hsh _ _ a1
            rw [e1] at a2
            have := (readLinks_exact post es').1 _ |>.mpr a2
            rw [hun es' b1 b2, h3] at this
            injection this with this
            cases x
            simp only at e1 this
            rw [e1, this]
          · obtain ⟨es', e1, _, a⟩ := (hst _).mp h
            have := (readLinks_exact post es').2.1.mpr a
            rw [e1, h3] at this
            cases this
          · obtain ⟨es', e1, _, a⟩ := (hst _).mp h
            have := (readLinks_exact post es').2.2.mpr a
            rw [e1, h3] at this
            cases this

theorem shardOpens_iff (d : Dir) (i : Nat) : (∃ x, appendShard d i = .ok x) ↔ ShardOpens d i := by
  constructor
  · rintro ⟨x, h⟩
    obtain ⟨es, h1, h2⟩ := ((shardInit_exact d i).1 x).mp h
    exact ⟨_, es, h1, h2.all⟩
  · rintro ⟨post, es, h1, h2⟩
    obtain ⟨ps, hps⟩ := listsLinked_exists h2
    exact ⟨⟨ps, post⟩, ((shardInit_exact d i).1 _).mpr ⟨es, h1, hps⟩⟩

theorem appendShards_ok (d : Dir) (n : Nat) : ∀ (i : Nat) (xs : List ShardIndexer), Indexer.openShards d n i = .ok xs ↔
    xs.length = n ∧ ∀ (k : Nat) (x : ShardIndexer), xs[k]? = some x → appendShard d (i + k) = .ok x := by
  induction n with
  | zero =>
    intro i xs
    constructor
    · intro h; cases h; exact ⟨rfl, fun k x h => by cases k <;> cases h⟩
    · rintro ⟨h, _⟩; rw [List.length_eq_zero_iff.mp h]; rfl
  | succ n ih =>
    intro i xs
    rw [appendShards_succ]
    constructor
    · intro h
      cases h1 : appendShard d i with
      | error e => rw [h1] at h; cases h
      | ok x =>
        cases h2 : Indexer.openShards d n (i + 1) with
        | error e => rw [h1, h2] at h; cases h
        | ok ys =>
          rw [h1, h2] at h
          simp only [Except.bind, Except.ok.injEq] at h
          subst h
          obtain ⟨g1, g2⟩ := (ih _ _).mp h2
          refine ⟨by simp [g1], fun k y hk => ?_⟩
          cases k with
          | zero => simp only [List.getElem?_cons_zero, Option.some.injEq] at hk; subst hk; exact h1
          | succ k => rw [show i + (k + 1) = i + 1 + k by omega]; exact g2 k y (by simpa using hk)
    · rintro ⟨h1, h2⟩
      cases xs with
      | nil => cases h1
      | cons x xs =>
        rw [show appendShard d i = .ok x from h2 0 x rfl, (ih (i + 1) xs).mpr ⟨by simpa using h1, fun k y hk => by
          rw [show i + 1 + k = i + (k + 1) by omega]; exact h2 (k + 1) y (by simpa using hk)⟩]
        rfl

theorem appendShards_fault (d : Dir) (F : Fault) (n : Nat) : ∀ i, Indexer.openShards d n i = .error F ↔
    ∃ k, k < n ∧ appendShard d (i + k) = .error F ∧ ∀ j, j < k → ∃ x, appendShard d (i + j) = .ok x := by
  induction n with
  | zero => intro i; exact ⟨fun h => (by cases h), fun ⟨k, h, _⟩ => absurd h (by omega)⟩
  | succ n ih =>
    intro i
    rw [appendShards_succ]
    cases h1 : appendShard d i with
    | error e =>
      simp only [Except.bind]
      constructor
      · intro h; injection h with h; subst h; exact ⟨0, by omega, h1, fun j hj => absurd hj (by omega)⟩
      · rintro ⟨k, _, h2, h3⟩
        cases k with
        | zero => rw [Nat.add_zero, h1] at h2; injection h2 with h2; rw [h2]
        | succ k =>
          obtain ⟨x, h⟩ := h3 0 (by omega)
          rw [Nat.add_zero, h1] at h; cases h
    | ok x =>
      have : (Except.bind (.ok x) fun x => (Indexer.openShards d n (i + 1)).bind fun xs => .ok (x :: xs) : M (List ShardIndexer)) = .error F ↔ Indexer.openShards d n (i + 1) = .error F := by
        cases Indexer.openShards d n (i + 1) with
        | error e => simp only [Except.bind, Except.error.injEq]
        | ok xs => exact ⟨fun h => (by cases h), fun h => (by cases h)⟩
      rw [this, ih (i + 1)]
      constructor
      · rintro ⟨k, g1, g2, g3⟩
        refine ⟨k + 1, by omega, by rw [show i + (k + 1) = i + 1 + k by omega]; exact g2, fun j hj => ?_⟩
        cases j with
        | zero => exact ⟨x, h1⟩
        | succ j => rw [show i + (j + 1) = i + 1 + j by omega]; exact g3 j (by omega)
      · rintro ⟨k, g1, g2, g3⟩
        cases k with
        | zero => rw [Nat.add_zero, h1] at g2; cases g2
        | succ k =>
          refine ⟨k, by omega, by rw [show i + 1 + k = i + (k + 1) by omega]; exact g2, fun j hj => ?_⟩
          rw [show i + 1 + j = i + (j + 1) by omega]; exact g3 (j + 1) (by omega)

end Dupi
