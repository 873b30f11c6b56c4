import Verif.Spec.AnyGet
import Verif.Proof.AnyDir
import Verif.Proof.Query

/-! `Get` in a directory with any contents. -/

namespace Dupi
open Spec

/-! ## Numbers in a page -/

theorem uvarintLoop_read (bs : Bytes) : ∀ (i x : Nat), i ≤ 10 →
    (∃ v k, uvarintLoop bs i x = (v, ((i + k : Nat) : Int)) ∧ 1 ≤ k ∧ k ≤ bs.length ∧ readUvarintLoop bs i x = .ok (v, bs.drop k)) ∨
    ((uvarintLoop bs i x).2 ≤ 0 ∧ ∃ e, readUvarintLoop bs i x = fail e) := by
  induction bs with
  | nil =>
    intro i x _
    right
    refine ⟨by simp [uvarintLoop], ?_⟩
    rw [readUvarintLoop]
    by_cases h : i = maxVarintLen64
    · rw [if_pos h]; exact ⟨_, rfl⟩
    · rw [if_neg h]; exact ⟨_, rfl⟩
  | cons b bs ih =>
    intro i x hi
    rw [uvarintLoop, readUvarintLoop]
    by_cases h : i = maxVarintLen64
    · rw [if_pos h, if_pos h]
      exact .inr ⟨by simp only []; omega, _, rfl⟩
    · rw [if_neg h, if_neg h]
      by_cases hb : b < 0x80
      · rw [if_pos hb, if_pos hb]
        by_cases h9 : i = maxVarintLen64 - 1 ∧ b > 1
        · rw [if_pos h9, if_pos h9]
          exact .inr ⟨by simp only []; omega, _, rfl⟩
        · rw [if_neg h9, if_neg h9]
          exact .inl ⟨_, 1, rfl, Nat.le_refl _, by simp, rfl⟩
      · rw [if_neg hb, if_neg hb]
        have : i ≠ 10 := h
        rcases ih (i + 1) (x ||| ((b &&& 0x7f).toNat <<< (7 * i))) (by omega) with ⟨v, k, h1, h2, h3, h4⟩ | h
        · refine .inl ⟨v, k + 1, ?_, by omega, by simp; omega, ?_⟩
          · rw [h1]; congr 2; omega
          · rw [h4]; rfl
        · exact .inr h

/-- `binary.Uvarint` reads the numbers that there are -/
theorem uvarint_exact (bs : Bytes) :
    (∀ l r v, bs = l ++ r → Num l v → uvarint bs = (v, (l.length : Int))) ∧
    (0 < (uvarint bs).2 → ∃ l r, bs = l ++ r ∧ Num l (uvarint bs).1 ∧ (uvarint bs).2 = (l.length : Int)) := by
  have h := uvarintLoop_read bs 0 0 (by omega)
  constructor
  · intro l r v hb hn
    have hr := (readUvarint_exact bs v r).mpr ⟨l, hb, hn⟩
    unfold readUvarint at hr
    rcases h with ⟨v', k, h1, h2, h3, h4⟩ | ⟨_, e, he⟩
    · rw [h4] at hr
      injection hr with hr
      injection hr with hv hd
      subst hv
      unfold uvarint
      rw [h1]
      have : l.length = k := by
        have := congrArg List.length hd
        rw [List.length_drop, hb, List.length_append] at this
        rw [hb, List.length_append] at h3
        omega
      rw [this, Nat.zero_add]
    · rw [he] at hr; cases hr
  · intro ht
    unfold uvarint at ht ⊢
    rcases h with ⟨v', k, h1, h2, h3, h4⟩ | ⟨h, _⟩
    · obtain ⟨l, e1, e2⟩ := (readUvarint_exact bs v' (bs.drop k)).mp h4
      refine ⟨l, bs.drop k, e1, ?_, ?_⟩
      · rw [h1]; exact e2
      · rw [h1]
        have := congrArg List.length e1
        rw [List.length_append, List.length_drop] at this
        simp only []
        omega
    · omega

theorem Spec.Num.length_pos {l : Bytes} {v : Nat} (h : Num l v) : 1 ≤ l.length := by
  obtain ⟨cs, b, rfl, _⟩ := h
  simp

/-- the last of the sums -/
def sumTo : Nat → List Nat → Nat
  | a, [] => a
  | a, d :: ds => sumTo ((a + d) % 2 ^ 32) ds

theorem sums_append (a : Nat) (xs ys : List Nat) : sums a (xs ++ ys) = sums a xs ++ sums (sumTo a xs) ys := by
  induction xs generalizing a with
  | nil => rfl
  | cons x xs ih => simp only [List.cons_append, sums, sumTo, ih]

theorem sums_length (a : Nat) (xs : List Nat) : (sums a xs).length = xs.length := by
  induction xs generalizing a with
  | nil => rfl
  | cons x xs ih => simp only [sums, List.length_cons, ih]

theorem toNat_add_ofNat (c : UInt32) {d : Nat} (_ : d < 2 ^ 32) : (c + UInt32.ofNat d).toNat = (c.toNat + d) % 2 ^ 32 := by
  rw [UInt32.toNat_add, UInt32.toNat_ofNat']
  omega

/-- decoding the numbers of a page -/
theorem decodeLoop_of (buf pay link : Bytes) (hb : buf = pay ++ link) (h8 : link.length = 8) (es : List Nat) : ∀ (fuel i : Nat) (cur : UInt32) (ds : List UInt32),
    es ≠ [] → NumsAs (pay.drop i) es → i ≤ pay.length → es.length ≤ fuel →
    ∃ cur' ds', Posts.decodeLoop buf fuel i cur ds = .ok (pay.length, cur', ds') ∧ cur'.toNat = sumTo cur.toNat es ∧ ds'.map UInt32.toNat = ds.map UInt32.toNat ++ sums cur.toNat es := by
  induction es with
  | nil => intro _ _ _ _ h; exact absurd rfl h
  | cons e es ih =>
    intro fuel i cur ds _ hn hi hf
    obtain ⟨fuel, rfl⟩ : ∃ k, fuel = k + 1 := ⟨fuel - 1, by simp only [List.length_cons] at hf; omega⟩
    obtain ⟨a, r, h1, h2, h3, h4⟩ := hn
    have hd : buf.drop i = a ++ (r ++ link) := by
      rw [hb, List.drop_append_of_le_length hi, h1, List.append_assoc]
    have hu := (uvarint_exact (buf.drop i)).1 a (r ++ link) e hd h2
    have ha := h2.length_pos
    have hl : pay.length = i + a.length + r.length := by
      have := congrArg List.length h1
      rw [List.length_drop, List.length_append] at this
      omega
    have hbl : buf.length = pay.length + 8 := by rw [hb, List.length_append, h8]
    rw [Posts.decodeLoop]
    simp only [hu]
    rw [if_neg (by omega), if_neg (by rw [Nat.mod_eq_of_lt h3]; exact fun h => h rfl), if_neg (by rw [Int.toNat_natCast]; omega)]
    simp only [Int.toNat_natCast]
    have hc := toNat_add_ofNat cur h3
    cases es with
    | nil =>
      have hr : r = [] := h4
      subst hr
      rw [List.length_nil] at hl
      rw [if_pos (by omega)]
      refine ⟨_, _, by rw [show i + a.length = pay.length by omega], hc, ?_⟩
      simp only [List.map_append, List.map_cons, List.map_nil, sums, hc]
    | cons e' es' =>
      have hr : 1 ≤ r.length := by
        obtain ⟨a', r', g1, g2, _⟩ := h4
        have := g2.length_pos
        rw [g1, List.length_append]; omega
      rw [if_neg (by omega)]
      obtain ⟨cur', ds', k1, k2, k3⟩ := ih fuel (i + a.length) (cur + UInt32.ofNat e) (ds ++ [cur + UInt32.ofNat e]) (by simp) (by
        rw [← List.drop_drop, h1, List.drop_left]; exact h4) (by omega) (by simp only [List.length_cons] at hf ⊢; omega)
      refine ⟨cur', ds', k1, ?_, ?_⟩
      · rw [k2, hc]; rfl
      · rw [k3, hc, List.map_append, List.append_assoc]
        simp only [List.map_cons, List.map_nil, hc, List.cons_append, List.nil_append, sums]

/-- what was decoded, there was -/
theorem decodeLoop_inv (buf pay link : Bytes) (hb : buf = pay ++ link) (h8 : link.length = 8) (fuel : Nat) : ∀ (i : Nat) (cur : UInt32) (ds : List UInt32) (o : Nat × UInt32 × List UInt32),
    Posts.decodeLoop buf fuel i cur ds = .ok o → i ≤ pay.length → ∃ es, NumsAs (pay.drop i) es := by
  induction fuel with
  | zero => intro i cur ds o h; cases h
  | succ fuel ih =>
    intro i cur ds o h hi
    have hbl : buf.length = pay.length + 8 := by rw [hb, List.length_append, h8]
    rw [Posts.decodeLoop] at h
    simp only [] at h
    by_cases ht : (uvarint (buf.drop i)).2 ≤ 0
    · rw [if_pos ht] at h; cases h
    · rw [if_neg ht] at h
      by_cases h32 : (uvarint (buf.drop i)).1 % 2 ^ 32 ≠ (uvarint (buf.drop i)).1
      · rw [if_pos h32] at h; cases h
      · rw [if_neg h32] at h
        obtain ⟨l, r, e1, e2, e3⟩ := (uvarint_exact (buf.drop i)).2 (by omega)
        have hlt : (uvarint (buf.drop i)).1 < 2 ^ 32 := by
          have : (uvarint (buf.drop i)).1 % 2 ^ 32 < 2 ^ 32 := Nat.mod_lt _ (by decide)
          omega
        generalize (uvarint (buf.drop i)).1 = v at *
        rw [e3, Int.toNat_natCast] at h
        by_cases hm : ((i + l.length : Nat) : Int) > (buf.length : Int) - 8
        · rw [if_pos hm] at h; cases h
        · rw [if_neg hm] at h
          have hle : i + l.length ≤ pay.length := by omega
          have hp : pay.drop i = l ++ pay.drop (i + l.length) := by
            rw [hb, List.drop_append_of_le_length hi] at e1
            have h1 : (pay.drop i).take l.length = l := by
              have := congrArg (List.take l.length) e1
              rw [List.take_append_of_le_length (by rw [List.length_drop]; omega), List.take_left] at this
              exact this
            rw [← List.drop_drop]
            conv => lhs; rw [← List.take_append_drop l.length (pay.drop i), h1]
          by_cases he : ((i + l.length : Nat) : Int) = (buf.length : Int) - 8
          · refine ⟨[v], l, [], ?_, e2, hlt, rfl⟩
            rw [hp, List.drop_of_length_le (by omega)]
          · rw [if_neg he] at h
            obtain ⟨es, hes⟩ := ih _ _ _ _ h hle
            exact ⟨v :: es, l, _, hp, e2, hlt, hes⟩

/-- the errors of decoding are messages -/
theorem decodeLoop_any' (buf : Bytes) (fuel : Nat) : ∀ (i : Nat) (cur : UInt32) (ds : List UInt32), i ≤ buf.length → buf.length < i + fuel →
    (∃ s, Posts.decodeLoop buf fuel i cur ds = fail (.msg s)) ∨ ∃ j cur' ds', Posts.decodeLoop buf fuel i cur ds = .ok (j, cur', ds') ∧ j + 8 = buf.length ∧ i < j := by
  induction fuel with
  | zero => intro i cur ds hi hf; omega
  | succ fuel ih =>
    intro i cur ds hi hf
    rw [Posts.decodeLoop]
    simp only []
    cases hu : uvarint (buf.drop i) with
    | mk d t =>
      simp only []
      by_cases ht : t ≤ 0
      · rw [if_pos ht]; exact .inl ⟨_, rfl⟩
      · rw [if_neg ht]
        by_cases h32 : d % 2 ^ 32 ≠ d
        · rw [if_pos h32]; exact .inl ⟨_, rfl⟩
        · rw [if_neg h32]
          by_cases hm : ((i + t.toNat : Nat) : Int) > (buf.length : Int) - 8
          · rw [if_pos hm]; exact .inl ⟨_, rfl⟩
          · rw [if_neg hm]
            by_cases he : ((i + t.toNat : Nat) : Int) = (buf.length : Int) - 8
            · rw [if_pos he]
              exact .inr ⟨_, _, _, rfl, by omega, by omega⟩
            · rw [if_neg he]
              rcases ih (i + t.toNat) (cur + UInt32.ofNat d) (ds ++ [cur + UInt32.ofNat d]) (by omega) (by omega) with h | ⟨j, c', ds', h1, h2, h3⟩
              · exact .inl h
              · exact .inr ⟨j, c', ds', h1, h2, by omega⟩

/-! ## Pages -/

theorem Spec.PageAt.unique {f : Bytes} {p q q' : Int} {ds ds' : List Nat} (h : PageAt f p ds q) (h' : PageAt f p ds' q') : q' = q := by
  obtain ⟨n, v, h1, _⟩ := h
  obtain ⟨n', v', h1', _⟩ := h'
  exact (h1.unique h1').2.2

theorem Spec.NumsAs.pos {bs : Bytes} {ds : List Nat} (h : NumsAs bs ds) : ds.length ≤ bs.length := by
  induction ds generalizing bs with
  | nil => simp
  | cons d ds ih =>
    obtain ⟨a, r, rfl, h2, _, h4⟩ := h
    have := ih h4
    have := h2.length_pos
    simp only [List.length_cons, List.length_append]
    omega

theorem Spec.PageAt.some {f : Bytes} {p q : Int} {ds : List Nat} (h : PageAt f p ds q) : ds ≠ [] := by
  rintro rfl
  obtain ⟨n, v, h1, h2, h3⟩ := h
  have hl := congrArg List.length (show (f.drop (p + n).toNat).take (v.toNat - 8) = [] from h3)
  obtain ⟨g1, g2, g3, g4, _⟩ := h1
  have := g1.pos
  rw [List.length_take, List.length_drop, List.length_nil] at hl
  omega

/-- reading a page, exactly -/
theorem readNext_exact (p : Posts) (f : Bytes) :
    (∀ es q, PageAt f p.nextpos es q → ∃ p', p.readNext f = .ok p' ∧ p'.i = 0 ∧ p'.nextpos = q ∧ p'.current.toNat = sumTo p.current.toNat es ∧
      p'.docids.map UInt32.toNat = sums p.current.toNat es) ∧
    (WildAt f p.nextpos → p.readNext f = .error .panic) ∧
    (¬ WildAt f p.nextpos → (¬ ∃ es q, PageAt f p.nextpos es q) → ∃ e, p.readNext f = fail e ∧ e ≠ .eof) := by
  have hrd : ∀ (v : Int) (n : Nat), NumberAt f p.nextpos v n → 8 < v → p.nextpos + n + v ≤ f.length →
      ∃ b, readAt f (p.nextpos + n) v.toNat = .ok b ∧ b = (f.drop (p.nextpos + n).toNat).take v.toNat ∧ b.length = v.toNat ∧
        ∃ w, getBE64 (f.drop (p.nextpos + n + v - 8).toNat) = .ok w ∧ getBE64 (b.drop (v.toNat - 8)) = .ok w := by
    intro v n hn h8 hl
    have hp := hn.pos
    obtain ⟨b', k1, l, k2, w, k3, k4⟩ := slice_readAt_link hp.1 h8 hl
    have hr : readAt f (p.nextpos + n) v.toNat = .ok ((f.drop (p.nextpos + n).toNat).take v.toNat) := by
      unfold readAt
      rw [if_neg (by omega), if_neg (by omega), if_pos (by omega)]
    have hbl : ((f.drop (p.nextpos + n).toNat).take v.toNat).length = v.toNat := by rw [List.length_take, List.length_drop]; omega
    rw [hr] at k1
    injection k1 with k1
    refine ⟨_, hr, rfl, hbl, w, k4, ?_⟩
    rw [k1]
    rw [k1] at hbl
    unfold slice at k2
    rw [if_pos ⟨by omega, by omega⟩] at k2
    injection k2 with k2
    rw [List.take_of_length_le (by rw [List.length_drop]; omega)] at k2
    rw [k2]; exact k3
  refine ⟨?_, ?_, ?_⟩
  · rintro es q ⟨n, v, hc, h530, hes⟩
    have hne : es ≠ [] := Spec.PageAt.some ⟨n, v, hc, h530, hes⟩
    obtain ⟨hn, h8, _, hl, w, hw, hq⟩ := hc
    obtain ⟨b, b1, b2, b3, w', b4, b5⟩ := hrd v n hn h8 hl
    rw [hw] at b4
    injection b4 with b4
    subst b4
    unfold Posts.readNext
    simp only [bind, Except.bind]
    rw [(readVarintAt_any f _ v n).mpr hn]
    simp only [Posts.wrapErr]
    rw [if_neg (by
      have : (Posts.bufLen : Int) = 530 := rfl
      omega), b1]
    simp only []
    have hpay : (b.take (v.toNat - 8)).length = v.toNat - 8 := by rw [List.length_take]; omega
    have hes' : NumsAs ((b.take (v.toNat - 8)).drop 0) es := by
      rw [List.drop_zero, b2, List.take_take, Nat.min_eq_left (by omega)]; exact hes
    have hlen := hes'.pos
    rw [List.drop_zero] at hlen
    obtain ⟨c', ds', k1, k2, k3⟩ := decodeLoop_of b (b.take (v.toNat - 8)) (b.drop (v.toNat - 8)) (List.take_append_drop _ _).symm
      (by rw [List.length_drop]; omega) es (b.length + 1) 0 p.current [] hne hes' (Nat.zero_le _) (by omega)
    rw [k1]
    simp only [hpay]
    rw [b5]
    exact ⟨_, rfl, rfl, hq.symm, k2, k3⟩
  · rintro ⟨v, n, hn, hw⟩
    unfold Posts.readNext
    simp only [bind, Except.bind]
    rw [(readVarintAt_any f _ v n).mpr hn]
    simp only [Posts.wrapErr]
    rw [if_pos (by
      have : (Posts.bufLen : Int) = 530 := rfl
      omega)]
  · intro hw hpg
    unfold Posts.readNext
    simp only [bind, Except.bind]
    rcases readVarintAt_err f p.nextpos with ⟨v, n, hn⟩ | ⟨e, he⟩
    · rw [(readVarintAt_any f _ v n).mpr hn]
      simp only [Posts.wrapErr]
      have hv : ¬ (v < 0 ∨ 530 < v) := fun h => hw ⟨v, n, hn, h⟩
      rw [if_neg (by
        have : (Posts.bufLen : Int) = 530 := rfl
        omega)]
      have hp := hn.pos
      by_cases hl : p.nextpos + n + v ≤ f.length
      · have hr : ∃ b, readAt f (p.nextpos + n) v.toNat = .ok b ∧ b.length = v.toNat := by
          unfold readAt
          rw [if_neg (by omega)]
          by_cases h0 : v.toNat = 0
          · rw [if_pos h0]; exact ⟨_, rfl, by rw [h0]; rfl⟩
          · rw [if_neg h0, if_pos (by omega)]
            exact ⟨_, rfl, by rw [List.length_take, List.length_drop]; omega⟩
        obtain ⟨b, hb, hbl⟩ := hr
        rw [hb]
        simp only []
        rcases decodeLoop_any' b (b.length + 1) 0 p.current [] (by omega) (by omega) with ⟨s, h⟩ | ⟨j, c', ds', h1, h2, h3⟩
        · rw [h]; exact ⟨_, rfl, nofun⟩
        · have h8 : 8 < v := by omega
          obtain ⟨b', b1, b2, b3, w', b4, b5⟩ := hrd v n hn h8 hl
          rw [hb] at b1
          injection b1 with b1
          subst b1
          obtain ⟨es, hes⟩ := decodeLoop_inv b (b.take (v.toNat - 8)) (b.drop (v.toNat - 8)) (List.take_append_drop _ _).symm
            (by rw [List.length_drop]; omega) (b.length + 1) 0 p.current [] _ h1 (Nat.zero_le _)
          rw [List.drop_zero, b2, List.take_take, Nat.min_eq_left (by omega)] at hes
          exact absurd ⟨es, _, n, v, ⟨hn, h8, by omega, hl, w', b4, rfl⟩, by omega, hes⟩ hpg
      · have : readAt f (p.nextpos + n) v.toNat = fail .eof := by
          unfold readAt
          rw [if_neg (by omega), if_neg (by omega), if_neg (by omega)]
        rw [this]
        exact ⟨_, rfl, nofun⟩
    · rw [he]; exact ⟨_, rfl, nofun⟩

/-! ## The loop of `Get` -/

/-- these calls of `Next` give these documents -/
inductive Turns (f : Bytes) : Posts → List UInt32 → Posts → Prop
  | nil {p : Posts} : Turns f p [] p
  | cons {p p1 p2 : Posts} {d : UInt32} {ds : List UInt32} : p.next f = .ok (d, p1) → Turns f p1 ds p2 → Turns f p (d :: ds) p2

theorem Turns.append {f : Bytes} {p p1 p2 : Posts} {xs ys : List UInt32} (h : Turns f p xs p1) (h' : Turns f p1 ys p2) : Turns f p (xs ++ ys) p2 := by
  induction h with
  | nil => exact h'
  | cons h1 _ ih => exact .cons h1 (ih h')

theorem Turns.split {f : Bytes} {p2 : Posts} (xs : List UInt32) : ∀ {p : Posts} {ys : List UInt32}, Turns f p (xs ++ ys) p2 → ∃ p1, Turns f p xs p1 ∧ Turns f p1 ys p2 := by
  induction xs with
  | nil => intro p ys h; exact ⟨_, .nil, h⟩
  | cons x xs ih =>
    intro p ys h
    cases h with
    | cons h1 h2 =>
      obtain ⟨p1, g1, g2⟩ := ih h2
      exact ⟨p1, .cons h1 g1, g2⟩

/-- the documents of a page that was read -/
theorem turns_page {f : Bytes} (n : Nat) : ∀ (p : Posts), p.i ≤ p.docids.length → p.docids.length - p.i = n →
    Turns f p (p.docids.drop p.i) { p with i := p.docids.length } := by
  induction n with
  | zero =>
    intro p hi hn
    have : p.i = p.docids.length := by omega
    have e : ({ p with i := p.docids.length } : Posts) = p := by rw [← this]
    rw [e, this, List.drop_length]
    exact .nil
  | succ n ih =>
    intro p hi hn
    have hlt : p.i < p.docids.length := by omega
    rw [List.drop_eq_getElem_cons hlt]
    refine .cons (p1 := { p with i := p.i + 1 }) ?_ (ih { p with i := p.i + 1 } (by show p.i + 1 ≤ p.docids.length; omega) (by show p.docids.length - (p.i + 1) = n; omega))
    unfold Posts.next
    simp only [bind, Except.bind, pure, Except.pure]
    rw [if_neg (by omega)]
    simp only [List.getElem?_eq_getElem hlt]

/-- the documents of pages -/
theorem turns_pages {f : Bytes} (dss : List (List Nat)) : ∀ {p : Posts} {q : Int}, p.i = p.docids.length → Pages f p.nextpos dss q →
    ∃ ids p', Turns f p ids p' ∧ ids.map UInt32.toNat = sums p.current.toNat dss.flatten ∧ p'.i = p'.docids.length ∧ p'.nextpos = q := by
  induction dss with
  | nil => intro p q hi h; exact ⟨[], p, .nil, rfl, hi, Eq.symm h⟩
  | cons ds dss ih =>
    rintro p q hi ⟨h1, r, h2, h3⟩
    obtain ⟨p', k1, k2, k3, k4, k5⟩ := (readNext_exact p f).1 ds r h2
    have hne : p'.docids ≠ [] := by
      intro h
      rw [h] at k5
      have := congrArg List.length k5
      rw [sums_length, List.map_nil, List.length_nil] at this
      exact h2.some (List.length_eq_zero_iff.mp this.symm)
    have hlt : 0 < p'.docids.length := List.length_pos_iff.mpr hne
    have hnx : p.next f = .ok (p'.docids[0], { p' with i := 1 }) := by
      unfold Posts.next
      simp only [bind, Except.bind, pure, Except.pure]
      rw [if_pos hi, if_neg h1, k1]
      simp only [k2, List.getElem?_eq_getElem hlt]
    have hpg := turns_page (f := f) _ { p' with i := 1 } hlt rfl
    obtain ⟨ids, p'', g1, g2, g3, g4⟩ := ih (p := { p' with i := p'.docids.length }) (q := q) rfl (by
      show Pages f p'.nextpos dss q
      rw [k3]; exact h3)
    refine ⟨p'.docids ++ ids, p'', ?_, ?_, g3, g4⟩
    · have : p'.docids = p'.docids[0] :: p'.docids.drop 1 := by rw [← List.drop_eq_getElem_cons hlt, List.drop_zero]
      rw [this]
      exact Turns.append (.cons hnx hpg) g1
    · rw [List.map_append, k5, g2, List.flatten_cons, sums_append]
      show _ ++ sums p'.current.toNat _ = _
      rw [k4]

theorem next_end {f : Bytes} {p : Posts} (hi : p.i = p.docids.length) : (p.nextpos = -1 → p.next f = fail .eof) ∧
    (p.nextpos ≠ -1 → WildAt f p.nextpos → p.next f = .error .panic) ∧
    (p.nextpos ≠ -1 → ¬ WildAt f p.nextpos → (¬ ∃ ds r, PageAt f p.nextpos ds r) → ∃ e, p.next f = fail e ∧ e ≠ .eof) := by
  obtain ⟨_, h2, h3⟩ := readNext_exact p f
  unfold Posts.next
  simp only [bind, Except.bind]
  rw [if_pos hi]
  refine ⟨fun h => ?_, fun h hw => ?_, fun h hw hp => ?_⟩
  · rw [if_pos h]
  · rw [if_neg h, h2 hw]
  · obtain ⟨e, e1, e2⟩ := h3 hw hp
    rw [if_neg h, e1]
    exact ⟨e, rfl, e2⟩

/-- one more document -/
theorem blot_step (grow : Nat → Nat) (lim : Bool) (b : Blot) (r : Bytes × UInt32 × UInt32) (hl : lim = true → b.docs.isSome = true ∧ b.len < b.cap) :
    ∃ b', b.next grow lim = .ok b' ∧ (b'.setLast r).blot = b.blot ∧ (∃ doc : Doc, (b'.setLast r).vis = b.vis ++ [doc] ∧ doc.path = r.1 ∧ doc.start = r.2.1 ∧ doc.stop = r.2.2) ∧
      (lim = true → (b'.setLast r).docs.isSome = true ∧ (b'.setLast r).cap = b.cap ∧ (b'.setLast r).len = b.len + 1) := by
  have hset : ∀ (bl : UInt32) (v : List Doc) (d : Doc) (s : List Doc), (Blot.mk bl (some ⟨v ++ [d], s⟩)).setLast r =
      ⟨bl, some ⟨v ++ [{ d with path := r.1, start := r.2.1, stop := r.2.2 }], s⟩⟩ := by
    intro bl v d s
    simp [Blot.setLast]
  obtain ⟨bl, ds⟩ := b
  cases lim with
  | false =>
    rcases ds with _ | ⟨v, _ | ⟨s, ss⟩⟩
    · have h0 := hset bl [] Doc.zero (List.replicate (grow 0) Doc.zero)
      rw [List.nil_append] at h0
      refine ⟨⟨bl, some ⟨[Doc.zero], List.replicate (grow 0) Doc.zero⟩⟩, rfl, ?_, ⟨{ Doc.zero with path := r.1, start := r.2.1, stop := r.2.2 }, ?_, rfl, rfl, rfl⟩, nofun⟩
      · rw [h0]
      · rw [h0]; rfl
    · exact ⟨_, rfl, by rw [hset], ⟨_, by rw [hset]; rfl, rfl, rfl, rfl⟩, nofun⟩
    · exact ⟨_, rfl, by rw [hset], ⟨_, by rw [hset]; rfl, rfl, rfl, rfl⟩, nofun⟩
  | true =>
    obtain ⟨h1, h2⟩ := hl rfl
    rcases ds with _ | ⟨v, _ | ⟨s, ss⟩⟩
    · cases h1
    · simp [Blot.len, Blot.cap] at h2
    · refine ⟨_, rfl, by rw [hset], ⟨_, by rw [hset]; rfl, rfl, rfl, rfl⟩, fun _ => ?_⟩
      rw [hset]
      refine ⟨rfl, ?_, ?_⟩
      · simp only [Blot.cap, List.length_append, List.length_cons, List.length_nil]; omega
      · simp only [Blot.len, List.length_append, List.length_cons, List.length_nil]

/-- the document that is shown for an id -/
def Shows (x : Index) (id : UInt32) (doc : Doc) : Prop := x.docid2Doc id = .ok (doc.path, doc.start, doc.stop)

/-- documents one after the other -/
theorem getLoop_turns (grow : Nat → Nat) (x : Index) (lim : Bool) {f : Bytes} {p p' : Posts} {ids : List UInt32} (ht : Turns f p ids p') :
    ∀ (rs : ReadState) (b : Blot), rs.file = f → rs.posts = p → (∀ id ∈ ids, ∃ r, x.docid2Doc id = .ok r) → (lim = true → b.docs.isSome = true ∧ b.len + ids.length ≤ b.cap) →
    ∃ b' new, (∀ fuel, ids.length ≤ fuel → Query.getLoop grow x lim fuel rs b = Query.getLoop grow x lim (fuel - ids.length) { rs with posts := p' } b') ∧
      (∀ fuel, fuel ≤ ids.length → (lim = true → fuel < ids.length) → Query.getLoop grow x lim fuel rs b = .error .diverge) ∧
      b'.blot = b.blot ∧ b'.vis = b.vis ++ new ∧ Each (Shows x) ids new ∧ (lim = true → b'.docs.isSome = true ∧ b'.cap = b.cap ∧ b'.len = b.len + ids.length) := by
  induction ht with
  | nil =>
    rintro rs b rfl rfl _ hl
    refine ⟨b, [], fun fuel _ => rfl, ?_, rfl, (List.append_nil _).symm, trivial, fun h => ⟨(hl h).1, rfl, rfl⟩⟩
    intro fuel h _
    have : fuel = 0 := by simpa using h
    subst this; rfl
  | @cons p p1 p2 d ds h1 h2 ih =>
    rintro rs b rfl rfl hd hl
    obtain ⟨r, hr⟩ := hd d List.mem_cons_self
    obtain ⟨bn, s1, s2, ⟨doc, s3, s4, s5, s6⟩, s7⟩ := blot_step grow lim b r (fun h => ⟨(hl h).1, by
      have := (hl h).2
      simp only [List.length_cons] at this
      omega⟩)
    obtain ⟨b', new, g1, g2, g3, g4, g5, g6⟩ := ih { rs with posts := p1 } (bn.setLast r) rfl rfl (fun id hid => hd id (List.mem_cons_of_mem _ hid)) (fun h => by
      obtain ⟨e1, e2, e3⟩ := s7 h
      have := (hl h).2
      simp only [List.length_cons] at this
      exact ⟨e1, by rw [e2, e3]; omega⟩)
    have hstep : ∀ fuel, Query.getLoop grow x lim (fuel + 1) rs b = Query.getLoop grow x lim fuel { rs with posts := p1 } (bn.setLast r) := by
      intro fuel
      rw [Query.getLoop]
      rw [if_neg (by
        intro h
        rw [Bool.and_eq_true] at h
        have := (hl h.1).2
        have h2 := beq_iff_eq.mp h.2
        simp only [List.length_cons] at this
        omega)]
      simp only [ReadState.next, h1, s1, hr, bind, Except.bind, pure, Except.pure]
    refine ⟨b', doc :: new, ?_, ?_, ?_, ?_, ?_, ?_⟩
    · intro fuel hf
      simp only [List.length_cons] at hf ⊢
      obtain ⟨fuel, rfl⟩ : ∃ k, fuel = k + 1 := ⟨fuel - 1, by omega⟩
      rw [hstep, g1 fuel (by omega), Nat.add_sub_add_right]
    · intro fuel hf hf'
      simp only [List.length_cons] at hf hf'
      cases fuel with
      | zero => rfl
      | succ fuel => rw [hstep, g2 fuel (by omega) (fun h => by have := hf' h; omega)]
    · rw [g3, s2]
    · rw [g4, s3, List.append_assoc]; rfl
    · refine ⟨?_, g5⟩
      unfold Shows
      rw [hr, s4, s5, s6]
    · intro h
      obtain ⟨e1, e2, e3⟩ := s7 h
      obtain ⟨k1, k2, k3⟩ := g6 h
      refine ⟨k1, by rw [k2, e2], ?_⟩
      rw [k3, e3, List.length_cons]; omega

end Dupi
