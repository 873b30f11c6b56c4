import Verif.Proof.AnyGet
import Verif.Props.AnyDir

/-! C114: what `Get` makes of any directory. -/

namespace Dupi.Props
open Spec

theorem lookup_all (f : Bytes) (id : UInt32) {p : Nat} (hr : RecordAt f id.toNat p) :
    ∃ r, Dmd.lookup f id = .ok r ∧ r.start.toNat = four ((f.drop (12 * id.toNat + 4)).take 4) ∧ r.stop.toNat = four ((f.drop (12 * id.toNat + 8)).take 4) := by
  obtain ⟨h1, rfl⟩ := hr
  have hdl : (f.drop (id.toNat * 12)).length = f.length - id.toNat * 12 := by simp
  have hr : readFull (f.drop (id.toNat * Dmd.rcdSize)) Dmd.rcdSize = .ok ((f.drop (id.toNat * 12)).take 12, (f.drop (id.toNat * 12)).drop 12) := by
    simp only [Dmd.rcdSize, readFull]; rw [if_pos (by omega)]
  have h4 : ∀ k, k ≤ 8 → (f.drop (12 * id.toNat + k)).take 4 = (((f.drop (id.toNat * 12)).take 12).drop k).take 4 := by
    intro k hk
    rw [List.drop_take, List.drop_drop, List.take_take, Nat.mul_comm, Nat.min_eq_left (by omega)]
  have hlt : ((f.drop (id.toNat * 12)).take 12).length = 12 := by rw [List.length_take]; omega
  rw [h4 4 (by omega), h4 8 (by omega)]
  have hfl := fun k => four_lt ((((f.drop (id.toNat * 12)).take 12).drop k).take 4)
  match hq : (f.drop (id.toNat * 12)).take 12, hlt with
  | [a, b, c, d, e, f', g, h, i, j, k, l], _ =>
    rw [hq] at hr hfl
    refine ⟨⟨UInt32.ofNat (four [a, b, c, d]), UInt32.ofNat (four [e, f', g, h]), UInt32.ofNat (four [i, j, k, l])⟩, ?_, ?_, ?_⟩
    · simp only [Dmd.lookup, hr, bind, Except.bind, pure, Except.pure, List.drop, getBE32_four]
    · simp only [UInt32.toNat_ofNat', List.drop, List.take]
      exact Nat.mod_eq_of_lt (hfl 4)
    · simp only [UInt32.toNat_ofNat', List.drop, List.take]
      exact Nat.mod_eq_of_lt (hfl 8)

/-- what is shown of a document -/
theorem doc_as {x : Index} {ns : List (Bytes × Nat)} (hx : x.fnames.map Fnames.says = ns) (hp : ∀ n ∈ ns, n.2 < ns.length) (id : UInt32) {path : Bytes} {a b : Nat}
    (h : DocAs x.dmd ns id.toNat path a b) : ∃ r, x.docid2Doc id = .ok r ∧ r.1 = path ∧ r.2.1.toNat = a ∧ r.2.2.toNat = b := by
  obtain ⟨p, cs, h1, h2, h3, rfl, rfl, rfl⟩ := h
  obtain ⟨s, e, k⟩ := ((docid2Doc_exact hx hp id).2 p h1).1 cs h2 h3
  obtain ⟨r, r1, r2, r3⟩ := lookup_all x.dmd id h1
  refine ⟨_, k, rfl, ?_⟩
  simp only [Index.docid2Doc, r1, bind, Except.bind, pure, Except.pure] at k
  cases ha : Fnames.abs x.fnames r.fid with
  | error e => rw [ha] at k; cases k
  | ok q =>
    rw [ha] at k
    injection k with k
    injection k with _ k
    injection k with k1 k2
    rw [← k1, ← k2]
    exact ⟨r2, r3⟩

theorem reaches_turns {f : Bytes} {h : Int} {ids : List Nat} {q : Int} (hr : Reaches f h ids q) :
    ∃ is p', Turns f (Posts.new h) is p' ∧ is.map UInt32.toNat = ids ∧ p'.i = p'.docids.length ∧ p'.nextpos = q := by
  obtain ⟨dss, h1, rfl⟩ := hr
  obtain ⟨is, p', k1, k2, k3, k4⟩ := turns_pages dss (p := Posts.new h) rfl h1
  exact ⟨is, p', k1, k2, k3, k4⟩

theorem begins_turns {f : Bytes} {h : Int} {ids : List Nat} (hb : BeginsWith f h ids) : ∃ is p', Turns f (Posts.new h) is p' ∧ is.map UInt32.toNat = ids := by
  obtain ⟨all, q, hr, t, rfl⟩ := hb
  obtain ⟨is, p', k1, k2, _⟩ := reaches_turns hr
  obtain ⟨as, bs, rfl, e1, e2⟩ := List.map_eq_append_iff.mp k2
  obtain ⟨p1, g1, _⟩ := Turns.split as k1
  exact ⟨as, p1, g1, e1⟩

theorem pages_append {f : Bytes} (xs : List (List Nat)) : ∀ {p q r : Int} {ys : List (List Nat)}, Pages f p xs q → Pages f q ys r → Pages f p (xs ++ ys) r := by
  induction xs with
  | nil => rintro p q r ys h h'; obtain rfl : q = p := h; exact h'
  | cons x xs ih => rintro p q r ys ⟨h1, s, h2, h3⟩ h'; exact ⟨h1, s, h2, ih h3 h'⟩

theorem pages_long {f : Bytes} (xs : List (List Nat)) : ∀ {p q : Int}, Pages f p xs q → xs.length ≤ xs.flatten.length := by
  induction xs with
  | nil => intros; exact Nat.zero_le _
  | cons x xs ih =>
    rintro p q ⟨_, s, h2, h3⟩
    have := ih h3
    have := List.length_pos_iff.mpr h2.some
    simp only [List.length_cons, List.flatten_cons, List.length_append]
    omega

/-- the list ends somehow, or goes on -/
theorem list_fates (f : Bytes) (h : Int) : (∃ ids q, Reaches f h ids q ∧ (q = -1 ∨ ¬ ∃ ds r, PageAt f q ds r)) ∨ ∀ n, ∃ ids, ids.length = n ∧ BeginsWith f h ids := by
  by_cases hall : ∀ n, ∃ dss q, Pages f h dss q ∧ dss.length = n
  · right
    intro n
    obtain ⟨dss, q, h1, h2⟩ := hall n
    refine ⟨(sums 0 dss.flatten).take n, ?_, _, q, ⟨dss, h1, rfl⟩, List.take_prefix _ _⟩
    have := pages_long dss h1
    rw [List.length_take, sums_length]
    omega
  · left
    apply Classical.byContradiction
    intro hc
    apply hall
    intro n
    induction n with
    | zero => exact ⟨[], h, rfl, rfl⟩
    | succ n ih =>
      obtain ⟨dss, q, h1, h2⟩ := ih
      have : q ≠ -1 ∧ ∃ ds r, PageAt f q ds r := by
        constructor
        · intro hq; exact hc ⟨_, q, ⟨dss, h1, rfl⟩, .inl hq⟩
        · apply Classical.byContradiction
          intro hq; exact hc ⟨_, q, ⟨dss, h1, rfl⟩, .inr hq⟩
      obtain ⟨hq, ds, r, hp⟩ := this
      exact ⟨dss ++ [ds], r, pages_append dss h1 ⟨hq, r, hp, rfl⟩, by rw [List.length_append, h2]; rfl⟩

theorem first_not {α : Type} (P : α → Prop) (l : List α) : (∀ a ∈ l, P a) ∨ ∃ xs y, xs ++ [y] <+: l ∧ (∀ a ∈ xs, P a) ∧ ¬ P y := by
  induction l with
  | nil => exact .inl nofun
  | cons a l ih =>
    by_cases ha : P a
    · rcases ih with h | ⟨xs, y, h1, h2, h3⟩
      · refine .inl fun b hb => ?_
        rcases List.mem_cons.mp hb with rfl | hb
        · exact ha
        · exact h b hb
      · refine .inr ⟨a :: xs, y, by rw [List.cons_append]; exact List.cons_prefix_cons.mpr ⟨rfl, h1⟩, fun b hb => ?_, h3⟩
        rcases List.mem_cons.mp hb with rfl | hb
        · exact ha
        · exact h2 b hb
    · exact .inr ⟨[], a, ⟨l, rfl⟩, nofun, ha⟩

/-- some fate there is -/
theorem getFate_some (dmd : Bytes) (ns : List (Bytes × Nat)) (post : Bytes) (h : Int) (room : Option Nat) : ∃ F, GetFate dmd ns post h room F := by
  have hbad : ∀ xs y, Known dmd ns xs → (¬ ∃ path a b, DocAs dmd ns y path a b) → NotFull room xs.length → BeginsWith post h (xs ++ [y]) → ∃ F, GetFate dmd ns post h room F := by
    intro xs y hk hy hn hb
    by_cases hl : dmd.length < 12 * (y + 1)
    · exact ⟨.error, xs, hk, hn, .inr ⟨y, hb, hl⟩⟩
    · have hr : RecordAt dmd y (four ((dmd.drop (12 * y)).take 4)) := ⟨by omega, rfl⟩
      generalize four ((dmd.drop (12 * y)).take 4) = p at hr
      by_cases hp : p < ns.length
      · refine ⟨.endless, .inr ⟨xs, y, p, hk, hn, hb, hr, hp, ?_⟩⟩
        rintro ⟨cs, hc⟩
        exact hy ⟨_, _, _, p, cs, hr, hp, hc, rfl, rfl, rfl⟩
      · exact ⟨.panic, xs, hk, hn, .inr ⟨y, p, hb, hr, by omega⟩⟩
  have hpre : ∀ l : List Nat, BeginsWith post h l → (∀ n, room = some n → l.length ≤ n) → Known dmd ns l ∨ ∃ F, GetFate dmd ns post h room F := by
    intro l hb hl
    rcases first_not (fun id => ∃ path a b, DocAs dmd ns id path a b) l with hk | ⟨xs, y, h1, h2, h3⟩
    · exact .inl hk
    · right
      refine hbad xs y h2 h3 ?_ ?_
      · intro n hn
        have := h1.length_le
        have := hl n hn
        rw [List.length_append, List.length_singleton] at *
        omega
      · obtain ⟨all, q, k1, k2⟩ := hb
        exact ⟨all, q, k1, h1.trans k2⟩
  have hfull : ∀ l n, BeginsWith post h l → room = some n → n ≤ l.length → ∃ F, GetFate dmd ns post h room F := by
    intro l n hb hn hl
    have hb' : BeginsWith post h (l.take n) := by
      obtain ⟨all, q, k1, k2⟩ := hb
      exact ⟨all, q, k1, (List.take_prefix _ _).trans k2⟩
    have hlen : (l.take n).length = n := by rw [List.length_take]; omega
    rcases hpre _ hb' (fun m hm => by rw [hn] at hm; injection hm with hm; omega) with hk | hF
    · exact ⟨.result (l.take n), hk, .inl ⟨by rw [hlen]; exact hn, hb'⟩⟩
    · exact hF
  rcases list_fates post h with ⟨ids, q, h1, h2⟩ | hall
  · have hb : BeginsWith post h ids := ⟨ids, q, h1, List.prefix_refl _⟩
    by_cases hnf : NotFull room ids.length
    · rcases hpre ids hb (fun n hn => Nat.le_of_lt (hnf n hn)) with hk | hF
      · by_cases hq : q = -1
        · subst hq
          exact ⟨.result ids, hk, .inr ⟨hnf, h1⟩⟩
        · rcases h2 with h2 | h2
          · exact absurd h2 hq
          · by_cases hw : WildAt post q
            · exact ⟨.panic, ids, hk, hnf, .inl ⟨q, hq, h1, hw⟩⟩
            · exact ⟨.error, ids, hk, hnf, .inl ⟨q, hq, h1, hw, h2⟩⟩
      · exact hF
    · cases room with
      | none => exact absurd (nofun : NotFull none ids.length) hnf
      | some n => exact hfull ids n hb rfl (by
          apply Nat.le_of_not_lt
          intro hlt
          exact hnf fun m hm => by injection hm with hm; omega)
  · cases room with
    | some n =>
      obtain ⟨l, l1, l2⟩ := hall n
      exact hfull l n l2 rfl (by omega)
    | none =>
      by_cases hF : ∃ F, GetFate dmd ns post h none F
      · exact hF
      · refine ⟨.endless, .inl ⟨rfl, fun n => ?_⟩⟩
        obtain ⟨l, l1, l2⟩ := hall n
        rcases hpre l l2 nofun with hk | h
        · exact ⟨l, l1, l2, hk⟩
        · exact absurd h hF

/-- the room of a blot: with a slice, what is left in it -/
def _root_.Dupi.Blot.room (b : Blot) : Option Nat := b.docs.map fun s => s.spare.length

/-- the loop of `Get` from the beginning of a list -/
theorem getLoop_fate {x : Index} {ns : List (Bytes × Nat)} (hns : x.fnames.map Fnames.says = ns) (hp : ∀ n ∈ ns, n.2 < ns.length) (grow : Nat → Nat) (b : Blot)
    {post : Bytes} {h : Int} (rs : ReadState) (g1 : rs.file = post) (g2 : rs.posts = Posts.new h) :
    (∀ ids, GetFate x.dmd ns post h b.room (.result ids) → ∀ fuel, ids.length < fuel →
      ∃ r new, Query.getLoop grow x b.docs.isSome fuel rs b = .ok r ∧ r.blot = b.blot ∧ r.vis = b.vis ++ new ∧
        Each (fun id (doc : Doc) => DocAs x.dmd ns id doc.path doc.start.toNat doc.stop.toNat) ids new) ∧
    (GetFate x.dmd ns post h b.room .error → ∃ K, ∀ fuel, K < fuel → Errs (Query.getLoop grow x b.docs.isSome fuel rs b)) ∧
    (GetFate x.dmd ns post h b.room .panic → ∃ K, ∀ fuel, K < fuel → Query.getLoop grow x b.docs.isSome fuel rs b = .error .panic) ∧
    (GetFate x.dmd ns post h b.room .endless → ∀ fuel, Query.getLoop grow x b.docs.isSome fuel rs b = .error .diverge) := by
  have hdoc := docid2Doc_exact (x := x) hns hp
  have has := fun id => @doc_as x _ hns hp id
  have hroom : b.docs.isSome = true → b.room = some (b.cap - b.len) ∧ b.len ≤ b.cap := by
    intro hb
    obtain ⟨bl, _ | ⟨v, sp⟩⟩ := b
    · cases hb
    · refine ⟨?_, ?_⟩
      · simp only [Blot.room, Blot.cap, Blot.len, Option.map_some, Nat.add_sub_cancel_left]
      · simp only [Blot.cap, Blot.len]; omega
  -- documents that are known are given
  have hrun : ∀ {is : List UInt32} {p' : Posts}, Turns post (Posts.new h) is p' → Known x.dmd ns (is.map UInt32.toNat) →
      (b.docs.isSome = true → is.length ≤ b.cap - b.len) →
      ∃ b' new, (∀ fuel, is.length ≤ fuel → Query.getLoop grow x b.docs.isSome fuel rs b = Query.getLoop grow x b.docs.isSome (fuel - is.length) { rs with posts := p' } b') ∧
        (∀ fuel, fuel ≤ is.length → (b.docs.isSome = true → fuel < is.length) → Query.getLoop grow x b.docs.isSome fuel rs b = .error .diverge) ∧
        b'.blot = b.blot ∧ b'.vis = b.vis ++ new ∧ Each (fun id (doc : Doc) => DocAs x.dmd ns id doc.path doc.start.toNat doc.stop.toNat) (is.map UInt32.toNat) new ∧
        (b.docs.isSome = true → b'.docs.isSome = true ∧ b'.cap = b.cap ∧ b'.len = b.len + is.length) := by
    intro is p' ht' hkn hle
    obtain ⟨b', new, k1, k2, k3, k4, k5, k6⟩ := getLoop_turns grow x b.docs.isSome ht' rs b g1 g2 (fun id hid => by
      obtain ⟨path, a, c, hd⟩ := hkn id.toNat (List.mem_map.mpr ⟨id, hid, rfl⟩)
      obtain ⟨r, hr, _⟩ := has id hd
      exact ⟨r, hr⟩) (fun hb => ⟨hb, by have := hle hb; have := (hroom hb).2; omega⟩)
    refine ⟨b', new, k1, k2, k3, k4, ?_, k6⟩
    clear k1 k2 k4 k6 ht' hle
    induction is generalizing new with
    | nil => cases new with
      | nil => trivial
      | cons _ _ => exact k5.elim
    | cons id is ih =>
      cases new with
      | nil => exact k5.elim
      | cons doc new =>
        obtain ⟨m1, m2⟩ := k5
        refine ⟨?_, ih (fun y hy => hkn y (List.mem_cons_of_mem _ hy)) new m2⟩
        obtain ⟨path, a, c, hd⟩ := hkn id.toNat List.mem_cons_self
        obtain ⟨r, hr, z1, z2, z3⟩ := has id hd
        unfold Shows at m1
        rw [m1] at hr
        injection hr with hr
        rw [← hr] at z1 z2 z3
        simp only [] at z1 z2 z3
        show DocAs x.dmd ns id.toNat doc.path doc.start.toNat doc.stop.toNat
        rw [z1, z2, z3]; exact hd
  -- and then?
  have hnot : ∀ {b' : Blot} {k : Nat}, NotFull b.room k → (b.docs.isSome = true → b'.docs.isSome = true ∧ b'.cap = b.cap ∧ b'.len = b.len + k) →
      ¬ ((b.docs.isSome && b'.len == b'.cap) = true) := by
    intro b' k hnf h1 h2
    rw [Bool.and_eq_true] at h2
    obtain ⟨_, h3, h4⟩ := h1 h2.1
    obtain ⟨h5, h6⟩ := hroom h2.1
    have := hnf _ h5
    have := beq_iff_eq.mp h2.2
    omega
  have hle' : ∀ {k : Nat}, NotFull b.room k → b.docs.isSome = true → k ≤ b.cap - b.len := by
    intro k hnf hb
    have := hnf _ (hroom hb).1
    omega
  -- a document that is not known
  have hunk : ∀ {ids : List Nat} {id : Nat}, Known x.dmd ns ids → NotFull b.room ids.length → BeginsWith post h (ids ++ [id]) → ∃ v : UInt32, v.toNat = id ∧
      ∃ K, (∀ fuel, fuel ≤ K → Query.getLoop grow x b.docs.isSome fuel rs b = .error .diverge) ∧
        ∀ fuel, K < fuel → ∀ e, x.docid2Doc v = .error e →
          Query.getLoop grow x b.docs.isSome fuel rs b = (match e with | .err e => fail (.wrap "internal error docid2Doc" e) | e => .error e) := by
    intro ids id hkn hnf hb
    obtain ⟨is, p', t1, t2⟩ := begins_turns hb
    obtain ⟨as, bs, rfl, u1, u2⟩ := List.map_eq_append_iff.mp t2
    obtain ⟨p1, t3, t4⟩ := Turns.split as t1
    match bs, u2, t4 with
    | [v], u2, .cons t5 .nil =>
      simp only [List.map_cons, List.map_nil, List.cons.injEq, and_true] at u2
      have hlen : ids.length = as.length := by rw [← u1, List.length_map]
      rw [hlen] at hnf
      obtain ⟨b', new, k1, k2, k3, k4, k5, k6⟩ := hrun t3 (by rw [u1]; exact hkn) (hle' hnf)
      refine ⟨v, u2, as.length, ?_, ?_⟩
      · intro fuel hf
        by_cases hfe : fuel < as.length
        · exact k2 fuel hf fun _ => hfe
        · rw [k1 fuel (by omega), show fuel - as.length = 0 by omega]; rfl
      · intro fuel hf e he
        obtain ⟨m, rfl⟩ : ∃ m, fuel = as.length + (m + 1) := ⟨fuel - as.length - 1, by omega⟩
        rw [k1 _ (by omega), Nat.add_sub_cancel_left, Query.getLoop, if_neg (hnot hnf k6)]
        obtain ⟨bn, w1, _⟩ := blot_step grow b.docs.isSome b' ([], 0, 0) (fun hb => by
          obtain ⟨y1, y2, y3⟩ := k6 hb
          have := hnf _ (hroom hb).1
          exact ⟨y1, by omega⟩)
        simp only [ReadState.next, g1, t5, bind, Except.bind, pure, Except.pure, w1, he]
        cases e <;> rfl
  refine ⟨?_, ?_, ?_, ?_⟩
  · rintro ids ⟨hkn, ⟨hro, hbw⟩ | ⟨hnf, hre⟩⟩ fuel hf
    · have hb : b.docs.isSome = true := by
        unfold Blot.room at hro
        cases hbd : b.docs with
        | none => rw [hbd] at hro; cases hro
        | some _ => rfl
      obtain ⟨is, p', t1, t2⟩ := begins_turns hbw
      have hlen : ids.length = is.length := by rw [← t2, List.length_map]
      have hrm := hroom hb
      rw [hro] at hrm
      have hrm1 := hrm.1
      injection hrm1 with hrm1
      obtain ⟨b', new, k1, k2, k3, k4, k5, k6⟩ := hrun t1 (by rw [t2]; exact hkn) (fun _ => by omega)
      refine ⟨b', new, ?_, k3, k4, by rw [← t2]; exact k5⟩
      rw [k1 fuel (by omega)]
      obtain ⟨m, hm⟩ : ∃ m, fuel - is.length = m + 1 := ⟨fuel - is.length - 1, by omega⟩
      rw [hm, Query.getLoop, if_pos]
      obtain ⟨_, y2, y3⟩ := k6 hb
      rw [Bool.and_eq_true]
      exact ⟨hb, beq_iff_eq.mpr (by omega)⟩
    · obtain ⟨is, p', t1, t2, t3, t4⟩ := reaches_turns hre
      have hlen : ids.length = is.length := by rw [← t2, List.length_map]
      rw [hlen] at hnf hf
      obtain ⟨b', new, k1, k2, k3, k4, k5, k6⟩ := hrun t1 (by rw [t2]; exact hkn) (hle' hnf)
      refine ⟨b', new, ?_, k3, k4, by rw [← t2]; exact k5⟩
      rw [k1 fuel (by omega)]
      obtain ⟨m, hm⟩ : ∃ m, fuel - is.length = m + 1 := ⟨fuel - is.length - 1, by omega⟩
      rw [hm, Query.getLoop, if_neg (hnot hnf k6)]
      simp only [ReadState.next, g1, (next_end t3).1 t4, bind, Except.bind]
  · rintro ⟨ids, hkn, hnf, ⟨q', hq, hre, hw, hpg⟩ | ⟨id, hb, hl⟩⟩
    · obtain ⟨is, p', t1, t2, t3, t4⟩ := reaches_turns hre
      have hlen : ids.length = is.length := by rw [← t2, List.length_map]
      rw [hlen] at hnf
      subst t4
      obtain ⟨b', new, k1, k2, k3, k4, k5, k6⟩ := hrun t1 (by rw [t2]; exact hkn) (hle' hnf)
      obtain ⟨e, w1, w2⟩ := (next_end t3).2.2 hq hw hpg
      refine ⟨is.length, fun fuel hf => ⟨e, ?_⟩⟩
      rw [k1 fuel (by omega)]
      obtain ⟨m, hm⟩ : ∃ m, fuel - is.length = m + 1 := ⟨fuel - is.length - 1, by omega⟩
      rw [hm, Query.getLoop, if_neg (hnot hnf k6)]
      simp only [ReadState.next, g1, w1, bind, Except.bind, fail]
      cases e <;> first | rfl | exact absurd rfl w2
    · obtain ⟨v, rfl, K, _, h2⟩ := hunk hkn hnf hb
      obtain ⟨e, he⟩ := (hdoc v).1 hl
      exact ⟨K, fun fuel hf => ⟨_, h2 fuel hf _ he⟩⟩
  · rintro ⟨ids, hkn, hnf, ⟨q', hq, hre, hw⟩ | ⟨id, p, hb, hrec, hl⟩⟩
    · obtain ⟨is, p', t1, t2, t3, t4⟩ := reaches_turns hre
      have hlen : ids.length = is.length := by rw [← t2, List.length_map]
      rw [hlen] at hnf
      subst t4
      obtain ⟨b', new, k1, k2, k3, k4, k5, k6⟩ := hrun t1 (by rw [t2]; exact hkn) (hle' hnf)
      refine ⟨is.length, fun fuel hf => ?_⟩
      rw [k1 fuel (by omega)]
      obtain ⟨m, hm⟩ : ∃ m, fuel - is.length = m + 1 := ⟨fuel - is.length - 1, by omega⟩
      rw [hm, Query.getLoop, if_neg (hnot hnf k6)]
      simp only [ReadState.next, g1, (next_end t3).2.1 hq hw, bind, Except.bind]
    · obtain ⟨v, rfl, K, _, h2⟩ := hunk hkn hnf hb
      exact ⟨K, fun fuel hf => h2 fuel hf _ (((hdoc v).2 p hrec).2.1 hl)⟩
  · rintro (⟨hro, hall⟩ | ⟨ids, id, p, hkn, hnf, hb, hrec, hl, hle⟩) fuel
    · obtain ⟨ids, l1, l2, l3⟩ := hall fuel
      obtain ⟨is, p', t1, t2⟩ := begins_turns l2
      have hlen : ids.length = is.length := by rw [← t2, List.length_map]
      have hb : b.docs.isSome = false := by
        cases hbd : b.docs with
        | none => rfl
        | some _ => rw [Blot.room, hbd] at hro; cases hro
      obtain ⟨b', new, k1, k2, _⟩ := hrun t1 (by rw [t2]; exact l3) (fun h => by rw [hb] at h; cases h)
      exact k2 fuel (by omega) (fun h => by rw [hb] at h; cases h)
    · obtain ⟨v, rfl, K, h1, h2⟩ := hunk hkn hnf hb
      by_cases hf : fuel ≤ K
      · exact h1 fuel hf
      · exact h2 fuel (by omega) _ (((hdoc v).2 p hrec).2.2 hl hle)

/-- **C114.**  `Get` in any directory that opened, with at least one shard; whatever the bytes of its files.  What becomes of the call is what `GetFate` says, from the bytes of
the posting file, of the records and of the table of paths alone; and one of the four fates there is. -/
theorem C114_get {srt : Sorter} (hsrt : IsSorter srt) {d : Dir} {x : Index} (hx : Index.open Json.codec srt d = .ok x) (hn : 0 < x.config.numShards)
    (hn' : x.config.numShards < 2 ^ 32) :
    ∃ q dmd f ns, x.startQuery = .ok q ∧ d .dmd = some dmd ∧ d .fnm = some f ∧ TableFile f ns ∧
      ∀ grow (b : Blot) post h, ListAt d (b.blot.toNat % x.config.numShards.toNat) (b.blot.toNat / x.config.numShards.toNat % 65536) post h →
        (∃ F, GetFate dmd ns post h b.room F) ∧
        (∀ ids, GetFate dmd ns post h b.room (.result ids) → ∀ fuel, ids.length < fuel →
          ∃ r new, Query.get grow x fuel q b = .ok r ∧ r.blot = b.blot ∧ r.vis = b.vis ++ new ∧
            Each (fun id (doc : Doc) => DocAs dmd ns id doc.path doc.start.toNat doc.stop.toNat) ids new) ∧
        (GetFate dmd ns post h b.room .error → ∃ K, ∀ fuel, K < fuel → Errs (Query.get grow x fuel q b)) ∧
        (GetFate dmd ns post h b.room .panic → ∃ K, ∀ fuel, K < fuel → Query.get grow x fuel q b = .error .panic) ∧
        (GetFate dmd ns post h b.room .endless → ∀ fuel, Query.get grow x fuel q b = .error .diverge) := by
  obtain ⟨i1, i2, ⟨f, i3, i3'⟩, i4⟩ := openIndex_inv hx
  have ht := ((Fnames.read_exact f).1 _).mp ⟨_, i3', rfl⟩
  have hp : ∀ n ∈ x.fnames.map Fnames.says, n.2 < (x.fnames.map Fnames.says).length := by
    obtain ⟨_, _, _, _, _, _, _, h⟩ := ht
    exact h
  obtain ⟨o1, o2, o3⟩ := opened hx
  obtain ⟨q, s1, s2⟩ := startQuery_any hsrt o2 (by omega) (by omega) o3
  refine ⟨q, x.dmd, f, _, s1, i2, i3, ht, fun grow b post h hl => ?_⟩
  generalize hns : x.fnames.map Fnames.says = ns at *
  obtain ⟨r1, r2, r3⟩ := route_parts (n := x.config.numShards.toNat) (by omega) (by omega) b.blot q.n s2.qn
  have hlt : b.blot.toNat % x.config.numShards.toNat < x.shards.length := by rw [o2]; exact Nat.mod_lt _ (by omega)
  have hs := List.getElem?_eq_getElem hlt
  have hr := o3 _ _ hs
  obtain ⟨e1, e2⟩ := hr.back _ _ _ hl
  subst e1
  have hk : b.blot.toNat / x.config.numShards.toNat % 65536 < 65536 := Nat.mod_lt _ (by decide)
  generalize hsg : x.shards[b.blot.toNat % x.config.numShards.toNat] = s at *
  have hcnt := List.getElem?_eq_getElem (l := s.counts) (i := b.blot.toNat / x.config.numShards.toNat % 65536) (by rw [hr.counts]; exact hk)
  have hget : ∃ rs : ReadState, rs.file = s.file ∧ rs.posts = Posts.new h ∧ ∀ fuel, Query.get grow x fuel q b = Query.getLoop grow x b.docs.isSome fuel rs b := by
    refine ⟨⟨s.id, b.blot.toNat / x.config.numShards.toNat % 65536, 0, s.counts[b.blot.toNat / x.config.numShards.toNat % 65536]'(by rw [hr.counts]; exact hk), Posts.new h, s.file⟩,
      rfl, rfl, fun fuel => ?_⟩
    unfold Query.get
    rw [if_neg r1, r2, hs]
    simp only [bind, Except.bind, ShardIndex.readStateFor, ShardIndex.readStateForBlotAt]
    rw [r3, e2, hcnt]
  obtain ⟨rs, g1, g2, hget⟩ := hget
  simp only [hget]
  exact ⟨getFate_some _ _ _ _ _, getLoop_fate hns hp grow b rs g1 g2⟩

/-- **C114**: the four fates exclude each other, in any directory that opened. -/
theorem C114_one {srt : Sorter} (hsrt : IsSorter srt) {d : Dir} {x : Index} (hx : Index.open Json.codec srt d = .ok x) (hn : 0 < x.config.numShards)
    (hn' : x.config.numShards < 2 ^ 32) {dmd f : Bytes} {ns : List (Bytes × Nat)} (h1 : d .dmd = some dmd) (h2 : d .fnm = some f) (h3 : TableFile f ns)
    (b : Blot) {post : Bytes} {h : Int} (hl : ListAt d (b.blot.toNat % x.config.numShards.toNat) (b.blot.toNat / x.config.numShards.toNat % 65536) post h) (ids : List Nat) :
    let G := GetFate dmd ns post h b.room
    ¬ (G (.result ids) ∧ G .error) ∧ ¬ (G (.result ids) ∧ G .panic) ∧ ¬ (G (.result ids) ∧ G .endless) ∧ ¬ (G .error ∧ G .panic) ∧ ¬ (G .error ∧ G .endless) ∧ ¬ (G .panic ∧ G .endless) := by
  obtain ⟨q, dmd', f', ns', _, k1, k2, k3, k4⟩ := C114_get hsrt hx hn hn'
  rw [h1] at k1; injection k1 with k1; subst k1
  rw [h2] at k2; injection k2 with k2; subst k2
  obtain ⟨t, t1, t2⟩ := Fnames.read_of_table h3
  obtain ⟨t', t1', t2'⟩ := Fnames.read_of_table k3
  rw [t1] at t1'; injection t1' with t1'; subst t1'
  rw [t2] at t2'; subst t2'
  obtain ⟨_, g1, g2, g3, g4⟩ := k4 (fun _ => 0) b post h hl
  have a1 : GetFate dmd ns post h b.room (.result ids) → ∃ K, ∀ fuel, K < fuel → ∃ r, Query.get (fun _ => 0) x fuel q b = .ok r := fun h =>
    ⟨ids.length, fun fuel hf => by obtain ⟨r, _, e, _⟩ := g1 ids h fuel hf; exact ⟨r, e⟩⟩
  refine ⟨?_, ?_, ?_, ?_, ?_, ?_⟩
  · rintro ⟨e1, e2⟩
    obtain ⟨K, e1⟩ := a1 e1; obtain ⟨L, e2⟩ := g2 e2
    obtain ⟨r, e1⟩ := e1 (K + L + 1) (by omega); obtain ⟨e, e2⟩ := e2 (K + L + 1) (by omega)
    rw [e1] at e2; cases e2
  · rintro ⟨e1, e2⟩
    obtain ⟨K, e1⟩ := a1 e1; obtain ⟨L, e2⟩ := g3 e2
    obtain ⟨r, e1⟩ := e1 (K + L + 1) (by omega); have e2 := e2 (K + L + 1) (by omega)
    rw [e1] at e2; cases e2
  · rintro ⟨e1, e2⟩
    obtain ⟨K, e1⟩ := a1 e1
    obtain ⟨r, e1⟩ := e1 (K + 1) (by omega)
    rw [g4 e2] at e1; cases e1
  · rintro ⟨e1, e2⟩
    obtain ⟨K, e1⟩ := g2 e1; obtain ⟨L, e2⟩ := g3 e2
    obtain ⟨r, e1⟩ := e1 (K + L + 1) (by omega); have e2 := e2 (K + L + 1) (by omega)
    rw [e1] at e2; cases e2
  · rintro ⟨e1, e2⟩
    obtain ⟨K, e1⟩ := g2 e1
    obtain ⟨r, e1⟩ := e1 (K + 1) (by omega)
    rw [g4 e2] at e1; cases e1
  · rintro ⟨e1, e2⟩
    obtain ⟨K, e1⟩ := g3 e1
    have e1 := e1 (K + 1) (by omega)
    rw [g4 e2] at e1; cases e1

/-- **C114**, in a directory that was made by sessions: the fate of `Get` without a slice is a result, of as many documents as have the blot. -/
theorem C114_sessions {u : Uni} {srt : Sorter} {c : Config} (hU : Usable Json.codec c) (hsrt : IsSorter srt) {h : Sessions} {d : Dir} {x : Index}
    (hd : History u Json.codec c h d) (hf : Fits u c (documents h)) (hx : Index.open Json.codec srt d = .ok x) :
    ∃ dmd f ns, d .dmd = some dmd ∧ d .fnm = some f ∧ TableFile f ns ∧ ∀ (b : UInt32) post hd,
      ListAt d (b.toNat % c.numShards.toNat) (b.toNat / c.numShards.toNat % 65536) post hd →
        ∃ ids, GetFate dmd ns post hd none (.result ids) ∧ ids.length = (found u c (documents h) b.toNat).length := by
  have hc : x.config = c := by
    obtain ⟨i1, _⟩ := openIndex_inv hx
    rw [(C97_sessions hU hd hf).1] at i1
    injection i1 with i1
    exact i1.symm
  have hn := hU.shards
  have hn' := hU.shardsSmall
  obtain ⟨q, dmd, f, ns, k0, k1, k2, k3, k4⟩ := C114_get hsrt hx (by rw [hc]; omega) (by rw [hc]; omega)
  rw [hc] at k4
  refine ⟨dmd, f, ns, k1, k2, k3, fun b post hd' hl => ?_⟩
  obtain ⟨⟨F, hF⟩, g1, g2, g3, g4⟩ := k4 (fun _ => 0) ⟨b, none⟩ post hd' hl
  have hget := fun fuel hfu => C21_get hU hsrt ⟨⟨d, hd, hx⟩, k0⟩ hf (fun _ => 0) b fuel hfu (q' := q) rfl
  cases F with
  | result ids =>
    refine ⟨ids, hF, ?_⟩
    obtain ⟨r, e1, _, e2⟩ := hget ((documents h).length + ids.length + 1) (by omega)
    obtain ⟨r', new, e3, _, e4, e5⟩ := g1 ids hF ((documents h).length + ids.length + 1) (by omega)
    rw [e1] at e3
    injection e3 with e3
    subst e3
    have hlen : ∀ {α β : Type} {R : α → β → Prop} (as : List α) (bs : List β), Each R as bs → as.length = bs.length := by
      intro α β R as
      induction as with
      | nil => intro bs h; cases bs with
        | nil => rfl
        | cons _ _ => exact h.elim
      | cons a as ih => intro bs h; cases bs with
        | nil => exact h.elim
        | cons b bs => simp only [List.length_cons, ih bs h.2]
    have := congrArg List.length (e2.symm.trans e4)
    rw [List.length_map, List.length_append] at this
    rw [hlen _ _ e5, this]
    simp [Blot.vis]
  | error =>
    obtain ⟨K, hK⟩ := g2 hF
    obtain ⟨r, e1, _⟩ := hget ((documents h).length + K + 1) (by omega)
    obtain ⟨e, he⟩ := hK ((documents h).length + K + 1) (by omega)
    rw [e1] at he; cases he
  | panic =>
    obtain ⟨K, hK⟩ := g3 hF
    obtain ⟨r, e1, _⟩ := hget ((documents h).length + K + 1) (by omega)
    have he := hK ((documents h).length + K + 1) (by omega)
    rw [e1] at he; cases he
  | endless =>
    obtain ⟨r, e1, _⟩ := hget ((documents h).length + 1) (by omega)
    rw [g4 hF] at e1; cases e1

/-- each of the four fates there is -/
theorem C114_nonvacuous : let dmd : Bytes := List.replicate 24 0
    GetFate dmd [([], 0)] ([18, 1] ++ List.replicate 8 255) 0 none (.result [1]) ∧ GetFate dmd [([], 0)] [] 0 none .error ∧
    GetFate dmd [([], 0)] [1] 0 none .panic ∧ GetFate dmd [([], 0)] (loopBytes 0) 0 none .endless ∧ GetFate [] [] ([18, 1] ++ List.replicate 8 255) 0 none .error ∧
    GetFate dmd [] ([18, 1] ++ List.replicate 8 255) 0 none .panic ∧ GetFate dmd [([], 0)] (loopBytes 0) 0 (some 1) (.result [0]) := by
  intro dmd
  have hkn : ∀ i, i ≤ 1 → ∃ path a b, DocAs dmd [([], 0)] i path a b := by
    intro i hi
    refine ⟨_, _, _, 0, [], ⟨by simp only [dmd, List.length_replicate]; omega, ?_⟩, by decide, .root, rfl, rfl, rfl⟩
    rcases (by omega : i = 0 ∨ i = 1) with rfl | rfl <;> decide
  have hpg : ∀ (a : UInt8) (l : Bytes) (w : UInt64), a.toNat < 128 → l.length = 8 → getBE64 l = .ok w → PageAt ([18, a] ++ l) 0 [a.toNat] (u64ToI64 w) := by
    intro a l w ha hl hw
    refine ⟨1, 9, ⟨⟨by omega, [], 18, a :: l, rfl, rfl, by omega, by simp, by decide, by decide, by decide⟩, by omega, by omega, ?_, w, ?_, rfl⟩, by omega, [a], [], ?_, ?_, ?_, rfl⟩
    · simp only [List.length_append, List.length_cons, List.length_nil, hl]; omega
    · exact hw
    · rfl
    · exact ⟨[], a, rfl, by simp, by simp, ha, by simp only [sevens]; omega, by omega⟩
    · omega
  have hre : Reaches ([18, 1] ++ List.replicate 8 255) 0 [1] (-1) :=
    ⟨[[1]], ⟨by omega, -1, by
      have := hpg 1 (List.replicate 8 255) 18446744073709551615 (by decide) rfl (by decide)
      rw [show u64ToI64 18446744073709551615 = -1 by decide] at this
      exact this, rfl⟩, rfl⟩
  have hlp : PageAt (loopBytes 0) 0 [0] 0 := hpg 0 (be64 (i64ToU64 0)) 0 (by decide) (by decide) (by decide)
  have hloop : ∀ n, Pages (loopBytes 0) 0 (List.replicate n [0]) 0 := by
    intro n
    induction n with
    | zero => rfl
    | succ n ih => rw [List.replicate_succ]; exact ⟨by omega, 0, hlp, ih⟩
  have hsum : ∀ n, sums 0 (List.replicate n [0]).flatten = List.replicate n 0 := by
    intro n
    induction n with
    | zero => rfl
    | succ n ih => rw [List.replicate_succ, List.flatten_cons, List.replicate_succ, ← ih]; rfl
  have hn0 : ∀ ds r, ¬ PageAt [] 0 ds r := by
    rintro ds r ⟨n, v, hc, _⟩
    exact number_nil hc.1
  refine ⟨⟨fun id hid => ?_, .inr ⟨nofun, hre⟩⟩, ⟨[], nofun, nofun, .inl ⟨0, by omega, ⟨[], rfl, rfl⟩, ?_, ?_⟩⟩, ⟨[], nofun, nofun, .inl ⟨0, by omega, ⟨[], rfl, rfl⟩, C94_nonvacuous.2.2.2.1⟩⟩,
    .inl ⟨rfl, fun n => ⟨List.replicate n 0, List.length_replicate, ⟨_, 0, ⟨_, hloop n, (hsum n).symm⟩, List.prefix_refl _⟩, ?_⟩⟩,
    ⟨[], nofun, nofun, .inr ⟨1, ⟨_, _, hre, List.prefix_refl _⟩, by decide⟩⟩, ⟨[], nofun, nofun, .inr ⟨1, 0, ⟨_, _, hre, List.prefix_refl _⟩, ⟨by decide, by decide⟩, by decide⟩⟩,
    ⟨?_, .inl ⟨rfl, [0], 0, ⟨_, hloop 1, rfl⟩, List.prefix_refl _⟩⟩⟩
  · exact hkn id (by simp at hid; omega)
  · rintro ⟨v, n, h, _⟩; exact number_nil h
  · rintro ⟨ds, r, h⟩; exact hn0 ds r h
  · intro id hid
    exact hkn id (by have := List.eq_of_mem_replicate hid; omega)
  · intro id hid
    exact hkn id (by simp at hid; omega)

end Dupi.Props
