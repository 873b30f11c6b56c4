import Verif.Model.Shared
import Verif.Proof.NextLim
/-! # What a blot whose documents are a window into memory shows -/

namespace Dupi

/-- `n` elements of memory from address `o` on -/
def win (m : Mem) (o n : Nat) : List Doc := (m.drop o).take n

theorem win_get (m : Mem) (o n i : Nat) : (win m o n)[i]? = if i < n then m[o + i]? else none := by
  unfold win
  by_cases h : i < n
  · rw [if_pos h, List.getElem?_take_of_lt h, List.getElem?_drop]
  · rw [if_neg h, List.getElem?_eq_none]
    rw [List.length_take]; omega

theorem win_length {m : Mem} {o n : Nat} (h : o + n ≤ m.length) : (win m o n).length = n := by
  unfold win; rw [List.length_take, List.length_drop]; omega

theorem win_congr {m m' : Mem} {o n : Nat} (h : ∀ a, o ≤ a → a < o + n → m'[a]? = m[a]?) : win m' o n = win m o n := by
  apply List.ext_getElem?
  intro i
  rw [win_get, win_get]
  by_cases hi : i < n
  · rw [if_pos hi, if_pos hi, h _ (by omega) (by omega)]
  · rw [if_neg hi, if_neg hi]

theorem win_succ {m : Mem} {o n : Nat} {d : Doc} (h : m[o + n]? = some d) : win m o (n + 1) = win m o n ++ [d] := by
  have hl := (List.getElem?_eq_some_iff.mp h).1
  apply List.ext_getElem?
  intro i
  have hw : (win m o n).length = n := win_length (by omega)
  by_cases hi : i < n
  · rw [List.getElem?_append_left (by omega), win_get, win_get, if_pos hi, if_pos (by omega)]
  · rw [List.getElem?_append_right (by omega), win_get, hw]
    by_cases hin : i = n
    · subst hin; rw [if_pos (by omega), h]; simp
    · rw [if_neg (by omega), List.getElem?_eq_none]
      simp; omega

theorem win_cons {m : Mem} {o n : Nat} {d : Doc} (h : m[o]? = some d) : win m o (n + 1) = d :: win m (o + 1) n := by
  apply List.ext_getElem?
  intro i
  cases i with
  | zero => rw [win_get, if_pos (by omega), List.getElem?_cons_zero]; exact h
  | succ i =>
    rw [List.getElem?_cons_succ, win_get, win_get]
    by_cases hi : i < n
    · rw [if_pos hi, if_pos (by omega), show o + (i + 1) = o + 1 + i by omega]
    · rw [if_neg hi, if_neg (by omega)]

theorem win_add (m : Mem) (o a b : Nat) (h : o + a ≤ m.length) : win m o (a + b) = win m o a ++ win m (o + a) b := by
  have hw : (win m o a).length = a := win_length h
  apply List.ext_getElem?
  intro i
  by_cases hi : i < a
  · rw [List.getElem?_append_left (by omega), win_get, win_get, if_pos hi, if_pos (by omega)]
  · rw [List.getElem?_append_right (by omega), win_get, win_get, hw]
    by_cases hb : i < a + b
    · rw [if_pos hb, if_pos (by omega), show o + a + (i - a) = o + i by omega]
    · rw [if_neg hb, if_neg (by omega)]

namespace HBlot

/-- what the slice shows -/
def view (m : Mem) (b : HBlot) : Blot := ⟨b.blot, b.docs.map fun s => ⟨win m s.off s.len, win m (s.off + s.len) (s.cap - s.len)⟩⟩

/-- the slice lies in memory -/
def Ok (m : Mem) (b : HBlot) : Prop := ∀ s, b.docs = some s → s.len ≤ s.cap ∧ s.off + s.cap ≤ m.length

/-- the address belongs to the slice, up to its capacity -/
def owns (b : HBlot) (a : Nat) : Prop := ∃ s, b.docs = some s ∧ s.off ≤ a ∧ a < s.off + s.cap

/-- nothing in memory is changed but what belongs to `b`, and what belongs to `b` afterwards did before or is new -/
structure Frame (m : Mem) (b : HBlot) (m' : Mem) (b' : HBlot) : Prop where
  len : m.length ≤ m'.length
  same : ∀ a, a < m.length → ¬ b.owns a → m'[a]? = m[a]?
  new : ∀ a, b'.owns a → b.owns a ∨ m.length ≤ a

theorem Frame.refl (m : Mem) (b : HBlot) : Frame m b m b := ⟨Nat.le_refl _, fun _ _ _ => rfl, fun _ h => .inl h⟩

theorem Frame.trans {m m1 m2 : Mem} {b b1 b2 : HBlot} (h : Frame m b m1 b1) (h' : Frame m1 b1 m2 b2) : Frame m b m2 b2 := by
  refine ⟨Nat.le_trans h.len h'.len, fun a ha hb => ?_, fun a ha => ?_⟩
  · have hl := h.len
    rw [h'.same a (by omega) (fun hc => (h.new a hc).elim hb (by omega)), h.same a ha hb]
  · rcases h'.new a ha with g | g
    · exact h.new a g
    · exact .inr (Nat.le_trans h.len g)

theorem view_len {m : Mem} {b : HBlot} (h : b.Ok m) : (b.view m).len = b.len := by
  unfold view Blot.len len
  cases hd : b.docs with
  | none => rfl
  | some s =>
    obtain ⟨h1, h2⟩ := h s hd
    simp only [Option.map_some]
    exact win_length (by omega)

theorem view_cap {m : Mem} {b : HBlot} (h : b.Ok m) : (b.view m).cap = b.cap := by
  unfold view Blot.cap cap
  cases hd : b.docs with
  | none => rfl
  | some s =>
    obtain ⟨h1, h2⟩ := h s hd
    simp only [Option.map_some]
    rw [win_length (by omega), win_length (by omega)]
    omega

theorem view_isSome (m : Mem) (b : HBlot) : (b.view m).docs.isSome = b.docs.isSome := by
  unfold view; cases b.docs <;> rfl

/-- another slice is not affected -/
theorem Frame.other {m m' : Mem} {b b' o : HBlot} (h : Frame m b m' b') (ho : o.Ok m) (hd : ∀ a, ¬ (b.owns a ∧ o.owns a)) :
    o.view m' = o.view m ∧ o.Ok m' := by
  constructor
  · unfold view
    cases hs : o.docs with
    | none => rfl
    | some s =>
      obtain ⟨h1, h2⟩ := ho s hs
      have key : ∀ a, s.off ≤ a → a < s.off + s.cap → m'[a]? = m[a]? := fun a h3 h4 =>
        h.same a (by omega) (fun hc => hd a ⟨hc, s, hs, h3, h4⟩)
      simp only [Option.map_some]
      rw [win_congr (fun a h3 h4 => key a h3 (by omega)), win_congr (m' := m') (fun a h3 h4 => key a (by omega) (by omega))]
  · intro s hs
    obtain ⟨h1, h2⟩ := ho s hs
    exact ⟨h1, Nat.le_trans h2 h.len⟩

theorem next_view (grow : Nat → Nat) (lim : Bool) {m : Mem} {b : HBlot} (h : b.Ok m) :
    (b.next grow lim m = panic' ∧ (b.view m).next grow lim = panic') ∨
    ∃ m' b', b.next grow lim m = .ok (m', b') ∧ (b.view m).next grow lim = .ok (b'.view m') ∧ b'.Ok m' ∧ Frame m b m' b' ∧ 0 < b'.len := by
  obtain ⟨bl, ds⟩ := b
  cases ds with
  | none =>
    cases lim with
    | true => exact .inl ⟨rfl, rfl⟩
    | false =>
      have hz : (m ++ Doc.zero :: List.replicate (grow 0) Doc.zero)[m.length]? = some Doc.zero := by
        rw [List.getElem?_append_right (Nat.le_refl _), Nat.sub_self]; rfl
      refine .inr ⟨_, _, rfl, ?_, ?_, ?_, Nat.zero_lt_one⟩
      · simp only [view, Blot.next, Option.map_none, Option.map_some]
        rw [win_succ (n := 0) (by rw [Nat.add_zero]; exact hz)]
        have : win (m ++ Doc.zero :: List.replicate (grow 0) Doc.zero) (m.length + 1) (1 + grow 0 - 1) = List.replicate (grow 0) Doc.zero := by
          unfold win
          rw [List.drop_append, List.drop_of_length_le (by omega), Nat.add_sub_cancel_left, List.nil_append, Nat.add_sub_cancel_left]
          simp
        rw [this]
        simp [win]
      · intro s hs
        injection hs with hs
        subst hs
        refine ⟨by simp, by simp; omega⟩
      · refine ⟨by simp, fun a ha _ => List.getElem?_append_left ha, fun a ha => ?_⟩
        obtain ⟨s, hs, h1, _⟩ := ha
        injection hs with hs
        subst hs
        exact .inr h1
  | some s =>
    obtain ⟨h1, h2⟩ := h s rfl
    by_cases hc : s.len < s.cap
    · obtain ⟨d, hd⟩ : ∃ d, m[s.off + s.len]? = some d := ⟨_, List.getElem?_eq_getElem (by omega)⟩
      have hv : HBlot.view m ⟨bl, some s⟩ = ⟨bl, some ⟨win m s.off s.len, d :: win m (s.off + s.len + 1) (s.cap - (s.len + 1))⟩⟩ := by
        simp only [view, Option.map_some]
        rw [show s.cap - s.len = s.cap - (s.len + 1) + 1 by omega, win_cons hd]
      have hown : ∀ a, (HBlot.mk bl (some { s with len := s.len + 1 })).owns a → (HBlot.mk bl (some s)).owns a := by
        rintro a ⟨s', hs', g1, g2⟩
        injection hs' with hs'
        subst hs'
        exact ⟨s, rfl, g1, g2⟩
      cases lim with
      | true =>
        refine .inr ⟨m, ⟨bl, some { s with len := s.len + 1 }⟩, by simp only [next, if_pos hc], ?_, ?_, ⟨Nat.le_refl _, fun _ _ _ => rfl, fun a ha => .inl (hown a ha)⟩, Nat.succ_pos _⟩
        · rw [hv]
          simp only [Blot.next, view, Option.map_some]
          rw [win_succ hd, Nat.add_assoc]
        · intro s' hs'
          injection hs' with hs'
          subst hs'
          exact ⟨hc, h2⟩
      | false =>
        refine .inr ⟨m.set (s.off + s.len) Doc.zero, ⟨bl, some { s with len := s.len + 1 }⟩, by simp only [next, if_pos hc], ?_, ?_, ?_, Nat.succ_pos _⟩
        · rw [hv]
          simp only [Blot.next, view, Option.map_some]
          have e : (m.set (s.off + s.len) Doc.zero)[s.off + s.len]? = some Doc.zero := by
            rw [List.getElem?_set_self (by omega)]
          rw [win_succ e, ← Nat.add_assoc, win_congr (m := m) (m' := m.set (s.off + s.len) Doc.zero) (o := s.off) (n := s.len)
              (fun a g1 g2 => List.getElem?_set_ne (by omega)),
            win_congr (m := m) (m' := m.set (s.off + s.len) Doc.zero) (o := s.off + s.len + 1) (fun a g1 g2 => List.getElem?_set_ne (by omega))]
        · intro s' hs'
          injection hs' with hs'
          subst hs'
          exact ⟨hc, by rw [List.length_set]; exact h2⟩
        · refine ⟨by rw [List.length_set]; exact Nat.le_refl _, fun a _ hn => ?_, fun a ha => .inl (hown a ha)⟩
          apply List.getElem?_set_ne
          intro e
          exact hn ⟨s, rfl, by omega, by omega⟩
    · have hce : s.cap - s.len = 0 := by omega
      have hv : HBlot.view m ⟨bl, some s⟩ = ⟨bl, some ⟨win m s.off s.len, []⟩⟩ := by
        simp only [view, Option.map_some, hce]
        simp [win]
      cases lim with
      | true =>
        left
        rw [hv]
        exact ⟨by simp only [next, if_neg hc], rfl⟩
      | false =>
        have hwl : ((m.drop s.off).take s.len).length = s.len := win_length (by omega)
        refine .inr ⟨m ++ ((m.drop s.off).take s.len ++ Doc.zero :: List.replicate (grow s.len) Doc.zero),
          ⟨bl, some ⟨m.length, s.len + 1, s.len + 1 + grow s.len⟩⟩, by simp only [next, if_neg hc], ?_, ?_, ?_, Nat.succ_pos _⟩
        · rw [hv]
          simp only [Blot.next, view, Option.map_some]
          have e1 : win (m ++ ((m.drop s.off).take s.len ++ Doc.zero :: List.replicate (grow s.len) Doc.zero)) m.length (s.len + 1) = win m s.off s.len ++ [Doc.zero] := by
            unfold win
            rw [List.drop_append, List.drop_of_length_le (Nat.le_refl _), Nat.sub_self, List.nil_append, List.drop_zero, List.take_append,
              List.take_of_length_le (by omega), hwl, Nat.add_sub_cancel_left]
            simp
          have e2 : win (m ++ ((m.drop s.off).take s.len ++ Doc.zero :: List.replicate (grow s.len) Doc.zero)) (m.length + (s.len + 1)) (s.len + 1 + grow s.len - (s.len + 1)) =
              List.replicate (grow s.len) Doc.zero := by
            unfold win
            rw [List.drop_append, List.drop_of_length_le (by omega), Nat.add_sub_cancel_left, List.nil_append, List.drop_append,
              List.drop_of_length_le (by omega), hwl, Nat.add_sub_cancel_left, Nat.add_sub_cancel_left]
            simp
          rw [e1, e2, win_length (by omega)]
        · intro s' hs'
          injection hs' with hs'
          subst hs'
          refine ⟨by simp, ?_⟩
          simp only [List.length_append, List.length_cons, List.length_replicate, hwl]
          omega
        · refine ⟨by simp, fun a ha _ => List.getElem?_append_left ha, fun a ha => ?_⟩
          obtain ⟨s', hs', g1, _⟩ := ha
          injection hs' with hs'
          subst hs'
          exact .inr g1

theorem setLast_view {m : Mem} {b : HBlot} (h : b.Ok m) (r : Bytes × UInt32 × UInt32) :
    b.view (b.setLast m r) = (b.view m).setLast r ∧ b.Ok (b.setLast m r) ∧ Frame m b (b.setLast m r) b := by
  obtain ⟨bl, ds⟩ := b
  cases ds with
  | none => exact ⟨rfl, h, Frame.refl _ _⟩
  | some s =>
    obtain ⟨h1, h2⟩ := h s rfl
    by_cases hz : s.len = 0
    · have e : HBlot.setLast m ⟨bl, some s⟩ r = m := by simp only [setLast, if_pos hz]
      rw [e]
      refine ⟨?_, h, Frame.refl _ _⟩
      simp only [view, Option.map_some, Blot.setLast, hz]
      simp [win]
    · obtain ⟨n, hn⟩ : ∃ n, s.len = n + 1 := ⟨s.len - 1, by omega⟩
      have e : HBlot.setLast m ⟨bl, some s⟩ r = m.modify (s.off + n) fun d => { d with path := r.1, start := r.2.1, stop := r.2.2 } := by
        simp only [setLast, hn]
        rfl
      rw [e]
      obtain ⟨d, hd⟩ : ∃ d, m[s.off + n]? = some d := ⟨_, List.getElem?_eq_getElem (by omega)⟩
      have hne : ∀ a, a ≠ s.off + n → (m.modify (s.off + n) fun d => { d with path := r.1, start := r.2.1, stop := r.2.2 })[a]? = m[a]? := by
        intro a ha
        have ha' : ¬ s.off + n = a := fun e => ha e.symm
        rw [List.getElem?_modify]
        simp only [if_neg ha']
        cases m[a]? <;> rfl
      have heq : (m.modify (s.off + n) fun d => { d with path := r.1, start := r.2.1, stop := r.2.2 })[s.off + n]? =
          some { d with path := r.1, start := r.2.1, stop := r.2.2 } := by
        rw [List.getElem?_modify, hd]; simp
      refine ⟨?_, ?_, ?_⟩
      · simp only [view, Option.map_some, Blot.setLast, hn]
        rw [win_succ heq, win_succ hd, win_congr (m := m) (o := s.off) (n := n) (fun a g1 g2 => hne a (by omega)),
          win_congr (m := m) (o := s.off + (n + 1)) (fun a g1 g2 => hne a (by omega))]
        simp
      · intro s' hs'
        injection hs' with hs'
        subst hs'
        exact ⟨h1, by rw [List.length_modify]; exact h2⟩
      · refine ⟨by rw [List.length_modify]; exact Nat.le_refl _, fun a _ hn' => hne a ?_, fun a ha => .inl ha⟩
        intro e
        exact hn' ⟨s, rfl, by omega, by omega⟩

end HBlot

namespace Query
open HBlot (Frame)

theorem getLoopH_view (grow : Nat → Nat) (x : Index) (lim : Bool) (fuel : Nat) : ∀ (rs : ReadState) (m : Mem) (b : HBlot), b.Ok m →
    (∃ f, getLoopH grow x lim fuel rs m b = .error f ∧ getLoop grow x lim fuel rs (b.view m) = .error f) ∨
    ∃ m' b', getLoopH grow x lim fuel rs m b = .ok (m', b') ∧ getLoop grow x lim fuel rs (b.view m) = .ok (b'.view m') ∧ b'.Ok m' ∧ Frame m b m' b' := by
  induction fuel with
  | zero => intro rs m b _; exact .inl ⟨_, rfl, rfl⟩
  | succ fuel ih =>
    intro rs m b hb
    simp only [getLoopH, getLoop, HBlot.view_len hb, HBlot.view_cap hb]
    by_cases hc : (lim && b.len == b.cap) = true
    · rw [if_pos hc, if_pos hc]
      exact .inr ⟨m, b, rfl, rfl, hb, Frame.refl _ _⟩
    · rw [if_neg hc, if_neg hc]
      cases hn : rs.next with
      | error f =>
        cases f with
        | err e =>
          cases e with
          | eof => exact .inr ⟨m, b, rfl, rfl, hb, Frame.refl _ _⟩
          | _ => exact .inl ⟨_, rfl, rfl⟩
        | _ => exact .inl ⟨_, rfl, rfl⟩
      | ok v =>
        obtain ⟨docid, rs'⟩ := v
        simp only [bind, Except.bind]
        rcases HBlot.next_view grow lim hb with ⟨g1, g2⟩ | ⟨m1, b1, g1, g2, g3, g4, _⟩
        · rw [g1, g2]; exact .inl ⟨_, rfl, rfl⟩
        · rw [g1, g2]
          simp only
          cases hd : x.docid2Doc docid with
          | error f => cases f <;> exact .inl ⟨_, rfl, rfl⟩
          | ok r =>
            simp only
            obtain ⟨k1, k2, k3⟩ := HBlot.setLast_view g3 r
            rw [← k1]
            rcases ih rs' _ b1 k2 with e | ⟨m', b', e1, e2, e3, e4⟩
            · exact .inl e
            · exact .inr ⟨m', b', e1, e2, e3, g4.trans (k3.trans e4)⟩

theorem getH_view (grow : Nat → Nat) (x : Index) (fuel : Nat) (q : QState) {m : Mem} {b : HBlot} (hb : b.Ok m) :
    (∃ f, getH grow x fuel q m b = .error f ∧ get grow x fuel q (b.view m) = .error f) ∨
    ∃ m' b', getH grow x fuel q m b = .ok (m', b') ∧ get grow x fuel q (b.view m) = .ok (b'.view m') ∧ b'.Ok m' ∧ Frame m b m' b' := by
  unfold getH get
  rw [HBlot.view_isSome]
  by_cases h0 : q.n = 0
  · rw [if_pos h0, if_pos h0]; exact .inl ⟨_, rfl, rfl⟩
  · rw [if_neg h0, if_neg h0]
    rw [show (b.view m).blot = b.blot from rfl]
    cases x.shards[(b.blot % q.n).toNat]? with
    | none => exact .inl ⟨_, rfl, rfl⟩
    | some sh =>
      simp only [bind, Except.bind]
      cases sh.readStateFor (b.blot / q.n).toUInt16.toNat with
      | error f => exact .inl ⟨_, rfl, rfl⟩
      | ok rs => exact getLoopH_view grow x b.docs.isSome fuel rs m b hb

theorem fillLoopH_view (grow : Nat → Nat) (x : Index) (q : QState) (pos : UInt32) (lim : Bool) (fuel : Nat) : ∀ (src : ReadState) (m : Mem) (b : HBlot), b.Ok m →
    (∃ f, fillLoopH grow x q pos lim fuel src m b = .error f ∧ fillLoop grow x q pos lim fuel src (b.view m) = .error f) ∨
    ∃ m' b' q', fillLoopH grow x q pos lim fuel src m b = .ok (m', b', q') ∧ fillLoop grow x q pos lim fuel src (b.view m) = .ok (b'.view m', q') ∧
      b'.Ok m' ∧ Frame m b m' b' := by
  induction fuel with
  | zero => intro src m b _; exact .inl ⟨_, rfl, rfl⟩
  | succ fuel ih =>
    intro src m b hb
    simp only [fillLoopH, fillLoop, HBlot.view_len hb, HBlot.view_cap hb]
    by_cases hc : (!lim || decide (b.len < b.cap)) = true
    · rw [if_pos hc, if_pos hc]
      cases hn : src.next with
      | error f =>
        cases f with
        | err e =>
          cases e with
          | eof =>
            simp only [bind, Except.bind, pure, Except.pure]
            cases advance x q src pos with
            | error f => exact .inl ⟨_, rfl, rfl⟩
            | ok q' => exact .inr ⟨m, b, q', rfl, rfl, hb, Frame.refl _ _⟩
          | _ => exact .inl ⟨_, rfl, rfl⟩
        | _ => exact .inl ⟨_, rfl, rfl⟩
      | ok v =>
        obtain ⟨docid, src'⟩ := v
        simp only [bind, Except.bind]
        rcases HBlot.next_view grow lim hb with ⟨g1, g2⟩ | ⟨m1, b1, g1, g2, g3, g4, _⟩
        · rw [g1, g2]; exact .inl ⟨_, rfl, rfl⟩
        · rw [g1, g2]
          simp only
          cases hd : x.docid2Doc docid with
          | error f => exact .inl ⟨_, rfl, rfl⟩
          | ok r =>
            simp only
            obtain ⟨k1, k2, k3⟩ := HBlot.setLast_view g3 r
            rw [← k1]
            rcases ih src' _ b1 k2 with e | ⟨m', b', q', e1, e2, e3, e4⟩
            · exact .inl e
            · exact .inr ⟨m', b', q', e1, e2, e3, g4.trans (k3.trans e4)⟩
    · rw [if_neg hc, if_neg hc]
      exact .inr ⟨m, b, _, rfl, rfl, hb, Frame.refl _ _⟩

theorem fillBlotH_view (grow : Nat → Nat) (x : Index) (fuel : Nat) (q : QState) {m : Mem} {b : HBlot} (hb : b.Ok m) (src : ReadState) (pos : UInt32) :
    (∃ f, fillBlotH grow x fuel q m b src pos = .error f ∧ fillBlot grow x fuel q (b.view m) src pos = .error f) ∨
    ∃ m' b' q', fillBlotH grow x fuel q m b src pos = .ok (m', b', q') ∧ fillBlot grow x fuel q (b.view m) src pos = .ok (b'.view m', q') ∧
      b'.Ok m' ∧ Frame m b m' b' := by
  have h := fillLoopH_view grow x q pos b.docs.isSome fuel src m { b with blot := UInt32.ofNat src.blot * q.n + q.i } hb
  have hf : ∀ m' b', Frame m { b with blot := UInt32.ofNat src.blot * q.n + q.i } m' b' → Frame m b m' b' := fun m' b' g => ⟨g.len, g.same, g.new⟩
  have e : fillBlot grow x fuel q (b.view m) src pos =
      fillLoop grow x q pos b.docs.isSome fuel src (HBlot.view m { b with blot := UInt32.ofNat src.blot * q.n + q.i }) := by
    simp only [fillBlot, HBlot.view_isSome]
    rfl
  rw [e]
  rcases h with h | ⟨m', b', q', h1, h2, h3, h4⟩
  · exact .inl h
  · exact .inr ⟨m', b', q', h1, h2, h3, hf _ _ h4⟩

theorem dropBlotH_view {m : Mem} {b : HBlot} (hb : b.Ok m) (lim : Bool) :
    (dropBlotH lim b).view m = dropBlot lim (b.view m) ∧ (dropBlotH lim b).Ok m ∧ ∀ a, (dropBlotH lim b).owns a → b.owns a := by
  obtain ⟨bl, ds⟩ := b
  cases ds with
  | none =>
    refine ⟨by cases lim <;> rfl, ?_, ?_⟩
    · intro s hs; cases lim <;> cases hs
    · rintro a ⟨s, hs, _⟩; cases lim <;> cases hs
  | some s =>
    obtain ⟨h1, h2⟩ := hb s rfl
    cases lim with
    | false =>
      refine ⟨rfl, ?_, ?_⟩
      · intro s hs; cases hs
      · rintro a ⟨s, hs, _⟩; cases hs
    | true =>
      refine ⟨?_, ?_, ?_⟩
      · simp only [dropBlotH, dropBlot, HBlot.view, Option.map_some]
        have := win_add m s.off s.len (s.cap - s.len) (by omega)
        rw [show s.len + (s.cap - s.len) = s.cap by omega] at this
        rw [← this]
        simp [win]
      · intro s' hs'
        injection hs' with hs'
        subst hs'
        exact ⟨Nat.zero_le _, h2⟩
      · rintro a ⟨s', hs', g1, g2⟩
        injection hs' with hs'
        subst hs'
        exact ⟨s, rfl, g1, g2⟩

/-- slices in memory, no two of which have an element in common (up to their capacities) -/
structure Apart (m : Mem) (dst : List HBlot) : Prop where
  ok : ∀ b ∈ dst, b.Ok m
  apart : ∀ (i j : Nat) b b', i ≠ j → dst[i]? = some b → dst[j]? = some b' → ∀ a, ¬ (b.owns a ∧ b'.owns a)

theorem Apart.set {m m' : Mem} {dst : List HBlot} (h : Apart m dst) {n : Nat} {b b' : HBlot} (hb : dst[n]? = some b) (hok : b'.Ok m')
    (hf : Frame m b m' b') :
    Apart m' (dst.set n b') ∧ (dst.set n b').map (HBlot.view m') = (dst.map (HBlot.view m)).set n (b'.view m') ∧
      ∀ a, a < m.length → (∀ o ∈ dst, ¬ o.owns a) → (m'[a]? = m[a]? ∧ ∀ o ∈ dst.set n b', ¬ o.owns a) := by
  have hn := (List.getElem?_eq_some_iff.mp hb).1
  have hget : ∀ (i : Nat) o, (dst.set n b')[i]? = some o → (i = n ∧ o = b') ∨ (i ≠ n ∧ dst[i]? = some o) := by
    intro i o ho
    by_cases hi : i = n
    · subst hi
      rw [List.getElem?_set_self hn] at ho
      injection ho with ho
      exact .inl ⟨rfl, ho.symm⟩
    · rw [List.getElem?_set_ne (fun e => hi e.symm)] at ho
      exact .inr ⟨hi, ho⟩
  have hoth : ∀ (i : Nat) o, i ≠ n → dst[i]? = some o → o.view m' = o.view m ∧ o.Ok m' := fun i o hi ho =>
    hf.other (h.ok o (List.mem_of_getElem? ho)) (h.apart n i b o (fun e => hi e.symm) hb ho)
  have hlt : ∀ o ∈ dst, ∀ a, o.owns a → a < m.length := by
    rintro o ho a ⟨s, hs, h1, h2⟩
    have := (h.ok o ho s hs).2
    omega
  refine ⟨⟨?_, ?_⟩, ?_, ?_⟩
  · intro o ho
    obtain ⟨i, hi⟩ := List.getElem?_of_mem ho
    rcases hget i o hi with ⟨_, rfl⟩ | ⟨h1, h2⟩
    · exact hok
    · exact (hoth i o h1 h2).2
  · intro i j o o' hij ho ho' a ⟨ha, ha'⟩
    rcases hget i o ho with ⟨e1, e2⟩ | ⟨h1, h2⟩
    · rcases hget j o' ho' with ⟨e3, _⟩ | ⟨h3, h4⟩
      · omega
      · rw [e2] at ha
        rcases hf.new a ha with g | g
        · exact h.apart n j b o' (fun e => h3 e.symm) hb h4 a ⟨g, ha'⟩
        · have := hlt o' (List.mem_of_getElem? h4) a ha'; omega
    · rcases hget j o' ho' with ⟨e3, e4⟩ | ⟨h3, h4⟩
      · rw [e4] at ha'
        rcases hf.new a ha' with g | g
        · exact h.apart n i b o (fun e => h1 e.symm) hb h2 a ⟨g, ha⟩
        · have := hlt o (List.mem_of_getElem? h2) a ha; omega
      · exact h.apart i j o o' hij h2 h4 a ⟨ha, ha'⟩
  · apply List.ext_getElem?
    intro i
    by_cases hi : i = n
    · subst hi
      rw [List.getElem?_map, List.getElem?_set_self hn, List.getElem?_set_self (by rw [List.length_map]; exact hn)]
      rfl
    · rw [List.getElem?_map, List.getElem?_set_ne (fun e => hi e.symm), List.getElem?_set_ne (fun e => hi e.symm), List.getElem?_map]
      cases ho : dst[i]? with
      | none => rfl
      | some o => simp only [Option.map_some]; rw [(hoth i o hi ho).1]
  · intro a ha hno
    refine ⟨hf.same a ha (hno b (List.mem_of_getElem? hb)), fun o ho hoa => ?_⟩
    obtain ⟨i, hi⟩ := List.getElem?_of_mem ho
    rcases hget i o hi with ⟨_, rfl⟩ | ⟨h1, h2⟩
    · rcases hf.new a hoa with g | g
      · exact hno b (List.mem_of_getElem? hb) g
      · omega
    · exact hno o (List.mem_of_getElem? h2) hoa

theorem nextLoopH_view (grow : Nat → Nat) (x : Index) (ff fuel : Nat) : ∀ (q : QState) (n : Nat) (m : Mem) (dst : List HBlot), Apart m dst →
    (∃ f, nextLoopH grow x ff fuel q n m dst = .error f ∧ nextLoop grow x ff fuel q n (dst.map (HBlot.view m)) = .error f) ∨
    ∃ r, nextLoopH grow x ff fuel q n m dst = .ok r ∧ nextLoop grow x ff fuel q n (dst.map (HBlot.view m)) = .ok ⟨r.n, r.eof, r.dst.map (HBlot.view r.mem), r.state⟩ ∧
      Apart r.mem r.dst ∧ m.length ≤ r.mem.length ∧ (∀ a, a < m.length → (∀ o ∈ dst, ¬ o.owns a) → r.mem[a]? = m[a]?) := by
  induction fuel with
  | zero => intro q n m dst _; exact .inl ⟨_, rfl, rfl⟩
  | succ fuel ih =>
    intro q n m dst h
    simp only [nextLoopH, nextLoop, List.getElem?_map]
    cases hb : dst[n]? with
    | none => exact .inr ⟨_, rfl, rfl, h, Nat.le_refl _, fun _ _ _ => rfl⟩
    | some b =>
      simp only [Option.map_some]
      cases hs : q.shardStates[q.i.toNat]? with
      | none => exact .inl ⟨_, rfl, rfl⟩
      | some o =>
        cases o with
        | none =>
          simp only
          by_cases hc : q.nilCount + 1 = q.n
          · rw [if_pos hc, if_pos hc]
            exact .inr ⟨_, rfl, rfl, h, Nat.le_refl _, fun _ _ _ => rfl⟩
          · rw [if_neg hc, if_neg hc]
            exact ih _ n m dst h
        | some src =>
          simp only [bind, Except.bind, HBlot.view_isSome]
          have hok := h.ok b (List.mem_of_getElem? hb)
          rcases fillBlotH_view grow x ff q hok src q.i with ⟨f, g1, g2⟩ | ⟨m', b', q', g1, g2, g3, g4⟩
          · rw [g1, g2]; exact .inl ⟨f, rfl, rfl⟩
          · rw [g1, g2]
            simp only [HBlot.view_len g3]
            by_cases hl : b'.len ≤ 1
            · rw [if_pos hl, if_pos hl]
              cases advance x q' src q'.i with
              | error f => exact .inl ⟨f, rfl, rfl⟩
              | ok q2 =>
                simp only
                obtain ⟨d1, d2, d3⟩ := dropBlotH_view g3 b.docs.isSome
                obtain ⟨a1, a2, a3⟩ := h.set hb d2 (g4.trans ⟨Nat.le_refl _, fun _ _ _ => rfl, fun a ha => .inl (d3 a ha)⟩)
                rw [← d1, ← a2]
                rcases ih q2 n m' _ a1 with e | ⟨r, e1, e2, e3, e4, e5⟩
                · exact .inl e
                · refine .inr ⟨r, e1, e2, e3, Nat.le_trans g4.len e4, fun a ha ho => ?_⟩
                  obtain ⟨c1, c2⟩ := a3 a ha ho
                  have := g4.len
                  rw [e5 a (by omega) c2, c1]
            · rw [if_neg hl, if_neg hl]
              obtain ⟨a1, a2, a3⟩ := h.set hb g3 g4
              rw [← a2]
              rcases ih q' (n + 1) m' _ a1 with e | ⟨r, e1, e2, e3, e4, e5⟩
              · exact .inl e
              · refine .inr ⟨r, e1, e2, e3, Nat.le_trans g4.len e4, fun a ha ho => ?_⟩
                obtain ⟨c1, c2⟩ := a3 a ha ho
                have := g4.len
                rw [e5 a (by omega) c2, c1]

/-- with a limit the slice stays where it is, and memory keeps its size -/
theorem fillLoopH_place (grow : Nat → Nat) (x : Index) (q : QState) (pos : UInt32) (fuel : Nat) : ∀ (src : ReadState) (m : Mem) (b : HBlot) (s : Slice) (m' : Mem) (b' : HBlot) (q' : QState),
    b.docs = some s → fillLoopH grow x q pos true fuel src m b = .ok (m', b', q') →
    m'.length = m.length ∧ b'.blot = b.blot ∧ ∃ s', b'.docs = some s' ∧ s'.off = s.off ∧ s'.cap = s.cap := by
  induction fuel with
  | zero => intro src m b s m' b' q' _ h; cases h
  | succ fuel ih =>
    intro src m b s m' b' q' hb h
    simp only [fillLoopH] at h
    by_cases hc : (!true || decide (b.len < b.cap)) = true
    · rw [if_pos hc] at h
      cases hn : src.next with
      | error f =>
        rw [hn] at h
        cases f with
        | err e =>
          cases e with
          | eof =>
            simp only [bind, Except.bind, pure, Except.pure] at h
            cases ha : advance x q src pos with
            | error f => rw [ha] at h; cases h
            | ok q1 =>
              rw [ha] at h
              injection h with h
              injection h with h1 h
              injection h with h2 _
              subst h1 h2
              exact ⟨rfl, rfl, s, hb, rfl, rfl⟩
          | _ => cases h
        | _ => cases h
      | ok v =>
        obtain ⟨docid, src'⟩ := v
        rw [hn] at h
        simp only [bind, Except.bind] at h
        have hlt : s.len < s.cap := by
          have := hc
          simp only [Bool.not_true, Bool.false_or, decide_eq_true_eq, HBlot.len, HBlot.cap, hb] at this
          exact this
        have e : b.next grow true m = .ok (m, { b with docs := some { s with len := s.len + 1 } }) := by
          unfold HBlot.next
          rw [hb]
          simp only [if_pos hlt]
        rw [e] at h
        simp only at h
        cases hd : x.docid2Doc docid with
        | error f => rw [hd] at h; cases h
        | ok r =>
          rw [hd] at h
          obtain ⟨g1, g2, s', g3, g4, g5⟩ := ih src' _ _ { s with len := s.len + 1 } m' b' q' rfl h
          refine ⟨g1.trans ?_, g2, s', g3, g4, g5⟩
          simp only [HBlot.setLast]
          rw [if_neg (by omega), List.length_modify]
    · rw [if_neg hc] at h
      injection h with h
      injection h with h1 h
      injection h with h2 _
      subst h1 h2
      exact ⟨rfl, rfl, s, hb, rfl, rfl⟩

/-- filling an empty slice with more room than needed, wherever it is in memory -/
theorem fillBlotH_heap (grow : Nat → Nat) {x : Index} {D : UInt32 → Bytes × UInt32 × UInt32} {q q' : QState} {src : ReadState} {rem : List UInt32} {ff : Nat}
    (hp : PostsRep src.file src.posts rem) (hD : ∀ id ∈ rem, x.docid2Doc id = .ok (D id)) (hff : rem.length < ff) (ha : advance x q src q.i = .ok q')
    {m : Mem} {a c : Nat} (bl : UInt32) (hc : a + c ≤ m.length) (hl : rem.length < c) :
    ∃ m' : Mem, fillBlotH grow x ff q m ⟨bl, some ⟨a, 0, c⟩⟩ src q.i = .ok (m', ⟨UInt32.ofNat src.blot * q.n + q.i, some ⟨a, rem.length, c⟩⟩, q') ∧
      m'.length = m.length ∧ (win m' a rem.length).map Doc.noDat = rem.map (fun id => Doc.ofMeta (D id)) ∧
      ∀ p, ¬ (a ≤ p ∧ p < a + rem.length) → m'[p]? = m[p]? := by
  have hok : HBlot.Ok m ⟨bl, some ⟨a, 0, c⟩⟩ := by
    intro s hs
    injection hs with hs
    subst hs
    exact ⟨Nat.zero_le _, hc⟩
  have hs : (win m (a + 0) (c - 0)).length = c := by rw [Nat.add_zero, Nat.sub_zero]; exact win_length hc
  have hpart := fillLoop_part grow (D := D) (q := q) (q' := q') (pos := q.i) (bl := UInt32.ofNat src.blot * q.n + q.i) rem ff src [] (win m (a + 0) (c - 0)) hp
    (by omega) hD hff ha
  have hfill : fillBlot grow x ff q (HBlot.view m ⟨bl, some ⟨a, 0, c⟩⟩) src q.i = _ :=
    (show fillBlot grow x ff q (HBlot.view m ⟨bl, some ⟨a, 0, c⟩⟩) src q.i = _ by
      simp only [fillBlot, HBlot.view, Option.map_some, Option.isSome_some]; rw [show win m a 0 = [] by simp [win]]).trans hpart
  rcases fillBlotH_view grow x ff q hok src q.i with ⟨f, _, g2⟩ | ⟨m', b', q1, g1, g2, g3, g4⟩
  · rw [hfill] at g2; cases g2
  · rw [hfill] at g2
    injection g2 with g2
    injection g2 with g2 g5
    subst g5
    obtain ⟨p1, p2, s', p3, p4, p5⟩ := fillLoopH_place grow x q q.i ff src m _ ⟨a, 0, c⟩ m' b' q' rfl g1
    obtain ⟨bl', ds'⟩ := b'
    obtain ⟨o', l', c'⟩ := s'
    simp only at p2 p3 p4 p5
    subst p2 p3 p4 p5
    simp only [HBlot.view, Option.map_some] at g2
    injection g2 with _ g2
    injection g2 with g2
    injection g2 with g2 g5
    obtain ⟨k1, k2⟩ := g3 _ rfl
    simp only at k1 k2
    have hlen : l' = rem.length := by
      have := congrArg List.length g2
      rw [List.nil_append, List.length_zipWith, win_length (by omega), win_length (by omega)] at this
      omega
    subst hlen
    refine ⟨m', g1, p1, ?_, fun p hp' => ?_⟩
    · rw [← g2, List.nil_append, zipWith_noDat D rem _ (by omega)]
    · by_cases hown : o' ≤ p ∧ p < o' + c'
      · have := congrArg (fun l : List Doc => l[p - (o' + rem.length)]?) g5
        simp only [List.getElem?_drop] at this
        rw [win_get, win_get, if_pos (by omega), if_pos (by omega), show o' + rem.length + (p - (o' + rem.length)) = p by omega,
          show o' + 0 + (rem.length + (p - (o' + rem.length))) = p by omega] at this
        exact this.symm
      · by_cases hpl : p < m.length
        · refine g4.same p hpl ?_
          rintro ⟨s, hs', h1, h2⟩
          injection hs' with hs'
          subst hs'
          exact hown ⟨h1, h2⟩
        · rw [List.getElem?_eq_none (by omega), List.getElem?_eq_none (by omega)]

/-- a pass that fills a slice in memory -/
theorem nextLoopH_step (grow : Nat → Nat) {x : Index} {D : UInt32 → Bytes × UInt32 × UInt32} {q q' : QState} {src : ReadState} {rem : List UInt32} {ff : Nat}
    (hs : q.shardStates[q.i.toNat]? = some (some src)) (hp : PostsRep src.file src.posts rem) (hD : ∀ id ∈ rem, x.docid2Doc id = .ok (D id)) (h2 : 2 ≤ rem.length)
    (hff : rem.length < ff) (ha : advance x q src q.i = .ok q') {m : Mem} {a c k : Nat} {bl : UInt32} {dst : List HBlot} (hb : dst[k]? = some ⟨bl, some ⟨a, 0, c⟩⟩)
    (hc : a + c ≤ m.length) (hl : rem.length < c) :
    ∃ m' : Mem, m'.length = m.length ∧ (win m' a rem.length).map Doc.noDat = rem.map (fun id => Doc.ofMeta (D id)) ∧
      (∀ p, ¬ (a ≤ p ∧ p < a + rem.length) → m'[p]? = m[p]?) ∧
      ∀ fuel, nextLoopH grow x ff (fuel + 1) q k m dst =
        nextLoopH grow x ff fuel q' (k + 1) m' (dst.set k ⟨UInt32.ofNat src.blot * q.n + q.i, some ⟨a, rem.length, c⟩⟩) := by
  obtain ⟨m', g1, g2, g3, g4⟩ := fillBlotH_heap grow hp hD hff ha bl hc hl
  refine ⟨m', g2, g3, g4, fun fuel => ?_⟩
  simp only [nextLoopH, hb, hs, g1, bind, Except.bind]
  exact if_neg (show ¬ rem.length ≤ 1 by omega)

end Query
end Dupi
