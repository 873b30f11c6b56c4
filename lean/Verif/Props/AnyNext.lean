import Verif.Proof.AnyOrder
import Verif.Props.AnyGet
import Verif.Spec.AnyNext
import Verif.Props.Local
import Verif.Props.Commands
/-! # C115: what `Next` makes of a directory with any contents -/

namespace Dupi.Props
open Spec

theorem opened_counts {J : CfgCodec} {srt : Sorter} {d : Dir} {x : Index} (h : Index.open J srt d = .ok x) (j : Nat) (s : ShardIndex) (hs : x.shards[j]? = some s)
    (k c : Nat) : CountAt d j k c ↔ (s.counts[k]?).map UInt32.toNat = some c := by
  obtain ⟨_, _, _, h4⟩ := openIndex_inv h
  obtain ⟨iix, post, h1, h2, h3⟩ := (indexShards_inv _ h4).2 j s hs
  rw [Nat.zero_add] at h1 h2
  simp only [ShardIndex.init, bind, Except.bind] at h3
  cases hr : ShardIndex.readIix 65536 iix with
  | error e => rw [hr] at h3; cases h3
  | ok es =>
    obtain ⟨m1, m2⟩ := (readIix_exact 65536 iix (es.map entrySays)).mp ⟨es, hr, rfl⟩
    simp only [hr, pure, Except.pure, Except.ok.injEq] at h3
    subst h3
    constructor
    · rintro ⟨iix', es', hd, k1, k3, k4, k5⟩
      rw [h1] at k1; injection k1 with k1; subst k1
      obtain ⟨es2, n1, n2⟩ := (readIix_exact 65536 iix es').mpr ⟨k3, k4⟩
      rw [hr] at n1; injection n1 with n1; subst n1
      subst n2
      rw [List.getElem?_map, Option.map_eq_some_iff] at k5
      obtain ⟨e, he, he'⟩ := k5
      rw [entrySays, Prod.mk.injEq] at he'
      simp only [List.getElem?_map, he, Option.map_some]
      rw [he'.2]
    · intro hc
      simp only [List.getElem?_map, Option.map_map] at hc
      rw [Option.map_eq_some_iff] at hc
      obtain ⟨e, he, hc⟩ := hc
      exact ⟨iix, _, e.1, h1, m1, m2, by rw [List.getElem?_map, he]; show some (e.1, e.2.toNat) = _; rw [← hc]; rfl⟩

/-- What calls of `Next` return when the lists `E` are still to be visited, and `R` says which documents each of them has: each call the next ones, as many as
there is room for; `io.EOF` iff there are none left. -/
def Visited (n : Nat) (R : Nat × Nat → List Doc → Prop) : List (Nat × Nat) → List (List Blot) → List Query.NextResult → Prop
  | _, [], [] => True
  | E, dst :: dsts, r :: rs =>
    r.n = min E.length dst.length ∧ (r.eof = true ↔ E = [] ∧ dst ≠ []) ∧ r.dst.length = dst.length ∧
    (∀ (i : Nat) jk, i < dst.length → E[i]? = some jk → ∃ bl, r.dst[i]? = some bl ∧ bl.blot = UInt32.ofNat (jk.2 * n + jk.1) ∧ R jk bl.vis) ∧
    Visited n R (E.drop dst.length) dsts rs
  | _, _, _ => False

theorem nextCalls_visits {srt : Sorter} (hsrt : IsSorter srt) {x : Index} {n : Nat} {cnt : Nat → Nat → Nat} (hx : Query.AllCounted srt x n cnt) (hn : n < 2 ^ 32)
    {grow : Nat → Nat} {ff fuel : Nat} {P : Nat × Nat → List Doc → Prop} (dsts : List (List Blot)) :
    ∀ (q : QState) (A B : List (Nat × Nat)), Query.Visits x n cnt q (A ++ B) → (∀ jb ∈ A, Query.Given grow x ff jb.1 jb.2 fun l => P jb l ∧ 2 ≤ l.length) →
    (∀ dst ∈ dsts, ∀ b ∈ dst, b.docs = none) →
    (((dsts.map List.length).sum ≤ A.length ∧ (dsts.map List.length).sum < fuel ∨
        B = [] ∧ A.length + n + 2 ^ 32 < fuel ∧ ∀ j k, j < n → k < 65536 → cnt j k ≤ 1 → Query.Given grow x ff j k fun l => l.length ≤ 1) →
      ∃ rs, nextCalls grow x ff fuel q dsts = .ok rs ∧ Visited n P (A ++ B) dsts rs) ∧
    (∀ jb B' F, B = jb :: B' → Query.Fails grow x ff jb.1 jb.2 F → A.length < (dsts.map List.length).sum → A.length < fuel → EndsAs (nextCalls grow x ff fuel q dsts) F) := by
  induction dsts with
  | nil =>
    intro q A B _ _ _
    exact ⟨fun _ => ⟨[], rfl, trivial⟩, fun jb B' F _ _ h => by simp at h⟩
  | cons dst dsts ih =>
    intro q A B hv hA hnil
    have hgo := Query.toGo_le q
    obtain ⟨g1, g2⟩ := Query.nextLoop_visits hsrt hx hn (grow := grow) (ff := ff) (P := P) hv A B rfl hA 0 fuel dst
      (fun i b _ hb => hnil dst (by simp) b (List.mem_of_getElem? hb)) (Nat.zero_le _)
    simp only [Nat.sub_zero] at g1 g2
    -- one call that fills its slice, or comes to the end
    have hone : (dst.length ≤ A.length ∧ dst.length < fuel ∨
          B = [] ∧ A.length + n + 2 ^ 32 < fuel ∧ ∀ j k, j < n → k < 65536 → cnt j k ≤ 1 → Query.Given grow x ff j k fun l => l.length ≤ 1) →
        ∃ r, Query.next grow x ff fuel q dst = .ok r ∧ Query.Visits x n cnt r.state (A.drop dst.length ++ B.drop (dst.length - A.length)) ∧
          ∀ rs, Visited n P ((A ++ B).drop dst.length) dsts rs → Visited n P (A ++ B) (dst :: dsts) (r :: rs) := by
      intro hor
      obtain ⟨r, e1, e2⟩ := g1 (by
        rcases hor with h | ⟨h1, h2, h3⟩
        · exact .inl h
        · exact .inr ⟨h1, by omega, h3⟩)
      have e3 := e2.count
      have e4 := e2.eof
      have e5 := e2.new
      have e6 := e2.rest
      simp only [Nat.zero_add, Nat.sub_zero] at e3 e5 e6
      refine ⟨r, e1, by rw [← List.drop_append]; exact e6, fun rs hrs => ⟨e3, ?_, e2.len, e5, hrs⟩⟩
      rw [e4, e3]
      generalize A ++ B = E
      cases E with
      | nil => simp
      | cons a E =>
        cases dst with
        | nil => simp
        | cons b dst => simp
    simp only [List.map_cons, List.sum_cons]
    refine ⟨fun hor => ?_, fun jb B' F hB hF h1 h2 => ?_⟩
    · obtain ⟨r, e1, e2, e3⟩ := hone (by
        rcases hor with ⟨h1, h2⟩ | h
        · exact .inl ⟨by omega, by omega⟩
        · exact .inr h)
      have hlast : dst.length ≤ A.length ∨ B = [] := by
        rcases hor with ⟨h1, _⟩ | ⟨h1, _⟩
        · exact .inl (by omega)
        · exact .inr h1
      have hB : B.drop (dst.length - A.length) = B := by
        rcases hlast with h | h
        · rw [show dst.length - A.length = 0 by omega]; rfl
        · rw [h]; exact List.drop_nil
      rw [hB] at e2
      obtain ⟨rs, k1, k2⟩ := (ih r.state (A.drop dst.length) B e2 (fun jb hjb => hA jb (List.mem_of_mem_drop hjb)) (fun d hd => hnil d (by simp [hd]))).1 (by
        rw [List.length_drop]
        rcases hor with ⟨h1, h2⟩ | ⟨h1, h2, h3⟩
        · exact .inl ⟨by omega, by omega⟩
        · exact .inr ⟨h1, by omega, h3⟩)
      refine ⟨r :: rs, by simp only [nextCalls, e1, bind, Except.bind, k1, pure, Except.pure], e3 rs ?_⟩
      rw [List.drop_append, hB]
      exact k2
    · by_cases hl : dst.length ≤ A.length
      · obtain ⟨r, e1, e2, e3⟩ := hone (.inl ⟨hl, by omega⟩)
        rw [show dst.length - A.length = 0 by omega] at e2
        have := (ih r.state (A.drop dst.length) B e2 (fun jb hjb => hA jb (List.mem_of_mem_drop hjb)) (fun d hd => hnil d (by simp [hd]))).2 jb B' F hB hF
          (by rw [List.length_drop]; omega) (by rw [List.length_drop]; omega)
        simp only [nextCalls, e1, bind, Except.bind]
        exact this.bind _
      · have := g2 jb B' F hB hF (by omega) h2
        exact EndsAs.bind (m := Query.next grow x ff fuel q dst) this _

/-- reading depends on the slice, the file and the place in it -/
theorem getLoop_same (grow : Nat → Nat) (x : Index) : ∀ (fuel : Nat) (rs rs' : ReadState) (b b' : Blot), rs.file = rs'.file → rs.posts = rs'.posts → b.docs = b'.docs →
    (Query.getLoop grow x false fuel rs b).map Blot.docs = (Query.getLoop grow x false fuel rs' b').map Blot.docs := by
  intro fuel
  induction fuel with
  | zero => intro rs rs' b b' _ _ _; rfl
  | succ fuel ih =>
    intro rs rs' b b' h1 h2 h3
    simp only [Query.getLoop, Bool.false_and, Bool.false_eq_true, if_false, ReadState.next, h1, h2]
    cases hp : rs'.posts.next rs'.file with
    | error f =>
      simp only [bind, Except.bind]
      cases f with
      | err e => cases e <;> first | rfl | (simp only [Except.map, h3])
      | panic => rfl
      | diverge => rfl
    | ok v =>
      simp only [bind, Except.bind, pure, Except.pure]
      obtain ⟨bl, ds⟩ := b
      obtain ⟨bl', ds'⟩ := b'
      simp only at h3
      subst h3
      obtain ⟨b1, g1, _⟩ := Blot.next_unlim grow ⟨bl, ds⟩ ([], 0, 0)
      obtain ⟨b1', g1', _⟩ := Blot.next_unlim grow ⟨bl', ds⟩ ([], 0, 0)
      have hds : b1.docs = b1'.docs := by
        rcases ds with _ | ⟨v, _ | ⟨_, _⟩⟩
        all_goals
          simp only [Blot.next, Except.ok.injEq] at g1 g1'
          rw [← g1, ← g1']
      rw [g1, g1']
      simp only []
      cases hd : x.docid2Doc v.1 with
      | error f => cases f <;> rfl
      | ok r =>
        refine ih _ _ _ _ rfl rfl ?_
        obtain ⟨c1, e1⟩ := b1
        obtain ⟨c2, e2⟩ := b1'
        simp only at hds
        subst hds
        rcases e1 with _ | ⟨v, s⟩
        · rfl
        · simp only [Blot.setLast]
          cases v.getLast? <;> rfl

theorem _root_.Dupi.EndsAs.map {α β : Type} {m : M α} {m' : M β} {γ : Type} {f : α → γ} {g : β → γ} (h : m.map f = m'.map g) {F : Fate} (hm : EndsAs m F) : EndsAs m' F := by
  cases m with
  | ok a => cases F <;> first | exact hm.elim | (obtain ⟨e, hm⟩ := hm; cases hm) | cases hm
  | error e =>
    cases m' with
    | ok b => cases h
    | error e' =>
      injection h with h
      subst h
      cases F <;> first | exact hm | (obtain ⟨e, hm⟩ := hm; injection hm with hm; exact ⟨e, by rw [hm]⟩) | (injection hm with hm; rw [hm]; rfl)

/-- **C115.**  `Next`, with slices for any number of documents, in any directory that opened.  There is an order of the lists that are said, by the files of heads, to have at
least two documents: each once, those said to have more first.  It does not depend on the posting files: let `d'` have any others.  As long as the lists of the order give at
least two documents each (`A`), calls of `Next` that ask for no more than these return them, in the order, with the documents that their bytes give.  If all lists of the order
do, and those said to have at most one document give at most one, then the calls return all of them and then `io.EOF`.  And if then comes one that cannot be read, or the reading
of which panics or does not end, then so do calls that ask for more than `A`. -/
theorem C115_next {srt : Sorter} (hsrt : IsSorter srt) {d : Dir} {x : Index} (hx : Index.open Json.codec srt d = .ok x) (hn : 0 < x.config.numShards)
    (hn' : x.config.numShards < 2 ^ 32) :
    ∃ dmd f ns E, d .dmd = some dmd ∧ d .fnm = some f ∧ TableFile f ns ∧
      E.Nodup ∧ (∀ j k, (j, k) ∈ E ↔ j < x.config.numShards.toNat ∧ ∃ c, CountAt d j k c ∧ 2 ≤ c) ∧
      E.Pairwise (fun a b => ∀ ca cb, CountAt d a.1 a.2 ca → CountAt d b.1 b.2 cb → cb ≤ ca) ∧
      ∀ d' : Dir, (∀ f, (∀ i, f ≠ .pos i) → d' f = d f) → (∀ i, (d' (.pos i)).isSome = (d (.pos i)).isSome) →
        ∃ x' q, Index.open Json.codec srt d' = .ok x' ∧ x'.config = x.config ∧ x'.startQuery = .ok q ∧
          ∀ (A B : List (Nat × Nat)) (G : Nat × Nat → List Nat), E = A ++ B →
            (∀ jk ∈ A, Meets d' dmd ns jk.1 jk.2 (.result (G jk)) ∧ 2 ≤ (G jk).length) →
            ∀ grow dsts, (∀ dst ∈ dsts, ∀ b ∈ dst, b.docs = none) →
              let R := fun jk => Each (fun id (doc : Doc) => DocAs dmd ns id doc.path doc.start.toNat doc.stop.toNat) (G jk)
              ((dsts.map List.length).sum ≤ A.length → ∀ ff fuel, (∀ jk ∈ A, (G jk).length < ff) → (dsts.map List.length).sum < fuel →
                ∃ rs, nextCalls grow x' ff fuel q dsts = .ok rs ∧ Visited x.config.numShards.toNat R E dsts rs) ∧
              (B = [] → (∀ j k c, j < x.config.numShards.toNat → CountAt d j k c → c ≤ 1 → ∃ ids, Meets d' dmd ns j k (.result ids) ∧ ids.length ≤ 1) →
                ∀ ff fuel, (∀ jk ∈ A, (G jk).length < ff) → 2 ≤ ff → E.length + x.config.numShards.toNat + 2 ^ 32 < fuel →
                ∃ rs, nextCalls grow x' ff fuel q dsts = .ok rs ∧ Visited x.config.numShards.toNat R E dsts rs) ∧
              (∀ jk B', B = jk :: B' → A.length < (dsts.map List.length).sum →
                (Meets d' dmd ns jk.1 jk.2 .error → ∃ K, ∀ ff fuel, K < ff → K < fuel → Errs (nextCalls grow x' ff fuel q dsts)) ∧
                (Meets d' dmd ns jk.1 jk.2 .panic → ∃ K, ∀ ff fuel, K < ff → K < fuel → nextCalls grow x' ff fuel q dsts = .error .panic) ∧
                (Meets d' dmd ns jk.1 jk.2 .endless → ∃ K, ∀ ff fuel, K < ff → K < fuel → nextCalls grow x' ff fuel q dsts = .error .diverge)) := by
  obtain ⟨i1, i2, ⟨f, i3, i3'⟩, i4⟩ := openIndex_inv hx
  have ht := ((Fnames.read_exact f).1 _).mp ⟨_, i3', rfl⟩
  have hp : ∀ n ∈ x.fnames.map Fnames.says, n.2 < (x.fnames.map Fnames.says).length := by
    obtain ⟨_, _, _, _, _, _, _, h⟩ := ht
    exact h
  obtain ⟨o1, o2, o3⟩ := opened hx
  have hcnt := opened_counts hx
  generalize hcd : (fun j k => ((x.shards[j]?).map fun s => (s.counts.getD k 0).toNat).getD 0 : Nat → Nat → Nat) = cnt
  have hc : Query.AllCounted srt x x.config.numShards.toNat cnt := by
    refine ⟨o2, fun j s hs => ?_⟩
    have := o3 j s hs
    refine ⟨this.heads, this.counts, fun b _ => ?_, this.perm⟩
    rw [← hcd]; simp only [hs, Option.map_some, Option.getD_some]
  have hca : ∀ j k, j < x.config.numShards.toNat → ∀ c, CountAt d j k c ↔ k < 65536 ∧ c = cnt j k := by
    intro j k hj c
    have hs : x.shards[j]? = some _ := List.getElem?_eq_getElem (by rw [o2]; exact hj)
    rw [hcnt j _ hs]
    have hl := (o3 j _ hs).counts
    generalize x.shards[j]'(by rw [o2]; exact hj) = s at *
    rw [← hcd]
    simp only [hs, Option.map_some, Option.getD_some, List.getD_eq_getElem?_getD]
    constructor
    · intro h
      rw [Option.map_eq_some_iff] at h
      obtain ⟨v, hv, rfl⟩ := h
      exact ⟨by rw [← hl]; exact (List.getElem?_eq_some_iff.mp hv).1, by rw [hv]; rfl⟩
    · rintro ⟨hk, rfl⟩
      rw [List.getElem?_eq_getElem (by rw [hl]; exact hk)]; rfl
  obtain ⟨q, s1, s2⟩ := Query.startQuery_counted hsrt hc (by omega) (by omega)
  obtain ⟨E, v1, v2, v3, v4⟩ := Query.visits hsrt hc (by omega) _ q _ s2 (Query.allTwo_nodup hsrt hc) rfl
  have hmem : ∀ j k, (j, k) ∈ E ↔ j < x.config.numShards.toNat ∧ k < 65536 ∧ 2 ≤ cnt j k := by
    intro j k
    rw [v3, Query.allTwo_mem hsrt hc]
  refine ⟨x.dmd, f, _, E, i2, i3, ht, v2, ?_, ?_, ?_⟩
  · intro j k
    rw [hmem]
    constructor
    · rintro ⟨h1, h2, h3⟩
      exact ⟨h1, _, (hca j k h1 _).mpr ⟨h2, rfl⟩, h3⟩
    · rintro ⟨h1, c, h2, h3⟩
      obtain ⟨h4, rfl⟩ := (hca j k h1 _).mp h2
      exact ⟨h1, h4, h3⟩
  · refine v4.imp_of_mem ?_
    rintro ⟨ja, ka⟩ ⟨jb, kb⟩ ha hb hab c1 c2 h1 h2
    rw [((hca ja ka ((hmem _ _).mp ha).1 _).mp h1).2, ((hca jb kb ((hmem _ _).mp hb).1 _).mp h2).2]
    exact hab
  · intro d' hd1 hd2
    have hfs : ∀ i b, d (.pos i) = some b → d' (.pos i) = some ((d' (.pos i)).getD []) := by
      intro i b hb
      have := hd2 i
      rw [hb, Option.isSome_some, Option.isSome_iff_exists] at this
      obtain ⟨c, hc⟩ := this
      rw [hc]; rfl
    generalize (fun i => (d' (.pos i)).getD [] : Nat → Bytes) = fs at hfs
    have hx' := open_with (fs := fun i => (d' (.pos i)).getD []) hd1 hfs hx
    refine ⟨_, _, hx', rfl, Query.startQuery_files _ s1, ?_⟩
    generalize (fun i => (d' (.pos i)).getD []) = fs at *
    intro A B G hE hA grow dsts hnil
    subst hE
    obtain ⟨_, _, o3'⟩ := opened hx'
    have hfate : ∀ j k F, Meets d' x.dmd (x.fnames.map Fnames.says) j k F → ∀ xs, (x.withFiles fs).shards[j]? = some xs → ∀ rs, Query.AtHead xs rs → rs.blot = k →
        ∃ h, rs.posts = Posts.new h ∧ GetFate x.dmd (x.fnames.map Fnames.says) rs.file h none F := by
      rintro j k F ⟨post, h, m1, m2⟩ xs hxs rs ⟨a1, h', a2, a3⟩ rfl
      obtain ⟨b1, b2⟩ := (o3' j xs hxs).back _ _ _ m1
      rw [a2] at b2
      injection b2 with b2
      subst b2
      exact ⟨h', a3, by rw [a1, ← b1]; exact m2⟩
    have hgiven : ∀ j k ids ff, Meets d' x.dmd (x.fnames.map Fnames.says) j k (.result ids) → ids.length < ff →
        Query.Given grow (x.withFiles fs) ff j k fun l =>
          Each (fun id (doc : Doc) => DocAs x.dmd (x.fnames.map Fnames.says) id doc.path doc.start.toNat doc.stop.toNat) ids l ∧ l.length = ids.length := by
      intro j k ids ff hm hff xs hxs rs hrs hk b hb
      obtain ⟨h, h1, h2⟩ := hfate j k _ hm xs hxs rs hrs hk
      have hroom : b.room = none := by rw [Blot.room, hb]; rfl
      obtain ⟨r, new, k1, k2, k3, k4⟩ := (getLoop_fate (x := x.withFiles fs) (ns := x.fnames.map Fnames.says) rfl hp grow b rs rfl h1).1 ids (by rw [hroom]; exact h2) ff hff
      rw [hb] at k1
      have hv : b.vis = [] := by rw [Blot.vis, hb]
      rw [hv, List.nil_append] at k3
      refine ⟨r, k1, k2, by rw [k3]; exact k4, ?_⟩
      rw [k3]
      clear k1 k3 hm hff h2
      induction ids generalizing new with
      | nil => cases new with
        | nil => rfl
        | cons _ _ => exact k4.elim
      | cons id ids ih =>
        cases new with
        | nil => exact k4.elim
        | cons doc new => rw [List.length_cons, List.length_cons, ih new k4.2]
    have hfails : ∀ j k F, (∀ ids, F ≠ .result ids) → Meets d' x.dmd (x.fnames.map Fnames.says) j k F → ∃ K, ∀ ff, K < ff → Query.Fails grow (x.withFiles fs) ff j k F := by
      intro j k F hF hm
      obtain ⟨post, h, m1, m2⟩ := hm
      have hall : ∀ b : Blot, b.docs = none → ∀ rs : ReadState, rs.file = post → rs.posts = Posts.new h →
          ∃ K, ∀ ff, K < ff → EndsAs (Query.getLoop grow (x.withFiles fs) false ff rs b) F := by
        intro b hb rs e1 e2
        have hroom : b.room = none := by rw [Blot.room, hb]; rfl
        have := getLoop_fate (x := x.withFiles fs) (ns := x.fnames.map Fnames.says) rfl hp grow b rs e1 e2
        rw [hroom, hb] at this
        cases F with
        | result ids => exact absurd rfl (hF ids)
        | error => exact this.2.1 m2
        | panic => exact this.2.2.1 m2
        | endless => exact ⟨0, fun ff _ => this.2.2.2 m2 ff⟩
      obtain ⟨K, hK⟩ := hall ⟨0, none⟩ rfl ⟨0, 0, 0, 0, Posts.new h, post⟩ rfl rfl
      refine ⟨K, fun ff hff xs hxs rs ⟨a1, h', a2, a3⟩ hk b hb => ?_⟩
      subst hk
      obtain ⟨b1, b2⟩ := (o3' j xs hxs).back _ _ _ m1
      rw [a2] at b2
      injection b2 with b2
      subst b2
      exact EndsAs.map (getLoop_same grow (x.withFiles fs) ff ⟨0, 0, 0, 0, Posts.new h', post⟩ rs ⟨0, none⟩ b (by rw [a1, b1]) a3.symm hb.symm) (hK ff hff)
    have hA' : ∀ ff, (∀ jk ∈ A, (G jk).length < ff) → ∀ jk ∈ A, Query.Given grow (x.withFiles fs) ff jk.1 jk.2 fun l =>
        Each (fun id (doc : Doc) => DocAs x.dmd (x.fnames.map Fnames.says) id doc.path doc.start.toNat doc.stop.toNat) (G jk) l ∧ 2 ≤ l.length := by
      intro ff hff jk hjk xs hxs rs hrs hk b hb
      obtain ⟨b', c1, c2, c3, c4⟩ := hgiven jk.1 jk.2 (G jk) ff (hA jk hjk).1 (hff jk hjk) xs hxs rs hrs hk b hb
      exact ⟨b', c1, c2, c3, by rw [c4]; exact (hA jk hjk).2⟩
    have hv := v1.with fs
    have hcw := hc.with fs
    refine ⟨?_, ?_, ?_⟩
    · intro h1 ff fuel hff hfuel
      exact (nextCalls_visits hsrt hcw (by omega) dsts _ A B hv (hA' ff hff) hnil).1 (.inl ⟨h1, hfuel⟩)
    · intro hB hsm ff fuel hff h2 hfuel
      refine (nextCalls_visits hsrt hcw (by omega) dsts _ A B hv (hA' ff hff) hnil).1 (.inr ⟨hB, ?_, fun j k hj hk hjk => ?_⟩)
      · rw [List.length_append] at hfuel; omega
      · obtain ⟨ids, m1, m2⟩ := hsm j k _ hj ((hca j k hj _).mpr ⟨hk, rfl⟩) hjk
        intro xs hxs rs hrs hk b hb
        obtain ⟨b', c1, c2, c3, c4⟩ := hgiven j k ids ff m1 (by omega) xs hxs rs hrs hk b hb
        exact ⟨b', c1, c2, by show b'.vis.length ≤ 1; rw [c4]; exact m2⟩
    · intro jk B' hB htot
      have hmany : ∃ K0, ∀ ff, K0 < ff → ∀ jk ∈ A, (G jk).length < ff := by
        clear hA hA' hv v2 v3 v4 hmem v1
        induction A with
        | nil => exact ⟨0, fun _ _ _ h => by cases h⟩
        | cons a A ih =>
          obtain ⟨K0, h0⟩ := ih (by simp only [List.length_cons] at htot; omega)
          refine ⟨max K0 (G a).length, fun ff hff jk hjk => ?_⟩
          rcases List.mem_cons.mp hjk with e | e
          · rw [e]; omega
          · exact h0 ff (by omega) jk e
      obtain ⟨K0, hK0⟩ := hmany
      have hend : ∀ F, (∀ ids, F ≠ .result ids) → Meets d' x.dmd (x.fnames.map Fnames.says) jk.1 jk.2 F →
          ∃ K, ∀ ff fuel, K < ff → K < fuel → EndsAs (nextCalls grow (x.withFiles fs) ff fuel (q.withFiles fs) dsts) F := by
        intro F hF hm
        obtain ⟨K1, hK1⟩ := hfails jk.1 jk.2 F hF hm
        refine ⟨max K0 (max K1 A.length), fun ff fuel h1 h2 => ?_⟩
        exact (nextCalls_visits hsrt hcw (by omega) dsts _ A B hv (hA' ff (hK0 ff (by omega))) hnil).2 jk B' F hB (hK1 ff (by omega)) htot (by omega)
      exact ⟨fun h => hend .error nofun h, fun h => hend .panic nofun h, fun h => hend .endless nofun h⟩

theorem holds_counted {srt : Sorter} {x : Index} {n : Nat} {vals : Nat → Nat → List UInt32} {D : UInt32 → Bytes × UInt32 × UInt32} (h : Holds srt x n vals D) :
    Query.AllCounted srt x n fun j k => (vals j k).length :=
  ⟨h.len, fun j s hs => ⟨(h.sh j s hs).lenH, (h.sh j s hs).lenC, (h.sh j s hs).counts, (h.sh j s hs).perm⟩⟩

/-- **C115**, in a directory made by sessions: every list is one that is given, with as many documents as the file of heads says.  So what C115 says of the whole
enumeration applies. -/
theorem C115_sessions {u : Uni} (srt : Sorter) {c : Config} (hU : Usable Json.codec c) {h : Sessions} {d : Dir}
    (hd : History u Json.codec c h d) (hf : Fits u c (documents h)) :
    ∃ dmd f ns, d .dmd = some dmd ∧ d .fnm = some f ∧ TableFile f ns ∧ ∀ j k, j < c.numShards.toNat → k < 65536 →
      ∃ ids, Meets d dmd ns j k (.result ids) ∧ CountAt d j k ids.length ∧ ids.length = (found u c (documents h) (k * c.numShards.toNat + j)).length := by
  have hn := hU.shards
  have hids := hf.ids
  obtain ⟨x, hx, p2, p3, _⟩ := openIndex_rep hU srt (History.rep hU hd hf) hf (documents_rooted h)
  obtain ⟨i1, i2, ⟨f, i3, i3'⟩, i4⟩ := openIndex_inv hx
  have ht := ((Fnames.read_exact f).1 _).mp ⟨_, i3', rfl⟩
  have hp : ∀ n ∈ x.fnames.map Fnames.says, n.2 < (x.fnames.map Fnames.says).length := by
    obtain ⟨_, _, _, _, _, _, _, h⟩ := ht
    exact h
  refine ⟨x.dmd, f, _, i2, i3, ht, fun j k hj hk => ?_⟩
  have hs : x.shards[j]? = some _ := List.getElem?_eq_getElem (by rw [p3.len]; exact hj)
  have hr := (opened hx).2.2 j _ hs
  have hir := p3.sh j _ hs
  have hcn := opened_counts hx j _ hs
  generalize x.shards[j]'(by rw [p3.len]; exact hj) = s at *
  have hh := List.getElem?_eq_getElem (l := s.heads) (i := k) (by rw [hir.lenH]; exact hk)
  generalize s.heads[k]'(by rw [hir.lenH]; exact hk) = hd' at hh
  have hl := hr.list k _ hh
  have hfl := bucketIds_length_found u c (documents h) hids (k * c.numShards.toNat + j)
  rw [Nat.mul_add_mod_self_right, Nat.mod_eq_of_lt hj, Nat.mul_comm, Nat.mul_add_div (by omega), Nat.div_eq_of_lt hj, Nat.add_zero,
    Nat.mod_eq_of_lt hk, Nat.mul_comm] at hfl
  obtain ⟨F, hF⟩ := getFate_some x.dmd (x.fnames.map Fnames.says) s.file hd' none
  have hget := fun fuel hfu => Query.getLoop_unlim (fun _ => 0) (x := x) (D := metaOf (documents h)) (bucketIds u c (documents h) j k) fuel
      ⟨0, k, 0, 0, Posts.new hd', s.file⟩ ⟨0, none⟩ (hir.posts k _ hh) (p3.doc j k hj hk) hfu
  obtain ⟨g1, g2, g3, g4⟩ := getLoop_fate (x := x) (ns := x.fnames.map Fnames.says) rfl hp (fun _ => 0) ⟨0, none⟩ (⟨0, k, 0, 0, Posts.new hd', s.file⟩ : ReadState) rfl rfl
  cases F with
  | result ids =>
    obtain ⟨r, e1, _, e2, _⟩ := hget ((bucketIds u c (documents h) j k).length + ids.length + 1) (by omega)
    obtain ⟨r', new, e3, _, e4, e5⟩ := g1 ids hF ((bucketIds u c (documents h) j k).length + ids.length + 1) (by omega)
    have e3' := e1.symm.trans e3
    injection e3' with e3'
    subst e3'
    have hlen : ∀ {α β : Type} {R : α → β → Prop} (as : List α) (bs : List β), Each R as bs → as.length = bs.length := by
      intro α β R as
      induction as with
      | nil => intro bs h; cases bs with
        | nil => rfl
        | cons _ _ => exact h.elim
      | cons a as ih => intro bs h; cases bs with
        | nil => exact h.elim
        | cons b bs => simp only [List.length_cons, ih bs h.2]
    have hil : ids.length = (bucketIds u c (documents h) j k).length := by
      have := congrArg List.length (e2.symm.trans e4)
      rw [List.length_append, List.length_append, List.length_map] at this
      rw [hlen _ _ e5]; omega
    refine ⟨ids, ⟨_, _, hl, hF⟩, (hcn k _).mpr ?_, by rw [hil, hfl]⟩
    have hct := List.getElem?_eq_getElem (l := s.counts) (i := k) (by rw [hir.lenC]; exact hk)
    have := hir.counts k hk
    rw [List.getD_eq_getElem?_getD, hct] at this
    rw [hct, Option.map_some, hil, ← this]; rfl
  | error =>
    obtain ⟨K, hK⟩ := g2 hF
    obtain ⟨r, e1, _⟩ := hget ((bucketIds u c (documents h) j k).length + K + 1) (by omega)
    obtain ⟨e, he⟩ := hK ((bucketIds u c (documents h) j k).length + K + 1) (by omega)
    exact absurd (e1.symm.trans he) nofun
  | panic =>
    obtain ⟨K, hK⟩ := g3 hF
    obtain ⟨r, e1, _⟩ := hget ((bucketIds u c (documents h) j k).length + K + 1) (by omega)
    exact absurd (e1.symm.trans (hK _ (by omega))) nofun
  | endless =>
    obtain ⟨r, e1, _⟩ := hget ((bucketIds u c (documents h) j k).length + 1) (by omega)
    exact absurd (e1.symm.trans (g4 hF _)) nofun

/-- **C115**, damage to the posting files of an index made by sessions.  With the bytes divided among the buckets as in C111, and the order in which `Next` goes through the
buckets of the intact index: whatever happens to the posting files, calls of `Next` that ask for no more than the buckets before the first one that lost a byte return what
they returned before. -/
theorem C115_local {u : Uni} {J : CfgCodec} {srt : Sorter} {c : Config} (hU : Usable J c) (hsrt : IsSorter srt) {h : Sessions} {d : Dir}
    (hd : History u J c h d) (hf : Fits u c (documents h)) :
    ∃ (own : Nat → Nat → Option Nat) (E : List (Nat × Nat)),
      (∀ j k f, j < c.numShards.toNat → k < 65536 → d (.pos j) = some f →
        (List.range f.length).countP (fun i => own j i = some k) ≤ 14 * (found u c (documents h) (k * c.numShards.toNat + j)).length) ∧
      E.Nodup ∧ (∀ j k, (j, k) ∈ E ↔ j < c.numShards.toNat ∧ k < 65536 ∧ 2 ≤ (found u c (documents h) (k * c.numShards.toNat + j)).length) ∧
      E.Pairwise (fun a b => (found u c (documents h) (b.2 * c.numShards.toNat + b.1)).length ≤ (found u c (documents h) (a.2 * c.numShards.toNat + a.1)).length) ∧
      ∀ d' : Dir, (∀ g, (∀ j, g ≠ .pos j) → d' g = d g) → (∀ j, j < c.numShards.toNat → d' (.pos j) ≠ none) →
        ∃ x q, Index.open J srt d' = .ok x ∧ x.startQuery = .ok q ∧
          ∀ A B, E = A ++ B →
            (∀ jk ∈ A, ∀ f f' i, d (.pos jk.1) = some f → d' (.pos jk.1) = some f' → own jk.1 i = some jk.2 → f'[i]? = f[i]?) →
            ∀ grow ff fuel dsts, (∀ dst ∈ dsts, ∀ b ∈ dst, b.docs = none) → (dsts.map List.length).sum ≤ A.length →
              (documents h).length < ff → (dsts.map List.length).sum < fuel →
              ∃ rs, nextCalls grow x ff fuel q dsts = .ok rs ∧
                Visited c.numShards.toNat (fun jk l => l = (found u c (documents h) (jk.2 * c.numShards.toNat + jk.1)).map Document.shown) E dsts rs := by
  have hn := hU.shards
  have hn' := hU.shardsSmall
  have hids := hf.ids
  have hrep := History.rep hU hd hf
  obtain ⟨ps, bs, hp⟩ := hrep.parts hf
  obtain ⟨w1, w2⟩ := owners hU hd hf hp
  obtain ⟨t, fs0, o1, o2⟩ := openIndex_parts hU srt hrep hf hp
  obtain ⟨y, p1, p2, p3, _⟩ := openIndex_rep hU srt hrep hf (documents_rooted h)
  have e0 := o1.symm.trans p1
  injection e0 with e0
  have hc := holds_counted p3
  have hfl : ∀ j k, j < c.numShards.toNat → k < 65536 → (bucketIds u c (documents h) j k).length = (found u c (documents h) (k * c.numShards.toNat + j)).length := by
    intro j k hj hk
    have hfl := bucketIds_length_found u c (documents h) hids (k * c.numShards.toNat + j)
    rwa [Nat.mul_add_mod_self_right, Nat.mod_eq_of_lt hj, Nat.mul_comm, Nat.mul_add_div (by omega), Nat.div_eq_of_lt hj, Nat.add_zero,
      Nat.mod_eq_of_lt hk, Nat.mul_comm] at hfl
  have hfd : ∀ j k, j < c.numShards.toNat → k < 65536 → (bucketIds u c (documents h) j k).map (fun id => Doc.ofMeta (metaOf (documents h) id)) =
      (found u c (documents h) (k * c.numShards.toNat + j)).map Document.shown := by
    intro j k hj hk
    have hfl := bucketIds_found u c (documents h) hids (k * c.numShards.toNat + j)
    rwa [Nat.mul_add_mod_self_right, Nat.mod_eq_of_lt hj, Nat.mul_comm, Nat.mul_add_div (by omega), Nat.div_eq_of_lt hj, Nat.add_zero,
      Nat.mod_eq_of_lt hk, Nat.mul_comm] at hfl
  obtain ⟨q, s1, s2⟩ := Query.startQuery_counted hsrt hc (by omega) (by omega)
  obtain ⟨E, v1, v2, v3, v4⟩ := Query.visits hsrt hc (by omega) _ q _ s2 (Query.allTwo_nodup hsrt hc) rfl
  have hmem : ∀ j k, (j, k) ∈ E ↔ j < c.numShards.toNat ∧ k < 65536 ∧ 2 ≤ (bucketIds u c (documents h) j k).length := by
    intro j k
    rw [v3, Query.allTwo_mem hsrt hc]
  refine ⟨fun j => ownerAt (bs j), E, w2, v2, ?_, ?_, ?_⟩
  · intro j k
    rw [hmem]
    constructor
    · rintro ⟨h1, h2, h3⟩; exact ⟨h1, h2, by rw [← hfl j k h1 h2]; exact h3⟩
    · rintro ⟨h1, h2, h3⟩; exact ⟨h1, h2, by rw [hfl j k h1 h2]; exact h3⟩
  · refine v4.imp_of_mem ?_
    rintro ⟨ja, ka⟩ ⟨jb, kb⟩ ha hb hab
    obtain ⟨a1, a2, _⟩ := (hmem _ _).mp ha
    obtain ⟨b1, b2, _⟩ := (hmem _ _).mp hb
    rw [← hfl _ _ a1 a2, ← hfl _ _ b1 b2]
    exact hab
  · intro d' hd1 hd2
    have hx' : Index.open J srt d' = .ok (y.withFiles fun i => (d' (.pos i)).getD []) := by
      obtain ⟨x', x1, x2, x3, x4, x5, x6⟩ := openIndex_swap hd1 p1 (by rw [p2]; exact hd2)
      rw [x1]
      obtain ⟨c', dm', fn', sh'⟩ := x'
      simp only at x2 x3 x4
      subst x2 x3 x4
      congr 1
      simp only [Index.withFiles, Index.mk.injEq, true_and]
      apply List.ext_getElem?
      intro k
      rw [List.getElem?_mapIdx]
      cases hk : y.shards[k]? with
      | none => rw [List.getElem?_eq_none_iff] at hk; exact List.getElem?_eq_none_iff.mpr (by rw [show sh'.length = y.shards.length from x5]; exact hk)
      | some s =>
        obtain ⟨f', a1, a2⟩ := x6 k s hk
        rw [a1]; exact a2
    refine ⟨_, _, hx', Query.startQuery_files _ s1, ?_⟩
    intro A B hE hA grow ff fuel dsts hnil htot hff hfuel
    subst hE
    refine (nextCalls_visits hsrt (hc.with _) (by omega) dsts _ A B (v1.with _) (fun jk hjk => ?_) hnil).1 (.inl ⟨htot, hfuel⟩)
    obtain ⟨hj, hk, h2⟩ := (hmem jk.1 jk.2).mp (List.mem_append_left _ hjk)
    intro xs hxs rs ⟨a1, hh, a2, a3⟩ hb b hbn
    obtain ⟨j, k⟩ := jk
    simp only at hj hk h2 hb hxs
    subst hb
    rw [Query.shards_with, ← e0] at hxs
    simp only [shardsOf, List.getElem?_map, List.getElem?_range hj, Option.map_some, Option.some.injEq] at hxs
    obtain ⟨p, hpk⟩ : ∃ p, (ps j)[rs.blot]? = some p := ⟨_, List.getElem?_eq_getElem (by rw [(hp.closed _ hj).len]; exact hk)⟩
    subst hxs
    simp only at a1
    simp only [List.getElem?_map, hpk, Option.map_some, Option.some.injEq] at a2
    have hpos : d' (.pos j) = some ((d' (.pos j)).getD []) := by
      cases hdj : d' (.pos j) with
      | none => exact absurd hdj (hd2 j hj)
      | some f' => rfl
    have hpr : PostsRep rs.file rs.posts (postings (shardPosts u c j 1 (documents h)) rs.blot) := by
      rw [a1, a3, ← a2]
      exact (hp.closed j hj).read_swap (hp.small j hj) hpk (fun i hi => hA _ hjk _ _ i (hp.pos j hj) hpos hi)
    rw [postings_shardPosts u c j rs.blot hj hk _ (by omega)] at hpr
    obtain ⟨r, k1, k2, k3, _⟩ := Query.getLoop_unlim grow (x := y.withFiles fun i => (d' (.pos i)).getD []) (D := metaOf (documents h))
      (bucketIds u c (documents h) j rs.blot) ff rs b hpr (p3.doc j rs.blot hj hk) (Nat.lt_of_le_of_lt (idsWith_length _ _ _) hff)
    have hv : r.vis = (found u c (documents h) (rs.blot * c.numShards.toNat + j)).map Document.shown := by
      rw [k3, hfd j _ hj hk, Blot.vis, hbn]; rfl
    refine ⟨r, k1, k2, hv, ?_⟩
    rw [hv, List.length_map, ← hfl j _ hj hk]
    exact h2

/-! ## Non-vacuity -/

/-- An index of two documents: one call of `Next` returns a blot; with the posting files emptied the same call returns an error. -/
theorem C115_nonvacuous : ∃ (d d' : Dir) (x x' : Index) (q q' : QState), (∀ f, (∀ i, f ≠ .pos i) → d' f = d f) ∧
    Index.open Json.codec mergeSorter d = .ok x ∧ x.startQuery = .ok q ∧ Index.open Json.codec mergeSorter d' = .ok x' ∧ x'.startQuery = .ok q' ∧
    (∃ r, nextCalls (fun _ => 0) x 100 100 q [[⟨0, none⟩]] = .ok [r] ∧ r.n = 1 ∧ r.eof = false) ∧
    ∃ K, ∀ ff fuel, K < ff → K < fuel → Errs (nextCalls (fun _ => 0) x' ff fuel q' [[⟨0, none⟩]]) := by
  obtain ⟨d, hd⟩ := History.exists (u := asciiUni) exCmd_usable [47] [⟨[116, 47, 112], 0, 22, some exText1⟩, ⟨[116, 47, 113], 0, 24, some exText2⟩] [] exCmd_fits
  change History asciiUni Json.codec exCmdConfig exCmdSessions d at hd
  obtain ⟨x, q, hx, hr⟩ := reading_exists exCmd_usable mergeSorter_isSorter hd exCmd_fits
  have hc : x.config = exCmdConfig := by
    obtain ⟨i1, _⟩ := openIndex_inv hx
    rw [(C97_sessions exCmd_usable hd exCmd_fits).1] at i1
    injection i1 with i1
    exact i1.symm
  obtain ⟨dmd, f, ns, E, k1, k2, k3, k4, k5, k6, k7⟩ := C115_next mergeSorter_isSorter hx (by rw [hc]; decide) (by rw [hc]; decide)
  obtain ⟨dmd', f', ns', l1, l2, l3, l4⟩ := C115_sessions mergeSorter exCmd_usable hd exCmd_fits
  have e1 := l1.symm.trans k1; injection e1 with e1; subst e1
  have e2 := l2.symm.trans k2; injection e2 with e2; subst e2
  have e3 : ns' = ns := by
    obtain ⟨t, t1, t2⟩ := Fnames.read_of_table l3
    obtain ⟨t', t1', t2'⟩ := Fnames.read_of_table k3
    rw [t1] at t1'; injection t1' with t1'; subst t1'
    rw [← t2, ← t2']
  subst e3
  have hn : exCmdConfig.numShards.toNat = 4 := by decide
  rw [hc, hn] at k5
  rw [hn] at l4
  -- blot 1 has two documents
  have hmem : (1, 0) ∈ E := by
    obtain ⟨ids, m1, m2, m3⟩ := l4 1 0 (by decide) (by decide)
    refine (k5 1 0).mpr ⟨by decide, _, m2, ?_⟩
    rw [m3, exCmd_docs]
    decide +kernel
  match E, hmem with
  | jk :: B, _ =>
    have hjk := (k5 jk.1 jk.2).mp List.mem_cons_self
    obtain ⟨hj, cc, hcc, h2⟩ := hjk
    have hk : jk.2 < 65536 := by
      obtain ⟨_, es, _, _, _, hl, hg⟩ := hcc
      have := (List.getElem?_eq_some_iff.mp hg).1
      omega
    obtain ⟨ids, m1, m2, m3⟩ := l4 jk.1 jk.2 hj hk
    have hlen : cc = ids.length := by
      have hs : x.shards[jk.1]? = some _ := List.getElem?_eq_getElem (by rw [(opened hx).2.1, hc, hn]; exact hj)
      have a := (opened_counts hx _ _ hs _ _).mp hcc
      have b := (opened_counts hx _ _ hs _ _).mp m2
      rw [a] at b
      injection b
    have hsmall : ids.length ≤ 2 := by
      rw [m3, exCmd_docs]
      exact Nat.le_trans (List.length_filter_le _ _) (by decide)
    let d' : Dir := fun f => match f with | .pos i => (d (.pos i)).map fun _ => [] | f => d f
    obtain ⟨x1, q1, a1, a2, a3, a4⟩ := k7 d (fun _ _ => rfl) (fun _ => rfl)
    obtain ⟨x2, q2, b1, b2, b3, b4⟩ := k7 d' (fun f hf => by cases f <;> first | rfl | exact absurd rfl (hf _)) (fun i => by show ((d (.pos i)).map _).isSome = _; simp)
    rw [hx] at a1; injection a1 with a1; subst a1
    rw [hr.start] at a3; injection a3 with a3; subst a3
    refine ⟨d, d', x, x2, q, q2, fun f hf => by cases f <;> first | rfl | exact absurd rfl (hf _), hx, hr.start, b1, b3, ?_, ?_⟩
    · obtain ⟨rs, r1, r2⟩ := (a4 [jk] B (fun _ => ids) rfl (fun y hy => by
          rw [List.mem_singleton] at hy; subst hy; exact ⟨m1, by omega⟩) (fun _ => 0) [[⟨0, none⟩]] (by simp)).1 (by simp) 100 100 (fun _ _ => by omega) (by simp)
      match rs, r2 with
      | [r], ⟨v1, v2, _⟩ =>
        refine ⟨r, r1, by rw [v1]; simp, ?_⟩
        cases hre : r.eof with
        | false => rfl
        | true => exact absurd (v2.mp hre).1 (by simp)
    · obtain ⟨post, h, g1, g2⟩ := m1
      refine ((b4 [] (jk :: B) (fun _ => ids) rfl (fun y hy => by cases hy) (fun _ => 0) [[⟨0, none⟩]] (by simp)).2.2 jk B rfl (by simp)).1 ?_
      refine ⟨[], h, ?_, [], nofun, nofun, .inl ⟨h, ?_, ⟨[], rfl, rfl⟩, ?_, ?_⟩⟩
      · obtain ⟨iix, es, c', t1, t2, t3⟩ := g1
        exact ⟨iix, es, c', t1, by show (d (.pos jk.1)).map _ = _; rw [t2]; rfl, t3⟩
      · rintro rfl
        obtain ⟨_, ⟨hro, _⟩ | ⟨_, dss, hre, hids⟩⟩ := g2
        · cases hro
        · cases dss with
          | nil => rw [hids] at hlen; simp [sums] at hlen; omega
          | cons ds dss => exact hre.1 rfl
      · rintro ⟨_, _, hnum, _⟩; exact number_nil hnum
      · rintro ⟨ds, r, n, v, hch, _⟩; exact number_nil hch.1

end Dupi.Props
