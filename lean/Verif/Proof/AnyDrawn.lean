import Verif.Props.AnyGet
import Verif.Proof.LimAny
/-! # What `Next` hands out, whatever the files: documents that follow each other in a list -/

namespace Dupi
open Spec

/-- the documents read so far, and those of the page in memory -/
structure PostsAt (f : Bytes) (h : Int) (ids : List Nat) (p : Posts) : Prop where
  i : p.i ≤ p.docids.length
  page : ∃ dss, Pages f h dss p.nextpos ∧ sums 0 dss.flatten = ids ++ (p.docids.drop p.i).map UInt32.toNat ∧ p.current.toNat = sumTo 0 dss.flatten

theorem sumTo_append (a : Nat) (xs ys : List Nat) : sumTo a (xs ++ ys) = sumTo (sumTo a xs) ys := by
  induction xs generalizing a with
  | nil => rfl
  | cons x xs ih => simp only [List.cons_append, sumTo, ih]

theorem PostsAt.new (f : Bytes) (h : Int) : PostsAt f h [] (Posts.new h) := ⟨Nat.le_refl _, [], rfl, rfl, rfl⟩

theorem PostsAt.next {f : Bytes} {h : Int} {ids : List Nat} {p p' : Posts} {d : UInt32} (hp : PostsAt f h ids p) (hn : p.next f = .ok (d, p')) :
    PostsAt f h (ids ++ [d.toNat]) p' := by
  obtain ⟨hi, dss, h1, h2, h3⟩ := hp
  have step : ∀ {q : Posts} {dss : List (List Nat)}, Pages f h dss q.nextpos → sums 0 dss.flatten = ids ++ (q.docids.drop q.i).map UInt32.toNat →
      q.current.toNat = sumTo 0 dss.flatten → (match q.docids[q.i]? with
        | none => panic'
        | some d => (return (d, { q with i := q.i + 1 }) : M (UInt32 × Posts))) = .ok (d, p') → PostsAt f h (ids ++ [d.toNat]) p' := by
    intro q dss h1 h2 h3 hq
    cases hd : q.docids[q.i]? with
    | none => rw [hd] at hq; cases hq
    | some e =>
      rw [hd] at hq
      injection hq with hq
      injection hq with hq1 hq2
      subst hq1 hq2
      have hlt := (List.getElem?_eq_some_iff.mp hd).1
      refine ⟨hlt, dss, h1, ?_, h3⟩
      rw [h2, List.drop_eq_getElem_cons hlt, (List.getElem?_eq_some_iff.mp hd).2]
      simp
  unfold Posts.next at hn
  by_cases hpi : p.i = p.docids.length
  · rw [if_pos hpi] at hn
    by_cases he : p.nextpos = -1
    · rw [if_pos he] at hn; cases hn
    · rw [if_neg he] at hn
      simp only [bind, Except.bind] at hn
      obtain ⟨r1, r2, r3⟩ := readNext_exact p f
      by_cases hw : WildAt f p.nextpos
      · rw [r2 hw] at hn; cases hn
      · by_cases hpg : ∃ es q, PageAt f p.nextpos es q
        · obtain ⟨es, q, hpg⟩ := hpg
          obtain ⟨p1, k1, k2, k3, k4, k5⟩ := r1 es q hpg
          rw [k1] at hn
          refine step (dss := dss ++ [es]) (q := p1) ?_ ?_ ?_ hn
          · exact Props.pages_append dss h1 ⟨he, q, hpg, k3⟩
          · rw [k2, List.drop_zero, List.flatten_append, sums_append, h2, hpi, k5, h3]
            simp
          · rw [k4, List.flatten_append, sumTo_append, h3]; simp
        · obtain ⟨e, k, _⟩ := r3 hw hpg
          rw [k] at hn; cases hn
  · rw [if_neg hpi] at hn
    simp only [bind, Except.bind, pure, Except.pure] at hn
    exact step h1 h2 h3 hn

theorem PostsAt.eof {f : Bytes} {h : Int} {ids : List Nat} {p : Posts} (hp : PostsAt f h ids p) (hn : p.next f = fail .eof) : Reaches f h ids (-1) := by
  obtain ⟨hi, dss, h1, h2, h3⟩ := hp
  unfold Posts.next at hn
  by_cases hpi : p.i = p.docids.length
  · rw [if_pos hpi] at hn
    by_cases he : p.nextpos = -1
    · rw [he] at h1
      refine ⟨dss, h1, ?_⟩
      rw [h2, hpi]; simp
    · rw [if_neg he] at hn
      exfalso
      simp only [bind, Except.bind] at hn
      obtain ⟨r1, r2, r3⟩ := readNext_exact p f
      by_cases hw : WildAt f p.nextpos
      · rw [r2 hw] at hn; cases hn
      · by_cases hpg : ∃ es q, PageAt f p.nextpos es q
        · obtain ⟨es, q, hpg⟩ := hpg
          obtain ⟨p1, k1, _⟩ := r1 es q hpg
          rw [k1] at hn
          simp only at hn
          cases hd : p1.docids[p1.i]? <;> (rw [hd] at hn; cases hn)
        · obtain ⟨e, k, ke⟩ := r3 hw hpg
          rw [k] at hn; injection hn with hn; injection hn with hn; exact ke hn
  · rw [if_neg hpi] at hn
    simp only [bind, Except.bind, pure, Except.pure] at hn
    cases hd : p.docids[p.i]? <;> (rw [hd] at hn; cases hn)

theorem PostsAt.turns {f : Bytes} {h : Int} {p p' : Posts} {is : List UInt32} (ht : Turns f p is p') : ∀ {ids : List Nat}, PostsAt f h ids p →
    PostsAt f h (ids ++ is.map UInt32.toNat) p' := by
  induction ht with
  | nil => intro ids h; simpa using h
  | cons h1 _ ih => intro ids h; have := ih (h.next h1); simpa using this

theorem PostsAt.begins {f : Bytes} {h : Int} {ids : List Nat} {p : Posts} (hp : PostsAt f h ids p) : BeginsWith f h ids := by
  obtain ⟨hi, dss, h1, h2, h3⟩ := hp
  exact ⟨_, _, ⟨dss, h1, rfl⟩, _, h2.symm⟩

namespace Query

/-- what the loop of fillBlot gives, if it gives something -/
theorem fillLoop_drawn (grow : Nat → Nat) (x : Index) (q : QState) (pos : UInt32) (lim : Bool) : ∀ (fuel : Nat) (src : ReadState) (b b' : Blot) (q' : QState),
    (lim = true → b.docs.isSome = true ∧ b.len ≤ b.cap) → fillLoop grow x q pos lim fuel src b = .ok (b', q') →
    ∃ is p' new, Turns src.file src.posts is p' ∧ b'.vis = b.vis ++ new ∧ Each (Shows x) is new ∧ b'.blot = b.blot ∧
      (lim = true → b'.docs.isSome = true ∧ b'.cap = b.cap ∧ b'.len ≤ b'.cap) ∧
      ((p'.next src.file = fail .eof ∧ advance x q src pos = .ok q') ∨
        (lim = true ∧ b'.len = b'.cap ∧ q' = { q with shardStates := q.shardStates.set pos.toNat (some { src with posts := p' }) })) := by
  intro fuel
  induction fuel with
  | zero => intro src b b' q' _ h; cases h
  | succ fuel ih =>
    intro src b b' q' hl h
    unfold fillLoop at h
    by_cases hc : (!lim || decide (b.len < b.cap)) = true
    · rw [if_pos hc] at h
      have hlt : lim = true → b.docs.isSome = true ∧ b.len < b.cap := by
        rintro rfl; exact ⟨(hl rfl).1, by simpa using hc⟩
      cases hn : src.next with
      | error e =>
        rw [hn] at h
        cases e with
        | err e =>
          cases e
          case eof =>
            simp only [bind, Except.bind] at h
            cases ha : advance x q src pos with
            | error e => rw [ha] at h; cases h
            | ok q1 =>
              rw [ha] at h
              injection h with h
              injection h with h1 h2
              subst h1 h2
              refine ⟨[], src.posts, [], .nil, by simp, trivial, rfl, fun e => ⟨(hl e).1, rfl, (hl e).2⟩, .inl ⟨?_, rfl⟩⟩
              simp only [ReadState.next, bind, Except.bind] at hn
              cases hp : src.posts.next src.file with
              | error e => rw [hp] at hn; injection hn with hn; rw [hn]
              | ok v => rw [hp] at hn; cases hn
          all_goals cases h
        | panic => cases h
        | diverge => cases h
      | ok v =>
        obtain ⟨id, src1⟩ := v
        rw [hn] at h
        simp only [ReadState.next, bind, Except.bind, pure, Except.pure] at hn
        cases hp : src.posts.next src.file with
        | error e => rw [hp] at hn; cases hn
        | ok v =>
          rw [hp] at hn
          injection hn with hn
          injection hn with hn1 hn2
          subst hn1 hn2
          simp only [bind, Except.bind] at h
          cases hd : x.docid2Doc v.1 with
          | error e =>
            obtain ⟨b1, g1, _⟩ := blot_step grow lim b ([], 0, 0) hlt
            rw [g1, hd] at h; cases h
          | ok r =>
            obtain ⟨b1, g1, g2, ⟨doc, g3, g4, g5, g6⟩, g7⟩ := blot_step grow lim b r hlt
            rw [g1, hd] at h
            simp only at h
            obtain ⟨is, p', new, k1, k2, k3, k4, k5, k6⟩ := ih _ _ _ _ (fun e => ⟨(g7 e).1, by have := (g7 e).2; have := (hlt e).2; omega⟩) h
            refine ⟨v.1 :: is, p', doc :: new, .cons hp k1, by rw [k2, g3]; simp, ⟨by rw [Shows, hd, g4, g5, g6], k3⟩, k4.trans g2,
              fun e => ⟨(k5 e).1, (k5 e).2.1.trans (g7 e).2.1, (k5 e).2.2⟩, ?_⟩
            rcases k6 with ⟨k6, k7⟩ | k6
            · exact .inl ⟨k6, by rw [← k7]; rfl⟩
            · exact .inr k6
    · rw [if_neg hc] at h
      injection h with h
      injection h with h1 h2
      subst h1 h2
      have hlim : lim = true := by cases lim with
        | true => rfl
        | false => exact absurd rfl hc
      subst hlim
      refine ⟨[], src.posts, [], .nil, by simp, trivial, rfl, fun e => ⟨(hl e).1, rfl, (hl e).2⟩, .inr ⟨rfl, ?_, rfl⟩⟩
      have := (hl rfl).2
      have : ¬ b.len < b.cap := by simpa using hc
      omega

/-- every shard has read some documents of one of its lists; none, if `whole` -/
structure Standing (x : Index) (whole : Prop) (q : QState) : Prop where
  qn : q.n = UInt32.ofNat x.shards.length
  len : q.shardStates.length = x.shards.length
  at_ : ∀ (j : Nat) xs rs, x.shards[j]? = some xs → q.shardStates[j]? = some (some rs) → rs.file = xs.file ∧
    ∃ h ids, xs.heads[rs.blot]? = some h ∧ PostsAt xs.file h ids rs.posts ∧ (whole → ids = [])

theorem readStateAt_head {s : ShardIndex} {a : Nat} {rs : ReadState} (h : s.readStateAt a = .ok rs) : rs.file = s.file ∧ ∃ h, s.heads[rs.blot]? = some h ∧ rs.posts = Posts.new h := by
  simp only [ShardIndex.readStateAt, ShardIndex.blotAt, bind, Except.bind] at h
  cases hp : s.perm[a]? with
  | none => rw [hp] at h; cases h
  | some b =>
    rw [hp] at h
    simp only [ShardIndex.readStateForBlotAt] at h
    cases h1 : s.heads[b]? with
    | none => rw [h1] at h; cases h
    | some hd =>
      cases h2 : s.counts[b]? with
      | none => rw [h1, h2] at h; cases h
      | some c =>
        rw [h1, h2] at h
        injection h with h
        subst h
        exact ⟨rfl, hd, h1, rfl⟩

theorem Standing.set {x : Index} {whole : Prop} {q : QState} (h : Standing x whole q) (j : Nat) (o : Option ReadState) {i : UInt32}
    (ho : ∀ xs rs, o = some rs → x.shards[j]? = some xs → rs.file = xs.file ∧ ∃ h ids, xs.heads[rs.blot]? = some h ∧ PostsAt xs.file h ids rs.posts ∧ (whole → ids = [])) :
    Standing x whole { q with shardStates := q.shardStates.set j o, i := i } := by
  refine ⟨h.qn, by simp [h.len], fun k xs rs h1 h2 => ?_⟩
  by_cases e : j = k
  · subst e
    have hlt : j < q.shardStates.length := by rw [h.len]; exact (List.getElem?_eq_some_iff.mp h1).1
    simp only [List.getElem?_set_self hlt] at h2
    injection h2 with h2
    exact ho xs rs h2 h1
  · simp only [List.getElem?_set_ne e] at h2
    exact h.at_ k xs rs h1 h2

theorem Standing.advance {x : Index} {whole : Prop} {q q' : QState} (h : Standing x whole q) {src : ReadState} {pos : UInt32} (ha : Query.advance x q src pos = .ok q') :
    Standing x whole q' := by
  simp only [Query.advance, bind, Except.bind, pure, Except.pure] at ha
  have fin : ∀ o : Option ReadState, (∀ xs rs, o = some rs → x.shards[pos.toNat]? = some xs → ∃ a, xs.readStateAt a = .ok rs) →
      (if pos.toNat < q.shardStates.length then .ok (QState.setMax { q with shardStates := q.shardStates.set pos.toNat o }) else panic') = Except.ok q' → Standing x whole q' := by
    intro o ho hq
    by_cases hl : pos.toNat < q.shardStates.length
    · rw [if_pos hl] at hq
      injection hq with hq
      subst hq
      refine h.set pos.toNat o (fun xs rs e hxs => ?_)
      obtain ⟨a, hr⟩ := ho xs rs e hxs
      obtain ⟨k1, hd, k2, k3⟩ := readStateAt_head hr
      exact ⟨k1, hd, [], k2, by rw [k3]; exact PostsAt.new _ _, fun _ => rfl⟩
    · rw [if_neg hl] at hq; cases hq
  by_cases e1 : src.at_ = 65535
  · rw [if_pos e1] at ha
    exact fin none (by simp) ha
  · rw [if_neg e1] at ha
    by_cases e2 : src.total ≤ 1
    · rw [if_pos e2] at ha
      exact fin none (by simp) ha
    · rw [if_neg e2] at ha
      cases hs : x.shards[pos.toNat]? with
      | none => rw [hs] at ha; cases ha
      | some sh =>
        rw [hs] at ha
        cases hr : sh.readStateAt (src.at_ + 1) with
        | error e => simp only [hr, Except.map] at ha; cases ha
        | ok rs =>
          simp only [hr, Except.map] at ha
          refine fin (some rs) (fun xs rs' e hxs => ?_) ha
          injection e with e; subst e
          rw [hs] at hxs; injection hxs with hxs; subst hxs
          exact ⟨_, hr⟩

/-- a blot with documents that follow each other in a list of the index; up to its end if the slice was nil; from its begin if `whole`; no more than there is room for -/
def DrawnBlot (x : Index) (whole : Prop) (m : Option Nat) (bl : Blot) : Prop :=
  ∃ j k xs h before is, x.shards[j]? = some xs ∧ xs.heads[k]? = some h ∧ bl.blot = UInt32.ofNat (k * x.shards.length + j) ∧ 2 ≤ is.length ∧
    BeginsWith xs.file h (before ++ is.map UInt32.toNat) ∧ Each (Shows x) is bl.vis ∧ (whole → before = []) ∧
    (m = none → Reaches xs.file h (before ++ is.map UInt32.toNat) (-1)) ∧ ∀ n, m = some n → is.length ≤ n ∧ (is.length = n ∨ Reaches xs.file h (before ++ is.map UInt32.toNat) (-1))

structure DrawnCall (x : Index) (whole : Prop) (R : Nat → Option Nat) (k : Nat) (dst : List Blot) (r : NextResult) : Prop where
  lo : k ≤ r.n
  hi : r.n ≤ dst.length
  len : r.dst.length = dst.length
  old : ∀ i, i < k → r.dst[i]? = dst[i]?
  new : ∀ i, k ≤ i → i < r.n → ∃ bl, r.dst[i]? = some bl ∧ DrawnBlot x whole (R i) bl
  eof : r.eof = true ↔ r.n = 0 ∧ dst ≠ []
  rest : Standing x whole r.state

theorem each_length {α β : Type} {R : α → β → Prop} : ∀ {as : List α} {bs : List β}, Each R as bs → as.length = bs.length
  | [], [], _ => rfl
  | [], _ :: _, h => h.elim
  | _ :: _, [], h => h.elim
  | _ :: _, _ :: _, h => by simp [each_length h.2]

theorem nextLoop_drawn {x : Index} (whole : Prop) (grow : Nat → Nat) (ff : Nat) (R : Nat → Option Nat) (hw : whole → ∀ i, R i = none) : ∀ (fuel : Nat) (q : QState) (k : Nat)
    (dst : List Blot) (r : NextResult), Standing x whole q → (∀ i b, k ≤ i → dst[i]? = some b → Room b (R i)) → k ≤ dst.length → nextLoop grow x ff fuel q k dst = .ok r →
    DrawnCall x whole R k dst r := by
  intro fuel
  induction fuel with
  | zero => intro q k dst r _ _ _ h; cases h
  | succ fuel ih =>
    intro q k dst r hq hR hk h
    unfold nextLoop at h
    cases hb : dst[k]? with
    | none =>
      rw [hb] at h
      injection h with h
      subst h
      have hle := List.getElem?_eq_none_iff.mp hb
      refine ⟨Nat.le_refl _, hk, rfl, fun _ _ => rfl, fun i h1 h2 => absurd h2 (by show ¬ i < k; omega), ?_, hq⟩
      simp only [Bool.false_eq_true, false_iff, not_and, ne_eq, Decidable.not_not]
      intro e; exact List.length_eq_zero_iff.mp (by omega)
    | some b =>
      rw [hb] at h
      have hlt := (List.getElem?_eq_some_iff.mp hb).1
      have hne : dst ≠ [] := by rintro rfl; simp at hb
      simp only at h
      cases hs : q.shardStates[q.i.toNat]? with
      | none => rw [hs] at h; cases h
      | some s =>
        rw [hs] at h
        cases s with
        | none =>
          simp only at h
          by_cases hc : q.nilCount + 1 = q.n
          · rw [if_pos hc] at h
            injection h with h
            subst h
            refine ⟨Nat.le_refl _, hk, rfl, fun _ _ => rfl, fun i h1 h2 => absurd h2 (by show ¬ i < k; omega), ?_, ⟨hq.qn, hq.len, hq.at_⟩⟩
            simp only [beq_iff_eq]
            exact ⟨fun h => ⟨h, hne⟩, And.left⟩
          · rw [if_neg hc] at h
            refine ih _ k dst r ?_ hR hk h
            exact ⟨hq.qn, hq.len, hq.at_⟩
        | some src =>
          simp only [bind, Except.bind] at h
          cases hf : fillBlot grow x ff q b src q.i with
          | error e => rw [hf] at h; cases h
          | ok v =>
            obtain ⟨b', q1⟩ := v
            rw [hf] at h
            simp only at h
            have hslt : q.i.toNat < x.shards.length := by rw [← hq.len]; exact (List.getElem?_eq_some_iff.mp hs).1
            have hxs := List.getElem?_eq_getElem hslt
            generalize x.shards[q.i.toNat] = xs at hxs
            obtain ⟨f1, hd, before, f2, f3, f4⟩ := hq.at_ _ xs src hxs hs
            have hRk := hR k b (Nat.le_refl _) hb
            have hvis : b.vis = [] := by
              rcases hRk with ⟨e, _⟩ | ⟨s, e, _⟩ <;> simp [Blot.vis, e]
            obtain ⟨is, p', new, k1, k2, k3, k4, k5, k6⟩ := fillLoop_drawn grow x q q.i b.docs.isSome ff src { b with blot := UInt32.ofNat src.blot * q.n + q.i } b' q1
              (fun e => ⟨e, by simp only [Blot.len, Blot.cap]; cases b.docs <;> simp⟩) hf
            rw [f1] at k1 k6
            have hp' := f3.turns k1
            have hvis' : b'.vis = new := by rw [k2]; show b.vis ++ new = new; rw [hvis]; rfl
            have hbl : b'.blot = UInt32.ofNat (src.blot * x.shards.length + q.i.toNat) := by
              rw [k4]
              apply UInt32.toNat_inj.mp
              rw [hq.qn]
              simp [UInt32.toNat_add, UInt32.toNat_mul]
            have hlen : b'.len = is.length := by
              have h1 : b'.len = b'.vis.length := by unfold Blot.len Blot.vis; cases b'.docs <;> rfl
              rw [h1, hvis', each_length k3]
            have hroom : Room (dropBlot b.docs.isSome b') (R k) := by
              rcases hRk with ⟨e, e'⟩ | ⟨s, e, e'⟩
              · exact .inl ⟨by rw [e]; exact dropBlot_nil _, e'⟩
              · right
                rw [e] at k5
                obtain ⟨j1, j2, j3⟩ := k5 rfl
                obtain ⟨bl, ds⟩ := b'
                cases ds with
                | none => cases j1
                | some ds =>
                  obtain ⟨v, sp⟩ := ds
                  refine ⟨v ++ sp, by rw [e]; rfl, ?_⟩
                  rw [e']
                  have : v.length + sp.length = s.length := by simpa [Blot.cap, e] using j2
                  simp [this]
            have hst : Standing x whole q1 := by
              rcases k6 with ⟨_, k6⟩ | ⟨k6, _, k7⟩
              · exact hq.advance k6
              · subst k7
                refine hq.set q.i.toNat _ (i := q.i) (fun xs' rs e hxs' => ?_)
                rw [hxs] at hxs'; injection hxs' with hxs'; subst hxs'
                injection e with e; subst e
                refine ⟨rfl, hd, _, f2, hp', fun w => ?_⟩
                rcases hRk with ⟨e, _⟩ | ⟨s, _, e⟩
                · rw [e] at k6; cases k6
                · rw [hw w k] at e; cases e
            by_cases h2 : b'.len ≤ 1
            · rw [if_pos h2] at h
              cases ha : Query.advance x q1 src q1.i with
              | error e => rw [ha] at h; cases h
              | ok q2 =>
                rw [ha] at h
                have := ih q2 k (dst.set k (dropBlot b.docs.isSome b')) r (hst.advance ha) (by
                  intro i c hi hc
                  by_cases e : k = i
                  · subst e
                    rw [List.getElem?_set_self hlt] at hc
                    injection hc with hc
                    rw [← hc]; exact hroom
                  · rw [List.getElem?_set_ne e] at hc
                    exact hR i c hi hc) (by simpa using hk) h
                refine ⟨this.lo, by simpa using this.hi, by simpa using this.len, ?_, this.new, ?_, this.rest⟩
                · intro i hi; rw [this.old i hi, List.getElem?_set_ne (by omega)]
                · rw [this.eof]; simp only [ne_eq, List.set_eq_nil_iff]
            · rw [if_neg h2] at h
              have := ih q1 (k + 1) (dst.set k b') r hst (by
                intro i c hi hc
                rw [List.getElem?_set_ne (by omega)] at hc
                exact hR i c (by omega) hc) (by rw [List.length_set]; exact hlt) h
              have hlo := this.lo
              refine ⟨by omega, by simpa using this.hi, by simpa using this.len, ?_, ?_, ?_, this.rest⟩
              · intro i hi; rw [this.old i (by omega), List.getElem?_set_ne (by omega)]
              · intro i h1 h3
                by_cases e : i = k
                · subst e
                  refine ⟨b', by rw [this.old i (Nat.lt_succ_self i), List.getElem?_set_self hlt], q.i.toNat, src.blot, xs, hd, before, is, hxs, f2, hbl, by omega, hp'.begins,
                    by rw [hvis']; exact k3, f4, fun hm => ?_, fun n hm => ?_⟩
                  · rcases k6 with ⟨k6, _⟩ | ⟨k6, _, _⟩
                    · exact hp'.eof k6
                    · rcases hRk with ⟨e, _⟩ | ⟨s, _, e⟩
                      · rw [e] at k6; cases k6
                      · rw [hm] at e; cases e
                  · rcases hRk with ⟨_, e⟩ | ⟨s, e, e'⟩
                    · rw [hm] at e; cases e
                    · rw [hm] at e'; injection e' with e'
                      rw [e] at k5
                      obtain ⟨j1, j2, j3⟩ := k5 rfl
                      have hcap : b'.cap = n := by rw [j2, e']; simp [Blot.cap]
                      refine ⟨by omega, ?_⟩
                      rcases k6 with ⟨k6, _⟩ | ⟨_, k7, _⟩
                      · exact .inr (hp'.eof k6)
                      · exact .inl (by omega)
                · exact this.new i (by omega) h3
              · rw [this.eof]; simp only [ne_eq, List.set_eq_nil_iff]

end Query
end Dupi
