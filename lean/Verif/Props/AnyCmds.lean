import Verif.Props.AnyDrawn
import Verif.Props.Unblot
import Verif.Props.Extract
import Verif.Props.Commands
import Verif.Spec.AnyCmds
/-! # C121: the commands on any directory that opens -/

namespace Dupi.Props
open Spec

/-! ## unblot -/

theorem load_part {fs : Files} {doc : Doc} (hd : doc.dat = none) :
    (partOf fs doc.path doc.start.toNat doc.stop.toNat = none → ∃ e, doc.ensure fs = fail e) ∧
    ∀ dat, partOf fs doc.path doc.start.toNat doc.stop.toNat = some dat →
      doc.ensure fs = .ok ⟨doc.path, doc.start, if doc.start = 0 ∧ doc.stop = 0 then UInt32.ofNat dat.length else doc.stop, some dat⟩ := by
  obtain ⟨p, a, b, dt⟩ := doc
  simp only at hd; subst hd
  have hz : (a.toNat = 0 ∧ b.toNat = 0) ↔ (a = 0 ∧ b = 0) := by
    rw [← UInt32.toNat_inj, ← UInt32.toNat_inj]; rfl
  have hn : (b - a).toNat = (b.toNat + 2 ^ 32 - a.toNat) % 2 ^ 32 := by
    have := a.toNat_lt; have := b.toNat_lt
    rw [UInt32.toNat_sub]; omega
  simp only [partOf, Doc.ensure, Doc.load]
  cases hf : fs p with
  | none => simp [fail]
  | some f =>
    simp only [Option.bind_some]
    by_cases h0 : a = 0 ∧ b = 0
    · rw [if_pos (hz.mpr h0), if_pos h0]
      simp [h0]
    · rw [if_neg (fun e => h0 (hz.mp e)), if_neg h0]
      have hneg : ¬ ((a.toNat : Int) < 0) := by omega
      simp only [readAt, hn, if_neg hneg, Int.toNat_natCast]
      generalize (b.toNat + 2 ^ 32 - a.toNat) % 2 ^ 32 = n
      by_cases h1 : n = 0
      · simp [h0, h1]
      · by_cases h2 : a.toNat + n ≤ f.length
        · simp [h0, h1, h2]
        · simp [h0, h1, h2, fail]

theorem part_small {fs : Files} (hfs : ∀ p f, fs p = some f → f.length < 2 ^ 32) {p : Bytes} {a b : Nat} {dat : Bytes} (h : partOf fs p a b = some dat) : dat.length < 2 ^ 32 := by
  unfold partOf at h
  cases hf : fs p with
  | none => rw [hf] at h; cases h
  | some f =>
    have hl := hfs p f hf
    rw [hf, Option.bind_some] at h
    by_cases h0 : a = 0 ∧ b = 0
    · rw [if_pos h0] at h; injection h with h; subst h; exact hl
    · rw [if_neg h0] at h
      by_cases h1 : (b + 2 ^ 32 - a) % 2 ^ 32 = 0 ∨ a + (b + 2 ^ 32 - a) % 2 ^ 32 ≤ f.length
      · rw [if_pos h1] at h; injection h with h; subst h
        simp only [List.length_take, List.length_drop]; omega
      · rw [if_neg h1] at h; cases h

theorem groups_pairs (ss : List (Bytes × Doc)) : ∀ m : Cmd.Groups, (m.map Prod.fst).Nodup →
    let r := ss.foldl (fun m s => m.add s.1 s.2) m
    (r.map Prod.fst).Nodup ∧ ∀ t, r.lookup t = if ss.filter (fun s => s.1 = t) = [] then m.lookup t
      else some ((m.lookup t).getD [] ++ (ss.filter fun s => s.1 = t).map Prod.snd) := by
  induction ss with
  | nil => intro m h; exact ⟨h, fun t => by simp⟩
  | cons s ss ih =>
    intro m h
    obtain ⟨i1, i2⟩ := ih (m.add s.1 s.2) (groups_keys m _ _ h).1
    refine ⟨i1, fun t => ?_⟩
    rw [List.foldl_cons, i2 t, groups_lookup]
    by_cases hk : s.1 = t
    · subst hk
      rw [if_pos rfl, List.filter_cons_of_pos (by simp), if_neg (List.cons_ne_nil _ _)]
      by_cases he : ss.filter (fun x => x.1 = s.1) = []
      · rw [if_pos he, he]; rfl
      · rw [if_neg he]; simp
    · have hk' : ¬ t = s.1 := fun e => hk e.symm
      simp only [if_neg hk']
      rw [List.filter_cons_of_neg (by simpa using hk)]

theorem unblotLoop_any (u : Uni) {fs : Files} (hfs : ∀ p f, fs p = some f → f.length < 2 ^ 32) {c : Config} (hF : Findable c) (b : UInt32) (docs : List Doc) (hd : ∀ doc ∈ docs, doc.dat = none) :
    ∀ (m : Cmd.Groups) (w : Nat), Cmd.unblotLoop u fs c b docs m w =
      .ok ((docs.filterMap (shownUnder u c fs b.toNat)).foldl (fun m s => m.add s.1 s.2) m, w + (docs.filter fun doc => shownUnder u c fs b.toNat doc = none).length) := by
  induction docs with
  | nil => intro m w; rfl
  | cons doc docs ih =>
    intro m w
    have ih := ih (fun d h => hd d (by simp [h]))
    obtain ⟨l1, l2⟩ := load_part (fs := fs) (hd doc (by simp))
    cases hp : partOf fs doc.path doc.start.toNat doc.stop.toNat with
    | none =>
      have hs : shownUnder u c fs b.toNat doc = none := by simp [shownUnder, hp]
      obtain ⟨e, he⟩ := l1 hp
      have : Index.findBlot u fs c b doc = fail e := by simp only [Index.findBlot, he, bind, Except.bind, fail]
      rw [Cmd.unblotLoop, this, List.filterMap_cons_none hs, List.filter_cons_of_pos (by simp [hs])]
      change Cmd.unblotLoop u fs c b docs m (w + 1) = _
      rw [ih, List.length_cons, Nat.add_right_comm, Nat.add_assoc]
    | some dat =>
      have he := l2 dat hp
      generalize hdd : (⟨doc.path, doc.start, if doc.start = 0 ∧ doc.stop = 0 then UInt32.ofNat dat.length else doc.stop, some dat⟩ : Doc) = d at he
      have hdat : d.dat = some dat := by rw [← hdd]
      have hfb : Index.findBlot u fs c b doc = Index.findBlot u fs c b d := by
        have h2 : d.ensure fs = .ok d := by simp [Doc.ensure, hdat]
        simp only [Index.findBlot, he, h2, bind, Except.bind]
      have hfind := C27_find u fs hF b d dat hdat
      cases hi : (blotsOf u c dat).findIdx? (fun x => x.toNat % numBuckets c = b.toNat) with
      | none =>
        rw [hi] at hfind
        have hs : shownUnder u c fs b.toNat doc = none := by rw [shownUnder, hp, Option.bind_some, textUnder, hi]; rfl
        rw [Cmd.unblotLoop, hfb, hfind, List.filterMap_cons_none hs, List.filter_cons_of_pos (by simp [hs])]
        change Cmd.unblotLoop u fs c b docs m (w + 1) = _
        rw [ih, List.length_cons, Nat.add_right_comm, Nat.add_assoc]
      | some i =>
        rw [hi] at hfind
        obtain ⟨r, hr1, hr2⟩ := hfind
        have hlen := part_small hfs hp
        obtain ⟨_, _, _, _, _, hle, hle'⟩ := (passage_some hF.cons dat i).2 r hr1
        have hsub : ∀ n, n ≤ dat.length → (d.start + UInt32.ofNat n - d.start).toNat = n := by
          intro n hn
          rw [UInt32.add_comm, UInt32.add_sub_cancel, toNat_ofNat_lt (by omega)]
        have hsl : slice dat (d.start + UInt32.ofNat r.1 - d.start).toNat (d.start + UInt32.ofNat r.2 - d.start).toNat = .ok (textAt dat r) := by
          rw [hsub _ (by omega), hsub _ hle', slice, if_pos ⟨hle, hle'⟩]; rfl
        have hs : shownUnder u c fs b.toNat doc = some (textAt dat r, { d with dat := none }) := by
          simp only [shownUnder, hp, textUnder, hi, Option.bind_some, hr1, Option.map_some, ← hdd]
        rw [Cmd.unblotLoop, hfb, hr2, List.filterMap_cons_some hs, List.filter_cons_of_neg (by simp [hs])]
        simp only [hdat, Option.getD_some, hsl, bind, Except.bind]
        rw [ih]; rfl

theorem blotNext_dat {grow : Nat → Nat} {b b' : Blot} (h : b.next grow false = .ok b') (hb : ∀ doc ∈ b.vis, doc.dat = none) : ∀ doc ∈ b'.vis, doc.dat = none := by
  obtain ⟨bb, ds⟩ := b
  match ds, h, hb with
  | none, h, hb =>
    simp only [Blot.next, Except.ok.injEq] at h; subst h
    intro doc hd; simp [Blot.vis] at hd; subst hd; rfl
  | some ⟨v, []⟩, h, hb =>
    simp only [Blot.next, Except.ok.injEq] at h; subst h
    intro doc hd; simp [Blot.vis] at hd
    rcases hd with hd | rfl
    · exact hb doc hd
    · rfl
  | some ⟨v, _ :: _⟩, h, hb =>
    simp only [Blot.next, Except.ok.injEq] at h; subst h
    intro doc hd; simp [Blot.vis] at hd
    rcases hd with hd | rfl
    · exact hb doc hd
    · rfl

theorem setLast_dat {b : Blot} (r : Bytes × UInt32 × UInt32) (hb : ∀ doc ∈ b.vis, doc.dat = none) : ∀ doc ∈ (b.setLast r).vis, doc.dat = none := by
  obtain ⟨bb, ds⟩ := b
  match ds, hb with
  | none, hb => exact hb
  | some ⟨v, s⟩, hb =>
    simp only [Blot.setLast]
    cases hl : v.getLast? with
    | none => exact hb
    | some d =>
      intro doc hd
      simp only [Blot.vis, List.mem_append, List.mem_singleton] at hd
      rcases hd with hd | rfl
      · exact hb doc (List.mem_of_mem_dropLast hd)
      · exact hb d (List.mem_of_getLast? hl)

/-- `Get` without a limit returns documents without data -/
theorem getLoop_dat (grow : Nat → Nat) (x : Index) : ∀ (fuel : Nat) (rs : ReadState) (b r : Blot), Query.getLoop grow x false fuel rs b = .ok r →
    (∀ doc ∈ b.vis, doc.dat = none) → ∀ doc ∈ r.vis, doc.dat = none := by
  intro fuel
  induction fuel with
  | zero => intro rs b r h; cases h
  | succ fuel ih =>
    intro rs b r h hb
    simp only [Query.getLoop, Bool.false_and, Bool.false_eq_true, if_false] at h
    cases hn : rs.next with
    | error e =>
      rw [hn] at h
      match e, h with
      | .err .eof, h => injection h with h; subst h; exact hb
    | ok v =>
      rw [hn] at h
      simp only [bind, Except.bind] at h
      cases hbn : b.next grow false with
      | error e => rw [hbn] at h; cases h
      | ok b' =>
        rw [hbn] at h
        simp only at h
        cases hdoc : x.docid2Doc v.1 with
        | error e => rw [hdoc] at h; cases e <;> cases h
        | ok p =>
          rw [hdoc] at h
          exact ih _ _ _ h (setLast_dat _ (blotNext_dat hbn hb))

theorem get_dat {grow : Nat → Nat} {x : Index} {fuel : Nat} {q : QState} {hex : UInt32} {r : Blot} (h : Query.get grow x fuel q ⟨hex, none⟩ = .ok r) : ∀ doc ∈ r.vis, doc.dat = none := by
  unfold Query.get at h
  by_cases h0 : q.n = 0
  · rw [if_pos h0] at h; cases h
  · rw [if_neg h0] at h
    cases hs : x.shards[(hex % q.n).toNat]? with
    | none => simp only [hs] at h; cases h
    | some sh =>
      simp only [hs, bind, Except.bind] at h
      cases hr : sh.readStateFor (hex / q.n).toUInt16.toNat with
      | error e => rw [hr] at h; cases h
      | ok rs =>
        rw [hr] at h
        exact getLoop_dat grow x fuel rs _ r h (fun doc hd => by simp [Blot.vis] at hd)

/-- **C121**, unblot.  In any directory that opens, whatever the bytes of its files, and with any files (below 4 GiB) where the documents should be: what becomes of `unblot`
of a number is what becomes of the list it names (C114).  If the list ends, after documents that all have records and paths, then these documents are all accounted for: each
is in the group of the text of its first passage with the number as blot, in the order of the list; and there is a warning for each whose file is missing, or too short, or
has no such passage. -/
theorem C121_unblot {srt : Sorter} (hsrt : IsSorter srt) {d : Dir} {x : Index} (hx : Index.open Json.codec srt d = .ok x) (hF : Findable x.config) :
    ∃ q dmd f ns, x.startQuery = .ok q ∧ d .dmd = some dmd ∧ d .fnm = some f ∧ TableFile f ns ∧
      ∀ u fs grow all (b : UInt32), (∀ p f, fs p = some f → f.length < 2 ^ 32) →
        ∃ post h, ListAt d (b.toNat % x.config.numShards.toNat) (b.toNat / x.config.numShards.toNat % 65536) post h ∧
        (∃ F, GetFate dmd ns post h none F) ∧
        (∀ ids, GetFate dmd ns post h none (.result ids) → ∀ fuel, ids.length < fuel →
          ∃ (docs : List Doc) (m : Cmd.Groups) (w : Nat), Each (fun id (doc : Doc) => DocAs dmd ns id doc.path doc.start.toNat doc.stop.toNat) ids docs ∧
            Cmd.unblot u fs grow x fuel q all b = .ok (m.filter (fun g => all || 2 ≤ g.2.length), w) ∧ (m.map Prod.fst).Nodup ∧
            (∀ t, m.lookup t = match (docs.filterMap (shownUnder u x.config fs b.toNat)).filter (fun s => s.1 = t) with
              | [] => none
              | ss => some (ss.map Prod.snd)) ∧
            w = (docs.filter fun doc => shownUnder u x.config fs b.toNat doc = none).length) ∧
        (GetFate dmd ns post h none .error → ∃ K, ∀ fuel, K < fuel → Errs (Cmd.unblot u fs grow x fuel q all b)) ∧
        (GetFate dmd ns post h none .panic → ∃ K, ∀ fuel, K < fuel → Cmd.unblot u fs grow x fuel q all b = .error .panic) ∧
        (GetFate dmd ns post h none .endless → ∀ fuel, Cmd.unblot u fs grow x fuel q all b = .error .diverge) := by
  have hn := hF.shards
  have hn' := hF.shardsSmall
  obtain ⟨q, dmd, f, ns, k1, k2, k3, k4, k5⟩ := C114_get hsrt hx hn (by omega)
  refine ⟨q, dmd, f, ns, k1, k2, k3, k4, fun u fs grow all b hfs => ?_⟩
  obtain ⟨o1, o2, o3⟩ := opened hx
  have hlt : b.toNat % x.config.numShards.toNat < x.shards.length := by rw [o2]; exact Nat.mod_lt _ (by omega)
  have hr := o3 _ _ (List.getElem?_eq_getElem hlt)
  have hl := hr.list (b.toNat / x.config.numShards.toNat % 65536) _ (List.getElem?_eq_getElem (by rw [hr.heads]; exact Nat.mod_lt _ (by decide)))
  obtain ⟨g0, g1, g2, g3, g4⟩ := k5 grow ⟨b, none⟩ _ _ hl
  refine ⟨_, _, hl, g0, fun ids hids fuel hfu => ?_, fun h => ?_, fun h => ?_, fun h fuel => ?_⟩
  · obtain ⟨r, new, e1, e2, e3, e4⟩ := g1 ids hids fuel hfu
    have hv : r.vis = new := by rw [e3]; rfl
    have hdat := get_dat e1
    rw [hv] at hdat
    have hloop := unblotLoop_any u hfs hF b new hdat [] 0
    obtain ⟨p1, p2⟩ := groups_pairs (new.filterMap (shownUnder u x.config fs b.toNat)) [] List.nodup_nil
    refine ⟨new, _, _, e4, ?_, p1, fun t => ?_, rfl⟩
    · simp only [Cmd.unblot, e1, bind, Except.bind, hv, hloop, pure, Except.pure, Nat.zero_add]
    · rw [p2 t]
      cases hc : (new.filterMap (shownUnder u x.config fs b.toNat)).filter (fun s => s.1 = t) with
      | nil => rfl
      | cons a as => simp
  · obtain ⟨K, hK⟩ := g2 h
    refine ⟨K, fun fuel hfu => ?_⟩
    obtain ⟨e, he⟩ := hK fuel hfu
    exact ⟨e, by simp only [Cmd.unblot, he, bind, Except.bind]⟩
  · obtain ⟨K, hK⟩ := g3 h
    refine ⟨K, fun fuel hfu => ?_⟩
    simp only [Cmd.unblot, hK fuel hfu, bind, Except.bind]
  · simp only [Cmd.unblot, g4 h fuel, bind, Except.bind]

/-! ## extract -/

theorem extract_calls {json : Bool} {grow : Nat → Nat} {x : Index} {ff fuel : Nat} {N : Int} : ∀ (k : Nat) (q : QState) (b : Blot) (bs : List Blot), b.docs = none →
    Cmd.extractLoop json grow x ff fuel N k q b = .ok bs →
    ∃ dsts rs, (∀ dst ∈ dsts, ∃ b : Blot, dst = [b] ∧ b.docs = none) ∧ nextCalls grow x ff fuel q dsts = .ok rs ∧
      ∀ bl ∈ bs, N ≤ (bl.len : Int) ∧ ∃ r ∈ rs, r.n ≠ 0 ∧ r.dst[0]? = some bl := by
  intro k
  induction k with
  | zero => intro q b bs _ h; cases h
  | succ k ih =>
    intro q b bs hb h
    simp only [Cmd.extractLoop, bind, Except.bind] at h
    cases hr : Query.next grow x ff fuel q [b] with
    | error e => rw [hr] at h; cases h
    | ok r =>
      rw [hr] at h
      simp only at h
      by_cases he : r.eof = true
      · rw [if_pos he] at h
        by_cases h0 : r.n ≠ 0
        · rw [if_pos h0] at h; cases h
        · rw [if_neg h0] at h; injection h with h; subst h
          exact ⟨[], [], by simp, rfl, by simp⟩
      · rw [if_neg he] at h
        by_cases h0 : r.n = 0
        · rw [if_pos h0] at h; cases h
        · rw [if_neg h0] at h
          cases hd : r.dst[0]? with
          | none => rw [hd] at h; cases h
          | some bl =>
            rw [hd] at h
            simp only at h
            by_cases hN : (bl.len : Int) < N
            · rw [if_pos hN] at h; injection h with h; subst h
              exact ⟨[], [], by simp, rfl, by simp⟩
            · rw [if_neg hN] at h
              cases hrest : Cmd.extractLoop json grow x ff fuel N k r.state { bl with docs := none } with
              | error e => rw [hrest] at h; cases h
              | ok rest =>
                rw [hrest] at h
                simp only [pure, Except.pure, Except.ok.injEq] at h
                obtain ⟨dsts, rs, i1, i2, i3⟩ := ih r.state _ rest rfl hrest
                refine ⟨[b] :: dsts, r :: rs, ?_, ?_, ?_⟩
                · intro dst hdst
                  rcases List.mem_cons.mp hdst with rfl | hdst
                  · exact ⟨b, rfl, hb⟩
                  · exact i1 dst hdst
                · simp only [nextCalls, hr, i2, bind, Except.bind, pure, Except.pure]
                · intro bl' hbl'
                  have : bl' = bl ∨ bl' ∈ rest := by
                    rw [← h] at hbl'
                    by_cases hc : bl.len ≤ 1 ∧ json = false
                    · rw [if_pos hc] at hbl'; exact .inr hbl'
                    · rw [if_neg hc] at hbl'; exact List.mem_cons.mp hbl'
                  rcases this with rfl | hm
                  · exact ⟨by omega, r, by simp, h0, hd⟩
                  · obtain ⟨j1, r', j2, j3⟩ := i3 bl' hm
                    exact ⟨j1, r', by simp [j2], j3⟩

theorem each_len {α β : Type} {R : α → β → Prop} : ∀ {as : List α} {bs : List β}, Each R as bs → as.length = bs.length
  | [], [], _ => rfl
  | [], _ :: _, h => h.elim
  | _ :: _, [], h => h.elim
  | _ :: _, _ :: _, h => by rw [List.length_cons, List.length_cons, each_len h.2]

/-- **C121**, extract.  In any directory that opens, whatever the bytes of its files: what `extract` prints, if it ends without an error, are whole lists as they stand in the
files, each with at least two documents and at least as many as the threshold, with the paths, starts and ends of their records. -/
theorem C121_extract {srt : Sorter} (hsrt : IsSorter srt) {d : Dir} {x : Index} (hx : Index.open Json.codec srt d = .ok x) (hn : 0 < x.config.numShards)
    (hn' : x.config.numShards < 2 ^ 32) :
    ∃ dmd f ns, d .dmd = some dmd ∧ d .fnm = some f ∧ TableFile f ns ∧
      ∀ json grow ff fuel k N bs, Cmd.extract json grow x ff fuel k N = .ok bs → ∀ bl ∈ bs,
        ∃ i j ids, i < x.config.numShards.toNat ∧ j < 65536 ∧ bl.blot = UInt32.ofNat (j * x.config.numShards.toNat + i) ∧ Stretch d i j [] ids True ∧
          Each (fun id (doc : Doc) => DocAs dmd ns id doc.path doc.start.toNat doc.stop.toNat) ids bl.vis ∧ N ≤ ids.length := by
  obtain ⟨q, dmd, f, ns, k1, k2, k3, k4, k5⟩ := C120_drawn hsrt hx hn hn'
  refine ⟨dmd, f, ns, k2, k3, k4, fun json grow ff fuel k N bs h bl hbl => ?_⟩
  simp only [Cmd.extract, k1, bind, Except.bind] at h
  obtain ⟨dsts, rs, c1, c2, c3⟩ := extract_calls k q _ bs rfl h
  obtain ⟨hN, r, hr, h0, hd⟩ := c3 bl hbl
  have hall := k5 grow ff fuel dsts rs (fun dst hdst => by
    obtain ⟨b, rfl, hb⟩ := c1 dst hdst
    intro b' hb'
    simp at hb'; subst hb'; exact .inl hb) c2
  obtain ⟨m, hm⟩ := List.mem_iff_getElem?.mp hr
  have hlt := (List.getElem?_eq_some_iff.mp hm).1
  have hlt' : m < dsts.length := by rw [hall.length_eq]; exact hlt
  have hh := List.Forall₂.get hall hlt' hlt
  have e := (List.getElem?_eq_some_iff.mp hm).2
  obtain ⟨b, hb, hbn⟩ := c1 dsts[m] (List.getElem_mem hlt')
  simp only [List.get_eq_getElem, e, hb] at hh
  obtain ⟨i, j, before, ids, g1, g2, g3, g4, g5, _, g7⟩ := hh.blot 0 b bl (by omega) rfl hd
  have hbefore : before = [] := g7 (fun dst hdst b hb => by
    obtain ⟨b', rfl, hb'⟩ := c1 dst hdst
    simp at hb; subst hb; exact hb')
  subst hbefore
  obtain ⟨t1, post, hd', t2, t3, t4⟩ := g4
  have hlen : bl.len = bl.vis.length := by
    unfold Blot.len Blot.vis; cases bl.docs <;> rfl
  exact ⟨i, j, ids, g1, g2, g3, ⟨t1, post, hd', t2, t3, fun _ => t4 (.inl hbn)⟩, g5, by rw [each_len g5, ← hlen]; exact hN⟩

/-! ## inspect -/

/-- **C121**, inspect.  In any directory that opens the numbers are those of the files: the documents are the whole records of the document file (also the first, of no document),
the paths are the nodes of the table, the postings are the sum of the counts in the files of heads, the blots are the buckets. -/
theorem C121_inspect {srt : Sorter} {d : Dir} {x : Index} (hx : Index.open Json.codec srt d = .ok x) :
    ∃ (dmd f : Bytes) (ns : List (Bytes × Nat)) (C : Nat → Nat → Nat), d .dmd = some dmd ∧ d .fnm = some f ∧ TableFile f ns ∧ (∀ i j, i < x.config.numShards.toNat → j < 65536 → CountAt d i j (C i j)) ∧
      x.stats = ⟨dmd.length / 12, ns.length, ((List.range x.config.numShards.toNat).map fun i => ((List.range 65536).map (C i)).sum).sum, 65536 * x.config.numShards.toNat⟩ := by
  obtain ⟨i1, i2, ⟨f, i3, i3'⟩, i4⟩ := openIndex_inv hx
  have ht := ((Fnames.read_exact f).1 _).mp ⟨_, i3', rfl⟩
  obtain ⟨o1, o2, o3⟩ := opened hx
  refine ⟨x.dmd, f, _, fun i j => (((x.shards[i]?).bind (·.counts[j]?)).map UInt32.toNat).getD 0, i2, i3, ht, fun i j hi hj => ?_, ?_⟩
  · have hi' : i < x.shards.length := by omega
    have hs := List.getElem?_eq_getElem hi'
    refine (opened_counts hx i _ hs j _).mpr ?_
    have hj' : j < (x.shards[i]).counts.length := by rw [(o3 i _ hs).counts]; exact hj
    simp only [hs, Option.bind_some, List.getElem?_eq_getElem hj', Option.map_some, Option.getD_some]
  · simp only [Index.stats, Dmd.numDocs, List.length_map, o2, Index.Stats.mk.injEq]
    refine ⟨trivial, trivial, ?_, trivial⟩
    congr 1
    apply List.ext_getElem
    · simp [o2]
    · intro i h1 h2
      have hi : i < x.shards.length := by simpa using h1
      have hs := List.getElem?_eq_getElem hi
      have hc := (o3 i _ hs).counts
      simp only [List.getElem_map, List.getElem_range, ShardIndex.numPosts, hs, Option.bind_some]
      refine congrArg List.sum ?_
      apply List.ext_getElem
      · simp only [List.length_map, List.length_range]; exact hc
      · intro j g1 g2
        have hj : j < (x.shards[i]).counts.length := by simpa using g1
        simp only [List.getElem_map, List.getElem_range, List.getElem?_eq_getElem hj, Option.map_some, Option.getD_some]

/-! ## Non-vacuity -/

/-- an index of two documents: extract and unblot print something, and both documents are shown under a text of five words -/
theorem C121_nonvacuous : ∃ (d : Dir) (x : Index) (q : QState) (ff fuel : Nat), Index.open Json.codec mergeSorter d = .ok x ∧ Findable x.config ∧ x.startQuery = .ok q ∧
    (∃ out, Cmd.extract false (fun _ => 0) x ff fuel fuel 2 = .ok out ∧ out ≠ []) ∧
    (∃ m, Cmd.unblot asciiUni exCmdFiles (fun _ => 0) x fuel q true 1 = .ok (m, 0) ∧ m ≠ []) ∧
    ∀ doc ∈ (documents exCmdSessions).map Document.shown, shownUnder asciiUni exCmdConfig exCmdFiles 1 doc ≠ none := by
  obtain ⟨d, hd⟩ := History.exists (u := asciiUni) exCmd_usable [47] [⟨[116, 47, 112], 0, 22, some exText1⟩, ⟨[116, 47, 113], 0, 24, some exText2⟩] [] exCmd_fits
  change History asciiUni Json.codec exCmdConfig exCmdSessions d at hd
  obtain ⟨x, q, hx, hr⟩ := reading_exists exCmd_usable mergeSorter_isSorter hd exCmd_fits
  have hc : x.config = exCmdConfig := by
    obtain ⟨i1, _⟩ := openIndex_inv hx
    rw [(C97_sessions exCmd_usable hd exCmd_fits).1] at i1
    injection i1 with i1
    exact i1.symm
  have hlen : (documents exCmdSessions).length = 2 := by rw [exCmd_docs]; rfl
  have hfound : (found asciiUni exCmdConfig (documents exCmdSessions) 1).length = 2 := by rw [exCmd_docs]; decide +kernel
  refine ⟨d, x, q, 2 ^ 32, 2 ^ 32 + 2 ^ 32 + 2 ^ 32 + 1, hx, by rw [hc]; exact ⟨exCmd_usable.cons, by decide, by decide⟩, hr.start, ?_, ?_, ?_⟩
  · obtain ⟨out, k1, _, k3, _⟩ := C39_extract exCmd_usable mergeSorter_isSorter hr exCmd_fits false (fun _ => 0) (2 ^ 32) (2 ^ 32 + 2 ^ 32 + 2 ^ 32 + 1)
      (2 ^ 32 + 2 ^ 32 + 2 ^ 32 + 1) (Nat.le_refl _) (by omega) (by omega) 2
    refine ⟨out, k1, fun e => ?_⟩
    have := (k3 1).mpr ⟨by decide +kernel, by change 2 ≤ (found asciiUni exCmdConfig (documents exCmdSessions) 1).length; omega,
      by change (2 : Int) ≤ ((found asciiUni exCmdConfig (documents exCmdSessions) 1).length : Int); omega⟩
    rw [e] at this; cases this
  · obtain ⟨m, k1, _, k3⟩ := C40_unblot exCmd_usable mergeSorter_isSorter hr exCmd_fits (by decide) exCmdFiles exCmd_unchanged (fun _ => 0) 1 (by decide +kernel) true
      (2 ^ 32 + 2 ^ 32 + 2 ^ 32 + 1) (by omega)
    refine ⟨m, by simpa using k1, fun e => ?_⟩
    obtain ⟨s, hs⟩ : ∃ s, s ∈ found asciiUni exCmdConfig (documents exCmdSessions) 1 := List.exists_mem_of_length_pos (by omega)
    have h := k3 (firstText asciiUni exCmdConfig 1 s.dat)
    rw [if_neg (fun e => by
      have : s ∈ (found asciiUni exCmdConfig (documents exCmdSessions) (1 : UInt32).toNat).filter (fun s' => firstText asciiUni exCmdConfig 1 s'.dat = firstText asciiUni exCmdConfig 1 s.dat) :=
        List.mem_filter.mpr ⟨hs, by simp⟩
      rw [e] at this; cases this), e] at h
    cases h
  · rw [exCmd_docs]; decide +kernel

end Dupi.Props
