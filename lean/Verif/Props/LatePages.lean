import Verif.Proof.LatePages
import Verif.Props.AnySession
/-! # C118: posting files that differ in later pages of a list -/

namespace Dupi.Props
open Spec

/-- **C118**: a list the first pages of which are as they were in another file.  With room for no more documents than these pages have, Get returns them; if they are all, it returns
them; and if the next page is gone, it returns an error.  What is at other places of the file, and in later pages of the list, does not matter. -/
theorem C118_get {srt : Sorter} (hsrt : IsSorter srt) {d : Dir} {x : Index} (hx : Index.open Json.codec srt d = .ok x) (hn : 0 < x.config.numShards)
    (hn' : x.config.numShards < 2 ^ 32) :
    ∃ q dmd t ns, x.startQuery = .ok q ∧ d .dmd = some dmd ∧ d .fnm = some t ∧ TableFile t ns ∧
      ∀ (b : UInt32) f f' h dss r, ListAt d (b.toNat % x.config.numShards.toNat) (b.toNat / x.config.numShards.toNat % 65536) f' h →
        KeptPages f f' h dss r → Known dmd ns (sums 0 dss.flatten) → ∀ grow,
        (∀ (B : Blot) n, B.blot = b → B.room = some n → n ≤ (sums 0 dss.flatten).length → ∀ fuel, n < fuel → ∃ a new, Query.get grow x fuel q B = .ok a ∧ a.blot = b ∧
          a.vis = B.vis ++ new ∧ Each (fun id (doc : Doc) => DocAs dmd ns id doc.path doc.start.toNat doc.stop.toNat) ((sums 0 dss.flatten).take n) new) ∧
        (r = -1 → ∀ fuel, (sums 0 dss.flatten).length < fuel → ∃ a, Query.get grow x fuel q ⟨b, none⟩ = .ok a ∧ a.blot = b ∧
          Each (fun id (doc : Doc) => DocAs dmd ns id doc.path doc.start.toNat doc.stop.toNat) (sums 0 dss.flatten) a.vis) ∧
        (∀ ds s e, r ≠ -1 → PageTo f r ds s e → Gone f f' r e → ∃ K, ∀ fuel, K < fuel → Errs (Query.get grow x fuel q ⟨b, none⟩)) := by
  obtain ⟨q, dmd, t, ns, g1, g2, g3, g4, g5⟩ := C114_get hsrt hx hn hn'
  refine ⟨q, dmd, t, ns, g1, g2, g3, g4, fun b f f' h dss r hl hk hkn grow => ?_⟩
  have hR : Reaches f' h (sums 0 dss.flatten) r := ⟨dss, hk.pages.1, rfl⟩
  refine ⟨fun B n hB hroom hle fuel hfuel => ?_, fun hr fuel hfuel => ?_, fun ds s e hr hp hg => ?_⟩
  · subst hB
    obtain ⟨_, k, _⟩ := g5 grow B f' h hl
    have ht : ((sums 0 dss.flatten).take n).length = n := by rw [List.length_take]; omega
    obtain ⟨a, v, r1, r2, r3, r4⟩ := k ((sums 0 dss.flatten).take n) ⟨fun id hid => hkn id (List.mem_of_mem_take hid), .inl ⟨by rw [ht, hroom], _, _, hR, List.take_prefix _ _⟩⟩ fuel (by omega)
    exact ⟨a, v, r1, r2, r3, r4⟩
  · obtain ⟨_, k, _⟩ := g5 grow ⟨b, none⟩ f' h hl
    obtain ⟨a, v, r1, r2, r3, r4⟩ := k _ ⟨hkn, .inr ⟨nofun, by rw [← hr]; exact hR⟩⟩ fuel hfuel
    exact ⟨a, r1, r2, by rw [r3]; exact r4⟩
  · obtain ⟨_, _, k, _⟩ := g5 grow ⟨b, none⟩ f' h hl
    obtain ⟨w, np⟩ := hg.no hp
    exact k ⟨_, hkn, nofun, .inl ⟨r, hr, hR, w, np⟩⟩

/-- **C118**, pages of a disk: of the pages of a list the first that lost a byte is gone, or lost only bytes in a page of the disk after the one in which it begins. -/
theorem C118_lost {P : Nat} {f f' : Bytes} (hl : PageLost P f f') {h q : Int} {dss : List (List Nat)} (hp : Pages f h dss q) :
    KeptPages f f' h dss q ∨ ∃ dss1 ds dss2 r s e, dss = dss1 ++ ds :: dss2 ∧ KeptPages f f' h dss1 r ∧ r ≠ -1 ∧ PageTo f r ds s e ∧
      (Gone f f' r e ∨ f'[r.toNat]? = f[r.toNat]? ∧ ∃ i : Nat, r ≤ i ∧ i < e ∧ i / P ≠ r.toNat / P ∧ f'[i]? = some 0 ∧ f[i]? ≠ some 0) := by
  rcases kept_first f' hp with hk | ⟨dss1, ds, dss2, r, s, e, k1, k2, k3, k4, k5⟩
  · exact .inl hk
  · refine .inr ⟨dss1, ds, dss2, r, s, e, k1, k2, k3, k4, ?_⟩
    have h0 : 0 ≤ r := by obtain ⟨n, v, ⟨⟨h0, _⟩, _⟩, _⟩ := k4; exact h0
    by_cases hin : r < f'.length
    · by_cases hz : f'[r.toNat]? = some 0
      · exact .inl (.inl hz)
      · have hpage : ∀ i, i / P = r.toNat / P → i < f'.length → f'[i]? = f[i]? := by
          rcases hl.2 (r.toNat / P) with h | h
          · exact h
          · exact absurd (h r.toNat rfl (by omega)) hz
        by_cases hall : SameBytes f f' r f'.length
        · refine .inl (.inr ⟨?_, hall⟩)
          false_or_by_contra
          rename_i hge
          exact k5 fun i i1 i2 => hall i i1 (by omega)
        · unfold SameBytes at hall k5
          by_cases hsm : ∀ i : Nat, r ≤ i → i < e → i < f'.length → f'[i]? = f[i]?
          · refine .inl (.inr ?_)
            have : f'.length < e := by
              false_or_by_contra
              rename_i hge
              exact k5 fun i i1 i2 => hsm i i1 i2 (by omega)
            exact ⟨this, fun i i1 i2 => hsm i i1 (by omega) (by omega)⟩
          · right
            refine ⟨hpage _ rfl (by omega), ?_⟩
            false_or_by_contra
            rename_i hno
            apply hsm
            intro i i1 i2 i3
            by_cases hi : i / P = r.toNat / P
            · exact hpage i hi i3
            · rcases hl.2 (i / P) with h | h
              · exact h i rfl i3
              · have hz' := h i rfl i3
                by_cases hfz : f[i]? = some 0
                · rw [hz', hfz]
                · exact absurd ⟨i, i1, i2, hi, hz', hfz⟩ hno
    · refine .inl (.inr ⟨?_, fun i i1 i2 => by omega⟩)
      obtain ⟨n, v, ⟨_, h2, _⟩, _, _, rfl⟩ := k4
      omega

theorem sums_prefix (a b : List Nat) : ∀ n, sums n a <+: sums n (a ++ b) := by
  induction a with
  | nil => intro n; exact List.nil_prefix
  | cons x a ih => intro n; exact List.prefix_cons_iff.mpr (.inr ⟨_, rfl, ih _⟩)

theorem each_mono {α β : Type} {R S : α → β → Prop} : ∀ {as : List α} {bs : List β}, (∀ a ∈ as, ∀ b, R a b → S a b) → Each R as bs → Each S as bs := by
  intro as
  induction as with
  | nil => intro bs _ h; cases bs with
    | nil => trivial
    | cons _ _ => exact h.elim
  | cons a as ih =>
    intro bs hm h
    cases bs with
    | nil => exact h.elim
    | cons b bs => exact ⟨hm a (by simp) b h.1, ih (fun a' ha b' => hm a' (by simp [ha]) b') h.2⟩

/-- a record says one thing -/
theorem docAs_one {D f : Bytes} {ns : List (Bytes × Nat)} (hns : TableFile f ns) {id : Nat} (hid : id < 2 ^ 32) {p p' : Bytes} {a b a' b' : Nat} (h : DocAs D ns id p a b) (h' : DocAs D ns id p' a' b') :
    p = p' ∧ a = a' ∧ b = b' := by
  have hpar : ∀ n ∈ ns, n.2 < ns.length := by obtain ⟨_, _, _, _, _, _, _, h⟩ := hns; exact h
  obtain ⟨t, _, t2⟩ := Fnames.read_of_table hns
  have he : (UInt32.ofNat id).toNat = id := by rw [UInt32.toNat_ofNat']; omega
  obtain ⟨r, r1, r2, r3, r4⟩ := doc_as (x := ⟨exCmdConfig, D, t, []⟩) t2 hpar (UInt32.ofNat id) (by rw [he]; exact h)
  obtain ⟨r', r1', r2', r3', r4'⟩ := doc_as (x := ⟨exCmdConfig, D, t, []⟩) t2 hpar (UInt32.ofNat id) (by rw [he]; exact h')
  rw [r1] at r1'; injection r1' with r1'; subst r1'
  exact ⟨r2.symm.trans r2', r3.symm.trans r3', r4.symm.trans r4'⟩

/-- where the documents that have a blot are in an index -/
theorem history_list {u : Uni} {c : Config} (hU : Usable Json.codec c) {h : Sessions} {d : Dir} (hd : History u Json.codec c h d) (hf : Fits u c (documents h)) (j k : Nat)
    (hj : j < c.numShards.toNat) (hk : k < 65536) :
    ∃ post h', ListAt d j k post h' ∧ Reaches post h' (holders u c (k * c.numShards.toNat + j) 1 (documents h)) (-1) := by
  obtain ⟨bs, ps, b1, b2, c2, hsz⟩ := (History.rep hU hd hf).small hf.posts hj
  have hids := hf.ids
  have hlt : k < ps.length := by rw [c2.len]; exact hk
  have hpk := List.getElem?_eq_getElem hlt
  have hrange : ∀ p ∈ ps, -(2 ^ 63) ≤ p.head ∧ p.head < 2 ^ 63 := by
    intro p hp
    obtain ⟨i, hi⟩ := List.mem_iff_getElem?.mp hp
    have hh := (c2.rep i p hi).1.head
    rcases (by exact Decidable.em (nextOff i 0 bs = -1)) with h0 | h0
    · rw [hh, h0]; omega
    · obtain ⟨bs1, b, bs2, g1, _, _, g4⟩ := nextOff_seek i bs 0 h0
      rw [hh, g4]
      have : sizes bs1 ≤ sizes bs := by rw [g1, sizes_append]; omega
      rw [render_length] at hsz
      omega
  refine ⟨render 0 bs, ps[k].head, ⟨_, ps.map fun p => (p.head, p.total.toNat), ps[k].total.toNat, b2, b1, entries_written _ hrange,
    by rw [List.length_map, c2.len], by rw [List.getElem?_map, hpk]; rfl⟩, ?_⟩
  have hread := c2.read_swap hsz hpk (f' := render 0 bs) (fun _ _ => rfl)
  rw [postings_shardPosts u c j k hj hk _ (by omega)] at hread
  have := rep_reaches hread
  rwa [idsWith_holders _ _ _ _ _ (by omega)] at this

/-- **C118**, **C98**, posting files of an index whose pages on disk were lost.  Get of a blot returns the documents it returned before; or it is an error; or of the first page of the
list that lost a byte the part that is in its first page of the disk is kept, and then the documents of the pages before are returned to one who asks for no more. -/
theorem C98_later_partial {u : Uni} {c : Config} {srt : Sorter} (hsrt : IsSorter srt) (hU : Usable Json.codec c) {P : Nat} {h : Sessions} {d d' : Dir} {x : Index}
    (hd : History u Json.codec c h d) (hf : Fits u c (documents h)) (hsame : ∀ g, (∀ j, g ≠ .pos j) → d' g = d g)
    (hlost : ∀ j, j < c.numShards.toNat → ∃ b b', d (.pos j) = some b ∧ d' (.pos j) = some b' ∧ PageLost P b b') (hx : Index.open Json.codec srt d' = .ok x) :
    ∃ q, x.startQuery = .ok q ∧ ∀ (b : UInt32) grow,
      (∀ fuel, (holders u c b.toNat 1 (documents h)).length < fuel → ∃ a, Query.get grow x fuel q ⟨b, none⟩ = .ok a ∧ a.blot = b ∧
        Each (ShownAs (documents h)) (holders u c b.toNat 1 (documents h)) a.vis) ∨
      (∃ K, ∀ fuel, K < fuel → Errs (Query.get grow x fuel q ⟨b, none⟩)) ∨
      ∃ post post' hd dss ds dss' r s e, ListAt d (b.toNat % c.numShards.toNat) (b.toNat / c.numShards.toNat % 65536) post hd ∧ d' (.pos (b.toNat % c.numShards.toNat)) = some post' ∧
        KeptPages post post' hd dss r ∧ PageTo post r ds s e ∧ holders u c b.toNat 1 (documents h) = sums 0 (dss ++ ds :: dss').flatten ∧
        post'[r.toNat]? = post[r.toNat]? ∧ (∃ i : Nat, r ≤ i ∧ i < e ∧ i / P ≠ r.toNat / P ∧ post'[i]? = some 0 ∧ post[i]? ≠ some 0) ∧
        ∀ (B : Blot) n, B.blot = b → B.room = some n → n ≤ (sums 0 dss.flatten).length → ∀ fuel, n < fuel → ∃ a new, Query.get grow x fuel q B = .ok a ∧ a.blot = b ∧
          a.vis = B.vis ++ new ∧ Each (ShownAs (documents h)) ((holders u c b.toNat 1 (documents h)).take n) new := by
  have hn := hU.shards
  have hn' := hU.shardsSmall
  obtain ⟨D, f, ns, k1, k2, k3, k4, k5⟩ := history_docAs hU hd hf
  have hids := hf.ids
  have hxc : x.config = c := by
    obtain ⟨i1, _⟩ := openIndex_inv hx
    rw [show Config.readFrom Json.codec d' = Config.readFrom Json.codec d by simp only [Config.readFrom, Dir.read, hsame .cfg (by intro j h; cases h)],
      (C97_sessions hU hd hf).1] at i1
    injection i1 with i1
    exact i1.symm
  obtain ⟨q, D', f', ns', g1, g2, g3, g4, g5⟩ := C118_get hsrt hx (by rw [hxc]; omega) (by rw [hxc]; omega)
  rw [hsame _ (by intro j h; cases h), k1] at g2; injection g2 with g2; subst g2
  rw [hsame _ (by intro j h; cases h), k2] at g3; injection g3 with g3; subst g3
  have e := table_one k3 g4; subst e
  rw [hxc] at g5
  refine ⟨q, g1, fun b grow => ?_⟩
  have hj : b.toNat % c.numShards.toNat < c.numShards.toNat := Nat.mod_lt _ (by omega)
  obtain ⟨post, hh, l1, l2⟩ := history_list hU hd hf _ (b.toNat / c.numShards.toNat % 65536) hj (Nat.mod_lt _ (by omega))
  rw [holders_bucket] at l2
  obtain ⟨dss, p1, p2⟩ := l2
  obtain ⟨_, post', q1, q2, q3⟩ := hlost _ hj
  obtain ⟨iix, es, ct, i1, i2, i3, i4, i5⟩ := l1
  rw [i2] at q1; injection q1 with q1; subst q1
  have l' : ListAt d' (b.toNat % c.numShards.toNat) (b.toNat / c.numShards.toNat % 65536) post' hh :=
    ⟨iix, es, ct, by rw [hsame _ (by intro j h; cases h)]; exact i1, q2, i3, i4, i5⟩
  have hin : ∀ id ∈ holders u c b.toNat 1 (documents h), 1 ≤ id ∧ id - 1 < (documents h).length := by
    intro id hid
    unfold holders at hid
    obtain ⟨⟨s, i⟩, s1, rfl⟩ := List.mem_map.mp hid
    have s2 := (List.mem_filter.mp s1).1
    have := List.mem_zipIdx s2
    simp only [] at this ⊢
    omega
  have hdoc : ∀ id ∈ holders u c b.toNat 1 (documents h), ∃ s, 1 ≤ id ∧ id < 2 ^ 32 ∧ (documents h)[id - 1]? = some s ∧ DocAs D ns id s.path s.start.toNat s.stop.toNat := by
    intro id hid
    obtain ⟨h1, h2⟩ := hin id hid
    have hs := List.getElem?_eq_getElem h2
    have := k5 _ _ hs
    rw [Nat.sub_add_cancel h1] at this
    exact ⟨_, h1, by omega, hs, this⟩
  have hshown : ∀ id ∈ holders u c b.toNat 1 (documents h), ∀ doc : Doc, DocAs D ns id doc.path doc.start.toNat doc.stop.toNat → ShownAs (documents h) id doc := by
    intro id hid doc h1
    obtain ⟨s, s1, s2, s3, s4⟩ := hdoc id hid
    obtain ⟨e1, e2, e3⟩ := docAs_one k3 s2 h1 s4
    exact ⟨s, s1, s3, e1, UInt32.toNat_inj.mp e2, UInt32.toNat_inj.mp e3⟩
  have hknown : Known D ns (holders u c b.toNat 1 (documents h)) := fun id hid => by
    obtain ⟨s, _, _, _, h⟩ := hdoc id hid
    exact ⟨_, _, _, h⟩
  rcases C118_lost q3 p1 with hk | ⟨dss1, ds, dss2, r, s, e, t1, t2, t3, t4, t5⟩
  · left
    obtain ⟨_, o2, _⟩ := g5 b post post' hh dss (-1) l' hk (by rw [← p2]; exact hknown) grow
    intro fuel hfuel
    obtain ⟨a, a1, a2, a3⟩ := o2 rfl fuel (by rw [← p2]; exact hfuel)
    rw [← p2] at a3
    exact ⟨a, a1, a2, each_mono hshown a3⟩
  · right
    have hpre : sums 0 dss1.flatten <+: holders u c b.toNat 1 (documents h) := by
      rw [p2, t1, List.flatten_append]; exact sums_prefix _ _ _
    obtain ⟨o1, _, o3⟩ := g5 b post post' hh dss1 r l' t2 (fun id hid => hknown id (hpre.subset hid)) grow
    rcases t5 with hg | ⟨u1, u2⟩
    · exact .inl (o3 ds s e t3 t4 hg)
    · refine .inr ⟨post, post', hh, dss1, ds, dss2, r, s, e, ⟨iix, es, ct, i1, i2, i3, i4, i5⟩, q2, t2, t4, by rw [p2, t1], u1, u2, fun B n hB hroom hle fuel hfuel => ?_⟩
      obtain ⟨a, v, a1, a2, a3, a4⟩ := o1 B n hB hroom hle fuel hfuel
      have ht : (sums 0 dss1.flatten).take n = (holders u c b.toNat 1 (documents h)).take n := by
        obtain ⟨t, ht⟩ := hpre
        rw [← ht, List.take_append_of_le_length hle]
      rw [ht] at a4
      exact ⟨a, v, a1, a2, a3, each_mono (fun id hid => hshown id (List.mem_of_mem_take hid)) a4⟩

theorem pages_then {f : Bytes} : ∀ {a b : List (List Nat)} {p q r : Int}, Pages f p a q → Pages f q b r → Pages f p (a ++ b) r := by
  intro a
  induction a with
  | nil => intro b p q r h h'; cases h; exact h'
  | cons x a ih =>
    rintro b p q r ⟨h1, s, h2, h3⟩ h'
    exact ⟨h1, s, h2, ih h3 h'⟩

/-- **C118**: if the last link of a list was lost and is zero, then Get goes on with the list that begins the file: it returns documents that do not have the blot, and no error, if there
are documents with these numbers. -/
theorem C118_false_link {srt : Sorter} (hsrt : IsSorter srt) {d : Dir} {x : Index} (hx : Index.open Json.codec srt d = .ok x) (hn : 0 < x.config.numShards)
    (hn' : x.config.numShards < 2 ^ 32) :
    ∃ q dmd t ns, x.startQuery = .ok q ∧ d .dmd = some dmd ∧ d .fnm = some t ∧ TableFile t ns ∧
      ∀ (b : UInt32) f h dss dss0, ListAt d (b.toNat % x.config.numShards.toNat) (b.toNat / x.config.numShards.toNat % 65536) f h →
        Pages f h dss 0 → Pages f 0 dss0 (-1) → Known dmd ns (sums 0 (dss ++ dss0).flatten) → ∀ grow fuel, (sums 0 (dss ++ dss0).flatten).length < fuel →
          ∃ a, Query.get grow x fuel q ⟨b, none⟩ = .ok a ∧ Each (fun id (doc : Doc) => DocAs dmd ns id doc.path doc.start.toNat doc.stop.toNat) (sums 0 (dss ++ dss0).flatten) a.vis := by
  obtain ⟨q, dmd, t, ns, g1, g2, g3, g4, g5⟩ := C114_get hsrt hx hn hn'
  refine ⟨q, dmd, t, ns, g1, g2, g3, g4, fun b f h dss dss0 hl h1 h2 hk grow fuel hfuel => ?_⟩
  obtain ⟨_, k, _⟩ := g5 grow ⟨b, none⟩ f h hl
  obtain ⟨a, v, r1, r2, r3, r4⟩ := k _ ⟨hk, .inr ⟨nofun, _, pages_then h1 h2, rfl⟩⟩ fuel hfuel
  exact ⟨a, r1, by rw [r3]; exact r4⟩

theorem small_page {f rest : Bytes} {p : Nat} (a : UInt8) (l : Bytes) (w : UInt64) (hf : f.drop p = [18, a] ++ l ++ rest) (ha : a.toNat < 128) (hl : l.length = 8) (hw : getBE64 (l ++ rest) = .ok w) :
    PageTo f p [a.toNat] (u64ToI64 w) (p + 10) := by
  have hlen := congrArg List.length hf
  simp only [List.length_drop, List.length_append, List.length_cons, List.length_nil, hl] at hlen
  have hd1 : f.drop (p + 1) = a :: (l ++ rest) := by rw [← List.drop_drop, hf]; rfl
  have hd2 : f.drop (p + 2) = l ++ rest := by rw [← List.drop_drop, hf]; rfl
  refine ⟨1, 9, ⟨⟨by omega, [], 18, a :: (l ++ rest), by simpa using hf, rfl, by omega, by simp, by decide, by decide, by decide⟩, by omega, by omega, by omega, w, ?_, rfl⟩, by omega, ?_, by omega⟩
  · rw [show ((p : Int) + ((1 : Nat) : Int) + 9 - 8).toNat = p + 2 by omega, hd2]; exact hw
  · rw [show ((p : Int) + ((1 : Nat) : Int)).toNat = p + 1 by omega, hd1]
    exact ⟨[a], [], rfl, ⟨[], a, rfl, by simp, by simp, ha, by simp only [sevens]; omega, by omega⟩, by omega, rfl⟩

/-- Two lists, each of document 1; with pages of four bytes on the disk, the link of the second may be lost.  It then has the documents 1 and 2.  If its first bytes are lost too, there
is an error. -/
theorem C118_nonvacuous : let m : Bytes := List.replicate 8 255
    let f : Bytes := [18, 1] ++ m ++ ([18, 1] ++ m)
    let f' : Bytes := [18, 1] ++ m ++ ([18, 1] ++ List.replicate 8 0)
    let f'' : Bytes := [18, 1] ++ m.take 6 ++ List.replicate 12 0
    PageLost 4 f f' ∧ PageLost 4 f f'' ∧ Reaches f 10 [1] (-1) ∧ Reaches f' 10 [1, 2] (-1) ∧ KeptPages f f' 0 [[1]] (-1) ∧ Gone f f'' 10 20 := by
  intro m f f' f''
  have w1 : u64ToI64 18446744073709551615 = -1 := by decide
  have w0 : u64ToI64 0 = 0 := by decide
  have p0 : PageTo f 0 [1] (-1) 10 := by
    have := small_page (f := f) (p := 0) 1 m 18446744073709551615 rfl (by decide) rfl (by decide)
    rw [w1] at this; exact this
  have p10 : PageTo f 10 [1] (-1) 20 := by
    have := small_page (f := f) (p := 10) (rest := []) 1 m 18446744073709551615 rfl (by decide) rfl (by decide)
    rw [w1] at this; exact this
  have p10' : PageTo f' 10 [1] 0 20 := by
    have := small_page (f := f') (p := 10) (rest := []) 1 (List.replicate 8 0) 0 rfl (by decide) rfl (by decide)
    rw [w0] at this; exact this
  have hs : SameBytes f f' 0 10 := by
    intro i _ h
    have : i < 10 := by omega
    have key : ∀ i, i < 10 → f'[i]? = f[i]? := by decide
    exact key i this
  have hk : KeptPages f f' 0 [[1]] (-1) := ⟨by omega, -1, 10, p0, hs, rfl⟩
  have lost : ∀ g : Bytes, g.length = 20 → (∀ k, k < 5 → (∀ i, i < 20 → i / 4 = k → g[i]? = f[i]?) ∨ (∀ i, i < 20 → i / 4 = k → g[i]? = some 0)) → PageLost 4 f g := by
    intro g hg h
    refine ⟨by rw [hg]; decide, fun k => ?_⟩
    by_cases hk : k < 5
    · rcases h k hk with h | h
      · exact .inl fun i h1 h2 => h i (by omega) h1
      · exact .inr fun i h1 h2 => h i (by omega) h1
    · exact .inl fun i h1 h2 => by omega
  refine ⟨lost f' rfl (by decide), lost f'' rfl (by decide), ⟨[[1]], ⟨by omega, -1, p10.page, rfl⟩, rfl⟩, ⟨[[1]] ++ [[1]], pages_then (q := 0) ⟨by omega, 0, p10'.page, rfl⟩ hk.pages.1, rfl⟩, hk, .inl (by decide)⟩

end Dupi.Props
