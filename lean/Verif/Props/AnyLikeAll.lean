import Verif.Props.AnyLike
import Verif.Props.LatePages
/-! # C121: all that like prints of any directory that opens -/

namespace Dupi.Props
open Spec

theorem each_left {α β : Type} {R : α → β → Prop} : ∀ {as : List α} {bs : List β}, Each R as bs → ∀ a ∈ as, ∃ b ∈ bs, R a b
  | [], [], _, _, h => by cases h
  | [], _ :: _, h, _, _ => h.elim
  | _ :: _, [], h, _, _ => h.elim
  | a :: _, b :: _, h, c, hc => by
    rcases List.mem_cons.mp hc with rfl | hc
    · exact ⟨b, by simp, h.1⟩
    · obtain ⟨b', h1, h2⟩ := each_left h.2 c hc
      exact ⟨b', by simp [h1], h2⟩

/-- a record says one thing, whatever its number -/
theorem docAs_only {D f : Bytes} {ns : List (Bytes × Nat)} (hns : TableFile f ns) {id : Nat} {p p' : Bytes} {a b a' b' : Nat} (h : DocAs D ns id p a b) (h' : DocAs D ns id p' a' b') :
    p = p' ∧ a = a' ∧ b = b' := by
  have shift : ∀ {p : Bytes} {a b : Nat}, DocAs D ns id p a b → DocAs (D.drop (12 * id)) ns 0 p a b := by
    rintro p a b ⟨q, cs, ⟨h1, h2⟩, h3, h4, h5, h6, h7⟩
    refine ⟨q, cs, ⟨by rw [List.length_drop]; omega, by rw [List.drop_drop]; exact h2⟩, h3, h4, h5, by rw [List.drop_drop]; exact h6, by rw [List.drop_drop]; exact h7⟩
  exact docAs_one hns (by decide) (shift h) (shift h')

/-- the files hold of the document a text of `bm` at a passage with its blot -/
def HoldsOne (u : Uni) (fs : Files) (c : Config) (bm : UInt32 → Option Bytes) (k : Cmd.DocKey) : Prop :=
  ∃ part, partOf fs k.1 k.2.1.toNat k.2.2.toNat = some part ∧ ∃ b t, bm b = some t ∧ ∃ (i : Nat) (x : UInt32) (r : Nat × Nat), (blotsOf u c part)[i]? = some x ∧
    x.toNat % numBuckets c = b.toNat ∧ passage u c part i = some r ∧ textAt part r = t

/-- the document starts at 0, and its file is there, and long enough, and below 4 GiB -/
def Usual (fs : Files) (doc : Doc) : Prop := doc.start = 0 ∧ ∃ part, partOf fs doc.path doc.start.toNat doc.stop.toNat = some part ∧ part.length < 2 ^ 32

theorem likeDocs_any (u : Uni) (fs : Files) {c : Config} (hF : Findable c) (bm : UInt32 → Option Bytes) : ∀ (ds : List Doc), (∀ doc ∈ ds, doc.dat = none ∧ Usual fs doc) →
    ∀ found : List Cmd.DocKey, found.Nodup → ∃ out, Cmd.likeDocs u fs c bm ds found = .ok out ∧ out.Nodup ∧
      ∀ k, k ∈ out ↔ k ∈ found ∨ ∃ doc ∈ ds, Cmd.dkey doc = k ∧ HoldsOne u fs c bm k := by
  intro ds
  induction ds with
  | nil => intro _ found hnd; exact ⟨found, rfl, hnd, fun k => by simp⟩
  | cons doc ds ih =>
    intro hds found hnd
    have ih' := ih fun doc h => hds doc (by simp [h])
    obtain ⟨hdat, h0, part, hpart, hlen⟩ := hds doc (by simp)
    rw [Cmd.likeDocs]
    by_cases hk : Cmd.dkey doc ∈ found
    · rw [if_pos hk]
      obtain ⟨out, k1, k2, k3⟩ := ih' found hnd
      refine ⟨out, k1, k2, fun k => ?_⟩
      rw [k3]
      constructor
      · rintro (h | ⟨d', h, h'⟩)
        · exact .inl h
        · exact .inr ⟨d', by simp [h], h'⟩
      · rintro (h | ⟨d', h, h'⟩)
        · exact .inl h
        · rcases List.mem_cons.mp h with rfl | h
          · exact .inl (h'.1 ▸ hk)
          · exact .inr ⟨d', h, h'⟩
    · rw [if_neg hk]
      have hload := (load_part (fs := fs) hdat).2 part hpart
      obtain ⟨res, hres, hspec⟩ := C28_texts_partial u fs hF bm ⟨doc.path, doc.start, if doc.start = 0 ∧ doc.stop = 0 then UInt32.ofNat part.length else doc.stop, some part⟩
        part rfl h0 hlen
      have hfb : Index.findBlots u fs c bm doc = Index.findBlots u fs c bm ⟨doc.path, doc.start, if doc.start = 0 ∧ doc.stop = 0 then UInt32.ofNat part.length else doc.stop, some part⟩ := by
        simp only [Index.findBlots, hload, bind, Except.bind]; rfl
      have hiff : res.length = 0 ↔ ¬ HoldsOne u fs c bm (Cmd.dkey doc) := by
        constructor
        · rintro hz ⟨part', hp', b, t, hm⟩
          have e : part' = part := by
            simp only [Cmd.dkey] at hp'
            rw [hpart] at hp'; injection hp' with hp'; exact hp'.symm
          subst e
          have := (hspec b t).mpr hm
          rw [List.length_eq_zero_iff.mp hz] at this
          simp [Index.Texts.get] at this
        · intro hno
          cases res with
          | nil => rfl
          | cons g res =>
            exfalso; apply hno
            refine ⟨part, hpart, g.1, g.2, (hspec g.1 g.2).mp ?_⟩
            obtain ⟨g1, g2⟩ := g
            simp [Index.Texts.get]
      rw [hfb, hres]
      simp only [bind, Except.bind]
      by_cases hm : HoldsOne u fs c bm (Cmd.dkey doc)
      · rw [if_neg (fun h => hiff.mp h hm)]
        obtain ⟨out, k1, k2, k3⟩ := ih' (found ++ [Cmd.dkey doc]) (by
          rw [List.nodup_append]
          refine ⟨hnd, by simp, ?_⟩
          intro a ha b hb
          rw [List.mem_singleton] at hb
          subst hb
          intro e; exact hk (e ▸ ha))
        refine ⟨out, k1, k2, fun k => ?_⟩
        rw [k3, List.mem_append, List.mem_singleton]
        constructor
        · rintro ((h | rfl) | ⟨d', h, h'⟩)
          · exact .inl h
          · exact .inr ⟨doc, by simp, rfl, hm⟩
          · exact .inr ⟨d', by simp [h], h'⟩
        · rintro (h | ⟨d', h, h'⟩)
          · exact .inl (.inl h)
          · rcases List.mem_cons.mp h with rfl | h
            · exact .inl (.inr h'.1.symm)
            · exact .inr ⟨d', h, h'⟩
      · rw [if_pos (hiff.mpr hm)]
        obtain ⟨out, k1, k2, k3⟩ := ih' found hnd
        refine ⟨out, k1, k2, fun k => ?_⟩
        rw [k3]
        constructor
        · rintro (h | ⟨d', h, h'⟩)
          · exact .inl h
          · exact .inr ⟨d', by simp [h], h'⟩
        · rintro (h | ⟨d', h, h'⟩)
          · exact .inl h
          · rcases List.mem_cons.mp h with rfl | h
            · exact absurd (h'.1 ▸ h'.2) hm
            · exact .inr ⟨d', h, h'⟩

theorem likeLoop_any (u : Uni) (fs : Files) {grow : Nat → Nat} {x : Index} {fuel : Nat} {q : QState} (hF : Findable x.config) (bm : UInt32 → Option Bytes) :
    ∀ (bs : List UInt32), (∀ b ∈ bs, ∃ r, Query.get grow x fuel q ⟨b % Index.blotMod x.config, none⟩ = .ok r ∧ ∀ doc ∈ r.vis, Usual fs doc) →
    ∀ found : List Cmd.DocKey, found.Nodup → ∃ out, Cmd.likeLoop u fs grow x fuel q bm bs found = .ok out ∧ out.Nodup ∧
      ∀ k, k ∈ out ↔ k ∈ found ∨ ∃ b ∈ bs, ∃ r, Query.get grow x fuel q ⟨b % Index.blotMod x.config, none⟩ = .ok r ∧ (∃ doc ∈ r.vis, Cmd.dkey doc = k) ∧ HoldsOne u fs x.config bm k := by
  intro bs
  induction bs with
  | nil => intro _ found hnd; exact ⟨found, rfl, hnd, fun k => by simp⟩
  | cons b bs ih =>
    intro hbs found hnd
    obtain ⟨r, g1, g2⟩ := hbs b (by simp)
    obtain ⟨out1, k1, k2, k3⟩ := likeDocs_any u fs hF bm r.vis (fun doc h => ⟨get_dat g1 doc h, g2 doc h⟩) found hnd
    obtain ⟨out, l1, l2, l3⟩ := ih (fun b h => hbs b (by simp [h])) out1 k2
    refine ⟨out, ?_, l2, fun k => ?_⟩
    · rw [Cmd.likeLoop, if_neg (Index.blotMod_toNat hF.shards hF.shardsSmall).2, g1]
      simp only [bind, Except.bind, k1]
      exact l1
    · rw [l3, k3]
      constructor
      · rintro ((h | ⟨doc, h1, h2, h3⟩) | ⟨b', h1, h2⟩)
        · exact .inl h
        · exact .inr ⟨b, by simp, r, g1, ⟨doc, h1, h2⟩, h3⟩
        · exact .inr ⟨b', by simp [h1], h2⟩
      · rintro (h | ⟨b', h1, r', h2, ⟨doc, h3, h4⟩, h5⟩)
        · exact .inl (.inl h)
        · rcases List.mem_cons.mp h1 with rfl | h1
          · rw [g1] at h2; injection h2 with h2; subst h2
            exact .inl (.inr ⟨doc, h3, h4, h5⟩)
          · exact .inr ⟨b', h1, r', h2, ⟨doc, h3, h4⟩, h5⟩

theorem likeDocs_needs {u : Uni} {fs : Files} {c : Config} {bm : UInt32 → Option Bytes} : ∀ (ds : List Doc) (found out : List Cmd.DocKey), (∀ doc ∈ ds, doc.dat = none) →
    (∀ k ∈ found, partOf fs k.1 k.2.1.toNat k.2.2.toNat ≠ none) → Cmd.likeDocs u fs c bm ds found = .ok out →
    (∀ doc ∈ ds, partOf fs doc.path doc.start.toNat doc.stop.toNat ≠ none) ∧ ∀ k ∈ out, partOf fs k.1 k.2.1.toNat k.2.2.toNat ≠ none := by
  intro ds
  induction ds with
  | nil => intro found out _ hf h; injection h with h; subst h; exact ⟨by simp, hf⟩
  | cons doc ds ih =>
    intro found out hds hf h
    rw [Cmd.likeDocs] at h
    by_cases hk : Cmd.dkey doc ∈ found
    · rw [if_pos hk] at h
      obtain ⟨a, b⟩ := ih _ _ (fun d h => hds d (by simp [h])) hf h
      exact ⟨fun d' hd' => by
        rcases List.mem_cons.mp hd' with rfl | hd'
        · exact hf _ hk
        · exact a d' hd', b⟩
    · rw [if_neg hk] at h
      have hp : partOf fs doc.path doc.start.toNat doc.stop.toNat ≠ none := by
        intro e
        obtain ⟨err, he⟩ := (load_part (fs := fs) (hds doc (by simp))).1 e
        simp only [Index.findBlots, he, bind, Except.bind, fail] at h
        cases h
      cases hfb : Index.findBlots u fs c bm doc with
      | error e => rw [hfb] at h; cases h
      | ok rm =>
        rw [hfb] at h
        simp only [bind, Except.bind] at h
        by_cases hz : rm.1.length = 0
        · rw [if_pos hz] at h
          obtain ⟨a, b⟩ := ih _ _ (fun d h => hds d (by simp [h])) hf h
          exact ⟨fun d' hd' => by
            rcases List.mem_cons.mp hd' with rfl | hd'
            · exact hp
            · exact a d' hd', b⟩
        · rw [if_neg hz] at h
          obtain ⟨a, b⟩ := ih _ _ (fun d h => hds d (by simp [h])) (fun k hk => by
            rcases List.mem_append.mp hk with hk | hk
            · exact hf k hk
            · rw [List.mem_singleton] at hk; subst hk; exact hp) h
          exact ⟨fun d' hd' => by
            rcases List.mem_cons.mp hd' with rfl | hd'
            · exact hp
            · exact a d' hd', b⟩

theorem likeLoop_needs {u : Uni} {fs : Files} {grow : Nat → Nat} {x : Index} {fuel : Nat} {q : QState} {bm : UInt32 → Option Bytes} : ∀ (bs : List UInt32) (found out : List Cmd.DocKey),
    (∀ k ∈ found, partOf fs k.1 k.2.1.toNat k.2.2.toNat ≠ none) → Cmd.likeLoop u fs grow x fuel q bm bs found = .ok out →
    ∀ b ∈ bs, ∃ r, Query.get grow x fuel q ⟨b % Index.blotMod x.config, none⟩ = .ok r ∧ ∀ doc ∈ r.vis, partOf fs doc.path doc.start.toNat doc.stop.toNat ≠ none := by
  intro bs
  induction bs with
  | nil => intro _ _ _ _ b hb; cases hb
  | cons b bs ih =>
    intro found out hf h
    rw [Cmd.likeLoop] at h
    by_cases h0 : Index.blotMod x.config = 0
    · rw [if_pos h0] at h; cases h
    · rw [if_neg h0] at h
      cases hg : Query.get grow x fuel q ⟨b % Index.blotMod x.config, none⟩ with
      | error e => rw [hg] at h; cases h
      | ok r =>
        rw [hg] at h
        simp only [bind, Except.bind] at h
        cases hd : Cmd.likeDocs u fs x.config bm r.vis found with
        | error e => rw [hd] at h; cases h
        | ok fnd =>
          rw [hd] at h
          simp only at h
          obtain ⟨a1, a2⟩ := likeDocs_needs _ _ _ (get_dat hg) hf hd
          intro b' hb'
          rcases List.mem_cons.mp hb' with rfl | hb'
          · exact ⟨r, hg, a1⟩
          · exact ih _ _ a2 h b' hb'

/-- **C121**, all of like.  In any directory that opens, and for a file below 4 GiB: let the lists of all blots of the file end, after documents that all have records and paths, that
start at 0, and the files of which are there and long enough (what is read of them may be anything, but below 4 GiB).  Then like prints, each once, exactly the documents of
these lists such that what their files hold has a passage with the text of a passage of the file (of those of the file in one bucket only the last counts).  Without the last
assumptions: if one document of these lists has no file, or one too short, then like prints nothing. -/
theorem C121_like_all {srt : Sorter} (hsrt : IsSorter srt) {d : Dir} {x : Index} (hx : Index.open Json.codec srt d = .ok x) (hF : Findable x.config) :
    ∃ q dmd f ns, x.startQuery = .ok q ∧ d .dmd = some dmd ∧ d .fnm = some f ∧ TableFile f ns ∧
      ∀ u fs grow fuel (dat : Bytes), dat.length < 2 ^ 32 →
        let Listed := fun (path : Bytes) (a e : Nat) => ∃ (i b : Nat) (post : Bytes) (h : Int) (ids : List Nat) (id : Nat), bucketAt u x.config dat i = some b ∧
          ListAt d (b % x.config.numShards.toNat) (b / x.config.numShards.toNat) post h ∧ GetFate dmd ns post h none (.result ids) ∧ id ∈ ids ∧ DocAs dmd ns id path a e
        ((∀ (i b : Nat) (post : Bytes) (h : Int), bucketAt u x.config dat i = some b → ListAt d (b % x.config.numShards.toNat) (b / x.config.numShards.toNat) post h →
            ∃ ids, GetFate dmd ns post h none (.result ids) ∧ ids.length < fuel) →
          (∀ path a e, Listed path a e → a = 0 ∧ ∃ part, partOf fs path a e = some part ∧ part.length < 2 ^ 32) →
          ∃ out, Cmd.like u fs grow x fuel q dat = .ok out ∧ out.Nodup ∧
            ∀ k : Cmd.DocKey, k ∈ out ↔ Listed k.1 k.2.1.toNat k.2.2.toNat ∧
              ∃ part, partOf fs k.1 k.2.1.toNat k.2.2.toNat = some part ∧ ∃ (i j : Nat) (r r' : Nat × Nat) (b : Nat), passage u x.config part i = some r ∧
                passage u x.config dat j = some r' ∧ textAt part r = textAt dat r' ∧ bucketAt u x.config dat j = some b ∧ ∀ j', j < j' → bucketAt u x.config dat j' ≠ some b) ∧
        ∀ path a e, Listed path a e → partOf fs path a e = none → ∀ out, Cmd.like u fs grow x fuel q dat ≠ .ok out := by
  have hn := hF.shards
  have hn' := hF.shardsSmall
  obtain ⟨q, dmd, f, ns, k1, k2, k3, k4, k5⟩ := C114_get hsrt hx hn (by omega)
  refine ⟨q, dmd, f, ns, k1, k2, k3, k4, fun u fs grow fuel dat hl => ?_⟩
  intro Listed
  obtain ⟨o1, o2, o3⟩ := opened hx
  obtain ⟨toks, ht, hw⟩ := tokenize_wordsAt u dat 0
  obtain ⟨bm, b1, b2⟩ := likeMap_spec u hF dat hl toks hw (blotsOf u x.config dat) 0 [] rfl
  have hblots : blotDoc u x.config [] dat 0 = .ok (blotsOf u x.config dat) := by
    rw [blotDoc_spec u x.config hF.cons.seq hF.cons.inter hF.cons.prod hF.cons.tok, blotsOf_eq]; rfl
  have hlike : Cmd.like u fs grow x fuel q dat = Cmd.likeLoop u fs grow x fuel q bm.get (blotsOf u x.config dat) [] := by
    simp only [Cmd.like, hblots, tokenFunc_ok hF.cons.tok, ht, b1, bind, Except.bind]
  have hN := Index.blotMod_toNat hn hn'
  -- the list of a blot
  have hB : ∀ y : UInt32, (y % Index.blotMod x.config).toNat = y.toNat % numBuckets x.config := fun y => by rw [UInt32.toNat_mod, hN.1]
  have hdiv : ∀ y : UInt32, (y % Index.blotMod x.config).toNat / x.config.numShards.toNat % 65536 = (y % Index.blotMod x.config).toNat / x.config.numShards.toNat := by
    intro y
    apply Nat.mod_eq_of_lt
    rw [Nat.div_lt_iff_lt_mul (by omega), hB]
    have : y.toNat % numBuckets x.config < numBuckets x.config := Nat.mod_lt _ (by unfold numBuckets; omega)
    unfold numBuckets at this ⊢
    omega
  have hbk : ∀ (i : Nat) (y : UInt32), (blotsOf u x.config dat)[i]? = some y → bucketAt u x.config dat i = some (y % Index.blotMod x.config).toNat := by
    intro i y hi; unfold bucketAt; rw [hi, Option.map_some, hB]
  have hat : ∀ y : UInt32, ∃ post h, ListAt d ((y % Index.blotMod x.config).toNat % x.config.numShards.toNat) ((y % Index.blotMod x.config).toNat / x.config.numShards.toNat) post h := by
    intro y
    have hlt : (y % Index.blotMod x.config).toNat % x.config.numShards.toNat < x.shards.length := by rw [o2]; exact Nat.mod_lt _ (by omega)
    have hr := o3 _ _ (List.getElem?_eq_getElem hlt)
    obtain ⟨post, h, hlist⟩ : ∃ post h, ListAt d ((y % Index.blotMod x.config).toNat % x.config.numShards.toNat)
        ((y % Index.blotMod x.config).toNat / x.config.numShards.toNat % 65536) post h :=
      ⟨_, _, hr.list ((y % Index.blotMod x.config).toNat / x.config.numShards.toNat % 65536) _ (List.getElem?_eq_getElem (by rw [hr.heads]; exact Nat.mod_lt _ (by decide)))⟩
    rw [hdiv] at hlist
    exact ⟨post, h, hlist⟩
  -- a document that is listed is one of the documents got
  have hgot : ∀ path a e, Listed path a e → ∃ y ∈ blotsOf u x.config dat, ∀ r, Query.get grow x fuel q ⟨y % Index.blotMod x.config, none⟩ = .ok r →
      ∃ doc ∈ r.vis, doc.path = path ∧ doc.start.toNat = a ∧ doc.stop.toNat = e := by
    rintro path a e ⟨i, b, post, h, ids, id, hb, hlist, hfate, hid, hdoc⟩
    unfold bucketAt at hb
    rw [Option.map_eq_some_iff] at hb
    obtain ⟨y, hy, rfl⟩ := hb
    refine ⟨y, List.mem_of_getElem? hy, fun r hr => ?_⟩
    rw [← hB] at hlist
    obtain ⟨_, e1, _⟩ := k5 grow ⟨y % Index.blotMod x.config, none⟩ post h (by rw [← hdiv] at hlist; exact hlist)
    obtain ⟨r', new, z1, _, z3, z4⟩ := e1 ids hfate (fuel + (ids.length + 1)) (by omega)
    rw [get_more hr] at z1; injection z1 with z1; subst z1
    obtain ⟨doc, g1, g2⟩ := each_left z4 id hid
    obtain ⟨w1, w2, w3⟩ := docAs_only k4 g2 hdoc
    exact ⟨doc, by rw [z3]; simp [g1], w1, w2, w3⟩
  refine ⟨fun hres husual => ?_, fun path a e hL hnone out hout => ?_⟩
  · -- the documents got are listed
    have hlisted : ∀ y ∈ blotsOf u x.config dat, ∃ r, Query.get grow x fuel q ⟨y % Index.blotMod x.config, none⟩ = .ok r ∧
        ∀ doc ∈ r.vis, Listed doc.path doc.start.toNat doc.stop.toNat := by
      intro y hy
      obtain ⟨i, hi⟩ := List.mem_iff_getElem?.mp hy
      obtain ⟨post, h, hlist⟩ := hat y
      obtain ⟨ids, hfate, hlen⟩ := hres i _ post h (hbk i y hi) hlist
      obtain ⟨_, e1, _⟩ := k5 grow ⟨y % Index.blotMod x.config, none⟩ post h (by rw [← hdiv] at hlist; exact hlist)
      obtain ⟨r, new, z1, _, z3, z4⟩ := e1 ids hfate fuel hlen
      refine ⟨r, z1, fun doc hdoc => ?_⟩
      rw [z3] at hdoc
      obtain ⟨id, g1, g2⟩ := each_mem z4 doc (by simpa [Blot.vis] using hdoc)
      exact ⟨i, _, post, h, ids, id, hbk i y hi, hlist, hfate, g1, g2⟩
    obtain ⟨out, l1, l2, l3⟩ := likeLoop_any u fs hF bm.get (blotsOf u x.config dat) (grow := grow) (fuel := fuel) (q := q) (fun y hy => by
      obtain ⟨r, r1, r2⟩ := hlisted y hy
      refine ⟨r, r1, fun doc hdoc => ?_⟩
      obtain ⟨h0, hp⟩ := husual _ _ _ (r2 doc hdoc)
      exact ⟨UInt32.toNat_inj.mp h0, hp⟩) [] List.nodup_nil
    refine ⟨out, by rw [hlike]; exact l1, l2, fun k => ?_⟩
    rw [l3]
    have hholds : HoldsOne u fs x.config bm.get k ↔ ∃ part, partOf fs k.1 k.2.1.toNat k.2.2.toNat = some part ∧ ∃ (i j : Nat) (r r' : Nat × Nat) (b : Nat),
        passage u x.config part i = some r ∧ passage u x.config dat j = some r' ∧ textAt part r = textAt dat r' ∧ bucketAt u x.config dat j = some b ∧
        ∀ j', j < j' → bucketAt u x.config dat j' ≠ some b := by
      constructor
      · rintro ⟨part, hp, b, t, hm, i, y, r, g1, g2, g3, g4⟩
        rw [b2] at hm
        rcases hm with ⟨j, r', _, m2, m3, m4, m5⟩ | ⟨m1, _⟩
        · exact ⟨part, hp, i, j, r, r', b.toNat, g3, m3, g4.trans m4.symm, m2, m5⟩
        · simp [Index.Texts.get] at m1
      · rintro ⟨part, hp, i, j, r, r', b, g1, g2, g3, g4, g5⟩
        unfold bucketAt at g4
        rw [Option.map_eq_some_iff] at g4
        obtain ⟨y, hy, hyb⟩ := g4
        have hi : i < (blotsOf u x.config part).length := (passage_some hF.cons part i).1.mpr (by rw [g1]; rfl)
        have hx := List.getElem?_eq_getElem hi
        have hxy := same_text u x.config hF.cons part dat i j _ y r r' hx hy g1 g2 g3
        rw [hxy] at hx
        have hlt : b < 2 ^ 32 := by have := Nat.mod_le y.toNat (numBuckets x.config); have := y.toNat_lt; omega
        refine ⟨part, hp, UInt32.ofNat b, textAt dat r', ?_, i, y, r, hx, by rw [toNat_ofNat_lt hlt]; exact hyb, g1, g3⟩
        rw [b2]
        refine .inl ⟨j, r', Nat.zero_le _, ?_, g2, rfl, ?_⟩
        · rw [toNat_ofNat_lt hlt]; unfold bucketAt; rw [hy, Option.map_some, hyb]
        · rw [toNat_ofNat_lt hlt]; exact g5
    rw [← hholds]
    constructor
    · rintro (h | ⟨y, hy, r, h1, ⟨doc, h2, rfl⟩, h3⟩)
      · cases h
      · obtain ⟨r', r1, r2⟩ := hlisted y hy
        rw [h1] at r1; injection r1 with r1; subst r1
        exact ⟨r2 doc h2, h3⟩
    · rintro ⟨hL, h3⟩
      obtain ⟨y, hy, hg⟩ := hgot _ _ _ hL
      obtain ⟨r, r1, _⟩ := hlisted y hy
      obtain ⟨doc, d1, d2, d3, d4⟩ := hg r r1
      refine .inr ⟨y, hy, r, r1, ⟨doc, d1, ?_⟩, h3⟩
      obtain ⟨p, a, e⟩ := k
      simp only [Cmd.dkey, d2, UInt32.toNat_inj.mp d3, UInt32.toNat_inj.mp d4]
  · rw [hlike] at hout
    obtain ⟨y, hy, hg⟩ := hgot _ _ _ hL
    obtain ⟨r, r1, r2⟩ := likeLoop_needs _ _ _ (by simp) hout y hy
    obtain ⟨doc, d1, rfl, rfl, rfl⟩ := hg r r1
    exact r2 doc d1 hnone

/-! ## Non-vacuity -/

/-- Every index of documents that start at 0, with the files unchanged, is as `C121_like_all` asks. -/
theorem C121_like_usual {u : Uni} {srt : Sorter} (hsrt : IsSorter srt) {c : Config} (hU : Usable Json.codec c) {h : Sessions} {d : Dir} {x : Index} {q : QState}
    (hr : Reading u Json.codec srt c h x q) (hx : Index.open Json.codec srt d = .ok x) (hf : Fits u c (documents h)) (hs : c.numShards < 65536)
    (fs : Files) (hun : Unchanged fs (documents h)) (h0 : ∀ s ∈ documents h, s.start = 0) :
    ∃ dmd f ns, d .dmd = some dmd ∧ d .fnm = some f ∧ TableFile f ns ∧ ∀ (b : Nat) (post : Bytes) (hd : Int), b < numBuckets c →
      ListAt d (b % c.numShards.toNat) (b / c.numShards.toNat) post hd →
      ∃ ids, GetFate dmd ns post hd none (.result ids) ∧ ids.length = (found u c (documents h) b).length ∧
        ∀ id ∈ ids, ∀ path a e, DocAs dmd ns id path a e → a = 0 ∧ ∃ part, partOf fs path a e = some part ∧ part.length < 2 ^ 32 := by
  obtain ⟨_, _, _, _, hcfg, _⟩ := hr.rep hU hsrt hf
  have hn := hU.shards
  obtain ⟨q', dmd, f, ns, k1, k2, k3, k4, k5⟩ := C114_get hsrt hx (by rw [hcfg]; exact hn) (by rw [hcfg]; omega)
  rw [hr.start] at k1; injection k1 with k1; subst k1
  rw [hcfg] at k5
  refine ⟨dmd, f, ns, k2, k3, k4, fun b post hd' hb hlist => ?_⟩
  have hb32 : b < 2 ^ 32 := by unfold numBuckets at hb; omega
  have hdiv : b / c.numShards.toNat % 65536 = b / c.numShards.toNat := by
    apply Nat.mod_eq_of_lt
    rw [Nat.div_lt_iff_lt_mul (by omega)]
    unfold numBuckets at hb; omega
  have hB : (UInt32.ofNat b).toNat = b := toNat_ofNat_lt hb32
  obtain ⟨⟨F, hFt⟩, e1, e2, e3, e4⟩ := k5 (fun _ => 0) ⟨UInt32.ofNat b, none⟩ post hd' (by simp only [hB, hdiv]; exact hlist)
  have hget : ∀ fuel, (documents h).length < fuel → ∃ r, Query.get (fun _ => 0) x fuel q ⟨UInt32.ofNat b, none⟩ = .ok r ∧ r.vis = (found u c (documents h) b).map Document.shown := by
    intro fuel hfuel
    obtain ⟨r, g1, g2, g3⟩ := C21_get hU hsrt hr hf (fun _ => 0) (UInt32.ofNat b) fuel hfuel (q' := q) rfl
    rw [hB] at g3
    exact ⟨r, g1, g3⟩
  cases F with
  | error =>
    obtain ⟨K, hK⟩ := e2 hFt
    obtain ⟨e, he⟩ := hK (K + (documents h).length + 1) (by omega)
    obtain ⟨r, g1, _⟩ := hget (K + (documents h).length + 1) (by omega)
    rw [g1] at he; cases he
  | panic =>
    obtain ⟨K, hK⟩ := e3 hFt
    have he := hK (K + (documents h).length + 1) (by omega)
    obtain ⟨r, g1, _⟩ := hget (K + (documents h).length + 1) (by omega)
    rw [g1] at he; cases he
  | endless =>
    obtain ⟨r, g1, _⟩ := hget ((documents h).length + 1) (by omega)
    have he := e4 hFt ((documents h).length + 1)
    rw [g1] at he; cases he
  | result ids =>
    obtain ⟨r, g1, g2⟩ := hget (ids.length + (documents h).length + 1) (by omega)
    obtain ⟨r', new, z1, _, z3, z4⟩ := e1 ids hFt (ids.length + (documents h).length + 1) (by omega)
    rw [g1] at z1; injection z1 with z1; subst z1
    have hnew : new = (found u c (documents h) b).map Document.shown := by rw [← g2, z3]; rfl
    refine ⟨ids, hFt, by rw [each_len z4, hnew, List.length_map], fun id hid path a e hdoc => ?_⟩
    obtain ⟨doc, m1, m2⟩ := each_left z4 id hid
    obtain ⟨rfl, rfl, rfl⟩ := docAs_only k4 m2 hdoc
    rw [hnew] at m1
    obtain ⟨s, s1, rfl⟩ := List.mem_map.mp m1
    have s2 := (List.mem_filter.mp s1).1
    obtain ⟨ff, hff, hcov, hlen⟩ := hun s s2
    have hload := C34_load_partial fs s ff hff hcov
    refine ⟨by rw [show s.shown.start = s.start from rfl, h0 s s2]; rfl, ?_⟩
    cases hp : partOf fs s.shown.path s.shown.start.toNat s.shown.stop.toNat with
    | none =>
      obtain ⟨e, he⟩ := (load_part (fs := fs) (doc := s.shown) rfl).1 hp
      have : s.shown.ensure fs = s.shown.load fs := rfl
      rw [this, hload] at he; cases he
    | some part =>
      have he := (load_part (fs := fs) (doc := s.shown) rfl).2 part hp
      have : s.shown.ensure fs = s.shown.load fs := rfl
      rw [this, hload] at he
      injection he with he
      have hdat : s.dat = part := by
        have := congrArg Doc.dat he
        injection this
      exact ⟨part, rfl, by rw [← hdat]; exact hlen⟩

/-- such an index there is, and like prints a document -/
theorem C121_like_all_nonvacuous : ∃ (d : Dir) (x : Index) (q : QState) (dmd f : Bytes) (ns : List (Bytes × Nat)), Index.open Json.codec mergeSorter d = .ok x ∧ Findable x.config ∧
    x.startQuery = .ok q ∧ d .dmd = some dmd ∧ d .fnm = some f ∧ TableFile f ns ∧
    (∀ (i b : Nat) (post : Bytes) (h : Int), bucketAt asciiUni x.config exText1 i = some b → ListAt d (b % x.config.numShards.toNat) (b / x.config.numShards.toNat) post h →
      ∃ ids, GetFate dmd ns post h none (.result ids) ∧ ids.length < 3 ∧
        ∀ id ∈ ids, ∀ path a e, DocAs dmd ns id path a e → a = 0 ∧ ∃ part, partOf exCmdFiles path a e = some part ∧ part.length < 2 ^ 32) ∧
    ∃ out, Cmd.like asciiUni exCmdFiles (fun _ => 0) x 3 q exText1 = .ok out := by
  obtain ⟨d, hd⟩ := History.exists (u := asciiUni) exCmd_usable [47] [⟨[116, 47, 112], 0, 22, some exText1⟩, ⟨[116, 47, 113], 0, 24, some exText2⟩] [] exCmd_fits
  change History asciiUni Json.codec exCmdConfig exCmdSessions d at hd
  obtain ⟨x, q, hx, hr⟩ := reading_exists exCmd_usable mergeSorter_isSorter hd exCmd_fits
  have hc : x.config = exCmdConfig := by
    obtain ⟨i1, _⟩ := openIndex_inv hx
    rw [(C97_sessions exCmd_usable hd exCmd_fits).1] at i1
    injection i1 with i1
    exact i1.symm
  have hlen : (documents exCmdSessions).length = 2 := by rw [exCmd_docs]; rfl
  obtain ⟨dmd, f, ns, l1, l2, l3, l4⟩ := C121_like_usual mergeSorter_isSorter exCmd_usable hr hx exCmd_fits (by decide) exCmdFiles exCmd_unchanged (by rw [exCmd_docs]; decide)
  refine ⟨d, x, q, dmd, f, ns, hx, by rw [hc]; exact ⟨exCmd_usable.cons, by decide, by decide⟩, hr.start, l1, l2, l3, fun i b post h hb hlist => ?_, ?_⟩
  · rw [hc] at hb hlist
    have hlt : b < numBuckets exCmdConfig := by
      unfold bucketAt at hb
      rw [Option.map_eq_some_iff] at hb
      obtain ⟨y, _, rfl⟩ := hb
      exact Nat.mod_lt _ (by decide)
    obtain ⟨ids, m1, m2, m3⟩ := l4 b post h hlt hlist
    refine ⟨ids, m1, ?_, m3⟩
    have : (found asciiUni exCmdConfig (documents exCmdSessions) b).length ≤ (documents exCmdSessions).length := List.length_filter_le _ _
    omega
  · obtain ⟨out, k1, _⟩ := C41_like exCmd_usable mergeSorter_isSorter hr exCmd_fits (by decide) exCmdFiles exCmd_unchanged (by rw [exCmd_docs]; decide) (fun _ => 0) 3 (by omega) exText1
      (by decide)
    exact ⟨out, k1⟩

end Dupi.Props
