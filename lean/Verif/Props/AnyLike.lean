import Verif.Props.AnyCmds
import Verif.Props.Like
/-! # C121: like on any directory that opens -/

namespace Dupi.Props
open Spec

theorem each_mem {α β : Type} {R : α → β → Prop} : ∀ {as : List α} {bs : List β}, Each R as bs → ∀ b ∈ bs, ∃ a ∈ as, R a b
  | [], [], _, _, h => by cases h
  | [], _ :: _, h, _, _ => h.elim
  | _ :: _, [], h, _, _ => h.elim
  | a :: _, b :: _, h, c, hc => by
    rcases List.mem_cons.mp hc with rfl | hc
    · exact ⟨a, by simp, h.1⟩
    · obtain ⟨a', h1, h2⟩ := each_mem h.2 c hc
      exact ⟨a', by simp [h1], h2⟩

/-- more fuel changes nothing -/
theorem getLoop_more (grow : Nat → Nat) (x : Index) (lim : Bool) : ∀ (fuel k : Nat) (rs : ReadState) (b r : Blot), Query.getLoop grow x lim fuel rs b = .ok r →
    Query.getLoop grow x lim (fuel + k) rs b = .ok r := by
  intro fuel
  induction fuel with
  | zero => intro k rs b r h; cases h
  | succ fuel ih =>
    intro k rs b r h
    rw [Nat.add_right_comm]
    simp only [Query.getLoop] at h ⊢
    by_cases hl : (lim && b.len == b.cap) = true
    · rw [if_pos hl] at h ⊢; exact h
    · rw [if_neg hl] at h ⊢
      cases hn : rs.next with
      | error e =>
        rw [hn] at h
        match e, h with
        | .err .eof, h => exact h
      | ok v =>
        rw [hn] at h
        simp only [bind, Except.bind] at h ⊢
        cases hbn : b.next grow lim with
        | error e => rw [hbn] at h; cases h
        | ok b' =>
          rw [hbn] at h
          simp only at h ⊢
          cases hdoc : x.docid2Doc v.1 with
          | error e => rw [hdoc] at h; cases e <;> cases h
          | ok p => rw [hdoc] at h; exact ih k _ _ _ h

theorem get_more {grow : Nat → Nat} {x : Index} {fuel : Nat} {q : QState} {b r : Blot} (h : Query.get grow x fuel q b = .ok r) (k : Nat) : Query.get grow x (fuel + k) q b = .ok r := by
  unfold Query.get at h ⊢
  by_cases h0 : q.n = 0
  · rw [if_pos h0] at h; cases h
  · rw [if_neg h0] at h ⊢
    cases hs : x.shards[(b.blot % q.n).toNat]? with
    | none => simp only [hs] at h; cases h
    | some sh =>
      simp only [hs, bind, Except.bind] at h ⊢
      cases hr : sh.readStateFor (b.blot / q.n).toUInt16.toNat with
      | error e => rw [hr] at h; cases h
      | ok rs => rw [hr] at h; exact getLoop_more grow x _ fuel k rs b r h

/-- the loop finds nothing but texts of `m` that stand in the data -/
theorem findBlotsLoop_in (u : Uni) (seqLen : Int) (N : UInt32) (m : UInt32 → Option Bytes) (dat : Bytes) (all : List Tok) : ∀ (toks : List Tok) (b : Blotter) (i : Nat) (res res' : Index.Texts),
    Index.findBlotsLoop u seqLen N m dat all b i res toks = .ok res' → (res ≠ [] → ∃ x t, m x = some t ∧ t <:+: dat) → res' ≠ [] → ∃ x t, m x = some t ∧ t <:+: dat := by
  intro toks
  induction toks with
  | nil => intro b i res res' h; injection h with h; subst h; exact fun k => k
  | cons tok toks ih =>
    intro b i res res' h hres
    simp only [Index.findBlotsLoop, bind, Except.bind] at h
    cases hb : b.blot u tok.lit with
    | error e => rw [hb] at h; cases h
    | ok v =>
      rw [hb] at h
      simp only at h
      by_cases h1 : (i : Int) < seqLen
      · rw [if_pos h1] at h; exact ih _ _ _ _ h hres
      · rw [if_neg h1] at h
        by_cases h2 : N = 0
        · rw [if_pos h2] at h; cases h
        · rw [if_neg h2] at h
          cases hm : m (v.1 % N) with
          | none => rw [hm] at h; exact ih _ _ _ _ h hres
          | some t =>
            rw [hm] at h
            simp only at h
            cases hsp : Index.span seqLen all i tok with
            | error e => rw [hsp] at h; cases h
            | ok r =>
              rw [hsp] at h
              simp only at h
              cases hsl : slice dat r.1.toNat r.2.toNat with
              | error e => rw [hsl] at h; cases h
              | ok txt =>
                rw [hsl] at h
                simp only at h
                by_cases ht : t = txt
                · rw [if_pos ht] at h
                  refine ih _ _ _ _ h (fun _ => ⟨_, t, hm, ?_⟩)
                  rw [ht]
                  unfold slice at hsl
                  by_cases hc : r.1.toNat ≤ r.2.toNat ∧ r.2.toNat ≤ dat.length
                  · rw [if_pos hc] at hsl
                    injection hsl with hsl
                    rw [← hsl]
                    exact (List.take_prefix _ _).isInfix.trans (List.drop_suffix _ _).isInfix
                  · rw [if_neg hc] at hsl; cases hsl
                · rw [if_neg ht] at h; exact ih _ _ _ _ h hres

theorem findBlots_in {u : Uni} {fs : Files} {c : Config} {m : UInt32 → Option Bytes} {doc doc' : Doc} {rm : Index.Texts} (hd : doc.dat = none)
    (h : Index.findBlots u fs c m doc = .ok (rm, doc')) (hne : rm.length ≠ 0) :
    ∃ dat, partOf fs doc.path doc.start.toNat doc.stop.toNat = some dat ∧ ∃ x t, m x = some t ∧ t <:+: dat := by
  obtain ⟨l1, l2⟩ := load_part (fs := fs) hd
  simp only [Index.findBlots, bind, Except.bind] at h
  cases hp : partOf fs doc.path doc.start.toNat doc.stop.toNat with
  | none =>
    obtain ⟨e, he⟩ := l1 hp
    rw [he] at h; cases h
  | some dat =>
    refine ⟨dat, rfl, ?_⟩
    rw [l2 dat hp] at h
    simp only [Option.getD_some] at h
    cases h1 : c.tokenFunc with
    | error e => rw [h1] at h; cases h
    | ok _ =>
      rw [h1] at h
      simp only at h
      cases h2 : Token.tokenize u [] dat doc.start with
      | error e => rw [h2] at h; cases h
      | ok toks =>
        rw [h2] at h
        simp only at h
        cases h3 : c.blotter with
        | error e => rw [h3] at h; cases h
        | ok b =>
          rw [h3] at h
          simp only at h
          cases h4 : Index.findBlotsLoop u c.seqLen (Index.blotMod c) m dat (compact toks) b 0 [] (wordToks toks) with
          | error e => rw [h4] at h; cases h
          | ok r =>
            rw [h4] at h
            simp only [pure, Except.pure, Except.ok.injEq, Prod.mk.injEq] at h
            refine findBlotsLoop_in u _ _ m dat _ _ _ _ _ _ h4 (fun k => absurd rfl k) ?_
            rw [h.1]; intro e; exact hne (by rw [e]; rfl)

theorem likeDocs_in {u : Uni} {fs : Files} {c : Config} {bm : UInt32 → Option Bytes} : ∀ (ds : List Doc) (found out : List Cmd.DocKey), (∀ doc ∈ ds, doc.dat = none) →
    Cmd.likeDocs u fs c bm ds found = .ok out → ∀ k ∈ out, k ∈ found ∨ ∃ doc ∈ ds, Cmd.dkey doc = k ∧
      ∃ dat, partOf fs doc.path doc.start.toNat doc.stop.toNat = some dat ∧ ∃ x t, bm x = some t ∧ t <:+: dat := by
  intro ds
  induction ds with
  | nil => intro found out _ h; injection h with h; subst h; exact fun k hk => .inl hk
  | cons d ds ih =>
    intro found out hd h k hk
    simp only [Cmd.likeDocs] at h
    have hds : ∀ doc ∈ ds, doc.dat = none := fun doc h => hd doc (by simp [h])
    by_cases h1 : Cmd.dkey d ∈ found
    · rw [if_pos h1] at h
      rcases ih _ _ hds h k hk with g | ⟨doc, g1, g2⟩
      · exact .inl g
      · exact .inr ⟨doc, by simp [g1], g2⟩
    · rw [if_neg h1] at h
      simp only [bind, Except.bind] at h
      cases hf : Index.findBlots u fs c bm d with
      | error e => rw [hf] at h; cases h
      | ok v =>
        rw [hf] at h
        simp only at h
        by_cases h2 : v.1.length = 0
        · rw [if_pos h2] at h
          rcases ih _ _ hds h k hk with g | ⟨doc, g1, g2⟩
          · exact .inl g
          · exact .inr ⟨doc, by simp [g1], g2⟩
        · rw [if_neg h2] at h
          rcases ih _ _ hds h k hk with g | ⟨doc, g1, g2⟩
          · rcases List.mem_append.mp g with g | g
            · exact .inl g
            · rw [List.mem_singleton] at g
              exact .inr ⟨d, by simp, g.symm, findBlots_in (hd d (by simp)) hf h2⟩
          · exact .inr ⟨doc, by simp [g1], g2⟩

theorem likeLoop_in {u : Uni} {fs : Files} {grow : Nat → Nat} {x : Index} {fuel : Nat} {q : QState} {bm : UInt32 → Option Bytes} : ∀ (bs : List UInt32) (found out : List Cmd.DocKey),
    Cmd.likeLoop u fs grow x fuel q bm bs found = .ok out → ∀ k ∈ out, k ∈ found ∨ ∃ b ∈ bs, ∃ r, Query.get grow x fuel q ⟨b % Index.blotMod x.config, none⟩ = .ok r ∧
      ∃ doc ∈ r.vis, Cmd.dkey doc = k ∧ ∃ dat, partOf fs doc.path doc.start.toNat doc.stop.toNat = some dat ∧ ∃ x t, bm x = some t ∧ t <:+: dat := by
  intro bs
  induction bs with
  | nil => intro found out h; injection h with h; subst h; exact fun k hk => .inl hk
  | cons b bs ih =>
    intro found out h k hk
    simp only [Cmd.likeLoop] at h
    by_cases h1 : Index.blotMod x.config = 0
    · rw [if_pos h1] at h; cases h
    · rw [if_neg h1] at h
      simp only [bind, Except.bind] at h
      cases hg : Query.get grow x fuel q ⟨b % Index.blotMod x.config, none⟩ with
      | error e => rw [hg] at h; cases h
      | ok r =>
        rw [hg] at h
        simp only at h
        cases hd : Cmd.likeDocs u fs x.config bm r.vis found with
        | error e => rw [hd] at h; cases h
        | ok fnd =>
          rw [hd] at h
          simp only at h
          rcases ih _ _ h k hk with g | ⟨b', g1, g2⟩
          · rcases likeDocs_in _ _ _ (get_dat hg) hd k g with g | g
            · exact .inl g
            · exact .inr ⟨b, by simp, r, hg, g⟩
          · exact .inr ⟨b', by simp [g1], g2⟩

/-- **C121**, like.  In any directory that opens, whatever the bytes of its files, and with any files where the documents should be: all that `like` prints for a file below
4 GiB, if it ends without an error, are documents that stand in the list of a blot of the file, with the path, start and end of the record; and a passage of the file, with all
its words, stands in what the files hold of this document. -/
theorem C121_like {srt : Sorter} (hsrt : IsSorter srt) {d : Dir} {x : Index} (hx : Index.open Json.codec srt d = .ok x) (hF : Findable x.config) :
    ∃ q dmd f ns, x.startQuery = .ok q ∧ d .dmd = some dmd ∧ d .fnm = some f ∧ TableFile f ns ∧
      ∀ u fs grow fuel (dat : Bytes) (out : List Cmd.DocKey), dat.length < 2 ^ 32 → Cmd.like u fs grow x fuel q dat = .ok out → ∀ k ∈ out,
        (∃ (i b : Nat) (post : Bytes) (h : Int) (ids : List Nat) (id : Nat), bucketAt u x.config dat i = some b ∧
          ListAt d (b % x.config.numShards.toNat) (b / x.config.numShards.toNat) post h ∧ Reaches post h ids (-1) ∧ id ∈ ids ∧
          DocAs dmd ns id k.1 k.2.1.toNat k.2.2.toNat) ∧
        ∃ (i : Nat) (r : Nat × Nat) (part : Bytes), passage u x.config dat i = some r ∧ partOf fs k.1 k.2.1.toNat k.2.2.toNat = some part ∧ textAt dat r <:+: part := by
  have hn := hF.shards
  have hn' := hF.shardsSmall
  obtain ⟨q, dmd, f, ns, k1, k2, k3, k4, k5⟩ := C114_get hsrt hx hn (by omega)
  refine ⟨q, dmd, f, ns, k1, k2, k3, k4, fun u fs grow fuel dat out hl h k hk => ?_⟩
  obtain ⟨o1, o2, o3⟩ := opened hx
  obtain ⟨toks, ht, hw⟩ := tokenize_wordsAt u dat 0
  obtain ⟨bm, b1, b2⟩ := likeMap_spec u hF dat hl toks hw (blotsOf u x.config dat) 0 [] rfl
  have hblots : blotDoc u x.config [] dat 0 = .ok (blotsOf u x.config dat) := by
    rw [blotDoc_spec u x.config hF.cons.seq hF.cons.inter hF.cons.prod hF.cons.tok, blotsOf_eq]; rfl
  simp only [Cmd.like, hblots, tokenFunc_ok hF.cons.tok, ht, b1, bind, Except.bind] at h
  rcases likeLoop_in _ _ _ h k hk with g | ⟨y, hy, r, g1, doc, g2, g3, part, g4, z, t, g5, g6⟩
  · cases g
  subst g3
  have hN := Index.blotMod_toNat hn hn'
  constructor
  · obtain ⟨i, hi⟩ := List.mem_iff_getElem?.mp hy
    generalize hB : y % Index.blotMod x.config = B at g1
    have hBn : B.toNat = y.toNat % numBuckets x.config := by rw [← hB, UInt32.toNat_mod, hN.1]
    have hlt : B.toNat % x.config.numShards.toNat < x.shards.length := by rw [o2]; exact Nat.mod_lt _ (by omega)
    have hr := o3 _ _ (List.getElem?_eq_getElem hlt)
    obtain ⟨post, hd, hlist⟩ : ∃ post hd, ListAt d (B.toNat % x.config.numShards.toNat) (B.toNat / x.config.numShards.toNat % 65536) post hd := ⟨_, _, hr.list (B.toNat / x.config.numShards.toNat % 65536) _ (List.getElem?_eq_getElem (by rw [hr.heads]; exact Nat.mod_lt _ (by decide)))⟩
    have hdiv : B.toNat / x.config.numShards.toNat % 65536 = B.toNat / x.config.numShards.toNat := by
      apply Nat.mod_eq_of_lt
      rw [Nat.div_lt_iff_lt_mul (by omega), hBn]
      have : y.toNat % numBuckets x.config < numBuckets x.config := Nat.mod_lt _ (by unfold numBuckets; omega)
      unfold numBuckets at this ⊢
      omega
    obtain ⟨⟨F, hFt⟩, e1, e2, e3, e4⟩ := k5 grow ⟨B, none⟩ _ _ hlist
    have key : ∃ ids, GetFate dmd ns post hd none (.result ids) ∧
        Each (fun id (doc : Doc) => DocAs dmd ns id doc.path doc.start.toNat doc.stop.toNat) ids r.vis := by
      cases F with
      | result ids =>
        obtain ⟨r', new, z1, z2, z3, z4⟩ := e1 ids hFt (fuel + (ids.length + 1)) (by omega)
        rw [get_more g1] at z1; injection z1 with z1; subst z1
        exact ⟨ids, hFt, by rw [z3]; exact z4⟩
      | error =>
        obtain ⟨K, hK⟩ := e2 hFt
        obtain ⟨e, he⟩ := hK (fuel + (K + 1)) (by omega)
        rw [get_more g1] at he; cases he
      | panic =>
        obtain ⟨K, hK⟩ := e3 hFt
        have he := hK (fuel + (K + 1)) (by omega)
        rw [get_more g1] at he; cases he
      | endless =>
        have he := e4 hFt fuel
        rw [g1] at he; cases he
    obtain ⟨ids, hids, heach⟩ := key
    have hid : ∃ id ∈ ids, DocAs dmd ns id doc.path doc.start.toNat doc.stop.toNat := each_mem heach doc g2
    obtain ⟨id, hid, hdoc⟩ := hid
    refine ⟨i, B.toNat, _, _, ids, id, ?_, by rw [hdiv] at hlist; exact hlist, ?_, hid, hdoc⟩
    · unfold bucketAt; rw [hi, Option.map_some, hBn]
    · rcases hids.2 with ⟨e, _⟩ | ⟨_, e⟩
      · cases e
      · exact e
  · rw [b2] at g5
    rcases g5 with ⟨j, rg, _, m2, m3, m4, m5⟩ | ⟨m1, _⟩
    · exact ⟨j, rg, part, m3, g4, by rw [m4]; exact g6⟩
    · simp [Index.Texts.get] at m1

/-- an index of two documents: like prints both for one of them -/
theorem C121_like_nonvacuous : ∃ (d : Dir) (x : Index) (q : QState) (fuel : Nat), Index.open Json.codec mergeSorter d = .ok x ∧ Findable x.config ∧ x.startQuery = .ok q ∧
    ∃ out, Cmd.like asciiUni exCmdFiles (fun _ => 0) x fuel q exText1 = .ok out ∧ out ≠ [] := by
  obtain ⟨d, hd⟩ := History.exists (u := asciiUni) exCmd_usable [47] [⟨[116, 47, 112], 0, 22, some exText1⟩, ⟨[116, 47, 113], 0, 24, some exText2⟩] [] exCmd_fits
  change History asciiUni Json.codec exCmdConfig exCmdSessions d at hd
  obtain ⟨x, q, hx, hr⟩ := reading_exists exCmd_usable mergeSorter_isSorter hd exCmd_fits
  have hc : x.config = exCmdConfig := by
    obtain ⟨i1, _⟩ := openIndex_inv hx
    rw [(C97_sessions exCmd_usable hd exCmd_fits).1] at i1
    injection i1 with i1
    exact i1.symm
  have hlen : (documents exCmdSessions).length = 2 := by rw [exCmd_docs]; rfl
  refine ⟨d, x, q, 3, hx, by rw [hc]; exact ⟨exCmd_usable.cons, by decide, by decide⟩, hr.start, ?_⟩
  obtain ⟨out, k1, _, k3⟩ := C41_like exCmd_usable mergeSorter_isSorter hr exCmd_fits (by decide) exCmdFiles exCmd_unchanged (by rw [exCmd_docs]; decide) (fun _ => 0) 3 (by omega) exText1
    (by decide)
  refine ⟨out, k1, fun e => ?_⟩
  have hlast : ∃ (j : Nat) (r : Nat × Nat) (b : Nat), passage asciiUni exCmdConfig exText1 j = some r ∧ bucketAt asciiUni exCmdConfig exText1 j = some b ∧
      ∀ j', j < j' → bucketAt asciiUni exCmdConfig exText1 j' ≠ some b := by
    have h0 : (blotsOf asciiUni exCmdConfig exText1).length ≠ 0 := by decide +kernel
    have hl : (blotsOf asciiUni exCmdConfig exText1).length - 1 < (blotsOf asciiUni exCmdConfig exText1).length := by omega
    obtain ⟨r, hr⟩ := Option.isSome_iff_exists.mp ((passage_some exCmd_usable.cons exText1 _).1.mp hl)
    refine ⟨_, r, _, hr, by unfold bucketAt; rw [List.getElem?_eq_getElem hl]; rfl, fun j' hj' => ?_⟩
    unfold bucketAt; rw [List.getElem?_eq_none (by omega)]; exact nofun
  obtain ⟨j, r, b, h1, h2, h3⟩ := hlast
  have := (k3 (([47, 116, 47, 112] : Bytes), 0, 22)).mpr ⟨⟨[47, 116, 47, 112], 0, 22, exText1⟩, by rw [exCmd_docs]; simp, rfl, j, j, r, r, b, h1, h1, rfl, h2, h3⟩
  rw [e] at this; cases this

end Dupi.Props
