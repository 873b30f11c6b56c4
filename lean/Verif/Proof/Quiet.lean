import Verif.Proof.Size
import Verif.Spec.Quiet
/-! # What a session changes -/

namespace Dupi
open Spec

/-! ### Bytes of blocks that are changed by appending blocks -/

theorem changed_nil (g : Bytes) : changed [] g = 0 := rfl

theorem changed_append (a b c d : Bytes) (h : a.length = c.length) : changed (a ++ b) (c ++ d) = changed a c + changed b d := by
  unfold changed
  rw [List.length_append, List.range_add, List.countP_append]
  congr 1
  · apply List.countP_congr
    intro i hi
    have := List.mem_range.mp hi
    rw [List.getElem?_append_left this, List.getElem?_append_left (by omega)]
  · rw [List.countP_map]
    apply List.countP_congr
    intro i _
    simp only [Function.comp]
    rw [List.getElem?_append_right (by omega), List.getElem?_append_right (by omega), h, Nat.add_sub_cancel_left]

theorem changed_self (a : Bytes) (b : Bytes) : changed a (a ++ b) = 0 := by
  unfold changed
  rw [List.countP_eq_zero]
  intro i hi
  have := List.mem_range.mp hi
  rw [List.getElem?_append_left this]; simp

theorem changed_le (a b : Bytes) : changed a b ≤ a.length := by
  unfold changed
  have := List.countP_le_length (p := fun i => decide (a[i]? ≠ b[i]?)) (l := List.range a.length)
  rwa [List.length_range] at this

theorem linkBytes_neg : linkBytes (-1) = List.replicate 8 255 := by decide

theorem nextOff_appendB (o : Nat) (a b : List Blk) : ∀ off, nextOff o off (a ++ b) =
    if nextOff o off a ≠ -1 then nextOff o off a else nextOff o (off + sizes a) b := by
  induction a with
  | nil => intro off; simp [nextOff, sizes]
  | cons x a ih =>
    intro off
    simp only [List.cons_append, nextOff, ih, sizes_cons]
    by_cases h : x.owner = o
    · have : (off : Int) ≠ -1 := by omega
      simp [h, this]
    · simp [h, Nat.add_assoc]

theorem nextOff_none {o : Nat} (bs : List Blk) : ∀ off, nextOff o off bs = -1 ↔ ∀ b ∈ bs, b.owner ≠ o := by
  induction bs with
  | nil => intro off; simp [nextOff]
  | cons b bs ih =>
    intro off
    simp only [nextOff, List.mem_cons, forall_eq_or_imp]
    by_cases h : b.owner = o
    · simp [h]
    · simp [h, ih]

/-- the number of owners below `n` that have a block in `a` and in `b` -/
def both (n : Nat) (a b : List Blk) : Nat :=
  (List.range n).countP fun o => a.any (fun x => decide (x.owner = o)) && b.any fun x => decide (x.owner = o)

theorem countP_range_or (n k : Nat) (p : Nat → Bool) (h : p k = false) (hk : k < n) :
    (List.range n).countP (fun o => decide (o = k) || p o) = (List.range n).countP p + 1 := by
  induction n with
  | zero => omega
  | succ n ih =>
    rw [List.range_succ, List.countP_append, List.countP_append, List.countP_singleton, List.countP_singleton]
    by_cases e : n = k
    · subst e
      have : (List.range n).countP (fun o => decide (o = n) || p o) = (List.range n).countP p := by
        apply List.countP_congr
        intro i hi
        have := List.mem_range.mp hi
        have : i ≠ n := by omega
        simp [this]
      rw [this]; simp [h]
    · rw [ih (by omega)]
      simp only [e, decide_false, Bool.false_or]
      omega

/-- only links that were -1 change, one for each owner -/
theorem render_changed (n : Nat) (ex bs : List Blk) (ho : ∀ b ∈ bs, b.owner < n) : ∀ off,
    changed (render off bs) (render off (bs ++ ex)) ≤ 8 * both n bs ex ∧
    ∀ i, i < (render off bs).length → (render off (bs ++ ex))[i]? ≠ (render off bs)[i]? → (render off bs)[i]? = some 255 := by
  induction bs with
  | nil => intro off; exact ⟨by simp [render, changed_nil], by simp [render]⟩
  | cons b bs ih =>
    intro off
    obtain ⟨h1, h2⟩ := ih (fun x hx => ho x (by simp [hx])) (off + b.size)
    have hb := ho b (by simp)
    have key : changed (b.hdr ++ (b.payload ++ linkBytes (nextOff b.owner (off + b.size) bs)))
        (b.hdr ++ (b.payload ++ linkBytes (nextOff b.owner (off + b.size) (bs ++ ex)))) + 8 * both n bs ex ≤ 8 * both n (b :: bs) ex ∧
        (linkBytes (nextOff b.owner (off + b.size) bs) = linkBytes (nextOff b.owner (off + b.size) (bs ++ ex)) ∨
          linkBytes (nextOff b.owner (off + b.size) bs) = List.replicate 8 255) := by
      rw [changed_append _ _ _ _ rfl, changed_append _ _ _ _ rfl]
      have e0 : ∀ a, changed a a = 0 := fun a => by simpa using changed_self a []
      rw [e0, e0, Nat.zero_add, Nat.zero_add]
      have mono : both n bs ex ≤ both n (b :: bs) ex := by
        apply List.countP_mono_left
        intro o _ h
        simp only [Bool.and_eq_true, List.any_cons, Bool.or_eq_true] at h ⊢
        exact ⟨.inr h.1, h.2⟩
      rw [nextOff_appendB]
      by_cases e1 : nextOff b.owner (off + b.size) bs = -1
      · rw [if_neg (by simpa using e1)]
        refine ⟨?_, .inr (by rw [e1, linkBytes_neg])⟩
        by_cases e2 : nextOff b.owner (off + b.size + sizes bs) ex = -1
        · rw [e1, e2, e0]; omega
        · have h3 : both n (b :: bs) ex = both n bs ex + 1 := by
            have e3 : ex.any (fun x => decide (x.owner = b.owner)) = true := by
              rw [nextOff_none] at e2
              have ⟨x, hx⟩ := Classical.not_forall.mp e2
              rw [List.any_eq_true]
              obtain ⟨hx1, hx2⟩ := Classical.not_imp.mp hx
              exact ⟨x, hx1, by simpa using hx2⟩
            have e4 : bs.any (fun x => decide (x.owner = b.owner)) = false := by
              rw [nextOff_none] at e1
              rw [List.any_eq_false]
              intro x hx; simpa using e1 x hx
            unfold both
            rw [← countP_range_or n b.owner _ (by rw [e4]; rfl) hb]
            apply List.countP_congr
            intro o _
            by_cases e5 : o = b.owner
            · subst e5; simp only [List.any_cons, e3, decide_true, Bool.true_or, Bool.and_true]
            · have : ¬ b.owner = o := fun h => e5 h.symm
              simp [e5, this]
          have := changed_le (linkBytes (nextOff b.owner (off + b.size) bs)) (linkBytes (nextOff b.owner (off + b.size + sizes bs) ex))
          rw [linkBytes_length] at this
          omega
      · rw [if_pos e1, e0]
        exact ⟨by omega, .inl rfl⟩
    obtain ⟨k1, k2⟩ := key
    rw [List.cons_append, render, render]
    constructor
    · rw [changed_append _ _ _ _ (by simp [linkBytes_length])]
      omega
    · intro i hi hne
      have hL : (b.hdr ++ (b.payload ++ linkBytes (nextOff b.owner (off + b.size) bs))).length = b.size := by
        simp [linkBytes_length, Blk.size]; omega
      have r1 : ∀ (l l' : Int) (R : Bytes), (b.hdr ++ (b.payload ++ linkBytes l) ++ R)[i]? =
          if i < b.hdr.length then b.hdr[i]? else if i - b.hdr.length < b.payload.length then b.payload[i - b.hdr.length]?
          else if i < b.size then (linkBytes l)[i - b.hdr.length - b.payload.length]? else R[i - b.size]? := by
        intro l l' R
        have hl := linkBytes_length l
        by_cases e1 : i < b.hdr.length
        · rw [if_pos e1, List.append_assoc, List.getElem?_append_left e1]
        · rw [if_neg e1, List.append_assoc, List.getElem?_append_right (by omega), List.append_assoc]
          by_cases e2 : i - b.hdr.length < b.payload.length
          · rw [if_pos e2, List.getElem?_append_left e2]
          · rw [if_neg e2, List.getElem?_append_right (by omega)]
            by_cases e3 : i < b.size
            · rw [if_pos e3, List.getElem?_append_left (by unfold Blk.size at e3; omega)]
            · rw [if_neg e3, List.getElem?_append_right (by unfold Blk.size at e3; omega), hl]
              congr 1
              unfold Blk.size at e3 ⊢; omega
      rw [r1 _ 0, r1 _ 0] at hne
      rw [r1 _ 0]
      by_cases e1 : i < b.hdr.length
      · rw [if_pos e1, if_pos e1] at hne; exact absurd rfl hne
      · rw [if_neg e1, if_neg e1] at hne
        rw [if_neg e1]
        by_cases e2 : i - b.hdr.length < b.payload.length
        · rw [if_pos e2, if_pos e2] at hne; exact absurd rfl hne
        · rw [if_neg e2, if_neg e2] at hne
          rw [if_neg e2]
          by_cases e3 : i < b.size
          · rw [if_pos e3, if_pos e3] at hne
            rw [if_pos e3]
            rcases k2 with k2 | k2
            · rw [k2] at hne; exact absurd rfl hne
            · rw [k2, List.getElem?_replicate, if_pos (by unfold Blk.size at e3; omega)]
          · rw [if_neg e3, if_neg e3] at hne
            rw [if_neg e3]
            exact h2 _ (by rw [List.length_append, hL] at hi; omega) hne

/-! ### Opened shards -/

section
variable {u : Uni} {J : CfgCodec} {c : Config} (hU : Usable J c) {docs : List Document} {d : Dir} {x : Indexer}

include hU

/-- the shards of an indexer that has just been opened -/
theorem open_shards (hr : DirRep u J c d docs) (hf : Fits u c docs) (ho : Indexer.open J d = .ok x) {j : Nat} (hj : j < c.numShards.toNat) :
    ∃ bs ps, d (.pos j) = some (render 0 bs) ∧ d (.iix j) = some (ps.flatMap ShardIndexer.iixEntry) ∧ x.shards[j]? = some ⟨ps, render 0 bs⟩ ∧
      ClosedRep 65536 bs ps (postings (shardPosts u c j 1 docs)) := by
  obtain ⟨y, g1, g2⟩ := open_rep hU hr hf
  have := ho.symm.trans g1
  injection this with this
  subst this
  obtain ⟨bs, ps, k1, k2, k3, k4⟩ := hr.small hf.posts hj
  refine ⟨bs, ps, k1, k2, ?_, k3⟩
  have hsh : ∃ xs, Indexer.openShards d c.numShards.toNat 0 = .ok xs ∧ x.shards = xs := by
    have hn := hU.shards
    have h7 := ho
    simp only [Indexer.open, Config.readFrom, Dir.read, hr.cfg, hU.codec, hU.check, Indexer.makeShards, if_neg (show ¬ c.numShards < 0 by omega),
      bind, Except.bind, pure, Except.pure] at h7
    cases ho : Indexer.openShards d c.numShards.toNat 0 with
    | error e => simp only [ho] at h7; repeat (first | cases h7 | split at h7)
    | ok xs =>
      refine ⟨xs, rfl, ?_⟩
      simp only [ho] at h7
      repeat (first | (injection h7 with h7; rw [← h7]; done) | cases h7 | split at h7)
  obtain ⟨xs, e1, e2⟩ := hsh
  have hjx : j < x.shards.length := by rw [g2.nsh]; exact hj
  obtain ⟨iix, post, m1, m2, m3⟩ := openShards_inv _ e1 j _ (by rw [← e2]; exact List.getElem?_eq_getElem hjx)
  rw [Nat.zero_add, k2] at m1
  rw [Nat.zero_add, k1] at m2
  injection m1 with m1
  injection m2 with m2
  rw [← m1, ← m2, k3.reopen k4] at m3
  injection m3 with m3
  rw [List.getElem?_eq_getElem hjx, ← m3]

/-- what a session does to a shard -/
theorem session_blocks (hr : DirRep u J c d docs) (ho : Indexer.open J d = .ok x) {cwd : Bytes} {new : List Doc} {d' : Dir}
    (hs : Indexer.Session u J cwd x new d d') (hf : Fits u c (docs ++ added cwd new)) {j : Nat} (hj : j < c.numShards.toNat) :
    ∃ bs ps ex ps', d (.pos j) = some (render 0 bs) ∧ d (.iix j) = some (ps.flatMap ShardIndexer.iixEntry) ∧
      d' (.pos j) = some (render 0 (bs ++ ex)) ∧ d' (.iix j) = some (ps'.flatMap ShardIndexer.iixEntry) ∧
      ClosedRep 65536 bs ps (postings (shardPosts u c j 1 docs)) ∧
      ClosedRep 65536 (bs ++ ex) ps' (postings (shardPosts u c j 1 (docs ++ added cwd new))) := by
  obtain ⟨y, g1, hx⟩ := open_rep hU hr hf.left
  have := ho.symm.trans g1
  injection this with this
  subst this
  obtain ⟨rs, front, k, t, h1, h2, h3, h4, _⟩ := hs.close
  obtain ⟨front', g1, _⟩ := Front.adds_rep cwd new hx.front hf.ids hf.paths
  have e := h1.symm.trans g1
  injection e with e
  injection e with e _
  subst e
  obtain ⟨bs, ps, a1, a2, k1, k2⟩ := open_shards hU hr hf.left ho hj
  obtain ⟨m1, _⟩ := session_shards hU hx cwd new hf h2 h3 hj
  obtain ⟨f, n1, n2, n3⟩ := h4 j (by rw [hx.nsh]; exact hj)
  rw [List.getD_eq_getElem?_getD, k1, Option.getD_some] at m1
  have hids := hf.ids
  have e2 : shardPosts u c j 1 (docs ++ added cwd new) = shardPosts u c j 1 docs ++ shardPosts u c j (docs.length + 1) (added cwd new) := by
    rw [shardPosts_append, Nat.add_comm]
  obtain ⟨bs', ps', r1, r2, r3, ⟨ex, rfl⟩, r4⟩ := shard_session k2 (shardPosts_bucket u c j _ _) (by
    intro b; rw [← e2]; exact postings_shardPosts_length u c j hj _ (by omega) b) m1 n1
  rw [← e2] at r3
  exact ⟨bs, ps, ex, ps', a1, a2, by rw [n2, r1], by rw [n3, r2], k2, r3⟩

end

/-- blocks that add nothing to a bucket are not blocks of it -/
theorem ClosedRep.ext_owner {n : Nat} {bs ex : List Blk} {ps ps' : List Poster} {vals vals' : Nat → List UInt32} (h : ClosedRep n bs ps vals)
    (h' : ClosedRep n (bs ++ ex) ps' vals') {o : Nat} (ho : o < n) (he : vals' o = vals o) : ∀ b ∈ ex, b.owner ≠ o := by
  have hps : o < ps.length := by rw [h.len]; exact ho
  have hps' : o < ps'.length := by rw [h'.len]; exact ho
  have a1 := (h.rep o _ (List.getElem?_eq_getElem hps)).1.closed (h.rep o _ (List.getElem?_eq_getElem hps)).2
  have a2 := (h'.rep o _ (List.getElem?_eq_getElem hps')).1.closed (h'.rep o _ (List.getElem?_eq_getElem hps')).2
  rw [he, ← a1, show Dupi.flushed o (bs ++ ex) = Dupi.flushed o bs ++ Dupi.flushed o ex by simp [Dupi.flushed]] at a2
  have a3 : Dupi.flushed o ex = [] := List.append_cancel_left (as := Dupi.flushed o bs) (a2.trans (List.append_nil _).symm)
  intro b hb e
  have hne := (h'.wf b (by simp [hb])).ne
  unfold Dupi.flushed at a3
  rw [List.flatMap_eq_nil_iff] at a3
  exact hne (a3 b (by rw [List.mem_filter]; exact ⟨hb, by simpa using e⟩))

/-- the poster of a bucket is determined by the blocks and the postings -/
theorem ClosedRep.poster_eq {n : Nat} {bs : List Blk} {ps ps' : List Poster} {vals vals' : Nat → List UInt32} (h : ClosedRep n bs ps vals)
    (h' : ClosedRep n bs ps' vals') (he : ∀ o, o < n → vals' o = vals o) : ps'.flatMap ShardIndexer.iixEntry = ps.flatMap ShardIndexer.iixEntry := by
  have key : ps'.map ShardIndexer.iixEntry = ps.map ShardIndexer.iixEntry := by
    apply List.ext_getElem?
    intro o
    rw [List.getElem?_map, List.getElem?_map]
    by_cases ho : o < n
    · have hps : o < ps.length := by rw [h.len]; exact ho
      have hps' : o < ps'.length := by rw [h'.len]; exact ho
      obtain ⟨a, _⟩ := h.rep o _ (List.getElem?_eq_getElem hps)
      obtain ⟨b, _⟩ := h'.rep o _ (List.getElem?_eq_getElem hps')
      rw [List.getElem?_eq_getElem hps, List.getElem?_eq_getElem hps', Option.map_some, Option.map_some, ShardIndexer.iixEntry, ShardIndexer.iixEntry,
        a.head, b.head, a.current, b.current, a.total, b.total, he o ho]
    · rw [List.getElem?_eq_none (by rw [h'.len]; omega), List.getElem?_eq_none (by rw [h.len]; omega)]
  rw [List.flatMap_def, List.flatMap_def, key]

/-! ### The tables of the documents and of the paths -/

theorem Indexer.open_front {J : CfgCodec} {d : Dir} {x : Indexer} (h : Indexer.open J d = .ok x) :
    ∃ b, d .fnm = some b ∧ Fnames.read b = .ok x.front.fnames ∧ Dmd.newAdder (d .dmd) x.config.docFlushRate = .ok x.front.dmds ∧
      x.front.file = d .dmd := by
  simp only [Indexer.open, bind, Except.bind, pure, Except.pure] at h
  cases h1 : Config.readFrom J d with
  | error e => simp only [h1] at h; cases h
  | ok c =>
    simp only [h1] at h
    cases h2 : Indexer.makeShards c with
    | error e => simp only [h2] at h; cases h
    | ok n =>
      simp only [h2] at h
      cases h3 : Dmd.newAdder (d .dmd) c.docFlushRate with
      | error e => simp only [h3] at h; cases h
      | ok a =>
        simp only [h3] at h
        cases h4 : d .fnm with
        | none => simp only [Dir.read, h4] at h; cases h
        | some b =>
          simp only [Dir.read, h4] at h
          cases h5 : Fnames.read b with
          | error e => simp only [h5] at h; cases h
          | ok t =>
            simp only [h5] at h
            refine ⟨b, rfl, ?_⟩
            cases h6 : c.tokenConfig.fromConfig with
            | error e => simp only [h6] at h; cases h
            | ok _ =>
              simp only [h6] at h
              cases h7 : Indexer.openShards d n 0 with
              | error e => simp only [h7] at h; cases h
              | ok xs =>
                simp only [h7] at h
                cases h8 : Indexer.makeBlotters c with
                | error e => simp only [h8] at h; cases h
                | ok bs =>
                  simp only [h8, Except.ok.injEq] at h
                  rw [← h]; exact ⟨h5, h3, rfl⟩

theorem Session.front_files {u : Uni} {J : CfgCodec} {cwd : Bytes} {x : Indexer} {docs : List Doc} {d d' : Dir}
    (h : Indexer.Session u J cwd x docs d d') : ∃ rs front, x.front.adds cwd docs = .ok (rs, front) ∧ d' .fnm = some (Fnames.write front.fnames) ∧
      ∀ b, Dmd.close front.dmds front.file = some b → d' .dmd = some b := by
  obtain ⟨h1, h2, h3, h4⟩ := h
  rename_i rs front k t
  unfold Indexer.close at h4
  obtain ⟨_, g2⟩ := closeShards_spec _ _ h4
  refine ⟨rs, front, h1, ?_, fun b hb => ?_⟩
  · rw [g2 _ (fun i hi => ⟨by simp, by simp⟩)]
    cases Dmd.close front.dmds front.file <;> simp [Dir.set]
  · rw [g2 _ (fun i hi => ⟨by simp, by simp⟩), hb]
    simp [Dir.set]

theorem Front.adds_dmds (cwd : Bytes) (docs : List Doc) : ∀ {x y : Front} {rs : List Front.Req} {hist : List Fields},
    x.adds cwd docs = .ok (rs, y) → Dmd.Inv x.dmds x.file hist → hist.length + docs.length < 2 ^ 32 →
    ∃ more, more.length = docs.length ∧ Dmd.Inv y.dmds y.file (hist ++ more) := by
  induction docs with
  | nil =>
    intro x y rs hist h hi _
    simp only [Front.adds, Except.ok.injEq, Prod.mk.injEq] at h
    rw [← h.2]; exact ⟨[], rfl, by simpa using hi⟩
  | cons doc docs ih =>
    intro x y rs hist h hi hl
    rw [List.length_cons] at hl
    simp only [Front.adds, Front.add, bind, Except.bind, pure, Except.pure] at h
    cases h1 : Fnames.addPath cwd x.fnames doc.path with
    | error e => simp only [h1] at h; cases h
    | ok r =>
      obtain ⟨n, t⟩ := r
      simp only [h1] at h
      obtain ⟨k1, _⟩ := Dmd.add_inv hi ⟨n, doc.start, doc.stop⟩ (by omega)
      cases h2 : Front.adds cwd ⟨t, (Dmd.add x.dmds x.file ⟨n, doc.start, doc.stop⟩).2.1, (Dmd.add x.dmds x.file ⟨n, doc.start, doc.stop⟩).2.2⟩ docs with
      | error e => simp only [h2] at h; cases h
      | ok r =>
        simp only [h2, Except.ok.injEq, Prod.mk.injEq] at h
        obtain ⟨more, m1, m2⟩ := ih h2 k1 (by simp; omega)
        refine ⟨⟨n, doc.start, doc.stop⟩ :: more, by simp [m1], ?_⟩
        rw [← h.2, show hist ++ ⟨n, doc.start, doc.stop⟩ :: more = hist ++ [⟨n, doc.start, doc.stop⟩] ++ more by simp]
        exact m2

theorem Front.adds_known (cwd : Bytes) (docs : List Doc) : ∀ {x y : Front} {rs : List Front.Req}, x.adds cwd docs = .ok (rs, y) → Fnames.WF x.fnames →
    (∀ doc ∈ docs, ∃ v, Fnames.Comps x.fnames v (Fnames.pathParts (absPath cwd doc.path))) → y.fnames = x.fnames := by
  induction docs with
  | nil =>
    intro x y rs h _ _
    simp only [Front.adds, Except.ok.injEq, Prod.mk.injEq] at h
    rw [← h.2]
  | cons doc docs ih =>
    intro x y rs h hw hk
    obtain ⟨v, hv⟩ := hk doc (by simp)
    have hlen : 0 < x.fnames.length := by
      obtain ⟨r, hr, _⟩ := hw.root
      exact (List.getElem?_eq_some_iff.mp hr).1
    obtain ⟨v', h1, _⟩ := Fnames.addParts_present (Fnames.pathParts (absPath cwd doc.path)) (p := 0) (cs := []) hw .root (by simpa using hlen)
      (by simpa using hv)
    simp only [Front.adds, Front.add, Fnames.addPath, h1, bind, Except.bind, pure, Except.pure] at h
    cases h2 : Front.adds cwd ⟨x.fnames, (Dmd.add x.dmds x.file ⟨v', doc.start, doc.stop⟩).2.1, (Dmd.add x.dmds x.file ⟨v', doc.start, doc.stop⟩).2.2⟩ docs with
    | error e => simp only [h2] at h; cases h
    | ok r =>
      simp only [h2, Except.ok.injEq, Prod.mk.injEq] at h
      rw [← h.2]
      have := ih h2 hw fun e he => hk e (by simp [he])
      exact this

end Dupi
