import Verif.Proof.FaultsShard
/-! # Sessions in which system calls failed -/

namespace Dupi
open Spec

/-! ### Without an error everything is as if no call could fail -/

theorem writesF_true (bs : List Bytes) : ∀ {file f : Bytes} {φ φ' : Fates}, Dmd.writesF file bs φ = (true, f, φ') → f = file ++ bs.flatten := by
  induction bs with
  | nil => intro file f φ φ' h; simp only [Dmd.writesF, Prod.mk.injEq, true_and] at h; simp [h.1]
  | cons b bs ih =>
    intro file f φ φ' h
    simp only [Dmd.writesF] at h
    split at h
    · rw [ih h]; simp
    · simp at h

theorem dmd_addF_some {t t' : Dmd.Adder} {file file' : Option Bytes} {x : Fields} {φ φ' : Fates} {id : UInt32}
    (h : Dmd.addF t file x φ = (some id, t', file', φ')) : Dmd.add t file x = (id, t', file') := by
  unfold Dmd.addF at h
  unfold Dmd.add
  by_cases hc : UInt32.ofNat t.buf.length = t.flushRate
  · rw [if_pos hc] at h
    rw [if_pos hc]
    unfold Dmd.flushF at h
    cases hn : Fates.now φ with
    | some k => simp [hn] at h
    | none =>
      simp only [hn] at h
      generalize hG : Dmd.writesF (file.getD []) (t.buf.map Dmd.encode) φ.tail = r at h
      obtain ⟨ok, f, ρ⟩ := r
      cases ok with
      | false => simp at h
      | true =>
        have := writesF_true _ hG
        simp only [if_true, Prod.mk.injEq, Option.some.injEq] at h
        obtain ⟨rfl, rfl, rfl, rfl⟩ := h
        simp [Dmd.flush, this, List.flatMap_def]
  · rw [if_neg hc] at h
    rw [if_neg hc]
    simp only [if_true, Prod.mk.injEq, Option.some.injEq] at h
    obtain ⟨rfl, rfl, rfl, rfl⟩ := h
    rfl

theorem front_addsF_some (cwd : Bytes) (docs : List Doc) : ∀ {x y : Front} {rs : List (Option Front.Req)} {φ φ' : Fates},
    x.addsF cwd docs φ = .ok (rs, y, φ') → (∀ r ∈ rs, r ≠ none) → x.adds cwd docs = .ok (rs.filterMap id, y) := by
  induction docs with
  | nil =>
    intro x y rs φ φ' h _
    simp only [Front.addsF, Except.ok.injEq, Prod.mk.injEq] at h
    obtain ⟨rfl, rfl, rfl⟩ := h
    rfl
  | cons doc docs ih =>
    intro x y rs φ φ' h hr
    simp only [Front.addsF, Front.addF, bind, Except.bind, pure, Except.pure] at h
    simp only [Front.adds, Front.add, bind, Except.bind, pure, Except.pure]
    cases hp : Fnames.addPath cwd x.fnames doc.path with
    | error e => simp [hp] at h
    | ok r =>
      obtain ⟨n, t⟩ := r
      simp only [hp] at h ⊢
      generalize hG : Dmd.addF x.dmds x.file ⟨n, doc.start, doc.stop⟩ φ = r at h
      obtain ⟨id, a, f, ρ⟩ := r
      simp only [] at h
      generalize hH : Front.addsF cwd ⟨t, a, f⟩ docs ρ = r at h
      match r, hH, h with
      | .error _, _, h => simp at h
      | .ok (rs', y', ρ'), hH, h =>
        simp only [Except.ok.injEq, Prod.mk.injEq] at h
        obtain ⟨rfl, rfl, rfl⟩ := h
        cases id with
        | none => exact absurd rfl (hr _ (by simp))
        | some i =>
          rw [dmd_addF_some hG]
          simp only []
          rw [ih hH (fun r hr' => hr r (by simp [hr']))]
          simp

theorem flushTailF_true {p p' : Poster} {size : Nat} {f f' : Bytes} {φ φ' : Fates} (h : p.flushTailF size f φ = (true, p', f', φ')) :
    p' = { p with link := (size : Int) + (putVarint (p.posts ++ ff8).length).length + (p.posts ++ ff8).length - 8, posts := [] } ∧
    f' = Poster.applyWrites f [(size, putVarint (p.posts ++ ff8).length), (size + (putVarint (p.posts ++ ff8).length).length, p.posts ++ ff8)] := by
  unfold Poster.flushTailF at h
  split at h
  · simp at h
  · simp only [] at h
    split at h
    · simp at h
    · split at h
      · simp at h
      · simp only [Prod.mk.injEq, true_and] at h
        obtain ⟨rfl, rfl, rfl⟩ := h
        exact ⟨rfl, rfl⟩

theorem flushF_true {p p' : Poster} {f f' : Bytes} {φ φ' : Fates} (h : p.flushF f φ = (true, p', f', φ')) : p.flushTo f = .ok (p', f') := by
  unfold Poster.flushF at h
  unfold Poster.flushTo Poster.flushWrites
  by_cases he : p.posts = []
  · rw [if_pos he] at h ⊢
    simp only [Prod.mk.injEq, true_and] at h
    obtain ⟨rfl, rfl, rfl⟩ := h
    rfl
  · rw [if_neg he] at h ⊢
    split at h
    · simp at h
    · simp only [] at h
      by_cases hl : p.link ≠ -1
      · rw [if_pos hl] at h
        by_cases hn : p.link < 0
        · rw [if_pos hn] at h; simp at h
        · rw [if_neg hn] at h
          split at h
          · simp at h
          · obtain ⟨rfl, rfl⟩ := flushTailF_true h
            simp only [if_pos hl, if_neg hn, bind, Except.bind, pure, Except.pure]
            rfl
      · rw [if_neg hl] at h
        obtain ⟨rfl, rfl⟩ := flushTailF_true h
        simp only [if_neg hl, bind, Except.bind, pure, Except.pure]
        rfl

theorem addPostF_true {p p' : Poster} {v : UInt32} {f f' : Bytes} {φ φ' : Fates} (h : p.addPostF v f φ = (true, p', f', φ')) :
    p.addPost v f = .ok (p', f') := by
  unfold Poster.addPostF at h
  unfold Poster.addPost
  split
  · rename_i hc
    rw [if_pos hc] at h
    simp only [Prod.mk.injEq, true_and] at h
    obtain ⟨rfl, rfl, rfl⟩ := h
    rfl
  · rename_i hc
    rw [if_neg hc] at h
    simp only [] at h ⊢
    split
    · rename_i hl
      rw [if_pos hl] at h
      exact flushF_true h
    · rename_i hl
      rw [if_neg hl] at h
      simp only [Prod.mk.injEq, true_and] at h
      obtain ⟨rfl, rfl, rfl⟩ := h
      rfl

theorem FShard.addAll_true (ps : List (UInt32 × Nat)) : ∀ {s s' : FShard}, s.addAll ps = .ok s' → s'.logged = false →
    s.logged = false ∧ s.x.addAll ps = .ok s'.x := by
  induction ps with
  | nil =>
    intro s s' h hl
    simp only [FShard.addAll, Except.ok.injEq] at h
    subst h
    exact ⟨hl, rfl⟩
  | cons q ps ih =>
    obtain ⟨d, b⟩ := q
    intro s s' h hl
    simp only [FShard.addAll, bind, Except.bind, FShard.add] at h
    simp only [ShardIndexer.addAll, bind, Except.bind, ShardIndexer.add, pure, Except.pure]
    cases hg : s.x.ind[b]? with
    | none => simp [hg, panic'] at h
    | some p =>
      simp only [hg] at h ⊢
      generalize hG : p.addPostF d s.x.file s.fates = r at h
      obtain ⟨ok, p', f', φ'⟩ := r
      simp only [] at h
      obtain ⟨h1, h2⟩ := ih h hl
      simp only [Bool.or_eq_false_iff, Bool.not_eq_false'] at h1
      obtain ⟨h1, rfl⟩ := h1
      rw [addPostF_true hG]
      exact ⟨h1, h2⟩

theorem flushIndF_true (ps : List Poster) : ∀ {f f' : Bytes} {φ φ' : Fates} {ps' : List Poster}, FShard.flushIndF ps f φ = (true, ps', f', φ') →
    ShardIndexer.flushInd ps f = .ok (ps', f') := by
  induction ps with
  | nil =>
    intro f f' φ φ' ps' h
    simp only [FShard.flushIndF, Prod.mk.injEq, true_and] at h
    obtain ⟨rfl, rfl, rfl⟩ := h
    rfl
  | cons p ps ih =>
    intro f f' φ φ' ps' h
    simp only [FShard.flushIndF] at h
    generalize hG : p.flushF f φ = r at h
    obtain ⟨ok, p1, f1, φ1⟩ := r
    cases ok with
    | false => simp at h
    | true =>
      simp only [] at h
      generalize hH : FShard.flushIndF ps f1 φ1 = r at h
      obtain ⟨ok, ps2, f2, φ2⟩ := r
      simp only [Prod.mk.injEq] at h
      obtain ⟨rfl, rfl, rfl, rfl⟩ := h
      simp only [ShardIndexer.flushInd, flushF_true hG, ih hH, bind, Except.bind, pure, Except.pure]

theorem closeShardsF_true (sh : Nat → FShard) (n : Nat) : ∀ {d d' : Dir}, Indexer.closeShardsF sh n d = (true, d') →
    Indexer.closeShards (fun j => (sh j).x) n d = .ok d' := by
  induction n with
  | zero =>
    intro d d' h
    simp only [Indexer.closeShardsF, Prod.mk.injEq, true_and] at h
    subst h; rfl
  | succ n ih =>
    intro d d' h
    simp only [Indexer.closeShardsF] at h
    generalize hG : Indexer.closeShardsF sh n d = r at h
    obtain ⟨ok, d1⟩ := r
    simp only [] at h
    generalize hH : (sh n).close n d1 = r at h
    obtain ⟨ok', d2⟩ := r
    simp only [Prod.mk.injEq, Bool.and_eq_true] at h
    obtain ⟨⟨rfl, rfl⟩, rfl⟩ := h
    obtain ⟨ps, f, φ, h1, h2⟩ := FShard.close_true hH
    simp only [Indexer.closeShards, ih hG, ShardIndexer.close, flushIndF_true _ h1, bind, Except.bind, pure, Except.pure, h2]

theorem closing_run {J : CfgCodec} {c : Config} {front : Front} {b : Bytes} (hb : Dmd.close front.dmds front.file = some b) (d : Dir) :
    Dir.run (fun g => if g = .dmd then front.file else d g) (Indexer.closingOps J c front) =
      ((c.writeTo J d).set .fnm (Fnames.write front.fnames)).set .dmd b := by
  funext g
  rw [run_file]
  have h1 := writeOps_on J c
  have h2 := fnames_ops_on front.fnames
  have h3 := dmd_closeOps_on front.dmds front.file
  simp only [Indexer.closingOps, opsOn_append]
  by_cases e1 : g = .dmd
  · subst e1
    rw [(h1.off (by simp)).opsOn, (h2.off (by simp)).opsOn, h3.opsOn]
    simp only [List.nil_append, if_true, dmd_closeOps, hb, Dir.set]
  · rw [(h3.off (fun e => e1 e.symm)).opsOn, List.append_nil]
    by_cases e2 : g = .fnm
    · subst e2
      rw [(h1.off (by simp)).opsOn, h2.opsOn]
      simp only [List.nil_append, fnames_ops, Dir.set]
      simp
    · rw [(h2.off (fun e => e2 e.symm)).opsOn, List.append_nil]
      by_cases e3 : g = .cfg
      · subst e3
        rw [h1.opsOn, writeTo_ops]
        simp [Dir.set, Config.writeTo]
      · rw [(h1.off (fun e => e3 e.symm)).opsOn]
        simp [Dir.set, Config.writeTo, e1, e2, e3, onFiles]

/-- `Close` returned nil -/
theorem closeF_true {J : CfgCodec} {c : Config} {front : Front} {b : Bytes} (hb : Dmd.close front.dmds front.file = some b) {n : Nat}
    {sh : Nat → FShard} {d d' : Dir} {φ : Fates} (h : Indexer.closeF J c front n sh d φ = (true, d')) :
    Indexer.closeShardsF sh n (((c.writeTo J d).set .fnm (Fnames.write front.fnames)).set .dmd b) = (true, d') := by
  unfold Indexer.closeF at h
  simp only [] at h
  generalize hG : Dir.runF (fun g => if g = .dmd then front.file else d g) (Indexer.closingOps J c front) φ = r at h
  obtain ⟨ok, d1, ρ⟩ := r
  cases ok with
  | false => simp at h
  | true =>
    simp only [if_true] at h
    rw [runF_true _ hG, closing_run hb] at h
    exact h

theorem closeShardsF_spec (sh : Nat → FShard) (n : Nat) : ∀ {d d' : Dir}, Indexer.closeShardsF sh n d = (true, d') →
    (∀ j, j < n → ∃ ps f φ, FShard.flushIndF (sh j).x.ind (sh j).x.file (sh j).fates = (true, ps, f, φ) ∧ d' (.pos j) = some f ∧
      d' (.iix j) = some (ps.flatMap ShardIndexer.iixEntry)) ∧
    ∀ g, (∀ j, j < n → g ≠ .pos j ∧ g ≠ .iix j) → d' g = d g := by
  induction n with
  | zero =>
    intro d d' h
    simp only [Indexer.closeShardsF, Prod.mk.injEq, true_and] at h
    exact ⟨by intro j hj; omega, fun g _ => by rw [h]⟩
  | succ n ih =>
    intro d d' h
    simp only [Indexer.closeShardsF] at h
    generalize hG : Indexer.closeShardsF sh n d = r at h
    obtain ⟨ok, d1⟩ := r
    simp only [] at h
    generalize hH : (sh n).close n d1 = r at h
    obtain ⟨ok', d2⟩ := r
    simp only [Prod.mk.injEq, Bool.and_eq_true] at h
    obtain ⟨⟨rfl, rfl⟩, rfl⟩ := h
    obtain ⟨ps, f, φ, h1, rfl⟩ := FShard.close_true hH
    obtain ⟨g1, g2⟩ := ih hG
    refine ⟨fun j hj => ?_, fun g hg => ?_⟩
    · by_cases e : j = n
      · subst e; exact ⟨ps, f, φ, h1, by simp [Dir.set], by simp [Dir.set]⟩
      · obtain ⟨ps', f', φ', k1, k2, k3⟩ := g1 j (by omega)
        exact ⟨ps', f', φ', k1, by simp [Dir.set, e, k2], by simp [Dir.set, e, k3]⟩
    · have := hg n (by omega)
      simp only [Dir.set, this.1, this.2, if_false]
      exact g2 g fun j hj => hg j (by omega)

end Dupi
