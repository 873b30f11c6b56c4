import Verif.Proof.Quiet
import Verif.Props.Query
/-! # What a session that adds to an index changes: C83 -/

namespace Dupi.Props
open Spec

section
variable {u : Uni} {J : CfgCodec} {c : Config} (hU : Usable J c) {h : Sessions} {d d' : Dir} {x : Indexer} {cwd : Bytes} {docs : List Doc}
  (hd : History u J c h d) (ho : Indexer.open J d = .ok x) (hs : Indexer.Session u J cwd x docs d d') (hf : Fits u c (documents (h ++ [(cwd, docs)])))

include hU hd ho hs hf

/-- **C83, the configuration** file stays as it is. -/
theorem C83_config : d' .cfg = d .cfg := by
  rw [documents_snoc] at hf
  rw [(History.rep hU (.append hd ho hs) (by rw [documents_snoc]; exact hf)).cfg, (History.rep hU hd hf.left).cfg]

/-- **C83, the posting files.**  A posting file never gets shorter.  The only bytes of it that are changed are bytes 255, and at most eight of
them for each bucket to which documents are added and which was not empty. -/
theorem C83_posts {j : Nat} (hj : j < c.numShards.toNat) : ∃ f f', d (.pos j) = some f ∧ d' (.pos j) = some f' ∧ f.length ≤ f'.length ∧
    changed f f' ≤ 8 * grown u c j (documents h) (added cwd docs) ∧ ∀ i, i < f.length → f'[i]? ≠ f[i]? → f[i]? = some 255 := by
  rw [documents_snoc] at hf
  obtain ⟨bs, ps, ex, ps', h1, h2, h3, h4, h5, h6⟩ := session_blocks hU (History.rep hU hd hf.left) ho hs hf hj
  obtain ⟨k1, k2⟩ := render_changed 65536 ex bs h5.owner 0
  refine ⟨_, _, h1, h3, ?_, Nat.le_trans k1 (Nat.mul_le_mul_left _ ?_), k2⟩
  · rw [render_length, render_length]; simp [sizes]
  · apply List.countP_mono_left
    intro q hq hb
    have hq := List.mem_range.mp hq
    rw [Bool.and_eq_true] at hb ⊢
    obtain ⟨hb1, hb2⟩ := hb
    rw [List.any_eq_true] at hb1 hb2
    obtain ⟨b, hb1, hb3⟩ := hb1
    obtain ⟨b', hb2, hb4⟩ := hb2
    have hids := hf.ids
    rw [List.length_append] at hids
    have e1 := postings_shardPosts u c j q hj hq (documents h) (by omega)
    have e2 := postings_shardPosts u c j q hj hq (documents h ++ added cwd docs) (by rw [List.length_append]; omega)
    rw [idsWith_append] at e2
    constructor
    · rw [← Bool.not_eq_false]
      intro hn
      have hps : q < ps.length := by rw [h5.len]; exact hq
      have a1 := (h5.rep q _ (List.getElem?_eq_getElem hps)).1.closed (h5.rep q _ (List.getElem?_eq_getElem hps)).2
      have := idsWith_nil _ _ 1 hn
      unfold bucket at this
      rw [e1, this] at a1
      unfold Dupi.flushed at a1
      rw [deltasFrom, List.flatMap_eq_nil_iff] at a1
      exact (h5.wf b hb1).ne (a1 b (by rw [List.mem_filter]; exact ⟨hb1, hb3⟩))
    · rw [← Bool.not_eq_false]
      intro hn
      have := idsWith_nil _ _ (1 + (documents h).length) hn
      unfold bucket at this
      rw [this, List.append_nil, ← e1] at e2
      exact h5.ext_owner h6 hq e2 b' hb2 (by simpa using hb4)

/-- **C83, shards that get nothing.**  If no document has a blot of a shard, neither of the files of this shard changes. -/
theorem C83_shard {j : Nat} (hj : j < c.numShards.toNat) (hq : ∀ s ∈ added cwd docs, ∀ b ∈ blotsOf u c s.dat, b.toNat % c.numShards.toNat ≠ j) :
    d' (.pos j) = d (.pos j) ∧ d' (.iix j) = d (.iix j) := by
  rw [documents_snoc] at hf
  obtain ⟨bs, ps, ex, ps', h1, h2, h3, h4, h5, h6⟩ := session_blocks hU (History.rep hU hd hf.left) ho hs hf hj
  have e : shardPosts u c j 1 (documents h ++ added cwd docs) = shardPosts u c j 1 (documents h) := by
    rw [shardPosts_append]
    have key : ∀ (l : List Document) (i : Nat), (∀ s ∈ l, ∀ b ∈ blotsOf u c s.dat, b.toNat % c.numShards.toNat ≠ j) → shardPosts u c j i l = [] := by
      intro l
      induction l with
      | nil => intro i _; rfl
      | cons s l ih =>
        intro i hl
        have e1 : (blotsOf u c s.dat).filter (fun x => x.toNat % c.numShards.toNat = j) = [] := by
          rw [List.filter_eq_nil_iff]
          intro b hb
          simpa using hl s (by simp) b hb
        rw [shardPosts, ih (i + 1) (fun t ht => hl t (by simp [ht])), docPosts, e1]; rfl
    rw [key _ _ hq, List.append_nil]
  rw [e] at h6
  have hex : ex = [] := by
    cases ex with
    | nil => rfl
    | cons b ex => exact absurd rfl (h5.ext_owner h6 (h6.owner b (by simp)) rfl b (by simp))
  subst hex
  rw [List.append_nil] at h3 h6
  rw [h1, h2, h3, h4, h5.poster_eq h6 fun _ _ => rfl]
  exact ⟨rfl, rfl⟩

/-- **C83, the documents.**  The file of the documents is continued with twelve bytes for each new one. -/
theorem C83_documents : ∃ f more, d .dmd = some f ∧ d' .dmd = some (f ++ more) ∧ more.length = 12 * docs.length := by
  rw [documents_snoc] at hf
  obtain ⟨t, fs, h1, h2, h3⟩ := (History.rep hU hd hf.left).front
  obtain ⟨b, k1, k2, k3, k4⟩ := Indexer.open_front ho
  obtain ⟨rs, front, m1, m2, m3⟩ := Session.front_files hs
  have hids := hf.ids
  rw [List.length_append] at hids
  have hl : (added cwd docs).length = docs.length := by simp [added]
  obtain ⟨y, g1, hx⟩ := open_rep hU (History.rep hU hd hf.left) hf.left
  have := ho.symm.trans g1
  injection this with this
  subst this
  obtain ⟨a, n1, n2⟩ := Dmd.newAdder_some x.config.docFlushRate (by rw [hx.cfg]; exact hU.flush) (Dmd.zeroFields :: fs) (by simp) (by simp [h3.len]; omega)
  rw [h2, n1] at k3
  injection k3 with k3
  subst k3
  rw [← h2, ← k4] at n2
  obtain ⟨more, p1, p2⟩ := Front.adds_dmds cwd docs m1 n2 (by simp [h3.len]; omega)
  refine ⟨_, more.flatMap Dmd.encode, h2, ?_, ?_⟩
  · rw [m3 _ (Dmd.close_inv p2), List.flatMap_append]
  · rw [Dmd.encodeAll_length, p1]

/-- **C83, the paths.**  If all paths are known, the file of the paths stays as it is. -/
theorem C83_paths (hk : ∀ s ∈ added cwd docs, ∃ s' ∈ documents h, s'.path = s.path) : d' .fnm = d .fnm := by
  rw [documents_snoc] at hf
  obtain ⟨t, fs, h1, h2, h3⟩ := (History.rep hU hd hf.left).front
  obtain ⟨b, k1, k2, k3, k4⟩ := Indexer.open_front ho
  obtain ⟨rs, front, m1, m2, m3⟩ := Session.front_files hs
  have hsz := h3.small hf.left.paths
  obtain ⟨t', g1, g2⟩ := Fnames.read_write t h3.wf (by omega) h3.names
  rw [h1] at k1
  injection k1 with k1
  rw [← k1, g1] at k2
  injection k2 with k2
  have hw := (g2.wf h3.wf)
  rw [k2] at g2 hw
  rw [m2, h1, Front.adds_known cwd docs m1 hw, g2.write]
  intro doc hdoc
  obtain ⟨s', e1, e2⟩ := hk ⟨placeName (Spec.place cwd doc.path), doc.start, doc.stop, doc.dat.getD []⟩ (List.mem_map.mpr ⟨doc, hdoc, rfl⟩)
  obtain ⟨i, hi⟩ := List.getElem?_of_mem e1
  have hi' : i < fs.length := by rw [h3.len]; exact (List.getElem?_eq_some_iff.mp hi).1
  have := (h3.desc i _ s' (List.getElem?_eq_getElem hi') hi).comps
  rw [e2, ← absPath_place] at this
  exact ⟨_, g2.comps this⟩

/-- **C83, nothing added.**  A session that adds no document leaves every file as it is. -/
theorem C83_nothing (hn : docs = []) : d' = d := by
  subst hn
  funext f
  cases f with
  | cfg => exact C83_config hU hd ho hs hf
  | dmd =>
    obtain ⟨f, more, h1, h2, h3⟩ := C83_documents hU hd ho hs hf
    have : more = [] := List.length_eq_zero_iff.mp (by simpa using h3)
    rw [h2, h1, this, List.append_nil]
  | fnm => exact C83_paths hU hd ho hs hf (by simp [added])
  | pos j =>
    by_cases hj : j < c.numShards.toNat
    · exact (C83_shard hU hd ho hs hf hj (by simp [added])).1
    · rw [documents_snoc] at hf
      obtain ⟨y, g1, hx⟩ := open_rep hU (History.rep hU hd hf.left) hf.left
      have := ho.symm.trans g1
      injection this with this
      subst this
      obtain ⟨_, _, _, _, _, _, _, _, g⟩ := hs.close
      exact (g j (by rw [hx.nsh]; omega)).1
  | iix j =>
    by_cases hj : j < c.numShards.toNat
    · exact (C83_shard hU hd ho hs hf hj (by simp [added])).2
    · rw [documents_snoc] at hf
      obtain ⟨y, g1, hx⟩ := open_rep hU (History.rep hU hd hf.left) hf.left
      have := ho.symm.trans g1
      injection this with this
      subst this
      obtain ⟨_, _, _, _, _, _, _, _, g⟩ := hs.close
      exact (g j (by rw [hx.nsh]; omega)).2

end

/-- **C83, any number of sessions that add nothing.**  What an index is after them, it is without them. -/
theorem C83_idle {u : Uni} {J : CfgCodec} {c : Config} (hU : Usable J c) {s : Bytes × List Doc} {h e : Sessions} {d : Dir}
    (he : ∀ s ∈ e, s.2 = []) (hd : History u J c (s :: h ++ e) d) (hf : Fits u c (documents (s :: h ++ e))) : History u J c (s :: h) d := by
  induction e using snocInd generalizing d with
  | nil => simpa using hd
  | snoc e a ih =>
    obtain ⟨cwd, docs⟩ := a
    have hdocs : docs = [] := he (cwd, docs) (by simp)
    rw [← List.append_assoc] at hd hf
    generalize hl : s :: h ++ e ++ [(cwd, docs)] = l at hd
    cases hd with
    | create h1 h2 =>
      have := congrArg List.length hl
      simp at this
    | append h1 h2 h3 =>
      obtain ⟨e1, e2⟩ := List.append_inj' hl rfl
      injection e2 with e2
      injection e2 with e3 e4
      subst e1 e3 e4
      have := C83_nothing hU h1 h2 h3 hf hdocs
      subst this
      exact ih (fun t ht => he t (by simp [ht])) h1 (by rw [documents_snoc] at hf; exact hf.left)

/-- The second session of a history with three documents: both files named p, so the paths "/p" and "/w/p"; and a session after it that adds
nothing. -/
theorem C83_nonvacuous : ∃ d x d' y d'', History asciiUni ⟨fun _ => [], fun _ => .ok exQConfig⟩ exQConfig [exHistory.getD 0 ([], [])] d ∧
    Indexer.open ⟨fun _ => [], fun _ => .ok exQConfig⟩ d = .ok x ∧
    Indexer.Session asciiUni ⟨fun _ => [], fun _ => .ok exQConfig⟩ [47, 119] x (exHistory.getD 1 ([], [])).2 d d' ∧
    Indexer.open ⟨fun _ => [], fun _ => .ok exQConfig⟩ d' = .ok y ∧
    Indexer.Session asciiUni ⟨fun _ => [], fun _ => .ok exQConfig⟩ [] y [] d' d'' ∧ d'' = d' ∧ d' .dmd ≠ d .dmd := by
  have hf : Fits asciiUni exQConfig (documents (exHistory ++ [([], [])])) := ⟨by decide, by decide +kernel, by decide +kernel⟩
  have hf2 := hf
  rw [documents_snoc] at hf2
  have hf1 : Fits asciiUni exQConfig (documents [exHistory.getD 0 ([], [])]) := ⟨by decide, by decide +kernel, by decide +kernel⟩
  obtain ⟨d, hd⟩ := History.exists (u := asciiUni) exUsable [47] (exHistory.getD 0 ([], [])).2 [] hf1
  have hr := History.rep exUsable hd hf1
  obtain ⟨x, g1, g2⟩ := open_rep exUsable hr hf1
  obtain ⟨d', hd'⟩ := Session.exists exUsable g2 [47, 119] (exHistory.getD 1 ([], [])).2 hf2.left (.inr hr.cfg)
  have hr' := History.rep exUsable (.append hd g1 hd') hf2.left
  obtain ⟨y, k1, k2⟩ := open_rep exUsable hr' hf2.left
  obtain ⟨d'', hd''⟩ := Session.exists exUsable k2 [] [] (by rw [show added [] [] = [] from rfl, List.append_nil]; exact hf2.left) (.inr hr'.cfg)
  refine ⟨d, x, d', y, d'', hd, g1, hd', k1, hd'', C83_nothing exUsable (.append hd g1 hd') k1 hd'' hf rfl, ?_⟩
  obtain ⟨f, more, m1, m2, m3⟩ := C83_documents exUsable hd g1 hd' hf2.left
  rw [m1, m2]
  intro e
  injection e with e
  have := congrArg List.length e
  rw [List.length_append, m3] at this
  have h0 : (exHistory.getD 1 ([], [])).2.length = 1 := by decide
  omega

end Dupi.Props
