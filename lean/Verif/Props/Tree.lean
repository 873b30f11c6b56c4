import Verif.Props.Live
/-! # The number of nodes in the path tree: C29 (second half) -/

namespace Dupi.Props
open Spec

/-- `q` is the path `p` itself or a directory on the way to it (the root is the empty text) -/
def OnWay (p q : Bytes) : Prop := q = p ∨ ∃ r, p = q ++ 47 :: r

/-- the text of a list of names -/
def wayText (cs : List Bytes) : Bytes := if cs = [] then [] else sep :: joinSlash cs

theorem wayText_inj {cs cs' : List Bytes} (h : ∀ e ∈ cs, (47 : UInt8) ∉ e) (h' : ∀ e ∈ cs', (47 : UInt8) ∉ e)
    (e : wayText cs = wayText cs') : cs = cs' := by
  unfold wayText at e
  by_cases h0 : cs = []
  · by_cases h1 : cs' = []
    · rw [h0, h1]
    · simp [h0, h1] at e
  · by_cases h1 : cs' = []
    · simp [h0, h1] at e
    · simp only [h0, h1, if_false, List.cons.injEq, true_and] at e
      rw [← splitSlash_join cs h0 h, ← splitSlash_join cs' h1 h', e]

theorem splitSlash_plainElems (p : Bytes) : ∀ e ∈ splitSlash p, (47 : UInt8) ∉ e := by
  induction p with
  | nil => simp [splitSlash]
  | cons b bs ih =>
    intro e he
    simp only [splitSlash] at he
    split at he
    · rcases List.mem_cons.mp he with rfl | he
      · simp
      · exact ih e he
    · rename_i hb
      split at he
      · simp at he; subst he; simpa using fun h => hb (by rw [sep, ← h])
      · rename_i p ps hp
        rcases List.mem_cons.mp he with rfl | he
        · have := ih p (by rw [hp]; simp)
          simp only [List.mem_cons, not_or]
          exact ⟨fun h => hb (by rw [sep, ← h]), this⟩
        · exact ih e (by rw [hp]; simp [he])

theorem comps_lt {t : Fnames.Table} (h : Fnames.WF t) {i : Nat} {cs : List Bytes} (hc : Fnames.Comps t i cs) : i < t.length := by
  cases hc with
  | root => obtain ⟨r, hr, _⟩ := h.root; exact (List.getElem?_eq_some_iff.mp hr).1
  | step _ hn _ => exact (List.getElem?_eq_some_iff.mp hn).1

/-- the part of a path after the last slash -/
def lastName (q : Bytes) : Bytes := (q.reverse.takeWhile fun b => decide (b ≠ 47)).reverse

theorem lastName_append (a b : Bytes) (h : (47 : UInt8) ∉ b) : lastName (a ++ 47 :: b) = b := by
  unfold lastName
  have : ∀ x ∈ b.reverse, decide (x ≠ (47 : UInt8)) = true := by
    intro x hx
    simp only [List.mem_reverse] at hx
    exact decide_eq_true fun e => h (e ▸ hx)
  rw [List.reverse_append, List.reverse_cons, List.append_assoc, List.takeWhile_append_of_pos this]
  simp

theorem joinSlash_snoc (cs : List Bytes) (a : Bytes) : sep :: joinSlash (cs ++ [a]) = wayText cs ++ sep :: a := by
  induction cs with
  | nil => simp [joinSlash, wayText]
  | cons c cs ih =>
    cases cs with
    | nil => simp [joinSlash, wayText]
    | cons c' cs =>
      simp only [wayText, List.cons_ne_nil, if_false, List.cons_append, joinSlash] at ih ⊢
      simp only [List.cons.injEq, true_and] at ih
      rw [ih]; simp

/-- The nodes of a table are the distinct directories on the way to its documents, with the last part of the path as name. -/
theorem MetaRep.nodes_names {t : Fnames.Table} {fs : List Fields} {docs : List Document} (hm : MetaRep t fs docs) (hr : Rooted docs) :
    ∃ l : List Bytes, l.Nodup ∧ (∀ q, q ∈ l ↔ q = [] ∨ ∃ s ∈ docs, OnWay s.path q) ∧ t.length = l.length ∧
      ∀ (i : Nat) n, t[i]? = some n → ∃ q, l[i]? = some q ∧ lastName q = n.name := by
  have parts : ∀ s ∈ docs, ∃ r, s.path = sep :: r ∧ Fnames.pathParts s.path = splitSlash r := by
    intro s hs
    obtain ⟨cwd, p, e⟩ := hr s hs
    rw [e]; exact Fnames.pathParts_abs cwd p
  have plain : ∀ i cs, Fnames.Comps t i cs → ∀ e ∈ cs, (47 : UInt8) ∉ e := by
    intro i cs hc e he
    rcases hm.cover i cs hc with rfl | ⟨s, hs, hp⟩
    · simp at he
    · obtain ⟨r, _, e2⟩ := parts s hs
      rw [e2] at hp
      exact splitSlash_plainElems r e (hp.subset he)
  have hex : ∀ i, ∃ cs, i < t.length → Fnames.Comps t i cs := by
    intro i
    by_cases hi : i < t.length
    · obtain ⟨cs, h, _⟩ := hm.wf.comps i hi; exact ⟨cs, fun _ => h⟩
    · exact ⟨[], fun h => absurd h hi⟩
  let nm : Nat → List Bytes := fun i => (hex i).choose
  have hnm : ∀ i, i < t.length → Fnames.Comps t i (nm i) := fun i => (hex i).choose_spec
  refine ⟨(List.range t.length).map fun i => wayText (nm i), ?_, ?_, by simp, ?_⟩
  · rw [List.Nodup, List.pairwise_map]
    refine List.Pairwise.imp_of_mem ?_ List.nodup_range
    intro i j hi hj hne e
    have hi := List.mem_range.mp hi
    have hj := List.mem_range.mp hj
    have := wayText_inj (plain i _ (hnm i hi)) (plain j _ (hnm j hj)) e
    exact hne (hm.wf.comps_inj (hnm i hi) (this ▸ hnm j hj))
  · intro q
    rw [List.mem_map]
    constructor
    · rintro ⟨i, hi, rfl⟩
      have hi := List.mem_range.mp hi
      by_cases h0 : nm i = []
      · left; simp [wayText, h0]
      · right
        rcases hm.cover i _ (hnm i hi) with e | ⟨s, hs, hp⟩
        · exact absurd e h0
        · obtain ⟨r, e1, e2⟩ := parts s hs
          rw [e2, ← splitSlash_join (nm i) h0 (plain i _ (hnm i hi)), split_prefix] at hp
          refine ⟨s, hs, ?_⟩
          simp only [OnWay, wayText, h0, if_false, e1]
          rcases hp with e | ⟨r', e⟩
          · exact .inl (by rw [e])
          · exact .inr ⟨r', by rw [← e]; simp [sep]⟩
    · intro hq
      have hpos : 0 < t.length := comps_lt hm.wf .root
      have h00 : nm 0 = [] := (hnm 0 hpos).det .root
      by_cases h0 : q = []
      · exact ⟨0, by simpa using hpos, by simp [wayText, h00, h0]⟩
      · rcases hq with e | ⟨s, hs, hw⟩
        · exact absurd e h0
        · obtain ⟨r, e1, e2⟩ := parts s hs
          cases q with
          | nil => exact absurd rfl h0
          | cons b q' =>
            have hb : b = sep ∧ (r = q' ∨ q' ++ [sep] <+: r) := by
              rcases hw with e | ⟨r', e⟩
              · rw [e1, List.cons.injEq] at e; exact ⟨e.1, .inl e.2.symm⟩
              · rw [e1, List.cons_append, List.cons.injEq] at e
                exact ⟨e.1.symm, .inr ⟨r', by rw [e.2]; simp [sep]⟩⟩
            obtain ⟨rfl, hp⟩ := hb
            obtain ⟨ys, hys⟩ := (split_prefix q' r).mpr hp
            obtain ⟨k, hk⟩ := List.getElem?_of_mem hs
            have hkl : k < fs.length := by rw [hm.len]; exact (List.getElem?_eq_some_iff.mp hk).1
            have hd := (hm.desc k _ s (List.getElem?_eq_getElem hkl) hk).comps
            rw [e2] at hd
            obtain ⟨j, hj⟩ := hd.prefix (splitSlash q') ys hys.symm
            have hjl := comps_lt hm.wf hj
            refine ⟨j, by simpa using hjl, ?_⟩
            rw [(hnm j hjl).det hj, wayText, if_neg (splitSlash_ne_nil q'), join_split]
  · intro i n hn
    have hi := (List.getElem?_eq_some_iff.mp hn).1
    refine ⟨wayText (nm i), by simp [List.getElem?_map, List.getElem?_range hi], ?_⟩
    have hc := hnm i hi
    have hp := plain i _ hc
    generalize nm i = cs at hc hp
    cases hc with
    | root =>
      obtain ⟨r, hr, e⟩ := hm.wf.root
      rw [hr] at hn
      injection hn with hn
      subst hn
      simp [wayText, lastName, e]
    | step h0 hn' _ =>
      rw [hn] at hn'
      injection hn' with hn'
      subst hn'
      rw [wayText, if_neg (by simp), joinSlash_snoc]
      exact lastName_append _ _ (hp _ (by simp))

/-- The nodes of a table are the distinct directories on the way to its documents. -/
theorem MetaRep.nodes {t : Fnames.Table} {fs : List Fields} {docs : List Document} (hm : MetaRep t fs docs) (hr : Rooted docs) :
    ∃ l : List Bytes, l.Nodup ∧ (∀ q, q ∈ l ↔ q = [] ∨ ∃ s ∈ docs, OnWay s.path q) ∧ t.length = l.length := by
  obtain ⟨l, h1, h2, h3, _⟩ := MetaRep.nodes_names hm hr
  exact ⟨l, h1, h2, h3⟩

section
variable {u : Uni} {J : CfgCodec} {srt : Sorter} {c : Config} (hU : Usable J c)
include hU

/-- the table of an opened index -/
theorem open_meta {d : Dir} {docs : List Document} (h : DirRep u J c d docs) (hf : Fits u c docs) {x : Index}
    (ho : Index.open J srt d = .ok x) : ∃ fs, MetaRep x.fnames fs docs := by
  obtain ⟨t, fs, k1, k2, k3⟩ := h.front
  have hsz := k3.small hf.paths
  obtain ⟨t', m1, m2⟩ := Fnames.read_write t k3.wf (by omega) k3.names
  have hn := hU.shards
  refine ⟨fs, ?_⟩
  simp only [Index.open, Config.readFrom, Dir.read, h.cfg, hU.codec, hU.check, if_neg (show ¬ c.numShards < 0 by omega),
      k1, k2, m1, bind, Except.bind, pure, Except.pure] at ho
  split at ho
  · cases ho
  · injection ho with ho; subst ho; exact k3.sim m2

/-- **C29, paths.**  After any history `NumPaths` is the number of distinct directories and files on the way from the root (which is counted even
when there is no document) to the documents added. -/
theorem C29_paths {h : Sessions} {d : Dir} {x : Index} (hd : History u J c h d) (hf : Fits u c (documents h)) (ho : Index.open J srt d = .ok x) :
    ∃ l : List Bytes, l.Nodup ∧ (∀ q, q ∈ l ↔ q = [] ∨ ∃ s ∈ documents h, OnWay s.path q) ∧ x.stats.numPaths = l.length := by
  obtain ⟨fs, hm⟩ := open_meta hU (History.rep hU hd hf) hf ho
  exact MetaRep.nodes hm (documents_rooted h)

end

/-- The documents of the example are at /p, /q and /w/p, so there are the nodes "", /p, /q, /w and /w/p. -/
theorem C29_paths_nonvacuous : ∃ d x, History asciiUni ⟨fun _ => [], fun _ => .ok exQConfig⟩ exQConfig exHistory d ∧
    Index.open ⟨fun _ => [], fun _ => .ok exQConfig⟩ mergeSorter d = .ok x ∧ x.stats.numPaths = 5 := by
  obtain ⟨d, hd⟩ := History.exists (u := asciiUni) exUsable [47] _ _ exFits
  obtain ⟨x, q, hx, h⟩ := reading_exists exUsable mergeSorter_isSorter hd exFits
  refine ⟨d, x, hd, hx, ?_⟩
  obtain ⟨l, h1, h2, h3⟩ := C29_paths (h := exHistory) exUsable hd exFits hx
  have e : (documents exHistory).map (fun s => s.path) = [[47, 112], [47, 113], [47, 119, 47, 112]] := by decide +kernel
  have hp : l.Perm [[], [47, 112], [47, 113], [47, 119], [47, 119, 47, 112]] := by
    refine (List.perm_ext_iff_of_nodup h1 (by decide)).mpr fun q => ?_
    rw [h2]
    have hs : (∃ s ∈ documents exHistory, OnWay s.path q) ↔ ∃ p ∈ (documents exHistory).map (fun s => s.path), OnWay p q :=
      ⟨fun ⟨s, h, h'⟩ => ⟨_, List.mem_map_of_mem h, h'⟩, fun ⟨p, h, h'⟩ => by obtain ⟨s, hs, rfl⟩ := List.mem_map.mp h; exact ⟨s, hs, h'⟩⟩
    rw [hs, e]
    simp only [List.mem_cons, List.not_mem_nil, or_false, exists_eq_or_imp, exists_eq_left, OnWay]
    constructor
    · rintro (h | (h | ⟨r, h⟩) | (h | ⟨r, h⟩) | (h | ⟨r, h⟩))
      · simp [h]
      · simp [h]
      · cases q with
        | nil => simp
        | cons a q => cases q with
          | nil => simp at h
          | cons b q => simp at h
      · simp [h]
      · cases q with
        | nil => simp
        | cons a q => cases q with
          | nil => simp at h
          | cons b q => simp at h
      · simp [h]
      · match q with
        | [] => simp
        | [a] => simp at h
        | [a, b] => simp at h; simp [← h.1, ← h.2.1]
        | [a, b, f] => simp at h
        | a :: b :: f :: g :: q => simp at h
    · rintro (h | h | h | h | h)
      · simp [h]
      · simp [h]
      · simp [h]
      · exact .inr (.inr (.inr (.inr ⟨[112], by rw [h]; rfl⟩)))
      · simp [h]
  rw [h3, hp.length_eq]; rfl

end Dupi.Props
