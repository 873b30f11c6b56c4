import Verif.Proof.Indexer
/-! The document metadata when there are more documents than document ids: the records are all
written, the ids start again from 0. -/

namespace Dupi
namespace Dmd

/-- `Inv` without a limit on the number of records -/
structure Ring (t : Adder) (file : Option Bytes) (hist : List Fields) : Prop where
  nonempty : hist ≠ []
  split : ∃ done, hist = done ++ t.buf ∧ file.getD [] = done.flatMap encode ∧
    t.flushed = UInt32.ofNat done.length ∧ (t.buf = [] → file.isSome)

theorem flush_ring {t : Adder} {file : Option Bytes} {hist : List Fields} (h : Ring t file hist) :
    Ring (flush t file).1 (flush t file).2 hist ∧ (flush t file).2 = some (hist.flatMap encode) := by
  obtain ⟨hne, done, h1, h2, h3, h4⟩ := h
  refine ⟨⟨hne, hist, by simp [flush], ?_, ?_, by simp [flush]⟩, ?_⟩
  · simp [flush, h2, h1]
  · simp [flush, h3, h1, UInt32.ofNat_add]
  · simp [flush, h2, h1]

theorem add_ring {t : Adder} {file : Option Bytes} {hist : List Fields} (h : Ring t file hist) (x : Fields) :
    Ring (add t file x).2.1 (add t file x).2.2 (hist ++ [x]) ∧ (add t file x).1 = UInt32.ofNat hist.length := by
  have key : ∀ (t : Adder) (file : Option Bytes), Ring t file hist →
      Ring { t with buf := t.buf ++ [x] } file (hist ++ [x]) ∧
      UInt32.ofNat t.buf.length + t.flushed = UInt32.ofNat hist.length := by
    intro t file h
    obtain ⟨hne, done, h1, h2, h3, h4⟩ := h
    refine ⟨⟨by simp, done, by simp [h1], h2, h3, by simp⟩, ?_⟩
    rw [h3, h1, List.length_append, UInt32.ofNat_add, UInt32.add_comm]
  unfold add
  split
  rename_i t' file' heq
  split at heq
  · have hf := (flush_ring h).1
    rw [heq] at hf
    exact key t' file' hf
  · cases heq; exact key t file h

theorem close_ring {t : Adder} {file : Option Bytes} {hist : List Fields} (h : Ring t file hist) :
    close t file = some (hist.flatMap encode) := by
  unfold close
  split
  · rename_i h0
    obtain ⟨hne, done, h1, h2, h3, h4⟩ := h
    have h0 : t.buf = [] := List.length_eq_zero_iff.mp h0
    have := h4 h0
    cases file with
    | none => simp at this
    | some b => simp only [Option.getD_some] at h2; simp [h2, h1, h0]
  · exact (flush_ring h).2

theorem Inv.ring {t : Adder} {file : Option Bytes} {hist : List Fields} (h : Inv t file hist) : Ring t file hist := by
  obtain ⟨_, hne, done, h1, h2, h3, h4⟩ := h
  exact ⟨hne, done, h1, h2, UInt32.toNat_inj.mp (by rw [h3]; simp), h4⟩

/-- the record put first when a file is opened to append: there is one when the number of records in
it is, counted with 32 bits, zero -/
def blank (hist : List Fields) : List Fields := if hist.length % 2 ^ 32 = 0 then [zeroFields] else []

theorem newAdder_ring (fr : Int) (hfr : 1 ≤ fr) (hist : List Fields) (hne : hist ≠ []) :
    ∃ t, newAdder (some (hist.flatMap encode)) fr = .ok t ∧
      Ring t (some (hist.flatMap encode)) (hist ++ blank hist) := by
  have hl : (hist.flatMap encode).length / rcdSize = hist.length := by
    rw [encodeAll_length]; simp [rcdSize]
  by_cases h0 : hist.length % 2 ^ 32 = 0
  · have hz : UInt32.ofNat hist.length = 0 := UInt32.toNat_inj.mp (by simpa using h0)
    refine ⟨⟨UInt32.ofNat hist.length, UInt32.ofNat (fr % 2 ^ 32).toNat, [zeroFields]⟩, by
      simp only [newAdder, hl, hz, if_true, show ¬ fr < 1 by omega, if_false], ?_⟩
    exact ⟨by simp [hne], hist, by simp only [blank, h0, if_true], by simp, rfl, by simp⟩
  · have hz : UInt32.ofNat hist.length ≠ 0 := by
      intro h
      apply h0
      have := congrArg UInt32.toNat h
      simpa using this
    refine ⟨⟨UInt32.ofNat hist.length, UInt32.ofNat (fr % 2 ^ 32).toNat, []⟩, by
      simp only [newAdder, hl, hz, if_false, show ¬ fr < 0 by omega], ?_⟩
    exact ⟨by simp [hne], hist, by simp only [blank, h0, if_false], by simp, rfl, by simp⟩

theorem adds_ring (xs : List Fields) : ∀ {t : Adder} {file : Option Bytes} {hist : List Fields}, Ring t file hist →
    Ring (adds t file xs).2.1 (adds t file xs).2.2 (hist ++ xs) ∧
      (adds t file xs).1 = (List.range' hist.length xs.length).map UInt32.ofNat := by
  induction xs with
  | nil => intro t file hist h; simpa [adds] using h
  | cons x xs ih =>
    intro t file hist h
    obtain ⟨h1, h2⟩ := add_ring h x
    obtain ⟨h3, h4⟩ := ih h1
    refine ⟨by simpa [adds] using h3, ?_⟩
    simp only [adds, h2, h4, List.length_append, List.length_cons, List.length_nil, List.range'_succ, List.map_cons]

theorem session_ring (fr : Int) (hfr : 1 ≤ fr) (hist xs : List Fields) (hne : hist ≠ []) :
    session (some (hist.flatMap encode)) fr xs =
      .ok ((List.range' (hist ++ blank hist).length xs.length).map UInt32.ofNat,
        some ((hist ++ blank hist ++ xs).flatMap encode)) := by
  obtain ⟨t, h1, h2⟩ := newAdder_ring fr hfr hist hne
  obtain ⟨h3, h4⟩ := adds_ring xs h2
  simp only [session, h1, bind, Except.bind, pure, Except.pure, close_ring h3, h4]

theorem session_new (fr : Int) (hfr : 1 ≤ fr) (xs : List Fields) :
    session none fr xs = .ok ((List.range' 1 xs.length).map UInt32.ofNat, some ((zeroFields :: xs).flatMap encode)) := by
  obtain ⟨t, h1, h2⟩ := newAdder_none fr hfr
  obtain ⟨h3, h4⟩ := adds_ring xs h2.ring
  simp only [session, h1, bind, Except.bind, pure, Except.pure, close_ring h3, h4, List.cons_append, List.nil_append, List.length_cons, List.length_nil, Nat.zero_add]

end Dmd

open Spec

/-- `FrontRep` without a limit on the number of documents -/
structure FrontRing (x : Front) (docs : List Document) : Prop where
  ex : ∃ fs, Dmd.Ring x.dmds x.file (Dmd.zeroFields :: fs) ∧ MetaRep x.fnames fs docs

theorem Front.add_ring {x : Front} {docs : List Document} (h : FrontRing x docs) (cwd : Bytes) (doc : Doc)
    (h2 : FewPaths ((docs ++ added cwd [doc]).map fun s => s.path)) :
    ∃ x', x.add cwd doc = .ok (UInt32.ofNat (docs.length + 1), x') ∧ FrontRing x' (docs ++ added cwd [doc]) := by
  obtain ⟨fs, hd, hm⟩ := h
  have hsz := hm.size
  rw [added_paths] at h2
  have hpl : ((docs ++ added cwd [doc]).map fun s => s.path.length).sum =
      (docs.map fun s => s.path.length).sum + (absPath cwd doc.path).length := by simp [added, absPath_place]
  obtain ⟨ids, t', g1, g2, g3, g4, g5, g6, _, g7, gc, g8⟩ := Fnames.addAll_spec cwd [doc.path] hm.wf hm.names hm.onPaths h2
  obtain ⟨id, hid, hlt, hc⟩ := g8 0 doc.path rfl
  have haddp : Fnames.addPath cwd x.fnames doc.path = .ok (id, t') := by
    simp only [Fnames.addAll, bind, Except.bind] at g1
    cases he : Fnames.addPath cwd x.fnames doc.path with
    | error e => simp [he] at g1
    | ok r =>
      obtain ⟨a, b⟩ := r
      simp only [he, pure, Except.pure, Except.ok.injEq, Prod.mk.injEq] at g1
      obtain ⟨rfl, rfl⟩ := g1
      simp at hid; subst hid; rfl
  obtain ⟨k1, k2⟩ := Dmd.add_ring hd ⟨id, doc.start, doc.stop⟩
  refine ⟨⟨t', (Dmd.add x.dmds x.file ⟨id, doc.start, doc.stop⟩).2.1,
    (Dmd.add x.dmds x.file ⟨id, doc.start, doc.stop⟩).2.2⟩, ?_, ⟨fs ++ [⟨id, doc.start, doc.stop⟩], by simpa using k1, ?_⟩⟩
  · simp only [Front.add, haddp, bind, Except.bind, pure, Except.pure, k2, List.length_cons, hm.len]
  · refine ⟨g2, g3, ?_, by simp [hm.len, added], ?_, ?_⟩
    · rw [hpl]; simp [Fnames.pathBytes] at g6; show t'.length ≤ _; omega
    · intro k f s hf hs
      simp only [List.getElem?_append, hm.len] at hf hs
      by_cases hk : k < docs.length
      · simp only [hk, if_true] at hf hs
        exact (hm.desc k f s hf hs).mono g5 g7
      · simp only [hk, if_false] at hf hs
        have h0 : k - docs.length = 0 := by
          false_or_by_contra
          rw [List.getElem?_eq_none (by simp; omega)] at hf; cases hf
        rw [h0] at hf hs
        simp only [List.getElem?_cons_zero, Option.some.injEq, added, List.map_cons, List.map_nil] at hf hs
        subst hf hs
        rw [absPath_place] at hc
        exact ⟨rfl, rfl, hlt, hc⟩
    · intro i cs hcs
      rcases gc i cs hcs with h | ⟨q, hq, h⟩
      · rcases hm.cover i cs h with h | ⟨s, h1, h2⟩
        · exact .inl h
        · exact .inr ⟨s, by simp [h1], h2⟩
      · rw [Fnames.absPaths, List.map_singleton, List.mem_singleton] at hq
        exact .inr ⟨⟨placeName (place cwd doc.path), doc.start, doc.stop, doc.dat.getD []⟩, by simp [added], by rw [← absPath_place, ← hq]; exact h⟩

theorem Front.adds_ring (cwd : Bytes) (new : List Doc) : ∀ {x : Front} {docs : List Document}, FrontRing x docs →
    FewPaths ((docs ++ added cwd new).map fun s => s.path) →
    ∃ x', x.adds cwd new = .ok (reqs (docs.length + 1) new, x') ∧ FrontRing x' (docs ++ added cwd new) := by
  induction new with
  | nil => intro x docs h _; exact ⟨x, rfl, by simpa [added] using h⟩
  | cons d new ih =>
    intro x docs h h2
    have e : docs ++ added cwd (d :: new) = (docs ++ added cwd [d]) ++ added cwd new := by simp [added]
    rw [e] at h2 ⊢
    have l1 : (docs ++ added cwd [d]).length = docs.length + 1 := by simp [added]
    obtain ⟨x1, g1, g2⟩ := Front.add_ring h cwd d (Fnames.FewPaths.mono (fun p hp => by rw [List.map_append]; exact List.mem_append_left _ hp) h2)
    obtain ⟨x2, k1, k2⟩ := ih g2 h2
    refine ⟨x2, ?_, k2⟩
    rw [l1] at k1
    simp [Front.adds, g1, k1, bind, Except.bind, pure, Except.pure, reqs]

theorem reqs_get (new : List Doc) : ∀ (i k : Nat), (reqs i new)[k]? = (new[k]?).map fun d => (UInt32.ofNat (i + k), d.start, d.dat.getD []) := by
  induction new with
  | nil => intro i k; simp [reqs]
  | cons d new ih =>
    intro i k
    cases k with
    | zero => simp [reqs]
    | succ k =>
      simp only [reqs, List.getElem?_cons_succ, ih]
      rw [show i + 1 + k = i + (k + 1) by omega]

end Dupi
