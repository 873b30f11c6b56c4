import Verif.Proof.Disk
import Verif.Props.Full
/-! # C106: more paths than path ids

"The paths of an index can be read back however many there are" is false: the number of paths is written
as a 32 bit number.  With exactly `2 ^ 32` of them — the directories on the way and the root counted — none
is read back, and a query that comes to a document panics.  (C04, C05 and the theorems about whole indexes
suppose fewer than `2 ^ 32`.) -/

namespace Dupi.Props
open Spec Fnames

/-- **C106, writing.**  A table of `2 ^ 32` paths, or a multiple of that, is written as one of none. -/
theorem C106_none_read (t : Table) (h : t.length % 2 ^ 32 = 0) : Fnames.read (Fnames.write t) = .ok [] := by
  have : UInt32.ofNat t.length = 0 := UInt32.toNat_inj.mp (by simpa using h)
  rw [Fnames.read, Fnames.write, this, readUvarint32_put]
  simp [bind, Except.bind, pure, Except.pure, readLoop]

/-- the `k`th of a row of names: `k` letters -/
def rowName (k : Nat) : Bytes := List.replicate k 97

theorem rowName_ne {k : Nat} : (47 : UInt8) ∉ rowName k := by
  intro h
  exact absurd (List.mem_replicate.mp h).2 (by decide)

theorem rowName_inj {j k : Nat} (h : rowName j = rowName k) : j = k := by
  have := congrArg List.length h
  simpa [rowName] using this

theorem rowName_abs (cwd : Bytes) (k : Nat) : absPath cwd (47 :: rowName (k + 1)) = 47 :: rowName (k + 1) := by
  have e : 47 :: rowName (k + 1) = placeName [rowName (k + 1)] := by simp [placeName, List.intersperse]
  rw [absPath_place, e, place_placeName]
  · intro e he
    rw [List.mem_singleton] at he
    subst he
    exact ⟨by simp [rowName], rowName_ne⟩
  · intro e he
    rw [List.mem_singleton] at he
    subst he
    constructor <;> · intro h; simp only [rowName, List.replicate_succ] at h; exact absurd (List.cons.inj h).1 (by decide)

theorem rowName_parts (cwd : Bytes) (k : Nat) : pathParts (absPath cwd (47 :: rowName (k + 1))) = [rowName (k + 1)] := by
  rw [rowName_abs]
  have : splitSlash (47 :: rowName (k + 1)) = [] :: splitSlash (rowName (k + 1)) := by
    simp [splitSlash, sep]
  rw [pathParts, this, splitSlash_noSlash _ rowName_ne]
  simp

/-- the table of the first `n` names of the row -/
structure Row (t : Table) (n : Nat) : Prop where
  wf : WF t
  len : t.length = n + 1
  root : ∃ r, t[0]? = some r ∧ ∀ k, n ≤ k → get r.children (rowName (k + 1)) = 0
  comps : ∀ k, k < n → Comps t (k + 1) [rowName (k + 1)]

theorem Row.new : Row newFnames 0 :=
  ⟨newFnames_wf, rfl, ⟨zero, rfl, fun _ _ => rfl⟩, fun k hk => absurd hk (by omega)⟩

theorem Row.add {t : Table} {n : Nat} (h : Row t n) (hn : n + 1 < 2 ^ 32) (cwd : Bytes) :
    ∃ t', addPath cwd t (47 :: rowName (n + 1)) = .ok (UInt32.ofNat (n + 1), t') ∧ Row t' (n + 1) := by
  obtain ⟨r, hr, h0⟩ := h.root
  have hr' : t[(0 : UInt32).toNat]? = some r := hr
  have hl : t.length < 2 ^ 32 := by rw [h.len]; omega
  have hz := h0 n (Nat.le_refl n)
  have hlen : (UInt32.ofNat t.length).toNat = n + 1 := by rw [h.len]; simp only [UInt32.toNat_ofNat']; omega
  refine ⟨grow t 0 r (rowName (n + 1)), ?_, grow_wf h.wf hr' hz hl, by simp [grow, h.len], ⟨{ r with children := (rowName (n + 1), UInt32.ofNat t.length) :: r.children }, ?_, ?_⟩, ?_⟩
  · rw [addPath, rowName_parts, addParts, hr']
    simp only [hz, if_true, addParts]
    rw [← h.len]
    rfl
  · rw [grow_get hr', if_pos (by rfl)]
  · intro k hk
    show get ((rowName (n + 1), UInt32.ofNat t.length) :: r.children) (rowName (k + 1)) = 0
    rw [get_cons, if_neg (fun e => by have := rowName_inj e; omega)]
    exact h0 k (by omega)
  · intro k hk
    by_cases hkn : k < n
    · exact grow_comps hr' (h.comps k hkn)
    · have : k = n := by omega
      subst this
      have := grow_comps_new (nm := rowName (k + 1)) hl hr' .root
      rw [hlen] at this
      exact this

/-- documents with these paths: one file each -/
def rowDocs (n : Nat) : List Doc := (List.range n).map fun k => ⟨47 :: rowName (k + 1), 0, 0, none⟩

theorem Front.adds_append (cwd : Bytes) (a b : List Doc) : ∀ (x : Front), x.adds cwd (a ++ b) = (do
    let (rs, x) ← x.adds cwd a
    let (rs', x) ← x.adds cwd b
    return (rs ++ rs', x)) := by
  induction a with
  | nil =>
    intro x
    simp only [List.nil_append, Front.adds, bind, Except.bind, pure, Except.pure]
    cases x.adds cwd b <;> rfl
  | cons d a ih =>
    intro x
    simp only [List.cons_append, Front.adds, bind, Except.bind, pure, Except.pure, ih]
    cases x.add cwd d with
    | error e => rfl
    | ok r =>
      simp only []
      cases r.2.adds cwd a with
      | error e => rfl
      | ok r' =>
        simp only []
        cases r'.2.adds cwd b <;> rfl

private theorem row_front (cwd : Bytes) (n : Nat) : ∀ (x : Front), x.fnames = newFnames → Dmd.Ring x.dmds x.file [Dmd.zeroFields] → n + 1 ≤ 2 ^ 32 →
    ∃ rs front fs, x.adds cwd (rowDocs n) = .ok (rs, front) ∧ rs.map (fun r => r.1) = (List.range n).map (fun k => UInt32.ofNat (k + 1)) ∧
      Row front.fnames n ∧ Dmd.Ring front.dmds front.file (Dmd.zeroFields :: fs) ∧ fs.length = n ∧
      ∀ (k : Nat) f, fs[k]? = some f → f.fid = UInt32.ofNat (k + 1) := by
  induction n with
  | zero =>
    intro x h1 h2 _
    exact ⟨[], x, [], rfl, rfl, by rw [h1]; exact Row.new, h2, rfl, by simp⟩
  | succ n ih =>
    intro x h1 h2 hn
    obtain ⟨rs, front, fs, g1, g2, g3, g4, g5, g6⟩ := ih x h1 h2 (by omega)
    obtain ⟨t', k1, k2⟩ := g3.add (by omega) cwd
    obtain ⟨m1, m2⟩ := Dmd.add_ring g4 ⟨UInt32.ofNat (n + 1), 0, 0⟩
    rw [List.length_cons, g5] at m2
    have e : rowDocs (n + 1) = rowDocs n ++ [⟨47 :: rowName (n + 1), 0, 0, none⟩] := by
      simp only [rowDocs, List.range_succ, List.map_append, List.map_cons, List.map_nil]
    refine ⟨rs ++ [(UInt32.ofNat (n + 1), 0, [])], ⟨t', (Dmd.add front.dmds front.file ⟨UInt32.ofNat (n + 1), 0, 0⟩).2.1,
      (Dmd.add front.dmds front.file ⟨UInt32.ofNat (n + 1), 0, 0⟩).2.2⟩, fs ++ [⟨UInt32.ofNat (n + 1), 0, 0⟩], ?_, ?_, k2, by simpa using m1, by simp [g5], ?_⟩
    · rw [e, Front.adds_append, g1]
      simp only [bind, Except.bind, pure, Except.pure, Front.adds, Front.add, k1, m2]
      rfl
    · simp only [List.map_append, g2, List.range_succ, List.map_cons, List.map_nil]
    · intro k f hk
      by_cases hlt : k < n
      · rw [List.getElem?_append_left (by omega)] at hk
        exact g6 k f hk
      · rw [List.getElem?_append_right (by omega)] at hk
        have : k - fs.length = 0 := by
          false_or_by_contra
          rw [List.getElem?_eq_none (by simp; omega)] at hk; cases hk
        rw [this] at hk
        simp only [List.getElem?_cons_zero, Option.some.injEq] at hk
        subst hk
        rw [show k = n by omega]

/-- **C106, up to the limit.**  Fewer than `2 ^ 32` documents in files of their own are accepted with
different ids, and while the indexer is open their paths are known. -/
theorem C106_open_partial {J : CfgCodec} {c : Config} (hU : Usable J c) {x : Indexer} (hx : Indexer.create c = .ok x) (cwd : Bytes) (n : Nat) (hn : n + 1 ≤ 2 ^ 32) :
    ∃ rs front dmd, x.front.adds cwd (rowDocs n) = .ok (rs, front) ∧ rs.map (fun r => r.1) = (List.range n).map (fun k => UInt32.ofNat (k + 1)) ∧
      Dmd.close front.dmds front.file = some dmd ∧ front.fnames.length = n + 1 ∧
      ∀ k, k < n → ∃ f, Dmd.lookup dmd (UInt32.ofNat (k + 1)) = .ok f ∧ f.fid = UInt32.ofNat (k + 1) ∧ Fnames.abs front.fnames f.fid = .ok (47 :: rowName (k + 1)) := by
  obtain ⟨y, g1, g2⟩ := create_rep (u := asciiUni) hU
  cases g1.symm.trans hx
  have hx0 : x.front.fnames = newFnames ∧ Dmd.Ring x.front.dmds x.front.file [Dmd.zeroFields] := by
    obtain ⟨a, k1, k2⟩ := Dmd.newAdder_none c.docFlushRate hU.flush
    simp only [Indexer.create, k1, bind, Except.bind, pure, Except.pure] at hx
    cases h1 : Indexer.makeShards c with
    | error e => rw [h1] at hx; cases hx
    | ok m =>
      rw [h1] at hx
      simp only at hx
      cases h2 : c.tokenConfig.fromConfig with
      | error e => rw [h2] at hx; cases hx
      | ok m =>
        rw [h2] at hx
        simp only at hx
        cases h3 : Indexer.makeBlotters c with
        | error e => rw [h3] at hx; cases hx
        | ok m =>
          rw [h3] at hx
          cases hx
          exact ⟨rfl, k2.ring⟩
  obtain ⟨rs, front, fs, h1, h2, h3, h4, h5, h6⟩ := row_front cwd n x.front hx0.1 hx0.2 hn
  refine ⟨rs, front, _, h1, h2, Dmd.close_ring h4, h3.len, fun k hk => ?_⟩
  have hid : (UInt32.ofNat (k + 1)).toNat = k + 1 := by simp only [UInt32.toNat_ofNat']; omega
  have hlt : (UInt32.ofNat (k + 1)).toNat < (Dmd.zeroFields :: fs).length := by rw [hid, List.length_cons]; omega
  have hf : fs[k]? = some (fs[k]'(by omega)) := List.getElem?_eq_getElem _
  refine ⟨fs[k]'(by omega), ?_, h6 k _ hf, ?_⟩
  · rw [Dmd.lookup_encode _ _ hlt]
    simp only [hid, List.getElem_cons_succ]
  · rw [h6 k _ hf, h3.wf.abs (cs := [rowName (k + 1)]) (by rw [hid]; exact h3.comps k hk) (by rw [hid, h3.len]; omega)]
    simp [joinSlash, sep]

/-- **C106 is false.**  With one document less than there are ids, each in a file of its own, `Add` reports
no error, the ids are different, and the paths known; but after Close no path can be read back: a query that
comes to any document panics. -/
theorem C106_false {J : CfgCodec} {c : Config} (hU : Usable J c) {x : Indexer} (hx : Indexer.create c = .ok x) (cwd : Bytes) :
    ∃ rs front dmd, x.front.adds cwd (rowDocs (2 ^ 32 - 1)) = .ok (rs, front) ∧ rs.map (fun r => r.1) = (List.range (2 ^ 32 - 1)).map (fun k => UInt32.ofNat (k + 1)) ∧
      Dmd.close front.dmds front.file = some dmd ∧
      (∀ k, k < 2 ^ 32 - 1 → ∃ f, Dmd.lookup dmd (UInt32.ofNat (k + 1)) = .ok f ∧ Fnames.abs front.fnames f.fid = .ok (47 :: rowName (k + 1))) ∧
      Fnames.read (Fnames.write front.fnames) = .ok [] ∧
      ∀ y : Index, y.dmd = dmd → Fnames.read (Fnames.write front.fnames) = .ok y.fnames →
        ∀ k, k < 2 ^ 32 - 1 → y.docid2Doc (UInt32.ofNat (k + 1)) = panic' := by
  obtain ⟨n, hn⟩ : ∃ n, n = 2 ^ 32 - 1 := ⟨_, rfl⟩
  rw [← hn]
  obtain ⟨rs, front, dmd, h1, h2, h3, h4, h5⟩ := C106_open_partial hU hx cwd n (by omega)
  have hr : Fnames.read (Fnames.write front.fnames) = .ok [] := C106_none_read _ (by rw [h4]; omega)
  refine ⟨rs, front, dmd, h1, h2, h3, fun k hk => ?_, hr, fun y hy1 hy2 k hk => ?_⟩
  · obtain ⟨f, g1, _, g2⟩ := h5 k hk
    exact ⟨f, g1, g2⟩
  · obtain ⟨f, g1, _, _⟩ := h5 k hk
    have : y.fnames = [] := by rw [hr] at hy2; exact (Except.ok.inj hy2).symm
    simp only [Index.docid2Doc, hy1, g1, this, Fnames.abs_outside (t := []) (Nat.zero_le _), bind, Except.bind]

-- non-vacuity: an index can be created
example : ∃ x, Indexer.create exCmdConfig = .ok x := by
  obtain ⟨x, hx, _⟩ := create_rep (u := asciiUni) exCmd_usable
  exact ⟨x, hx⟩
example : (match (do let (ids, t) ← Fnames.addAll [47] newFnames [[47, 97], [47, 97, 97]]; let t ← Fnames.read (Fnames.write t); return (ids, t.length) : M (List UInt32 × Nat)) with
    | .ok (ids, n) => ids == [1, 2] && n == 3
    | .error _ => false) = true := by decide +kernel

end Dupi.Props
