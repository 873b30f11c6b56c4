import Verif.Proof.Full
import Verif.Proof.CrashAppend
import Verif.Props.Commands
/-! # C105: more documents than document ids

`Add` gives every document it accepts an id; the ids are 32 bit numbers.  "No document is accepted
that cannot have an id of its own" is false: `Add` does not notice that the ids are used up.  The
documents go on being numbered, from 0, and an id shows the first document that was given it. -/

namespace Dupi.Props
open Spec Dmd

/-- what an index over the metadata of `front`, as it is after Close, is like -/
def Shows (front : Front) (y : Index) : Prop := Dmd.close front.dmds front.file = some y.dmd ∧ y.fnames = front.fnames

private theorem full_front {x : Front} {old : List Document} (hr : Rooted old) (h : FrontRing x old) (cwd : Bytes) (new : List Doc)
    (hp : FewPaths ((old ++ added cwd new).map fun s => s.path)) :
    ∃ rs front, x.adds cwd new = .ok (rs, front) ∧ rs.length = new.length ∧
      (∀ (k : Nat) d, new[k]? = some d → rs[k]? = some (UInt32.ofNat (old.length + 1 + k), d.start, d.dat.getD [])) ∧
      (∃ dmd, Dmd.close front.dmds front.file = some dmd ∧ numDocs dmd = old.length + new.length + 1) ∧
      ∀ y, Shows front y →
        (∀ (id : UInt32) s, id ≠ 0 → (old ++ added cwd new)[id.toNat - 1]? = some s → y.docid2Doc id = .ok (s.path, s.start, s.stop)) ∧
        y.docid2Doc 0 = .ok ([47], 0, 0) := by
  obtain ⟨front, h1, h2⟩ := Front.adds_ring cwd new h hp
  obtain ⟨fs, hd, hm⟩ := h2
  have hlen : ∀ (i : Nat) (ds : List Doc), (reqs i ds).length = ds.length := by
    intro i ds
    induction ds generalizing i with
    | nil => rfl
    | cons d ds ih => simp [reqs, ih]
  refine ⟨_, front, h1, hlen _ _, fun k d hk => by rw [reqs_get, hk]; rfl, ⟨_, Dmd.close_ring hd, ?_⟩, ?_⟩
  · have := hm.len
    simp only [List.length_append, added, List.length_map] at this
    rw [numDocs, Dmd.encodeAll_length, rcdSize, Nat.mul_div_cancel_left _ (by decide), List.length_cons, this]
  · intro y hy
    have hmd : y.dmd = (zeroFields :: fs).flatMap encode := by
      have := hy.1; rw [Dmd.close_ring hd] at this; exact (Option.some.inj this).symm
    have hfn := hy.2
    have hm' : MetaRep y.fnames fs (old ++ added cwd new) := by rw [hfn]; exact hm
    refine ⟨fun id s h0 hs => ?_, ?_⟩
    · have hpos : id.toNat ≠ 0 := fun h => h0 (UInt32.toNat_inj.mp (by simpa using h))
      have hle := (List.getElem?_eq_some_iff.mp hs).1
      have hrr : Rooted (old ++ added cwd new) := by
        intro s hs
        rcases List.mem_append.mp hs with h | h
        · exact hr s h
        · exact added_rooted cwd new s h
      rw [docid_meta hm' hrr (by omega) (by omega) (by rw [hmd]), metaOf, hs]
      rfl
    · have hl := Dmd.lookup_encode (zeroFields :: fs) 0 (by simp)
      obtain ⟨r, hr0, _⟩ := hm'.wf.root
      have ha := hm'.wf.abs (v := 0) (cs := []) .root ((List.getElem?_eq_some_iff.mp hr0).1)
      have e : (zeroFields :: fs)[(0 : UInt32).toNat]'(by simp) = zeroFields := rfl
      rw [e] at hl
      have hz0 : zeroFields.fid = 0 := rfl
      simp only [Index.docid2Doc, hmd, hl, hz0, ha, bind, Except.bind, pure, Except.pure]
      rfl

/-- **C105, for an index just created.**  However many documents are added, `Add` accepts all of them:
the `k`th one, counted from 1, gets the id `k` modulo `2 ^ 32`.  In the index there is a record for each,
but an id shows the first document it was given to, and the id 0 no document. -/
theorem C105_created_partial {J : CfgCodec} {c : Config} (hU : Usable J c) {x : Indexer} (hx : Indexer.create c = .ok x) (cwd : Bytes) (new : List Doc)
    (hp : FewPaths ((added cwd new).map fun s => s.path)) :
    ∃ rs front, x.front.adds cwd new = .ok (rs, front) ∧ rs.length = new.length ∧
      (∀ (k : Nat) d, new[k]? = some d → rs[k]? = some (UInt32.ofNat (k + 1), d.start, d.dat.getD [])) ∧
      (∃ dmd, Dmd.close front.dmds front.file = some dmd ∧ numDocs dmd = new.length + 1) ∧
      ∀ y, Shows front y →
        (∀ (id : UInt32) s, id ≠ 0 → (added cwd new)[id.toNat - 1]? = some s → y.docid2Doc id = .ok (s.path, s.start, s.stop)) ∧
        y.docid2Doc 0 = .ok ([47], 0, 0) := by
  obtain ⟨y, g1, g2⟩ := create_rep (u := asciiUni) hU
  cases g1.symm.trans hx
  obtain ⟨fs, hd, hm⟩ := g2.front
  obtain ⟨rs, front, h1, h2, h3, h4, h5⟩ := full_front (old := []) (by simp [Rooted]) ⟨fs, hd.ring, hm⟩ cwd new (by simpa using hp)
  refine ⟨rs, front, h1, h2, fun k d hk => ?_, by simpa using h4, by simpa using h5⟩
  have := h3 k d hk
  rwa [List.length_nil, Nat.zero_add, Nat.add_comm 1 k] at this

/-- **C105, for an index opened to append.** -/
theorem C105_appended_partial {u : Uni} {J : CfgCodec} {c : Config} (hU : Usable J c) {h : Sessions} {d : Dir} (hh : History u J c h d)
    (hf : Fits u c (documents h)) {x : Indexer} (hx : Indexer.open J d = .ok x) (cwd : Bytes) (new : List Doc)
    (hp : FewPaths ((documents h ++ added cwd new).map fun s => s.path)) :
    ∃ rs front, x.front.adds cwd new = .ok (rs, front) ∧ rs.length = new.length ∧
      (∀ (k : Nat) d, new[k]? = some d → rs[k]? = some (UInt32.ofNat ((documents h).length + 1 + k), d.start, d.dat.getD [])) ∧
      (∃ dmd, Dmd.close front.dmds front.file = some dmd ∧ numDocs dmd = (documents h).length + new.length + 1) ∧
      ∀ y, Shows front y →
        (∀ (id : UInt32) s, id ≠ 0 → (documents h ++ added cwd new)[id.toNat - 1]? = some s → y.docid2Doc id = .ok (s.path, s.start, s.stop)) ∧
        y.docid2Doc 0 = .ok ([47], 0, 0) := by
  obtain ⟨y, g1, g2⟩ := open_rep hU (hh.rep hU hf) hf
  cases g1.symm.trans hx
  obtain ⟨fs, hd, hm⟩ := g2.front
  exact full_front (documents_rooted h) ⟨fs, hd.ring, hm⟩ cwd new hp

/-- **C105, below the limit.**  As long as there are no more than `2 ^ 32 - 1` documents the ids are
different, and none is 0. -/
theorem C105_below_partial {u : Uni} {J : CfgCodec} {c : Config} (hU : Usable J c) {h : Sessions} {d : Dir} (hh : History u J c h d)
    (hf : Fits u c (documents h)) {x : Indexer} (hx : Indexer.open J d = .ok x) (cwd : Bytes) (new : List Doc)
    (hp : FewPaths ((documents h ++ added cwd new).map fun s => s.path)) (hn : (documents h).length + new.length < 2 ^ 32) :
    ∃ rs front, x.front.adds cwd new = .ok (rs, front) ∧ (rs.map fun r => r.1).Nodup ∧
      ∀ r ∈ rs, r.1 ≠ 0 ∧ (documents h).length < r.1.toNat := by
  obtain ⟨rs, front, h1, h2, h3, _⟩ := C105_appended_partial hU hh hf hx cwd new hp
  have key : ∀ (k : Nat) r, rs[k]? = some r → r.1.toNat = (documents h).length + 1 + k := by
    intro k r hk
    have hlt := (List.getElem?_eq_some_iff.mp hk).1
    have := h3 k _ (List.getElem?_eq_getElem (by omega))
    rw [hk] at this
    cases this
    simp only [UInt32.toNat_ofNat']
    omega
  refine ⟨rs, front, h1, ?_, fun r hr => ?_⟩
  · rw [List.Nodup, List.pairwise_iff_getElem]
    intro i j hi hj hij e
    simp only [List.length_map] at hi hj
    simp only [List.getElem_map] at e
    have k1 := key i _ (List.getElem?_eq_getElem hi)
    have k2 := key j _ (List.getElem?_eq_getElem hj)
    rw [e] at k1; omega
  · obtain ⟨k, hk, rfl⟩ := List.mem_iff_getElem.mp hr
    have := key k _ (List.getElem?_eq_getElem hk)
    refine ⟨fun h0 => ?_, by omega⟩
    rw [h0] at this
    simp only [UInt32.toNat_zero] at this
    omega

/-- **C105 is false.**  Of two documents `2 ^ 32` apart the second one is accepted with the id of the
first, and is shown as the first one; the document before the first one to be numbered again has the id
0, and is shown as the root directory. -/
theorem C105_false {J : CfgCodec} {c : Config} (hU : Usable J c) {x : Indexer} (hx : Indexer.create c = .ok x) (cwd : Bytes) (new : List Doc)
    (hp : FewPaths ((added cwd new).map fun s => s.path)) {k : Nat} {a b : Doc} (ha : new[k]? = some a) (hk : k + 1 < 2 ^ 32) (hb : new[k + 2 ^ 32]? = some b) :
    ∃ (rs : List Front.Req) (front : Front) (ra rb : Front.Req), x.front.adds cwd new = .ok (rs, front) ∧ rs[k]? = some ra ∧ rs[k + 2 ^ 32]? = some rb ∧ ra.1 = rb.1 ∧
      (∃ rz : Front.Req, rs[2 ^ 32 - 1]? = some rz ∧ rz.1 = 0) ∧
      ∀ y, Shows front y → y.docid2Doc rb.1 = .ok (absPath cwd a.path, a.start, a.stop) ∧ y.docid2Doc 0 = .ok ([47], 0, 0) := by
  obtain ⟨rs, front, h1, h2, h3, _, h5⟩ := C105_created_partial hU hx cwd new hp
  have e : UInt32.ofNat (k + 1) = UInt32.ofNat (k + 2 ^ 32 + 1) := UInt32.toNat_inj.mp (by simp only [UInt32.toNat_ofNat']; omega)
  have hl := (List.getElem?_eq_some_iff.mp hb).1
  have hzero : UInt32.ofNat (2 ^ 32 - 1 + 1) = 0 := UInt32.toNat_inj.mp (by rw [UInt32.toNat_ofNat', UInt32.toNat_zero]; omega)
  obtain ⟨z, hz⟩ : ∃ z, new[2 ^ 32 - 1]? = some z := ⟨new[2 ^ 32 - 1]'(by omega), List.getElem?_eq_getElem _⟩
  refine ⟨rs, front, _, _, h1, h3 k a ha, h3 _ b hb, e, ⟨_, h3 _ z hz, hzero⟩, fun y hy => ⟨?_, (h5 y hy).2⟩⟩
  have hid : (UInt32.ofNat (k + 1)).toNat = k + 1 := by simp only [UInt32.toNat_ofNat']; omega
  rw [show (UInt32.ofNat (k + 2 ^ 32 + 1), b.start, b.dat.getD []).1 = UInt32.ofNat (k + 1) from e.symm]
  have := (h5 y hy).1 (UInt32.ofNat (k + 1)) ⟨placeName (place cwd a.path), a.start, a.stop, a.dat.getD []⟩
    (fun h => by rw [h] at hid; simp at hid) (by rw [hid, Nat.add_sub_cancel, added, List.getElem?_map, ha]; rfl)
  rw [this, absPath_place]

/-- **C105, opening to append.**  When the number of records in the metadata is a multiple of `2 ^ 32` a
blank one is put after them, as when it is empty: the document added next has the id 1. -/
theorem C105_reopened_partial (fr : Int) (hfr : 1 ≤ fr) (hist : List Fields) (hne : hist ≠ []) (h0 : hist.length % 2 ^ 32 = 0) (x : Fields) :
    session (some (hist.flatMap encode)) fr [x] = .ok ([1], some ((hist ++ [zeroFields, x]).flatMap encode)) := by
  rw [session_ring fr hfr hist [x] hne]
  have : blank hist = [zeroFields] := by rw [blank, if_pos h0]
  rw [this]
  simp only [List.length_append, List.length_cons, List.length_nil, Nat.zero_add, List.range'_one, List.map_cons, List.map_nil, List.append_assoc,
    List.cons_append, List.nil_append]
  have : UInt32.ofNat (hist.length + 1) = 1 := UInt32.toNat_inj.mp (by simp only [UInt32.toNat_ofNat', UInt32.toNat_one]; omega)
  rw [this]

/-- documents as in `C105_false`: `2 ^ 32` parts of one file, and another one -/
theorem C105_nonvacuous : ∃ (x : Indexer) (new : List Doc), Usable Json.codec exCmdConfig ∧ Indexer.create exCmdConfig = .ok x ∧
    FewPaths ((added [47] new).map fun s => s.path) ∧ new[0]? = some ⟨[97], 0, 1, some [97]⟩ ∧ new[0 + 2 ^ 32]? = some ⟨[97], 1, 2, some [98]⟩ := by
  obtain ⟨x, hx, _⟩ := create_rep (u := asciiUni) exCmd_usable
  obtain ⟨n, hn⟩ : ∃ n, 2 ^ 32 = n + 1 := ⟨2 ^ 32 - 1, by omega⟩
  rw [hn]
  refine ⟨x, List.replicate (n + 1) ⟨[97], 0, 1, some [97]⟩ ++ [⟨[97], 1, 2, some [98]⟩], exCmd_usable, hx, ?_, ?_, ?_⟩
  · refine Fnames.FewPaths.mono (qs := [[47, 97]]) ?_ (by decide)
    intro p hp
    have hc : placeName (Spec.place [47] [97]) = [47, 97] := by decide
    simp only [added, List.map_append, List.map_replicate, List.map_cons, List.map_nil, hc, List.mem_append, List.mem_replicate] at hp
    rcases hp with ⟨_, rfl⟩ | hp
    · simp
    · exact hp
  · rw [List.replicate_succ]; rfl
  · rw [List.getElem?_append_right (by simp)]
    simp

end Dupi.Props
