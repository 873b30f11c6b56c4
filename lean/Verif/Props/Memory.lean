import Verif.Proof.SchedHeld
import Verif.Props.Late
import Verif.Props.Sched
import Verif.Props.MakeAny
/-! # C89: an indexing session takes limited memory -/

namespace Dupi.Props
open Spec

/-- every blot is for one shard -/
theorem shares_sum (n : Nat) (hn : 0 < n) (l : List UInt32) :
    Sched.sumN n (fun j => (l.filter fun x => x.toNat % n = j).length) = l.length := by
  induction l with
  | nil => exact Sched.sumN_zero fun _ _ => rfl
  | cons a l ih =>
    have e : ∀ j, ((a :: l).filter fun x => x.toNat % n = j).length = (if a.toNat % n = j then 1 else 0) + (l.filter fun x => x.toNat % n = j).length := by
      intro j
      by_cases h : a.toNat % n = j
      · simp [h]; omega
      · simp [h]
    rw [Sched.sumN_congr fun j _ => e j, Sched.sumN_add, ih]
    have : Sched.sumN n (fun j => if a.toNat % n = j then 1 else 0) = 1 := by
      unfold Sched.sumN
      rw [sum_indicator, if_pos (Nat.mod_lt _ hn)]
    rw [this, List.length_cons]; omega

/-- what a shard indexer has not written yet is less than 512 bytes for each of its lists -/
def Small (x : ShardIndexer) : Prop := x.ind.length = 65536 ∧ ∀ p ∈ x.ind, p.posts.length < 512

theorem addPost_small {p p' : Poster} {v : UInt32} {f f' : Bytes} (h : p.posts.length < 512) (e : p.addPost v f = .ok (p', f')) :
    p'.posts.length < 512 := by
  unfold Poster.addPost at e
  by_cases h1 : p.current = v ∧ p.total ≠ 0
  · rw [if_pos h1] at e; cases e; exact h
  · rw [if_neg h1] at e
    simp only at e
    by_cases h2 : Poster.flushRate ≤ (p.posts ++ putUvarint (v - p.current).toNat).length
    · rw [if_pos h2] at e
      simp only [Poster.flushTo, Poster.flushWrites, bind, Except.bind, pure, Except.pure] at e
      have hne : ¬ p.posts ++ putUvarint (v - p.current).toNat = [] := by
        intro h0; rw [h0] at h2; exact absurd h2 (by decide)
      rw [if_neg hne] at e
      by_cases h3 : p.link ≠ -1
      · simp only [if_pos h3] at e
        by_cases h4 : p.link < 0
        · simp only [if_pos h4] at e; cases e
        · simp only [if_neg h4] at e; cases e; exact (by decide : (0 : Nat) < 512)
      · simp only [if_neg h3] at e; cases e; exact (by decide : (0 : Nat) < 512)
    · rw [if_neg h2] at e; cases e
      have : Poster.flushRate = 512 := rfl
      simp only at h2 ⊢
      omega

theorem add_small {x y : ShardIndexer} {d : UInt32} {b : Nat} (h : Small x) (e : x.add d b = .ok y) : Small y := by
  unfold ShardIndexer.add at e
  cases hb : x.ind[b]? with
  | none => rw [hb] at e; cases e
  | some p =>
    rw [hb] at e
    simp only [bind, Except.bind, pure, Except.pure] at e
    cases hp : p.addPost d x.file with
    | error e' => rw [hp] at e; cases e
    | ok v =>
      rw [hp] at e; cases e
      refine ⟨by simpa using h.1, fun q hq => ?_⟩
      rcases List.mem_or_eq_of_mem_set hq with h1 | h1
      · exact h.2 q h1
      · rw [h1]; exact addPost_small (h.2 p (List.mem_of_getElem? hb)) hp

theorem serveAll_small {u : Uni} {x : Indexer} (ps : List Post) : ∀ {s y : ShardIndexer}, Small s → Sched.serveAll (x.params u).serve s ps = .ok y → Small y := by
  induction ps with
  | nil => intro s y h e; cases e; exact h
  | cons p ps ih =>
    intro s y h e
    simp only [Sched.serveAll, bind, Except.bind] at e
    cases h1 : (x.params u).serve s p with
    | error e' => rw [h1] at e; cases e
    | ok v => rw [h1] at e; exact ih (add_small h h1) e

theorem shard_small {s : ShardIndexer} {vals : Nat → List UInt32} (h : ShardRep 65536 s vals) : Small s := by
  obtain ⟨bs, h⟩ := h
  refine ⟨h.2.2.2.1, fun p hp => ?_⟩
  obtain ⟨o, ho⟩ := List.getElem?_of_mem hp
  have := (h.2.2.2.2 o p ho).2
  omega

theorem step_small {u : Uni} {x : Indexer} {s t : Sched.St Blotter ShardIndexer (UInt32 × Bytes) Post} (h : ∀ j, j < x.shards.length → Small (s.servers j).shard)
    (st : Sched.Step (x.params u) s t) : ∀ j, j < x.shards.length → Small (t.servers j).shard := by
  intro j hj
  cases st with
  | post h1 h2 h3 h4 h5 =>
    rename_i w j' did ss ps
    simp only [Sched.upd]
    by_cases e : j = j'
    · rw [if_pos e]; subst e; exact h j hj
    · rw [if_neg e]; exact h j hj
  | serve h1 h2 h3 =>
    rename_i j' ps y
    simp only [Sched.upd]
    by_cases e : j = j'
    · rw [if_pos e]; subst e; exact serveAll_small _ (h j hj) h3
    · rw [if_neg e]; exact h j hj
  | ack h1 h2 h3 h4 h5 =>
    rename_i w j' did ss
    simp only [Sched.St.setS, Sched.St.setW, Sched.upd]
    by_cases e : j = j'
    · rw [if_pos e]; subst e; exact h j hj
    · rw [if_neg e]; exact h j hj
  | exit h1 h2 h3 =>
    rename_i j'
    simp only [Sched.St.setS, Sched.upd]
    by_cases e : j = j'
    · rw [if_pos e]; subst e; exact h j hj
    · rw [if_neg e]; exact h j hj
  | _ => exact h j hj

theorem steps_small {u : Uni} {x : Indexer} {k : Nat} {s t : Sched.St Blotter ShardIndexer (UInt32 × Bytes) Post}
    (h : ∀ j, j < x.shards.length → Small (s.servers j).shard) (st : Sched.Steps (x.params u) k s t) :
    ∀ j, j < x.shards.length → Small (t.servers j).shard := by
  induction st with
  | refl => exact h
  | step _ s2 ih => exact step_small (ih h) s2

theorem add_buffer {cwd : Bytes} {f f' : Front} {doc : Doc} {id : UInt32} (h : f.dmds.buf.length ≤ f.dmds.flushRate.toNat)
    (e : f.add cwd doc = .ok (id, f')) (hr : 0 < f.dmds.flushRate.toNat) :
    f'.dmds.buf.length ≤ f'.dmds.flushRate.toNat ∧ f'.dmds.flushRate = f.dmds.flushRate := by
  simp only [Front.add, bind, Except.bind, pure, Except.pure] at e
  cases hp : Fnames.addPath cwd f.fnames doc.path with
  | error e' => rw [hp] at e; cases e
  | ok p =>
    rw [hp] at e
    cases e
    simp only [Dmd.add]
    by_cases hb : UInt32.ofNat f.dmds.buf.length = f.dmds.flushRate
    · rw [if_pos hb]
      refine ⟨?_, rfl⟩
      simp [Dmd.flush]; omega
    · rw [if_neg hb]
      refine ⟨?_, rfl⟩
      simp only [List.length_append, List.length_singleton]
      have : f.dmds.buf.length ≠ f.dmds.flushRate.toNat := by
        intro e
        exact hb (by rw [e, UInt32.ofNat_toNat])
      omega

theorem adds_buffer {cwd : Bytes} {new : List Doc} : ∀ {f f' : Front} {rs : List Front.Req}, f.adds cwd new = .ok (rs, f') →
    f.dmds.buf.length ≤ f.dmds.flushRate.toNat → 0 < f.dmds.flushRate.toNat → f'.dmds.buf.length ≤ f.dmds.flushRate.toNat := by
  induction new with
  | nil => intro f f' rs h h1 _; cases h; exact h1
  | cons d new ih =>
    intro f f' rs h h1 h2
    simp only [Front.adds, bind, Except.bind, pure, Except.pure] at h
    cases e : f.add cwd d with
    | error e' => rw [e] at h; cases h
    | ok v =>
      rw [e] at h
      cases e2 : v.2.adds cwd new with
      | error e' => simp only [e2] at h; cases h
      | ok v2 =>
        simp only [e2] at h
        cases h
        obtain ⟨g1, g2⟩ := add_buffer h1 (show f.add cwd d = .ok (v.1, v.2) from e) h2
        have := ih e2 g1 (by rw [g2]; exact h2)
        rw [g2] at this
        exact this

theorem newAdder_buffer {file : Option Bytes} {fr : Int} {a : Dmd.Adder} (h1 : 1 ≤ fr) (h2 : fr < 2 ^ 32) (e : Dmd.newAdder file fr = .ok a) :
    a.flushRate.toNat = fr.toNat ∧ a.buf.length ≤ 1 := by
  have hfr : (UInt32.ofNat (fr % 2 ^ 32).toNat).toNat = fr.toNat := by
    rw [UInt32.toNat_ofNat']; omega
  unfold Dmd.newAdder at e
  simp only [if_neg (show ¬ fr < 1 by omega), if_neg (show ¬ fr < 0 by omega)] at e
  cases file with
  | none => cases e; exact ⟨hfr, Nat.le_refl _⟩
  | some b =>
    simp only at e
    by_cases h0 : UInt32.ofNat (b.length / Dmd.rcdSize) = 0
    · rw [if_pos h0] at e; cases e; exact ⟨hfr, Nat.le_refl _⟩
    · rw [if_neg h0] at e; cases e; exact ⟨hfr, Nat.zero_le _⟩

theorem create_adder {c : Config} {x : Indexer} (e : Indexer.create c = .ok x) : ∃ file, Dmd.newAdder file c.docFlushRate = .ok x.front.dmds := by
  unfold Indexer.create at e
  simp only [bind, Except.bind, pure, Except.pure] at e
  cases h1 : Indexer.makeShards c with
  | error e' => rw [h1] at e; cases e
  | ok n =>
    rw [h1] at e; simp only at e
    cases h2 : c.tokenConfig.fromConfig with
    | error e' => rw [h2] at e; cases e
    | ok _ =>
      rw [h2] at e; simp only at e
      cases h3 : Dmd.newAdder none c.docFlushRate with
      | error e' => rw [h3] at e; cases e
      | ok a =>
        rw [h3] at e; simp only at e
        cases h4 : Indexer.makeBlotters c with
        | error e' => rw [h4] at e; cases e
        | ok bs => rw [h4] at e; cases e; exact ⟨none, h3⟩

theorem open_adder {J : CfgCodec} {d : Dir} {x : Indexer} (e : Indexer.open J d = .ok x) : ∃ file, Dmd.newAdder file x.config.docFlushRate = .ok x.front.dmds := by
  unfold Indexer.open at e
  simp only [bind, Except.bind, pure, Except.pure] at e
  cases h0 : Config.readFrom J d with
  | error e' => rw [h0] at e; cases e
  | ok c =>
  rw [h0] at e; simp only at e
  cases h1 : Indexer.makeShards c with
  | error e' => rw [h1] at e; cases e
  | ok n =>
  rw [h1] at e; simp only at e
  cases h3 : Dmd.newAdder (d .dmd) c.docFlushRate with
  | error e' => rw [h3] at e; cases e
  | ok a =>
  rw [h3] at e; simp only at e
  cases h4 : d.read .fnm with
  | error e' => rw [h4] at e; cases e
  | ok b =>
  rw [h4] at e; simp only at e
  cases h5 : Fnames.read b with
  | error e' => rw [h5] at e; cases e
  | ok t =>
  rw [h5] at e; simp only at e
  cases h6 : c.tokenConfig.fromConfig with
  | error e' => rw [h6] at e; cases e
  | ok _ =>
  rw [h6] at e; simp only at e
  cases h7 : Indexer.openShards d n 0 with
  | error e' => rw [h7] at e; cases e
  | ok xs =>
  rw [h7] at e; simp only at e
  cases h8 : Indexer.makeBlotters c with
  | error e' => rw [h8] at e; cases e
  | ok bs => rw [h8] at e; cases e; exact ⟨_, h3⟩

section
variable {u : Uni} {J : CfgCodec} {c : Config} (hU : Usable J c) {docs : List Document} {x : Indexer} {d : Dir} (hx : Opened u J c docs x d)

include hU hx

/-- **C89.**  Whatever documents are added and at every moment of every schedule, the shatterers and shards together hold at most the posts
of as many documents as there are shatterers: none is queued. -/
theorem C89_posts (cwd : Bytes) (new : List Doc) (hf : Fits u c (docs ++ added cwd new)) {B : Nat}
    (hB : ∀ doc ∈ new, (blotsOf u c (doc.dat.getD [])).length ≤ B) {rs front} (ha : x.front.adds cwd new = .ok (rs, front)) {k t}
    (ht : Sched.Steps (x.params u) k (x.start rs) t) : Sched.held (x.params u) t ≤ B * c.numShatters.toNat := by
  obtain ⟨hr, _⟩ := hx.rep hU hf.left
  obtain ⟨front', g1, _⟩ := Front.adds_rep cwd new hr.front hf.ids hf.paths
  rw [ha] at g1; injection g1 with g1; injection g1 with g1 g2; subst g1 g2
  have hi := sessionEnv_inv hU hr cwd new hf ht
  refine Nat.le_trans hi.held ?_
  have hnw : (sessionEnv hU hr cwd new hf).P.nw = c.numShatters.toNat := hr.nw
  rw [← hnw, ← Sched.sumN_const]
  refine Sched.sumN_mono fun w hw => ?_
  unfold Sched.Env.inHand
  cases hd : Sched.didOf (t.workers w).2 with
  | none => exact Nat.zero_le _
  | some did =>
    show Sched.sumN _ _ ≤ B
    unfold Sched.Env.batch
    cases hdoc : (sessionEnv hU hr cwd new hf).docs[did - (sessionEnv hU hr cwd new hf).base - 1]? with
    | none =>
      have : Sched.sumN (sessionEnv hU hr cwd new hf).P.n (fun _ => ([] : List Post).length) = 0 := Sched.sumN_zero fun j _ => rfl
      simp only
      omega
    | some r =>
      have hn : (sessionEnv hU hr cwd new hf).P.n = c.numShards.toNat := hr.nsh
      have hpos := hU.shards
      rw [hn]
      simp only
      have e : ∀ j, j < c.numShards.toNat → ((sessionEnv hU hr cwd new hf).out r.1 r.2 j).length =
          ((blotsOf u c r.2.2).filter fun y => y.toNat % c.numShards.toNat = j).length := by
        intro j hj
        show (outPosts u c r.1 r.2.2 j).length = _
        rw [outPosts_batch u c r j hj]
        simp [batch]
      rw [Sched.sumN_congr e, shares_sum _ (by omega)]
      have hmem : (reqs (docs.length + 1) new)[did - (sessionEnv hU hr cwd new hf).base - 1]? = some r := hdoc
      rw [reqs_getElem] at hmem
      cases hk : new[did - (sessionEnv hU hr cwd new hf).base - 1]? with
      | none => rw [hk] at hmem; cases hmem
      | some doc =>
        rw [hk] at hmem
        cases hmem
        exact hB doc (List.mem_of_getElem? hk)

/-- **C89.**  At every moment of every schedule what a shard has of a posting list in memory is less than 512 bytes. -/
theorem C89_lists (cwd : Bytes) (new : List Doc) (hf : Fits u c (docs ++ added cwd new)) {rs front} (_ : x.front.adds cwd new = .ok (rs, front)) {k t}
    (ht : Sched.Steps (x.params u) k (x.start rs) t) {j : Nat} (hj : j < c.numShards.toNat) :
    (t.servers j).shard.ind.length = 65536 ∧ ∀ p ∈ (t.servers j).shard.ind, p.posts.length < 512 := by
  obtain ⟨hr, _⟩ := hx.rep hU hf.left
  refine steps_small (fun i hi => ?_) ht j (by rw [hr.nsh]; exact hj)
  show Small (x.shards.getD i ⟨[], []⟩)
  rw [List.getD_eq_getElem?_getD, List.getElem?_eq_getElem hi]
  exact shard_small (hr.sh i _ (List.getElem?_eq_getElem hi))

/-- **C89.**  After any number of Adds at most `DocFlushRate` records of documents are in memory. -/
theorem C89_records (hfr : c.docFlushRate < 2 ^ 32) (cwd : Bytes) (new : List Doc) (hf : Fits u c docs) {rs front}
    (ha : x.front.adds cwd new = .ok (rs, front)) : front.dmds.buf.length ≤ c.docFlushRate.toNat := by
  obtain ⟨hr, _⟩ := hx.rep hU hf
  have hpos := hU.flush
  obtain ⟨file, hn⟩ : ∃ file, Dmd.newAdder file c.docFlushRate = .ok x.front.dmds := by
    cases hx with
    | create h => exact create_adder h
    | append _ h => have := open_adder h; rwa [hr.cfg] at this
  obtain ⟨h1, h2⟩ := newAdder_buffer (by omega) hfr hn
  rw [← h1]
  exact adds_buffer ha (by omega) (by omega)

end

/-! ## Non-vacuity -/

/-- there are sessions in the middle of which posts are held: with the example configuration, one document "a b c d." -/
theorem C89_nonvacuous : ∃ x rs front k t, Indexer.create exQConfig = .ok x ∧
    Fits asciiUni exQConfig ([] ++ added [47] (oneDoc [97, 32, 98, 32, 99, 32, 100, 46])) ∧
    x.front.adds [47] (oneDoc [97, 32, 98, 32, 99, 32, 100, 46]) = .ok (rs, front) ∧ Sched.Steps (x.params asciiUni) k (x.start rs) t ∧
    0 < Sched.held (x.params asciiUni) t := by
  have hf : Fits asciiUni exQConfig ([] ++ added [47] (oneDoc [97, 32, 98, 32, 99, 32, 100, 46])) := ⟨by decide, by decide +kernel, by decide +kernel⟩
  obtain ⟨x, hx, hr⟩ := create_rep (u := asciiUni) exUsable
  obtain ⟨front, g1, _⟩ := Front.adds_rep [47] (oneDoc [97, 32, 98, 32, 99, 32, 100, 46]) hr.front hf.ids hf.paths
  have hnw : (x.params asciiUni).nw = 2 := hr.nw
  have hn : (x.params asciiUni).n = 3 := hr.nsh
  let Γ := sessionEnv exUsable hr [47] (oneDoc [97, 32, 98, 32, 99, 32, 100, 46]) hf
  let d : UInt32 × Bytes := (0, [97, 32, 98, 32, 99, 32, 100, 46])
  obtain ⟨b, hb, _⟩ := Γ.hcompute (Γ.b0 0) 1 d (Γ.iw0 0 (by rw [show Γ.P.nw = 2 from hnw]; decide))
  have hstart : (x.start (reqs 1 (oneDoc [97, 32, 98, 32, 99, 32, 100, 46]))).client = .add [((1 : UInt32), d)] := rfl
  have s1 : Sched.Step (x.params asciiUni) _ _ := Sched.Step.give (w := 0) hstart (by omega) rfl
  have s2 := Sched.Step.compute (P := x.params asciiUni) (w := 0) (b := b) (out := Γ.out 1 d) (s := _) (by omega) (did := 1) (d := d)
    (show (({ (x.start (reqs 1 (oneDoc [97, 32, 98, 32, 99, 32, 100, 46]))).setW 0 (.computing 1 d) with client := .add [] } :
      Sched.St Blotter ShardIndexer (UInt32 × Bytes) Post).workers 0).2 = .computing 1 d from rfl) hb
  refine ⟨x, _, front, _, _, hx, hf, g1, .step (.step .refl s1) s2, ?_⟩
  unfold Sched.held
  rw [hnw, hn, Sched.sumN_succ, Sched.sumN_succ]
  have : 0 < Sched.workHeld 3 (Sched.WSt.locking (D := UInt32 × Bytes) 1 (Γ.out 1 d)) := by
    show 0 < Sched.sumN 3 fun j => (outPosts asciiUni exQConfig 1 [97, 32, 98, 32, 99, 32, 100, 46] j).length
    decide +kernel
  exact Nat.lt_of_lt_of_le this (Nat.le_trans (Nat.le_add_left _ _) (Nat.le_trans (Nat.le_add_right _ _) (Nat.le_add_right _ _)))

end Dupi.Props
