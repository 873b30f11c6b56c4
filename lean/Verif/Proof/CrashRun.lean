import Verif.Proof.CrashOps
import Verif.Proof.Index
/-! # The operations of a whole session have the effect of the session -/

namespace Dupi

/-! ### Document metadata -/

theorem dmd_flushOps (t : Dmd.Adder) (file : Option Bytes) : onFiles file (Dmd.flushOps t file) = (Dmd.flush t file).2 := by
  have := onFiles_writes .dmd (t.buf.map Dmd.encode) (file.getD [])
  rw [← List.flatMap_def] at this
  simp only [Dmd.flush]
  rw [← this]; rfl

theorem dmd_flushOps_on (t : Dmd.Adder) (file : Option Bytes) : On .dmd (Dmd.flushOps t file) := by
  intro op h
  rcases List.mem_cons.mp h with rfl | h
  · rfl
  · exact writes_on _ _ _ op h

theorem dmd_addOps (t : Dmd.Adder) (file : Option Bytes) (x : Fields) : onFiles file (Dmd.addOps t file) = (Dmd.add t file x).2.2 := by
  unfold Dmd.addOps Dmd.add
  split
  · rw [dmd_flushOps]
  · simp [*, onFiles]

theorem dmd_addOps_on (t : Dmd.Adder) (file : Option Bytes) : On .dmd (Dmd.addOps t file) := by
  unfold Dmd.addOps
  split
  · exact dmd_flushOps_on t file
  · intro op h; simp at h

theorem dmd_closeOps (t : Dmd.Adder) (file : Option Bytes) : onFiles file (Dmd.closeOps t file) = Dmd.close t file := by
  unfold Dmd.closeOps Dmd.close
  split
  · rfl
  · exact dmd_flushOps t file

theorem dmd_closeOps_on (t : Dmd.Adder) (file : Option Bytes) : On .dmd (Dmd.closeOps t file) := by
  unfold Dmd.closeOps
  split
  · intro op h; simp at h
  · exact dmd_flushOps_on t file

theorem Front.addsOps_spec (cwd : Bytes) (docs : List Doc) : ∀ {x y : Front} {rs : List Front.Req}, x.adds cwd docs = .ok (rs, y) →
    ∃ ops, x.addsOps cwd docs = .ok ops ∧ onFiles x.file ops = y.file ∧ On .dmd ops := by
  induction docs with
  | nil =>
    intro x y rs h
    simp only [Front.adds, Except.ok.injEq, Prod.mk.injEq] at h
    exact ⟨[], rfl, by rw [h.2]; rfl, by intro op h; simp at h⟩
  | cons doc docs ih =>
    intro x y rs h
    simp only [Front.adds, bind, Except.bind, pure, Except.pure] at h
    cases ha : x.add cwd doc with
    | error e => simp [ha] at h
    | ok r =>
      obtain ⟨id, z⟩ := r
      simp only [ha] at h
      cases hb : z.adds cwd docs with
      | error e => simp [hb] at h
      | ok r =>
        obtain ⟨rs', w⟩ := r
        simp only [hb, Except.ok.injEq, Prod.mk.injEq] at h
        obtain ⟨ops, h1, h2, h3⟩ := ih hb
        refine ⟨Dmd.addOps x.dmds x.file ++ ops, by simp [Front.addsOps, ha, h1, bind, Except.bind, pure, Except.pure], ?_, ?_⟩
        · rw [onFiles_append]
          have : onFiles x.file (Dmd.addOps x.dmds x.file) = z.file := by
            simp only [Front.add, bind, Except.bind, pure, Except.pure] at ha
            cases hp : Fnames.addPath cwd x.fnames doc.path with
            | error e => simp [hp] at ha
            | ok r =>
              simp only [hp, Except.ok.injEq, Prod.mk.injEq] at ha
              rw [dmd_addOps _ _ ⟨r.1, doc.start, doc.stop⟩, ← ha.2]
          rw [this, h2, h.2]
        · intro op hop
          rcases List.mem_append.mp hop with h | h
          · exact dmd_addOps_on _ _ op h
          · exact h3 op h

/-! ### Shards -/

theorem addPostWrites_spec {p q : Poster} {v : UInt32} {f g : Bytes} (h : p.addPost v f = .ok (q, g)) :
    ∃ ws, p.addPostWrites v f = .ok ws ∧ g = Poster.applyWrites f ws := by
  unfold Poster.addPost at h
  unfold Poster.addPostWrites
  split
  · rename_i hc
    rw [if_pos hc] at h
    injection h with h; injection h with _ h
    exact ⟨[], rfl, h.symm⟩
  · rename_i hc
    rw [if_neg hc] at h
    simp only [] at h ⊢
    split
    · rename_i hl
      rw [if_pos hl] at h
      simp only [Poster.flushTo, bind, Except.bind, pure, Except.pure] at h
      revert h
      cases Poster.flushWrites _ _ with
      | error e => intro h; simp at h
      | ok r =>
        intro h
        obtain ⟨ws, p'⟩ := r
        injection h with h; injection h with _ h
        exact ⟨ws, rfl, h.symm⟩
    · rename_i hl
      rw [if_neg hl] at h
      injection h with h; injection h with _ h
      exact ⟨[], rfl, h.symm⟩

theorem applyWrites_append (f : Bytes) (a b : List (Nat × Bytes)) :
    Poster.applyWrites f (a ++ b) = Poster.applyWrites (Poster.applyWrites f a) b := by simp [Poster.applyWrites, List.foldl_append]

theorem ShardIndexer.addWrites_spec {x y : ShardIndexer} {d : UInt32} {b : Nat} (h : x.add d b = .ok y) :
    ∃ ws, x.addWrites d b = .ok ws ∧ y.file = Poster.applyWrites x.file ws := by
  unfold ShardIndexer.add at h
  unfold ShardIndexer.addWrites
  cases hp : x.ind[b]? with
  | none => simp [hp, panic'] at h
  | some p =>
    simp only [hp, bind, Except.bind, pure, Except.pure] at h ⊢
    cases ha : p.addPost d x.file with
    | error e => simp [ha] at h
    | ok r =>
      obtain ⟨q, g⟩ := r
      simp only [ha, Except.ok.injEq] at h
      obtain ⟨ws, h1, h2⟩ := addPostWrites_spec ha
      exact ⟨ws, h1, by rw [← h]; exact h2⟩

theorem ShardIndexer.addAllWrites_spec (ps : List (UInt32 × Nat)) : ∀ {x y : ShardIndexer}, x.addAll ps = .ok y →
    ∃ ws, x.addAllWrites ps = .ok ws ∧ y.file = Poster.applyWrites x.file ws := by
  induction ps with
  | nil =>
    intro x y h
    simp only [ShardIndexer.addAll, Except.ok.injEq] at h
    exact ⟨[], rfl, by rw [h]; rfl⟩
  | cons p ps ih =>
    obtain ⟨d, b⟩ := p
    intro x y h
    simp only [ShardIndexer.addAll, bind, Except.bind] at h
    cases ha : x.add d b with
    | error e => simp [ha] at h
    | ok z =>
      simp only [ha] at h
      obtain ⟨ws, h1, h2⟩ := ShardIndexer.addWrites_spec ha
      obtain ⟨ws', h3, h4⟩ := ih h
      exact ⟨ws ++ ws', by simp [ShardIndexer.addAllWrites, h1, ha, h3, bind, Except.bind, pure, Except.pure],
        by rw [applyWrites_append, ← h2, h4]⟩

theorem ShardIndexer.flushIndWrites_spec (ps : List Poster) : ∀ {qs : List Poster} {f g : Bytes}, flushInd ps f = .ok (qs, g) →
    ∃ ws, flushIndWrites ps f = .ok ws ∧ g = Poster.applyWrites f ws := by
  induction ps with
  | nil =>
    intro qs f g h
    simp only [flushInd, Except.ok.injEq, Prod.mk.injEq] at h
    exact ⟨[], rfl, h.2.symm⟩
  | cons p ps ih =>
    intro qs f g h
    simp only [flushInd, Poster.flushTo, bind, Except.bind, pure, Except.pure] at h
    cases hw : p.flushWrites f.length with
    | error e => simp [hw] at h
    | ok r =>
      obtain ⟨ws, p'⟩ := r
      simp only [hw] at h
      cases hr : flushInd ps (Poster.applyWrites f ws) with
      | error e => simp [hr] at h
      | ok r =>
        obtain ⟨qs', g'⟩ := r
        simp only [hr, Except.ok.injEq, Prod.mk.injEq] at h
        obtain ⟨ws', h1, h2⟩ := ih hr
        exact ⟨ws ++ ws', by simp [flushIndWrites, hw, h1, bind, Except.bind, pure, Except.pure], by rw [applyWrites_append, ← h2, h.2]⟩

theorem posOps_on (i : Nat) (ws : List (Nat × Bytes)) : On (.pos i) (ShardIndexer.posOps i ws) := by
  intro op h
  obtain ⟨w, _, rfl⟩ := List.mem_map.mp h
  rfl

theorem onFiles_posOps (i : Nat) (ws : List (Nat × Bytes)) : ∀ f : Bytes,
    onFiles (some f) (ShardIndexer.posOps i ws) = some (Poster.applyWrites f ws) := by
  induction ws with
  | nil => intro f; rfl
  | cons w ws ih =>
    intro f
    have := ih (writeAt f w.1 w.2)
    simpa [onFiles, ShardIndexer.posOps, Poster.applyWrites, Op.onFile] using this

theorem iixChunks_flatten (ps : List Poster) : (ps.flatMap ShardIndexer.iixChunks).flatten = ps.flatMap ShardIndexer.iixEntry := by
  induction ps with
  | nil => rfl
  | cons p ps ih => simp [List.flatMap_cons, ih, ShardIndexer.iixChunks, ShardIndexer.iixEntry]

theorem initCreateChunks_flatten (ps : List Poster) :
    (ps.flatMap Poster.initCreateChunks).flatten = ps.flatMap Poster.initCreateBytes := by
  induction ps with
  | nil => rfl
  | cons p ps ih => simp [List.flatMap_cons, ih, Poster.initCreateChunks, Poster.initCreateBytes]

theorem writeChunks_flatten (t : Fnames.Table) : (Fnames.writeChunks t).flatten = Fnames.write t := by
  have : ∀ t : Fnames.Table, (t.flatMap fun n => [Fnames.writeUvarint32 (UInt32.ofNat n.name.length), n.name, Fnames.writeUvarint32 n.parent]).flatten =
      t.flatMap Fnames.writeNode := by
    intro t
    induction t with
    | nil => rfl
    | cons n t ih => simp [List.flatMap_cons, ih, Fnames.writeNode]
  simp only [Fnames.writeChunks, Fnames.write, List.flatten_cons, this]

theorem iixChunks_ne (ps : List Poster) : ∀ b ∈ ps.flatMap ShardIndexer.iixChunks, b ≠ [] := by
  intro b hb
  obtain ⟨p, _, h⟩ := List.mem_flatMap.mp hb
  simp only [ShardIndexer.iixChunks, List.mem_cons, List.not_mem_nil, or_false] at h
  rcases h with rfl | rfl | rfl
  · exact putUvarint_ne_nil _
  · exact putUvarint_ne_nil _
  · simp [be32]

theorem writeTo_ops (J : CfgCodec) (c : Config) (o : Option Bytes) :
    onFiles o (Config.writeOps J c) = some (writeAt (o.getD []) 0 (J.enc c ++ [10])) := by
  have := writeAt_writeAt (o.getD []) 0 (J.enc c) [10] (by omega)
  simp only [Nat.zero_add] at this
  simp [Config.writeOps, onFiles, Op.writes, Op.onFile, this]

theorem writeOps_on (J : CfgCodec) (c : Config) : On .cfg (Config.writeOps J c) := by
  intro op h
  rcases List.mem_cons.mp h with rfl | h
  · rfl
  · exact writes_on _ _ _ op h

theorem fnames_ops_on (t : Fnames.Table) : On .fnm (Fnames.writeOps t) := by
  intro op h
  rcases List.mem_cons.mp h with rfl | h
  · rfl
  · exact writes_on _ _ _ op h

theorem fnames_ops (t : Fnames.Table) (o : Option Bytes) : onFiles o (Fnames.writeOps t) = some (Fnames.write t) := by
  rw [Fnames.writeOps, onFiles_trunc, writeChunks_flatten]

/-! ### Closing a shard -/

/-- the operations that close a shard, and what they leave -/
theorem closeOps_spec {i : Nat} {x : ShardIndexer} {f : ShardFiles} (h : x.close = .ok f) :
    ∃ (ws : List (Nat × Bytes)) (ps : List Poster), ShardIndexer.closeOps i x = .ok (ShardIndexer.posOps i ws ++ .trunc (.iix i) :: Op.writes (.iix i) 0 (ps.flatMap ShardIndexer.iixChunks)) ∧
      f.post = Poster.applyWrites x.file ws ∧ f.iix = ps.flatMap ShardIndexer.iixEntry := by
  simp only [ShardIndexer.close, bind, Except.bind, pure, Except.pure] at h
  cases hr : ShardIndexer.flushInd x.ind x.file with
  | error e => simp [hr] at h
  | ok r =>
    obtain ⟨ps, g⟩ := r
    simp only [hr, Except.ok.injEq] at h
    obtain ⟨ws, h1, h2⟩ := ShardIndexer.flushIndWrites_spec _ hr
    refine ⟨ws, ps, by simp [ShardIndexer.closeOps, h1, hr, bind, Except.bind, pure, Except.pure], by rw [← h]; exact h2, by rw [← h]⟩

/-- what closing the shards leaves -/
theorem closeShards_spec (sh : Nat → ShardIndexer) (n : Nat) : ∀ {d d' : Dir}, Indexer.closeShards sh n d = .ok d' →
    (∀ j, j < n → ∃ f, (sh j).close = .ok f ∧ d' (.pos j) = some f.post ∧ d' (.iix j) = some f.iix) ∧
    ∀ g, (∀ j, j < n → g ≠ .pos j ∧ g ≠ .iix j) → d' g = d g := by
  induction n with
  | zero =>
    intro d d' h
    simp only [Indexer.closeShards, Except.ok.injEq] at h
    exact ⟨by intro j hj; omega, fun g _ => by rw [h]⟩
  | succ n ih =>
    intro d d' h
    simp only [Indexer.closeShards, bind, Except.bind, pure, Except.pure] at h
    cases h1 : Indexer.closeShards sh n d with
    | error e => simp [h1] at h
    | ok d1 =>
      simp only [h1] at h
      cases h2 : (sh n).close with
      | error e => simp [h2] at h
      | ok f =>
        simp only [h2, Except.ok.injEq] at h
        obtain ⟨g1, g2⟩ := ih h1
        subst h
        refine ⟨fun j hj => ?_, fun g hg => ?_⟩
        · by_cases e : j = n
          · subst e; exact ⟨f, h2, by simp [Dir.set], by simp [Dir.set]⟩
          · obtain ⟨f', k1, k2, k3⟩ := g1 j (by omega)
            exact ⟨f', k1, by simp [Dir.set, e, k2], by simp [Dir.set, e, k3]⟩
        · have := hg n (by omega)
          simp only [Dir.set, this.1, this.2, if_false]
          exact g2 g fun j hj => hg j (by omega)

/-! ### Goroutines and files -/

theorem map_range_get {α : Type} {n : Nat} (s : Nat → α) {j : Nat} (hj : j < n) : ((List.range n).map s)[j]? = some (s j) := by
  simp [List.getElem?_map, List.getElem?_range hj]

theorem map_range_get_inv {α : Type} {n : Nat} {s : Nat → α} {j : Nat} {l : α} (h : ((List.range n).map s)[j]? = some l) : j < n ∧ l = s j := by
  have hj : j < n := by simpa using (List.getElem?_eq_some_iff.mp h).1
  rw [map_range_get s hj] at h
  injection h with h
  exact ⟨hj, h.symm⟩

theorem workers_opsOn {n : Nat} {a : List Op} {s : Nat → List Op} {ops : List Op} (h : Interleave (Trace.workers n a s) ops)
    (ha : On .dmd a) (hs : ∀ j, j < n → On (.pos j) (s j)) :
    opsOn .dmd ops = a ∧ (∀ j, j < n → opsOn (.pos j) ops = s j) ∧ ∀ f, f ≠ .dmd → (∀ j, j < n → f ≠ .pos j) → Off f ops := by
  have hget : ∀ (k : Nat) l, (Trace.workers n a s)[k + 1]? = some l → k < n ∧ l = s k := by
    intro k l hl
    rw [Trace.workers, List.getElem?_cons_succ] at hl
    exact map_range_get_inv hl
  refine ⟨?_, fun j hj => ?_, fun f h1 h2 => h.off fun m hm => ?_⟩
  · rw [h.opsOn (f := .dmd) (i := 0) (li := a) rfl, ha.opsOn]
    intro k l hk hl
    obtain ⟨k, rfl⟩ := Nat.exists_eq_succ_of_ne_zero hk
    obtain ⟨k1, rfl⟩ := hget k l hl
    exact (hs k k1).off nofun
  · rw [h.opsOn (f := .pos j) (i := j + 1) (li := s j) (by rw [Trace.workers, List.getElem?_cons_succ]; exact map_range_get s hj), (hs j hj).opsOn]
    intro k l hk hl
    cases k with
    | zero => simp only [Trace.workers, List.getElem?_cons_zero, Option.some.injEq] at hl; subst hl; exact ha.off nofun
    | succ k =>
      obtain ⟨k1, rfl⟩ := hget k l hl
      exact (hs k k1).off (by intro e; injection e with e; omega)
  · rcases List.mem_cons.mp hm with rfl | hm
    · exact ha.off (Ne.symm h1)
    · obtain ⟨j, hj, rfl⟩ := List.mem_map.mp hm
      have hj := List.mem_range.mp hj
      exact (hs j hj).off (Ne.symm (h2 j hj))

/-- all operations are on the two files of a shard -/
def OnShard (j : Nat) (ops : List Op) : Prop := ∀ op ∈ ops, op.file = .pos j ∨ op.file = .iix j

theorem OnShard.off {j : Nat} {ops : List Op} (h : OnShard j ops) {f : File} (h1 : f ≠ .pos j) (h2 : f ≠ .iix j) : Off f ops := by
  intro op hop
  rcases h op hop with e | e <;> rw [e]
  · exact Ne.symm h1
  · exact Ne.symm h2

theorem Cut.onShard {j : Nat} {a c : List Op} (h : Cut a c) (ho : OnShard j a) : OnShard j c := by
  intro op hop
  obtain ⟨o, h1, h2⟩ := h.mem op hop
  rw [← h2]; exact ho o h1

theorem shards_opsOn {n : Nat} {s : Nat → List Op} {ops : List Op} (h : Interleave ((List.range n).map s) ops)
    (hs : ∀ j, j < n → OnShard j (s j)) :
    (∀ j, j < n → opsOn (.pos j) ops = opsOn (.pos j) (s j) ∧ opsOn (.iix j) ops = opsOn (.iix j) (s j)) ∧
      ∀ f, (∀ j, j < n → f ≠ .pos j ∧ f ≠ .iix j) → Off f ops := by
  refine ⟨fun j hj => ⟨?_, ?_⟩, fun f hf => h.off fun m hm => ?_⟩
  · refine h.opsOn (map_range_get s hj) fun k l hk hl => ?_
    obtain ⟨k1, rfl⟩ := map_range_get_inv hl
    exact (hs k k1).off (by intro e; injection e with e; omega) nofun
  · refine h.opsOn (map_range_get s hj) fun k l hk hl => ?_
    obtain ⟨k1, rfl⟩ := map_range_get_inv hl
    exact (hs k k1).off nofun (by intro e; injection e with e; omega)
  · obtain ⟨j, hj, rfl⟩ := List.mem_map.mp hm
    have hj := List.mem_range.mp hj
    exact (hs j hj).off (hf j hj).1 (hf j hj).2

theorem closeOps_onShard (i : Nat) (ws : List (Nat × Bytes)) (bs : List Bytes) :
    OnShard i (ShardIndexer.posOps i ws ++ .trunc (.iix i) :: Op.writes (.iix i) 0 bs) := by
  intro op h
  rcases List.mem_append.mp h with h | h
  · exact .inl (posOps_on i ws op h)
  · rcases List.mem_cons.mp h with rfl | h
    · exact .inr rfl
    · exact .inr (writes_on _ _ _ op h)

theorem closingOps_files (J : CfgCodec) (c : Config) (front : Front) :
    (∀ j, Off (.pos j) (Indexer.closingOps J c front) ∧ Off (.iix j) (Indexer.closingOps J c front)) ∧
    opsOn .cfg (Indexer.closingOps J c front) = Config.writeOps J c ∧
    opsOn .fnm (Indexer.closingOps J c front) = Fnames.writeOps front.fnames ∧
    opsOn .dmd (Indexer.closingOps J c front) = Dmd.closeOps front.dmds front.file := by
  have h1 := writeOps_on J c
  have h2 := fnames_ops_on front.fnames
  have h3 := dmd_closeOps_on front.dmds front.file
  refine ⟨fun j => ⟨?_, ?_⟩, ?_, ?_, ?_⟩
  · exact ((h1.off (g := .pos j) nofun).append (h2.off nofun)).append (h3.off nofun)
  · exact ((h1.off (g := .iix j) nofun).append (h2.off nofun)).append (h3.off nofun)
  · rw [Indexer.closingOps, opsOn_append, opsOn_append, h1.opsOn, (h2.off (g := .cfg) nofun).opsOn, (h3.off (g := .cfg) nofun).opsOn]; simp
  · rw [Indexer.closingOps, opsOn_append, opsOn_append, (h1.off (g := .fnm) nofun).opsOn, h2.opsOn, (h3.off (g := .fnm) nofun).opsOn]; simp
  · rw [Indexer.closingOps, opsOn_append, opsOn_append, (h1.off (g := .dmd) nofun).opsOn, (h2.off (g := .dmd) nofun).opsOn, h3.opsOn]; simp

/-! ### Whole sessions -/

/-- `d1` is the directory `d` of the indexer `x` when the first document can be added -/
structure Ready (x : Indexer) (d d1 : Dir) : Prop where
  dmd : d .dmd = x.front.file
  pos : ∀ (j : Nat) s, x.shards[j]? = some s → d1 (.pos j) = some s.file
  rest : ∀ f, (∀ j, j < x.shards.length → f ≠ .pos j ∧ f ≠ .iix j) → d1 f = d f

/-- what is known of the operations of a session -/
structure RunRep (J : CfgCodec) (cwd : Bytes) (x : Indexer) (docs : List Doc) (d : Dir) (setup : List Op) (tr : Trace) (d' : Dir) : Prop where
  setup : tr.setup = setup
  adds : On .dmd tr.adds
  serve : ∀ j, j < x.shards.length → On (.pos j) (tr.serve j)
  ex : ∃ rs front, x.front.adds cwd docs = .ok (rs, front) ∧ onFiles x.front.file tr.adds = front.file ∧
    tr.closing = Indexer.closingOps J x.config front ∧
    d' .cfg = some (writeAt ((d .cfg).getD []) 0 (J.enc x.config ++ [10])) ∧ d' .fnm = some (Fnames.write front.fnames) ∧
    (d .dmd = x.front.file → d' .dmd = onFiles front.file (Dmd.closeOps front.dmds front.file))
  shard : ∀ (j : Nat) s, x.shards[j]? = some s → ∃ (ws : List (Nat × Bytes)) (ps : List Poster),
    tr.shard j = ShardIndexer.posOps j ws ++ .trunc (.iix j) :: Op.writes (.iix j) 0 (ps.flatMap ShardIndexer.iixChunks) ∧
    d' (.pos j) = onFiles (onFiles (some s.file) (tr.serve j)) (ShardIndexer.posOps j ws) ∧ d' (.iix j) = some (ps.flatMap ShardIndexer.iixEntry)
  rest : ∀ f, f ≠ .cfg → f ≠ .dmd → f ≠ .fnm → (∀ j, j < x.shards.length → f ≠ .pos j ∧ f ≠ .iix j) → d' f = d f

theorem Indexer.Run.session {u : Uni} {J : CfgCodec} {cwd : Bytes} {x : Indexer} {docs : List Doc} {d : Dir} {setup : List Op} {tr : Trace} {d' : Dir}
    (h : Indexer.Run u J cwd x docs d setup tr d') : Indexer.Session u J cwd x docs d d' := by
  obtain ⟨h1, h2, h3, h4, _, _, _⟩ := h
  exact .run h1 h2 h3 h4

theorem Indexer.Run.rep {u : Uni} {J : CfgCodec} {cwd : Bytes} {x : Indexer} {docs : List Doc} {d : Dir} {setup : List Op} {tr : Trace} {d' : Dir}
    (h : Indexer.Run u J cwd x docs d setup tr d') : RunRep J cwd x docs d setup tr d' := by
  obtain ⟨h1, h2, h3, h4, h5, h6, h7⟩ := h
  rename_i rs front k t adds ws cl
  obtain ⟨ops, g1, g2, g3⟩ := Front.addsOps_spec cwd docs h1
  rw [h5] at g1; injection g1 with g1; subst g1
  have h4' := h4
  simp only [Indexer.close] at h4'
  obtain ⟨k1, k2⟩ := closeShards_spec _ _ h4'
  refine ⟨rfl, g3, fun j _ => posOps_on j _, ⟨rs, front, h1, g2, rfl, ?_, ?_, ?_⟩, ?_, ?_⟩
  · rw [k2 .cfg (fun j _ => ⟨nofun, nofun⟩)]
    cases Dmd.close front.dmds front.file <;> simp [Dir.set, Config.writeTo]
  · rw [k2 .fnm (fun j _ => ⟨nofun, nofun⟩)]
    cases Dmd.close front.dmds front.file <;> simp [Dir.set]
  · intro hd
    rw [k2 .dmd (fun j _ => ⟨nofun, nofun⟩), dmd_closeOps]
    cases hc : Dmd.close front.dmds front.file with
    | some b => simp [Dir.set]
    | none =>
      simp only [Dir.set, Config.writeTo]
      show d .dmd = none
      rw [hd]
      have h0 : front.file = none := by
        rw [Dmd.close] at hc
        split at hc
        · exact hc
        · simp [Dmd.flush] at hc
      -- the metadata file was not created in between
      cases hx : x.front.file with
      | none => rfl
      | some b =>
        rw [hx] at g2
        have : ∀ (ops : List Op) (b : Bytes), ∃ b', onFiles (some b) ops = some b' := by
          intro ops
          induction ops with
          | nil => intro b; exact ⟨b, rfl⟩
          | cons op ops ih => intro b; cases op <;> exact ih _
        obtain ⟨b', hb'⟩ := this adds b
        rw [hb', h0] at g2; simp at g2
  · intro j s hs
    have hj : j < x.shards.length := (List.getElem?_eq_some_iff.mp hs).1
    obtain ⟨a1, a2⟩ := h6 j s hs
    obtain ⟨f, b1, b2, b3⟩ := k1 j hj
    obtain ⟨w, ps, c1, c2, c3⟩ := closeOps_spec (i := j) b1
    obtain ⟨w', e1, e2⟩ := ShardIndexer.addAllWrites_spec _ a1
    rw [a2] at e1; injection e1 with e1; subst e1
    refine ⟨w, ps, ?_, ?_, by rw [b3, c3]⟩
    · have := h7 j hj
      rw [c1] at this
      injection this with this
      exact this.symm
    · rw [b2, c2, e2, onFiles_posOps, onFiles_posOps]
  · intro f f1 f2 f3 f4
    rw [k2 f f4]
    cases Dmd.close front.dmds front.file <;> simp [Dir.set, Config.writeTo, f1, f2, f3]

/-- **The operations of a session, in any order the goroutines can get them done, have the effect of the
session.** -/
theorem RunRep.finished {J : CfgCodec} {cwd : Bytes} {x : Indexer} {docs : List Doc} {d : Dir} {setup : List Op} {tr : Trace} {d' : Dir}
    (h : RunRep J cwd x docs d setup tr d') (hr : Ready x d (d.run setup)) {cd : Dir} (hc : Trace.Finished x.shards.length tr d cd) : cd = d' := by
  obtain ⟨rs, front, e1, e2, e3, e4, e5, e6⟩ := h.ex
  obtain ⟨i1, i2⟩ := hc
  rename_i ops ops'
  have hsh : ∀ j, j < x.shards.length → OnShard j (tr.shard j) := by
    intro j hj
    obtain ⟨ws, ps, w1, _⟩ := h.shard j _ (List.getElem?_eq_getElem hj)
    rw [w1]; exact closeOps_onShard _ _ _
  obtain ⟨o1, o2, o3⟩ := workers_opsOn i1 h.adds h.serve
  obtain ⟨p1, p2⟩ := shards_opsOn i2 hsh
  obtain ⟨q1, q2, q3, q4⟩ := closingOps_files J x.config front
  have expand : ∀ f, d.run (tr.setup ++ ops ++ tr.closing ++ ops') f =
      onFiles (onFiles (onFiles (d.run setup f) (opsOn f ops)) (opsOn f (Indexer.closingOps J x.config front))) (opsOn f ops') := by
    intro f
    rw [run_append, run_append, run_append, run_file, run_file, run_file, h.setup, e3]
  funext f
  rw [expand]
  by_cases hf : ∃ j, j < x.shards.length ∧ (f = .pos j ∨ f = .iix j)
  · obtain ⟨j, hj, hf⟩ := hf
    have hget := List.getElem?_eq_getElem hj
    obtain ⟨ws, ps, w1, w2, w3⟩ := h.shard j _ hget
    rcases hf with rfl | rfl
    · rw [o2 j hj, ((q1 j).1).opsOn, (p1 j hj).1, w1, w2, hr.pos j _ hget, opsOn_append, (posOps_on j ws).opsOn]
      have : opsOn (.pos j) (.trunc (.iix j) :: Op.writes (.iix j) 0 (ps.flatMap ShardIndexer.iixChunks)) = [] := by
        apply Off.opsOn
        intro op hop
        rcases List.mem_cons.mp hop with rfl | hop
        · exact nofun
        · rw [writes_on _ _ _ op hop]; exact nofun
      rw [this, List.append_nil]; rfl
    · rw [((q1 j).2).opsOn, (p1 j hj).2, w1, w3, opsOn_append, ((posOps_on j ws).off (g := .iix j) nofun).opsOn, List.nil_append]
      have : opsOn (.iix j) (.trunc (.iix j) :: Op.writes (.iix j) 0 (ps.flatMap ShardIndexer.iixChunks)) =
          .trunc (.iix j) :: Op.writes (.iix j) 0 (ps.flatMap ShardIndexer.iixChunks) := by
        apply On.opsOn
        intro op hop
        rcases List.mem_cons.mp hop with rfl | hop
        · rfl
        · exact writes_on _ _ _ op hop
      rw [this, onFiles_trunc, iixChunks_flatten]
  · have hf' : ∀ j, j < x.shards.length → f ≠ .pos j ∧ f ≠ .iix j := by
      intro j hj
      constructor <;> intro e <;> exact hf ⟨j, hj, by simp [e]⟩
    rw [(p2 f hf').opsOn, hr.rest f hf']
    cases f with
    | cfg => rw [(o3 .cfg nofun (fun _ _ => nofun)).opsOn, q2, e4]; exact writeTo_ops J x.config _
    | fnm => rw [(o3 .fnm nofun (fun _ _ => nofun)).opsOn, q3, e5]; exact fnames_ops _ _
    | dmd => rw [o1, q4, hr.dmd, e2, e6 hr.dmd]; rfl
    | pos j =>
      rw [(o3 (.pos j) nofun (fun k hk => (hf' k hk).1)).opsOn, ((q1 j).1).opsOn, h.rest (.pos j) nofun nofun nofun hf']; rfl
    | iix j =>
      rw [(o3 (.iix j) nofun (fun _ _ => nofun)).opsOn, ((q1 j).2).opsOn, h.rest (.iix j) nofun nofun nofun hf']; rfl

open Spec in
/-- the posts a shard gets in a session -/
theorem session_posts {u : Uni} {J : CfgCodec} {c : Config} {x : Indexer} {docs : List Document} (hU : Usable J c) (h : IndexerRep u c x docs)
    (cwd : Bytes) (new : List Doc) (hf : Fits u c (docs ++ added cwd new)) {k : Nat} {t : Sched.St Blotter ShardIndexer (UInt32 × Bytes) Post}
    (ht : Sched.Steps (x.params u) k (x.start (reqs (docs.length + 1) new)) t) (hc : t.client = .done) {j : Nat} (hj : j < c.numShards.toNat) :
    (t.servers j).log.flatten.map serveBucket = shardPosts u c j (docs.length + 1) (added cwd new) := by
  have hi := sessionEnv_inv hU h cwd new hf ht
  have hd := hi.done hc
  have hjn : j < (sessionEnv hU h cwd new hf).P.n := by show j < x.shards.length; rw [h.nsh]; exact hj
  have := (hi.allDone hd (by rw [hc]; intro ds; exact nofun) hjn).1
  rw [sessionEnv_base, show (sessionEnv hU h cwd new hf).docs.length = new.length from reqs_length _ _] at this
  rw [this, sessionEnv_posts hU h cwd new hf new.length j hj (Nat.le_refl _), List.take_length]

open Spec in
/-- every session that fits can be run, and its operations are given -/
theorem Indexer.Run.exists {u : Uni} {J : CfgCodec} {c : Config} {x : Indexer} {docs : List Document} (hU : Usable J c) (h : IndexerRep u c x docs)
    (cwd : Bytes) (new : List Doc) (hf : Fits u c (docs ++ added cwd new)) {d : Dir} (hd : CfgOk J c d) (setup : List Op) :
    ∃ tr d', Indexer.Run u J cwd x new d setup tr d' := by
  obtain ⟨front, g1, g2⟩ := Front.adds_rep cwd new h.front hf.ids hf.paths
  obtain ⟨k, t, h1, h2⟩ := session_runs hU h cwd new hf
  obtain ⟨d1, k1, _⟩ := close_rep hU h cwd new hf h1 h2 g2 hd
  obtain ⟨adds, a1, _, _⟩ := Front.addsOps_spec cwd new g1
  have key : ∀ (j : Nat) (s : ShardIndexer), x.shards[j]? = some s →
      s.addAll ((t.servers j).log.flatten.map serveBucket) = .ok (t.servers j).shard := by
    intro j s hs
    have hj : j < c.numShards.toNat := by rw [← h.nsh]; exact (List.getElem?_eq_some_iff.mp hs).1
    rw [session_posts hU h cwd new hf h1 h2 hj]
    have := (session_shards hU h cwd new hf h1 h2 hj).1
    rwa [List.getD_eq_getElem?_getD, hs] at this
  have hw : ∀ j : Nat, ∃ ws, ∀ s : ShardIndexer, x.shards[j]? = some s → s.addAllWrites ((t.servers j).log.flatten.map serveBucket) = .ok ws := by
    intro j
    cases hs : x.shards[j]? with
    | none => exact ⟨[], nofun⟩
    | some s =>
      obtain ⟨ws, w1, _⟩ := ShardIndexer.addAllWrites_spec _ (key j s hs)
      exact ⟨ws, fun s' hs' => by injection hs' with hs'; rw [← hs']; exact w1⟩
  have hc : ∀ j : Nat, ∃ cl, j < x.shards.length → ShardIndexer.closeOps j (t.servers j).shard = .ok cl := by
    intro j
    by_cases hj : j < x.shards.length
    · have k1' := k1
      simp only [Indexer.close] at k1'
      obtain ⟨f, b1, _⟩ := (closeShards_spec _ _ k1').1 j hj
      obtain ⟨_, _, c1, _⟩ := closeOps_spec (i := j) b1
      exact ⟨_, fun _ => c1⟩
    · exact ⟨[], fun h => absurd h hj⟩
  obtain ⟨ws, hw⟩ := Classical.axiomOfChoice hw
  obtain ⟨cl, hc⟩ := Classical.axiomOfChoice hc
  exact ⟨_, d1, .run g1 h1 h2 k1 a1 (fun j s hs => ⟨key j s hs, hw j s hs⟩) hc⟩

end Dupi
