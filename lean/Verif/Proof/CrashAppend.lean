import Verif.Proof.CrashShard
import Verif.Proof.Crash
/-! # Sessions that add to an index and do not end -/

namespace Dupi
open Spec

/-! ### Posting files -/

/-- all operations are writes to `f` that do not touch the blocks of `o` -/
def Miss (o : Nat) (bs : List Blk) (f : File) (ops : List Op) : Prop :=
  ∀ op ∈ ops, ∃ p data, op = .write f p data ∧ Misses o p data.length 0 bs

theorem Miss.append {o : Nat} {bs : List Blk} {f : File} {a b : List Op} (ha : Miss o bs f a) (hb : Miss o bs f b) : Miss o bs f (a ++ b) := by
  intro op hop
  rcases List.mem_append.mp hop with h | h
  · exact ha op h
  · exact hb op h

theorem Miss.cut {o : Nat} {bs : List Blk} {f : File} {a b : List Op} (h : Cut a b) : Miss o bs f a → Miss o bs f b := by
  induction h with
  | stop => intro _ op hop; simp at hop
  | part k =>
    intro ha op hop
    simp only [List.mem_singleton] at hop
    obtain ⟨p, data, e, hm⟩ := ha _ List.mem_cons_self
    injection e with e1 e2 e3
    subst e1 e2 e3
    exact ⟨_, _, hop, Misses.take (by rw [List.length_take]; omega) bs hm⟩
  | step _ ih =>
    intro ha op hop
    rcases List.mem_cons.mp hop with rfl | hop
    · exact ha _ (by simp)
    · exact ih (fun op h => ha op (by simp [h])) op hop

theorem Miss.posOps {o : Nat} {bs : List Blk} {j : Nat} {ws : List (Nat × Bytes)} (h : ∀ w ∈ ws, Misses o w.1 w.2.length 0 bs) :
    Miss o bs (.pos j) (ShardIndexer.posOps j ws) := by
  intro op hop
  obtain ⟨w, hw, rfl⟩ := List.mem_map.mp hop
  exact ⟨_, _, rfl, h w hw⟩

theorem Miss.covers {o : Nat} {bs : List Blk} {g : File} (ops : List Op) : ∀ {f : Bytes}, Miss o bs g ops → Covers o f 0 bs →
    ∃ f', onFiles (some f) ops = some f' ∧ Covers o f' 0 bs := by
  induction ops with
  | nil => intro f _ hc; exact ⟨f, rfl, hc⟩
  | cons op ops ih =>
    intro f hm hc
    obtain ⟨p, data, e, h1⟩ := hm op (by simp)
    subst e
    exact ih (fun op h => hm op (by simp [h])) (Covers.writeAt bs hc h1)

/-! ### Files that are only appended to -/

/-- nothing is written below `n` -/
def Keeps (n : Nat) (ops : List Op) : Prop := ∀ op ∈ ops, (∃ f, op = .create f) ∨ ∃ f p data, op = .write f p data ∧ n ≤ p

theorem Keeps.append {n : Nat} {a b : List Op} (ha : Keeps n a) (hb : Keeps n b) : Keeps n (a ++ b) := by
  intro op hop
  rcases List.mem_append.mp hop with h | h
  · exact ha op h
  · exact hb op h

theorem Keeps.le {m n : Nat} {a : List Op} (hmn : m ≤ n) (ha : Keeps n a) : Keeps m a := by
  intro op hop
  rcases ha op hop with h | ⟨f, p, data, e, h⟩
  · exact .inl h
  · exact .inr ⟨f, p, data, e, by omega⟩

theorem Keeps.cut {n : Nat} {a b : List Op} (h : Cut a b) : Keeps n a → Keeps n b := by
  induction h with
  | stop => intro _ op hop; simp at hop
  | part k =>
    intro ha op hop
    simp only [List.mem_singleton] at hop
    rcases ha _ List.mem_cons_self with ⟨f, e⟩ | ⟨f, p, data, e, h⟩
    · simp at e
    · injection e with e1 e2 e3
      subst e1 e2 e3
      exact .inr ⟨_, _, _, hop, h⟩
  | step _ ih =>
    intro ha op hop
    rcases List.mem_cons.mp hop with rfl | hop
    · exact ha _ (by simp)
    · exact ih (fun op h => ha op (by simp [h])) op hop

theorem writeAt_keeps (a b : Bytes) (p : Nat) (data : Bytes) (h : a.length ≤ p) : ∃ b', writeAt (a ++ b) p data = a ++ b' := by
  unfold writeAt
  rw [List.append_assoc a b, List.take_append, List.take_of_length_le h, List.append_assoc, List.append_assoc]
  exact ⟨_, rfl⟩

theorem Keeps.prefix {n : Nat} {a : Bytes} (ha : a.length ≤ n) (ops : List Op) : ∀ b : Bytes, Keeps n ops →
    ∃ b', onFiles (some (a ++ b)) ops = some (a ++ b') := by
  induction ops with
  | nil => intro b _; exact ⟨b, rfl⟩
  | cons op ops ih =>
    intro b hk
    have hk' : Keeps n ops := fun op h => hk op (by simp [h])
    rcases hk op (by simp) with ⟨f, rfl⟩ | ⟨f, p, data, rfl, h⟩
    · exact ih b hk'
    · obtain ⟨b', hb⟩ := writeAt_keeps a b p data (by omega)
      obtain ⟨b'', hb'⟩ := ih b' hk'
      refine ⟨b'', ?_⟩
      rw [← hb']
      simp [onFiles, Op.onFile, hb]

theorem writes_keeps (f : File) (bs : List Bytes) : ∀ off, Keeps off (Op.writes f off bs) := by
  induction bs with
  | nil => intro off op h; simp [Op.writes] at h
  | cons b bs ih =>
    intro off op h
    rcases List.mem_cons.mp h with rfl | h
    · exact .inr ⟨_, _, _, rfl, Nat.le_refl _⟩
    · exact (ih (off + b.length)).le (Nat.le_add_right _ _) op h

theorem dmd_flushOps_keeps (t : Dmd.Adder) (file : Option Bytes) : Keeps (file.getD []).length (Dmd.flushOps t file) := by
  intro op h
  rcases List.mem_cons.mp h with rfl | h
  · exact .inl ⟨_, rfl⟩
  · exact writes_keeps _ _ _ op h

theorem dmd_addOps_keeps (t : Dmd.Adder) (file : Option Bytes) : Keeps (file.getD []).length (Dmd.addOps t file) := by
  unfold Dmd.addOps
  split
  · exact dmd_flushOps_keeps t file
  · intro op h; simp at h

theorem dmd_closeOps_keeps (t : Dmd.Adder) (file : Option Bytes) : Keeps (file.getD []).length (Dmd.closeOps t file) := by
  unfold Dmd.closeOps
  split
  · intro op h; simp at h
  · exact dmd_flushOps_keeps t file

theorem Keeps.length {n : Nat} {o : Option Bytes} {ops : List Op} (hn : (o.getD []).length ≤ n) (hk : Keeps n ops) :
    (o.getD []).length ≤ ((onFiles o ops).getD []).length := by
  cases o with
  | none => simp
  | some a =>
    obtain ⟨b, hb⟩ := Keeps.prefix (a := a) (n := n) hn ops [] hk
    rw [List.append_nil] at hb
    rw [hb]; simp

theorem Front.addsOps_keeps (cwd : Bytes) (docs : List Doc) : ∀ {x : Front} {ops : List Op}, x.addsOps cwd docs = .ok ops →
    Keeps (x.file.getD []).length ops := by
  induction docs with
  | nil =>
    intro x ops h
    simp only [Front.addsOps, Except.ok.injEq] at h
    rw [← h]; intro op h; simp at h
  | cons doc docs ih =>
    intro x ops h
    simp only [Front.addsOps, bind, Except.bind, pure, Except.pure] at h
    cases ha : x.add cwd doc with
    | error e => simp [ha] at h
    | ok r =>
      obtain ⟨id, z⟩ := r
      simp only [ha] at h
      cases hb : z.addsOps cwd docs with
      | error e => simp [hb] at h
      | ok ops' =>
        simp only [hb, Except.ok.injEq] at h
        rw [← h]
        have h1 := dmd_addOps_keeps x.dmds x.file
        have : onFiles x.file (Dmd.addOps x.dmds x.file) = z.file := by
          simp only [Front.add, bind, Except.bind, pure, Except.pure] at ha
          cases hp : Fnames.addPath cwd x.fnames doc.path with
          | error e => simp [hp] at ha
          | ok r =>
            simp only [hp, Except.ok.injEq, Prod.mk.injEq] at ha
            rw [dmd_addOps _ _ ⟨r.1, doc.start, doc.stop⟩, ← ha.2]
        have h2 := Keeps.length (o := x.file) (Nat.le_refl _) h1
        rw [this] at h2
        exact h1.append ((ih hb).le h2)

/-! ### A file written again with the same contents -/

/-- the operations write parts of `s` where they are -/
def Same (s : Bytes) (ops : List Op) : Prop :=
  ∀ op ∈ ops, (∃ f, op = .create f) ∨ ∃ f p data, op = .write f p data ∧ p + data.length ≤ s.length ∧ data = (s.drop p).take data.length

theorem Same.cut {s : Bytes} {a b : List Op} (h : Cut a b) : Same s a → Same s b := by
  induction h with
  | stop => intro _ op hop; simp at hop
  | part k =>
    intro ha op hop
    simp only [List.mem_singleton] at hop
    rcases ha _ List.mem_cons_self with ⟨f, e⟩ | ⟨f, p, data, e, h1, h2⟩
    · simp at e
    · injection e with e1 e2 e3
      subst e1 e2 e3
      refine .inr ⟨_, _, _, hop, by rw [List.length_take]; omega, ?_⟩
      rename_i data _
      generalize hn : data.length = n at h2
      rw [h2, List.take_take]
      congr 1
      rw [List.length_take, List.length_drop]
      omega
  | step _ ih =>
    intro ha op hop
    rcases List.mem_cons.mp hop with rfl | hop
    · exact ha _ (by simp)
    · exact ih (fun op h => ha op (by simp [h])) op hop

theorem writeAt_same (s : Bytes) (p n : Nat) (h : p + n ≤ s.length) : writeAt s p ((s.drop p).take n) = s := by
  unfold writeAt
  rw [show p - s.length = 0 by omega, List.replicate_zero, List.append_nil, List.length_take, List.length_drop,
    show min n (s.length - p) = n by omega, List.append_assoc]
  have : (s.drop p).take n ++ s.drop (p + n) = s.drop p := by
    rw [← List.drop_drop, List.take_append_drop]
  rw [this, List.take_append_drop]

theorem Same.run {s : Bytes} (ops : List Op) : Same s ops → onFiles (some s) ops = some s := by
  induction ops with
  | nil => intro _; rfl
  | cons op ops ih =>
    intro h
    have hi := ih (fun op h' => h op (by simp [h']))
    rcases h op (by simp) with ⟨f, rfl⟩ | ⟨f, p, data, rfl, h1, h2⟩
    · exact hi
    · rw [h2]
      simp only [onFiles, List.foldl_cons, Op.onFile, Option.getD_some] at hi ⊢
      rw [writeAt_same _ _ _ h1]; exact hi

theorem writeOps_same (J : CfgCodec) (c : Config) : Same (J.enc c ++ [10]) (Config.writeOps J c) := by
  intro op h
  simp only [Config.writeOps, Op.writes, List.mem_cons, List.not_mem_nil, or_false] at h
  rcases h with rfl | rfl | rfl
  · exact .inl ⟨_, rfl⟩
  · exact .inr ⟨_, _, _, rfl, by simp, by simp⟩
  · exact .inr ⟨_, _, _, rfl, by simp, by simp⟩

/-! ### Metadata -/

theorem lookup_prefix (a b : Bytes) (id : UInt32) (h : id.toNat * 12 + 12 ≤ a.length) : Dmd.lookup (a ++ b) id = Dmd.lookup a id := by
  have : readFull ((a ++ b).drop (id.toNat * Dmd.rcdSize)) Dmd.rcdSize = (readFull (a.drop (id.toNat * Dmd.rcdSize)) Dmd.rcdSize).map fun r => (r.1, r.2 ++ b) := by
    simp only [Dmd.rcdSize, readFull]
    rw [List.drop_append_of_le_length (by omega), if_pos (by simp; omega), if_pos (by simp; omega)]
    simp only [Except.map, Except.ok.injEq, Prod.mk.injEq]
    rw [List.take_append_of_le_length (by simp; omega), List.drop_append_of_le_length (by simp; omega)]
    exact ⟨rfl, rfl⟩
  simp only [Dmd.lookup, this]
  cases readFull (a.drop (id.toNat * Dmd.rcdSize)) Dmd.rcdSize with
  | error e => rfl
  | ok r => rfl

/-- the document with a given id -/
theorem docid_meta {x : Index} {fs : List Fields} {docs : List Document} (hm : MetaRep x.fnames fs docs) (hr : Rooted docs)
    {id : UInt32} (h1 : 1 ≤ id.toNat) (h2 : id.toNat ≤ docs.length) (hl : Dmd.lookup x.dmd id = Dmd.lookup ((Dmd.zeroFields :: fs).flatMap Dmd.encode) id) :
    x.docid2Doc id = .ok (metaOf docs id) := by
  obtain ⟨s, hs⟩ : ∃ s, docs[id.toNat - 1]? = some s := ⟨_, List.getElem?_eq_getElem (by omega)⟩
  obtain ⟨f, hfs⟩ : ∃ f, fs[id.toNat - 1]? = some f := ⟨_, List.getElem?_eq_getElem (by rw [hm.len]; omega)⟩
  have hd := hm.desc _ f s hfs hs
  have hget : (Dmd.zeroFields :: fs)[id.toNat]? = some f := by
    rw [show id.toNat = (id.toNat - 1) + 1 by omega]; exact hfs
  obtain ⟨hlt, hge⟩ := List.getElem?_eq_some_iff.mp hget
  rw [Dmd.lookup_encode (Dmd.zeroFields :: fs) id hlt, hge] at hl
  obtain ⟨cwd, p, hp⟩ := hr s (List.mem_of_getElem? hs)
  obtain ⟨r, hr1, hr2⟩ := Fnames.pathParts_abs cwd p
  have ha := hm.wf.abs hd.comps hd.fid
  rw [hp, hr2, join_split, ← hr1, ← hp] at ha
  simp only [Index.docid2Doc, hl, ha, bind, Except.bind, pure, Except.pure, metaOf, hs, Document.meta, hd.start, hd.stop]

theorem metaOf_append (a b : List Document) {id : UInt32} (h1 : 1 ≤ id.toNat) (h2 : id.toNat ≤ a.length) : metaOf (a ++ b) id = metaOf a id := by
  unfold metaOf
  rw [List.getElem?_append_left (by omega)]

/-! ### Opening -/

theorem openShards_inv {d : Dir} (n : Nat) : ∀ {i : Nat} {xs : List ShardIndexer}, Indexer.openShards d n i = .ok xs → ∀ (k : Nat) s, xs[k]? = some s →
    ∃ iix post, d (.iix (i + k)) = some iix ∧ d (.pos (i + k)) = some post ∧ ShardIndexer.initAppend 65536 ⟨post, iix⟩ = .ok s := by
  induction n with
  | zero =>
    intro i xs h k s hs
    simp only [Indexer.openShards, Except.ok.injEq] at h
    rw [← h] at hs; simp at hs
  | succ n ih =>
    intro i xs h k s hs
    simp only [Indexer.openShards, Dir.read, bind, Except.bind, pure, Except.pure] at h
    cases h1 : d (.iix i) with
    | none => simp [h1, fail] at h
    | some iix =>
      cases h2 : d (.pos i) with
      | none => simp [h1, h2, fail] at h
      | some post =>
        simp only [h1, h2] at h
        cases h3 : ShardIndexer.initAppend ShardIndexer.nBlots ⟨post, iix⟩ with
        | error e => simp [h3] at h
        | ok y =>
          simp only [h3] at h
          cases h4 : Indexer.openShards d n (i + 1) with
          | error e => simp [h4] at h
          | ok ys =>
            simp only [h4, Except.ok.injEq] at h
            subst h
            cases k with
            | zero =>
              simp only [List.getElem?_cons_zero, Option.some.injEq] at hs
              subst hs
              exact ⟨iix, post, h1, h2, h3⟩
            | succ k =>
              have := ih h4 k s (by simpa using hs)
              rwa [show i + 1 + k = i + (k + 1) by omega] at this

theorem indexShards_inv {srt : Sorter} {d : Dir} (n : Nat) : ∀ {i : Nat} {xs : List ShardIndex}, Index.openShards srt d n i = .ok xs →
    xs.length = n ∧ ∀ (k : Nat) s, xs[k]? = some s →
      ∃ iix post, d (.iix (i + k)) = some iix ∧ d (.pos (i + k)) = some post ∧ ShardIndex.init srt 65536 ⟨post, iix⟩ = .ok s := by
  induction n with
  | zero =>
    intro i xs h
    simp only [Index.openShards, Except.ok.injEq] at h
    rw [← h]
    exact ⟨rfl, by simp⟩
  | succ n ih =>
    intro i xs h
    simp only [Index.openShards, Dir.read, bind, Except.bind, pure, Except.pure] at h
    cases h1 : d (.iix i) with
    | none => simp [h1, fail] at h
    | some iix =>
      simp only [h1] at h
      cases h3 : ShardIndex.readIix ShardIndexer.nBlots iix with
      | error e => simp [h3] at h
      | ok es =>
        simp only [h3] at h
        cases h2 : d (.pos i) with
        | none => simp [h2, fail] at h
        | some post =>
          simp only [h2] at h
          cases h4 : Index.openShards srt d n (i + 1) with
          | error e => simp [h4] at h
          | ok ys =>
            simp only [h4, Except.ok.injEq] at h
            subst h
            obtain ⟨i1, i2⟩ := ih h4
            refine ⟨by simp [i1], fun k s hs => ?_⟩
            cases k with
            | zero =>
              simp only [List.getElem?_cons_zero, Option.some.injEq] at hs
              subst hs
              refine ⟨iix, post, h1, h2, ?_⟩
              rw [show ShardIndexer.nBlots = 65536 from rfl] at h3
              simp only [ShardIndex.init, h3, bind, Except.bind, pure, Except.pure]
            | succ k =>
              have := i2 k s (by simpa using hs)
              rwa [show i + 1 + k = i + (k + 1) by omega] at this

theorem openIndex_inv {J : CfgCodec} {srt : Sorter} {d : Dir} {y : Index} (h : Index.open J srt d = .ok y) :
    Config.readFrom J d = .ok y.config ∧ d .dmd = some y.dmd ∧ (∃ b, d .fnm = some b ∧ Fnames.read b = .ok y.fnames) ∧
      Index.openShards srt d y.config.numShards.toNat 0 = .ok y.shards := by
  simp only [Index.open, Dir.read, bind, Except.bind, pure, Except.pure] at h
  cases h1 : Config.readFrom J d with
  | error e => simp [h1] at h
  | ok c =>
    simp only [h1] at h
    cases h2 : d .dmd with
    | none => simp [h2, fail] at h
    | some dmd =>
      simp only [h2] at h
      cases h3 : d .fnm with
      | none => simp [h3, fail] at h
      | some fnm =>
        simp only [h3] at h
        cases h4 : Fnames.read fnm with
        | error e => simp [h4] at h
        | ok t =>
          simp only [h4] at h
          split at h
          · simp [panic'] at h
          · cases h5 : Index.openShards srt d c.numShards.toNat 0 with
            | error e => simp [h5] at h
            | ok xs =>
              simp only [h5, Except.ok.injEq] at h
              subst h
              exact ⟨rfl, rfl, ⟨fnm, rfl, h4⟩, h5⟩

/-- opening never panics if the configuration is that of a usable index -/
theorem openIndex_tame {J : CfgCodec} {c : Config} {srt : Sorter} {d : Dir} (h : Config.readFrom J d = .ok c) (hn : 0 ≤ c.numShards)
    (hf : ∀ b, d .fnm = some b → Tame (Fnames.read b)) : Tame (Index.open J srt d) := by
  unfold Index.open
  rw [h]
  refine (Tame.ok c).bind fun c' hc' => ?_
  injection hc' with hc'
  subst hc'
  refine (read_tame d .dmd).bind fun dmd _ => (read_tame d .fnm).bind fun fnm h3 => ?_
  have h3' : d .fnm = some fnm := by
    unfold Dir.read at h3
    split at h3
    · simp [fail] at h3
    · rename_i e; injection h3 with h3; rw [e, h3]
  refine (hf fnm h3').bind fun t _ => ?_
  rw [if_neg (by omega)]
  have : ∀ n i, Tame (Index.openShards srt d n i) := by
    intro n
    induction n with
    | zero => intro i; exact .ok _
    | succ n ih =>
      intro i
      exact (read_tame d _).bind fun iix _ => (readIix_tame _ _).bind fun es _ => (read_tame d _).bind fun post _ => (ih (i + 1)).bind fun _ _ => .ok _
  exact (this _ _).bind fun _ _ => .ok _

/-! ### Sessions that add to an index -/

/-- documents `new` are being added, with working directory `cwd`, to the index in `d` that holds `old`; this would lead to `d'` -/
structure Appending (u : Uni) (J : CfgCodec) (c : Config) (old : List Document) (d : Dir) (x : Indexer) (cwd : Bytes) (new : List Doc) (tr : Trace) (d' : Dir) : Prop where
  dir : DirRep u J c d old
  rooted : Rooted old
  opened : Indexer.open J d = .ok x
  fits : Fits u c (old ++ added cwd new)
  run : Indexer.Run u J cwd x new d [] tr d'

theorem ClosedRep.flushed {n : Nat} {bs : List Blk} {ps : List Poster} {vals : Nat → List UInt32} (h : ClosedRep n bs ps vals) {o : Nat} (ho : o < n) :
    (flushed o bs).length = (vals o).length := by
  obtain ⟨p, hp⟩ : ∃ p, ps[o]? = some p := ⟨_, List.getElem?_eq_getElem (by rw [h.len]; exact ho)⟩
  obtain ⟨h1, h2⟩ := h.rep o p hp
  obtain ⟨ds, h3, h4⟩ := h1.pend
  have h5 : ds = [] := by
    false_or_by_contra
    rename_i hne
    exact encDeltas_ne hne (by rw [← h3, h2])
  rw [h5, List.append_nil] at h4
  rw [h4, deltasFrom_length]

section
variable {u : Uni} {J : CfgCodec} {c : Config} {old : List Document} {d : Dir} {x : Indexer} {cwd : Bytes} {new : List Doc} {tr : Trace} {d' : Dir}
variable (hU : Usable J c) (A : Appending u J c old d x cwd new tr d')
include hU A

theorem Appending.rep : IndexerRep u c x old := by
  obtain ⟨y, g1, g2⟩ := open_rep hU A.dir A.fits.left
  have := A.opened.symm.trans g1
  injection this with this
  rw [this]; exact g2

theorem Appending.final : DirRep u J c d' (old ++ added cwd new) :=
  Session.rep hU (A.rep hU) cwd new A.fits (.inr A.dir.cfg) A.run.session

omit hU in
/-- the front of an opened indexer -/
theorem Appending.frontFile : d .dmd = x.front.file := by
  obtain ⟨t, fs, k1, k2, k3⟩ := A.dir.front
  have h := A.opened
  simp only [Indexer.open, bind, Except.bind, pure, Except.pure] at h
  revert h
  repeat' (split; · intro h; simp at h)
  intro h
  simp only [Except.ok.injEq] at h
  rw [← h]

/-- what the operations on a shard do, and for which posts -/
theorem Appending.served {j : Nat} (hj : j < c.numShards.toNat) : ∃ (bs : List Blk) (ps : List Poster) (ws wsc : List (Nat × Bytes)) (ps' : List Poster)
    (y : ShardIndexer) (ex : List Blk),
    d (.pos j) = some (render 0 bs) ∧ d (.iix j) = some (ps.flatMap ShardIndexer.iixEntry) ∧ ClosedRep 65536 bs ps (postings (shardPosts u c j 1 old)) ∧
    (render 0 bs).length < 2 ^ 63 ∧ tr.serve j = ShardIndexer.posOps j ws ∧
    tr.shard j = ShardIndexer.posOps j wsc ++ .trunc (.iix j) :: Op.writes (.iix j) 0 (ps'.flatMap ShardIndexer.iixChunks) ∧
    d' (.pos j) = onFiles (onFiles (d (.pos j)) (tr.serve j)) (ShardIndexer.posOps j wsc) ∧ d' (.iix j) = some (ps'.flatMap ShardIndexer.iixEntry) ∧
    ShardOn (bs ++ ex) 65536 y (postings (shardPosts u c j 1 (old ++ added cwd new))) ∧ onFiles (d (.pos j)) (tr.serve j) = some y.file ∧
    ShardIndexer.flushIndWrites y.ind y.file = .ok wsc ∧
    (∃ posts, shardPosts u c j 1 (old ++ added cwd new) = shardPosts u c j 1 old ++ posts ∧ (∀ q ∈ posts, q.2 < 65536) ∧
      (⟨ps, render 0 bs⟩ : ShardIndexer).addAll posts = .ok y ∧ (⟨ps, render 0 bs⟩ : ShardIndexer).addAllWrites posts = .ok ws) ∧
    ∀ o, o < 65536 →
      ((postings (shardPosts u c j 1 (old ++ added cwd new)) o).length ≤ (postings (shardPosts u c j 1 old) o).length + 102 →
        Miss o bs (.pos j) (tr.serve j) ∧ ∀ b ∈ ex, b.owner ≠ o) ∧
      ((postings (shardPosts u c j 1 (old ++ added cwd new)) o).length = (postings (shardPosts u c j 1 old) o).length →
        Miss o bs (.pos j) (ShardIndexer.posOps j wsc)) := by
  obtain ⟨bs, ps, h1, h2, h3, h4⟩ := A.dir.small A.fits.left.posts hj
  have hR := A.rep hU
  have hjx : j < x.shards.length := by rw [hR.nsh]; exact hj
  obtain ⟨s, hs⟩ : ∃ s, x.shards[j]? = some s := ⟨_, List.getElem?_eq_getElem hjx⟩
  have hs' : s = ⟨ps, render 0 bs⟩ := by
    have h := A.opened
    simp only [Indexer.open, bind, Except.bind, pure, Except.pure] at h
    revert h
    repeat' (split; · intro h; simp at h)
    intro h
    simp only [Except.ok.injEq] at h
    rename_i xs hxs _ _ _
    rw [← h] at hs
    obtain ⟨iix, post, k1, k2, k3⟩ := openShards_inv _ hxs j s hs
    rw [Nat.zero_add, h2] at k1
    rw [Nat.zero_add, h1] at k2
    injection k1 with k1
    injection k2 with k2
    rw [← k1, ← k2, h3.reopen h4] at k3
    injection k3 with k3
    exact k3.symm
  subst hs'
  have hon : ShardOn bs 65536 ⟨ps, render 0 bs⟩ (postings (shardPosts u c j 1 old)) :=
    ⟨rfl, h3.wf, h3.owner, h3.len, fun o p hp => ⟨(h3.rep o p hp).1, by simp [(h3.rep o p hp).2]⟩⟩
  obtain ⟨ws, ps', w1, w2, w3⟩ := A.run.rep.shard j _ hs
  obtain ⟨g1, g2, g3, g4, g5, g6, g7⟩ := A.run
  rename_i rs front k t adds wss cl
  obtain ⟨front', a1, a2⟩ := Front.adds_rep cwd new hR.front A.fits.ids A.fits.paths
  rw [a1] at g1
  injection g1 with g1
  injection g1 with g1 _
  subst g1
  have hposts := session_posts hU hR cwd new A.fits g2 g3 hj
  obtain ⟨b1, b2⟩ := g6 j _ hs
  rw [hposts] at b1 b2
  have hids := A.fits.ids
  have happ : shardPosts u c j 1 (old ++ added cwd new) = shardPosts u c j 1 old ++ shardPosts u c j (old.length + 1) (added cwd new) := by
    rw [shardPosts_append, Nat.add_comm 1 old.length]
  have hlen : ∀ b, (postings (shardPosts u c j 1 (old ++ added cwd new)) b).length < 2 ^ 32 :=
    fun b => postings_shardPosts_length u c j hj _ (by omega) b
  rw [happ] at hlen
  obtain ⟨y, ex, c1, c2, c3⟩ := hon.addAll _ (shardPosts_bucket u c j (added cwd new) (old.length + 1)) hlen
  rw [b1] at c1
  have hserve := ShardIndexer.addAllWrites_spec _ b1
  injection c1 with c1
  have d1 := g7 j hjx
  rw [c1, ShardIndexer.closeOps] at d1
  simp only [bind, Except.bind, pure, Except.pure] at d1
  cases hfw : ShardIndexer.flushIndWrites y.ind y.file with
  | error e => simp [hfw] at d1
  | ok wsf =>
    simp only [hfw] at d1
    cases hfi : ShardIndexer.flushInd y.ind y.file with
    | error e => simp [hfi] at d1
    | ok r =>
      simp only [hfi, Except.ok.injEq] at d1
      have w1' : cl j = ShardIndexer.posOps j ws ++ .trunc (.iix j) :: Op.writes (.iix j) 0 (ps'.flatMap ShardIndexer.iixChunks) := w1
      have e1 : ShardIndexer.posOps j wsf = ShardIndexer.posOps j ws := by
        have h0 := d1.trans w1'
        have := congrArg (opsOn (.pos j)) h0
        rw [opsOn_append, opsOn_append, (posOps_on j wsf).opsOn, (posOps_on j ws).opsOn] at this
        have hz : ∀ bs : List Bytes, opsOn (.pos j) (.trunc (.iix j) :: Op.writes (.iix j) 0 bs) = [] := by
          intro bs
          refine Off.opsOn ?_
          intro op hop
          rcases List.mem_cons.mp hop with rfl | hop
          · exact nofun
          · rw [writes_on _ _ _ op hop]; exact nofun
        rw [hz, hz, List.append_nil, List.append_nil] at this
        exact this
      obtain ⟨wsv, v1, v2⟩ := hserve
      rw [b2] at v1
      injection v1 with v1
      refine ⟨bs, ps, wss j, wsf, ps', y, ex, h1, h2, h3, h4, rfl, by rw [e1]; exact w1, by rw [w2, h1, e1], w3, by rw [happ]; exact c2,
        by rw [h1, onFiles_posOps, v1, ← c1, v2], hfw,
        ⟨_, happ, shardPosts_bucket u c j (added cwd new) (old.length + 1), by rw [b1, c1], b2⟩, fun o ho => ?_⟩
      have hfl := h3.flushed ho
      refine ⟨fun hk => ?_, fun hk => ?_⟩
      · rw [happ] at hk
        refine ⟨Miss.posOps (hon.addAllWrites_misses _ (shardPosts_bucket u c j (added cwd new) (old.length + 1)) hlen (by omega) b2), c3 o (by omega)⟩
      · obtain ⟨q1, q2, q3, q4, q5⟩ := c2
        obtain ⟨p, hp⟩ : ∃ p, y.ind[o]? = some p := ⟨_, List.getElem?_eq_getElem (by rw [q4]; exact ho)⟩
        obtain ⟨p1, p2⟩ := q5 o p hp
        rw [q1] at hfw
        obtain ⟨_, _, _, _, _, _, _, _, _, _, _, _, hall⟩ := flushIndWrites_split (postings (shardPosts u c j 1 old ++ shardPosts u c j (old.length + 1) (added cwd new)))
          y.ind 0 _ o p (Nat.zero_le _) (by simpa using hp) q2 (by simpa using q5) hfw
        refine Miss.posOps fun w hw => (hall ?_ w hw).left
        -- nothing is pending for the bucket
        obtain ⟨ds, r1, r2⟩ := p1.pend
        have r3 := congrArg List.length r2
        rw [List.length_append, deltasFrom_length, flushed_length_append, ← happ] at r3
        have : ds = [] := List.length_eq_zero_iff.mp (by omega)
        rw [r1, this]; rfl

/-- what the operations on a shard do -/
theorem Appending.shardOn {j : Nat} (hj : j < c.numShards.toNat) : ∃ (bs : List Blk) (ps : List Poster) (ws wsc : List (Nat × Bytes)) (ps' : List Poster)
    (y : ShardIndexer) (ex : List Blk),
    d (.pos j) = some (render 0 bs) ∧ d (.iix j) = some (ps.flatMap ShardIndexer.iixEntry) ∧ ClosedRep 65536 bs ps (postings (shardPosts u c j 1 old)) ∧
    (render 0 bs).length < 2 ^ 63 ∧ tr.serve j = ShardIndexer.posOps j ws ∧
    tr.shard j = ShardIndexer.posOps j wsc ++ .trunc (.iix j) :: Op.writes (.iix j) 0 (ps'.flatMap ShardIndexer.iixChunks) ∧
    d' (.pos j) = onFiles (onFiles (d (.pos j)) (tr.serve j)) (ShardIndexer.posOps j wsc) ∧ d' (.iix j) = some (ps'.flatMap ShardIndexer.iixEntry) ∧
    ShardOn (bs ++ ex) 65536 y (postings (shardPosts u c j 1 (old ++ added cwd new))) ∧ onFiles (d (.pos j)) (tr.serve j) = some y.file ∧
    ShardIndexer.flushIndWrites y.ind y.file = .ok wsc ∧
    ∀ o, o < 65536 →
      ((postings (shardPosts u c j 1 (old ++ added cwd new)) o).length ≤ (postings (shardPosts u c j 1 old) o).length + 102 →
        Miss o bs (.pos j) (tr.serve j) ∧ ∀ b ∈ ex, b.owner ≠ o) ∧
      ((postings (shardPosts u c j 1 (old ++ added cwd new)) o).length = (postings (shardPosts u c j 1 old) o).length →
        Miss o bs (.pos j) (ShardIndexer.posOps j wsc)) := by
  obtain ⟨bs, ps, ws, wsc, ps', y, ex, h1, h2, h3, h4, h5, h6, h7, h8, h9, h10, h11, _, h12⟩ := A.served hU hj
  exact ⟨bs, ps, ws, wsc, ps', y, ex, h1, h2, h3, h4, h5, h6, h7, h8, h9, h10, h11, h12⟩

theorem Appending.shard {j : Nat} (hj : j < c.numShards.toNat) : ∃ (bs : List Blk) (ps : List Poster) (ws wsc : List (Nat × Bytes)) (ps' : List Poster),
    d (.pos j) = some (render 0 bs) ∧ d (.iix j) = some (ps.flatMap ShardIndexer.iixEntry) ∧ ClosedRep 65536 bs ps (postings (shardPosts u c j 1 old)) ∧
    (render 0 bs).length < 2 ^ 63 ∧ tr.serve j = ShardIndexer.posOps j ws ∧
    tr.shard j = ShardIndexer.posOps j wsc ++ .trunc (.iix j) :: Op.writes (.iix j) 0 (ps'.flatMap ShardIndexer.iixChunks) ∧
    d' (.pos j) = onFiles (onFiles (d (.pos j)) (tr.serve j)) (ShardIndexer.posOps j wsc) ∧ d' (.iix j) = some (ps'.flatMap ShardIndexer.iixEntry) ∧
    ∀ o, o < 65536 →
      ((postings (shardPosts u c j 1 (old ++ added cwd new)) o).length ≤ (postings (shardPosts u c j 1 old) o).length + 102 →
        Miss o bs (.pos j) (tr.serve j)) ∧
      ((postings (shardPosts u c j 1 (old ++ added cwd new)) o).length = (postings (shardPosts u c j 1 old) o).length →
        Miss o bs (.pos j) (ShardIndexer.posOps j wsc)) := by
  obtain ⟨bs, ps, ws, wsc, ps', y, ex, h1, h2, h3, h4, h5, h6, h7, h8, _, _, _, h9⟩ := A.shardOn hU hj
  exact ⟨bs, ps, ws, wsc, ps', h1, h2, h3, h4, h5, h6, h7, h8, fun o ho => ⟨fun hk => ((h9 o ho).1 hk).1, (h9 o ho).2⟩⟩

/-- the metadata file only grows -/
theorem Appending.meta_keeps : ∃ (fs : List Fields) (front : Front), d .dmd = some ((Dmd.zeroFields :: fs).flatMap Dmd.encode) ∧
    tr.closing = Indexer.closingOps J x.config front ∧
    Keeps ((Dmd.zeroFields :: fs).flatMap Dmd.encode).length tr.adds ∧
    Keeps ((Dmd.zeroFields :: fs).flatMap Dmd.encode).length (Dmd.closeOps front.dmds front.file) ∧
    d' .dmd = onFiles (onFiles (d .dmd) tr.adds) (Dmd.closeOps front.dmds front.file) ∧
    d' .fnm = some (Fnames.write front.fnames) ∧
    Fnames.WF front.fnames ∧ front.fnames.length < 2 ^ 32 ∧ (∀ n ∈ front.fnames, n.name.length < 2 ^ 32) := by
  obtain ⟨t, fs, k1, k2, k3⟩ := A.dir.front
  have hfile := A.frontFile
  obtain ⟨rs, front, e1, e2, e3, e4, e5, e6⟩ := A.run.rep.ex
  have hk : Keeps ((Dmd.zeroFields :: fs).flatMap Dmd.encode).length tr.adds := by
    obtain ⟨g1, g2, g3, g4, g5, g6, g7⟩ := A.run
    have := Front.addsOps_keeps cwd new g5
    rw [← hfile, k2] at this
    exact this
  have hlen := Keeps.length (o := d .dmd) (by rw [k2]; exact Nat.le_refl _) hk
  obtain ⟨front', a1, a2⟩ := Front.adds_rep cwd new (A.rep hU).front A.fits.ids A.fits.paths
  rw [a1] at e1
  injection e1 with e1
  injection e1 with _ e1
  subst e1
  obtain ⟨fs', _, hm⟩ := a2
  have hmsz := hm.small A.fits.paths
  refine ⟨fs, _, k2, e3, hk, ?_, by rw [e6 hfile, hfile, e2], e5, hm.wf, by omega, hm.names⟩
  refine (dmd_closeOps_keeps _ _).le ?_
  rw [← e2, ← hfile]
  rw [k2, Option.getD_some] at hlen
  rw [k2]
  exact hlen

end

/-- committed documents are found as long as the path table is the old or the new one -/
theorem Appending.docid {u : Uni} {J : CfgCodec} {c : Config} {old : List Document} {d : Dir} {x : Indexer} {cwd : Bytes} {new : List Doc} {tr : Trace} {d' : Dir}
    (hU : Usable J c) (A : Appending u J c old d x cwd new tr d') {a : Bytes} (ha : d .dmd = some a) {y : Index} {b : Bytes} (hy : y.dmd = a ++ b)
    {f : Bytes} (hr : Fnames.read f = .ok y.fnames) (hf : d .fnm = some f ∨ d' .fnm = some f) (hrn : Rooted (added cwd new))
    {id : UInt32} (h1 : 1 ≤ id.toNat) (h2 : id.toNat ≤ old.length) : y.docid2Doc id = .ok (metaOf old id) := by
  obtain ⟨t, fs, k1, k2, k3⟩ := A.dir.front
  have hpre : id.toNat * 12 + 12 ≤ a.length := by
    rw [ha] at k2
    injection k2 with k2
    rw [k2, Dmd.encodeAll_length, List.length_cons, k3.len]
    omega
  rcases hf with hf | hf
  · have hsz := k3.small A.fits.left.paths
    obtain ⟨t', m1, m2⟩ := Fnames.read_write t k3.wf (by omega) k3.names
    rw [k1] at hf
    injection hf with hf
    rw [← hf, m1] at hr
    injection hr with hr
    have := k3.sim m2
    rw [hr] at this
    refine docid_meta this A.rooted h1 h2 ?_
    rw [hy, lookup_prefix _ _ _ hpre]
    rw [ha] at k2
    injection k2 with k2
    rw [k2]
  · obtain ⟨tn, fsn, n1, n2, n3⟩ := (A.final hU).front
    have hsz := n3.small A.fits.paths
    obtain ⟨t', m1, m2⟩ := Fnames.read_write tn n3.wf (by omega) n3.names
    rw [n1] at hf
    injection hf with hf
    rw [← hf, m1] at hr
    injection hr with hr
    have := n3.sim m2
    rw [hr] at this
    have hroot : Rooted (old ++ added cwd new) := by
      intro s hs
      rcases List.mem_append.mp hs with h | h
      · exact A.rooted s h
      · exact hrn s h
    rw [← metaOf_append old (added cwd new) h1 h2]
    refine docid_meta this hroot h1 (by rw [List.length_append]; omega) ?_
    rw [hy, lookup_prefix _ _ _ hpre]
    -- the same record is at the same place of the final file
    obtain ⟨fs', front, q1, q2, q3, q4, q5, _⟩ := A.meta_keeps hU
    rw [ha] at q1
    injection q1 with q1
    rw [← q1] at q3 q4
    obtain ⟨b1, hb1⟩ := Keeps.prefix (Nat.le_refl a.length) tr.adds [] q3
    rw [List.append_nil] at hb1
    obtain ⟨b2, hb2⟩ := Keeps.prefix (Nat.le_refl a.length) _ b1 q4
    rw [ha, hb1, hb2, n2] at q5
    injection q5 with q5
    rw [q5, lookup_prefix _ _ _ hpre]

theorem added_rooted (cwd : Bytes) (new : List Doc) : Rooted (added cwd new) := by
  intro s hs
  simp only [added, List.mem_map] at hs
  obtain ⟨d, _, rfl⟩ := hs
  exact ⟨cwd, d.path, (absPath_place _ _).symm⟩

/-- a blot's bucket, from what is in the files of its shard -/
theorem get_bucket {y : Index} {n : Nat} (h0 : 0 < n) (hn : n < 2 ^ 32) (b : UInt32)
    {s : ShardIndex} (hs : y.shards[b.toNat % n]? = some s) {hd : Int} {ct : UInt32} (hh : s.heads[b.toNat / n % 65536]? = some hd)
    (hc : s.counts[b.toNat / n % 65536]? = some ct) {ids : List UInt32} (hp : PostsRep s.file (Posts.new hd) ids)
    {D : UInt32 → Bytes × UInt32 × UInt32} (hD : ∀ id ∈ ids, y.docid2Doc id = .ok (D id)) (grow : Nat → Nat) {fuel : Nat} (hfuel : ids.length < fuel)
    {q : QState} (hq : q.n = UInt32.ofNat n) : ∃ r, Query.get grow y fuel q ⟨b, none⟩ = .ok r ∧ r.blot = b ∧ r.vis = ids.map fun id => Doc.ofMeta (D id) := by
  have e : q.n.toNat = n := by rw [hq]; simp only [UInt32.toNat_ofNat']; omega
  have hz : q.n ≠ 0 := by intro hc; rw [hc] at e; simp at e; omega
  have e1 : (b % q.n).toNat = b.toNat % n := by rw [UInt32.toNat_mod, e]
  have e2 : (b / q.n).toUInt16.toNat = b.toNat / n % 65536 := by rw [UInt32.toNat_toUInt16, UInt32.toNat_div, e]
  obtain ⟨r, k1, k2, k3, _⟩ := Query.getLoop_unlim grow ids fuel ⟨s.id, b.toNat / n % 65536, 0, ct, Posts.new hd, s.file⟩ ⟨b, none⟩ hp hD hfuel
  refine ⟨r, ?_, k2, by rw [k3]; rfl⟩
  simp only [Query.get, if_neg hz, e1, hs, e2, ShardIndex.readStateFor, ShardIndex.readStateForBlotAt, hh, hc, bind, Except.bind, Option.isSome_none]
  exact k1

/-- the table of an old shard and any posting file -/
theorem init_old {bs : List Blk} {ps : List Poster} {vals : Nat → List UInt32} (h : ClosedRep 65536 bs ps vals) (hl : (render 0 bs).length < 2 ^ 63)
    {srt : Sorter} {post : Bytes} {s : ShardIndex} (hs : ShardIndex.init srt 65536 ⟨post, ps.flatMap ShardIndexer.iixEntry⟩ = .ok s)
    {o : Nat} (ho : o < 65536) (hc : Covers o post 0 bs) :
    ∃ hd ct, s.heads[o]? = some hd ∧ s.counts[o]? = some ct ∧ PostsRep s.file (Posts.new hd) (vals o) := by
  have hread := index_readIix_spec bs hl vals ps 0 (by simpa using h.rep)
  rw [h.len] at hread
  simp only [ShardIndex.init, hread, bind, Except.bind, pure, Except.pure, Except.ok.injEq] at hs
  subst hs
  obtain ⟨p, hp⟩ : ∃ p, ps[o]? = some p := ⟨_, List.getElem?_eq_getElem (by rw [h.len]; exact ho)⟩
  refine ⟨p.head, p.total, by simp [hp], by simp [hp], ?_⟩
  obtain ⟨hr, hpe⟩ := h.rep o p hp
  obtain ⟨ds, h1, h2⟩ := hr.pend
  have hds : ds = [] := by
    false_or_by_contra
    rename_i hne
    exact encDeltas_ne hne (by rw [← h1]; exact hpe)
  rw [hds, List.append_nil] at h2
  refine ⟨o, 0, bs, hc, h.wf, by rw [render_length] at hl; omega, by rw [hr.head]; rfl, by simp [Posts.new], ?_⟩
  simp only [Posts.new, List.drop_nil, List.nil_append]
  rw [h2, runSum_deltasFrom]

theorem readIix_count (n : Nat) : ∀ {r : Bytes} {es : List (Int × UInt32)}, ShardIndex.readIix n r = .ok es → es.length = n := by
  induction n with
  | zero => intro r es h; simp only [ShardIndex.readIix, Except.ok.injEq] at h; rw [← h]; rfl
  | succ n ih =>
    intro r es h
    simp only [ShardIndex.readIix, bind, Except.bind, pure, Except.pure] at h
    split at h
    · simp at h
    · split at h
      · simp at h
      · split at h
        · simp [fail] at h
        · split at h
          · simp at h
          · split at h
            · simp at h
            · rename_i hh
              simp only [Except.ok.injEq] at h
              rw [← h]
              simp [ih hh]

/-- every query can be started on an index that could be opened -/
theorem startQuery_opened {J : CfgCodec} {srt : Sorter} (hsrt : IsSorter srt) {d : Dir} {y : Index} (h : Index.open J srt d = .ok y) :
    ∃ q, y.startQuery = .ok q ∧ q.n = UInt32.ofNat y.config.numShards.toNat := by
  obtain ⟨_, _, _, h4⟩ := openIndex_inv h
  obtain ⟨g1, g2⟩ := indexShards_inv _ h4
  have key : ∀ xs : List ShardIndex, (∀ s ∈ xs, s.heads.length = 65536 ∧ s.counts.length = 65536 ∧ s.perm = srt s.counts) → ∃ ss, Index.initStates xs = .ok ss := by
    intro xs
    induction xs with
    | nil => intro _; exact ⟨[], rfl⟩
    | cons s xs ih =>
      intro hx
      obtain ⟨ss, hss⟩ := ih fun s hs => hx s (by simp [hs])
      obtain ⟨a1, a2, a3⟩ := hx s (by simp)
      have hp := hsrt.perm s.counts
      rw [← a3, a2] at hp
      have hl := hp.length_eq
      rw [List.length_range] at hl
      obtain ⟨b, hb⟩ : ∃ b, s.perm[0]? = some b := ⟨_, List.getElem?_eq_getElem (by omega)⟩
      have hlt : b < 65536 := List.mem_range.mp (hp.mem_iff.mp (List.mem_of_getElem? hb))
      obtain ⟨hd, hhd⟩ : ∃ h, s.heads[b]? = some h := ⟨_, List.getElem?_eq_getElem (by omega)⟩
      obtain ⟨ct, hct⟩ : ∃ h, s.counts[b]? = some h := ⟨_, List.getElem?_eq_getElem (by omega)⟩
      refine ⟨some ⟨s.id, b, 0, ct, Posts.new hd, s.file⟩ :: ss, ?_⟩
      simp only [Index.initStates, ShardIndex.readStateAt, ShardIndex.blotAt, hb, ShardIndex.readStateForBlotAt, hhd, hct, hss,
        bind, Except.bind, pure, Except.pure]
  obtain ⟨ss, hss⟩ := key y.shards (by
    intro s hs
    obtain ⟨k, hk⟩ := List.getElem?_of_mem hs
    obtain ⟨iix, post, _, _, h3⟩ := g2 k s hk
    simp only [ShardIndex.init, bind, Except.bind, pure, Except.pure] at h3
    cases hr : ShardIndex.readIix 65536 iix with
    | error e => simp [hr] at h3
    | ok es =>
      simp only [hr, Except.ok.injEq] at h3
      have := readIix_count 65536 hr
      rw [← h3]
      simp [this])
  exact ⟨_, by simp only [Index.startQuery, hss, bind, Except.bind, pure, Except.pure]; rfl, by show UInt32.ofNat y.shards.length = _; rw [g1]⟩

/-! ### What a dead process leaves -/

theorem Cut.opsOn {f : File} {a b : List Op} (h : Cut a b) : Cut (opsOn f a) (opsOn f b) := by
  induction h with
  | stop => exact .stop
  | part k =>
    rename_i g off data ops
    by_cases e : g = f
    · simp only [Dupi.opsOn, List.filter_cons, Op.file, e, decide_true, if_true, List.filter_nil]
      exact .part k
    · simp only [Dupi.opsOn, List.filter_cons, Op.file, e, decide_false, List.filter_nil]
      exact .stop
  | @step op ops ops' _ ih =>
    by_cases e : op.file = f
    · simp only [Dupi.opsOn, List.filter_cons, e, decide_true, if_true]
      exact .step ih
    · simp only [Dupi.opsOn, List.filter_cons, e, decide_false]
      exact ih

section
variable {u : Uni} {J : CfgCodec} {c : Config} {old : List Document} {d : Dir} {x : Indexer} {cwd : Bytes} {new : List Doc} {tr : Trace} {d' : Dir}
variable (hU : Usable J c) (A : Appending u J c old d x cwd new tr d')
include hU A

/-- the three files of an index as a whole, as they can be found: the path table may be in the middle of being rewritten -/
structure Appending.Found (d d' cd : Dir) (J : CfgCodec) (c : Config) : Prop where
  cfg : Config.readFrom J cd = .ok c
  dmd : ∃ a b, d .dmd = some a ∧ cd .dmd = some (a ++ b)
  fnm : cd .fnm = d .fnm ∨ cd .fnm = d' .fnm ∨ ∃ b, cd .fnm = some b ∧ Errs (Fnames.read b)

omit A in
theorem Appending.readFrom {cd : Dir} (h : cd .cfg = some (J.enc c ++ [10])) : Config.readFrom J cd = .ok c := by
  simp only [Config.readFrom, Dir.read, h, hU.codec, hU.check, bind, Except.bind, pure, Except.pure]

/-- while documents are added -/
theorem Appending.adding_found {a : List Op} {s : Nat → List Op} {ops : List Op} (ha : Cut tr.adds a) (hs : ∀ j, j < c.numShards.toNat → Cut (tr.serve j) (s j))
    (hi : Interleave (Trace.workers c.numShards.toNat a s) ops) :
    Appending.Found d d' (d.run ops) J c ∧ d.run ops .fnm = d .fnm ∧
      ∀ j, j < c.numShards.toNat → d.run ops (.iix j) = d (.iix j) ∧ d.run ops (.pos j) = onFiles (d (.pos j)) (s j) := by
  have R := A.run.rep
  have hns := (A.rep hU).nsh
  obtain ⟨fs, front, q1, q2, q3, q4, q5, q6, _⟩ := A.meta_keeps hU
  obtain ⟨o1, o2, o3⟩ := workers_opsOn hi (ha.on R.adds) fun j hj => (hs j hj).on (R.serve j (by omega))
  have hf : d.run ops .fnm = d .fnm := (o3 .fnm nofun fun _ _ => nofun).run _
  refine ⟨⟨?_, ?_, .inl hf⟩, hf, fun j hj => ⟨(o3 (.iix j) nofun fun _ _ => nofun).run _, by rw [run_file, o2 j hj]⟩⟩
  · exact Appending.readFrom hU (by rw [(o3 .cfg nofun fun _ _ => nofun).run, A.dir.cfg])
  · obtain ⟨b, hb⟩ := Keeps.prefix (Nat.le_refl _) a [] (q3.cut ha)
    rw [List.append_nil] at hb
    exact ⟨_, b, q1, by rw [run_file, o1, q1, hb]⟩

/-- while `Close` writes the files of the index as a whole -/
theorem Appending.closing_found {ops cs : List Op} (hi : Interleave (Trace.workers c.numShards.toNat tr.adds tr.serve) ops) (hc : Cut tr.closing cs) :
    Appending.Found d d' (d.run (ops ++ cs)) J c ∧
      ∀ j, j < c.numShards.toNat → d.run (ops ++ cs) (.iix j) = d (.iix j) ∧ d.run (ops ++ cs) (.pos j) = onFiles (d (.pos j)) (tr.serve j) := by
  obtain ⟨_, h2, h3⟩ := A.adding_found hU (Cut.refl _) (fun j _ => Cut.refl _) hi
  have R := A.run.rep
  have hns := (A.rep hU).nsh
  have hcfg := (A.rep hU).cfg
  obtain ⟨fs, front, q1, q2, q3, q4, q5, q6, q7, q8, q9⟩ := A.meta_keeps hU
  obtain ⟨o1, _, o3⟩ := workers_opsOn hi R.adds fun j hj => R.serve j (by omega)
  rw [q2] at hc
  obtain ⟨c1, c2, c3, c4⟩ := closingOps_files J x.config front
  refine ⟨⟨?_, ?_, ?_⟩, fun j hj => ?_⟩
  · apply Appending.readFrom hU
    rw [run_append, run_file, (o3 .cfg nofun fun _ _ => nofun).run, A.dir.cfg]
    have := hc.opsOn (f := .cfg)
    rw [c2, hcfg] at this
    exact Same.run _ (Same.cut this (writeOps_same J c))
  · obtain ⟨b1, hb1⟩ := Keeps.prefix (Nat.le_refl _) tr.adds [] q3
    rw [List.append_nil] at hb1
    have := hc.opsOn (f := .dmd)
    rw [c4] at this
    obtain ⟨b2, hb2⟩ := Keeps.prefix (Nat.le_refl _) _ b1 (q4.cut this)
    exact ⟨_, b2, q1, by rw [run_append, run_file, run_file, o1, q1, hb1, hb2]⟩
  · have := hc.opsOn (f := .fnm)
    rw [c3] at this
    rw [run_append, run_file, h2]
    rcases this.rewrite with h | ⟨k, k1, _⟩
    · exact .inl (by rw [h]; rfl)
    · rw [k1, writeChunks_flatten]
      by_cases hk : k < (Fnames.write front.fnames).length
      · exact .inr (.inr ⟨_, rfl, Fnames.read_trunc _ q7 (by omega) q9 k hk⟩)
      · exact .inr (.inl (by rw [q6, List.take_of_length_le (by omega)]))
  · rw [run_append, (hc.off (c1 j).2).run, (hc.off (c1 j).1).run]
    exact h3 j hj

/-- while the shards are being closed -/
theorem Appending.shards_found {s : Nat → List Op} {ops ops' : List Op} (hi : Interleave (Trace.workers c.numShards.toNat tr.adds tr.serve) ops)
    (hs : ∀ j, j < c.numShards.toNat → Cut (tr.shard j) (s j)) (hi' : Interleave ((List.range c.numShards.toNat).map s) ops') :
    Appending.Found d d' (d.run (ops ++ tr.closing ++ ops')) J c ∧ d.run (ops ++ tr.closing ++ ops') .fnm = d' .fnm ∧ d.run (ops ++ tr.closing ++ ops') .dmd = d' .dmd ∧
      ∀ j, j < c.numShards.toNat →
        (d.run (ops ++ tr.closing ++ ops') (.iix j) = d (.iix j) ∧
          d.run (ops ++ tr.closing ++ ops') (.pos j) = onFiles (onFiles (d (.pos j)) (tr.serve j)) (Dupi.opsOn (.pos j) (s j)) ∧
          Cut (Dupi.opsOn (.pos j) (tr.shard j)) (Dupi.opsOn (.pos j) (s j)) ∧ s j ≠ tr.shard j) ∨
        (∃ b, d.run (ops ++ tr.closing ++ ops') (.iix j) = some b ∧ Errs (ShardIndex.readIix 65536 b) ∧ s j ≠ [] ∧ s j ≠ tr.shard j) ∨
        (s j = tr.shard j ∧ d.run (ops ++ tr.closing ++ ops') (.iix j) = d' (.iix j) ∧ d.run (ops ++ tr.closing ++ ops') (.pos j) = d' (.pos j)) := by
  have R := A.run.rep
  have hns := (A.rep hU).nsh
  obtain ⟨⟨f1, f2, f3⟩, g⟩ := A.closing_found hU hi (Cut.refl _)
  obtain ⟨fs, front, q1, q2, q3, q4, q5, q6, q7, q8, q9⟩ := A.meta_keeps hU
  obtain ⟨o1, _, o3⟩ := workers_opsOn hi R.adds fun j hj => R.serve j (by omega)
  obtain ⟨c1, c2, c3, c4⟩ := closingOps_files J x.config front
  have hsh : ∀ j, j < c.numShards.toNat → OnShard j (s j) := by
    intro j hj
    obtain ⟨ws, ps, w1, _⟩ := R.shard j _ (List.getElem?_eq_getElem (by omega))
    exact (hs j hj).onShard (by rw [w1]; exact closeOps_onShard _ _ _)
  obtain ⟨p1, p2⟩ := shards_opsOn hi' hsh
  have hfile : ∀ f, (f = .cfg ∨ f = .fnm ∨ f = .dmd) → d.run (ops ++ tr.closing ++ ops') f = d.run (ops ++ tr.closing) f := by
    intro f hf
    rw [run_append, (p2 f (fun j _ => by rcases hf with rfl | rfl | rfl <;> exact ⟨nofun, nofun⟩)).run]
  have hfnm : d.run (ops ++ tr.closing ++ ops') .fnm = d' .fnm := by
    rw [hfile _ (by simp), run_append, run_file, q2, c3, fnames_ops, q6]
  have hdmd : d.run (ops ++ tr.closing ++ ops') .dmd = d' .dmd := by
    rw [hfile _ (by simp), run_append, run_file, run_file, o1, q2, c4, q5]
  refine ⟨⟨?_, ?_, .inr (.inl hfnm)⟩, hfnm, hdmd, fun j hj => ?_⟩
  · rw [← f1]
    unfold Config.readFrom Dir.read
    rw [hfile .cfg (by simp)]
  · obtain ⟨a, b, h1, h2⟩ := f2
    exact ⟨a, b, h1, by rw [hfile .dmd (by simp), h2]⟩
  · obtain ⟨g1, g2⟩ := g j hj
    have e1 : d.run (ops ++ tr.closing ++ ops') (.iix j) = onFiles (d (.iix j)) (Dupi.opsOn (.iix j) (s j)) := by
      rw [run_append, run_file, (p1 j hj).2, g1]
    have e2 : d.run (ops ++ tr.closing ++ ops') (.pos j) = onFiles (onFiles (d (.pos j)) (tr.serve j)) (Dupi.opsOn (.pos j) (s j)) := by
      rw [run_append, run_file, (p1 j hj).1, g2]
    obtain ⟨bs, ps, ws, wsc, ps', k1, k2, k3, k4, k5, k6, k7, k8, _⟩ := A.shard hU hj
    have ontrunc : On (.iix j) (.trunc (.iix j) :: Op.writes (.iix j) 0 (ps'.flatMap ShardIndexer.iixChunks)) := by
      intro op h
      rcases List.mem_cons.mp h with rfl | h
      · rfl
      · exact writes_on _ _ _ op h
    have hcut := hs j hj
    rw [e1, e2]
    rw [k6] at hcut
    by_cases hall : s j = tr.shard j
    · refine .inr (.inr ⟨hall, ?_, ?_⟩)
      · rw [hall, k6, opsOn_append, ((posOps_on j wsc).off (g := .iix j) nofun).opsOn, List.nil_append, ontrunc.opsOn, onFiles_trunc, iixChunks_flatten, k8]
      · rw [hall, k6, opsOn_append, (posOps_on j wsc).opsOn, (ontrunc.off (g := .pos j) nofun).opsOn, List.append_nil, k7]
    · rcases hcut.append with ⟨hcut1, _⟩ | ⟨cs, e, hcut2⟩
      · refine .inl ⟨?_, rfl, (hs j hj).opsOn, hall⟩
        rw [(hcut1.off ((posOps_on j wsc).off (g := .iix j) nofun)).opsOn]; rfl
      · rcases hcut2.rewrite with h | ⟨k, h1, h2⟩
        · refine .inl ⟨?_, rfl, (hs j hj).opsOn, hall⟩
          rw [e, h, List.append_nil, ((posOps_on j wsc).off (g := .iix j) nofun).opsOn]; rfl
        · refine .inr (.inl ⟨(ps'.flatMap ShardIndexer.iixEntry).take k, ?_, ?_, ?_, hall⟩)
          · rw [e, opsOn_append, ((posOps_on j wsc).off (g := .iix j) nofun).opsOn, List.nil_append, (hcut2.on ontrunc).opsOn, h1, iixChunks_flatten]
          · have h3 := h2 (iixChunks_ne ps') (by intro e'; exact hall (by rw [e, e', k6]))
            rw [iixChunks_flatten] at h3
            obtain ⟨bs', ps'', r1, r2, r3, r4⟩ := (A.final hU).small A.fits.posts hj
            rw [k8] at r2
            injection r2 with r2
            rw [r2] at h3 ⊢
            have := readIix_prefix bs' r4 _ ps'' 0 k (fun o p hp => (r3.rep o p hp).1) h3
            rwa [r3.len] at this
          · rw [e]
            intro hnil
            have hcs := (List.append_eq_nil_iff.mp hnil).2
            rw [hcs] at h1
            have := h1 none
            simp [onFiles] at this

end

end Dupi
