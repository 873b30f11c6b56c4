import Verif.Proof.Size
import Verif.Props.Tree
/-! # What an index takes on disk: C82 -/

namespace Dupi.Props
open Spec

/-! ### The digits of the gaps -/

theorem putUvarint_digits {n : Nat} (h : n < 2 ^ 32) : (putUvarint n).length = digits n := by
  have big : ∀ n, 128 ≤ n → (putUvarint n).length = (putUvarint (n / 128)).length + 1 := by
    intro n hn
    rw [putUvarint, if_neg (by omega), List.length_cons, Nat.shiftRight_eq_div_pow]
  have small : ∀ n, n < 128 → (putUvarint n).length = 1 := by
    intro n hn; rw [putUvarint_small hn]; rfl
  unfold digits
  split
  · exact small n (by omega)
  · rw [big n (by omega)]
    split
    · rw [small _ (by omega)]
    · rw [big _ (by omega)]
      split
      · rw [small _ (by omega)]
      · rw [big _ (by omega)]
        split
        · rw [small _ (by omega)]
        · rw [big _ (by omega), small _ (by omega)]

theorem idsWith_numbers (p : Document → Bool) (l : List Document) : ∀ i,
    idsWith p i l = (((l.zipIdx i).filter fun x => p x.1).map (·.2)).map UInt32.ofNat := by
  induction l with
  | nil => intro i; rfl
  | cons s l ih =>
    intro i
    rw [idsWith, List.zipIdx_cons, ih (i + 1)]
    by_cases e : p s <;> simp [e]

theorem encDeltas_gaps (l : List Nat) : ∀ a, (a :: l).Pairwise (· < ·) → (∀ n ∈ l, n < 2 ^ 32) → a < 2 ^ 32 →
    (encDeltas (deltasFrom (UInt32.ofNat a) (l.map UInt32.ofNat))).length = ((gaps a l).map digits).sum := by
  induction l with
  | nil => intro a _ _ _; rfl
  | cons b l ih =>
    intro a h1 h2 h3
    have hb := h2 b (by simp)
    have hab : a < b := (List.pairwise_cons.mp h1).1 b (by simp)
    have hd : (UInt32.ofNat b - UInt32.ofNat a).toNat = b - a := by
      simp only [UInt32.toNat_sub, UInt32.toNat_ofNat']; omega
    rw [List.map_cons, deltasFrom, encDeltas_cons, List.length_append, hd, putUvarint_digits (by omega), gaps, List.map_cons, List.sum_cons,
      ih b (List.pairwise_cons.mp h1).2 (fun n hn => h2 n (by simp [hn])) hb]

theorem numbersOf_sorted (u : Uni) (c : Config) (docs : List Document) (b : Nat) :
    (0 :: numbersOf u c docs b).Pairwise (· < ·) ∧ ∀ n ∈ numbersOf u c docs b, n ≤ docs.length := by
  have key : ∀ (l : List Document) (i : Nat) (p : Document → Bool),
      ((((l.zipIdx i).filter fun x => p x.1).map (·.2)).Pairwise (· < ·)) ∧
      ∀ n ∈ (((l.zipIdx i).filter fun x => p x.1).map (·.2)), i ≤ n ∧ n < i + l.length := by
    intro l
    induction l with
    | nil => intro i p; simp
    | cons s l ih =>
      intro i p
      obtain ⟨h1, h2⟩ := ih (i + 1) p
      rw [List.zipIdx_cons, List.filter_cons]
      split
      · rw [List.map_cons]
        refine ⟨List.pairwise_cons.mpr ⟨fun n hn => ?_, h1⟩, fun n hn => ?_⟩
        · have := h2 n hn; show i < n; omega
        · rcases List.mem_cons.mp hn with rfl | hn
          · simp
          · have := h2 n hn; simp; omega
      · refine ⟨h1, fun n hn => ?_⟩
        have := h2 n hn; simp; omega
  obtain ⟨h1, h2⟩ := key docs 1 fun s => hasBlot u c s.dat b
  refine ⟨List.pairwise_cons.mpr ⟨fun n hn => (h2 n hn).1, h1⟩, fun n hn => ?_⟩
  have := h2 n hn; omega

theorem numbersOf_length (u : Uni) (c : Config) (docs : List Document) (b : Nat) : (numbersOf u c docs b).length = (found u c docs b).length := by
  have key : ∀ (l : List Document) (i : Nat) (p : Document → Bool), ((l.zipIdx i).filter fun x => p x.1).length = (l.filter p).length := by
    intro l
    induction l with
    | nil => intro i p; rfl
    | cons s l ih =>
      intro i p
      rw [List.zipIdx_cons, List.filter_cons, List.filter_cons]
      by_cases e : p s <;> simp [e, ih]
  simp only [numbersOf, List.length_map, key docs 1 fun s => hasBlot u c s.dat b, found]

/-! ### The files -/

theorem flatMap_length_bounds {α : Type} (f : α → Bytes) (lo hi : Nat) (l : List α) (h : ∀ a ∈ l, lo ≤ (f a).length ∧ (f a).length ≤ hi) :
    lo * l.length ≤ (l.flatMap f).length ∧ (l.flatMap f).length ≤ hi * l.length := by
  induction l with
  | nil => simp
  | cons a l ih =>
    obtain ⟨h1, h2⟩ := ih fun b hb => h b (by simp [hb])
    obtain ⟨h3, h4⟩ := h a (by simp)
    rw [List.flatMap_cons, List.length_append, List.length_cons, Nat.mul_succ, Nat.mul_succ]
    omega

section
variable {u : Uni} {J : CfgCodec} {c : Config} (hU : Usable J c)

theorem bucket_postings {docs : List Document} (hf : Fits u c docs) {j q : Nat} (hj : j < c.numShards.toNat) (hq : q < 65536) :
    postings (shardPosts u c j 1 docs) q = (numbersOf u c docs (bucket c j q)).map UInt32.ofNat := by
  have := hf.ids
  rw [postings_shardPosts u c j q hj hq docs (by omega), idsWith_numbers]
  rfl

/-- what the blocks of a bucket hold -/
theorem bucket_bytes {docs : List Document} (hf : Fits u c docs) {j q : Nat} (hj : j < c.numShards.toNat) (hq : q < 65536) {bs : List Blk}
    {ps : List Poster} (h : ClosedRep 65536 bs ps (postings (shardPosts u c j 1 docs))) :
    ((bs.filter (·.owner = q)).map fun b => b.payload.length).sum = gapDigits u c docs (bucket c j q) ∧
    ((bs.filter (·.owner = q)).map fun b => b.deltas.length).sum = (found u c docs (bucket c j q)).length := by
  have hlt : q < ps.length := by rw [h.len]; exact hq
  obtain ⟨h1, h2⟩ := h.rep q _ (List.getElem?_eq_getElem hlt)
  have h4 := h1.closed h2
  rw [bucket_postings hf hj hq] at h4
  obtain ⟨s1, s2⟩ := numbersOf_sorted u c docs (bucket c j q)
  have := hf.ids
  constructor
  · rw [payloads_flushed, h4]
    exact encDeltas_gaps _ 0 s1 (fun n hn => by have := s2 n hn; omega) (by omega)
  · have h6 := congrArg List.length h4
    rw [deltasFrom_length, List.length_map, numbersOf_length] at h6
    rw [← h6, flushed]
    generalize bs.filter (·.owner = q) = l
    induction l with
    | nil => rfl
    | cons b l ih => rw [List.map_cons, List.sum_cons, ih, List.flatMap_cons, List.length_append]

include hU

/-- **C82, the posting files.**  After any sessions the posting file of a shard holds the digits of the gaps, and beyond that at most ten bytes for
each 512 bytes of a bucket and for each session that added to it, at least nine bytes for each of these sessions. -/
theorem C82_posts {h : Sessions} {d : Dir} (hd : History u J c h d) (hf : Fits u c (documents h)) {j : Nat} (hj : j < c.numShards.toNat) :
    ∃ f, d (.pos j) = some f ∧
      f.length ≤ overShard c j (fun b => gapDigits u c (documents h) b + 10 * (gapDigits u c (documents h) b / 512 + growths u c h b)) ∧
      overShard c j (fun b => gapDigits u c (documents h) b + 9 * growths u c h b) ≤ f.length := by
  obtain ⟨bs, ps, h1, h2, h3, h4⟩ := History.room hU hd hf j hj
  have hsz : (render 0 bs).length = ((List.range 65536).map fun o => sizes (bs.filter (·.owner = o))).sum := by
    rw [render_length, sizes, ← sum_owners Blk.size 65536 bs h3.owner]; rfl
  refine ⟨_, h1, ?_, ?_⟩
  · rw [hsz]
    apply sum_map_le
    intro q hq
    have hq := List.mem_range.mp hq
    obtain ⟨e1, _⟩ := bucket_bytes hf hj hq h3
    have h5 := sizes_room (bs.filter (·.owner = q)) (fun b hb => h3.wf b (List.mem_filter.mp hb).1)
    rw [e1, List.filter_filter] at h5
    have h6 := (h4 q hq).1
    have h7 : (bs.filter fun b => decide (b.payload.length < 512) && decide (b.owner = q)).length = short q bs := by
      unfold short
      congr 2
      funext b; exact Bool.and_comm _ _
    rw [h7] at h5
    show _ ≤ gapDigits u c (documents h) (bucket c j q) + 10 * (gapDigits u c (documents h) (bucket c j q) / 512 + growths u c h (bucket c j q))
    omega
  · rw [hsz]
    apply sum_map_le
    intro q hq
    have hq := List.mem_range.mp hq
    obtain ⟨e1, _⟩ := bucket_bytes hf hj hq h3
    have h5 := sizes_ge (bs.filter (·.owner = q))
    rw [e1] at h5
    have h6 := (h4 q hq).2
    show gapDigits u c (documents h) (bucket c j q) + 9 * growths u c h (bucket c j q) ≤ _
    omega

/-- **C82, bytes for each entry.**  A posting file has at most fourteen bytes for each document of each bucket. -/
theorem C82_entries {h : Sessions} {d : Dir} (hd : History u J c h d) (hf : Fits u c (documents h)) {j : Nat} (hj : j < c.numShards.toNat) :
    ∃ f, d (.pos j) = some f ∧ f.length ≤ 14 * overShard c j (fun b => (found u c (documents h) b).length) := by
  obtain ⟨bs, ps, h1, h2, h3, h4⟩ := History.room hU hd hf j hj
  refine ⟨_, h1, ?_⟩
  rw [render_length]
  refine Nat.le_trans (sizes_le14 bs h3.wf) (Nat.mul_le_mul_left _ ?_)
  rw [← sum_owners (fun b => b.deltas.length) 65536 bs h3.owner]
  apply sum_map_le
  intro q hq
  exact Nat.le_of_eq (bucket_bytes hf hj (List.mem_range.mp hq) h3).2

/-- **C82, the tables of heads.**  The `.iix` file of a shard has between 6 and 19 bytes for each of its 65536 buckets. -/
theorem C82_heads {h : Sessions} {d : Dir} (hd : History u J c h d) (hf : Fits u c (documents h)) {j : Nat} (hj : j < c.numShards.toNat) :
    ∃ f, d (.iix j) = some f ∧ 6 * 65536 ≤ f.length ∧ f.length ≤ 19 * 65536 := by
  obtain ⟨bs, ps, h1, h2, h3, h4⟩ := (History.rep hU hd hf).small hf.posts hj
  refine ⟨_, h2, ?_⟩
  have hl : ps.length = 65536 := h3.len
  rw [← hl]
  apply flatMap_length_bounds
  intro p hp
  obtain ⟨o, ho⟩ := List.getElem?_of_mem hp
  have hb := (h3.rep o p ho).1.headBound h4
  simp only [ShardIndexer.iixEntry, List.length_append, be32_length]
  have e1 := putUvarint_length_u64 (zigzag_lt p.head hb.1 hb.2)
  have e2 : (putVarint (p.total.toNat : Int)).length ≤ 5 := by
    unfold putVarint
    apply putUvarint_length_le 4
    have := p.total.toNat_lt
    unfold zigzag
    split <;> omega
  have e3 : 1 ≤ (putVarint p.head).length := putUvarint_length_pos _
  have e4 : 1 ≤ (putVarint (p.total.toNat : Int)).length := putUvarint_length_pos _
  unfold putVarint at e2 e3 e4 ⊢
  omega

/-- **C82, the documents.**  The file of the documents has twelve bytes for each of them, and twelve for a record that is none. -/
theorem C82_documents {h : Sessions} {d : Dir} (hd : History u J c h d) (hf : Fits u c (documents h)) :
    ∃ f, d .dmd = some f ∧ f.length = 12 * ((documents h).length + 1) := by
  obtain ⟨t, fs, h1, h2, h3⟩ := (History.rep hU hd hf).front
  refine ⟨_, h2, ?_⟩
  have := flatMap_length_bounds Dmd.encode 12 12 (Dmd.zeroFields :: fs) fun a _ => by simp [Dmd.encode, be32_length]
  rw [List.length_cons, h3.len] at this
  omega

/-- **C82, the paths.**  The file of the paths has the names of the distinct files and directories on the way to documents (and a root), each with
between two and ten bytes more, and between one and five bytes for their number. -/
theorem C82_paths {h : Sessions} {d : Dir} (hd : History u J c h d) (hf : Fits u c (documents h)) :
    ∃ f, ∃ l : List Bytes, d .fnm = some f ∧ l.Nodup ∧ (∀ q, q ∈ l ↔ q = [] ∨ ∃ s ∈ documents h, OnWay s.path q) ∧
      1 + (l.map fun q => 2 + (lastName q).length).sum ≤ f.length ∧ f.length ≤ 5 + (l.map fun q => 10 + (lastName q).length).sum := by
  obtain ⟨t, fs, h1, h2, h3⟩ := (History.rep hU hd hf).front
  obtain ⟨l, k1, k2, k3, k4⟩ := MetaRep.nodes_names h3 (documents_rooted h)
  refine ⟨_, l, h1, k1, k2, ?_⟩
  have e1 : ∀ n ∈ t, 2 + n.name.length ≤ (Fnames.writeNode n).length ∧ (Fnames.writeNode n).length ≤ 10 + n.name.length := by
    intro n _
    simp only [Fnames.writeNode, Fnames.writeUvarint32, List.length_append]
    have a1 := putUvarint_length_pos (UInt32.ofNat n.name.length).toNat
    have a2 := putUvarint_length_pos n.parent.toNat
    have a3 := putUvarint_length_u32 (UInt32.ofNat n.name.length).toNat_lt
    have a4 := putUvarint_length_u32 n.parent.toNat_lt
    omega
  have e2 : ∀ k, (l.map fun q => k + (lastName q).length) = t.map fun n => k + n.name.length := by
    intro k
    apply List.ext_getElem?
    intro i
    rw [List.getElem?_map, List.getElem?_map]
    by_cases hi : i < t.length
    · obtain ⟨q, m1, m2⟩ := k4 i _ (List.getElem?_eq_getElem hi)
      rw [m1, List.getElem?_eq_getElem hi]
      simp [m2]
    · rw [List.getElem?_eq_none (by omega), List.getElem?_eq_none (by omega)]; rfl
  have e3 : ∀ s : Fnames.Table, (∀ n ∈ s, n ∈ t) → (s.map fun n => 2 + n.name.length).sum ≤ (s.flatMap Fnames.writeNode).length ∧
      (s.flatMap Fnames.writeNode).length ≤ (s.map fun n => 10 + n.name.length).sum := by
    intro s
    induction s with
    | nil => intro _; simp
    | cons n s ih =>
      intro hs
      obtain ⟨b1, b2⟩ := ih fun m hm => hs m (by simp [hm])
      obtain ⟨b3, b4⟩ := e1 n (hs n (by simp))
      rw [List.flatMap_cons, List.length_append, List.map_cons, List.map_cons, List.sum_cons, List.sum_cons]
      omega
  obtain ⟨e4, e5⟩ := e3 t fun n hn => hn
  have a1 := putUvarint_length_pos (UInt32.ofNat t.length).toNat
  have a3 := putUvarint_length_u32 (UInt32.ofNat t.length).toNat_lt
  rw [e2, e2]
  simp only [Fnames.write, Fnames.writeUvarint32, List.length_append]
  omega

/-- **C82, no other files.**  There are no files of further shards, and the configuration is what is written of it with a line end. -/
theorem C82_only {h : Sessions} {d : Dir} (hd : History u J c h d) (hf : Fits u c (documents h)) :
    d .cfg = some (J.enc c ++ [10]) ∧ ∀ j, c.numShards.toNat ≤ j → d (.pos j) = none ∧ d (.iix j) = none := by
  refine ⟨(History.rep hU hd hf).cfg, ?_⟩
  induction hd with
  | create h1 h2 =>
    rename_i x cwd docs d
    obtain ⟨y, g1, g2⟩ := create_rep (u := u) hU
    have := h1.symm.trans g1
    injection this with this
    subst this
    obtain ⟨_, _, _, _, _, _, _, _, g⟩ := h2.close
    intro j hj
    have := g j (by rw [g2.nsh]; exact hj)
    simpa [Dir.empty] using this
  | append h1 h2 h3 ih =>
    rename_i hist d0 d1 x cwd docs
    rw [documents_snoc] at hf
    have hr := History.rep hU h1 hf.left
    obtain ⟨y, g1, g2⟩ := open_rep hU hr hf.left
    have := h2.symm.trans g1
    injection this with this
    subst this
    obtain ⟨_, _, _, _, _, _, _, _, g⟩ := h3.close
    intro j hj
    have := g j (by rw [g2.nsh]; exact hj)
    rw [(ih hf.left j hj).1, (ih hf.left j hj).2] at this
    exact this

omit hU in
theorem shardPosts_total (docs : List Document) : ∀ i, ((List.range c.numShards.toNat).map fun j => (shardPosts u c j i docs).length).sum ≤
    (docs.map fun s => (blotsOf u c s.dat).length).sum := by
  have one : ∀ (n : Nat) (bl : List UInt32), ((List.range n).map fun j => (bl.filter fun x => decide (x.toNat % n = j)).length).sum ≤ bl.length := by
    intro n bl
    induction bl with
    | nil => simpa using sum_map_zero (List.range n)
    | cons x bl ih =>
      have h1 := sum_indicator (x.toNat % n) 1 n
      have h2 : (if x.toNat % n < n then 1 else 0) ≤ 1 := by split <;> omega
      have h3 : ((List.range n).map fun j => ((x :: bl).filter fun x => decide (x.toNat % n = j)).length) =
          (List.range n).map fun j => (bl.filter fun x => decide (x.toNat % n = j)).length + if x.toNat % n = j then 1 else 0 := by
        apply List.map_congr_left
        intro j _
        by_cases e : x.toNat % n = j <;> simp [e]
      rw [h3, sum_map_add, h1, List.length_cons]
      omega
  induction docs with
  | nil => intro i; simpa [shardPosts] using sum_map_zero (List.range c.numShards.toNat)
  | cons s docs ih =>
    intro i
    have h1 := one c.numShards.toNat (blotsOf u c s.dat)
    have h2 := ih (i + 1)
    simp only [shardPosts, docPosts, List.length_append, List.length_map]
    rw [sum_map_add, List.map_cons, List.sum_cons]
    omega

/-- **C82, the size of the texts.**  The posting files of all shards together have at most seven times as many bytes as the texts of all
documents. -/
theorem C82_texts {h : Sessions} {d : Dir} (hd : History u J c h d) (hf : Fits u c (documents h)) :
    ((List.range c.numShards.toNat).map fun j => ((d (.pos j)).getD []).length).sum ≤ 7 * ((documents h).map fun s => s.dat.length).sum := by
  have h1 : ((List.range c.numShards.toNat).map fun j => ((d (.pos j)).getD []).length).sum ≤
      ((List.range c.numShards.toNat).map fun j => 14 * (shardPosts u c j 1 (documents h)).length).sum := by
    apply sum_map_le
    intro j hj
    have hj := List.mem_range.mp hj
    obtain ⟨f, g1, g2⟩ := C82_entries hU hd hf hj
    rw [g1, Option.getD_some]
    refine Nat.le_trans g2 (Nat.mul_le_mul_left _ ?_)
    refine Nat.le_trans ?_ (sum_postings 65536 (shardPosts u c j 1 (documents h)))
    apply sum_map_le
    intro q hq
    rw [bucket_postings hf hj (List.mem_range.mp hq), List.length_map, numbersOf_length]
    exact Nat.le_refl _
  have h2 : ∀ (l : List Nat) (a : Nat → Nat), (l.map fun j => 14 * a j).sum = 14 * (l.map a).sum := by
    intro l a
    induction l with
    | nil => rfl
    | cons q l ih => rw [List.map_cons, List.map_cons, List.sum_cons, List.sum_cons, ih]; omega
  rw [h2] at h1
  have h3 := shardPosts_total (u := u) (c := c) (documents h) 1
  have h4 : 2 * ((documents h).map fun s => (blotsOf u c s.dat).length).sum ≤ ((documents h).map fun s => s.dat.length).sum := by
    generalize documents h = docs
    induction docs with
    | nil => simp
    | cons s docs ih =>
      have a1 := wordChars_le u s.dat
      have a2 : (blotsOf u c s.dat).length ≤ (wordChars u s.dat).length := by simp [blotsOf, blots]
      rw [List.map_cons, List.map_cons, List.sum_cons, List.sum_cons]
      omega
  omega

omit hU in
theorem found_le_gapDigits (docs : List Document) (b : Nat) : (found u c docs b).length ≤ gapDigits u c docs b := by
  have key : ∀ (l : List Nat) (a : Nat), l.length ≤ ((gaps a l).map digits).sum := by
    intro l
    induction l with
    | nil => intro a; simp
    | cons n l ih =>
      intro a
      have h1 : 1 ≤ digits (n - a) := by
        unfold digits; repeat' split
        all_goals omega
      have := ih n
      rw [gaps, List.map_cons, List.sum_cons, List.length_cons]
      omega
  rw [← numbersOf_length]
  exact key _ 0

omit hU in
theorem growths_single (h : Sessions) (h1 : ∀ s ∈ h, s.2.length = 1) (b : Nat) : growths u c h b = (found u c (documents h) b).length := by
  induction h with
  | nil => rfl
  | cons s h ih =>
    have ih := ih fun t ht => h1 t (by simp [ht])
    obtain ⟨cwd, docs⟩ := s
    have h2 : docs.length = 1 := h1 (cwd, docs) (by simp)
    obtain ⟨doc, rfl⟩ := List.length_eq_one_iff.mp h2
    have e : documents ((cwd, [doc]) :: h) = added cwd [doc] ++ documents h := rfl
    rw [e, found, List.filter_append, List.length_append, ← found, ← found, ← ih, growths, List.countP_cons, ← growths]
    simp only [added, List.map_cons, List.map_nil, List.any_cons, List.any_nil, Bool.or_false, found, List.filter_cons, List.filter_nil]
    split <;> simp <;> omega

/-- **C82, many short sessions.**  If every session adds one document, each entry takes between ten and fourteen bytes. -/
theorem C82_single {h : Sessions} {d : Dir} (hd : History u J c h d) (hf : Fits u c (documents h)) (h1 : ∀ s ∈ h, s.2.length = 1) {j : Nat}
    (hj : j < c.numShards.toNat) :
    ∃ f, d (.pos j) = some f ∧ 10 * overShard c j (fun b => (found u c (documents h) b).length) ≤ f.length ∧
      f.length ≤ 14 * overShard c j (fun b => (found u c (documents h) b).length) := by
  obtain ⟨f, g1, _, g2⟩ := C82_posts hU hd hf hj
  obtain ⟨f', g3, g4⟩ := C82_entries hU hd hf hj
  rw [g1] at g3
  injection g3 with g3
  subst g3
  refine ⟨f, g1, Nat.le_trans ?_ g2, g4⟩
  have : ∀ (l : List Nat) (a b : Nat → Nat), (∀ q, 10 * a q ≤ b q) → 10 * (l.map a).sum ≤ (l.map b).sum := by
    intro l a b hab
    induction l with
    | nil => simp
    | cons q l ih =>
      have := hab q
      rw [List.map_cons, List.map_cons, List.sum_cons, List.sum_cons]; omega
  apply this
  intro q
  show 10 * (found u c (documents h) (bucket c j q)).length ≤ gapDigits u c (documents h) (bucket c j q) + 9 * growths u c h (bucket c j q)
  rw [growths_single h h1]
  have := found_le_gapDigits (u := u) (c := c) (documents h) (bucket c j q)
  omega

end

/-- A history with three documents: 48 bytes for them, five names. -/
theorem C82_nonvacuous : ∃ d f, History asciiUni ⟨fun _ => [], fun _ => .ok exQConfig⟩ exQConfig exHistory d ∧ d .dmd = some f ∧ f.length = 48 ∧
    growths asciiUni exQConfig exHistory (((blotsOf asciiUni exQConfig ((documents exHistory).getD 0 ⟨[], 0, 0, []⟩).dat).getD 0 0).toNat) = 2 := by
  obtain ⟨d, hd⟩ := History.exists (u := asciiUni) exUsable [47] _ _ exFits
  obtain ⟨f, h1, h2⟩ := C82_documents exUsable hd exFits
  exact ⟨d, f, hd, h1, by rw [h2]; decide +kernel, by decide +kernel⟩

end Dupi.Props
