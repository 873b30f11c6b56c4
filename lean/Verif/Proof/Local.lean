import Verif.Proof.DamagedIndex
import Verif.Proof.AnyDir
import Verif.Proof.Reads

/-! Which bytes of a posting file belong to which list. -/

namespace Dupi
open Spec

/-- the owner of the block the byte at an offset is in -/
def ownerAt : List Blk → Nat → Option Nat
  | [], _ => none
  | b :: bs, i => if i < b.size then some b.owner else ownerAt bs (i - b.size)

theorem Covers.swap {o : Nat} {f f' : Bytes} (bs : List Blk) : ∀ off, Covers o f off bs →
    (∀ i, ownerAt bs i = some o → f'[off + i]? = f[off + i]?) → Covers o f' off bs := by
  induction bs with
  | nil => intro off _ _; trivial
  | cons b bs ih =>
    intro off h hf
    refine ⟨fun hb => ?_, ?_⟩
    · rw [← h.1 hb]
      apply List.ext_getElem?
      intro i
      by_cases hi : i < b.size
      · rw [List.getElem?_take_of_lt hi, List.getElem?_take_of_lt hi, List.getElem?_drop, List.getElem?_drop]
        exact hf i (by rw [ownerAt, if_pos hi, hb])
      · rw [List.getElem?_eq_none (by simp; omega), List.getElem?_eq_none (by simp; omega)]
    · refine ih _ h.2 fun i hi => ?_
      have := hf (b.size + i) (by rw [ownerAt, if_neg (by omega), Nat.add_sub_cancel_left]; exact hi)
      rwa [← Nat.add_assoc] at this

/-- a list whose blocks are in the file is read whatever else the file contains -/
theorem ClosedRep.read_swap {n : Nat} {bs : List Blk} {ps : List Poster} {vals : Nat → List UInt32} (h : ClosedRep n bs ps vals)
    (hl : (render 0 bs).length < 2 ^ 63) {k : Nat} {p : Poster} (hp : ps[k]? = some p) {f' : Bytes}
    (hf : ∀ i, ownerAt bs i = some k → f'[i]? = (render 0 bs)[i]?) : PostsRep f' (Posts.new p.head) (vals k) := by
  obtain ⟨hr, hpe⟩ := h.rep k p hp
  obtain ⟨ds, h1, h2⟩ := hr.pend
  have hds : ds = [] := by
    false_or_by_contra
    rename_i hne
    exact encDeltas_ne hne (by rw [← h1]; exact hpe)
  rw [hds, List.append_nil] at h2
  have hc : Covers k f' 0 bs := by
    refine Covers.swap (f := render 0 bs) bs 0 (by have := Covers.render k bs [] []; simpa using this) fun i hi => ?_
    rw [Nat.zero_add]; exact hf i hi
  refine ⟨k, 0, bs, hc, h.wf, by rw [render_length] at hl; omega, by rw [Posts.new, hr.head], by simp [Posts.new], ?_⟩
  simp only [Posts.new, List.drop_nil, List.nil_append]
  rw [h2, runSum_deltasFrom]

theorem size_le {b : Blk} (hb : b.WF) : b.size ≤ 14 * b.deltas.length := by
  have h5 : b.payload.length ≤ 5 * b.deltas.length := encDeltas_length_le b.deltas
  have hne : 0 < b.deltas.length := List.length_pos_iff.mpr hb.ne
  obtain ⟨g1, g2⟩ := hdr_length_le hb
  unfold Blk.size
  omega

/-- a list has at most 14 bytes per docid -/
theorem ownerAt_count (o : Nat) (bs : List Blk) : (∀ b ∈ bs, b.WF) →
    (List.range (sizes bs)).countP (fun i => ownerAt bs i = some o) ≤ 14 * (flushed o bs).length := by
  induction bs with
  | nil => intro _; simp [sizes]
  | cons b bs ih =>
    intro hwf
    have h1 := ih (fun c hc => hwf c (by simp [hc]))
    have h2 := size_le (hwf b (by simp))
    rw [sizes_cons, List.range_add, List.countP_append, List.countP_map]
    have e2 : (List.range (sizes bs)).countP ((fun i => decide (ownerAt (b :: bs) i = some o)) ∘ fun x => b.size + x) =
        (List.range (sizes bs)).countP (fun i => decide (ownerAt bs i = some o)) := by
      apply List.countP_congr
      intro i _
      simp only [Function.comp, ownerAt, if_neg (show ¬ b.size + i < b.size by omega), Nat.add_sub_cancel_left]
    rw [e2]
    by_cases hb : b.owner = o
    · have e1 : (List.range b.size).countP (fun i => decide (ownerAt (b :: bs) i = some o)) ≤ b.size := by
        have := List.countP_le_length (p := fun i => decide (ownerAt (b :: bs) i = some o)) (l := List.range b.size)
        simpa using this
      have e3 : (flushed o (b :: bs)).length = b.deltas.length + (flushed o bs).length := by
        simp [flushed, hb]
      omega
    · have e1 : (List.range b.size).countP (fun i => decide (ownerAt (b :: bs) i = some o)) = 0 := by
        rw [List.countP_eq_zero]
        intro i hi
        have : i < b.size := by simpa using hi
        simp [ownerAt, this, hb]
      have e3 : (flushed o (b :: bs)).length = (flushed o bs).length := by
        simp [flushed, hb]
      omega

/-- opening the shards reads nothing of the posting files -/
theorem openShards_swap {srt : Sorter} {d d' : Dir} (hi : ∀ j, d' (.iix j) = d (.iix j)) (n : Nat) : ∀ i xs,
    (∀ j, j < i + n → d' (.pos j) ≠ none) → Index.openShards srt d n i = .ok xs →
    ∃ xs', Index.openShards srt d' n i = .ok xs' ∧ xs'.length = xs.length ∧
      ∀ (k : Nat) x, xs[k]? = some x → ∃ f', d' (.pos (i + k)) = some f' ∧ xs'[k]? = some { x with file := f' } := by
  induction n with
  | zero => intro i xs _ h; injection h with h; subst h; exact ⟨[], rfl, rfl, by simp⟩
  | succ n ih =>
    intro i xs hd h
    simp only [Index.openShards, Dir.read, bind, Except.bind, pure, Except.pure] at h ⊢
    rw [hi i]
    cases h1 : d (.iix i) with
    | none => rw [h1] at h; cases h
    | some iix =>
      rw [h1] at h
      simp only [] at h ⊢
      cases h2 : ShardIndex.readIix ShardIndexer.nBlots iix with
      | error e => rw [h2] at h; cases h
      | ok es =>
        rw [h2] at h
        simp only [] at h ⊢
        cases h3 : d (.pos i) with
        | none => rw [h3] at h; cases h
        | some post =>
          rw [h3] at h
          simp only [] at h
          cases h4 : Index.openShards srt d n (i + 1) with
          | error e => rw [h4] at h; cases h
          | ok xs0 =>
            rw [h4] at h
            injection h with h; subst h
            obtain ⟨f', hf'⟩ := Option.ne_none_iff_exists'.mp (hd i (by omega))
            obtain ⟨xs', g1, g2, g3⟩ := ih (i + 1) xs0 (fun j hj => hd j (by omega)) h4
            refine ⟨_, by rw [hf']; simp only []; rw [g1], by simp [g2], fun k x hk => ?_⟩
            cases k with
            | zero =>
              simp only [List.getElem?_cons_zero, Option.some.injEq] at hk
              subst hk
              exact ⟨f', hf', rfl⟩
            | succ k =>
              obtain ⟨f2, a1, a2⟩ := g3 k x (by simpa using hk)
              exact ⟨f2, by rw [← a1]; congr 2; omega, by simpa using a2⟩

/-- opening reads nothing of the posting files -/
theorem openIndex_swap {J : CfgCodec} {srt : Sorter} {d d' : Dir} (hd : ∀ g, (∀ j, g ≠ .pos j) → d' g = d g) {x : Index}
    (hx : Index.open J srt d = .ok x) (hpos : ∀ j, j < x.config.numShards.toNat → d' (.pos j) ≠ none) :
    ∃ x', Index.open J srt d' = .ok x' ∧ x'.config = x.config ∧ x'.dmd = x.dmd ∧ x'.fnames = x.fnames ∧ x'.shards.length = x.shards.length ∧
      ∀ (k : Nat) s, x.shards[k]? = some s → ∃ f', d' (.pos k) = some f' ∧ x'.shards[k]? = some { s with file := f' } := by
  obtain ⟨h1, h2, ⟨b, h3, h3'⟩, h4⟩ := openIndex_inv hx
  obtain ⟨h0, _⟩ := opened hx
  have c1 : Config.readFrom J d' = .ok x.config := by rw [← h1]; unfold Config.readFrom Dir.read; rw [hd .cfg nofun]
  obtain ⟨xs', g1, g2, g3⟩ := openShards_swap (srt := srt) (d := d) (d' := d') (fun j => hd _ nofun) _ 0 _ (fun j hj => hpos j (by omega)) h4
  refine ⟨⟨x.config, x.dmd, x.fnames, xs'⟩, ?_, rfl, rfl, rfl, g2, fun k s hs => ?_⟩
  · simp only [Index.open, c1, Dir.read, hd .dmd nofun, hd .fnm nofun, h2, h3, h3', bind, Except.bind, pure, Except.pure,
      if_neg (show ¬ x.config.numShards < 0 by omega), g1]
  · obtain ⟨f', a1, a2⟩ := g3 k s hs
    exact ⟨f', by rw [← a1, Nat.zero_add], a2⟩

end Dupi
