import Verif.Proof.Cut
import Verif.Proof.Damaged
import Verif.Proof.FnamesTrunc
import Verif.Proof.Indexer
/-! # Opening to append an index whose files were cut short -/

namespace Dupi
open Spec

/-! ## Going to the last link -/

theorem readToLinkLoop_cut (f : Bytes) (k fuel : Nat) : ∀ p : Int, Poster.readToLinkLoop (f.take k) fuel p = Poster.readToLinkLoop f fuel p ∨
    ∃ e, Poster.readToLinkLoop (f.take k) fuel p = fail e := by
  induction fuel with
  | zero => intro p; exact .inl rfl
  | succ fuel ih =>
    intro p
    unfold Poster.readToLinkLoop
    simp only [bind, Except.bind]
    rcases readVarintAt_cut f k p with h | h
    · rw [h]
      cases readVarintAt f p with
      | error e => exact .inl rfl
      | ok r =>
        obtain ⟨v, n⟩ := r
        simp only []
        by_cases h1 : (2 : Int) ^ 62 ≤ v
        · rw [if_pos h1, if_pos h1]; exact .inl rfl
        · rw [if_neg h1, if_neg h1]
          by_cases h2 : v ≤ 8
          · rw [if_pos h2, if_pos h2]; exact .inl rfl
          · rw [if_neg h2, if_neg h2]
            rcases readAt_cut f k (p + n) v.toNat with g | g
            · rw [g]
              cases readAt f (p + n) v.toNat with
              | error e => exact .inl rfl
              | ok buf =>
                simp only []
                cases slice buf (v.toNat - 8) v.toNat with
                | error e => exact .inl rfl
                | ok l8 =>
                  simp only []
                  cases getBE64 l8 with
                  | error e => exact .inl rfl
                  | ok w =>
                    simp only []
                    by_cases hw : u64ToI64 w = -1
                    · rw [if_pos hw, if_pos hw]; exact .inl rfl
                    · rw [if_neg hw, if_neg hw]; exact ih _
            · rw [g]; exact .inr ⟨_, rfl⟩
    · rw [h]; exact .inr ⟨_, rfl⟩

/-- the last link that was found is in the file -/
theorem readToLinkLoop_fits (f : Bytes) (fuel : Nat) : ∀ (p l : Int), Poster.readToLinkLoop f fuel p = .ok l → l + 8 ≤ f.length := by
  induction fuel with
  | zero => intro p l h; cases h
  | succ fuel ih =>
    intro p l h
    unfold Poster.readToLinkLoop at h
    simp only [bind, Except.bind] at h
    cases hv : readVarintAt f p with
    | error e => rw [hv] at h; cases h
    | ok r =>
      obtain ⟨v, n⟩ := r
      rw [hv] at h
      simp only [] at h
      by_cases h1 : (2 : Int) ^ 62 ≤ v
      · rw [if_pos h1] at h; cases h
      · rw [if_neg h1] at h
        by_cases h2 : v ≤ 8
        · rw [if_pos h2] at h; cases h
        · rw [if_neg h2] at h
          cases hb : readAt f (p + n) v.toNat with
          | error e => rw [hb] at h; cases h
          | ok buf =>
            rw [hb] at h
            simp only [] at h
            cases hs : slice buf (v.toNat - 8) v.toNat with
            | error e => rw [hs] at h; cases h
            | ok l8 =>
              rw [hs] at h
              simp only [] at h
              cases hg : getBE64 l8 with
              | error e => rw [hg] at h; cases h
              | ok w =>
                rw [hg] at h
                simp only [] at h
                by_cases hw : u64ToI64 w = -1
                · rw [if_pos hw] at h
                  simp only [pure, Except.pure, Except.ok.injEq] at h
                  unfold readAt at hb
                  by_cases h3 : p + (n : Int) < 0
                  · rw [if_pos h3] at hb; cases hb
                  · rw [if_neg h3, if_neg (by omega)] at hb
                    by_cases h4 : (p + (n : Int)).toNat + v.toNat ≤ f.length
                    · omega
                    · rw [if_neg h4] at hb; cases hb
                · rw [if_neg hw] at h; exact ih _ _ h

/-- more steps give no other result -/
theorem readToLinkLoop_more (f : Bytes) (a : Nat) : ∀ (p : Int) (b : Nat), a ≤ b → Poster.readToLinkLoop f a p ≠ .error .diverge →
    Poster.readToLinkLoop f b p = Poster.readToLinkLoop f a p := by
  induction a with
  | zero => intro p b _ h; exact absurd rfl h
  | succ a ih =>
    intro p b hb h
    obtain ⟨b, rfl⟩ : ∃ c, b = c + 1 := ⟨b - 1, by omega⟩
    unfold Poster.readToLinkLoop at h ⊢
    simp only [bind, Except.bind] at h ⊢
    cases hv : readVarintAt f p with
    | error e => rfl
    | ok r =>
      obtain ⟨v, n⟩ := r
      rw [hv] at h
      simp only [] at h ⊢
      by_cases h1 : (2 : Int) ^ 62 ≤ v
      · rw [if_pos h1, if_pos h1]
      · rw [if_neg h1] at h
        rw [if_neg h1, if_neg h1]
        by_cases h2 : v ≤ 8
        · rw [if_pos h2, if_pos h2]
        · rw [if_neg h2] at h
          rw [if_neg h2, if_neg h2]
          cases hb' : readAt f (p + n) v.toNat with
          | error e => rfl
          | ok buf =>
            rw [hb'] at h
            simp only [] at h ⊢
            cases hs : slice buf (v.toNat - 8) v.toNat with
            | error e => rfl
            | ok l8 =>
              rw [hs] at h
              simp only [] at h ⊢
              cases hg : getBE64 l8 with
              | error e => rfl
              | ok w =>
                rw [hg] at h
                simp only [] at h ⊢
                by_cases hw : u64ToI64 w = -1
                · rw [if_pos hw, if_pos hw]
                · rw [if_neg hw] at h
                  rw [if_neg hw, if_neg hw]
                  exact ih _ _ (by omega) h

/-- as many steps as there are bytes are enough -/
theorem readToLinkLoop_len (f : Bytes) (p : Int) (b : Nat) (hb : f.length + 1 ≤ b) :
    Poster.readToLinkLoop f b p = Poster.readToLinkLoop f (f.length + 1) p := by
  by_cases h : Poster.readToLinkLoop f (f.length + 1) p = .error .diverge
  · have he := (readToLink_exact f p).1.mp h
    rw [h]
    rcases readToLinkLoop_any f b p with ⟨q, _, h2⟩ | ⟨k, q, _, h1, h2, _⟩ | ⟨k, q, _, h1, _, h2, _⟩
    · exact h2
    · obtain ⟨n, v, r, g, _⟩ := he.goes h1
      exact (h2.not_chunk g).elim
    · obtain ⟨n, v, r, g, g'⟩ := he.goes h1
      exact absurd (h2 n v r g) g'
  · exact readToLinkLoop_more f _ p b hb h

theorem readToLink_cut (f : Bytes) (k : Nat) (p : Poster) : OrErr (p.readToLink f) (p.readToLink (f.take k)) := by
  unfold Poster.readToLink
  by_cases h1 : p.head = -1
  · rw [if_pos h1, if_pos h1]; exact .inl rfl
  · rw [if_neg h1, if_neg h1]
    by_cases h2 : p.link ≠ -1
    · rw [if_pos h2, if_pos h2]; exact .inl rfl
    · rw [if_neg h2, if_neg h2]
      rw [← readToLinkLoop_len (f.take k) p.head (f.length + 1) (by rw [List.length_take]; omega)]
      rcases readToLinkLoop_cut f k (f.length + 1) p.head with g | ⟨e, g⟩
      · rw [g]; exact .inl rfl
      · rw [g]; exact .inr ⟨e, rfl⟩

theorem readLinks_cut (f : Bytes) (k : Nat) (ps : List Poster) : OrErr (ShardIndexer.readLinks f ps) (ShardIndexer.readLinks (f.take k) ps) := by
  induction ps with
  | nil => exact .inl rfl
  | cons p ps ih =>
    unfold ShardIndexer.readLinks
    refine (readToLink_cut f k p).bind fun v _ => ih.bind fun w _ => .inl rfl

/-- what was found is in the file -/
theorem readLinks_fits (f : Bytes) (ps : List Poster) : ∀ qs, ShardIndexer.readLinks f ps = .ok qs → ∀ q ∈ qs, q.head ≠ -1 → q.link + 8 ≤ f.length := by
  induction ps with
  | nil => intro qs h q hq; cases h; cases hq
  | cons p ps ih =>
    intro qs h q hq hh
    unfold ShardIndexer.readLinks at h
    simp only [bind, Except.bind] at h
    cases hp : p.readToLink f with
    | error e => rw [hp] at h; cases h
    | ok p' =>
      rw [hp] at h
      simp only [] at h
      cases hr : ShardIndexer.readLinks f ps with
      | error e => rw [hr] at h; cases h
      | ok qs' =>
        rw [hr] at h
        simp only [pure, Except.pure, Except.ok.injEq] at h
        subst h
        rcases List.mem_cons.mp hq with rfl | hq
        · unfold Poster.readToLink at hp
          by_cases h1 : p.head = -1
          · rw [if_pos h1] at hp; injection hp with hp; rw [← hp] at hh; exact absurd h1 hh
          · rw [if_neg h1] at hp
            by_cases h2 : p.link ≠ -1
            · rw [if_pos h2] at hp; cases hp
            · rw [if_neg h2] at hp
              simp only [bind, Except.bind] at hp
              cases hl : Poster.readToLinkLoop f (f.length + 1) p.head with
              | error e => rw [hl] at hp; cases hp
              | ok l =>
                rw [hl] at hp
                simp only [pure, Except.pure, Except.ok.injEq] at hp
                rw [← hp]
                exact readToLinkLoop_fits f _ _ _ hl
        · exact ih qs' hr q hq hh

/-- the links of a posting file that was cut short cannot be found -/
theorem readLinks_trunc {n : Nat} {bs : List Blk} {ps : List Poster} {vals : Nat → List UInt32} (h : ClosedRep n bs ps vals)
    (hl : (render 0 bs).length < 2 ^ 63) (k : Nat) (hk : k < (render 0 bs).length) :
    ∃ e, ShardIndexer.readLinks ((render 0 bs).take k) (ps.map fun p => { p with link := -1 }) = fail e := by
  have hs := readLinks_spec bs h.wf hl vals ps 0 (fun o p hp => (h.rep o p hp).1)
  rcases readLinks_cut (render 0 bs) k (ps.map fun p => { p with link := -1 }) with g | g
  · exfalso
    rw [hs] at g
    rcases List.eq_nil_or_concat bs with rfl | ⟨bs', nb, rfl⟩
    · simp [render] at hk
    · have ho : nb.owner < n := h.owner nb (by simp)
      have hlt : nb.owner < ps.length := by rw [h.len]; exact ho
      have hr := (h.rep nb.owner _ (List.getElem?_eq_getElem hlt)).1
      have e1 := hr.link
      rw [List.concat_eq_append, lastLink_append, if_pos rfl] at e1
      have hsz : (render 0 (bs'.concat nb)).length = sizes bs' + nb.size := by
        rw [render_length, List.concat_eq_append, sizes_append, sizes_cons]
        simp [sizes]
      have hne : ps[nb.owner].head ≠ -1 := by
        intro hc
        have := hr.head
        rw [hc] at this
        have := (lastLink_none nb.owner (bs'.concat nb) 0).mpr this.symm
        rw [← hr.link, e1] at this
        have : 8 ≤ nb.size := by unfold Blk.size; omega
        omega
      have := readLinks_fits _ _ _ g _ (List.getElem_mem hlt) hne
      rw [e1, List.length_take] at this
      omega
  · exact g

/-! ## The heads -/

/-- a number that is cut short is read to the end, if nobody looks at the error -/
theorem readUvarintLax_prefix (x : Nat) : ∀ (i acc n : Nat), n < (putUvarint x).length → i + (putUvarint x).length ≤ 10 →
    (Poster.readUvarintLax ((putUvarint x).take n) i acc).2 = [] := by
  induction x using Nat.strongRecOn with
  | ind x ih =>
    intro i acc n hn hi
    rw [Poster.readUvarintLax.eq_def]
    have hpos : 0 < (putUvarint x).length := by omega
    simp only [if_neg (show ¬ i = maxVarintLen64 by show ¬ i = 10; omega)]
    by_cases h : x < 128
    · rw [putUvarint_small h] at hn
      have : n = 0 := by simp at hn; exact hn
      subst this; simp
    · rw [putUvarint_big (by omega)] at hn hi ⊢
      cases n with
      | zero => simp
      | succ n =>
        simp only [List.take_succ_cons, if_neg (u8_cont_not_lt x)]
        exact ih (x / 128) (by omega) _ _ n (by simpa using hn) (by simp only [List.length_cons] at hi; omega)

theorem read4_short (a : Bytes) (h : a.length < 4) : ∃ e, Poster.read4 a = fail e := by
  match a, h with
  | [], _ => exact ⟨_, rfl⟩
  | [_], _ => exact ⟨_, rfl⟩
  | [_, _], _ => exact ⟨_, rfl⟩
  | [_, _, _], _ => exact ⟨_, rfl⟩

theorem initAppend_trunc {bs : List Blk} {o : Nat} {p : Poster} {vals : List UInt32} (h : PosterRep bs o p vals)
    (hl : (render 0 bs).length < 2 ^ 63) (k : Nat) (hk : k < (ShardIndexer.iixEntry p).length) :
    ∃ e, Poster.initAppend ((ShardIndexer.iixEntry p).take k) = fail e := by
  obtain ⟨h1, h2⟩ := h.headBound hl
  have ht := p.total.toNat_lt
  unfold Poster.initAppend
  unfold ShardIndexer.iixEntry at hk ⊢
  simp only [List.append_assoc] at hk ⊢
  by_cases c1 : k < (putVarint p.head).length
  · rw [Fnames.take_append_lt c1]
    obtain ⟨e, he⟩ := readVarint_prefix p.head k c1
    rw [he]; exact ⟨e, rfl⟩
  · rw [Fnames.take_append_ge (by omega), readVarint_put _ _ h1 h2]
    simp only [bind, Except.bind]
    by_cases c2 : k - (putVarint p.head).length < (putVarint p.total.toNat).length
    · rw [Fnames.take_append_lt c2]
      have hz : zigzag (p.total.toNat : Int) < 2 ^ 64 := zigzag_lt _ (by omega) (by omega)
      have := readUvarintLax_prefix (zigzag (p.total.toNat : Int)) 0 0 _ c2 (by have := putUvarint_length_u64 hz; omega)
      have hr : (Poster.readVarintLax ((putVarint p.total.toNat).take (k - (putVarint p.head).length))).2 = [] := this
      generalize Poster.readVarintLax ((putVarint p.total.toNat).take (k - (putVarint p.head).length)) = r at hr ⊢
      obtain ⟨v, r⟩ := r
      simp only [] at hr ⊢
      subst hr
      split
      · exact ⟨_, rfl⟩
      · exact ⟨_, rfl⟩
    · rw [Fnames.take_append_ge (by omega), readVarintLax_of (readVarint_put _ _ (by omega) (by omega))]
      simp only []
      rw [if_neg (by omega)]
      obtain ⟨e, he⟩ := read4_short ((be32 p.current).take (k - (putVarint p.head).length - (putVarint p.total.toNat).length))
        (by simp only [List.length_append, be32_length] at hk; rw [List.length_take, be32_length]; omega)
      rw [he]; exact ⟨e, rfl⟩

theorem readIix_trunc (bs : List Blk) (hl : (render 0 bs).length < 2 ^ 63) (vals : Nat → List UInt32) (ps : List Poster) : ∀ (m k : Nat),
    (∀ (o : Nat) p, ps[o]? = some p → PosterRep bs (o + m) p (vals (o + m)) ∧ p.posts = []) → k < (ps.flatMap ShardIndexer.iixEntry).length →
    ∃ e, ShardIndexer.readIix ps.length ((ps.flatMap ShardIndexer.iixEntry).take k) = fail e := by
  induction ps with
  | nil => intro m k _ hk; simp at hk
  | cons p ps ih =>
    intro m k h hk
    obtain ⟨h1, h2⟩ := h 0 p rfl
    simp only [List.length_cons, ShardIndexer.readIix, List.flatMap_cons] at hk ⊢
    by_cases c : k < (ShardIndexer.iixEntry p).length
    · rw [Fnames.take_append_lt c]
      obtain ⟨e, he⟩ := initAppend_trunc h1 hl k c
      rw [he]; exact ⟨e, rfl⟩
    · rw [Fnames.take_append_ge (by omega), initAppend_entry h1 hl h2]
      simp only [bind, Except.bind]
      obtain ⟨e, he⟩ := ih (m + 1) (k - (ShardIndexer.iixEntry p).length) (fun o q hq => by
        have := h (o + 1) q (by simpa using hq)
        rwa [Nat.add_assoc, Nat.add_comm 1 m] at this) (by rw [List.length_append] at hk; omega)
      rw [he]; exact ⟨e, rfl⟩

/-! ## Opening -/

/-- a shard opens for appending if nothing of it is missing, and otherwise there is an error -/
theorem initAppend_cutFrom {bs : List Blk} {ps : List Poster} {vals : Nat → List UInt32} (h : ClosedRep 65536 bs ps vals)
    (hl : (render 0 bs).length < 2 ^ 63) (k m : Nat) :
    (k < (render 0 bs).length ∨ m < (ps.flatMap ShardIndexer.iixEntry).length) →
    ∃ e, ShardIndexer.initAppend ShardIndexer.nBlots ⟨(render 0 bs).take k, (ps.flatMap ShardIndexer.iixEntry).take m⟩ = fail e := by
  intro hc
  unfold ShardIndexer.initAppend
  have hn : ShardIndexer.nBlots = ps.length := h.len.symm
  rw [hn]
  by_cases hm : m < (ps.flatMap ShardIndexer.iixEntry).length
  · obtain ⟨e, he⟩ := readIix_trunc bs hl vals ps 0 m (by simpa using h.rep) hm
    simp only [he, bind, Except.bind]; exact ⟨e, rfl⟩
  · rw [List.take_of_length_le (Nat.le_of_not_lt hm)]
    simp only [readIix_spec bs hl vals ps 0 (by simpa using h.rep), bind, Except.bind]
    obtain ⟨e, he⟩ := readLinks_trunc h hl k (hc.resolve_right hm)
    rw [he]; exact ⟨e, rfl⟩

/-- the files of shard `j` -/
def SameShard (d d' : Dir) (j : Nat) : Prop := d' (.pos j) = d (.pos j) ∧ d' (.iix j) = d (.iix j)

theorem openShards_cutFrom {d d' : Dir} (hcut : CutFrom d d') (vals : Nat → Nat → List UInt32) (n : Nat) : ∀ i,
    (∀ j, i ≤ j → j < i + n → ∃ bs ps, d (.pos j) = some (render 0 bs) ∧ d (.iix j) = some (ps.flatMap ShardIndexer.iixEntry) ∧
      ClosedRep 65536 bs ps (vals j) ∧ (render 0 bs).length < 2 ^ 63) →
    ((∀ j, i ≤ j → j < i + n → SameShard d d' j) ∧ Indexer.openShards d' n i = Indexer.openShards d n i) ∨
    ((¬ ∀ j, i ≤ j → j < i + n → SameShard d d' j) ∧ ∃ e, Indexer.openShards d' n i = fail e) := by
  induction n with
  | zero => intro i _; exact .inl ⟨fun j h1 h2 => absurd h1 (by omega), rfl⟩
  | succ n ih =>
    intro i h
    obtain ⟨bs, ps, h1, h2, h3, h4⟩ := h i (Nat.le_refl _) (by omega)
    by_cases hs : SameShard d d' i
    · have ih' := ih (i + 1) (fun j hj hj' => h j (by omega) (by omega))
      have he : (∀ j, i ≤ j → j < i + (n + 1) → SameShard d d' j) ↔ ∀ j, i + 1 ≤ j → j < i + 1 + n → SameShard d d' j := by
        constructor
        · intro g j g1 g2; exact g j (by omega) (by omega)
        · intro g j g1 g2
          by_cases e : j = i
          · rw [e]; exact hs
          · exact g j (by omega) (by omega)
      rw [he]
      unfold Indexer.openShards
      simp only [Dir.read, hs.1, hs.2, h1, h2, bind, Except.bind, h3.reopen h4]
      rcases ih' with ⟨g1, g2⟩ | ⟨g1, e, g2⟩
      · exact .inl ⟨g1, by rw [g2]⟩
      · exact .inr ⟨g1, e, by rw [g2]⟩
    · refine .inr ⟨fun g => hs (g i (Nat.le_refl _) (by omega)), ?_⟩
      unfold Indexer.openShards
      simp only [bind, Except.bind]
      rcases hcut (.iix i) with g | ⟨b, m, g1, g2⟩
      · simp only [Dir.read, g]; exact ⟨_, rfl⟩
      · rw [h2] at g1
        injection g1 with g1
        subst g1
        simp only [Dir.read, g2]
        rcases hcut (.pos i) with g | ⟨b, k, g3, g4⟩
        · simp only [g]; exact ⟨_, rfl⟩
        · rw [h1] at g3
          injection g3 with g3
          subst g3
          simp only [g4]
          obtain ⟨e, he⟩ := initAppend_cutFrom h3 h4 k m (by
            apply Classical.byContradiction
            intro hc
            rw [not_or, Nat.not_lt, Nat.not_lt] at hc
            rw [List.take_of_length_le hc.1] at g4
            rw [List.take_of_length_le hc.2] at g2
            exact hs ⟨g4.trans h1.symm, g2.trans h2.symm⟩)
          rw [he]; exact ⟨e, rfl⟩

end Dupi
