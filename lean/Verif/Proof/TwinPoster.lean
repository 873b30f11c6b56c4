import Verif.Proof.FaultsShard
import Verif.Model.Twin
/-! # A poster in a posting file another process writes to as well -/

namespace Dupi
open Spec

/-- Poster `p` of bucket `o` was given `vals`, `base` of which were in the file when it was opened; the blocks `L` are in `f`.  The
link of its last block is `tl` as long as it has flushed nothing. -/
structure TRep (base : List UInt32) (tl : Int) (f : Bytes) (L : List PBlk) (o : Nat) (p : Poster) (vals : List UInt32) : Prop where
  link : p.link = match (ownOf o L).getLast? with | none => -1 | some b => (b.link : Int)
  head : p.head = firstPos (ownOf o L)
  linked : Linked f (ownOf o L)
  fin : p.posts = [] → ∀ b, (ownOf o L).getLast? = some b → At f b.link (linkBytes (if vals = base then tl else -1))
  pend : p.posts ≠ [] → vals ≠ base
  ext : base <+: vals
  current : p.current = vals.getLastD 0
  total : p.total.toNat = vals.length
  content : ∃ dss ds, (ownOf o L).map PBlk.payload = dss.map encDeltas ∧ GoodPayloads dss ∧ p.posts = encDeltas ds ∧ dss.flatten ++ ds = deltasFrom 0 vals

/-- A step of a poster of bucket `o` from the file `f` with blocks `L` to `f'` with `L ++ N`. -/
structure TStep (f : Bytes) (L : List PBlk) (o : Nat) (f' : Bytes) (N : List PBlk) : Prop where
  laid : Laid f' (L ++ N)
  owners : ∀ b ∈ N, b.owner = o
  keep : ∀ o', o' ≠ o → KeepsLinks f f' (ownOf o' L)

theorem TStep.refl {f : Bytes} {L : List PBlk} {o : Nat} (h : Laid f L) : TStep f L o f [] :=
  ⟨by simpa using h, by simp, fun _ _ _ _ _ _ h => h⟩

theorem ownOf_append (o : Nat) (L N : List PBlk) : ownOf o (L ++ N) = ownOf o L ++ ownOf o N := List.filter_append ..

theorem ownOf_other {o : Nat} {N : List PBlk} (h : ∀ b ∈ N, b.owner ≠ o) : ownOf o N = [] := by
  unfold ownOf
  rw [List.filter_eq_nil_iff]
  simpa using h

theorem TStep.own {f f' : Bytes} {L N : List PBlk} {o o' : Nat} (h : TStep f L o f' N) (hne : o' ≠ o) : ownOf o' (L ++ N) = ownOf o' L := by
  rw [ownOf_append, ownOf_other (N := N) (fun b hb e => hne (e.symm.trans (h.owners b hb))), List.append_nil]

theorem TRep.frame {base : List UInt32} {tl : Int} {f f' : Bytes} {L N : List PBlk} {o o' : Nat} {p : Poster} {vals : List UInt32}
    (h : TRep base tl f L o' p vals) (hs : TStep f L o f' N) (hne : o' ≠ o) : TRep base tl f' (L ++ N) o' p vals := by
  have hk := hs.keep o' hne
  have ho := hs.own hne
  refine ⟨by rw [ho]; exact h.link, by rw [ho]; exact h.head, ?_, ?_, h.pend, h.ext, h.current, h.total, by rw [ho]; exact h.content⟩
  · rw [ho]; exact h.linked.of_at (fun a ha => hk a (List.dropLast_subset _ ha))
  · rw [ho]; intro hp b hb
    exact hk b (List.mem_of_getLast? hb) _ rfl (h.fin hp b hb)

/-- what flushing a poster adds to the file -/
def pcost (p : Poster) : Nat := if p.posts = [] then 0 else p.posts.length + 18

theorem putVarint_length_small {n : Nat} (h : n < 2 ^ 31) : (putVarint (n : Int)).length ≤ 10 := by
  have := putUvarint_length_u64 (x := zigzag (n : Int)) (by unfold zigzag; rw [if_neg (by omega)]; omega)
  exact this

/-- what is left of flushTo once the old link has been written -/
theorem flushTail_twin {base : List UInt32} {tl : Int} {f g : Bytes} {L : List PBlk} (hg : Laid g L) (hlen : g.length = f.length)
    {o : Nat} {p : Poster} {vals : List UInt32} (hr : TRep base tl f L o p vals) (hp : p.posts ≠ []) (hsm : p.posts.length ≤ 522)
    (hk : ∀ o', o' ≠ o → KeepsLinks f g (ownOf o' L)) (hlk : Linked g (ownOf o L))
    (hlast : ∀ b, (ownOf o L).getLast? = some b → At g b.link (linkBytes (f.length : Int)))
    {hd : Int} (hhd : hd = if ownOf o L = [] then (f.length : Int) else p.head) :
    ∃ N, TStep f L o (g ++ putVarint ((p.posts ++ be64 (i64ToU64 (-1))).length : Int) ++ (p.posts ++ be64 (i64ToU64 (-1)))) N ∧
      TRep base tl (g ++ putVarint ((p.posts ++ be64 (i64ToU64 (-1))).length : Int) ++ (p.posts ++ be64 (i64ToU64 (-1)))) (L ++ N) o
        { p with head := hd, link := f.length + (putVarint ((p.posts ++ be64 (i64ToU64 (-1))).length : Int)).length + (p.posts ++ be64 (i64ToU64 (-1))).length - 8, posts := [] } vals := by
  generalize hln : putVarint ((p.posts ++ be64 (i64ToU64 (-1))).length : Int) = ln
  let nb : PBlk := ⟨o, f.length, p.posts⟩
  have hlen8 : (p.posts ++ be64 (i64ToU64 (-1))).length = p.posts.length + 8 := by rw [List.length_append, be64_length]
  have hhdr : nb.hdr = ln := by rw [← hln, hlen8]; rfl
  have hlink : nb.link = f.length + ln.length + p.posts.length := by rw [← hhdr]; rfl
  generalize he3 : g ++ ln ++ (p.posts ++ be64 (i64ToU64 (-1))) = f'
  have hlenf' : f'.length = nb.stop := by
    rw [← he3, PBlk.stop, hlink]; simp only [List.length_append, be64_length]; omega
  have hatall : At f' nb.pos (nb.hdr ++ (p.posts ++ ff8)) := by
    rw [hhdr, ← he3]
    refine ⟨[], ?_⟩
    show (ln ++ (p.posts ++ ff8)) ++ [] = (g ++ ln ++ (p.posts ++ ff8)).drop f.length
    rw [← hlen]; simp
  rw [← List.append_assoc] at hatall
  have hat1 : At f' nb.pos (nb.hdr ++ nb.payload) := (At.append.mp hatall).1
  have hat2 : At f' nb.link ff8 := by
    have := (At.append.mp hatall).2
    rw [show nb.link = nb.pos + (nb.hdr ++ p.posts).length by simp [PBlk.link, nb]; omega]
    exact this
  have hf' : f' = writeAt g g.length (ln ++ (p.posts ++ ff8)) := by
    rw [writeAt_end, ← he3]; show g ++ ln ++ (p.posts ++ ff8) = _; rw [List.append_assoc]
  have hlaid' : Laid f' L := by rw [hf']; exact hg.write _ _ (Nat.le_refl _) (.inl rfl)
  have hlaid2 : Laid f' (L ++ [nb]) := hlaid'.snoc nb (fun b hb => by show b.stop ≤ f.length; rw [← hlen]; exact hg.inside b hb) (by omega) hat1
  have hkeep : ∀ o', KeepsLinks g f' (ownOf o' L) := fun o' => by rw [hf']; exact hg.keeps_end o' _
  have hownn : ownOf o (L ++ [nb]) = ownOf o L ++ [nb] := by rw [ownOf_snoc]; simp [nb]
  have hstep : TStep f L o f' [nb] := by
    refine ⟨hlaid2, by simp [nb], fun o' hne a ha e he hat => ?_⟩
    exact hkeep o' a ha e he (hk o' hne a ha e he hat)
  have hvals : vals ≠ base := hr.pend hp
  obtain ⟨dss, ds, c1, c2, c3, c4⟩ := hr.content
  refine ⟨[nb], hstep, ⟨?_, ?_, ?_, ?_, fun e => absurd rfl e, hr.ext, hr.current, hr.total, ?_⟩⟩
  · rw [hownn, List.getLast?_concat]
    show ((f.length : Int) + ln.length + (p.posts ++ be64 (i64ToU64 (-1))).length - 8) = ((nb.link : Nat) : Int)
    rw [hlink, hlen8]; omega
  · rw [hownn]
    show hd = _
    rw [hhd]
    cases ho : ownOf o L with
    | nil => rfl
    | cons a r => rw [if_neg (by simp), hr.head, ho]; rfl
  · rw [hownn]
    apply Linked.snoc
    · exact hlk.of_at (fun a ha => hkeep o a (List.dropLast_subset _ ha))
    · intro b hb
      exact hkeep o b (List.mem_of_getLast? hb) _ rfl (hlast b hb)
  · intro _ b hb
    rw [hownn, List.getLast?_concat] at hb
    injection hb with hb; subst hb; rw [if_neg hvals]; exact hat2
  · refine ⟨dss ++ [ds], [], ?_, ?_, rfl, by rw [← c4]; simp⟩
    · rw [hownn, List.map_append, c1, List.map_append]
      show _ ++ [p.posts] = _
      rw [c3]; rfl
    · intro e he
      rcases List.mem_append.mp he with he | he
      · exact c2 e he
      · rw [List.mem_singleton.mp he]
        exact ⟨fun e => hp (by rw [c3, e]; rfl), c3 ▸ hsm⟩

theorem flushTo_twin {base : List UInt32} {tl : Int} {f : Bytes} {L : List PBlk} (h : Laid f L)
    {o : Nat} {p : Poster} {vals : List UInt32} (hr : TRep base tl f L o p vals) (hsm : p.posts.length ≤ 522) :
    ∃ p' f' N, p.flushTo f = .ok (p', f') ∧ TStep f L o f' N ∧ TRep base tl f' (L ++ N) o p' vals ∧ p'.posts = [] ∧ f'.length ≤ f.length + pcost p := by
  have hln : (putVarint ((p.posts ++ be64 (i64ToU64 (-1))).length : Int)).length ≤ 10 :=
    putVarint_length_small (by rw [List.length_append, be64_length]; omega)
  by_cases hp : p.posts = []
  · exact ⟨p, f, [], by simp [Poster.flushTo, Poster.flushWrites, hp, bind, Except.bind, pure, Except.pure, Poster.applyWrites], .refl h, by simpa using hr, hp, by omega⟩
  · have hlk := hr.link
    cases hg : (ownOf o L).getLast? with
    | none =>
      rw [hg] at hlk
      simp only [] at hlk
      have hnil : ownOf o L = [] := List.getLast?_eq_none_iff.mp hg
      obtain ⟨N, g1, g2⟩ := flushTail_twin h rfl hr hp hsm (fun _ _ _ _ _ _ h => h) hr.linked (by rw [hg]; simp) (hd := (f.length : Int)) (by rw [if_pos hnil])
      refine ⟨_, _, N, ?_, g1, g2, rfl, by rw [pcost, if_neg hp]; simp only [List.length_append, be64_length] at hln ⊢; omega⟩
      simp only [Poster.flushTo, Poster.flushWrites, if_neg hp, hlk, ne_eq, not_true, if_false, bind, Except.bind, pure, Except.pure, Poster.applyWrites,
        List.nil_append, List.foldl_cons, List.foldl_nil, writeAt_end]
      rw [← List.length_append, writeAt_end]
    | some c =>
      rw [hg] at hlk
      simp only [] at hlk
      have ht : p.link.toNat = c.link := by omega
      obtain ⟨hm, ho⟩ := mem_ownOf.mp (List.mem_of_getLast? hg)
      have hle := h.link_le hm
      have hne : ownOf o L ≠ [] := by intro e; rw [e] at hg; simp at hg
      have hlen : (writeAt f c.link (be64 (UInt64.ofNat f.length))).length = f.length := by
        rw [writeAt_length _ _ _ hle, be64_length]
        have := h.inside c hm
        have := c.link_bounds
        omega
      have hlaid : Laid (writeAt f c.link (be64 (UInt64.ofNat f.length))) L := h.write _ _ hle (.inr ⟨c, hm, rfl, by rw [be64_length]; omega⟩)
      obtain ⟨N, g1, g2⟩ := flushTail_twin hlaid hlen hr hp hsm
        (fun o' hne' => h.keeps_link o' hm (fun e => hne' (e.symm.trans ho)) _ (by rw [be64_length]; omega))
        (by
          apply hr.linked.of_at
          intro a ha e he hat
          apply hat.write _ _ hle
          left
          have hsplit := List.dropLast_concat_getLast hne
          have hgl : (ownOf o L).getLast hne = c := by
            have := List.getLast?_eq_some_getLast hne
            rw [hg] at this; injection this with this; exact this.symm
          have hpw := pairwise_ownOf h o
          rw [← hsplit, List.pairwise_append] at hpw
          have := hpw.2.2 a ha c (by simp [hgl])
          have hb := a.link_bounds
          have hb' := c.link_bounds
          omega)
        (by
          intro b hb
          rw [hg] at hb; injection hb with hb; subst hb
          rw [linkBytes_nat]
          exact At.wrote _ _ _ hle) (hd := p.head) (by rw [if_neg hne])
      refine ⟨_, _, N, ?_, g1, g2, rfl, by rw [pcost, if_neg hp, List.length_append, List.length_append, hlen]; simp only [List.length_append, be64_length] at hln ⊢; omega⟩
      have e1 : p.link ≠ -1 := by omega
      have e2 : ¬ p.link < 0 := by omega
      simp only [Poster.flushTo, Poster.flushWrites, if_neg hp, if_pos e1, if_neg e2, ht, bind, Except.bind, pure, Except.pure, Poster.applyWrites,
        List.cons_append, List.nil_append, List.foldl_cons, List.foldl_nil]
      have e3 : writeAt (writeAt f c.link (be64 (UInt64.ofNat f.length))) f.length (putVarint ((p.posts ++ be64 (i64ToU64 (-1))).length : Int)) =
          writeAt f c.link (be64 (UInt64.ofNat f.length)) ++ putVarint ((p.posts ++ be64 (i64ToU64 (-1))).length : Int) := by
        have := writeAt_end (writeAt f c.link (be64 (UInt64.ofNat f.length))) (putVarint ((p.posts ++ be64 (i64ToU64 (-1))).length : Int))
        rwa [hlen] at this
      rw [e3]
      rw [show f.length + (putVarint ((p.posts ++ be64 (i64ToU64 (-1))).length : Int)).length = (writeAt f c.link (be64 (UInt64.ofNat f.length)) ++ putVarint ((p.posts ++ be64 (i64ToU64 (-1))).length : Int)).length by
        rw [List.length_append (as := writeAt f c.link (be64 (UInt64.ofNat f.length))), hlen], writeAt_end]

theorem addPost_twin {base : List UInt32} {tl : Int} {f : Bytes} {L : List PBlk} (h : Laid f L) {o : Nat} {p : Poster} {vals : List UInt32}
    (hr : TRep base tl f L o p vals) (hsm : p.posts.length < 512) (v : UInt32)
    (hlen : (if vals.getLast? = some v then vals else vals ++ [v]).length < 2 ^ 32) :
    ∃ p' f' N, p.addPost v f = .ok (p', f') ∧ TStep f L o f' N ∧ TRep base tl f' (L ++ N) o p' (if vals.getLast? = some v then vals else vals ++ [v]) ∧
      p'.posts.length < 512 ∧ f'.length + pcost p' ≤ f.length + pcost p + 23 := by
  have hiff : (p.current = v ∧ p.total ≠ 0) ↔ vals.getLast? = some v := by
    rw [getLast?_eq_iff, hr.current, ne_eq, u32_toNat_zero, hr.total]
    simp
  unfold Poster.addPost
  by_cases hc : vals.getLast? = some v
  · rw [if_pos (hiff.mpr hc), if_pos hc]
    exact ⟨p, f, [], rfl, .refl h, by simpa using hr, hsm, by omega⟩
  · rw [if_neg (fun e => hc (hiff.mp e))]
    simp only [hc, if_false] at hlen ⊢
    have hne : p.posts ++ putUvarint (v - p.current).toNat ≠ [] := by
      intro e; exact putUvarint_ne_nil _ (List.append_eq_nil_iff.mp e).2
    have hu : (putUvarint (v - p.current).toNat).length ≤ 5 :=
      putUvarint_length_u32 (x := (v - p.current).toNat) (v - p.current).toNat_lt
    obtain ⟨dss, ds, c1, c2, c3, c4⟩ := hr.content
    have hrep : TRep base tl f L o { p with current := v, total := p.total + 1, posts := p.posts ++ putUvarint (v - p.current).toNat } (vals ++ [v]) := by
      refine ⟨hr.link, hr.head, hr.linked, fun e => absurd e hne, fun _ e => ?_, hr.ext.trans (List.prefix_append _ _), by simp, ?_, dss, ds ++ [v - p.current], c1, c2, ?_, ?_⟩
      · have h1 := hr.ext.length_le
        rw [← e] at h1
        simp only [List.length_append, List.length_cons] at h1
        omega
      · simp only [UInt32.toNat_add, hr.total]
        simp at hlen ⊢; omega
      · show p.posts ++ _ = _
        rw [c3, encDeltas_append]; simp [encDeltas]
      · rw [deltasFrom_snoc, ← hr.current, ← c4, List.append_assoc]
    have hcost : pcost { p with current := v, total := p.total + 1, posts := p.posts ++ putUvarint (v - p.current).toNat } ≤ pcost p + 23 := by
      simp only [pcost, if_neg hne]
      split
      · rename_i e; rw [e]; simp; omega
      · simp; omega
    split
    · obtain ⟨p', f', N, h1, h2, h3, h4, h5⟩ := flushTo_twin h hrep (by simp only [List.length_append]; omega)
      exact ⟨p', f', N, h1, h2, h3, by rw [h4]; decide, by rw [show pcost p' = 0 by rw [pcost, if_pos h4]]; omega⟩
    · rename_i hlt
      simp only [Poster.flushRate] at hlt
      exact ⟨_, f, [], rfl, .refl h, by simpa using hrep, by show (p.posts ++ _).length < _; omega, by omega⟩

end Dupi
