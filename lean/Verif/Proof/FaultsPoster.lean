import Verif.Proof.FaultsFile
/-! # A poster some of whose system calls failed -/

namespace Dupi

/-- what `posts` ends in once flushTo has come to its writes -/
def ff8 : Bytes := linkBytes (-1)

/-- a payload that cannot be read -/
def BadPayload (P : Bytes) : Prop := 522 < P.length ∨ ∃ ds T, P = encDeltas ds ++ (ff8 ++ T)

/-- payloads that can be read -/
def GoodPayloads (dss : List (List UInt32)) : Prop := ∀ ds ∈ dss, ds ≠ [] ∧ (encDeltas ds).length ≤ 522

/-- what the chunks `Ps` and the pending bytes `posts` hold of the deltas `want`; `br`: not all of it can be read -/
inductive Content (br : Bool) (Ps : List Bytes) (posts : Bytes) (want : List UInt32) : Prop where
  | good (dss : List (List UInt32)) (ds : List UInt32) : Ps = dss.map encDeltas → GoodPayloads dss → posts = encDeltas ds → dss.flatten ++ ds = want → br = false →
      Content br Ps posts want
  | pending (dss : List (List UInt32)) (ds : List UInt32) (T : Bytes) : Ps = dss.map encDeltas → GoodPayloads dss → posts = encDeltas ds ++ (ff8 ++ T) →
      dss.flatten <+: want → Content br Ps posts want
  | bad (dss : List (List UInt32)) (P : Bytes) (rest : List Bytes) : Ps = dss.map encDeltas ++ P :: rest → GoodPayloads dss → BadPayload P →
      dss.flatten <+: want → Content br Ps posts want

theorem Content.push {br : Bool} {Ps : List Bytes} {posts : Bytes} {want : List UInt32} (h : Content br Ps posts want) (d : UInt32) :
    Content br Ps (posts ++ putUvarint d.toNat) (want ++ [d]) := by
  cases h with
  | good dss ds h1 h2 h3 h4 h5 =>
    exact .good dss (ds ++ [d]) h1 h2 (by rw [h3, encDeltas_append]; simp [encDeltas]) (by rw [← List.append_assoc, h4]) h5
  | pending dss ds T h1 h2 h3 h4 =>
    exact .pending dss ds (T ++ putUvarint d.toNat) h1 h2 (by rw [h3]; simp) (h4.trans (List.prefix_append _ _))
  | bad dss P rest h1 h2 h3 h4 => exact .bad dss P rest h1 h2 h3 (h4.trans (List.prefix_append _ _))

/-- flushTo has come to its writes -/
theorem Content.mark {br : Bool} {Ps : List Bytes} {posts : Bytes} {want : List UInt32} (h : Content br Ps posts want) : Content true Ps (posts ++ ff8) want := by
  cases h with
  | good dss ds h1 h2 h3 h4 h5 => exact .pending dss ds [] h1 h2 (by rw [h3]; simp) (h4 ▸ List.prefix_append _ _)
  | pending dss ds T h1 h2 h3 h4 => exact .pending dss ds (T ++ ff8) h1 h2 (by rw [h3]; simp) h4
  | bad dss P rest h1 h2 h3 h4 => exact .bad dss P rest h1 h2 h3 h4

theorem Content.flush {br : Bool} {Ps : List Bytes} {posts : Bytes} {want : List UInt32} (h : Content br Ps posts want) (hne : posts ≠ []) :
    Content br (Ps ++ [posts]) [] want := by
  cases h with
  | good dss ds h1 h2 h3 h4 h5 =>
    by_cases hs : posts.length ≤ 522
    · refine .good (dss ++ [ds]) [] (by rw [h1, h3]; simp) ?_ rfl (by rw [← h4]; simp) h5
      intro e he
      rcases List.mem_append.mp he with he | he
      · exact h2 e he
      · rw [List.mem_singleton.mp he]
        refine ⟨?_, h3 ▸ hs⟩
        intro e; subst e; exact hne (by rw [h3]; rfl)
    · exact .bad dss posts [] (by rw [h1]) h2 (.inl (by omega)) (h4 ▸ List.prefix_append _ _)
  | pending dss ds T h1 h2 h3 h4 => exact .bad dss posts [] (by rw [h1]) h2 (.inr ⟨ds, T, h3⟩) h4
  | bad dss P rest h1 h2 h3 h4 => exact .bad dss P (rest ++ [posts]) (by rw [h1]; simp) h2 h3 h4

theorem Content.weaken {br : Bool} {Ps : List Bytes} {posts : Bytes} {want : List UInt32} (h : Content true Ps posts want) : Content br Ps posts want := by
  cases h with
  | good dss ds h1 h2 h3 h4 h5 => simp at h5
  | pending dss ds T h1 h2 h3 h4 => exact .pending dss ds T h1 h2 h3 h4
  | bad dss P rest h1 h2 h3 h4 => exact .bad dss P rest h1 h2 h3 h4

/-- poster `p` of bucket `o`, the blocks `L` being in `f`: it was given `vals` -/
structure FRep (br : Bool) (f : Bytes) (L : List PBlk) (o : Nat) (p : Poster) (vals : List UInt32) : Prop where
  link : p.link = match (ownOf o L).getLast? with | none => -1 | some b => (b.link : Int)
  head : ∀ b, (ownOf o L).head? = some b → p.head = b.pos
  none : ownOf o L = [] → p.posts = [] → p.head = -1
  bound : -1 ≤ p.head ∧ p.head ≤ f.length
  linked : Linked f (ownOf o L)
  fin : p.posts = [] → ∀ b, (ownOf o L).getLast? = some b → At f b.link ff8
  current : p.current = vals.getLastD 0
  total : p.total.toNat = vals.length
  content : Content br ((ownOf o L).map PBlk.payload) p.posts (deltasFrom 0 vals)

theorem mem_ownOf {o : Nat} {L : List PBlk} {b : PBlk} : b ∈ ownOf o L ↔ b ∈ L ∧ b.owner = o := by
  simp [ownOf]

/-- links of blocks of `o` are as they were -/
def KeepsLinks (f g : Bytes) (own : List PBlk) : Prop := ∀ a ∈ own, ∀ d : Bytes, d.length = 8 → At f a.link d → At g a.link d

theorem FRep.mono {f g : Bytes} {L L' : List PBlk} {o : Nat} {p : Poster} {vals : List UInt32} {br : Bool} (h : FRep br f L o p vals)
    (hown : ownOf o L' = ownOf o L) (hlen : f.length ≤ g.length) (hk : KeepsLinks f g (ownOf o L)) : FRep br g L' o p vals := by
  refine ⟨by rw [hown]; exact h.link, by rw [hown]; exact h.head, by rw [hown]; exact h.none, ⟨h.bound.1, by have := h.bound.2; omega⟩,
    ?_, ?_, h.current, h.total, by rw [hown]; exact h.content⟩
  · rw [hown]; exact h.linked.of_at (fun a ha => hk a (List.dropLast_subset _ ha))
  · rw [hown]; intro hp b hb
    exact hk b (List.mem_of_getLast? hb) _ rfl (h.fin hp b hb)

theorem Laid.keeps_end {f : Bytes} {L : List PBlk} (h : Laid f L) (o : Nat) (d : Bytes) : KeepsLinks f (writeAt f f.length d) (ownOf o L) := by
  intro a ha e he hat
  have := h.inside a (mem_ownOf.mp ha).1
  have hb := a.link_bounds
  exact hat.write _ _ (by omega) (.inl (by omega))

theorem Laid.keeps_link {f : Bytes} {L : List PBlk} (h : Laid f L) (o : Nat) {c : PBlk} (hc : c ∈ L) (hne : c.owner ≠ o) (d : Bytes) (hd : d.length ≤ 8) :
    KeepsLinks f (writeAt f c.link d) (ownOf o L) := by
  intro a ha e he hat
  obtain ⟨ha, hao⟩ := mem_ownOf.mp ha
  have hi := h.inside c hc
  have hb := a.link_bounds
  have hb' := c.link_bounds
  apply hat.write _ _ (by omega)
  rcases h.disjoint ha hc with e2 | e2 | e2
  · subst e2; exact absurd hao hne
  · left; omega
  · right; omega

/-- A step of a poster of bucket `o` from the file `f` with blocks `L` to `f'` with `L'`. -/
structure FStep (f : Bytes) (L : List PBlk) (o : Nat) (f' : Bytes) (L' : List PBlk) : Prop where
  laid : Laid f' L'
  grows : f.length ≤ f'.length
  owners : ∀ b ∈ L', b ∈ L ∨ b.owner = o
  frame : ∀ br o' q vs, o' ≠ o → FRep br f L o' q vs → FRep br f' L' o' q vs

theorem FStep.refl {f : Bytes} {L : List PBlk} {o : Nat} (h : Laid f L) : FStep f L o f L :=
  ⟨h, Nat.le_refl _, fun _ h => .inl h, fun _ _ _ _ _ h => h⟩

theorem FStep.trans {f g k : Bytes} {L M N : List PBlk} {o : Nat} (h1 : FStep f L o g M) (h2 : FStep g M o k N) : FStep f L o k N :=
  ⟨h2.laid, Nat.le_trans h1.grows h2.grows, fun b hb => by
    rcases h2.owners b hb with e | e
    · exact h1.owners b e
    · exact .inr e, fun br o' q vs hne h => h2.frame br o' q vs hne (h1.frame br o' q vs hne h)⟩

/-- bytes at the end -/
theorem FStep.junk {f : Bytes} {L : List PBlk} (h : Laid f L) (o : Nat) (d : Bytes) : FStep f L o (writeAt f f.length d) L :=
  ⟨h.write _ _ (Nat.le_refl _) (.inl rfl), by rw [writeAt_length _ _ _ (Nat.le_refl _)]; omega, fun _ h => .inl h,
    fun _ o' _ _ _ hr => hr.mono rfl (by rw [writeAt_length _ _ _ (Nat.le_refl _)]; omega) (h.keeps_end o' d)⟩

theorem FRep.junk {f : Bytes} {L : List PBlk} {o : Nat} {p : Poster} {vals : List UInt32} {br : Bool} (h : Laid f L) (hr : FRep br f L o p vals) (d : Bytes) :
    FRep br (writeAt f f.length d) L o p vals :=
  hr.mono rfl (by rw [writeAt_length _ _ _ (Nat.le_refl _)]; omega) (h.keeps_end o d)

theorem Laid.link_le {f : Bytes} {L : List PBlk} (h : Laid f L) {c : PBlk} (hc : c ∈ L) : c.link ≤ f.length := by
  have := h.inside c hc
  have hb' := c.link_bounds
  omega

/-- a write to the link of the last block -/
theorem FStep.relink {f : Bytes} {L : List PBlk} (h : Laid f L) {o : Nat} {c : PBlk} (hc : (ownOf o L).getLast? = some c) (d : Bytes) (hd : d.length ≤ 8) :
    FStep f L o (writeAt f c.link d) L := by
  obtain ⟨hm, ho⟩ := mem_ownOf.mp (List.mem_of_getLast? hc)
  have hle := h.link_le hm
  exact ⟨h.write _ _ hle (.inr ⟨c, hm, rfl, hd⟩), by rw [writeAt_length _ _ _ hle]; omega, fun _ h => .inl h,
    fun _ o' _ _ hne hr => hr.mono rfl (by rw [writeAt_length _ _ _ hle]; omega) (h.keeps_link o' hm (fun e => hne (e.symm.trans ho)) d hd)⟩

theorem pairwise_ownOf {f : Bytes} {L : List PBlk} (h : Laid f L) (o : Nat) : (ownOf o L).Pairwise fun a b => a.stop ≤ b.pos :=
  h.apart.sublist List.filter_sublist

theorem FRep.relink {f : Bytes} {L : List PBlk} (h : Laid f L) {o : Nat} {p : Poster} {vals : List UInt32} {br : Bool} (hr : FRep br f L o p vals) (hp : p.posts ≠ [])
    {c : PBlk} (hc : (ownOf o L).getLast? = some c) (d : Bytes) : FRep br (writeAt f c.link d) L o p vals := by
  obtain ⟨hm, ho⟩ := mem_ownOf.mp (List.mem_of_getLast? hc)
  have hle := h.link_le hm
  refine ⟨hr.link, hr.head, hr.none, ⟨hr.bound.1, by have := hr.bound.2; rw [writeAt_length _ _ _ hle]; omega⟩, ?_, fun e => absurd e hp, hr.current, hr.total, hr.content⟩
  apply hr.linked.of_at
  intro a ha e he hat
  apply hat.write _ _ hle
  left
  have hne : ownOf o L ≠ [] := by intro e; rw [e] at hc; simp at hc
  have hsplit := List.dropLast_concat_getLast hne
  have hgl : (ownOf o L).getLast hne = c := by
    have := List.getLast?_eq_some_getLast hne
    rw [hc] at this; injection this with this; exact this.symm
  have hpw := pairwise_ownOf h o
  rw [← hsplit, List.pairwise_append] at hpw
  have := hpw.2.2 a ha c (by simp [hgl])
  have hb := a.link_bounds
  have hb' := c.link_bounds
  omega

/-- the second half of flushTo -/
theorem flushTailF_spec {f : Bytes} {L : List PBlk} (h : Laid f L) {o : Nat} {p : Poster} {vals : List UInt32} {br : Bool} (hr : FRep br f L o p vals) (hp : p.posts ≠ [])
    (hlast : ∀ b, (ownOf o L).getLast? = some b → At f b.link (linkBytes (f.length : Int))) (hhead : ownOf o L = [] → p.head = f.length)
    {φ φ' : Fates} {ok : Bool} {p' : Poster} {f' : Bytes} (hF : p.flushTailF f.length f φ = (ok, p', f', φ')) :
    ∃ L', FStep f L o f' L' ∧ FRep br f' L' o p' vals ∧ (ok = true → p'.posts = []) := by
  unfold Poster.flushTailF at hF
  have hmark : FRep br f L o { p with posts := p.posts ++ be64 (i64ToU64 (-1)) } vals :=
    ⟨hr.link, hr.head, fun _ e => absurd (List.append_eq_nil_iff.mp e).1 hp, hr.bound, hr.linked,
      fun e => absurd (List.append_eq_nil_iff.mp e).1 hp, hr.current, hr.total, hr.content.mark.weaken⟩
  split at hF
  · injection hF with e1 hF; injection hF with e2 hF; injection hF with e3 hF
    subst e1 e2 e3
    exact ⟨L, .refl h, hr, by simp⟩
  · simp only [] at hF
    split at hF
    · injection hF with e1 hF; injection hF with e2 hF; injection hF with e3 hF
      subst e1 e2 e3
      exact ⟨L, .junk h o _, hmark.junk h _, by simp⟩
    · generalize hln : putVarint ((p.posts ++ be64 (i64ToU64 (-1))).length : Int) = ln at hF
      have hl1 : f.length + ln.length = (writeAt f f.length ln).length := by
        rw [writeAt_end, List.length_append]
      have hlaid1 : Laid (writeAt f f.length ln) L := h.write _ _ (Nat.le_refl _) (.inl rfl)
      rw [hl1] at hF
      split at hF
      · injection hF with e1 hF; injection hF with e2 hF; injection hF with e3 hF
        subst e1 e2 e3
        exact ⟨L, (FStep.junk h o _).trans (.junk hlaid1 o _), (hmark.junk h _).junk hlaid1 _, by simp⟩
      · injection hF with e1 hF; injection hF with e2 hF; injection hF with e3 hF
        rw [writeAt_end, writeAt_end] at e3
        let nb : PBlk := ⟨o, f.length, p.posts⟩
        have hlen8 : (p.posts ++ be64 (i64ToU64 (-1))).length = p.posts.length + 8 := by rw [List.length_append, be64_length]
        have hhdr : nb.hdr = ln := by rw [← hln, hlen8]; rfl
        have hlink : nb.link = f.length + ln.length + p.posts.length := by rw [← hhdr]; rfl
        have hlenf' : f'.length = nb.stop := by
          rw [← e3, PBlk.stop, hlink]; simp only [List.length_append, be64_length]; omega
        have hatall : At f' nb.pos (nb.hdr ++ (p.posts ++ ff8)) := by
          rw [hhdr, ← e3]
          refine ⟨[], ?_⟩
          show (ln ++ (p.posts ++ ff8)) ++ [] = (f ++ ln ++ (p.posts ++ ff8)).drop f.length
          simp
        have hat1 : At f' nb.pos (nb.hdr ++ nb.payload) := by
          rw [← List.append_assoc] at hatall
          exact (At.append.mp hatall).1
        have hat2 : At f' nb.link ff8 := by
          rw [← List.append_assoc] at hatall
          have := (At.append.mp hatall).2
          rw [show nb.link = nb.pos + (nb.hdr ++ p.posts).length by simp [PBlk.link, nb]; omega]
          exact this
        have hf' : f' = writeAt f f.length (ln ++ (p.posts ++ ff8)) := by
          rw [writeAt_end, ← e3]; show f ++ ln ++ (p.posts ++ ff8) = _; rw [List.append_assoc]
        have hlaid' : Laid f' L := by rw [hf']; exact h.write _ _ (Nat.le_refl _) (.inl rfl)
        have hlaid2 : Laid f' (L ++ [nb]) := hlaid'.snoc nb (fun b hb => h.inside b hb) (by omega) hat1
        have hkeep : ∀ o', KeepsLinks f f' (ownOf o' L) := fun o' => by rw [hf']; exact h.keeps_end o' _
        have hgrow : f.length ≤ f'.length := by rw [hlenf', PBlk.stop, hlink]; omega
        have hownn : ownOf o (L ++ [nb]) = ownOf o L ++ [nb] := by rw [ownOf_snoc]; simp [nb]
        refine ⟨L ++ [nb], ⟨hlaid2, hgrow, ?_, ?_⟩, ?_, ?_⟩
        · intro b hb
          rcases List.mem_append.mp hb with hb | hb
          · exact .inl hb
          · right; rw [List.mem_singleton.mp hb]
        · intro br o' q vs hne hq
          exact hq.mono (by rw [ownOf_snoc, if_neg (fun e => hne e.symm), List.append_nil]) hgrow (hkeep o')
        · subst e2
          refine ⟨?_, ?_, ?_, ?_, ?_, ?_, hr.current, hr.total, ?_⟩
          · rw [hownn, List.getLast?_concat]
            show ((f.length : Int) + ln.length + (p.posts ++ be64 (i64ToU64 (-1))).length - 8) = ((nb.link : Nat) : Int)
            rw [hlink, hlen8]; omega
          · intro b hb
            rw [hownn] at hb
            show p.head = _
            cases ho : ownOf o L with
            | nil => rw [ho] at hb; simp at hb; subst hb; exact hhead ho
            | cons a r => rw [ho] at hb; simp at hb; subst hb; exact hr.head _ (by rw [ho]; rfl)
          · intro e; rw [hownn] at e; simp at e
          · exact ⟨hr.bound.1, by have := hr.bound.2; show p.head ≤ _; omega⟩
          · rw [hownn]
            apply Linked.snoc
            · exact hr.linked.of_at (fun a ha => hkeep o a (List.dropLast_subset _ ha))
            · intro b hb
              exact hkeep o b (List.mem_of_getLast? hb) _ rfl (hlast b hb)
          · intro _ b hb
            rw [hownn, List.getLast?_concat] at hb
            injection hb with hb; subst hb; exact hat2
          · rw [hownn, List.map_append]
            exact hr.content.flush hp
        · intro _; rw [← e2]

theorem flushF_spec {f : Bytes} {L : List PBlk} (h : Laid f L) {o : Nat} {p : Poster} {vals : List UInt32} {br : Bool} (hr : FRep br f L o p vals)
    {φ φ' : Fates} {ok : Bool} {p' : Poster} {f' : Bytes} (hF : p.flushF f φ = (ok, p', f', φ')) :
    ∃ L', FStep f L o f' L' ∧ FRep br f' L' o p' vals ∧ (ok = true → p'.posts = []) := by
  unfold Poster.flushF at hF
  by_cases hp : p.posts = []
  · rw [if_pos hp] at hF
    injection hF with e1 hF; injection hF with e2 hF; injection hF with e3 hF
    subst e1 e2 e3
    exact ⟨L, .refl h, hr, fun _ => hp⟩
  · rw [if_neg hp] at hF
    split at hF
    · injection hF with e1 hF; injection hF with e2 hF; injection hF with e3 hF
      subst e1 e2 e3
      exact ⟨L, .refl h, hr, by simp⟩
    · simp only [] at hF
      have hlk := hr.link
      cases hg : (ownOf o L).getLast? with
      | none =>
        rw [hg] at hlk
        simp only [] at hlk
        rw [if_neg (by simp [hlk])] at hF
        have hnil : ownOf o L = [] := List.getLast?_eq_none_iff.mp hg
        exact flushTailF_spec (p := { p with head := f.length }) h
          ⟨by rw [hg]; exact hlk, by rw [hnil]; simp, fun _ e => absurd e hp, ⟨by show (-1 : Int) ≤ (f.length : Int); omega, Int.le_refl _⟩, hr.linked, fun e => absurd e hp, hr.current, hr.total, hr.content⟩
          hp (by rw [hg]; simp) (fun _ => rfl) hF
      | some c =>
        rw [hg] at hlk
        simp only [] at hlk
        rw [if_pos (by omega), if_neg (by omega)] at hF
        have ht : p.link.toNat = c.link := by omega
        rw [ht] at hF
        obtain ⟨hm, ho⟩ := mem_ownOf.mp (List.mem_of_getLast? hg)
        have hle := h.link_le hm
        split at hF
        · injection hF with e1 hF; injection hF with e2 hF; injection hF with e3 hF
          subst e1 e2 e3
          exact ⟨L, .relink h hg _ (by rw [List.length_take, be64_length]; omega), hr.relink h hp hg _, by simp⟩
        · have hs := FStep.relink h hg (be64 (UInt64.ofNat f.length)) (by rw [be64_length]; omega)
          have hlen : (writeAt f c.link (be64 (UInt64.ofNat f.length))).length = f.length := by
            rw [writeAt_length _ _ _ hle, be64_length]
            have := h.inside c hm
            have := c.link_bounds
            omega
          have hr' := hr.relink h hp hg (be64 (UInt64.ofNat f.length))
          rw [← hlen] at hF
          rw [show (UInt64.ofNat (writeAt f c.link (be64 (UInt64.ofNat f.length))).length) = UInt64.ofNat f.length by rw [hlen]] at hF
          have hF' : p.flushTailF (writeAt f c.link (be64 (UInt64.ofNat f.length))).length (writeAt f c.link (be64 (UInt64.ofNat f.length))) (Fates.now φ.tail :: φ.tail.tail).tail = (ok, p', f', φ') := by
            rw [hlen] at hF ⊢
            simpa using hF
          obtain ⟨L', h1, h2, h3⟩ := flushTailF_spec hs.laid hr' hp (by
            intro b hb
            rw [hg] at hb; injection hb with hb; subst hb
            rw [hlen, linkBytes_nat]
            exact At.wrote _ _ _ hle) (by intro e; rw [e] at hg; simp at hg) hF'
          exact ⟨L', hs.trans h1, h2, h3⟩

end Dupi
