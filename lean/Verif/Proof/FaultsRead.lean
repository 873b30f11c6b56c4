import Verif.Proof.FaultsPoster
/-! # Reading a posting file some of whose writes failed -/

namespace Dupi

/-- offset of the first of some blocks -/
def firstPos : List PBlk → Int
  | [] => -1
  | b :: _ => b.pos

/-- the blocks are in the file, each linked to the next one, the last one to none -/
def Chain (f : Bytes) : List PBlk → Prop
  | [] => True
  | a :: r => At f a.pos (a.hdr ++ a.payload) ∧ At f a.link (linkBytes (firstPos r)) ∧ Chain f r

theorem Chain.of {f : Bytes} : ∀ {own : List PBlk}, (∀ b ∈ own, At f b.pos (b.hdr ++ b.payload)) → Linked f own →
    (∀ b, own.getLast? = some b → At f b.link ff8) → Chain f own
  | [], _, _, _ => trivial
  | [a], h, _, h3 => ⟨h a (by simp), h3 a rfl, trivial⟩
  | a :: b :: r, h, h2, h3 => ⟨h a (by simp), h2.1, Chain.of (own := b :: r) (fun c hc => h c (by simp [hc])) h2.2 (fun c hc => h3 c (by simpa using hc))⟩

theorem Chain.linked {f : Bytes} : ∀ {own : List PBlk}, Chain f own → Linked f own
  | [], _ => trivial
  | [_], _ => trivial
  | _ :: _ :: _, h => ⟨h.2.1, Chain.linked h.2.2⟩

theorem Chain.fin {f : Bytes} : ∀ {own : List PBlk}, Chain f own → ∀ b, own.getLast? = some b → At f b.link ff8
  | [], _, b, hb => by simp at hb
  | [a], h, b, hb => by simp at hb; subst hb; exact h.2.1
  | a :: b :: r, h, c, hc => Chain.fin (own := b :: r) h.2.2 c (by simpa using hc)

/-! ### What cannot be read -/

theorem uvarintLoop_ge (bs : Bytes) : ∀ i x, 0 < (uvarintLoop bs i x).2 → x ≤ (uvarintLoop bs i x).1 := by
  induction bs with
  | nil => intro i x h; simp [uvarintLoop] at h
  | cons b bs ih =>
    intro i x h
    simp only [uvarintLoop] at h ⊢
    split at h
    · simp only [] at h; omega
    · rename_i h1
      rw [if_neg h1]
      split at h
      · rename_i h2
        rw [if_pos h2]
        split at h
        · simp only [] at h; omega
        · rename_i h3
          rw [if_neg h3]
          exact Nat.left_le_or
      · rename_i h2
        rw [if_neg h2]
        exact Nat.le_trans Nat.left_le_or (ih _ _ h)

theorem ff8_eq : ff8 = List.replicate 8 0xff := by decide

theorem uvarint_ff8 (Z : Bytes) : (uvarint (ff8 ++ Z)).2 ≤ 0 ∨ 2 ^ 32 ≤ (uvarint (ff8 ++ Z)).1 := by
  rw [ff8_eq]
  have e : uvarint (List.replicate 8 0xff ++ Z) = uvarintLoop Z 8 (2 ^ 56 - 1) := by
    unfold uvarint
    simp only [List.replicate, List.cons_append, List.nil_append]
    rw [uvarintLoop, if_neg (by decide), if_neg (by decide), uvarintLoop, if_neg (by decide), if_neg (by decide),
      uvarintLoop, if_neg (by decide), if_neg (by decide), uvarintLoop, if_neg (by decide), if_neg (by decide),
      uvarintLoop, if_neg (by decide), if_neg (by decide), uvarintLoop, if_neg (by decide), if_neg (by decide),
      uvarintLoop, if_neg (by decide), if_neg (by decide), uvarintLoop, if_neg (by decide), if_neg (by decide)]
    rfl
  rw [e]
  by_cases h : 0 < (uvarintLoop Z 8 (2 ^ 56 - 1)).2
  · right
    have := uvarintLoop_ge Z 8 (2 ^ 56 - 1) h
    omega
  · left; omega

theorem decodeLoop_bad (tail : Bytes) (ds : List UInt32) :
    ∀ (done : Bytes) (fuel : Nat) (c : UInt32) (docids : List UInt32), ds.length < fuel → 8 ≤ tail.length →
    ∃ s, Posts.decodeLoop (done ++ encDeltas ds ++ (ff8 ++ tail)) fuel done.length c docids = fail (.msg s) := by
  induction ds with
  | nil =>
    intro done fuel c docids hf h8
    cases fuel with
    | zero => simp at hf
    | succ fuel =>
      have hdrop : List.drop done.length (done ++ encDeltas [] ++ (ff8 ++ tail)) = ff8 ++ tail := by simp [encDeltas]
      simp only [Posts.decodeLoop]
      rw [hdrop]
      rcases uvarint_ff8 tail with h | h
      · rw [if_pos h]; exact ⟨_, rfl⟩
      · by_cases h0 : (uvarint (ff8 ++ tail)).2 ≤ 0
        · rw [if_pos h0]; exact ⟨_, rfl⟩
        · rw [if_neg h0, if_pos (by omega)]; exact ⟨_, rfl⟩
  | cons d ds ih =>
    intro done fuel c docids hf h8
    cases fuel with
    | zero => simp at hf
    | succ fuel =>
      have hd : d.toNat < 2 ^ 32 := d.toNat_lt
      simp only [Posts.decodeLoop, encDeltas_cons]
      have hdrop : List.drop done.length (done ++ (putUvarint d.toNat ++ encDeltas ds) ++ (ff8 ++ tail)) =
          putUvarint d.toNat ++ (encDeltas ds ++ (ff8 ++ tail)) := by simp [List.append_assoc]
      rw [hdrop, uvarint_put _ _ (by omega)]
      have hpos := putUvarint_length_pos d.toNat
      simp only []
      have h88 : ff8.length = 8 := rfl
      rw [if_neg (by omega), if_neg (by omega), if_neg (by simp [h88]; omega), if_neg (by simp [h88]; omega)]
      obtain ⟨s, hs⟩ := ih (done ++ putUvarint d.toNat) fuel (c + UInt32.ofNat d.toNat) (docids ++ [c + UInt32.ofNat d.toNat]) (by simp at hf; omega) h8
      refine ⟨s, ?_⟩
      simp only [List.append_assoc, List.length_append] at hs ⊢
      simpa using hs

theorem readNext_bad (pre post P l8 : Bytes) (hb : BadPayload P) (h8 : l8.length = 8) (hlen : P.length + 8 < 2 ^ 63) (p : Posts)
    (hp : p.nextpos = (pre.length : Int)) :
    ∃ e, p.readNext (pre ++ (putVarint ((P.length + 8 : Nat) : Int) ++ (P ++ l8)) ++ post) = .error e ∧ (e = .panic ∨ ∃ s, e = .err (.msg s)) := by
  have e1 : pre ++ (putVarint ((P.length + 8 : Nat) : Int) ++ (P ++ l8)) ++ post = pre ++ putVarint ((P.length + 8 : Nat) : Int) ++ (P ++ l8 ++ post) := by simp
  unfold Posts.readNext
  rw [e1, hp, readVarintAt_put _ _ _ (by omega) (by omega)]
  simp only [Posts.wrapErr, bind, Except.bind]
  by_cases hs : 522 < P.length
  · rw [if_pos (by rw [show Posts.bufLen = 530 from rfl]; omega)]
    exact ⟨_, rfl, .inl rfl⟩
  · rw [if_neg (by rw [show Posts.bufLen = 530 from rfl]; omega)]
    have e2 : pre ++ putVarint ((P.length + 8 : Nat) : Int) ++ (P ++ l8 ++ post) = (pre ++ putVarint ((P.length + 8 : Nat) : Int)) ++ (P ++ l8) ++ post := by simp
    have hr := readAt_mid (pre ++ putVarint ((P.length + 8 : Nat) : Int)) (P ++ l8) post
    rw [← e2] at hr
    simp only [List.length_append, h8, Int.natCast_add] at hr
    have htn : (((P.length + 8 : Nat) : Int)).toNat = P.length + 8 := by omega
    rw [htn]
    simp only [Int.natCast_add] at hr ⊢
    rw [hr]
    simp only []
    rcases hb with hb | ⟨ds, T, hP⟩
    · exact absurd hb hs
    · have := encDeltas_length_ge ds
      obtain ⟨s, hs⟩ := decodeLoop_bad (T ++ l8) ds [] ((P ++ l8).length + 1) p.current [] (by rw [hP]; simp; omega) (by simp [h8])
      rw [show [] ++ encDeltas ds ++ (ff8 ++ (T ++ l8)) = P ++ l8 by rw [hP]; simp] at hs
      rw [show ([] : Bytes).length = 0 from rfl] at hs
      rw [hs]
      exact ⟨_, rfl, .inr ⟨_, rfl⟩⟩

/-! ### Delivering -/

/-- `p` reading `f` will deliver `rem`, and then report the end (`fine`) or fail -/
def Delivers (f : Bytes) (p : Posts) (rem : List UInt32) (fine : Bool) : Prop :=
  ∃ own dss, Chain f own ∧ (∀ b ∈ own, b.stop < 2 ^ 63) ∧ p.nextpos = firstPos own ∧ p.i ≤ p.docids.length ∧ GoodPayloads dss ∧
    rem = p.docids.drop p.i ++ runSum p.current dss.flatten ∧
    if fine then own.map PBlk.payload = dss.map encDeltas else ∃ P rest, own.map PBlk.payload = dss.map encDeltas ++ P :: rest ∧ BadPayload P

theorem Delivers.readNext {f : Bytes} {p : Posts} {rem : List UInt32} {fine : Bool} (h : Delivers f p rem fine)
    (hi : p.i = p.docids.length) (hn : rem ≠ []) :
    ∃ p', p.readNext f = .ok p' ∧ Delivers f p' rem fine ∧ p'.i < p'.docids.length := by
  obtain ⟨own, dss, hc, hlt, hnp, _, hg, hrem, hown⟩ := h
  rw [hi, List.drop_length, List.nil_append] at hrem
  cases dss with
  | nil => rw [hrem] at hn; simp [runSum] at hn
  | cons ds dss =>
    obtain ⟨a, r, ho, hpa⟩ : ∃ a r, own = a :: r ∧ a.payload = encDeltas ds := by
      cases own with
      | nil => cases fine <;> simp at hown
      | cons a r =>
        refine ⟨a, r, rfl, ?_⟩
        cases fine <;> simp at hown
        · obtain ⟨_, ⟨h, _⟩, _⟩ := hown; exact h
        · exact hown.1
    subst ho
    obtain ⟨h1, h2, h3⟩ := hc
    have hat : At f a.pos (a.hdr ++ a.payload ++ linkBytes (firstPos r)) := by
      rw [At.append]
      exact ⟨h1, by rw [show a.pos + (a.hdr ++ a.payload).length = a.link by simp [PBlk.link]; omega]; exact h2⟩
    obtain ⟨pre, post, hf, hpre⟩ := hat.split (by
      intro e
      have := congrArg List.length e
      simp [linkBytes_length] at this)
    have hstop := hlt a (by simp)
    have hl1 : -1 ≤ firstPos r := by cases r <;> simp only [firstPos] <;> omega
    have hl2 : firstPos r < 2 ^ 63 := by
      cases r with
      | nil => simp [firstPos]
      | cons b r =>
        have := hlt b (by simp)
        have := b.link_bounds
        simp only [firstPos]; omega
    have hb : (⟨a.owner, ds⟩ : Blk).WF := ⟨(hg ds (by simp)).1, (hg ds (by simp)).2⟩
    have := readNext_block pre post ⟨a.owner, ds⟩ hb p (firstPos r) hl1 hl2 (by rw [hnp, hpre]; rfl)
    have hsame : pre ++ ((⟨a.owner, ds⟩ : Blk).hdr ++ ((⟨a.owner, ds⟩ : Blk).payload ++ linkBytes (firstPos r))) ++ post = f := by
      rw [hf]
      simp [PBlk.hdr, Blk.hdr, Blk.payload, hpa]
    rw [hsame] at this
    refine ⟨_, this, ⟨r, dss, h3, fun b hb => hlt b (by simp [hb]), rfl, by simp, fun e he => hg e (by simp [he]), ?_, ?_⟩, ?_⟩
    · rw [hrem, List.flatten_cons, runSum_append]; simp
    · cases fine <;> simp at hown ⊢
      · obtain ⟨P, ⟨_, hown⟩, hbad⟩ := hown; exact ⟨P, hown, hbad⟩
      · exact hown.2
    · simp only [runSum_length]; exact List.length_pos_iff.mpr hb.ne

theorem Delivers.step {f : Bytes} {p : Posts} {v : UInt32} {rem : List UInt32} {fine : Bool} (h : Delivers f p (v :: rem) fine) :
    ∃ p', p.next f = .ok (v, p') ∧ Delivers f p' rem fine := by
  have key : ∀ q : Posts, Delivers f q (v :: rem) fine → q.i < q.docids.length →
      q.docids[q.i]? = some v ∧ Delivers f { q with i := q.i + 1 } rem fine := by
    intro q hq hlt
    obtain ⟨own, dss, hc, h63, hnp, _, hg, hrem, hown⟩ := hq
    rw [List.drop_eq_getElem_cons hlt, List.cons_append] at hrem
    injection hrem with h1 h2
    exact ⟨by rw [List.getElem?_eq_getElem hlt, h1], own, dss, hc, h63, hnp, hlt, hg, h2, hown⟩
  unfold Posts.next
  by_cases hi : p.i = p.docids.length
  · have hn : p.nextpos ≠ -1 := by
      obtain ⟨own, dss, hc, _, hnp, _, hg, hrem, hown⟩ := h
      rw [hi, List.drop_length, List.nil_append] at hrem
      cases own with
      | nil =>
        have : dss = [] := by cases fine <;> simp at hown; exact hown
        rw [this] at hrem
        simp [runSum] at hrem
      | cons a r => rw [hnp]; simp only [firstPos]; omega
    obtain ⟨q, hq, hrep, hlt⟩ := h.readNext hi (by simp)
    obtain ⟨h1, h2⟩ := key q hrep hlt
    exact ⟨_, by simp [hi, hn, hq, bind, Except.bind, h1, pure, Except.pure], h2⟩
  · have hlt : p.i < p.docids.length := by obtain ⟨_, _, _, _, _, hle, _⟩ := h; omega
    obtain ⟨h1, h2⟩ := key p h hlt
    exact ⟨_, by simp [hi, bind, Except.bind, h1, pure, Except.pure], h2⟩

theorem Delivers.drained {f : Bytes} {p : Posts} {fine : Bool} (h : Delivers f p [] fine) :
    p.i = p.docids.length ∧ ∃ own, Chain f own ∧ (∀ b ∈ own, b.stop < 2 ^ 63) ∧ p.nextpos = firstPos own ∧
      if fine then own = [] else ∃ a r, own = a :: r ∧ BadPayload a.payload := by
  obtain ⟨own, dss, hc, h63, hnp, hle, hg, hrem, hown⟩ := h
  have hi : p.i = p.docids.length := by
    have := congrArg List.length hrem
    simp at this; omega
  rw [hi, List.drop_length, List.nil_append] at hrem
  have hd : dss = [] := by
    cases dss with
    | nil => rfl
    | cons ds dss =>
      have h1 := (hg ds (by simp)).1
      have := congrArg List.length hrem
      rw [runSum_length, List.flatten_cons, List.length_append] at this
      have := List.length_pos_iff.mpr h1
      simp at *; omega
  subst hd
  refine ⟨hi, own, hc, h63, hnp, ?_⟩
  cases fine <;> simp at hown ⊢
  · obtain ⟨P, ⟨rest, hown⟩, hbad⟩ := hown
    cases own with
    | nil => simp at hown
    | cons a r => simp at hown; exact ⟨a, ⟨r, rfl⟩, hown.1 ▸ hbad⟩
  · exact hown

theorem Delivers.eof {f : Bytes} {p : Posts} (h : Delivers f p [] true) : p.next f = fail .eof := by
  obtain ⟨hi, own, _, _, hnp, ho⟩ := h.drained
  simp only [if_true] at ho
  subst ho
  simp [Posts.next, hi, hnp, firstPos, bind, Except.bind]

theorem Delivers.fails {f : Bytes} {p : Posts} (h : Delivers f p [] false) : ∃ e, p.next f = .error e ∧ (e = .panic ∨ ∃ s, e = .err (.msg s)) := by
  obtain ⟨hi, own, hc, h63, hnp, ho⟩ := h.drained
  simp only [Bool.false_eq_true, if_false] at ho
  obtain ⟨a, r, e, hb⟩ := ho
  subst e
  obtain ⟨h1, h2, h3⟩ := hc
  have hat : At f a.pos (a.hdr ++ a.payload ++ linkBytes (firstPos r)) := by
    rw [At.append]
    exact ⟨h1, by rw [show a.pos + (a.hdr ++ a.payload).length = a.link by simp [PBlk.link]; omega]; exact h2⟩
  obtain ⟨pre, post, hf, hpre⟩ := hat.split (by
    intro e
    have := congrArg List.length e
    simp [linkBytes_length] at this)
  have hstop := h63 a (by simp)
  have hnn : p.nextpos ≠ -1 := by rw [hnp]; simp only [firstPos]; omega
  obtain ⟨e, he, hne⟩ := readNext_bad pre post a.payload (linkBytes (firstPos r)) hb rfl (by
    simp only [PBlk.stop, PBlk.link] at hstop; omega) p (by rw [hnp, hpre]; rfl)
  rw [show pre ++ (putVarint ((a.payload.length + 8 : Nat) : Int) ++ (a.payload ++ linkBytes (firstPos r))) ++ post = f by
    rw [hf]; simp [PBlk.hdr]] at he
  refine ⟨e, ?_, hne⟩
  simp [Posts.next, hi, hnn, he, bind, Except.bind]

/-- a flushed poster: either all it was given is there, or reading stops with an error -/
theorem FRep.delivers {f : Bytes} {L : List PBlk} {o : Nat} {p : Poster} {vals : List UInt32} {br : Bool} (hl : Laid f L) (h : FRep br f L o p vals)
    (hp : p.posts = []) (h63 : f.length < 2 ^ 63) :
    ∃ ws fine, Delivers f (Posts.new p.head) ws fine ∧ ws <+: vals ∧ (fine = true → ws = vals ∧ br = false) := by
  have hchain : Chain f (ownOf o L) := .of (fun b hb => hl.here b (mem_ownOf.mp hb).1) h.linked (h.fin hp)
  have hstop : ∀ b ∈ ownOf o L, b.stop < 2 ^ 63 := fun b hb => by have := hl.inside b (mem_ownOf.mp hb).1; omega
  have hfirst : p.head = firstPos (ownOf o L) := by
    cases ho : ownOf o L with
    | nil => exact h.none ho hp
    | cons a r => exact h.head a (by rw [ho]; rfl)
  have hpre : ∀ a b : List UInt32, a <+: b → runSum 0 a <+: runSum 0 b := by
    rintro a b ⟨t, rfl⟩
    rw [runSum_append]; exact List.prefix_append _ _
  cases h.content with
  | good dss ds h1 h2 h3 h4 h5 =>
    have hds : ds = [] := by
      false_or_by_contra; rename_i hne
      exact encDeltas_ne hne (by rw [← h3]; exact hp)
    subst hds
    rw [List.append_nil] at h4
    exact ⟨vals, true, ⟨ownOf o L, dss, hchain, hstop, hfirst, by simp [Posts.new], h2, by simp [Posts.new, h4, runSum_deltasFrom], by simpa using h1⟩,
      List.prefix_refl _, fun _ => ⟨rfl, h5⟩⟩
  | pending dss ds T h1 h2 h3 h4 =>
    rw [hp] at h3
    have := congrArg List.length h3
    simp [show ff8.length = 8 from rfl] at this
    omega
  | bad dss P rest h1 h2 h3 h4 =>
    refine ⟨runSum 0 dss.flatten, false, ⟨ownOf o L, dss, hchain, hstop, hfirst, by simp [Posts.new], h2, by simp [Posts.new], ?_⟩, ?_, by simp⟩
    · simp only [Bool.false_eq_true, if_false]; exact ⟨P, rest, h1, h3⟩
    · have := hpre _ _ h4
      rwa [runSum_deltasFrom] at this

end Dupi
