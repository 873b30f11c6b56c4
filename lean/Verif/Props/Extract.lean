import Verif.Props.Query
import Verif.Model.Cmd
/-! # The extract command: C39 -/

namespace Dupi.Props
open Spec

section
variable {u : Uni} {J : CfgCodec} {srt : Sorter} {c : Config} (hU : Usable J c) (hsrt : IsSorter srt)
include hU hsrt

/-- one call of `Next` with room for one blot -/
theorem next_one {h : Sessions} {x : Index} (hx : Holds srt x c.numShards.toNat (bucketIds u c (documents h)) (metaOf (documents h)))
    (hf : Fits u c (documents h)) (grow : Nat → Nat) (ff fuel : Nat) (hff : 2 ^ 32 ≤ ff) (b0 : UInt32) (q : QState) (E : List (Nat × Nat))
    (hE : Query.Delivers x c.numShards.toNat (bucketIds u c (documents h)) (metaOf (documents h)) q E)
    (hmem : ∀ jb ∈ E, jb.1 < c.numShards.toNat ∧ jb.2 < 65536 ∧ 2 ≤ (bucketIds u c (documents h) jb.1 jb.2).length)
    (hfuel : E.length + c.numShards.toNat + 2 ^ 32 < fuel) :
    ∃ r, Query.next grow x ff fuel q [⟨b0, none⟩] = .ok r ∧
      match E with
      | [] => r.n = 0 ∧ r.eof = true
      | jb :: E => r.n = 1 ∧ r.eof = false ∧ Query.Delivers x c.numShards.toNat (bucketIds u c (documents h)) (metaOf (documents h)) r.state E ∧
          ∃ bl, r.dst[0]? = some bl ∧ bl.blot = blotNum c.numShards.toNat jb ∧
            bl.vis = (found u c (documents h) (blotNum c.numShards.toNat jb).toNat).map Document.shown := by
  have hn := hU.shards
  have hn' := hU.shardsSmall
  have hgo := Query.toGo_le q
  obtain ⟨r, e1, e2⟩ := Query.nextLoop_delivers hsrt hx (by omega) grow hff hE 0 fuel [⟨b0, none⟩]
    (fun i b _ hb => by have := List.mem_of_getElem? hb; simp at this; rw [this]) (Nat.zero_le _) (by omega)
  obtain ⟨rs, k1, k2⟩ := nextCalls_spec hU hsrt hx hf grow ff fuel hff [[⟨b0, none⟩]] q E hE hmem (by simp) hfuel
  simp only [nextCalls, Query.next, e1, bind, Except.bind, pure, Except.pure] at k1
  injection k1 with k1
  subst k1
  obtain ⟨g1, g2, g3, g4, _⟩ := k2
  refine ⟨r, e1, ?_⟩
  cases E with
  | nil => exact ⟨by simpa using g1, g2.mpr (by simp)⟩
  | cons jb E =>
    have hrest := e2.rest
    simp only [List.length_cons, List.length_nil, Nat.zero_add, Nat.sub_zero, List.drop_succ_cons, List.drop_zero] at hrest
    have g2' : r.eof = false := by
      rw [← Bool.not_eq_true, g2]; simp
    exact ⟨by simpa using g1, g2', hrest, g4 0 _ (by simp) (by simp)⟩

theorem extractLoop_spec {h : Sessions} {x : Index} (hx : Holds srt x c.numShards.toNat (bucketIds u c (documents h)) (metaOf (documents h)))
    (hf : Fits u c (documents h)) (json : Bool) (grow : Nat → Nat) (ff fuel : Nat) (hff : 2 ^ 32 ≤ ff) (N : Int) (E : List (Nat × Nat)) :
    ∀ (k : Nat) (b0 : UInt32) (q : QState),
    Query.Delivers x c.numShards.toNat (bucketIds u c (documents h)) (metaOf (documents h)) q E →
    (∀ jb ∈ E, jb.1 < c.numShards.toNat ∧ jb.2 < 65536 ∧ 2 ≤ (bucketIds u c (documents h) jb.1 jb.2).length) →
    (∀ b ∈ E.map (blotNum c.numShards.toNat), 2 ≤ (found u c (documents h) b.toNat).length) →
    E.length + c.numShards.toNat + 2 ^ 32 < fuel → E.length < k →
    ∃ out, Cmd.extractLoop json grow x ff fuel N k q ⟨b0, none⟩ = .ok out ∧
      out.map (fun b => (b.blot, b.vis)) = ((E.map (blotNum c.numShards.toNat)).takeWhile
        fun b => N ≤ ((found u c (documents h) b.toNat).length : Int)).map fun b => (b, (found u c (documents h) b.toNat).map Document.shown) := by
  induction E with
  | nil =>
    intro k b0 q hE hmem h2 hfuel hk
    cases k with
    | zero => omega
    | succ k =>
      obtain ⟨r, g1, g2, g3⟩ := next_one hU hsrt hx hf grow ff fuel hff b0 q [] hE hmem hfuel
      exact ⟨[], by simp only [Cmd.extractLoop, g1, bind, Except.bind, g2, g3, if_true, ne_eq, not_true, if_false]; rfl, rfl⟩
  | cons jb E ih =>
    intro k b0 q hE hmem h2 hfuel hk
    cases k with
    | zero => omega
    | succ k =>
      obtain ⟨r, g1, g2, g3, g4, bl, g5, g6, g7⟩ := next_one hU hsrt hx hf grow ff fuel hff b0 q (jb :: E) hE hmem hfuel
      have hlen : bl.len = (found u c (documents h) (blotNum c.numShards.toNat jb).toNat).length := by
        have : bl.len = bl.vis.length := by
          unfold Blot.len Blot.vis; cases bl.docs <;> rfl
        rw [this, g7, List.length_map]
      have hge := h2 (blotNum c.numShards.toNat jb) (by simp)
      rw [List.map_cons]
      simp only [Cmd.extractLoop, g1, bind, Except.bind, g2, g3, g5, Bool.false_eq_true, if_false]
      by_cases hN : (bl.len : Int) < N
      · refine ⟨[], by simp [hN, pure, Except.pure], ?_⟩
        rw [List.takeWhile_cons_of_neg (by rw [← hlen]; simp; omega)]; rfl
      · rw [List.takeWhile_cons_of_pos (by rw [← hlen]; simp; omega)]
        obtain ⟨out, k1, k2⟩ := ih k bl.blot r.state g4 (fun jb hjb => hmem jb (by simp [hjb])) (fun b hb => h2 b (by simp at hb ⊢; right; exact hb))
          (by simp at hfuel; omega) (by simp at hk; omega)
        refine ⟨bl :: out, ?_, ?_⟩
        · simp only [show (1 : Nat) ≠ 0 by omega, hN, if_false, k1, pure, Except.pure, show ¬ (bl.len ≤ 1 ∧ json = false) by omega]
        · rw [List.map_cons, List.map_cons, k2, g6, g7]

/-- **C39.**  For every threshold `N`, the extract command, with -json and without, prints precisely the blots that have at least two and at least `N`
documents, each once, with all its documents, those with most documents first. -/
theorem C39_extract {h : Sessions} {x : Index} {q : QState} (hr : Reading u J srt c h x q) (hf : Fits u c (documents h)) (json : Bool) (grow : Nat → Nat)
    (ff fuel k : Nat) (hff : 2 ^ 32 ≤ ff) (hfuel : 2 ^ 32 + 2 ^ 32 + 2 ^ 32 < fuel) (hk : 2 ^ 32 < k) (N : Int) :
    ∃ out, Cmd.extract json grow x ff fuel k N = .ok out ∧ (out.map Blot.blot).Nodup ∧
      (∀ b : UInt32, b ∈ out.map Blot.blot ↔ b.toNat < numBuckets c ∧ 2 ≤ (found u c (documents h) b.toNat).length ∧
        N ≤ (found u c (documents h) b.toNat).length) ∧
      (∀ b ∈ out, b.vis = (found u c (documents h) b.blot.toNat).map Document.shown) ∧
      out.Pairwise (fun a b => b.vis.length ≤ a.vis.length) := by
  obtain ⟨h1, _⟩ := hr.rep hU hsrt hf
  obtain ⟨E, e1, e2, e3, e4, e5⟩ := enumeration hU hsrt hr hf
  have hl := nodup32_length _ e3
  rw [List.length_map] at hl
  have hn' := hU.shardsSmall
  obtain ⟨out, k1, k2⟩ := extractLoop_spec hU hsrt h1 hf json grow ff fuel hff N E k 0 q e1 e2 (fun b hb => ((e4 b).mp hb).2) (by omega) (by omega)
  refine ⟨out, ?_, ?_⟩
  · simp only [Cmd.extract, hr.start, bind, Except.bind]; exact k1
  have hb : out.map Blot.blot = (E.map (blotNum c.numShards.toNat)).takeWhile fun b => N ≤ ((found u c (documents h) b.toNat).length : Int) := by
    have := congrArg (List.map Prod.fst) k2
    rw [List.map_map, List.map_map] at this
    refine Eq.trans ?_ (this.trans ?_)
    · rfl
    · simp [Function.comp_def]
  have hvis : ∀ b ∈ out, b.vis = (found u c (documents h) b.blot.toNat).map Document.shown := by
    intro b hbo
    have : (b.blot, b.vis) ∈ out.map fun b => (b.blot, b.vis) := List.mem_map.mpr ⟨b, hbo, rfl⟩
    rw [k2] at this
    obtain ⟨b', _, hb'⟩ := List.mem_map.mp this
    injection hb' with g1 g2
    subst g1; exact g2.symm
  refine ⟨?_, ?_, hvis, ?_⟩
  · rw [hb]; exact e3.sublist (List.takeWhile_sublist _)
  · intro b
    rw [hb]
    constructor
    · intro hm
      have h3 := (e4 b).mp ((List.takeWhile_sublist _).subset hm)
      refine ⟨h3.1, h3.2, ?_⟩
      have := List.all_eq_true.mp List.all_takeWhile b hm
      simpa using this
    · rintro ⟨m1, m2, m3⟩
      have hin := (e4 b).mpr ⟨m1, m2⟩
      generalize E.map (blotNum c.numShards.toNat) = F at hin e5
      clear hb k2 e3 e4
      induction F with
      | nil => cases hin
      | cons a F ih =>
        obtain ⟨p1, p2⟩ := List.pairwise_cons.mp e5
        have ha : N ≤ ((found u c (documents h) a.toNat).length : Int) := by
          rcases List.mem_cons.mp hin with rfl | hin
          · exact m3
          · have := p1 b hin; omega
        rw [List.takeWhile_cons_of_pos (by simpa using ha)]
        rcases List.mem_cons.mp hin with rfl | hin
        · simp
        · exact List.mem_cons_of_mem _ (ih hin p2)
  · have p : (out.map Blot.blot).Pairwise (fun a b => (found u c (documents h) b.toNat).length ≤ (found u c (documents h) a.toNat).length) := by
      rw [hb]; exact e5.sublist (List.takeWhile_sublist _)
    rw [List.pairwise_map] at p
    refine p.imp_of_mem fun {a b} ha hb hle => ?_
    rw [hvis a ha, hvis b hb, List.length_map, List.length_map]; exact hle

end

/-- With threshold 2 the example index has something to print: two documents share a passage. -/
example : 2 ≤ (found asciiUni exQConfig (documents exHistory) ((fnv32 [99] ^^^ fnv32 [98]).toNat % numBuckets exQConfig)).length := by
  decide +kernel

end Dupi.Props
