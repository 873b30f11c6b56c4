import Verif.Model.Blotter
import Verif.Spec.Window
/-! The ring buffers of the blotters always hold the most recent hashes. -/

namespace Dupi
open Dupi.Spec

/-- xor of the first `n` values of `F` -/
def xorF (n : Nat) (F : Nat → UInt32) : UInt32 := xorAll ((List.range n).map F)

theorem xorAll_append (a b : List UInt32) : xorAll (a ++ b) = xorAll a ^^^ xorAll b := by
  induction a with
  | nil => simp [xorAll]
  | cons x xs ih => simp only [xorAll, List.cons_append, List.foldr_cons] at ih ⊢; rw [ih, UInt32.xor_assoc]

theorem xorAll_perm {a b : List UInt32} (h : a.Perm b) : xorAll a = xorAll b := by
  induction h with
  | nil => rfl
  | cons x _ ih => simp only [xorAll, List.foldr_cons] at ih ⊢; rw [ih]
  | swap x y l =>
    simp only [xorAll, List.foldr_cons]
    rw [← UInt32.xor_assoc, ← UInt32.xor_assoc, UInt32.xor_comm y x]
  | trans _ _ ih1 ih2 => exact ih1.trans ih2

theorem xorF_succ (n : Nat) (F : Nat → UInt32) : xorF (n + 1) F = xorF n F ^^^ F n := by
  simp only [xorF, List.range_succ, List.map_append, xorAll_append]
  simp [xorAll]

theorem xorF_succ' (n : Nat) (F : Nat → UInt32) : xorF (n + 1) F = F 0 ^^^ xorF n (fun t => F (t + 1)) := by
  induction n with
  | zero => simp [xorF, xorAll, List.range_succ]
  | succ n ih => rw [xorF_succ, ih, xorF_succ, UInt32.xor_assoc]

theorem xorF_congr {n : Nat} {F G : Nat → UInt32} (h : ∀ t, t < n → F t = G t) : xorF n F = xorF n G := by
  unfold xorF
  congr 1
  exact List.map_congr_left (fun t ht => h t (List.mem_range.mp ht))

theorem windowXor_eq (n k : Nat) (l : List UInt32) : windowXor n k l = xorF n (fun t => l.getD (t * k) 0) := by
  induction n with
  | zero => rfl
  | succ n ih =>
    rw [xorF_succ, ← ih, windowXor, List.range_succ, List.filterMap_append, xorAll_append, ← windowXor]
    congr 1
    cases h : l[n * k]? with
    | none => simp [h, xorAll, List.getD_eq_getElem?_getD]
    | some x => simp [h, xorAll, List.getD_eq_getElem?_getD]

/-- push a hash -/
def pushF (h : UInt32) (F : Nat → UInt32) : Nat → UInt32
  | 0 => h
  | t + 1 => F t

/-- the ring holds the `n` most recent hashes, `F t` being the `t`-th most recent -/
structure CircRep (c : Circ) (n : Nat) (F : Nat → UInt32) : Prop where
  len : c.hashes.length = n
  pos : c.i < n
  ring : ∀ t, t < n → c.hashes[(c.i + n - 1 - t) % n]? = some (F t)
  hash : c.hash = xorF n F

theorem CircRep.congr {c n F G} (h : CircRep c n F) (hFG : ∀ t, F t = G t) : CircRep c n G := by
  have : F = G := funext hFG
  subst this; exact h

theorem CircRep.new (n : Nat) (hn : 0 < n) : CircRep ⟨List.replicate n 0, 0, 0⟩ n (fun _ => 0) := by
  refine ⟨by simp, hn, ?_, ?_⟩
  · intro t _
    rw [List.getElem?_replicate, if_pos (Nat.mod_lt _ hn)]
  · simp only
    induction n with
    | zero => rfl
    | succ n ih =>
      rw [xorF_succ]
      by_cases h0 : n = 0
      · subst h0; decide
      · rw [← ih (by omega)]; decide

theorem Circ.new_ok {n : Int} (h : 0 ≤ n) : Circ.new n = .ok ⟨List.replicate n.toNat 0, 0, 0⟩ := by
  simp only [Circ.new, show ¬ n < 0 by omega, if_false]

theorem CircRep.blot {c n F} (h : CircRep c n F) (x : UInt32) :
    ∃ c', c.blotHash x = .ok (xorF n (pushF x F), c') ∧ CircRep c' n (pushF x F) := by
  obtain ⟨hl, hp, hr, hh⟩ := h
  have hn : 0 < n := by omega
  obtain ⟨m, rfl⟩ : ∃ m, n = m + 1 := ⟨n - 1, by omega⟩
  have hold := hr m (by omega)
  rw [show c.i + (m + 1) - 1 - m = c.i by omega, Nat.mod_eq_of_lt hp] at hold
  have hnew : c.hash ^^^ F m ^^^ x = xorF (m + 1) (pushF x F) := by
    rw [xorF_succ', hh, xorF_succ]
    simp only [pushF]
    rw [UInt32.xor_assoc (xorF m F), UInt32.xor_self, UInt32.xor_zero, UInt32.xor_comm]
  refine ⟨⟨c.hashes.set c.i x, xorF (m + 1) (pushF x F), if c.i + 1 = m + 1 then 0 else c.i + 1⟩, ?_, ?_⟩
  · simp only [Circ.blotHash, hold, hnew, List.length_set, hl]
  · refine ⟨by simp [hl], by simp only; split <;> omega, ?_, rfl⟩
    intro t ht
    simp only
    have hi : (if c.i + 1 = m + 1 then 0 else c.i + 1) = (c.i + 1) % (m + 1) := by
      split
      · rename_i h; rw [h, Nat.mod_self]
      · rw [Nat.mod_eq_of_lt (by omega)]
    rw [hi]
    have key : ((c.i + 1) % (m + 1) + (m + 1) - 1 - t) % (m + 1) = (c.i + (m + 1) - t) % (m + 1) := by
      by_cases hc : c.i + 1 = m + 1
      · rw [hc, Nat.mod_self]
        rw [show c.i + (m + 1) - t = (0 + (m + 1) - 1 - t) + (m + 1) by omega, Nat.add_mod_right]
      · rw [Nat.mod_eq_of_lt (show c.i + 1 < m + 1 by omega)]
        congr 1; omega
    rw [key]
    cases t with
    | zero =>
      rw [Nat.sub_zero, Nat.add_mod_right, Nat.mod_eq_of_lt hp, List.getElem?_set, if_pos rfl,
        if_pos (by omega)]
      rfl
    | succ t =>
      rw [List.getElem?_set, if_neg]
      · have := hr t (by omega)
        rw [show c.i + (m + 1) - (t + 1) = c.i + (m + 1) - 1 - t by omega]
        exact this
      · intro heq
        by_cases hle : t + 1 ≤ c.i
        · have : (c.i + (m + 1) - (t + 1)) % (m + 1) = c.i - (t + 1) := by
            rw [show c.i + (m + 1) - (t + 1) = (c.i - (t + 1)) + (m + 1) by omega, Nat.add_mod_right,
              Nat.mod_eq_of_lt (by omega)]
          omega
        · rw [Nat.mod_eq_of_lt (by omega)] at heq
          omega

/-- the blotter holds the recent hashes: `F t` is the `t`-th most recent -/
def BlotRep (b : Blotter) (n k : Nat) (F : Nat → UInt32) : Prop :=
  match b with
  | .circ c => k = 1 ∧ CircRep c n F
  | .inter cs i => cs.length = k ∧ i < k ∧
      ∀ s, s < k → ∃ c, cs[(i + k - 1 - s) % k]? = some c ∧ CircRep c n (fun t => F (s + t * k))

theorem BlotRep.pos {b n k F} (h : BlotRep b n k F) : 0 < n ∧ 0 < k := by
  cases b with
  | circ c => obtain ⟨rfl, h⟩ := h; exact ⟨by have := h.pos; omega, by omega⟩
  | inter cs i =>
    obtain ⟨_, h2, h3⟩ := h
    obtain ⟨c, _, hc⟩ := h3 0 (by omega)
    exact ⟨by have := hc.pos; omega, by omega⟩

theorem fromConfig_rep (cfg : BlotConfig) (hs : 0 < cfg.seqLen) (hi : 0 < cfg.interleave) :
    ∃ b, Blotter.fromConfig cfg = .ok b ∧
      BlotRep b cfg.seqLen.toNat cfg.interleave.toNat (fun _ => 0) := by
  have hc := CircRep.new cfg.seqLen.toNat (by omega)
  have hnew := Circ.new_ok (n := cfg.seqLen) (by omega)
  by_cases h1 : cfg.interleave = 1
  · refine ⟨.circ ⟨List.replicate cfg.seqLen.toNat 0, 0, 0⟩, ?_, by rw [h1]; exact ⟨rfl, hc⟩⟩
    rw [Blotter.fromConfig, if_neg (by omega), if_pos h1, hnew]; rfl
  · refine ⟨.inter (List.replicate cfg.interleave.toNat ⟨List.replicate cfg.seqLen.toNat 0, 0, 0⟩) 0,
      ?_, ⟨by simp, by omega, ?_⟩⟩
    · rw [Blotter.fromConfig, if_neg (by omega), if_neg h1, hnew]; rfl
    · intro s _
      refine ⟨⟨List.replicate cfg.seqLen.toNat 0, 0, 0⟩, ?_, hc⟩
      rw [List.getElem?_replicate, if_pos (Nat.mod_lt _ (by omega))]

theorem BlotRep.blot {b n k F} (h : BlotRep b n k F) (x : UInt32) :
    ∃ b', b.blotHash x = .ok (xorF n (fun t => pushF x F (t * k)), b') ∧ BlotRep b' n k (pushF x F) := by
  cases b with
  | circ c =>
    obtain ⟨rfl, h⟩ := h
    obtain ⟨c', h1, h2⟩ := h.blot x
    refine ⟨.circ c', ?_, rfl, h2⟩
    rw [Blotter.blotHash]
    simp only [h1, bind, Except.bind, pure, Except.pure, Nat.mul_one]
  | inter cs i =>
    obtain ⟨hl, hi, hs⟩ := h
    obtain ⟨m, rfl⟩ : ∃ m, k = m + 1 := ⟨k - 1, by omega⟩
    obtain ⟨c, hc, hrep⟩ := hs m (by omega)
    rw [show i + (m + 1) - 1 - m = i by omega, Nat.mod_eq_of_lt hi] at hc
    obtain ⟨c', h1, h2⟩ := hrep.blot x
    have hF : ∀ t, pushF x (fun t => F (m + t * (m + 1))) t = pushF x F (t * (m + 1)) := by
      intro t
      cases t with
      | zero => simp [pushF]
      | succ t =>
        rw [show (t + 1) * (m + 1) = (m + t * (m + 1)) + 1 by rw [Nat.succ_mul]; omega]
        rfl
    refine ⟨.inter (cs.set i c') (if i + 1 = m + 1 then 0 else i + 1), ?_, ?_⟩
    · rw [Blotter.blotHash, hc]
      simp only [h1, bind, Except.bind, pure, Except.pure, hl]
      rw [xorF_congr (fun t _ => hF t)]
    · refine ⟨by simp [hl], by split <;> omega, ?_⟩
      have hi' : (if i + 1 = m + 1 then 0 else i + 1) = (i + 1) % (m + 1) := by
        split
        · rename_i h; rw [h, Nat.mod_self]
        · rw [Nat.mod_eq_of_lt (by omega)]
      rw [hi']
      intro s hs'
      have key : ((i + 1) % (m + 1) + (m + 1) - 1 - s) % (m + 1) = (i + (m + 1) - s) % (m + 1) := by
        by_cases hc : i + 1 = m + 1
        · rw [hc, Nat.mod_self]
          rw [show i + (m + 1) - s = (0 + (m + 1) - 1 - s) + (m + 1) by omega, Nat.add_mod_right]
        · rw [Nat.mod_eq_of_lt (show i + 1 < m + 1 by omega)]
          congr 1; omega
      rw [key]
      cases s with
      | zero =>
        refine ⟨c', ?_, h2.congr (fun t => by rw [hF]; simp)⟩
        rw [Nat.sub_zero, Nat.add_mod_right, Nat.mod_eq_of_lt hi, List.getElem?_set, if_pos rfl,
          if_pos (by omega)]
      | succ s =>
        obtain ⟨d, hd, hdr⟩ := hs s (by omega)
        refine ⟨d, ?_, hdr.congr (fun t => ?_)⟩
        · rw [List.getElem?_set, if_neg]
          · rw [show i + (m + 1) - (s + 1) = i + (m + 1) - 1 - s by omega]; exact hd
          · intro heq
            by_cases hle : s + 1 ≤ i
            · have : (i + (m + 1) - (s + 1)) % (m + 1) = i - (s + 1) := by
                rw [show i + (m + 1) - (s + 1) = (i - (s + 1)) + (m + 1) by omega, Nat.add_mod_right,
                  Nat.mod_eq_of_lt (by omega)]
              omega
            · rw [Nat.mod_eq_of_lt (by omega)] at heq
              omega
        · rw [show s + 1 + t * (m + 1) = (s + t * (m + 1)) + 1 by omega]; rfl

/-- recent hashes as a list, most recent first -/
def BlotRepL (b : Blotter) (n k : Nat) (recent : List UInt32) : Prop :=
  BlotRep b n k (fun t => recent.getD t 0)

theorem pushF_getD (x : UInt32) (l : List UInt32) :
    pushF x (fun t => l.getD t 0) = fun t => (x :: l).getD t 0 := by
  funext t; cases t <;> simp [pushF]

theorem BlotRepL.blot {b n k l} (h : BlotRepL b n k l) (x : UInt32) :
    ∃ b', b.blotHash x = .ok (windowXor n k (x :: l), b') ∧ BlotRepL b' n k (x :: l) := by
  obtain ⟨b', h1, h2⟩ := BlotRep.blot h x
  rw [pushF_getD] at h1 h2
  exact ⟨b', by rw [h1, windowXor_eq], h2⟩

theorem fromConfig_repL (cfg : BlotConfig) (hs : 0 < cfg.seqLen) (hi : 0 < cfg.interleave) :
    ∃ b, Blotter.fromConfig cfg = .ok b ∧ BlotRepL b cfg.seqLen.toNat cfg.interleave.toNat [] := by
  obtain ⟨b, h1, h2⟩ := fromConfig_rep cfg hs hi
  exact ⟨b, h1, by simpa [BlotRepL] using h2⟩

/-- feeding words: the blots are the windows, in order -/
theorem BlotRepL.blots {u : Uni} (ws : List Bytes) : ∀ {b n k l}, BlotRepL b n k l →
    ∃ rs b', b.blots u ws = .ok (rs, b') ∧ BlotRepL b' n k ((ws.map (wordHash u)).reverse ++ l) ∧
      rs.length = ws.length ∧
      ∀ j, j < ws.length →
        rs[j]? = some (windowXor n k (((ws.take (j + 1)).map (wordHash u)).reverse ++ l)) := by
  induction ws with
  | nil => intro b n k l h; exact ⟨[], b, rfl, by simpa using h, rfl, by simp⟩
  | cons w ws ih =>
    intro b n k l h
    obtain ⟨b1, h1, h2⟩ := h.blot (wordHash u w)
    obtain ⟨rs, b', h3, h4, h5, h6⟩ := ih h2
    refine ⟨windowXor n k (wordHash u w :: l) :: rs, b', ?_, by simpa using h4, by simp [h5], ?_⟩
    · simp only [Blotter.blots, Blotter.blot, h1, bind, Except.bind, h3, pure, Except.pure]
    · intro j hj
      cases j with
      | zero => simp
      | succ j =>
        simp only [List.getElem?_cons_succ]
        rw [h6 j (by simpa using hj)]
        simp

/-- a window that is full does not depend on what was before it -/
theorem windowXor_full (n k : Nat) (l l' : List UInt32) (h : n * k < l.length + k) :
    windowXor n k (l ++ l') = windowXor n k l := by
  rw [windowXor_eq, windowXor_eq]
  apply xorF_congr
  intro t ht
  have hlt : t * k < l.length := by
    have : (t + 1) * k ≤ n * k := Nat.mul_le_mul_right k ht
    rw [Nat.succ_mul] at this
    omega
  simp only [List.getD_eq_getElem?_getD]
  rw [List.getElem?_append_left hlt]

end Dupi
