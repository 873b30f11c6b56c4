import Verif.Proof.AnyDir
import Verif.Proof.Local
import Verif.Spec.Local

/-! Which bytes of the path table belong to which name; records. -/

namespace Dupi.Fnames
open Spec

/-- the node in whose name the byte at an offset is; the first node has number `k` -/
def nameAt : Nat → List Fname → Nat → Option Nat
  | _, [], _ => none
  | k, n :: ns, i =>
    if i < (writeUvarint32 (UInt32.ofNat n.name.length)).length then none
    else if i < (writeUvarint32 (UInt32.ofNat n.name.length)).length + n.name.length then some k
    else if i < (writeNode n).length then none
    else nameAt (k + 1) ns (i - (writeNode n).length)

theorem nameAt_ge (ns : List Fname) : ∀ (k i m : Nat), nameAt k ns i = some m → k ≤ m ∧ m < k + ns.length ∧ i < (ns.flatMap writeNode).length := by
  induction ns with
  | nil => intro k i m h; cases h
  | cons n ns ih =>
    intro k i m h
    rw [nameAt] at h
    rw [List.flatMap_cons, List.length_append, List.length_cons]
    have hw : (writeNode n).length = (writeUvarint32 (UInt32.ofNat n.name.length)).length + n.name.length + (writeUvarint32 n.parent).length := by
      simp [writeNode]; omega
    split at h
    · cases h
    · split at h
      · injection h with h; omega
      · split at h
        · cases h
        · have := ih _ _ _ h; omega

theorem filter_none {p : Nat → Bool} {l : List Nat} (h : ∀ i ∈ l, p i = false) : l.filter p = [] := by
  rw [List.filter_eq_nil_iff]; intro a ha; rw [h a ha]; simp

theorem range_get (a b r : Bytes) : (List.range b.length).map (fun i => (a ++ (b ++ r))[a.length + i]?) = b.map some := by
  apply List.ext_getElem?
  intro i
  rw [List.getElem?_map, List.getElem?_map]
  by_cases hi : i < b.length
  · rw [List.getElem?_range hi, List.getElem?_eq_getElem hi]
    simp only [Option.map_some]
    rw [List.getElem?_append_right (by omega), Nat.add_sub_cancel_left, List.getElem?_append_left hi, List.getElem?_eq_getElem hi]
  · rw [List.getElem?_eq_none (by simp; omega), List.getElem?_eq_none (by omega)]; rfl

theorem nameAt_spells (ns : List Fname) : ∀ (k j : Nat) (n : Fname), ns[j]? = some n →
    ((List.range (ns.flatMap writeNode).length).filter (fun i => nameAt k ns i = some (k + j))).map (fun i => (ns.flatMap writeNode)[i]?) = n.name.map some := by
  induction ns with
  | nil => intro k j n h; cases h
  | cons m ns ih =>
    intro k j n h
    obtain ⟨a, ha⟩ : ∃ a, a = writeUvarint32 (UInt32.ofNat m.name.length) := ⟨_, rfl⟩
    obtain ⟨c, hc⟩ : ∃ c, c = writeUvarint32 m.parent := ⟨_, rfl⟩
    have hw : writeNode m = a ++ m.name ++ c := by rw [ha, hc]; rfl
    have hN : ∀ i, nameAt k (m :: ns) i = if i < a.length then none else if i < a.length + m.name.length then some k
        else if i < a.length + m.name.length + c.length then none else nameAt (k + 1) ns (i - (a.length + m.name.length + c.length)) := by
      intro i; rw [nameAt, hw, ← ha, List.length_append, List.length_append]
    rw [List.flatMap_cons, hw]
    have hl : (a ++ m.name ++ c ++ ns.flatMap writeNode).length = a.length + m.name.length + c.length + (ns.flatMap writeNode).length := by simp; omega
    rw [hl, List.range_add, List.range_add, List.range_add]
    simp only [List.filter_append, List.map_append, List.filter_map, List.map_map]
    have e1 : (List.range a.length).filter (fun i => decide (nameAt k (m :: ns) i = some (k + j))) = [] :=
      filter_none fun i hi => by rw [hN, if_pos (by simpa using hi)]; simp
    have e3 : (List.range c.length).filter ((fun i => decide (nameAt k (m :: ns) i = some (k + j))) ∘ fun x => a.length + m.name.length + x) = [] :=
      filter_none fun i hi => by
        have : i < c.length := by simpa using hi
        simp only [Function.comp]
        rw [hN, if_neg (by omega), if_neg (by omega), if_pos (by omega)]; simp
    rw [e1, e3]
    simp only [List.map_nil, List.nil_append, List.append_nil]
    cases j with
    | zero =>
      simp only [List.getElem?_cons_zero, Option.some.injEq] at h
      subst h
      have e2 : (List.range m.name.length).filter ((fun i => decide (nameAt k (m :: ns) i = some (k + 0))) ∘ fun x => a.length + x) = List.range m.name.length := by
        rw [List.filter_eq_self]
        intro i hi
        have : i < m.name.length := by simpa using hi
        simp only [Function.comp]
        rw [hN, if_neg (by omega), if_pos (by omega)]; simp
      have e4 : (List.range (ns.flatMap writeNode).length).filter ((fun i => decide (nameAt k (m :: ns) i = some (k + 0))) ∘ fun x => a.length + m.name.length + c.length + x) = [] :=
        filter_none fun i hi => by
          simp only [Function.comp]
          rw [hN, if_neg (by omega), if_neg (by omega), if_neg (by omega), Nat.add_sub_cancel_left]
          rw [decide_eq_false_iff_not]
          intro hx
          have := nameAt_ge _ _ _ _ hx
          omega
      rw [e2, e4, List.map_nil, List.append_nil]
      have := range_get a m.name (c ++ ns.flatMap writeNode)
      simpa [Function.comp_def] using this
    | succ j =>
      have e2 : (List.range m.name.length).filter ((fun i => decide (nameAt k (m :: ns) i = some (k + (j + 1)))) ∘ fun x => a.length + x) = [] :=
        filter_none fun i hi => by
          have : i < m.name.length := by simpa using hi
          simp only [Function.comp]
          rw [hN, if_neg (by omega), if_pos (by omega)]
          simp
      rw [e2, List.map_nil, List.nil_append, ← ih (k + 1) j n (by simpa using h)]
      have e5 : ((fun i => decide (nameAt k (m :: ns) i = some (k + (j + 1)))) ∘ fun x => a.length + m.name.length + c.length + x) =
          fun i => decide (nameAt (k + 1) ns i = some (k + 1 + j)) := by
        funext i
        simp only [Function.comp]
        rw [hN, if_neg (by omega), if_neg (by omega), if_neg (by omega), Nat.add_sub_cancel_left, show k + (j + 1) = k + 1 + j by omega]
      rw [e5]
      apply List.map_congr_left
      intro i _
      simp only [Function.comp]
      rw [List.getElem?_append_right (by simp; omega)]
      congr 1
      simp; omega

theorem piece_eq {f g : Bytes} {o l : Nat} (h : ∀ i, i < l → f[o + i]? = g[o + i]?) : (f.drop o).take l = (g.drop o).take l := by
  apply List.ext_getElem?
  intro i
  by_cases hi : i < l
  · rw [List.getElem?_take_of_lt hi, List.getElem?_take_of_lt hi, List.getElem?_drop, List.getElem?_drop, h i hi]
  · rw [List.getElem?_eq_none (by simp; omega), List.getElem?_eq_none (by simp; omega)]

/-- other bytes in the place of names are other names, of the same lengths -/
theorem renamed (ns : List Fname) : ∀ (k : Nat) (f' : Bytes), f'.length = (ns.flatMap writeNode).length →
    (∀ i, nameAt k ns i = none → f'[i]? = (ns.flatMap writeNode)[i]?) →
    ∃ ns' : List Fname, f' = ns'.flatMap writeNode ∧ ns'.length = ns.length ∧ ∀ (j : Nat) n, ns[j]? = some n →
      ∃ n', ns'[j]? = some n' ∧ n'.parent = n.parent ∧ n'.name.length = n.name.length ∧
        ((∀ i, nameAt k ns i = some (k + j) → f'[i]? = (ns.flatMap writeNode)[i]?) → n'.name = n.name) := by
  induction ns with
  | nil =>
    intro k f' hl _
    exact ⟨[], by simpa using hl, rfl, by simp⟩
  | cons m ns ih =>
    intro k f' hl h
    obtain ⟨a, ha⟩ : ∃ a, a = writeUvarint32 (UInt32.ofNat m.name.length) := ⟨_, rfl⟩
    obtain ⟨c, hc⟩ : ∃ c, c = writeUvarint32 m.parent := ⟨_, rfl⟩
    have hw : writeNode m = a ++ m.name ++ c := by rw [ha, hc]; rfl
    have hN : ∀ i, nameAt k (m :: ns) i = if i < a.length then none else if i < a.length + m.name.length then some k
        else if i < a.length + m.name.length + c.length then none else nameAt (k + 1) ns (i - (a.length + m.name.length + c.length)) := by
      intro i; rw [nameAt, hw, ← ha, List.length_append, List.length_append]
    rw [List.flatMap_cons, hw] at hl h ⊢
    obtain ⟨W, hW⟩ : ∃ W, W = ns.flatMap writeNode := ⟨_, rfl⟩
    rw [← hW] at hl h ⊢
    simp only [List.length_append] at hl
    -- the pieces of the file
    have p1 : f'.take a.length = a := by
      have := piece_eq (f := f') (g := a ++ m.name ++ c ++ W) (o := 0) (l := a.length) (fun i hi => by
        rw [Nat.zero_add]; exact h i (by rw [hN, if_pos hi]))
      simpa using this
    have p3 : (f'.drop (a.length + m.name.length)).take c.length = c := by
      have := piece_eq (f := f') (g := a ++ m.name ++ c ++ W) (o := a.length + m.name.length) (l := c.length) (fun i hi => by
        exact h _ (by rw [hN, if_neg (by omega), if_neg (by omega), if_pos (by omega)]))
      rw [this, List.append_assoc (a ++ m.name), show a.length + m.name.length = (a ++ m.name).length by simp, List.drop_left, List.take_left]
    have hright : ∀ i, (a ++ m.name ++ c ++ W)[a.length + m.name.length + c.length + i]? = W[i]? := by
      intro i
      rw [List.getElem?_append_right (by simp; omega)]
      congr 1
      simp; omega
    obtain ⟨ns', g1, g2, g3⟩ := ih (k + 1) (f'.drop (a.length + m.name.length + c.length)) (by rw [List.length_drop, ← hW]; omega) (by
      intro i hi
      rw [List.getElem?_drop, ← hW, ← hright]
      exact h _ (by rw [hN, if_neg (by omega), if_neg (by omega), if_neg (by omega), Nat.add_sub_cancel_left]; exact hi))
    obtain ⟨nm, hnm⟩ : ∃ nm, nm = (f'.drop a.length).take m.name.length := ⟨_, rfl⟩
    have hnl : nm.length = m.name.length := by rw [hnm, List.length_take, List.length_drop]; omega
    refine ⟨⟨m.parent, nm, []⟩ :: ns', ?_, by simp [g2], fun j n hj => ?_⟩
    · rw [List.flatMap_cons, writeNode, hnl, ← ha, ← hc, ← g1, hnm]
      conv => lhs; rw [← List.take_append_drop a.length f', p1, ← List.take_append_drop m.name.length (f'.drop a.length), List.drop_drop,
        ← List.take_append_drop c.length (f'.drop (a.length + m.name.length)), p3, List.drop_drop]
      simp [List.append_assoc]
    · cases j with
      | zero =>
        simp only [List.getElem?_cons_zero, Option.some.injEq] at hj
        subst hj
        refine ⟨_, rfl, rfl, hnl, fun hk => ?_⟩
        show nm = m.name
        rw [hnm]
        have := piece_eq (f := f') (g := a ++ m.name ++ c ++ W) (o := a.length) (l := m.name.length) (fun i hi => by
          exact hk _ (by rw [hN, if_neg (by omega), if_pos (by omega), Nat.add_zero]))
        rw [this, List.append_assoc, List.append_assoc, List.drop_left, List.take_left]
      | succ j =>
        obtain ⟨n', a1, a2, a3, a4⟩ := g3 j n (by simpa using hj)
        refine ⟨n', by simpa using a1, a2, a3, fun hk => a4 fun i hi => ?_⟩
        rw [List.getElem?_drop, ← hW, ← hright]
        exact hk _ (by rw [hN, if_neg (by omega), if_neg (by omega), if_neg (by omega), Nat.add_sub_cancel_left, hi]; congr 1; omega)

theorem num_write (v : UInt32) : Num (writeUvarint32 v) v.toNat := by
  obtain ⟨l, h1, h2⟩ := (readUvarint32_exact (writeUvarint32 v) v []).mp (by
    have := readUvarint32_put v []
    simpa using this)
  rw [List.append_nil] at h1
  rw [h1]; exact h2

theorem nodesAs_write (ns : List Fname) : (∀ n ∈ ns, n.name.length < 2 ^ 32) → NodesAs (ns.flatMap writeNode) (ns.map says) := by
  induction ns with
  | nil => intro _; exact rfl
  | cons n ns ih =>
    intro h
    have hn := h n (by simp)
    refine ⟨writeNode n, ns.flatMap writeNode, by simp, ?_, ih (fun m hm => h m (by simp [hm]))⟩
    refine ⟨_, _, rfl, ?_, num_write _, hn, n.parent.toNat_lt⟩
    have := num_write (UInt32.ofNat n.name.length)
    rwa [UInt32.toNat_ofNat', Nat.mod_eq_of_lt hn] at this

/-- a table is read whatever its names are -/
theorem read_names {t : Table} (hl : t.length < 2 ^ 32) (hn : ∀ n ∈ t, n.name.length < 2 ^ 32) (hp : ∀ n ∈ t, n.parent.toNat < t.length) :
    ∃ t', read (write t) = .ok t' ∧ t'.map says = t.map says := by
  refine read_of_table ⟨writeUvarint32 (UInt32.ofNat t.length), t.flatMap writeNode, [], by simp [write], ?_, by simpa using hl, nodesAs_write t hn, ?_⟩
  · have := num_write (UInt32.ofNat t.length)
    rw [UInt32.toNat_ofNat', Nat.mod_eq_of_lt hl] at this
    simpa using this
  · intro n hn'
    obtain ⟨m, hm, rfl⟩ := List.mem_map.mp hn'
    simpa [says] using hp m hm

/-- the way to a node when names are other ones: the same when the names on it are -/
theorem Comps.renamed {t t' : Table} {K : Nat → Prop} (h : ∀ (j : Nat) n, t[j]? = some n → ∃ n', t'[j]? = some n' ∧ n'.parent = n.parent ∧ (K j → n'.name = n.name))
    {i : Nat} {cs : List Bytes} (hc : Comps t i cs) : ∃ cs', Comps t' i cs' ∧ ((∀ j css, Comps t j css → css ≠ [] → css <+: cs → K j) → cs' = cs) := by
  induction hc with
  | root => exact ⟨[], .root, fun _ => rfl⟩
  | @step i n cs hi hn hc ih =>
    obtain ⟨n', a1, a2, a3⟩ := h i n hn
    obtain ⟨cs', b1, b2⟩ := ih
    refine ⟨cs' ++ [n'.name], .step hi a1 (by rw [a2]; exact b1), fun hk => ?_⟩
    rw [b2 fun j css h1 h2 h3 => hk j css h1 h2 (h3.trans (List.prefix_append _ _)), a3 (hk i _ (.step hi hn hc) (by simp) (List.prefix_refl _))]

/-- a path beginning with a slash and a way to it, as parts -/
theorem way_parts {p q : Bytes} {r : Bytes} (hp : p = 47 :: r) (hq : q ∈ Spec.ways p) :
    ∃ cs, cs ≠ [] ∧ cs <+: splitSlash r ∧ q = 47 :: joinSlash cs := by
  obtain ⟨h0, h⟩ := mem_ways.mp hq
  rcases h with h | ⟨s, h⟩
  · exact ⟨splitSlash r, splitSlash_ne_nil r, List.prefix_refl _, by rw [join_split, h, hp]⟩
  · cases q with
    | nil => exact absurd rfl h0
    | cons a q =>
      rw [hp] at h
      simp only [List.cons_append, List.cons.injEq] at h
      obtain ⟨rfl, h⟩ := h
      have e : splitSlash r = splitSlash q ++ splitSlash s := by rw [h]; exact splitSlash_append q s
      exact ⟨splitSlash q, splitSlash_ne_nil q, by rw [e]; exact List.prefix_append _ _, by rw [join_split]⟩

theorem parts_way {p : Bytes} {r : Bytes} (hp : p = 47 :: r) {cs : List Bytes} (h0 : cs ≠ []) (hc : cs <+: splitSlash r) : 47 :: joinSlash cs ∈ Spec.ways p := by
  rw [mem_ways]
  refine ⟨by simp, ?_⟩
  obtain ⟨t, ht⟩ := hc
  cases t with
  | nil =>
    left
    rw [List.append_nil] at ht
    rw [ht, join_split, hp]
  | cons a t =>
    right
    refine ⟨joinSlash (a :: t), ?_⟩
    rw [hp, ← join_split r, ← ht, joinSlash_append cs _ h0 (by simp)]
    rfl

theorem lastPart_join {cs : List Bytes} {nm : Bytes} (hn : (47 : UInt8) ∉ nm) : Spec.lastPart (47 :: joinSlash (cs ++ [nm])) = nm := by
  obtain ⟨pre, hpre⟩ : ∃ pre, (47 : UInt8) :: joinSlash (cs ++ [nm]) = pre ++ 47 :: nm := by
    by_cases h0 : cs = []
    · subst h0; exact ⟨[], rfl⟩
    · rw [joinSlash_append cs _ h0 (by simp)]
      exact ⟨47 :: joinSlash cs, rfl⟩
  rw [hpre]
  unfold Spec.lastPart
  rw [List.reverse_append, List.reverse_cons, List.append_assoc, List.takeWhile_append_of_pos (by
    intro a ha
    have : a ∈ nm := by simpa using ha
    simp only [decide_not, Bool.not_eq_eq_eq_not, Bool.not_true, decide_eq_false_iff_not]
    rintro rfl; exact hn this)]
  simp

theorem join_inj {a b : List Bytes} (ha : a ≠ []) (hb : b ≠ []) (h1 : ∀ e ∈ a, (47 : UInt8) ∉ e) (h2 : ∀ e ∈ b, (47 : UInt8) ∉ e)
    (h : joinSlash a = joinSlash b) : a = b := by
  rw [← splitSlash_join a ha h1, h, splitSlash_join b hb h2]

end Dupi.Fnames
