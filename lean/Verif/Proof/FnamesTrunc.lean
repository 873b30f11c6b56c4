import Verif.Proof.FnamesIO
/-! # Truncated path tables -/

namespace Dupi.Fnames

theorem readUvarint32_prefix (v : UInt32) (n : Nat) (hn : n < (writeUvarint32 v).length) :
    ∃ e, readUvarint32 ((writeUvarint32 v).take n) = fail e := by
  obtain ⟨e, he⟩ := readUvarintLoop_prefix v.toNat 0 0 n hn
  refine ⟨e, ?_⟩
  simp only [readUvarint32, readUvarint, writeUvarint32, he]; rfl

theorem take_append_ge {a b : Bytes} {k : Nat} (h : a.length ≤ k) : (a ++ b).take k = a ++ b.take (k - a.length) := by
  rw [List.take_append, List.take_of_length_le h]

theorem take_append_lt {a b : Bytes} {k : Nat} (h : k < a.length) : (a ++ b).take k = a.take k := by
  rw [List.take_append, show k - a.length = 0 by omega]; simp

theorem readFull_short {a : Bytes} {n : Nat} (h : a.length < n) : ∃ e, readFull a n = fail e := by
  unfold readFull
  rw [if_neg (by omega)]
  split
  · exact ⟨_, rfl⟩
  · exact ⟨_, rfl⟩

theorem readLoop_trunc (ns : List Fname) : ∀ (i : Nat) (t : Table) (k : Nat),
    (∀ n ∈ ns, n.name.length < 2 ^ 32) → (∀ n ∈ ns, n.parent.toNat < t.length) →
    k < (ns.flatMap writeNode).length →
    ∃ e, readLoop ns.length i t ((ns.flatMap writeNode).take k) = fail e := by
  induction ns with
  | nil => intro i t k _ _ h; simp at h
  | cons n ns ih =>
    intro i t k hname hpar hk
    have hnl : (UInt32.ofNat n.name.length).toNat = n.name.length := by
      have := hname n (by simp)
      simp only [UInt32.toNat_ofNat']; omega
    have hpl := hpar n (by simp)
    simp only [List.flatMap_cons, writeNode, List.append_assoc, List.length_cons, readLoop] at hk ⊢
    by_cases h1 : k < (writeUvarint32 (UInt32.ofNat n.name.length)).length
    · obtain ⟨e, he⟩ := readUvarint32_prefix _ k h1
      exact ⟨e, by rw [take_append_lt h1, he]; rfl⟩
    · rw [take_append_ge (Nat.le_of_not_lt h1), readUvarint32_put]
      simp only [bind, Except.bind, hnl]
      generalize hk1 : k - (writeUvarint32 (UInt32.ofNat n.name.length)).length = k1
      by_cases h2 : k1 < n.name.length
      · rw [take_append_lt h2]
        obtain ⟨e, he⟩ := readFull_short (a := n.name.take k1) (n := n.name.length) (by simp; omega)
        exact ⟨e, by rw [he]⟩
      · rw [take_append_ge (Nat.le_of_not_lt h2), readFull_append]
        simp only []
        generalize hk2 : k1 - n.name.length = k2
        by_cases h3 : k2 < (writeUvarint32 n.parent).length
        · obtain ⟨e, he⟩ := readUvarint32_prefix _ k2 h3
          exact ⟨e, by rw [take_append_lt h3, he]⟩
        · rw [take_append_ge (Nat.le_of_not_lt h3), readUvarint32_put]
          simp only []
          generalize hm : ({ t.getD i zero with name := n.name, parent := n.parent } : Fname) = m
          have hlen : n.parent.toNat < (t.set i m).length := by simpa using hpl
          rw [List.getElem?_eq_getElem hlen]
          exact ih _ _ _ (fun x hx => hname x (by simp [hx]))
            (fun x hx => by simpa using hpar x (by simp [hx]))
            (by simp only [List.length_append] at hk; omega)

/-- Reading any proper prefix of a written table fails with an error. -/
theorem read_trunc (d : Table) (hwf : WF d) (hlen : d.length < 2 ^ 32) (hname : ∀ n ∈ d, n.name.length < 2 ^ 32)
    (k : Nat) (hk : k < (write d).length) : ∃ e, read ((write d).take k) = fail e := by
  have hl : (UInt32.ofNat d.length).toNat = d.length := by simp only [UInt32.toNat_ofNat']; omega
  have hpar : ∀ n ∈ d, n.parent.toNat < d.length := by
    intro n hn
    obtain ⟨i, hi⟩ := List.getElem?_of_mem hn
    have hilt := (List.getElem?_eq_some_iff.mp hi).1
    by_cases h0 : i = 0
    · subst h0
      obtain ⟨r, hr, h1, _⟩ := hwf.root
      rw [hi] at hr; cases hr
      rw [h1]; simpa using hilt
    · have := hwf.parentLt i n hi h0; omega
  unfold write at hk ⊢
  unfold read
  by_cases h1 : k < (writeUvarint32 (UInt32.ofNat d.length)).length
  · obtain ⟨e, he⟩ := readUvarint32_prefix _ k h1
    exact ⟨e, by rw [take_append_lt h1, he]; rfl⟩
  · rw [take_append_ge (Nat.le_of_not_lt h1), readUvarint32_put]
    simp only [bind, Except.bind, hl]
    obtain ⟨e, he⟩ := readLoop_trunc d 0 (List.replicate d.length zero) (k - (writeUvarint32 (UInt32.ofNat d.length)).length)
      hname (by simpa using hpar) (by simp only [List.length_append] at hk; omega)
    exact ⟨e, by rw [he]⟩

end Dupi.Fnames
