import Verif.Model.Post
/-! # C01, C02: posts and blot routing -/

namespace Dupi.Props

open Dupi

private theorem docid_toNat (p : UInt64) : (Post.docid p).toNat = p.toNat / 2 ^ 32 := by
  have := p.toNat_lt
  simp only [Post.docid, UInt64.toNat_toUInt32, UInt64.toNat_shiftRight, UInt64.reduceToNat,
    Nat.reduceMod, Nat.shiftRight_eq_div_pow]
  omega

private theorem blot_toNat (p : UInt64) : (Post.blot p).toNat = p.toNat % 2 ^ 32 := by
  simp [Post.blot]

private theorem make_toNat (d b : UInt32) :
    (Post.make d b).toNat = d.toNat * 2 ^ 32 + b.toNat := by
  have hd := d.toNat_lt
  have hb := b.toNat_lt
  simp only [Post.make, UInt64.toNat_or, UInt64.toNat_shiftLeft, UInt32.toNat_toUInt64,
    UInt64.reduceToNat, Nat.reduceMod]
  rw [Nat.mod_eq_of_lt (by rw [Nat.shiftLeft_eq]; omega), ← Nat.shiftLeft_add_eq_or_of_lt hb,
    Nat.shiftLeft_eq]

/-- **C01** unpacking a packed post gives back the docid and the blot, for all 2^64 pairs. -/
theorem C01_split_make (d b : UInt32) :
    Post.split (Post.make d b) = (d, b) ∧
    Post.docid (Post.make d b) = d ∧ Post.blot (Post.make d b) = b := by
  have hd := d.toNat_lt
  have hb := b.toNat_lt
  have h1 : Post.docid (Post.make d b) = d := by
    apply UInt32.toNat_inj.mp; rw [docid_toNat, make_toNat]; omega
  have h2 : Post.blot (Post.make d b) = b := by
    apply UInt32.toNat_inj.mp; rw [blot_toNat, make_toNat]; omega
  exact ⟨by rw [Post.split, h1, h2], h1, h2⟩

/-- **C01** every post is the packing of its components. -/
theorem C01_make_split (p : Post) : Post.make (Post.docid p) (Post.blot p) = p := by
  apply UInt64.toNat_inj.mp
  have := p.toNat_lt
  rw [make_toNat, docid_toNat, blot_toNat]; omega

/-- **C01** posts compare as integers in the order (docid, blot). -/
theorem C01_order (d b d' b' : UInt32) :
    Post.make d b < Post.make d' b' ↔ d < d' ∨ (d = d' ∧ b < b') := by
  have hd := d.toNat_lt
  have hb := b.toNat_lt
  have hd' := d'.toNat_lt
  have hb' := b'.toNat_lt
  simp only [UInt64.lt_iff_toNat_lt, UInt32.lt_iff_toNat_lt, make_toNat, ← UInt32.toNat_inj]
  omega

private theorem mod_toNat (b n : UInt32) : (b % n).toNat = b.toNat % n.toNat := UInt32.toNat_mod ..

private theorem mulN {n : UInt32} (hn : n < 65536) : (n * 65536).toNat = n.toNat * 65536 := by
  have h : n.toNat < 65536 := by simpa [UInt32.lt_iff_toNat_lt] using hn
  rw [UInt32.toNat_mul]
  simp only [UInt32.reduceToNat]
  omega

private theorem div_lt' {a n : Nat} (h : a < n * 65536) : a / n < 65536 := by
  by_cases hn : n = 0
  · subst hn; simp
  · exact (Nat.div_lt_iff_lt_mul (by omega)).mpr (by rw [Nat.mul_comm]; exact h)

/-- **C02** splitting a blot: with between 1 and 65535 shards `SplitBlot` does not panic, the
shard is a shard of the index, and joining the parts gives the blot modulo the number of buckets. -/
theorem C02_join_split (nsh b : UInt32) (h0 : 0 < nsh) (h1 : nsh < 65536) :
    ∃ s sb, splitBlot nsh b = .ok (s, sb) ∧ s < nsh ∧
      (joinBlot nsh s sb).toNat = b.toNat % (nsh.toNat * 65536) := by
  have hn0 : 0 < nsh.toNat := by simpa [UInt32.lt_iff_toNat_lt] using h0
  have hn1 : nsh.toNat < 65536 := by simpa [UInt32.lt_iff_toNat_lt] using h1
  have hne : nsh * 65536 ≠ 0 := by
    intro h
    have := congrArg UInt32.toNat h
    rw [mulN h1] at this
    simp at this; omega
  refine ⟨_, _, by rw [splitBlot, if_neg hne], ?_, ?_⟩
  · rw [UInt32.lt_iff_toNat_lt, mod_toNat]; exact Nat.mod_lt _ hn0
  · have hlt : b.toNat % (nsh.toNat * 65536) < nsh.toNat * 65536 := Nat.mod_lt _ (by omega)
    have hd := div_lt' hlt
    generalize hm : b.toNat % (nsh.toNat * 65536) = m at *
    have hdm := Nat.div_add_mod m nsh.toNat
    have hml : nsh.toNat * (m / nsh.toNat) ≤ m := Nat.mul_div_le ..
    simp only [joinBlot, UInt32.toNat_add, UInt32.toNat_mul, mod_toNat, mulN h1,
      UInt16.toNat_toUInt32, UInt32.toNat_toUInt16, UInt32.toNat_div, hm]
    rw [Nat.mod_eq_of_lt (a := m / nsh.toNat) (by omega), Nat.mod_eq_of_lt (a := _ * _) (by omega),
      hdm, Nat.mod_eq_of_lt (by omega)]

/-- **C02** splitting a joined blot gives back the parts. -/
theorem C02_split_join (nsh s : UInt32) (sb : UInt16) (h1 : nsh < 65536)
    (hs : s < nsh) : splitBlot nsh (joinBlot nsh s sb) = .ok (s, sb) := by
  have hn1 : nsh.toNat < 65536 := by simpa [UInt32.lt_iff_toNat_lt] using h1
  have hs' : s.toNat < nsh.toNat := by simpa [UInt32.lt_iff_toNat_lt] using hs
  have hsb := sb.toNat_lt
  have hj : (joinBlot nsh s sb).toNat = nsh.toNat * sb.toNat + s.toNat := by
    have : nsh.toNat * sb.toNat ≤ nsh.toNat * 65535 := Nat.mul_le_mul_left _ (by omega)
    simp only [joinBlot, UInt32.toNat_add, UInt32.toNat_mul, UInt16.toNat_toUInt32]
    omega
  have hlt : nsh.toNat * sb.toNat + s.toNat < nsh.toNat * 65536 := by
    have : nsh.toNat * sb.toNat ≤ nsh.toNat * 65535 := Nat.mul_le_mul_left _ (by omega)
    omega
  have hne : nsh * 65536 ≠ 0 := by
    intro h
    have := congrArg UInt32.toNat h
    rw [mulN h1] at this
    simp at this; omega
  rw [splitBlot, if_neg hne]
  refine congrArg Except.ok (Prod.ext ?_ ?_)
  · apply UInt32.toNat_inj.mp
    simp only [mod_toNat, mulN h1, hj]
    rw [Nat.mod_eq_of_lt hlt, Nat.mul_add_mod, Nat.mod_eq_of_lt hs']
  · apply UInt16.toNat_inj.mp
    simp only [UInt32.toNat_toUInt16, UInt32.toNat_div, mod_toNat, mulN h1, hj]
    rw [Nat.mod_eq_of_lt hlt, Nat.mul_add_div (by omega), Nat.div_eq_of_lt hs']
    simp

/-- **C02** routing: for every shard count and every 32-bit blot, the shard and bucket at which
the indexer stores a post for blot `b` of document `d` are those at which a query for `b` looks
(and both agree with `SplitBlot` when that does not overflow). -/
theorem C02_route (n d b : UInt32) (h0 : 0 < n) :
    ∃ shard p bucket, shatterRoute n d b = .ok (shard, p) ∧ shard < n ∧
      serveBucket p = (d, bucket) ∧ bucket < 65536 ∧
      getRoute n b = .ok (shard, UInt16.ofNat bucket) ∧
      (n < 65536 → splitBlot n b = .ok (shard, UInt16.ofNat bucket)) := by
  have hn0 : 0 < n.toNat := by simpa [UInt32.lt_iff_toNat_lt] using h0
  have hne : n ≠ 0 := by intro h; subst h; simp at hn0
  refine ⟨b % n, Post.make d (b / n), ((b / n) &&& 0xffff).toNat, by rw [shatterRoute, if_neg hne],
    ?_, ?_, ?_, ?_, ?_⟩
  · rw [UInt32.lt_iff_toNat_lt, mod_toNat]; exact Nat.mod_lt _ hn0
  · simp only [serveBucket, (C01_split_make d (b / n)).2.1, (C01_split_make d (b / n)).2.2]
  · rw [UInt32.toNat_and]
    exact Nat.lt_of_le_of_lt Nat.and_le_right (by decide)
  all_goals
    have hand : ((b / n) &&& 0xffff).toNat = (b.toNat / n.toNat) % 65536 := by
      rw [UInt32.toNat_and, UInt32.toNat_div]
      exact Nat.and_two_pow_sub_one_eq_mod _ 16
  · rw [getRoute, if_neg hne, hand]
    congr 2
    apply UInt16.toNat_inj.mp
    simp [UInt32.toNat_div]
  · intro h1
    have hn1 : n.toNat < 65536 := by simpa [UInt32.lt_iff_toNat_lt] using h1
    have hne' : n * 65536 ≠ 0 := by
      intro h
      have := congrArg UInt32.toNat h
      rw [mulN h1] at this
      simp at this; omega
    rw [splitBlot, if_neg hne', hand]
    refine congrArg Except.ok (Prod.ext ?_ ?_)
    · apply UInt32.toNat_inj.mp
      simp only [mod_toNat, mulN h1]
      exact Nat.mod_mul_right_mod ..
    · apply UInt16.toNat_inj.mp
      simp only [UInt32.toNat_toUInt16, UInt32.toNat_div, mod_toNat, mulN h1, UInt16.toNat_ofNat']
      rw [Nat.mod_mul_right_div_self]

/-- **C02** the blot reported by extraction for a bucket is the joined blot. -/
theorem C02_fill (n i : UInt32) (sb : UInt16) : fillBlotId n i sb = joinBlot n i sb := by
  simp [fillBlotId, joinBlot, UInt32.mul_comm]

/-- **C02** limit of the claim: with exactly 65536 shards the modulus wraps to zero and
`SplitBlot` panics (so the bound `nsh < 65536` cannot be dropped). -/
theorem C02_overflow : splitBlot 65536 7 = panic' := by decide

-- non-vacuity: 4 shards (the CLI default), a blot with high bits set
example : splitBlot 4 0xdeadbeef = .ok (3, 0x6fbb) ∧ joinBlot 4 3 0x6fbb = 0x1beef ∧
    getRoute 4 0xdeadbeef = .ok (3, 0x6fbb) := by decide
example : Post.split (Post.make 0x80000001 0xffffffff) = (0x80000001, 0xffffffff) := by decide

end Dupi.Props
