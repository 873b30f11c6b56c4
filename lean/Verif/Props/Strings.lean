import Verif.Model.Strings
import Verif.Proof.Text
import Verif.Props.Posts
/-! # C124: what is printed of tokens and posts tells them apart -/

namespace Dupi
namespace Props
open Cmd

/-- **C124** of tokens: they print alike precisely if they are alike (in tag, text and place), whatever bytes the text has, quotes and digits included. -/
theorem C124_token (t t' : Tok) : t.string = t'.string ↔ t = t' := by
  refine ⟨fun h => ?_, fun h => by rw [h]⟩
  obtain ⟨g, l, p⟩ := t
  obtain ⟨g', l', p'⟩ := t'
  unfold Tok.string at h
  rw [List.append_cancel_right_eq] at h
  simp only at h
  have h64 (n : UInt32) : (64 : UInt8) ∉ dec n := dec_not n 64 (by simp)
  have e (g : Tag) (l : Bytes) (p : UInt32) : [60, 116, 111, 107, 101, 110, 32] ++ g.string ++ [58, 32, 39] ++ l ++ [39, 32, 64] ++ dec p =
      ([60, 116, 111, 107, 101, 110, 32] ++ g.string ++ [58, 32, 39] ++ l ++ [39, 32]) ++ 64 :: dec p := by simp
  rw [e, e] at h
  obtain ⟨h1, h2⟩ := split_last (h64 p) (h64 p') h
  rw [List.append_cancel_right_eq] at h1
  rw [dec_inj h2]
  cases g <;> cases g' <;> simp [Tag.string] at h1 ⊢ <;> exact h1

/-- **C124** of posts: two print alike precisely if they have the same document and blots with the same low 16 bits. -/
theorem C124_post (p q : Post) : p.string = q.string ↔ p.docid = q.docid ∧ p.blot.toNat % 65536 = q.blot.toNat % 65536 := by
  have hm (b : UInt32) : (b &&& 0xffff).toNat = b.toNat % 65536 := by
    rw [UInt32.toNat_and]
    exact Nat.and_two_pow_sub_one_eq_mod b.toNat 16
  have h44 (n : UInt32) : (44 : UInt8) ∉ dec n := by
    intro hmem
    obtain ⟨d, hd⟩ := digits_mem (by omega) _ _ hmem
    have : ∀ d : Fin 16, (44 : UInt8) ≠ digit d.val := by decide +kernel
    exact this d hd
  constructor
  · intro h
    unfold Post.string at h
    rw [List.append_cancel_right_eq, List.cons_append, List.cons_append, List.cons.injEq] at h
    obtain ⟨h1, h2⟩ := split_first (h44 _) (h44 _) h.2
    refine ⟨dec_inj h1, ?_⟩
    rw [← hm, ← hm, hex_inj h2]
  · rintro ⟨h1, h2⟩
    unfold Post.string
    rw [h1, UInt32.toNat_inj.mp ((hm p.blot).trans (h2.trans (hm q.blot).symm))]

/-- So posts sent to shards of an index, whose blots are below the number of shards times 2^16, are told apart within a shard. -/
theorem C124_shard {n b b' d d' i : UInt32} {p q : Post} (hb : b.toNat < n.toNat * 65536) (hb' : b'.toNat < n.toNat * 65536)
    (hp : shatterRoute n d b = .ok (i, p)) (hq : shatterRoute n d' b' = .ok (i, q)) : p.string = q.string ↔ d = d' ∧ b = b' := by
  unfold shatterRoute at hp hq
  split at hp
  · cases hp
  · rename_i hn
    rw [if_neg hn] at hq
    simp only [Except.ok.injEq, Prod.mk.injEq] at hp hq
    obtain ⟨hi, rfl⟩ := hp
    obtain ⟨hi', rfl⟩ := hq
    have hn0 : 0 < n.toNat := by
      rcases Nat.eq_zero_or_pos n.toNat with e | e
      · exact absurd (UInt32.toNat_inj.mp e) hn
      · exact e
    have s1 := (C01_split_make d (b / n)).2
    have s2 := (C01_split_make d' (b' / n)).2
    rw [C124_post, s1.1, s1.2, s2.1, s2.2, UInt32.toNat_div, UInt32.toNat_div]
    have l1 : b.toNat / n.toNat < 65536 := Nat.div_lt_of_lt_mul hb
    have l2 : b'.toNat / n.toNat < 65536 := Nat.div_lt_of_lt_mul hb'
    rw [Nat.mod_eq_of_lt l1, Nat.mod_eq_of_lt l2]
    refine and_congr_right fun _ => ⟨fun h => ?_, fun h => by rw [h]⟩
    have hm := congrArg UInt32.toNat (hi.trans hi'.symm)
    rw [UInt32.toNat_mod, UInt32.toNat_mod] at hm
    apply UInt32.toNat_inj.mp
    rw [← Nat.div_add_mod b.toNat n.toNat, ← Nat.div_add_mod b'.toNat n.toNat, h, hm]

/-- **C124 is false of posts**: for every post there is another that prints alike. -/
theorem C124_false (p : Post) : ∃ q : Post, q ≠ p ∧ q.string = p.string := by
  have s := (C01_split_make p.docid (p.blot ^^^ 65536)).2
  refine ⟨Post.make p.docid (p.blot ^^^ 65536), fun e => ?_, ?_⟩
  · have := s.2
    rw [e] at this
    have h2 : p.blot ^^^ p.blot = p.blot ^^^ (p.blot ^^^ 65536) := by rw [← this]
    rw [← UInt32.xor_assoc, UInt32.xor_self, UInt32.zero_xor] at h2
    exact absurd h2 (by decide)
  · rw [C124_post, s.1, s.2, UInt32.toNat_xor]
    refine ⟨rfl, ?_⟩
    have := Nat.xor_mod_two_pow (a := p.blot.toNat) (b := 65536) (n := 16)
    simpa using this

/-- Two tokens whose texts hold what is printed between them are told apart; two posts of a shard too, and two posts are not. -/
theorem C124_nonvacuous : (∃ t t' : Tok, t ≠ t' ∧ t.tag = t'.tag ∧ t.pos = t'.pos ∧ t.string ≠ t'.string) ∧
    (∃ (n d b i : UInt32) (p : Post), b.toNat < n.toNat * 65536 ∧ shatterRoute n d b = .ok (i, p)) ∧ ∃ p q : Post, p ≠ q ∧ p.string = q.string := by
  refine ⟨⟨⟨.word, [39, 32, 64, 53], 5⟩, ⟨.word, [39, 32, 64, 53, 39], 5⟩, by decide, rfl, rfl, fun h => ?_⟩, ⟨2, 1, 5, _, _, by decide, rfl⟩, ?_⟩
  · have := (C124_token _ _).mp h
    simp at this
  · obtain ⟨q, h1, h2⟩ := C124_false 0
    exact ⟨q, 0, h1, h2⟩

end Props
end Dupi
