import Verif.Model.Faults
import Verif.Proof.Shard
/-! # A posting file some of whose writes failed

Blocks with gaps in between; all that is known of a gap is that no poster points into it. -/

namespace Dupi

/-- the bytes `b` are in `f` at `pos` -/
def At (f : Bytes) (pos : Nat) (b : Bytes) : Prop := b <+: f.drop pos

theorem at_iff {f : Bytes} {pos : Nat} {b : Bytes} : At f pos b ↔ ∀ i (h : i < b.length), f[pos + i]? = some b[i] := by
  unfold At
  rw [List.prefix_iff_getElem?]
  simp [List.getElem?_drop]

theorem At.len {f : Bytes} {pos : Nat} {b : Bytes} (h : At f pos b) : b.length ≤ f.length - pos := by
  have := h.length_le
  simpa using this

theorem At.split {f : Bytes} {pos : Nat} {b : Bytes} (h : At f pos b) (hb : b ≠ []) : ∃ pre post, f = pre ++ b ++ post ∧ pre.length = pos := by
  have hl := h.len
  have := List.length_pos_iff.mpr hb
  obtain ⟨post, hp⟩ := h
  exact ⟨f.take pos, post, by rw [List.append_assoc, hp, List.take_append_drop], by rw [List.length_take]; omega⟩

theorem At.append {f : Bytes} {pos : Nat} {a b : Bytes} : At f pos (a ++ b) ↔ At f pos a ∧ At f (pos + a.length) b := by
  unfold At
  constructor
  · rintro ⟨t, ht⟩
    refine ⟨⟨b ++ t, by rw [← List.append_assoc, ht]⟩, ⟨t, ?_⟩⟩
    rw [← List.drop_drop, ← ht, List.append_assoc, List.drop_left]
  · rintro ⟨⟨t, ht⟩, ⟨s, hs⟩⟩
    rw [← List.drop_drop, ← ht, List.drop_left] at hs
    exact ⟨s, by rw [List.append_assoc, hs, ht]⟩

theorem getElem?_writeAt (f : Bytes) (p : Nat) (d : Bytes) (i : Nat) (hp : p ≤ f.length) :
    (writeAt f p d)[i]? = if i < p then f[i]? else if i < p + d.length then d[i - p]? else f[i]? := by
  unfold writeAt
  have h0 : p - f.length = 0 := by omega
  rw [h0, List.replicate_zero, List.append_nil, List.append_assoc]
  split
  · rename_i h
    rw [List.getElem?_append_left (by rw [List.length_take]; omega), List.getElem?_take_of_lt h]
  · rename_i h
    rw [List.getElem?_append_right (by rw [List.length_take]; omega), List.length_take, Nat.min_eq_left hp]
    split
    · rename_i h2
      rw [List.getElem?_append_left (by omega)]
    · rename_i h2
      rw [List.getElem?_append_right (by omega), List.getElem?_drop]
      congr 1
      omega

theorem At.write {f : Bytes} {pos : Nat} {b : Bytes} (h : At f pos b) (p : Nat) (d : Bytes) (hp : p ≤ f.length)
    (hd : pos + b.length ≤ p ∨ p + d.length ≤ pos) : At (writeAt f p d) pos b := by
  rw [at_iff] at h ⊢
  intro i hi
  rw [getElem?_writeAt _ _ _ _ hp]
  split
  · exact h i hi
  · rw [if_neg (by omega)]; exact h i hi

theorem At.wrote (f : Bytes) (p : Nat) (d : Bytes) (hp : p ≤ f.length) : At (writeAt f p d) p d := by
  rw [at_iff]
  intro i hi
  rw [getElem?_writeAt _ _ _ _ hp, if_neg (by omega), if_pos (by omega), show p + i - p = i by omega]
  exact List.getElem?_eq_getElem hi

theorem writeAt_length (f : Bytes) (p : Nat) (d : Bytes) (hp : p ≤ f.length) : (writeAt f p d).length = max f.length (p + d.length) := by
  unfold writeAt
  simp only [List.length_append, List.length_take, List.length_drop, List.length_replicate]
  omega

/-! ### Blocks in place -/

/-- a chunk of `owner` at `pos` -/
structure PBlk where
  owner : Nat
  pos : Nat
  payload : Bytes

namespace PBlk
def hdr (b : PBlk) : Bytes := putVarint ((b.payload.length + 8 : Nat) : Int)
/-- where its link is -/
def link (b : PBlk) : Nat := b.pos + b.hdr.length + b.payload.length
def stop (b : PBlk) : Nat := b.link + 8
end PBlk

/-- the blocks `L` are in `f`, one behind the other; nothing is said of their links -/
structure Laid (f : Bytes) (L : List PBlk) : Prop where
  apart : L.Pairwise fun a b => a.stop ≤ b.pos
  inside : ∀ b ∈ L, b.stop ≤ f.length
  here : ∀ b ∈ L, At f b.pos (b.hdr ++ b.payload)

/-- each block of `own` but the last links to the next one -/
def Linked (f : Bytes) : List PBlk → Prop
  | a :: b :: r => At f a.link (linkBytes (b.pos : Int)) ∧ Linked f (b :: r)
  | _ => True

def ownOf (o : Nat) (L : List PBlk) : List PBlk := L.filter (·.owner = o)

theorem ownOf_snoc (o : Nat) (L : List PBlk) (b : PBlk) : ownOf o (L ++ [b]) = ownOf o L ++ (if b.owner = o then [b] else []) := by
  unfold ownOf
  rw [List.filter_append]
  congr 1
  by_cases h : b.owner = o <;> simp [h]

theorem PBlk.link_bounds (b : PBlk) : b.pos ≤ b.link ∧ b.link + 8 = b.stop := ⟨by unfold PBlk.link; omega, rfl⟩

theorem Laid.disjoint {f : Bytes} {L : List PBlk} (h : Laid f L) {a b : PBlk} (ha : a ∈ L) (hb : b ∈ L) :
    a = b ∨ a.stop ≤ b.pos ∨ b.stop ≤ a.pos := by
  obtain ⟨i, hi, ei⟩ := List.getElem_of_mem ha
  obtain ⟨j, hj, ej⟩ := List.getElem_of_mem hb
  have hp := List.pairwise_iff_getElem.mp h.apart
  rcases Nat.lt_trichotomy i j with e | e | e
  · exact .inr (.inl (by rw [← ei, ← ej]; exact hp i j hi hj e))
  · subst e; exact .inl (by rw [← ei, ← ej])
  · exact .inr (.inr (by rw [← ei, ← ej]; exact hp j i hj hi e))

/-- a write at the end, or within the link of a block, leaves the blocks in place -/
theorem Laid.write {f : Bytes} {L : List PBlk} (h : Laid f L) (p : Nat) (d : Bytes) (hp : p ≤ f.length)
    (hw : p = f.length ∨ ∃ b ∈ L, p = b.link ∧ d.length ≤ 8) : Laid (writeAt f p d) L := by
  refine ⟨h.apart, fun b hb => ?_, fun b hb => ?_⟩
  · have := h.inside b hb
    rw [writeAt_length _ _ _ hp]; omega
  · apply (h.here b hb).write p d hp
    have hl : b.pos + (b.hdr ++ b.payload).length = b.link := by simp [PBlk.link]; omega
    rw [hl]
    have hb' := b.link_bounds
    rcases hw with e | ⟨c, hc, e, hd⟩
    · have := h.inside b hb; left; omega
    · have hc' := c.link_bounds
      rcases h.disjoint hb hc with e2 | e2 | e2
      · subst e2; left; omega
      · left; omega
      · right; omega

theorem Laid.snoc {f : Bytes} {L : List PBlk} (h : Laid f L) (nb : PBlk) (hpos : ∀ b ∈ L, b.stop ≤ nb.pos) (hin : nb.stop ≤ f.length)
    (hat : At f nb.pos (nb.hdr ++ nb.payload)) : Laid f (L ++ [nb]) := by
  refine ⟨?_, ?_, ?_⟩
  · rw [List.pairwise_append]
    exact ⟨h.apart, by simp, by simpa using hpos⟩
  · intro b hb
    rcases List.mem_append.mp hb with hb | hb
    · exact h.inside b hb
    · rw [List.mem_singleton.mp hb]; exact hin
  · intro b hb
    rcases List.mem_append.mp hb with hb | hb
    · exact h.here b hb
    · rw [List.mem_singleton.mp hb]; exact hat

theorem Linked.of_at {f g : Bytes} : ∀ {own : List PBlk}, Linked f own →
    (∀ a ∈ own.dropLast, ∀ d : Bytes, d.length = 8 → At f a.link d → At g a.link d) → Linked g own
  | [], _, _ => trivial
  | [_], _, _ => trivial
  | a :: b :: r, h, hw => ⟨hw a (by simp) _ rfl h.1, Linked.of_at h.2 (fun c hc => hw c (by simp [hc]))⟩

theorem Linked.snoc {f : Bytes} (nb : PBlk) : ∀ {own : List PBlk}, Linked f own →
    (∀ b, own.getLast? = some b → At f b.link (linkBytes (nb.pos : Int))) → Linked f (own ++ [nb])
  | [], _, _ => trivial
  | [a], _, h2 => ⟨h2 a rfl, trivial⟩
  | a :: b :: r, h, h2 => ⟨h.1, Linked.snoc nb (own := b :: r) h.2 (fun c hc => h2 c (by simpa using hc))⟩

end Dupi
