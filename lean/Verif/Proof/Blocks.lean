import Verif.Model.Poster
import Verif.Proof.Varint
/-! # The posting file as a list of blocks -/

namespace Dupi

/-- deltas as the poster encodes them -/
def encDeltas (ds : List UInt32) : Bytes := ds.flatMap fun d => putUvarint d.toNat

/-- one flushed buffer of the poster `owner` -/
structure Blk where
  owner : Nat
  deltas : List UInt32

namespace Blk
def payload (b : Blk) : Bytes := encDeltas b.deltas
def hdr (b : Blk) : Bytes := putVarint ((b.payload.length + 8 : Nat) : Int)
def size (b : Blk) : Nat := b.hdr.length + b.payload.length + 8
/-- a block the writer can produce and the reader can hold -/
structure WF (b : Blk) : Prop where
  ne : b.deltas ≠ []
  small : b.payload.length ≤ 522
end Blk

def linkBytes (l : Int) : Bytes := be64 (i64ToU64 l)

theorem linkBytes_length (l : Int) : (linkBytes l).length = 8 := rfl

theorem linkBytes_nat (n : Nat) : linkBytes (n : Int) = be64 (UInt64.ofNat n) := by
  unfold linkBytes
  congr 1
  unfold i64ToU64
  apply UInt64.toNat_inj.mp
  simp only [UInt64.toNat_ofNat']
  omega

/-- offset of the first block of `o`, -1 if there is none -/
def nextOff (o : Nat) : Nat → List Blk → Int
  | _, [] => -1
  | off, b :: bs => if b.owner = o then (off : Int) else nextOff o (off + b.size) bs

/-- offset of the link of the last block of `o`, -1 if there is none -/
def lastLink (o : Nat) : Nat → List Blk → Int
  | _, [] => -1
  | off, b :: bs =>
    if lastLink o (off + b.size) bs ≠ -1 then lastLink o (off + b.size) bs
    else if b.owner = o then ((off + b.size : Nat) : Int) - 8 else -1

def sizes (bs : List Blk) : Nat := (bs.map Blk.size).sum

/-- the bytes of the blocks `bs` placed at offset `off` -/
def render : Nat → List Blk → Bytes
  | _, [] => []
  | off, b :: bs =>
    b.hdr ++ (b.payload ++ linkBytes (nextOff b.owner (off + b.size) bs)) ++ render (off + b.size) bs

/-- the deltas of `o` in `bs` -/
def flushed (o : Nat) (bs : List Blk) : List UInt32 := (bs.filter (·.owner = o)).flatMap Blk.deltas

theorem sizes_cons (b : Blk) (bs : List Blk) : sizes (b :: bs) = b.size + sizes bs := by
  simp [sizes]

theorem render_length (bs : List Blk) : ∀ off, (render off bs).length = sizes bs := by
  induction bs with
  | nil => intro off; simp [render, sizes]
  | cons b bs ih =>
    intro off
    simp [render, ih, sizes_cons, linkBytes_length, Blk.size]; omega

theorem nextOff_ge (o : Nat) (bs : List Blk) : ∀ off, nextOff o off bs = -1 ∨ (off : Int) ≤ nextOff o off bs := by
  induction bs with
  | nil => intro off; simp [nextOff]
  | cons b bs ih =>
    intro off
    simp only [nextOff]
    split
    · right; omega
    · rcases ih (off + b.size) with h | h
      · left; exact h
      · right; omega

theorem nextOff_lt (o : Nat) (bs : List Blk) : ∀ off, nextOff o off bs < ((off + sizes bs : Nat) : Int) := by
  induction bs with
  | nil => intro off; simp [nextOff]; omega
  | cons b bs ih =>
    intro off
    simp only [nextOff, sizes_cons]
    have : 8 ≤ b.size := by unfold Blk.size; omega
    split
    · omega
    · have := ih (off + b.size); rw [Nat.add_assoc] at this; exact this

theorem nextOff_append (o : Nat) (nb : Blk) (bs : List Blk) : ∀ off,
    nextOff o off (bs ++ [nb]) =
      if nextOff o off bs ≠ -1 then nextOff o off bs
      else if nb.owner = o then ((off + sizes bs : Nat) : Int) else -1 := by
  induction bs with
  | nil => intro off; simp [nextOff, sizes]
  | cons b bs ih =>
    intro off
    simp only [List.cons_append, nextOff, ih, sizes_cons]
    by_cases h : b.owner = o
    · have : (off : Int) ≠ -1 := by omega
      simp [h, this]
    · simp [h, Nat.add_assoc]

theorem lastLink_ge (o : Nat) (bs : List Blk) : ∀ off,
    lastLink o off bs = -1 ∨ ((off : Int) ≤ lastLink o off bs ∧
      lastLink o off bs + 8 ≤ ((off + sizes bs : Nat) : Int)) := by
  induction bs with
  | nil => intro off; simp [lastLink]
  | cons b bs ih =>
    intro off
    have h8 : 8 ≤ b.size := by unfold Blk.size; omega
    simp only [lastLink, sizes_cons]
    rcases ih (off + b.size) with h | h
    · simp only [h, ne_eq, not_true, if_false]
      split
      · right; omega
      · left; rfl
    · by_cases e : lastLink o (off + b.size) bs = -1
      · simp only [e, ne_eq, not_true, if_false]
        split
        · right; omega
        · left; rfl
      · simp only [e, ne_eq, not_false_eq_true, if_true]
        right; omega

theorem lastLink_append (o : Nat) (nb : Blk) (bs : List Blk) : ∀ off,
    lastLink o off (bs ++ [nb]) =
      if nb.owner = o then ((off + sizes bs + nb.size : Nat) : Int) - 8 else lastLink o off bs := by
  induction bs with
  | nil => intro off; simp [lastLink, sizes]
  | cons b bs ih =>
    intro off
    simp only [List.cons_append, lastLink, ih, sizes_cons]
    by_cases h : nb.owner = o
    · have h8 : 8 ≤ nb.size := by unfold Blk.size; omega
      simp only [h, if_true]
      have : ((off + b.size + sizes bs + nb.size : Nat) : Int) - 8 ≠ -1 := by omega
      rw [if_pos this]; congr 2; omega
    · simp [h]

theorem lastLink_none (o : Nat) (bs : List Blk) : ∀ off, lastLink o off bs = -1 ↔ nextOff o off bs = -1 := by
  induction bs with
  | nil => intro off; simp [lastLink, nextOff]
  | cons b bs ih =>
    intro off
    simp only [lastLink, nextOff]
    have h8 : 8 ≤ b.size := by unfold Blk.size; omega
    by_cases e : lastLink o (off + b.size) bs = -1
    · by_cases h : b.owner = o
      · simp only [e, h]; simp; omega
      · simp only [e, h]; simp [(ih _).mp e]
    · by_cases h : b.owner = o
      · simp only [h, if_true]
        rw [if_pos e]
        constructor
        · intro h; exact absurd h e
        · intro h; omega
      · simp only [h, if_false]; rw [if_pos e]; exact ih _

theorem nextOff_owner_none (o : Nat) (bs : List Blk) : ∀ off, nextOff o off bs = -1 → flushed o bs = [] := by
  induction bs with
  | nil => intro off _; simp [flushed]
  | cons b bs ih =>
    intro off h
    simp only [nextOff] at h
    split at h
    · omega
    · rename_i hb
      have := ih _ h
      simp only [flushed] at this ⊢
      simp [hb, this]

/-! ### writing -/

theorem writeAt_end (f d : Bytes) : writeAt f f.length d = f ++ d := by
  simp [writeAt]

theorem writeAt_mid (A B C D : Bytes) (h : B.length = D.length) :
    writeAt (A ++ B ++ C) A.length D = A ++ D ++ C := by
  unfold writeAt
  have h1 : A.length - (A ++ B ++ C).length = 0 := by simp
  have h2 : A.length + D.length = (A ++ B).length := by simp [h]
  rw [h1, h2, List.drop_left]
  simp

theorem writeAt_shift (A T D : Bytes) (k : Nat) : writeAt (A ++ T) (A.length + k) D = A ++ writeAt T k D := by
  unfold writeAt
  have h1 : A.length + k - (A ++ T).length = k - T.length := by simp; omega
  rw [h1, List.append_assoc A, List.take_length_add_append, Nat.add_assoc, List.drop_length_add_append]
  simp only [List.append_assoc]

/-- the new contents before the appended block: the link of the last block of the owner patched -/
def patched (o : Nat) (off : Nat) (bs : List Blk) : Bytes :=
  if lastLink o off bs = -1 then render off bs
  else writeAt (render off bs) (lastLink o off bs - off).toNat (linkBytes ((off + sizes bs : Nat) : Int))

theorem render_append (nb : Blk) (bs : List Blk) : ∀ off,
    render off (bs ++ [nb]) =
      patched nb.owner off bs ++ (nb.hdr ++ (nb.payload ++ linkBytes (-1))) := by
  induction bs with
  | nil => intro off; simp [render, patched, lastLink, nextOff]
  | cons b bs ih =>
    intro off
    have h8 : b.size = b.hdr.length + b.payload.length + 8 := rfl
    simp only [List.cons_append, render, ih, nextOff_append]
    rw [← List.append_assoc _ (patched _ _ _)]
    congr 1
    by_cases e : lastLink nb.owner (off + b.size) bs = -1
    · have en := (lastLink_none _ _ _).mp e
      by_cases hb : b.owner = nb.owner
      · simp only [hb, en, ne_eq, not_true, if_false, if_true]
        simp only [patched, lastLink, e, hb, render, ne_eq, not_true, if_false, if_true, en]
        rw [if_neg (by omega)]
        have hoff : (((off + b.size : Nat) : Int) - 8 - (off : Int)).toNat = (b.hdr ++ b.payload).length := by
          simp only [List.length_append]; omega
        rw [hoff]
        have := writeAt_mid (b.hdr ++ b.payload) (linkBytes (-1)) (render (off + b.size) bs)
          (linkBytes ((off + sizes (b :: bs) : Nat) : Int)) rfl
        simp only [List.append_assoc] at this ⊢
        rw [this, sizes_cons, Nat.add_assoc]
      · have hb' : ¬ nb.owner = b.owner := fun h => hb h.symm
        have el : lastLink nb.owner off (b :: bs) = -1 := by simp [lastLink, e, hb]
        simp only [patched, e, el, if_true, hb', if_false, render]
        congr 3
        by_cases h : nextOff b.owner (off + b.size) bs = -1 <;> simp [h]
    · have hl : lastLink nb.owner off (b :: bs) = lastLink nb.owner (off + b.size) bs := by
        simp only [lastLink]; rw [if_pos e]
      have hbnd := lastLink_ge nb.owner bs (off + b.size)
      simp only [patched, hl, e, if_false, render]
      have hn : (if nextOff b.owner (off + b.size) bs ≠ -1 then nextOff b.owner (off + b.size) bs
          else if nb.owner = b.owner then ((off + b.size + sizes bs : Nat) : Int) else -1) =
          nextOff b.owner (off + b.size) bs := by
        by_cases hb : nb.owner = b.owner
        · have : nextOff b.owner (off + b.size) bs ≠ -1 := by
            rw [← hb]; intro h; exact e ((lastLink_none _ _ _).mpr h)
          simp [this]
        · by_cases h : nextOff b.owner (off + b.size) bs = -1 <;> simp [h, hb]
      rw [hn]
      have hoff : (lastLink nb.owner (off + b.size) bs - (off : Int)).toNat =
          (b.hdr ++ (b.payload ++ linkBytes (nextOff b.owner (off + b.size) bs))).length +
            (lastLink nb.owner (off + b.size) bs - ((off + b.size : Nat) : Int)).toNat := by
        simp only [List.length_append, linkBytes_length]; omega
      rw [hoff, writeAt_shift, sizes_cons, Nat.add_assoc]

theorem flushed_append (o : Nat) (nb : Blk) (bs : List Blk) :
    flushed o (bs ++ [nb]) = flushed o bs ++ (if nb.owner = o then nb.deltas else []) := by
  simp only [flushed, List.filter_append, List.flatMap_append]
  congr 1
  by_cases h : nb.owner = o <;> simp [h]

end Dupi
