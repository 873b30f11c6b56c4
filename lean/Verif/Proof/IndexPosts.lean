import Verif.Proof.Words
import Verif.Spec.Index
import Verif.Spec.Postings
import Verif.Proof.ListX
/-! # The posts of documents and the posting lists they make -/

namespace Dupi
open Spec

/-- the posts of a document with the given blots for shard `j` of `n`, as (docid, bucket) -/
def docPosts (n j : Nat) (id : Nat) (bl : List UInt32) : List (UInt32 × Nat) :=
  (bl.filter fun x => x.toNat % n = j).map fun x => (UInt32.ofNat id, x.toNat / n % 65536)

/-- the posts for shard `j` of documents with consecutive ids from `i` on -/
def shardPosts (u : Uni) (c : Config) (j : Nat) : Nat → List Document → List (UInt32 × Nat)
  | _, [] => []
  | i, s :: ss => docPosts c.numShards.toNat j i (blotsOf u c s.dat) ++ shardPosts u c j (i + 1) ss

theorem shardPosts_append (u : Uni) (c : Config) (j : Nat) (a b : List Document) : ∀ i,
    shardPosts u c j i (a ++ b) = shardPosts u c j i a ++ shardPosts u c j (i + a.length) b := by
  induction a with
  | nil => intro i; rfl
  | cons s a ih =>
    intro i
    simp only [List.cons_append, shardPosts, ih, List.append_assoc, List.length_cons]
    rw [Nat.add_right_comm, Nat.add_assoc]

theorem shardPosts_bucket (u : Uni) (c : Config) (j : Nat) (a : List Document) : ∀ i, ∀ q ∈ shardPosts u c j i a, q.2 < 65536 := by
  induction a with
  | nil => intro i q hq; simp [shardPosts] at hq
  | cons s a ih =>
    intro i q hq
    rw [shardPosts, List.mem_append] at hq
    rcases hq with hq | hq
    · simp only [docPosts, List.mem_map] at hq
      obtain ⟨x, _, rfl⟩ := hq
      exact Nat.mod_lt _ (by omega)
    · exact ih _ _ hq

/-- total number of blots of some documents -/
def numBlots (u : Uni) (c : Config) (docs : List Document) : Nat := (docs.map fun s => (blotsOf u c s.dat).length).sum

theorem numBlots_append (u : Uni) (c : Config) (a b : List Document) :
    numBlots u c (a ++ b) = numBlots u c a + numBlots u c b := by simp [numBlots]

theorem shardPosts_length (u : Uni) (c : Config) (j : Nat) (a : List Document) : ∀ i, (shardPosts u c j i a).length ≤ numBlots u c a := by
  induction a with
  | nil => intro i; simp [shardPosts]
  | cons s a ih =>
    intro i
    have h1 := ih (i + 1)
    have h2 := List.length_filter_le (fun x : UInt32 => decide (x.toNat % c.numShards.toNat = j)) (blotsOf u c s.dat)
    simp only [numBlots] at h1
    simp only [shardPosts, docPosts, List.length_append, List.length_map, numBlots, List.map_cons, List.sum_cons]
    omega

/-- posts of one further document, whatever they are -/
theorem postings_doc (old : List (UInt32 × Nat)) (id : UInt32) (b : Nat) (hlast : (postings old b).getLast? ≠ some id) (l : List Nat) :
    postings (old ++ l.map fun x => (id, x)) b = postings old b ++ if b ∈ l then [id] else [] := by
  induction l using snocInd with
  | nil => simp
  | snoc l a ih =>
    rw [List.map_append, ← List.append_assoc]
    simp only [List.map_cons, List.map_nil]
    rw [postings_snoc, ih]
    by_cases hb : b ∈ l
    · simp [hb]
    · by_cases ha : a = b
      · simp [ha, hb, hlast]
      · have : ¬ b = a := fun e => ha e.symm
        simp [ha, hb, this]

/-- ids (from `i` on) of the documents satisfying `p` -/
def idsWith (p : Document → Bool) : Nat → List Document → List UInt32
  | _, [] => []
  | i, s :: ss => if p s then UInt32.ofNat i :: idsWith p (i + 1) ss else idsWith p (i + 1) ss

theorem idsWith_append (p : Document → Bool) (a b : List Document) : ∀ i,
    idsWith p i (a ++ b) = idsWith p i a ++ idsWith p (i + a.length) b := by
  induction a with
  | nil => intro i; rfl
  | cons s a ih =>
    intro i
    simp only [List.cons_append, idsWith, ih, List.length_cons]
    rw [show i + (a.length + 1) = i + 1 + a.length by omega]
    split <;> simp

theorem idsWith_mem (p : Document → Bool) (a : List Document) : ∀ i, i + a.length ≤ 2 ^ 32 → ∀ v ∈ idsWith p i a, i ≤ v.toNat ∧ v.toNat < i + a.length := by
  induction a with
  | nil => intro i _ v hv; simp [idsWith] at hv
  | cons s a ih =>
    intro i hi v hv
    simp only [List.length_cons] at hi ⊢
    rw [idsWith] at hv
    have key : v ∈ idsWith p (i + 1) a → i ≤ v.toNat ∧ v.toNat < i + (a.length + 1) := by
      intro h; have := ih (i + 1) (by omega) v h; omega
    split at hv
    · rcases List.mem_cons.mp hv with rfl | hv
      · simp only [UInt32.toNat_ofNat']; omega
      · exact key hv
    · exact key hv

theorem idsWith_length (p : Document → Bool) (a : List Document) : ∀ i, (idsWith p i a).length ≤ a.length := by
  induction a with
  | nil => intro i; simp [idsWith]
  | cons s a ih =>
    intro i
    have := ih (i + 1)
    rw [idsWith]
    split <;> simp <;> omega

theorem mod_mul_split (x n j q : Nat) (hj : j < n) :
    x % (n * 65536) = q * n + j ↔ x % n = j ∧ x / n % 65536 = q := by
  rw [Nat.mod_mul]
  constructor
  · intro h
    have h1 := congrArg (· % n) h
    simp only [Nat.add_mul_mod_self_left, Nat.mod_mod, Nat.mul_add_mod', Nat.mod_eq_of_lt hj] at h1
    refine ⟨h1, ?_⟩
    rw [h1, Nat.add_comm, Nat.mul_comm] at h
    exact Nat.eq_of_mul_eq_mul_right (by omega) (Nat.add_right_cancel h)
  · rintro ⟨h1, h2⟩
    rw [h1, h2, Nat.mul_comm, Nat.add_comm]

/-- the posting list of bucket `q` of shard `j`: the documents having a blot there, in order -/
theorem postings_shardPosts (u : Uni) (c : Config) (j q : Nat) (hj : j < c.numShards.toNat) (hq : q < 65536) (docs : List Document)
    (hlen : docs.length < 2 ^ 32) :
    postings (shardPosts u c j 1 docs) q = idsWith (fun s => hasBlot u c s.dat (q * c.numShards.toNat + j)) 1 docs := by
  induction docs using snocInd with
  | nil => rfl
  | snoc docs s ih =>
    have hl : docs.length + 1 < 2 ^ 32 := by simpa using hlen
    have ih := ih (by omega)
    rw [shardPosts_append, idsWith_append]
    simp only [shardPosts, List.append_nil, docPosts]
    have : (List.map (fun x : UInt32 => (UInt32.ofNat (1 + docs.length), x.toNat / c.numShards.toNat % 65536))
          (List.filter (fun x => decide (x.toNat % c.numShards.toNat = j)) (blotsOf u c s.dat))) =
        (((blotsOf u c s.dat).filter fun x => decide (x.toNat % c.numShards.toNat = j)).map
          fun x => x.toNat / c.numShards.toNat % 65536).map fun x => (UInt32.ofNat (1 + docs.length), x) := by simp
    rw [this, postings_doc, ih]
    · congr 1
      simp only [idsWith]
      have hb : (q * c.numShards.toNat + j) % (c.numShards.toNat * 65536) = q * c.numShards.toNat + j := by
        apply Nat.mod_eq_of_lt
        calc q * c.numShards.toNat + j < q * c.numShards.toNat + c.numShards.toNat := by omega
          _ = (q + 1) * c.numShards.toNat := by rw [Nat.add_mul]; omega
          _ ≤ 65536 * c.numShards.toNat := Nat.mul_le_mul_right _ (by omega)
          _ = _ := Nat.mul_comm _ _
      have hiff : q ∈ List.map (fun x : UInt32 => x.toNat / c.numShards.toNat % 65536)
            (List.filter (fun x => decide (x.toNat % c.numShards.toNat = j)) (blotsOf u c s.dat)) ↔
          hasBlot u c s.dat (q * c.numShards.toNat + j) = true := by
        simp only [hasBlot, List.any_eq_true, decide_eq_true_eq, List.mem_map, List.mem_filter, hb, mod_mul_split _ _ _ _ hj, and_assoc]
      by_cases h : hasBlot u c s.dat (q * c.numShards.toNat + j) = true
      · simp [h, hiff.mpr h]
      · rw [if_neg (fun e => h (hiff.mp e)), if_neg h]
    · rw [ih]
      intro h
      have := (idsWith_mem _ docs 1 (by omega) _ (List.mem_of_getLast? h)).2
      simp only [UInt32.toNat_ofNat'] at this
      omega

theorem postings_shardPosts_length (u : Uni) (c : Config) (j : Nat) (hj : j < c.numShards.toNat) (docs : List Document)
    (hlen : docs.length < 2 ^ 32) (b : Nat) : (postings (shardPosts u c j 1 docs) b).length < 2 ^ 32 := by
  by_cases hb : b < 65536
  · rw [postings_shardPosts u c j b hj hb docs hlen]
    exact Nat.lt_of_le_of_lt (idsWith_length _ _ _) hlen
  · have : (shardPosts u c j 1 docs).filter (fun p => decide (p.2 = b)) = [] := by
      rw [List.filter_eq_nil_iff]
      intro p hp
      have := shardPosts_bucket u c j docs 1 p hp
      simp; omega
    simp [postings, this, compress]

theorem runs_length_le {α : Type} (f : α → Bool) (xs : List α) : (runs f xs).length ≤ xs.length := by
  induction xs with
  | nil => simp [runs]
  | cons x xs ih =>
    rw [runs]
    split
    · simp
    · rename_i h; rw [h] at ih
      split <;> simp at ih ⊢ <;> omega

theorem decode_length_le (d : Bytes) : (decode d).length ≤ d.length := by
  unfold decode
  generalize d.length = n
  induction n generalizing d with
  | zero => simp [decodeN]
  | succ n ih =>
    cases d with
    | nil => simp [decodeN]
    | cons b t => have := ih (t.drop ((decodeRune b t).enc.length - 1)); simp [decodeN]; omega

/-- a text has no more blots than bytes -/
theorem blotsOf_length_le (u : Uni) (c : Config) (dat : Bytes) : (blotsOf u c dat).length ≤ dat.length := by
  have h : (words u dat).length ≤ dat.length := by
    rw [words_eq]
    split
    · rw [List.length_map]
      have h1 := List.length_filter_le (·.1) (runs (Token.isWordRune u) (decode dat).dropLast)
      have h2 := runs_length_le (Token.isWordRune u) (decode dat).dropLast
      have h3 := decode_length_le dat
      rw [List.length_dropLast] at h2
      omega
    · simp
  simp [blotsOf_eq, blots]; omega

theorem numBlots_le (u : Uni) (c : Config) (docs : List Document) : numBlots u c docs ≤ (docs.map fun s => s.dat.length).sum := by
  unfold numBlots
  induction docs with
  | nil => simp
  | cons s docs ih => have := blotsOf_length_le u c s.dat; simp; omega

end Dupi
