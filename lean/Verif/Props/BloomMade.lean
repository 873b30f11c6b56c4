import Verif.Props.Bloom
import Verif.Model.Bloom
/-! # Bloom filters made from configurations and estimates: C109 -/

namespace Dupi.Props
open Attic

/-- a number an `int` can be -/
def IsInt64 (x : Int) : Prop := -2 ^ 63 ≤ x ∧ x < 2 ^ 63

theorem wrap64_fits {x : Int} (h : IsInt64 x) : wrap64 x = x := by
  unfold wrap64 IsInt64 at *; omega

/-- **C109, configurations.**  The filter made from the configuration of a filter is that filter precisely if its number of bits can be
an `int`. -/
theorem C109_config (f : Filter) (h : IsInt64 f.mbytes) : Filter.fromConfig f.config = .ok f ↔ -2 ^ 60 ≤ f.mbytes ∧ f.mbytes < 2 ^ 60 := by
  unfold Filter.fromConfig Filter.config IsInt64 at *
  simp only [if_true]
  constructor
  · intro e
    have e := congrArg Filter.mbytes (Except.ok.inj e)
    obtain ⟨t, ht⟩ : ∃ t, wrap64 (f.mbytes * 8) = 8 * t ∧ -2 ^ 60 ≤ t ∧ t < 2 ^ 60 := by
      refine ⟨wrap64 (f.mbytes * 8) / 8, ?_⟩
      unfold wrap64; omega
    simp only [ht.1, Int.mul_tdiv_cancel_left t (show (8 : Int) ≠ 0 by decide)] at e
    omega
  · intro e
    rw [wrap64_fits ⟨by omega, by omega⟩, Int.mul_tdiv_cancel _ (by decide)]

/-- the positions of a value, in order: the number of bits is `8·mbytes`, a 32 bit number -/
def positions (f : Filter) (v : UInt32) : List UInt32 :=
  (List.range (toU32 f.k).toNat).map fun i => ((Attic.hash v ^^^ (UInt32.ofNat i + 97)) * prime) % (toU32 f.mbytes * 8)

theorem putLoop_eq {f : Filter} {hh : UInt32} {F : Nat → UInt32} (ho : ∀ j, f.one hh (UInt32.ofNat j) = .ok (F j)) :
    ∀ (n j : Nat) (dst : List UInt32), j + n < 2 ^ 32 → f.putLoop hh n (UInt32.ofNat j) dst = if n = 0 ∨ j + n ≤ dst.length then
      .ok (dst.take j ++ (List.range n).map (fun i => F (j + i)) ++ dst.drop (j + n)) else panic' := by
  intro n
  induction n with
  | zero => intro j dst _; simp [Filter.putLoop]
  | succ n ih =>
    intro j dst hj
    have hjj : (UInt32.ofNat j).toNat = j := by rw [UInt32.toNat_ofNat']; omega
    simp only [Filter.putLoop, ho, bind, Except.bind, hjj]
    have e1 : UInt32.ofNat j + 1 = UInt32.ofNat (j + 1) := by rw [UInt32.ofNat_add]; rfl
    by_cases hl : j < dst.length
    · rw [if_pos hl, e1, ih (j + 1) _ (by omega), List.length_set]
      by_cases hn : j + (n + 1) ≤ dst.length
      · rw [if_pos (.inr (by omega)), if_pos (.inr hn)]
        rw [List.range_succ_eq_map, List.map_cons, List.map_map, List.take_add_one, List.getElem?_set_self hl,
          List.take_set_of_le (Nat.le_refl _), List.drop_set_of_lt (by omega), show j + 1 + n = j + (n + 1) by omega,
          List.map_congr_left (g := (fun i => F (j + i)) ∘ Nat.succ) (fun i _ => by
            show F (j + 1 + i) = F (j + (i + 1)); rw [show j + 1 + i = j + (i + 1) by omega])]
        simp
      · by_cases h0 : n = 0
        · omega
        · rw [if_neg (by omega), if_neg (by omega)]
    · rw [if_neg hl, if_neg (by omega)]

/-- **C109, PutOnes.**  It writes the positions of a value to the beginning of `dst`, and panics precisely if they do not fit. -/
theorem C109_putOnes {f : Filter} (h : toU32 f.mbytes * 8 ≠ 0) (dst : List UInt32) (v : UInt32) :
    f.putOnes dst v = if (toU32 f.k).toNat ≤ dst.length then .ok (positions f v ++ dst.drop (toU32 f.k).toNat) else panic' := by
  have := putLoop_eq (f := f) (hh := Attic.hash v) (F := fun i => ((Attic.hash v ^^^ (UInt32.ofNat i + 97)) * prime) % (toU32 f.mbytes * 8))
    (fun j => by unfold Filter.one clamp; rw [if_neg h]) (toU32 f.k).toNat 0 dst (by have := (toU32 f.k).toNat_lt; omega)
  rw [show UInt32.ofNat 0 = 0 from rfl] at this
  unfold Filter.putOnes
  rw [this]
  simp only [Nat.zero_add, List.take_zero, List.nil_append]
  by_cases hk : (toU32 f.k).toNat ≤ dst.length
  · rw [if_pos (.inr hk), if_pos hk]; rfl
  · rw [if_neg (by omega), if_neg hk]

/-- **C109, the number of positions** is `k`, but as a 32 bit number: a negative `k` gives billions. -/
theorem C109_count (f : Filter) (v : UInt32) : ((positions f v).length : Int) = f.k % 2 ^ 32 := by
  unfold positions toU32
  rw [List.length_map, List.length_range, UInt32.toNat_ofNat']
  omega

theorem mem_positions {f : Filter} {v : UInt32} {p : Nat} :
    (∃ x ∈ positions f v, x.toNat = p) ↔ ∃ j, j < (toU32 f.k).toNat ∧ posn f (Attic.hash v) (0 + UInt32.ofNat j) = p := by
  unfold positions posn
  simp only [List.mem_map, List.mem_range, UInt32.zero_add]
  constructor
  · rintro ⟨x, ⟨j, hj, rfl⟩, rfl⟩; exact ⟨j, hj, rfl⟩
  · rintro ⟨j, hj, rfl⟩; exact ⟨_, ⟨j, hj, rfl⟩, rfl⟩

/-- **C109, Has and Add agree with PutOnes**: a set has a value iff all bits at the positions are set, and adding it sets precisely these
bits. -/
theorem C109_positions {f : Filter} (h : Sized f) {d : Bytes} (hd : d.length = f.mbytes.toNat) (v : UInt32) :
    (f.has d v = .ok true ↔ ∀ x ∈ positions f v, bit d x.toNat = true) ∧
    ∃ d', f.add d v = .ok d' ∧ d'.length = d.length ∧ ∀ q, bit d' q = true ↔ bit d q = true ∨ ∃ x ∈ positions f v, x.toNat = q := by
  constructor
  · rw [(has_iff h hd v).1, Has]
    constructor
    · intro g x hx
      obtain ⟨j, hj, e⟩ := mem_positions.mp ⟨x, hx, rfl⟩
      rw [← e]; exact g j hj
    · intro g j hj
      obtain ⟨x, hx, e⟩ := mem_positions.mpr ⟨j, hj, rfl⟩
      rw [← e]; exact g x hx
  · obtain ⟨d', g1, g2, g3⟩ := addLoop_eq h (Attic.hash v) (toU32 f.k).toNat 0 d hd
    refine ⟨d', g1, g2, fun q => ?_⟩
    rw [g3, Bool.or_eq_true, mem_positions]
    refine or_congr Iff.rfl ?_
    simp only [List.any_eq_true, List.mem_range, decide_eq_true_eq]
    constructor
    · rintro ⟨j, hj, e⟩; exact ⟨j, hj, e.symm⟩
    · rintro ⟨j, hj, e⟩; exact ⟨j, hj, e.symm⟩

/-- **C109, estimates.**  The number of bits made of a rounded estimate `m` from 0 on is the next multiple of 8 above `m`, and the filter
made of it works (`Sized`) if it has less than 4 Gi bits. -/
theorem C109_estimate {m : Int} (h0 : 0 ≤ m) (h1 : m + 8 < 2 ^ 32) (k : Int) :
    m < estimateBits m ∧ estimateBits m ≤ m + 8 ∧ estimateBits m % 8 = 0 ∧ Sized ⟨k, (estimateBits m).tdiv 8⟩ := by
  have he : estimateBits m = m + (8 - m % 8) := by
    unfold estimateBits
    rw [Int.tmod_eq_emod_of_nonneg h0, wrap64_fits (x := 8 - m % 8) ⟨by omega, by omega⟩, wrap64_fits ⟨by omega, by omega⟩]
  rw [he]
  refine ⟨by omega, by omega, by omega, ?_, ?_⟩
  · show 0 ≤ (m + (8 - m % 8)).tdiv 8
    rw [Int.tdiv_eq_ediv_of_nonneg (by omega)]; omega
  · intro e
    have e := congrArg UInt32.toNat e
    rw [UInt32.toNat_mul, toU32, UInt32.toNat_ofNat'] at e
    rw [Int.tdiv_eq_ediv_of_nonneg (by omega)] at e
    simp only [show (8 : UInt32).toNat = 8 from rfl, show (0 : UInt32).toNat = 0 from rfl] at e
    omega

/-- **C109 is false for large filters**: of an estimate that makes 4 Gi bits, or any multiple, Has and Add panic. -/
theorem C109_false_large {m : Int} (h0 : 0 ≤ m) (h1 : m + 8 < 2 ^ 63) (hm : estimateBits m % 2 ^ 32 = 0) {k : Int} (hk : (toU32 k).toNat ≠ 0)
    (d : Bytes) (v : UInt32) : Filter.has ⟨k, (estimateBits m).tdiv 8⟩ d v = panic' ∧ Filter.add ⟨k, (estimateBits m).tdiv 8⟩ d v = panic' := by
  have he : estimateBits m = m + (8 - m % 8) := by
    unfold estimateBits
    rw [Int.tmod_eq_emod_of_nonneg h0, wrap64_fits (x := 8 - m % 8) ⟨by omega, by omega⟩, wrap64_fits ⟨by omega, by omega⟩]
  have hz : toU32 ((estimateBits m).tdiv 8) * 8 = 0 := by
    apply UInt32.toNat_inj.mp
    rw [he] at hm ⊢
    rw [UInt32.toNat_mul, toU32, UInt32.toNat_ofNat', Int.tdiv_eq_ediv_of_nonneg (by omega)]
    simp only [show (8 : UInt32).toNat = 8 from rfl, show (0 : UInt32).toNat = 0 from rfl]
    omega
  obtain ⟨n, hn⟩ := Nat.exists_eq_succ_of_ne_zero hk
  constructor
  · simp only [Filter.has, hn, Filter.hasLoop, Filter.one, clamp, hz, if_true, bind, Except.bind]
  · simp only [Filter.add, hn, Filter.addLoop, Filter.one, clamp, hz, if_true, bind, Except.bind]

/-- **C109 is false for a number of bits that is a power of 2**: with `2^j` bits values whose hashes agree modulo `2^j` have the same
positions, however many there are for a value. -/
theorem C109_false_power {f : Filter} {j : Nat} (hj : j < 32) (hf : (toU32 f.mbytes * 8).toNat = 2 ^ j) {v w : UInt32}
    (h : (Attic.hash v).toNat % 2 ^ j = (Attic.hash w).toNat % 2 ^ j) : positions f v = positions f w := by
  unfold positions
  apply List.map_congr_left
  intro i _
  apply UInt32.toNat_inj.mp
  rw [UInt32.toNat_mod, UInt32.toNat_mod, hf, UInt32.toNat_mul, UInt32.toNat_mul, UInt32.toNat_xor, UInt32.toNat_xor]
  have hd : 2 ^ j ∣ 2 ^ 32 := Nat.pow_dvd_pow 2 (by omega)
  rw [Nat.mod_mod_of_dvd _ hd, Nat.mod_mod_of_dvd _ hd, Nat.mul_mod, Nat.xor_mod_two_pow, h, ← Nat.xor_mod_two_pow, ← Nat.mul_mod]

/-! ## Examples -/

/-- two values with the same positions in every filter of 256 bits; they have different ones with 264 bits -/
theorem C109_nonvacuous : IsInt64 33 ∧ Filter.fromConfig (Filter.config ⟨3, 33⟩) = .ok ⟨3, 33⟩ ∧ estimateBits 257 = 264 ∧ estimateBits 256 = 264 ∧
    estimateBits (2 ^ 32 - 1) % 2 ^ 32 = 0 ∧ Sized ⟨3, 32⟩ ∧ (toU32 32 * 8).toNat = 2 ^ 8 ∧
    ∃ v w, v ≠ w ∧ positions ⟨3, 32⟩ v = positions ⟨3, 32⟩ w ∧ positions ⟨3, 33⟩ v ≠ positions ⟨3, 33⟩ w := by
  refine ⟨by unfold IsInt64; omega, by decide +kernel, by decide +kernel, by decide +kernel, by decide +kernel, ⟨by decide, by decide⟩, by decide, ?_⟩
  exact ⟨0, 714, by decide, by decide +kernel, by decide +kernel⟩

end Dupi.Props
