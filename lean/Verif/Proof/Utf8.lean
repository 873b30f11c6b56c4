import Verif.Model.Utf8
/-! Decoding partitions the input; valid runes decode the same in any context. -/

namespace Dupi

theorem decodeRune_enc (b : UInt8) (t : Bytes) :
    (decodeRune b t).enc = b :: t.take ((decodeRune b t).enc.length - 1) := by
  unfold decodeRune
  repeat' (first | split | rfl)

theorem decodeRune_pos (b : UInt8) (t : Bytes) : 0 < (decodeRune b t).enc.length := by
  rw [decodeRune_enc]; simp

theorem decodeRune_ne_nil (b : UInt8) (t : Bytes) : (decodeRune b t).enc ≠ [] := by
  rw [decodeRune_enc]; simp

theorem decodeN_ge : ∀ (n : Nat) (d : Bytes), d.length ≤ n → decodeN n d = decode d := by
  have key : ∀ (m n : Nat) (d : Bytes), d.length ≤ m → d.length ≤ n → decodeN m d = decodeN n d := by
    intro m
    induction m with
    | zero => intro n d h1 _; cases d with
      | nil => cases n <;> rfl
      | cons => simp at h1
    | succ m ih =>
      intro n d h1 h2
      cases d with
      | nil => cases n <;> rfl
      | cons b t =>
        cases n with
        | zero => simp at h2
        | succ n =>
          simp only [List.length_cons] at h1 h2
          rw [decodeN, decodeN, ih n]
          · simp; omega
          · simp; omega
  intro n d h
  exact key n d.length d h (Nat.le_refl _)

theorem decode_nil : decode [] = [] := rfl

theorem decode_cons (b : UInt8) (t : Bytes) :
    decode (b :: t) = decodeRune b t :: decode (t.drop ((decodeRune b t).enc.length - 1)) := by
  rw [decode, List.length_cons, decodeN, decodeN_ge]
  simp

theorem decode_flat (d : Bytes) : (decode d).flatMap Rune.enc = d := by
  generalize hn : d.length = n
  induction n using Nat.strongRecOn generalizing d with
  | _ n ih =>
    cases d with
    | nil => rfl
    | cons b t =>
      rw [decode_cons, List.flatMap_cons, ih _ _ _ rfl]
      · have key : ∀ (k : Nat) (e : Bytes), e = b :: t.take k → e ++ t.drop k = b :: t := by
          intro k e h; subst h; simp
        exact key _ _ (decodeRune_enc b t)
      · simp only [List.length_cons] at hn; simp; omega

theorem decode_enc_ne_nil (d : Bytes) : ∀ r ∈ decode d, r.enc ≠ [] := by
  generalize hn : d.length = n
  induction n using Nat.strongRecOn generalizing d with
  | _ n ih =>
    cases d with
    | nil => simp [decode_nil]
    | cons b t =>
      rw [decode_cons]
      intro r hr
      rcases List.mem_cons.mp hr with rfl | hr
      · exact decodeRune_ne_nil b t
      · exact ih _ (by simp only [List.length_cons] at hn; simp; omega) _ rfl r hr

/-- dropping runes -/
theorem decode_suffix (rs ss : List Rune) (d : Bytes) (h : decode d = rs ++ ss) :
    decode (ss.flatMap Rune.enc) = ss := by
  induction rs generalizing d with
  | nil => rw [List.nil_append] at h; rw [← h, decode_flat, h]
  | cons r rs ih =>
    cases d with
    | nil => simp [decode_nil] at h
    | cons b t =>
      rw [decode_cons, List.cons_append, List.cons.injEq] at h
      exact ih _ h.2

theorem decodeRune_ext (b : UInt8) (t e : Bytes) (h : (decodeRune b t).cp.isSome) :
    decodeRune b (t.take ((decodeRune b t).enc.length - 1) ++ e) = decodeRune b t := by
  revert h
  unfold decodeRune
  repeat' (first | split | (intro h; simp_all; done))

/-- a run of valid runes decodes the same whatever follows it -/
theorem decode_prefix (rs ss : List Rune) (d : Bytes) (h : decode d = rs ++ ss)
    (hv : ∀ r ∈ rs, r.cp.isSome) (e : Bytes) :
    decode (rs.flatMap Rune.enc ++ e) = rs ++ decode e := by
  induction rs generalizing d with
  | nil => simp
  | cons r rs ih =>
    cases d with
    | nil => simp [decode_nil] at h
    | cons b t =>
      rw [decode_cons, List.cons_append, List.cons.injEq] at h
      obtain ⟨h1, h2⟩ := h
      have hr := hv r (by simp)
      rw [← h1] at hr
      have ih' := ih _ h2 (fun r hr => hv r (List.mem_cons_of_mem _ hr))
      have hle : (decodeRune b t).enc.length - 1 ≤ t.length := by
        have := congrArg List.length (decodeRune_enc b t)
        simp only [List.length_cons, List.length_take] at this
        omega
      rw [List.flatMap_cons, ← h1]
      conv => lhs; rw [decodeRune_enc]
      rw [List.append_assoc, List.cons_append, decode_cons, decodeRune_ext b t _ hr, List.cons_append]
      rw [List.drop_left' (by rw [List.length_take]; omega), ih']

theorem decode_prefix' (rs ss : List Rune) (d : Bytes) (h : decode d = rs ++ ss)
    (hv : ∀ r ∈ rs, r.cp.isSome) : decode (rs.flatMap Rune.enc) = rs := by
  have := decode_prefix rs ss d h hv []
  simpa [decode_nil] using this

/-- a middle run of valid runes -/
theorem decode_middle (as rs ss : List Rune) (d : Bytes) (h : decode d = as ++ rs ++ ss)
    (hv : ∀ r ∈ rs, r.cp.isSome) : decode (rs.flatMap Rune.enc) = rs := by
  rw [List.append_assoc] at h
  exact decode_prefix' rs ss _ (decode_suffix as (rs ++ ss) d h) hv

theorem utf8Valid_iff (d : Bytes) : utf8Valid d = true ↔ ∀ r ∈ decode d, r.cp.isSome := by
  simp [utf8Valid]

end Dupi
