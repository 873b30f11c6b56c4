import Verif.Model.Text
/-! # Reading what was printed -/

namespace Dupi.Cmd

theorem digit_val : ∀ d : Fin 16, hexVal (digit d.val) = some d.val ∧ digit d.val ≠ 32 ∧ digit d.val ≠ 10 ∧ digit d.val ≠ 64 ∧ digit d.val ≠ 58 ∧
    33 ≤ digit d.val ∧ digit d.val < 127 := by decide +kernel

/-- the number digits stand for in base `k + 2` -/
def value (k : Nat) (l : Bytes) : Nat := l.foldl (fun n b => (k + 2) * n + (hexVal b).getD 0) 0

theorem digits_value {k : Nat} (hk : k ≤ 14) (n : Nat) : value k (digits k n) = n := by
  induction n using Nat.strongRecOn with
  | ind n ih =>
    rw [digits]
    split
    · rename_i h
      have := (digit_val ⟨n, by omega⟩).1
      simp only at this
      simp [value, this]
    · rename_i h
      have h1 := ih (n / (k + 2)) (Nat.div_lt_self (by omega) (by omega))
      have h2 := (digit_val ⟨n % (k + 2), by have := Nat.mod_lt n (show k + 2 > 0 by omega); omega⟩).1
      simp only at h2
      unfold value at h1 ⊢
      rw [List.foldl_append, h1]
      simp only [List.foldl_cons, List.foldl_nil, h2, Option.getD_some]
      exact Nat.div_add_mod n (k + 2)

theorem digits_inj {k : Nat} (hk : k ≤ 14) {m n : Nat} (h : digits k m = digits k n) : m = n := by
  rw [← digits_value hk m, h, digits_value hk]

theorem digits_mem {k : Nat} (hk : k ≤ 14) (n : Nat) : ∀ b ∈ digits k n, ∃ d : Fin 16, b = digit d.val := by
  induction n using Nat.strongRecOn with
  | ind n ih =>
    intro b hb
    rw [digits] at hb
    split at hb
    · exact ⟨⟨n, by omega⟩, by simpa using hb⟩
    · rcases List.mem_append.mp hb with hb | hb
      · exact ih _ (Nat.div_lt_self (by omega) (by omega)) b hb
      · exact ⟨⟨n % (k + 2), by have := Nat.mod_lt n (show k + 2 > 0 by omega); omega⟩, by simpa using hb⟩

theorem digits_ne {k : Nat} (n : Nat) : digits k n ≠ [] := by
  rw [digits]; split <;> simp

theorem hex_inj {m n : UInt32} (h : hex m = hex n) : m = n := UInt32.toNat_inj.mp (digits_inj (by omega) h)

theorem dec_inj {m n : UInt32} (h : dec m = dec n) : m = n := UInt32.toNat_inj.mp (digits_inj (by omega) h)

theorem hex_not (n : UInt32) (b : UInt8) (h : b = 32 ∨ b = 10) : b ∉ hex n := by
  intro hm
  obtain ⟨d, hd⟩ := digits_mem (by omega) _ b hm
  have := digit_val d
  rcases h with rfl | rfl
  · exact this.2.1 hd.symm
  · exact this.2.2.1 hd.symm

theorem dec_not (n : UInt32) (b : UInt8) (h : b = 32 ∨ b = 10 ∨ b = 64 ∨ b = 58) : b ∉ dec n := by
  intro hm
  obtain ⟨d, hd⟩ := digits_mem (by omega) _ b hm
  have := digit_val d
  rcases h with rfl | rfl | rfl | rfl
  · exact this.2.1 hd.symm
  · exact this.2.2.1 hd.symm
  · exact this.2.2.2.1 hd.symm
  · exact this.2.2.2.2.1 hd.symm

/-- up to the first `a` -/
theorem split_first {a : UInt8} {x y r s : Bytes} (hx : a ∉ x) (hy : a ∉ y) (h : x ++ a :: r = y ++ a :: s) : x = y ∧ r = s := by
  induction x generalizing y with
  | nil =>
    cases y with
    | nil => simp at h; exact ⟨rfl, h⟩
    | cons b y => simp at h; exact absurd h.1 (fun e => hy (by simp [e]))
  | cons b x ih =>
    cases y with
    | nil => simp at h; exact absurd h.1 (fun e => hx (by simp [e]))
    | cons c y =>
      simp at h
      obtain ⟨rfl, h⟩ := h
      obtain ⟨rfl, rfl⟩ := ih (fun m => hx (by simp [m])) (fun m => hy (by simp [m])) h
      exact ⟨rfl, rfl⟩

/-- from the last `a` -/
theorem split_last {a : UInt8} {x y r s : Bytes} (hr : a ∉ r) (hs : a ∉ s) (h : x ++ a :: r = y ++ a :: s) : x = y ∧ r = s := by
  have h' := congrArg List.reverse h
  simp only [List.reverse_append, List.reverse_cons, List.append_assoc, List.singleton_append] at h'
  obtain ⟨h1, h2⟩ := split_first (by simpa using hr) (by simpa using hs) h'
  exact ⟨by simpa using h2, by simpa using h1⟩

/-- lines that end in `a` and do not contain it -/
theorem lines_inj {α : Type} {a : UInt8} {P : α → Prop} (f : α → Bytes) (hf : ∀ x, P x → a ∉ f x) (hi : ∀ x y, P x → P y → f x = f y → x = y) :
    ∀ l m : List α, (∀ x ∈ l, P x) → (∀ x ∈ m, P x) → (l.flatMap fun x => f x ++ [a]) = (m.flatMap fun x => f x ++ [a]) → l = m := by
  intro l
  induction l with
  | nil =>
    intro m _ _ h
    cases m with
    | nil => rfl
    | cons y m => simp at h
  | cons x l ih =>
    intro m hl hm h
    cases m with
    | nil => simp at h
    | cons y m =>
      simp only [List.flatMap_cons, List.append_assoc, List.singleton_append] at h
      have hx := hl x (by simp)
      have hy := hm y (by simp)
      obtain ⟨h1, h2⟩ := split_first (hf x hx) (hf y hy) h
      rw [hi x y hx hy h1, ih m (fun z hz => hl z (by simp [hz])) (fun z hz => hm z (by simp [hz])) h2]

/-- pieces that begin with `a` and do not contain it otherwise, after something that does not contain it -/
theorem pieces_inj {α : Type} {a : UInt8} {P : α → Prop} (f : α → Bytes) (hf : ∀ x, P x → a ∉ f x) (hi : ∀ x y, P x → P y → f x = f y → x = y) :
    ∀ (u v : Bytes) (l m : List α), a ∉ u → a ∉ v → (∀ x ∈ l, P x) → (∀ x ∈ m, P x) →
      u ++ (l.flatMap fun x => a :: f x) = v ++ (m.flatMap fun x => a :: f x) → u = v ∧ l = m := by
  intro u v l
  induction l generalizing u v with
  | nil =>
    intro m hu hv _ hm h
    cases m with
    | nil => simp at h; exact ⟨h, rfl⟩
    | cons y m =>
      simp at h
      exact absurd (by rw [h]; simp) hu
  | cons x l ih =>
    intro m hu hv hl hm h
    cases m with
    | nil =>
      simp at h
      exact absurd (by rw [← h]; simp) hv
    | cons y m =>
      simp only [List.flatMap_cons, List.cons_append] at h
      obtain ⟨rfl, h2⟩ := split_first hu hv h
      have hx := hl x (by simp)
      have hy := hm y (by simp)
      obtain ⟨h3, rfl⟩ := ih (f x) (f y) m (hf x hx) (hf y hy) (fun z hz => hl z (by simp [hz])) (fun z hz => hm z (by simp [hz])) h2
      rw [hi x y hx hy h3]
      exact ⟨rfl, rfl⟩

/-- `path@start:end` -/
def docPiece (p : Bytes × UInt32 × UInt32) : Bytes := p.1 ++ 64 :: (dec p.2.1 ++ 58 :: dec p.2.2)

theorem docPiece_inj {p q : Bytes × UInt32 × UInt32} (h : docPiece p = docPiece q) : p = q := by
  obtain ⟨a, b, c⟩ := p
  obtain ⟨a', b', c'⟩ := q
  unfold docPiece at h
  have n (b c : UInt32) : (64 : UInt8) ∉ dec b ++ 58 :: dec c := by
    simp only [List.mem_append, List.mem_cons, not_or]
    exact ⟨dec_not b 64 (by simp), by decide, dec_not c 64 (by simp)⟩
  obtain ⟨h1, h2⟩ := split_last (n b c) (n b' c') h
  obtain ⟨h3, h4⟩ := split_first (dec_not b 58 (by simp)) (dec_not b' 58 (by simp)) h2
  simp only at h1
  rw [h1, dec_inj h3, dec_inj h4]

end Dupi.Cmd
