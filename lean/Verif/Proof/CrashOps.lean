import Verif.Model.Crash
import Verif.Proof.Blocks
/-! # File operations, cut and interleaved -/

namespace Dupi

/-- the effect of operations on one file -/
def onFiles (o : Option Bytes) (ops : List Op) : Option Bytes := ops.foldl (fun o op => op.onFile o) o

/-- the operations on a file -/
def opsOn (f : File) (ops : List Op) : List Op := ops.filter fun op => op.file = f

theorem onFiles_append (o : Option Bytes) (a b : List Op) : onFiles o (a ++ b) = onFiles (onFiles o a) b := by
  simp [onFiles, List.foldl_append]

theorem opsOn_append (f : File) (a b : List Op) : opsOn f (a ++ b) = opsOn f a ++ opsOn f b := by simp [opsOn]

theorem run_append (d : Dir) (a b : List Op) : d.run (a ++ b) = (d.run a).run b := by simp [Dir.run, List.foldl_append]

theorem run_file (ops : List Op) : ∀ (d : Dir) (f : File), d.run ops f = onFiles (d f) (opsOn f ops) := by
  induction ops with
  | nil => intro d f; rfl
  | cons op ops ih =>
    intro d f
    have h1 : d.run (op :: ops) = (d.apply op).run ops := rfl
    rw [h1, ih]
    by_cases h : op.file = f
    · rw [show opsOn f (op :: ops) = op :: opsOn f ops by simp [opsOn, h]]
      have : d.apply op f = op.onFile (d f) := by simp [Dir.apply, h]
      rw [this]; rfl
    · rw [show opsOn f (op :: ops) = opsOn f ops by simp [opsOn, h]]
      have : d.apply op f = d f := by simp only [Dir.apply, if_neg (fun e : f = op.file => h e.symm)]
      rw [this]

/-- none of the operations is on the file -/
def Off (f : File) (ops : List Op) : Prop := ∀ op ∈ ops, op.file ≠ f

theorem Off.opsOn {f : File} {ops : List Op} (h : Off f ops) : opsOn f ops = [] := by
  simp only [Dupi.opsOn, List.filter_eq_nil_iff, decide_eq_true_eq]; exact h

theorem Off.run {f : File} {ops : List Op} (h : Off f ops) (d : Dir) : d.run ops f = d f := by
  rw [run_file, h.opsOn]; rfl

theorem Off.append {f : File} {a b : List Op} (ha : Off f a) (hb : Off f b) : Off f (a ++ b) := by
  intro op h
  rcases List.mem_append.mp h with h | h
  · exact ha op h
  · exact hb op h

/-- all the operations are on the file -/
def On (f : File) (ops : List Op) : Prop := ∀ op ∈ ops, op.file = f

theorem On.opsOn {f : File} {ops : List Op} (h : On f ops) : opsOn f ops = ops := by
  simp only [Dupi.opsOn, List.filter_eq_self, decide_eq_true_eq]; exact h

theorem On.off {f g : File} {ops : List Op} (h : On f ops) (hne : f ≠ g) : Off g ops := by
  intro op ho; rw [h op ho]; exact hne

/-! ### Interleaving -/

theorem Interleave.filter {α : Type} {p : α → Bool} {ls : List (List α)} {l : List α} (h : Interleave ls l) :
    ∀ {i : Nat} {li : List α}, ls[i]? = some li → (∀ (k : Nat) lk, k ≠ i → ls[k]? = some lk → lk.filter p = []) →
      l.filter p = li.filter p := by
  induction h with
  | nil hn =>
    intro i li hi _
    rw [hn li (List.mem_of_getElem? hi)]
  | @cons ls j a as l hg _ ih =>
    intro i li hi ho
    have hj : j < ls.length := (List.getElem?_eq_some_iff.mp hg).1
    by_cases e : j = i
    · subst e
      rw [hg] at hi; injection hi with hi; subst hi
      have := @ih j as (by simp [hj]) (fun k lk hk hlk => ho k lk hk (by rwa [List.getElem?_set_ne (Ne.symm hk)] at hlk))
      simp only [List.filter_cons, this]
    · have hpa : (a :: as).filter p = [] := ho j _ e hg
      have h1 : p a = false := by
        cases hp : p a with
        | false => rfl
        | true => rw [List.filter_cons_of_pos hp] at hpa; simp at hpa
      rw [List.filter_cons_of_neg (by simp [h1])] at hpa ⊢
      refine @ih i li (by rwa [List.getElem?_set_ne e]) (fun k lk hk hlk => ?_)
      by_cases ek : k = j
      · subst ek
        rw [List.getElem?_set_self hj] at hlk
        injection hlk with hlk; subst hlk; exact hpa
      · exact ho k lk hk (by rwa [List.getElem?_set_ne (Ne.symm ek)] at hlk)

theorem Interleave.mem {α : Type} {ls : List (List α)} {l : List α} (h : Interleave ls l) : ∀ a ∈ l, ∃ m ∈ ls, a ∈ m := by
  induction h with
  | nil _ => simp
  | @cons ls j a as l hg _ ih =>
    intro b hb
    rcases List.mem_cons.mp hb with rfl | hb
    · exact ⟨_, List.mem_of_getElem? hg, by simp⟩
    · obtain ⟨m, hm, hbm⟩ := ih b hb
      rcases List.mem_or_eq_of_mem_set hm with h | h
      · exact ⟨m, h, hbm⟩
      · subst h; exact ⟨_, List.mem_of_getElem? hg, by simp [hbm]⟩

/-- the operations on a file of interleaved goroutines of which one deals with the file -/
theorem Interleave.opsOn {f : File} {ls : List (List Op)} {l : List Op} (h : Interleave ls l) {i : Nat} {li : List Op}
    (hi : ls[i]? = some li) (ho : ∀ (k : Nat) lk, k ≠ i → ls[k]? = some lk → Off f lk) : opsOn f l = opsOn f li :=
  h.filter hi fun k lk hk hlk => (ho k lk hk hlk).opsOn

theorem Interleave.off {f : File} {ls : List (List Op)} {l : List Op} (h : Interleave ls l) (ho : ∀ m ∈ ls, Off f m) : Off f l := by
  intro op hop
  obtain ⟨m, hm, h1⟩ := h.mem op hop
  exact ho m hm op h1

/-- one after the other is one way -/
theorem Interleave.exists {α : Type} : ∀ (k : Nat) (ls : List (List α)), (ls.map List.length).sum = k → ∃ l, Interleave ls l := by
  intro k
  induction k with
  | zero =>
    intro ls h
    refine ⟨[], .nil fun l hl => ?_⟩
    have := List.sum_eq_zero_iff_forall_eq_nat.mp h l.length (List.mem_map_of_mem hl)
    exact List.length_eq_zero_iff.mp this
  | succ k ih =>
    intro ls h
    have : ∃ l ∈ ls, l ≠ [] := by
      false_or_by_contra
      rename_i hc
      have : (ls.map List.length).sum = 0 := by
        rw [List.sum_eq_zero_iff_forall_eq_nat]
        intro x hx
        obtain ⟨l, hl, rfl⟩ := List.mem_map.mp hx
        rw [List.length_eq_zero_iff]
        false_or_by_contra
        exact hc ⟨l, hl, by assumption⟩
      omega
    obtain ⟨l, hl, hne⟩ := this
    obtain ⟨i, hi⟩ := List.getElem?_of_mem hl
    obtain ⟨a, as, rfl⟩ := List.exists_cons_of_ne_nil hne
    have hilt := (List.getElem?_eq_some_iff.mp hi).1
    have hsum : ∀ (ls : List (List α)) (i : Nat), ls[i]? = some (a :: as) → ((ls.set i as).map List.length).sum + 1 = (ls.map List.length).sum := by
      intro ls
      induction ls with
      | nil => intro i h; simp at h
      | cons m ls ihl =>
        intro i h
        cases i with
        | zero => simp only [List.getElem?_cons_zero, Option.some.injEq] at h; subst h; simp; omega
        | succ i => simp only [List.getElem?_cons_succ] at h; have := ihl i h; simp only [List.set_cons_succ, List.map_cons, List.sum_cons]; omega
    obtain ⟨l', hl'⟩ := ih (ls.set i as) (by have := hsum ls i hi; omega)
    exact ⟨a :: l', .cons hi hl'⟩

/-! ### Cuts -/

theorem Cut.refl (ops : List Op) : Cut ops ops := by
  induction ops with
  | nil => exact .stop
  | cons op ops ih => exact .step ih

theorem Cut.prefix (a b : List Op) : Cut (a ++ b) a := by
  induction a with
  | nil => exact .stop
  | cons op a ih => exact .step ih

theorem Cut.append {a b c : List Op} (h : Cut (a ++ b) c) : (Cut a c ∧ c ≠ a) ∨ ∃ b', c = a ++ b' ∧ Cut b b' := by
  induction a generalizing c with
  | nil => exact .inr ⟨c, rfl, h⟩
  | cons op a ih =>
    cases h with
    | stop => exact .inl ⟨.stop, by simp⟩
    | part k =>
      rename_i f off data
      by_cases hk : data.take k = data
      · rw [hk]
        cases a with
        | nil => exact .inr ⟨[], rfl, .stop⟩
        | cons o a => exact .inl ⟨.step .stop, by simp⟩
      · exact .inl ⟨.part k, by intro e; injection e with e _; injection e with _ _ e; exact hk e⟩
    | step h =>
      rcases ih h with ⟨h1, h2⟩ | ⟨b', rfl, h2⟩
      · exact .inl ⟨.step h1, by intro e; injection e with _ e; exact h2 e⟩
      · exact .inr ⟨b', rfl, h2⟩

theorem Cut.mem {a c : List Op} (h : Cut a c) : ∀ op ∈ c, ∃ op' ∈ a, op'.file = op.file := by
  induction h with
  | stop => simp
  | part k =>
    rename_i f off data ops
    intro op hop
    rw [List.mem_singleton] at hop
    subst hop
    exact ⟨Op.write f off data, by simp, rfl⟩
  | step _ ih =>
    intro op' h
    rcases List.mem_cons.mp h with rfl | h
    · exact ⟨op', by simp, rfl⟩
    · obtain ⟨o, ho, e⟩ := ih op' h; exact ⟨o, by simp [ho], e⟩

theorem Cut.off {f : File} {a c : List Op} (h : Cut a c) (ho : Off f a) : Off f c := by
  intro op hop
  obtain ⟨o, h1, h2⟩ := h.mem op hop
  rw [← h2]; exact ho o h1

theorem Cut.on {f : File} {a c : List Op} (h : Cut a c) (ho : On f a) : On f c := by
  intro op hop
  obtain ⟨o, h1, h2⟩ := h.mem op hop
  rw [← h2]; exact ho o h1

/-! ### Writing a file from its start -/

theorem writes_on (f : File) (bs : List Bytes) : ∀ off, On f (Op.writes f off bs) := by
  induction bs with
  | nil => intro off op h; simp [Op.writes] at h
  | cons b bs ih =>
    intro off op h
    rcases List.mem_cons.mp h with rfl | h
    · rfl
    · exact ih _ op h

theorem onFiles_writes (f : File) (bs : List Bytes) : ∀ (base : Bytes),
    onFiles (some base) (Op.writes f base.length bs) = some (base ++ bs.flatten) := by
  induction bs with
  | nil => intro base; simp [Op.writes, onFiles]
  | cons b bs ih =>
    intro base
    have : onFiles (some base) (Op.writes f base.length (b :: bs)) = onFiles (some (base ++ b)) (Op.writes f (base.length + b.length) bs) := by
      simp only [Op.writes, onFiles, List.foldl_cons, Op.onFile, Option.getD_some, writeAt_end]
    rw [this, ← List.length_append, ih]; simp

theorem onFiles_trunc (f : File) (bs : List Bytes) (o : Option Bytes) :
    onFiles o (.trunc f :: Op.writes f 0 bs) = some bs.flatten := by
  have := onFiles_writes f bs []
  simpa [onFiles, Op.onFile] using this

/-- an interrupted sequence of writes leaves a prefix of what was to be written; a proper one if all the
pieces are non-empty and not everything was done -/
theorem Cut.writes {f : File} {bs : List Bytes} : ∀ {off : Nat} {c : List Op}, Cut (Op.writes f off bs) c →
    ∃ k, (∀ base : Bytes, base.length = off → onFiles (some base) c = some (base ++ bs.flatten.take k)) ∧
      ((∀ b ∈ bs, b ≠ []) → c ≠ Op.writes f off bs → k < bs.flatten.length) := by
  induction bs with
  | nil =>
    intro off c h
    cases h
    exact ⟨0, fun base _ => by simp [onFiles], fun _ h => absurd rfl h⟩
  | cons b bs ih =>
    intro off c h
    cases h with
    | stop =>
      refine ⟨0, fun base _ => by simp [onFiles], fun hne _ => ?_⟩
      have := List.length_pos_iff.mpr (hne b (by simp))
      simp; omega
    | part k =>
      by_cases hk : k < b.length
      · refine ⟨k, fun base hb => ?_, fun _ _ => by simp; omega⟩
        subst hb
        simp only [onFiles, List.foldl_cons, List.foldl_nil, Op.onFile, Option.getD_some, writeAt_end, List.flatten_cons]
        rw [List.take_append_of_le_length (by omega)]
      · refine ⟨b.length, fun base hb => ?_, fun hne hc => ?_⟩
        · subst hb
          simp only [onFiles, List.foldl_cons, List.foldl_nil, Op.onFile, Option.getD_some, writeAt_end, List.flatten_cons]
          rw [List.take_append_of_le_length (Nat.le_refl _), List.take_of_length_le (by omega), List.take_of_length_le (Nat.le_refl _)]
        · cases bs with
          | nil => exact absurd (by rw [List.take_of_length_le (by omega)]; rfl) hc
          | cons b' bs =>
            have := List.length_pos_iff.mpr (hne b' (by simp))
            simp; omega
    | step h =>
      obtain ⟨k, h1, h2⟩ := ih h
      refine ⟨b.length + k, fun base hb => ?_, fun hne hc => ?_⟩
      · subst hb
        have := h1 (base ++ b) (by simp)
        simp only [onFiles, List.foldl_cons, Op.onFile, Option.getD_some, writeAt_end] at this ⊢
        rw [this, List.flatten_cons, List.take_length_add_append, List.append_assoc]
      · have := h2 (fun x hx => hne x (by simp [hx])) (by intro e; apply hc; rw [e]; rfl)
        rw [List.flatten_cons, List.length_append]; omega

/-- a file that is written anew: untouched, or a prefix of the new contents -/
theorem Cut.rewrite {f : File} {bs : List Bytes} {c : List Op} (h : Cut (.trunc f :: Op.writes f 0 bs) c) :
    c = [] ∨ ∃ k, (∀ o, onFiles o c = some (bs.flatten.take k)) ∧
      ((∀ b ∈ bs, b ≠ []) → c ≠ .trunc f :: Op.writes f 0 bs → k < bs.flatten.length) := by
  cases h with
  | stop => exact .inl rfl
  | step h =>
    obtain ⟨k, h1, h2⟩ := h.writes
    refine .inr ⟨k, fun o => ?_, fun hne hc => h2 hne (by intro e; exact hc (by rw [e]))⟩
    have := h1 [] rfl
    simpa [onFiles, Op.onFile] using this

theorem writeAt_writeAt (f : Bytes) (off : Nat) (a b : Bytes) (hoff : off ≤ f.length) :
    writeAt (writeAt f off a) (off + a.length) b = writeAt f off (a ++ b) := by
  unfold writeAt
  have h0 : off - f.length = 0 := by omega
  rw [h0]
  simp only [List.replicate_zero, List.append_nil]
  generalize hA : f.take off ++ a = A
  have hl : off + a.length = A.length := by rw [← hA]; simp; omega
  have h1 : off + a.length - (A ++ f.drop (off + a.length)).length = 0 := by
    rw [List.length_append, hl]; omega
  rw [h1, List.replicate_zero, List.append_nil, hl, List.take_left, ← hA, List.append_assoc (f.take off) a b, hA]
  congr 1
  rw [List.drop_append, List.drop_of_length_le (by omega), List.nil_append, List.drop_drop]
  congr 1
  simp; omega

end Dupi
