import Verif.Model.Cmd
/-! # The index command: C42 -/

namespace Dupi.Props
open Cmd

section
variable (join : Bytes → Bytes → Bytes)

/-- a name that begins with a dot and has something after it -/
def Hidden (name : Bytes) : Prop := ∃ b rest, name = 46 :: b :: rest

instance (name : Bytes) : Decidable (Hidden name) :=
  match name with
  | [] => .isFalse (by rintro ⟨_, _, h⟩; cases h)
  | [_] => .isFalse (by rintro ⟨_, _, h⟩; cases h)
  | a :: b :: r => if h : a = 46 then .isTrue ⟨b, r, by rw [h]⟩ else .isFalse (by rintro ⟨_, _, h'⟩; injection h' with h1; exact h h1)

mutual
/-- the files that are reached without passing a hidden entry or an unreadable directory, in order -/
def visible (path name : Bytes) : Node → List (Bytes × FileRead)
  | .file r => if Hidden name then [] else [(path, r)]
  | .dir none => []
  | .dir (some es) => if Hidden name then [] else visibleAll path es
def visibleAll (path : Bytes) : List (Bytes × Node) → List (Bytes × FileRead)
  | [] => []
  | (n, node) :: es => visible (join path n) n node ++ visibleAll path es
end

mutual
/-- no unreadable directory that is not hidden -/
def Open (name : Bytes) : Node → Prop
  | .file _ => True
  | .dir none => Hidden name
  | .dir (some es) => Hidden name ∨ OpenAll es
def OpenAll : List (Bytes × Node) → Prop
  | [] => True
  | (n, node) :: es => Open n node ∧ OpenAll es
end

/-- the document made of a file that can be read -/
def docOf : Bytes × FileRead → Option Doc
  | (p, .data dat) => some ⟨p, 0, UInt32.ofNat dat.length, some dat⟩
  | _ => none

theorem hidden_iff (name : Bytes) : hidden name = decide (Hidden name) := by
  rw [Bool.eq_iff_iff, decide_eq_true_iff]
  unfold hidden Hidden
  match name with
  | [] => simp
  | [a] => simp
  | a :: b :: r => simp

variable (addOk : Doc → Bool)

mutual
/-- only visible files are added, in order -/
theorem walk_sound (path name : Bytes) (s : WalkSt) : ∀ node : Node,
    ∃ l, (walk join addOk path name s node).2.added = s.added ++ l ∧ l.Sublist ((visible join path name node).filterMap docOf)
  | .file r => by
    rw [walk, hidden_iff]
    by_cases h : Hidden name
    · exact ⟨[], by simp [h]⟩
    · simp only [h, decide_false, Bool.false_eq_true, if_false, visible]
      cases r with
      | openFails => exact ⟨[], by simp [addFile]⟩
      | readFails => exact ⟨[], by simp [addFile]⟩
      | data dat =>
        simp only [addFile]
        split
        · exact ⟨_, rfl, by simp [docOf]⟩
        · exact ⟨[], by simp⟩
  | .dir none => by
    rw [walk]
    split
    · exact ⟨[], by simp⟩
    · exact ⟨[], by simp⟩
  | .dir (some es) => by
    rw [walk, hidden_iff]
    by_cases h : Hidden name
    · exact ⟨[], by simp [h]⟩
    · simp only [h, decide_false, Bool.false_eq_true, if_false, visible]
      exact walkAll_sound path s es
theorem walkAll_sound (path : Bytes) (s : WalkSt) : ∀ es : List (Bytes × Node),
    ∃ l, (walkAll join addOk path s es).2.added = s.added ++ l ∧ l.Sublist ((visibleAll join path es).filterMap docOf)
  | [] => ⟨[], by simp [walkAll]⟩
  | (n, node) :: es => by
    obtain ⟨l, h1, h2⟩ := walk_sound (join path n) n s node
    rw [walkAll, visibleAll, List.filterMap_append]
    cases hw : walk join addOk (join path n) n s node with
    | mk w s' =>
      rw [hw] at h1
      simp only at h1
      cases w with
      | ok =>
        obtain ⟨l', g1, g2⟩ := walkAll_sound path s' es
        exact ⟨l ++ l', by simp only; rw [g1, h1, List.append_assoc], h2.append g2⟩
      | skipDir => exact ⟨l, h1, h2.trans (List.sublist_append_left _ _)⟩
      | err => exact ⟨l, h1, h2.trans (List.sublist_append_left _ _)⟩
end

/-- the walk added a visible file or passed it by because of trouble -/
def Fine (fs : List (Bytes × FileRead)) : Prop := ∀ f ∈ fs, ∃ doc, docOf f = some doc ∧ addOk doc = true

/-- no visible file that cannot be opened, no document that cannot be added -/
def Quiet (fs : List (Bytes × FileRead)) : Prop := ∀ f ∈ fs, f.2 ≠ .openFails ∧ ∀ doc, docOf f = some doc → addOk doc = true

mutual
/-- `*perr` once set stays set; if it is not set afterwards and there was no silent trouble, all is well -/
theorem walk_complete (path name : Bytes) (s : WalkSt) : ∀ node : Node, Quiet addOk (visible join path name node) →
    (walk join addOk path name s node).2.perr = false →
    s.perr = false ∧ (walk join addOk path name s node).1 = .ok ∧ Open name node ∧ Fine addOk (visible join path name node) ∧
      (walk join addOk path name s node).2.added = s.added ++ (visible join path name node).filterMap docOf
  | .file r => by
    intro hq
    rw [walk, hidden_iff]
    simp only [visible] at hq ⊢
    by_cases h : Hidden name
    · simp [h, Open, Fine]
    · simp only [h, decide_false, Bool.false_eq_true, if_false, Open, true_and] at hq ⊢
      obtain ⟨q1, q2⟩ := hq (path, r) (by simp)
      cases r with
      | openFails => exact absurd rfl q1
      | readFails => simp [addFile]
      | data dat =>
        have hok := q2 _ rfl
        simp only [addFile, hok, if_true]
        intro hp
        exact ⟨hp, trivial, fun f hf => by rw [List.mem_singleton] at hf; subst hf; exact ⟨_, rfl, hok⟩, by simp [docOf]⟩
  | .dir none => by
    intro hq
    rw [walk, hidden_iff]
    by_cases h : Hidden name
    · simp [h, Open, Fine, visible]
    · simp [h]
  | .dir (some es) => by
    intro hq
    rw [walk, hidden_iff]
    simp only [visible] at hq ⊢
    by_cases h : Hidden name
    · simp [h, Open, Fine]
    · simp only [h, decide_false, Bool.false_eq_true, if_false, Open, false_or] at hq ⊢
      exact walkAll_complete path s es hq
theorem walkAll_complete (path : Bytes) (s : WalkSt) : ∀ es : List (Bytes × Node), Quiet addOk (visibleAll join path es) →
    (walkAll join addOk path s es).2.perr = false →
    s.perr = false ∧ (walkAll join addOk path s es).1 = .ok ∧ OpenAll es ∧ Fine addOk (visibleAll join path es) ∧
      (walkAll join addOk path s es).2.added = s.added ++ (visibleAll join path es).filterMap docOf
  | [] => by simp [walkAll, OpenAll, Fine, visibleAll]
  | (n, node) :: es => by
    intro hq
    rw [visibleAll] at hq ⊢
    have ih1 := walk_complete (join path n) n s node (fun f hf => hq f (by simp [hf]))
    rw [walkAll, List.filterMap_append]
    cases hw : walk join addOk (join path n) n s node with
    | mk w s' =>
      rw [hw] at ih1
      simp only at ih1
      cases w with
      | ok =>
        simp only
        intro hp
        obtain ⟨g1, g2, g3, g4, g5⟩ := walkAll_complete path s' es (fun f hf => hq f (by simp [hf])) hp
        obtain ⟨k1, _, k3, k4, k5⟩ := ih1 g1
        exact ⟨k1, g2, ⟨k3, g3⟩, fun f hf => (List.mem_append.mp hf).elim (k4 f) (g4 f), by rw [g5, k5, List.append_assoc]⟩
      | skipDir => intro hp; obtain ⟨_, h, _⟩ := ih1 hp; cases h
      | err => intro hp; obtain ⟨_, h, _⟩ := ih1 hp; cases h
end

mutual
/-- without trouble everything visible is added -/
theorem walk_fine (path name : Bytes) (s : WalkSt) : ∀ node : Node, Fine addOk (visible join path name node) → Open name node →
    walk join addOk path name s node = (.ok, { s with added := s.added ++ (visible join path name node).filterMap docOf })
  | .file r => by
    intro hq _
    rw [walk, hidden_iff]
    simp only [visible] at hq ⊢
    by_cases h : Hidden name
    · simp [h]
    · simp only [h, decide_false, Bool.false_eq_true, if_false] at hq ⊢
      obtain ⟨doc, h1, h2⟩ := hq (path, r) (by simp)
      cases r with
      | openFails => cases h1
      | readFails => cases h1
      | data dat => cases h1; simp [addFile, h2, docOf]
  | .dir none => by
    intro _ ho
    rw [walk, hidden_iff]
    rw [Open] at ho
    simp [ho, visible]
  | .dir (some es) => by
    intro hq ho
    rw [walk, hidden_iff]
    rw [Open] at ho
    simp only [visible] at hq ⊢
    by_cases h : Hidden name
    · simp [h]
    · simp only [h, decide_false, Bool.false_eq_true, if_false, false_or] at hq ho ⊢
      exact walkAll_fine path s es hq ho
theorem walkAll_fine (path : Bytes) (s : WalkSt) : ∀ es : List (Bytes × Node), Fine addOk (visibleAll join path es) → OpenAll es →
    walkAll join addOk path s es = (.ok, { s with added := s.added ++ (visibleAll join path es).filterMap docOf })
  | [] => by simp [walkAll, visibleAll]
  | (n, node) :: es => by
    intro hq ho
    rw [visibleAll] at hq ⊢
    rw [OpenAll] at ho
    rw [walkAll, walk_fine (join path n) n s node (fun f hf => hq f (by simp [hf])) ho.1]
    simp only
    rw [walkAll_fine path _ es (fun f hf => hq f (by simp [hf])) ho.2]
    simp
end

/-- **C42**, first half: whatever the tree and whatever fails, what is added are visible files, each once, in the order of the walk. -/
theorem C42_only_visible (fpath name : Bytes) (node : Node) (added : List Doc) :
    ∃ l, (doPath join addOk fpath name (some node) added).2 = added ++ l ∧ l.Sublist ((visible join fpath name node).filterMap docOf) :=
  walk_sound join addOk fpath name ⟨added, false⟩ node

/-- **C42**: a tree in which everything visible can be read is indexed completely, and there is no error. -/
theorem C42_all_visible (fpath name : Bytes) (node : Node) (added : List Doc) (h : Fine addOk (visible join fpath name node))
    (ho : Open name node) :
    doPath join addOk fpath name (some node) added = (false, added ++ (visible join fpath name node).filterMap docOf) := by
  rw [doPath]
  simp only [walk_fine join addOk fpath name ⟨added, false⟩ node h ho]

/-- **C42**, what holds of the second half: if no visible file fails to be opened and no document fails to be added, then the absence of an
error means that everything visible was read and added.  Missing: files that cannot be opened, documents that cannot be added;
these end the walk without an error. -/
theorem C42_complete_partial (fpath name : Bytes) (node : Node) (added : List Doc) (hq : Quiet addOk (visible join fpath name node))
    (h : (doPath join addOk fpath name (some node) added).1 = false) :
    Open name node ∧ Fine addOk (visible join fpath name node) ∧
      (doPath join addOk fpath name (some node) added).2 = added ++ (visible join fpath name node).filterMap docOf := by
  obtain ⟨_, _, h3, h4, h5⟩ := walk_complete join addOk fpath name ⟨added, false⟩ node hq h
  exact ⟨h3, h4, h5⟩

/-- **C42 is false**: in any directory, a file that cannot be opened silently ends the indexing of the whole argument: no error
is returned, and nothing after it is added, whatever it is. -/
theorem C42_false_open (fpath name : Bytes) (before after : List (Bytes × Node)) (n : Bytes) (added : List Doc) (hn : ¬ Hidden name)
    (hn' : ¬ Hidden n) (h : Fine addOk (visibleAll join fpath before)) (ho : OpenAll before) :
    doPath join addOk fpath name (some (.dir (some (before ++ (n, .file .openFails) :: after)))) added =
      (false, added ++ (visibleAll join fpath before).filterMap docOf) := by
  have key : ∀ (before : List (Bytes × Node)) (s : WalkSt), Fine addOk (visibleAll join fpath before) → OpenAll before →
      walkAll join addOk fpath s (before ++ (n, .file .openFails) :: after) =
        (.err, { s with added := s.added ++ (visibleAll join fpath before).filterMap docOf }) := by
    intro before
    induction before with
    | nil => intro s _ _; simp [walkAll, walk, hidden_iff, hn', addFile, visibleAll]
    | cons e es ih =>
      intro s hq ho
      obtain ⟨m, node⟩ := e
      rw [visibleAll] at hq ⊢
      rw [OpenAll] at ho
      rw [List.cons_append, walkAll, walk_fine join addOk (join fpath m) m s node (fun f hf => hq f (by simp [hf])) ho.1]
      simp only
      rw [ih _ (fun f hf => hq f (by simp [hf])) ho.2]
      simp
  rw [doPath, walk, hidden_iff]
  simp only [hn, decide_false, Bool.false_eq_true, if_false, key before ⟨added, false⟩ h ho]

/-- An argument named ".." (as any hidden one) is skipped without an error. -/
theorem C42_false_dotdot (fpath : Bytes) (node : Node) (added : List Doc) : doPath join addOk fpath [46, 46] (some node) added = (false, added) := by
  cases node with
  | file r => simp [doPath, walk, hidden_iff, Hidden]
  | dir es => cases es <;> simp [doPath, walk, hidden_iff, Hidden]

end

/-- a directory with a file, a hidden file, a directory with a file, a file that cannot be opened, and another file -/
def exTree (r : FileRead) : Node :=
  .dir (some [([97], .file (.data [1])), ([46, 98], .file (.data [2])), ([99], .dir (some [([100], .file (.data [3]))])), ([101], .file r),
    ([102], .file (.data [4]))])

example : doPath (fun a b => a ++ 47 :: b) (fun _ => true) [116] [116] (some (exTree .openFails)) [] =
    (false, [⟨[116, 47, 97], 0, 1, some [1]⟩, ⟨[116, 47, 99, 47, 100], 0, 1, some [3]⟩]) := by decide +kernel
example : doPath (fun a b => a ++ 47 :: b) (fun _ => true) [116] [116] (some (exTree (.data [5]))) [] =
    (false, [⟨[116, 47, 97], 0, 1, some [1]⟩, ⟨[116, 47, 99, 47, 100], 0, 1, some [3]⟩, ⟨[116, 47, 101], 0, 1, some [5]⟩,
      ⟨[116, 47, 102], 0, 1, some [4]⟩]) := by decide +kernel

end Dupi.Props
