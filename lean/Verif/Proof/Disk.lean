import Verif.Proof.Index
import Verif.Proof.PathSpec
import Verif.Props.Lock
import Verif.Spec.Disk
/-! # Several indexes on a disk -/

namespace Dupi
open Spec

theorem elems_placeName_place (cwd p : Bytes) : elems (placeName (Spec.place cwd p)) = Spec.place cwd p :=
  Props.elems_placeName _ (place_good cwd p)

/-- an absolute name leads where it says, from everywhere -/
theorem place_placeName (cwd : Bytes) (l : List Bytes) (h : ∀ e ∈ l, e ≠ [] ∧ (47 : UInt8) ∉ e) (hd : ∀ e ∈ l, e ≠ [46] ∧ e ≠ [46, 46]) :
    Spec.place cwd (placeName l) = l := by
  unfold Spec.place
  rw [Props.elems_placeName l h, show (placeName l).head? = some 47 from rfl, if_pos rfl, Props.foldl_step_plain _ _ hd, List.nil_append]

theorem place_absPath (cwd cwd' p : Bytes) : Spec.place cwd' (absPath cwd p) = Spec.place cwd p := by
  rw [absPath_place]
  exact place_placeName cwd' _ (place_good cwd p) (Props.place_nodots cwd p)

theorem absPath_head (cwd p : Bytes) : (absPath cwd p).head? = some 47 := by
  rw [absPath_place]; rfl

theorem place_absolute {p : Bytes} (h : p.head? = some 47) (cwd cwd' : Bytes) : Spec.place cwd p = Spec.place cwd' p := by
  unfold Spec.place; rw [if_pos h, if_pos h]

theorem Disk.resolve_place (cwd p : Bytes) : Disk.resolve cwd p = Spec.place cwd p := by
  unfold Disk.resolve
  rw [cleanComps_foldl, elems_split, absPath_place, elems_placeName_place, List.reverse_nil,
    Props.foldl_step_plain _ _ (Props.place_nodots cwd p), List.nil_append]

theorem Disk.readConfig_eq (J : CfgCodec) (k : Disk) (cwd root : Bytes) : k.readConfig J cwd root = Config.readFrom J (k.dir (Spec.place cwd root)) := by
  unfold Disk.readConfig
  rw [Disk.resolve_place, place_absPath]

theorem Index.open_eq (J : CfgCodec) (srt : Sorter) (d : Dir) : Index.open J srt d = Config.readFrom J d >>= fun c => Index.openWith srt c d := rfl

theorem Indexer.open_eq (J : CfgCodec) (d : Dir) : Indexer.open J d = Config.readFrom J d >>= fun c => Indexer.openWith c d := rfl

/-- where the root in the configuration leads to the directory it is read from, the index is the one in that directory -/
theorem Disk.openIndex_own {J : CfgCodec} {srt : Sorter} {k : Disk} {cwd root : Bytes}
    (h : ∀ c, Config.readFrom J (k.dir (Spec.place cwd root)) = .ok c → Spec.place cwd c.indexRoot = Spec.place cwd root) :
    k.openIndex J srt cwd root = Index.open J srt (k.dir (Spec.place cwd root)) := by
  unfold Disk.openIndex
  rw [Disk.readConfig_eq, Index.open_eq]
  cases hc : Config.readFrom J (k.dir (Spec.place cwd root)) with
  | error e => rfl
  | ok c => simp only [bind, Except.bind]; rw [Disk.resolve_place, h c hc]

theorem Disk.openIndexer_own {J : CfgCodec} {k : Disk} {cwd root : Bytes}
    (h : ∀ c, Config.readFrom J (k.dir (Spec.place cwd root)) = .ok c → Spec.place cwd c.indexRoot = Spec.place cwd root) :
    k.openIndexer J cwd root = Indexer.open J (k.dir (Spec.place cwd root)) := by
  unfold Disk.openIndexer
  rw [Disk.readConfig_eq, Indexer.open_eq]
  cases hc : Config.readFrom J (k.dir (Spec.place cwd root)) with
  | error e => rfl
  | ok c => simp only [bind, Except.bind]; rw [Disk.resolve_place, h c hc]

theorem Index.openWith_config {srt : Sorter} {c : Config} {d : Dir} {x : Index} (h : Index.openWith srt c d = .ok x) : x.config = c := by
  simp only [Index.openWith, bind, Except.bind, pure, Except.pure] at h
  repeat' split at h
  all_goals first | cases h | skip
  rfl

theorem Indexer.openWith_config {c : Config} {d : Dir} {x : Indexer} (h : Indexer.openWith c d = .ok x) : x.config = c := by
  simp only [Indexer.openWith, bind, Except.bind, pure, Except.pure] at h
  repeat' split at h
  all_goals first | cases h | skip
  rfl

theorem closeShards_cfg (sh : Nat → ShardIndexer) : ∀ (n : Nat) (d d' : Dir), Indexer.closeShards sh n d = .ok d' → d' .cfg = d .cfg := by
  intro n
  induction n with
  | zero => intro d d' h; cases h; rfl
  | succ n ih =>
    intro d d' h
    simp only [Indexer.closeShards, bind, Except.bind, pure, Except.pure] at h
    split at h
    · cases h
    · rename_i d1 h1
      split at h
      · cases h
      · cases h
        simp [Dir.set, ih d d1 h1]

theorem writeAt_zero_same (a : Bytes) : writeAt a 0 a = a := by simp [writeAt]

/-- what the configuration file is after a session -/
theorem Session.cfg {u : Uni} {J : CfgCodec} {cwd : Bytes} {x : Indexer} {docs : List Doc} {d d' : Dir} (h : Indexer.Session u J cwd x docs d d')
    (hd : d .cfg = none ∨ d .cfg = some (J.enc x.config ++ [10])) : d' .cfg = some (J.enc x.config ++ [10]) := by
  cases h with
  | run _ _ _ h =>
    unfold Indexer.close at h
    have := closeShards_cfg _ _ _ _ h
    rw [this]
    have hw : (x.config.writeTo J d) .cfg = some (J.enc x.config ++ [10]) := by
      simp only [Dir.set, Config.writeTo]
      rcases hd with hd | hd
      · simp [hd, writeAt]
      · simp [hd, writeAt_zero_same]
    cases Dmd.close _ _ with
    | none => exact hw
    | some b => exact hw

theorem create_config {c : Config} {x : Indexer} (h : Indexer.create c = .ok x) : x.config = c := by
  simp only [Indexer.create, bind, Except.bind, pure, Except.pure] at h
  repeat' split at h
  all_goals first | cases h | skip
  rfl

theorem readFrom_of {J : CfgCodec} {c : Config} (hU : Usable J c) {d : Dir} (h : d .cfg = some (J.enc c ++ [10])) :
    Config.readFrom J d = .ok c := by
  simp [Config.readFrom, Dir.read, h, hU.codec, hU.check, bind, Except.bind, pure, Except.pure]

/-- the configuration file after any sessions -/
theorem History.cfg {u : Uni} {J : CfgCodec} {c : Config} (hU : Usable J c) {h : Sessions} {d : Dir} (hh : History u J c h d) :
    d .cfg = some (J.enc c ++ [10]) := by
  induction hh with
  | create h1 h2 =>
    have h3 := create_config h1
    have := Session.cfg h2 (.inl rfl)
    rwa [h3] at this
  | append h1 h2 h3 ih =>
    rw [Indexer.open_eq, readFrom_of hU ih] at h2
    have hx := Indexer.openWith_config h2
    have := Session.cfg h3 (.inr (by rw [hx]; exact ih))
    rwa [hx] at this

namespace Disk

/-- the disk is as the catalogue says -/
def Shows (u : Uni) (J : CfgCodec) (k : Disk) (g : Catalogue) : Prop := ∀ p,
  match g p with
  | none => k p = none
  | some (c, h) => ∃ d, k p = some d ∧ History u J c h d ∧ Usable J c ∧ (∀ cwd, Spec.place cwd c.indexRoot = p) ∧ c.indexRoot.head? = some 47

/-- configurations that are made by `CreateIndexer`, or like them: the root is absolute (it begins with "/"), and reading the configuration gives it back -/
def Made (J : CfgCodec) (op : Op) : Prop :=
  match op with
  | .create _ c _ => Usable J c ∧ c.indexRoot.head? = some 47
  | _ => True

variable {u : Uni} {J : CfgCodec} {srt : Sorter}

theorem Shows.free {k : Disk} {g : Catalogue} (h : k.Shows u J g) {p : List Bytes} (hp : g p = none) : k p = none := by
  have := h p; rw [hp] at this; exact this

theorem Shows.held {k : Disk} {g : Catalogue} (h : k.Shows u J g) {p : List Bytes} {c : Config} {s : Sessions} (hp : g p = some (c, s)) :
    ∃ d, k p = some d ∧ History u J c s d ∧ Usable J c ∧ (∀ cwd, Spec.place cwd c.indexRoot = p) ∧ c.indexRoot.head? = some 47 := by
  have := h p; rw [hp] at this; exact this

theorem readFrom_empty (J : CfgCodec) : Config.readFrom J Dir.empty = fail .notExist := rfl

theorem Shows.own {k : Disk} {g : Catalogue} (h : k.Shows u J g) (cwd root : Bytes) :
    ∀ c, Config.readFrom J (k.dir (Spec.place cwd root)) = .ok c → Spec.place cwd c.indexRoot = Spec.place cwd root := by
  intro c hc
  cases hg : g (Spec.place cwd root) with
  | none =>
    rw [Disk.dir, h.free hg] at hc
    cases hc
  | some e =>
    obtain ⟨c', s⟩ := e
    obtain ⟨d, h1, h2, h3, h4, _⟩ := h.held hg
    rw [Disk.dir, h1, Option.getD_some, readFrom_of h3 (h2.cfg h3)] at hc
    cases hc
    exact h4 cwd

theorem Shows.config {k : Disk} {g : Catalogue} (h : k.Shows u J g) {cwd root : Bytes} {c : Config}
    (hc : Config.readFrom J (k.dir (Spec.place cwd root)) = .ok c) : ∃ s, g (Spec.place cwd root) = some (c, s) := by
  cases hg : g (Spec.place cwd root) with
  | none =>
    rw [Disk.dir, h.free hg] at hc
    cases hc
  | some e =>
    obtain ⟨c', s⟩ := e
    obtain ⟨d, h1, h2, h3, h4, _⟩ := h.held hg
    rw [Disk.dir, h1, Option.getD_some, readFrom_of h3 (h2.cfg h3)] at hc
    cases hc
    exact ⟨s, rfl⟩

theorem Shows.openIndexer {k : Disk} {g : Catalogue} (h : k.Shows u J g) {cwd root : Bytes} {x : Indexer} (hx : k.openIndexer J cwd root = .ok x) :
    ∃ s d, g (Spec.place cwd root) = some (x.config, s) ∧ k (Spec.place cwd root) = some d ∧ History u J x.config s d ∧ Indexer.open J d = .ok x ∧
      resolve cwd x.config.indexRoot = Spec.place cwd root ∧ Usable J x.config := by
  rw [openIndexer_own (h.own cwd root)] at hx
  have hx' := hx
  rw [Indexer.open_eq] at hx'
  simp only [bind, Except.bind] at hx'
  split at hx'
  · cases hx'
  · rename_i c hc
    have := Indexer.openWith_config hx'
    subst this
    obtain ⟨s, hs⟩ := h.config hc
    obtain ⟨d, h1, h2, h3, h4, _⟩ := h.held hs
    refine ⟨s, d, hs, h1, h2, ?_, ?_, h3⟩
    · rw [Disk.dir, h1, Option.getD_some] at hx; exact hx
    · rw [resolve_place]; exact h4 cwd

theorem Shows.openIndex {k : Disk} {g : Catalogue} (h : k.Shows u J g) {cwd root : Bytes} {x : Index} (hx : k.openIndex J srt cwd root = .ok x) :
    ∃ s, g (Spec.place cwd root) = some (x.config, s) ∧ resolve cwd x.config.indexRoot = Spec.place cwd root := by
  have hx' := hx
  rw [openIndex_own (h.own cwd root), Index.open_eq] at hx'
  simp only [bind, Except.bind] at hx'
  split at hx'
  · cases hx'
  · rename_i c hc
    have := Index.openWith_config hx'
    subst this
    obtain ⟨s, hs⟩ := h.config hc
    obtain ⟨d, h1, h2, h3, h4, _⟩ := h.held hs
    exact ⟨s, hs, by rw [resolve_place]; exact h4 cwd⟩

theorem Shows.removeAll {k : Disk} {g : Catalogue} (h : k.Shows u J g) (p : List Bytes) :
    (k.removeAll p).Shows u J fun q => if p <+: q then none else g q := by
  intro q
  unfold Disk.removeAll
  by_cases hq : p <+: q
  · simp [hq]
  · simpa [hq] using h q

theorem Step.shows {k k' : Disk} {g : Catalogue} {op : Op} (h : k.Shows u J g) (hm : Made J op) (hs : Step u J srt k op k') :
    k'.Shows u J (g.after op) ∧ g.Allows op := by
  cases hs with
  | create h1 h2 h3 =>
    rename_i cwd c x docs d
    obtain ⟨hU, hr⟩ := hm
    rw [resolve_place] at *
    have hg : g (Spec.place cwd c.indexRoot) = none := by
      cases hg : g (Spec.place cwd c.indexRoot) with
      | none => rfl
      | some e => obtain ⟨d, hd, _⟩ := h.held (c := e.1) (s := e.2) hg; rw [hd] at h1; cases h1
    refine ⟨fun p => ?_, hg⟩
    by_cases hp : p = Spec.place cwd c.indexRoot
    · simp only [Catalogue.after, at_, hp, if_true, Disk.set]
      exact ⟨d, rfl, .create h2 h3, hU, fun cwd' => place_absolute hr cwd' cwd, hr⟩
    · simpa [Catalogue.after, at_, hp, Disk.set] using h p
  | append h1 h2 =>
    rename_i cwd root x docs d
    obtain ⟨s, d0, g1, g2, g3, g4, g5, g6⟩ := h.openIndexer h1
    obtain ⟨_, _, _, _, g7, g8⟩ := h.held g1
    rw [g5] at h2 ⊢
    rw [Disk.dir, g2, Option.getD_some] at h2
    refine ⟨fun p => ?_, by simp [Catalogue.Allows, at_, g1]⟩
    by_cases hp : p = Spec.place cwd root
    · subst hp
      simp only [Catalogue.after, at_, if_true, Disk.set, g1, Option.map_some]
      exact ⟨d, rfl, .append g3 g4 h2, g6, g7, g8⟩
    · simpa [Catalogue.after, at_, hp, Disk.set] using h p
  | remove h1 =>
    rename_i cwd root x
    obtain ⟨s, g1, g2⟩ := h.openIndex h1
    rw [g2]
    exact ⟨h.removeAll _, by simp [Catalogue.Allows, at_, g1]⟩
  | discard h1 h2 =>
    rename_i cwd root x docs d
    obtain ⟨s, d0, g1, g2, g3, g4, g5, g6⟩ := h.openIndexer h1
    rw [g5]
    refine ⟨fun p => ?_, by simp [Catalogue.Allows, at_, g1]⟩
    have := (h.removeAll (Spec.place cwd root)) p
    have e : ((k.set (Spec.place cwd root) d).removeAll (Spec.place cwd root)) p = (k.removeAll (Spec.place cwd root)) p := by
      unfold Disk.removeAll Disk.set
      by_cases hp : p = Spec.place cwd root
      · simp [hp]
      · simp [hp]
    rw [e]; exact this

theorem Steps.shows {ops : List Op} {k : Disk} (hm : ∀ op ∈ ops, Made J op) (hs : Steps u J srt Disk.empty ops k) :
    k.Shows u J (catalogue ops) := by
  generalize hk : Disk.empty = k0 at hs
  induction hs with
  | nil => subst hk; intro p; rfl
  | snoc h1 h2 ih =>
    have h := ih (fun op ho => hm op (by simp [ho]))
    have := (Step.shows h (hm _ (by simp)) h2).1
    unfold catalogue at this ⊢
    rw [List.foldl_append]
    exact this

end Disk
end Dupi
