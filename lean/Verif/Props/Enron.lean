import Verif.Model.Enron
import Verif.Proof.Csv
import Verif.Props.Run
import Verif.Props.Crash
/-! # C68, C69: cmd/dupenron -/

namespace Dupi.Props
open Spec Cmd Disk Enron

/-! ## The body of a message -/

/-- the body of a message: what follows the first empty line, or everything if there is none -/
def BodyOf (msg body : Bytes) : Prop :=
  (∃ head, msg = head ++ 10 :: 10 :: body ∧ ¬ [10, 10] <:+: head ++ [10]) ∨ (¬ [10, 10] <:+: msg ∧ body = msg)

theorem blankLine_some {msg : Bytes} : ∀ {i : Nat}, blankLine msg = some i →
    ∃ head body, msg = head ++ 10 :: 10 :: body ∧ head.length = i ∧ ¬ [10, 10] <:+: head ++ [10] := by
  induction msg with
  | nil => intro i h; simp [blankLine] at h
  | cons b msg ih =>
    intro i h
    rw [blankLine] at h
    split at h
    · rename_i hc
      injection h with h
      subst h
      obtain ⟨rfl, h2⟩ := hc
      cases msg with
      | nil => simp at h2
      | cons y msg =>
        simp only [List.head?_cons, Option.some.injEq] at h2
        subst h2
        refine ⟨[], msg, rfl, rfl, fun hc => ?_⟩
        have := hc.length_le
        simp at this
    · rename_i hc
      rw [Option.map_eq_some_iff] at h
      obtain ⟨j, hj, rfl⟩ := h
      obtain ⟨head, body, h1, h2, h3⟩ := ih hj
      refine ⟨b :: head, body, by rw [h1]; rfl, by simp [h2], ?_⟩
      rw [List.cons_append, List.infix_cons_iff]
      rintro (hp | hi)
      · apply hc
        rw [List.cons_prefix_cons] at hp
        obtain ⟨rfl, hp⟩ := hp
        refine ⟨rfl, ?_⟩
        rw [h1]
        cases head with
        | nil => rfl
        | cons y head =>
          rw [List.cons_append, List.cons_prefix_cons] at hp
          simp [← hp.1]
      · exact h3 hi

theorem blankLine_none {msg : Bytes} (h : blankLine msg = none) : ¬ [10, 10] <:+: msg := by
  induction msg with
  | nil => simp
  | cons b msg ih =>
    rw [blankLine] at h
    split at h
    · cases h
    · rename_i hc
      rw [Option.map_eq_none_iff] at h
      rw [List.infix_cons_iff]
      rintro (hp | hi)
      · rw [List.cons_prefix_cons] at hp
        obtain ⟨rfl, hp⟩ := hp
        apply hc
        refine ⟨rfl, ?_⟩
        cases msg with
        | nil => simp at hp
        | cons y msg => rw [List.cons_prefix_cons] at hp; simp [← hp.1]
      · exact ih h hi

/-- the document of a record: the data is the body, and the range is not as long as it -/
theorem docOf_spec (fname : Bytes) (offset : UInt32) (r : Bytes × Bytes) : ∃ body, BodyOf r.2 body ∧ (Enron.docOf fname offset r).path = fname ∧
    (Enron.docOf fname offset r).dat = some body ∧ body.length ≤ r.2.length ∧
    (r.1.length + r.2.length + 2 < 2 ^ 32 → ((Enron.docOf fname offset r).stop - (Enron.docOf fname offset r).start).toNat ≠ body.length) := by
  have key (x y o : UInt32) (hx : x ≠ 0) : (o + y) - (o + x) ≠ y := by
    intro h
    apply hx
    have h1 := congrArg UInt32.toNat h
    rw [UInt32.toNat_sub, UInt32.toNat_add, UInt32.toNat_add] at h1
    have hx' := x.toNat_lt
    have hy' := y.toNat_lt
    have ho' := o.toNat_lt
    apply UInt32.toNat_inj.mp
    show x.toNat = 0
    omega
  obtain ⟨a, msg⟩ := r
  unfold Enron.docOf
  simp only
  cases hb : blankLine msg with
  | some i =>
    obtain ⟨head, body, h1, h2, h3⟩ := blankLine_some hb
    have hd : msg.drop (i + 2) = body := by
      rw [h1, ← h2, show head.length + 2 = head.length + 2 by rfl, List.drop_append]
      simp
    simp only [hd]
    refine ⟨body, .inl ⟨head, h1, h3⟩, trivial, rfl, by rw [h1]; simp; omega, fun hlt heq => ?_⟩
    have hlen : msg.length = i + 2 + body.length := by rw [h1, ← h2]; simp; omega
    refine key (UInt32.ofNat (i + 2 + a.length)) (UInt32.ofNat body.length) offset ?_ ?_
    · intro e
      have := congrArg UInt32.toNat e
      rw [UInt32.toNat_ofNat', Nat.mod_eq_of_lt (by omega)] at this
      simp at this
    · apply UInt32.toNat_inj.mp
      have e : offset + UInt32.ofNat i + 2 + UInt32.ofNat a.length = offset + UInt32.ofNat (i + 2 + a.length) := by
        rw [UInt32.ofNat_add, UInt32.ofNat_add, UInt32.add_assoc offset, UInt32.add_assoc offset]
        rfl
      rw [e] at heq
      rw [heq, UInt32.toNat_ofNat', Nat.mod_eq_of_lt (by omega)]
  | none =>
    have hno := blankLine_none hb
    refine ⟨msg, .inr ⟨hno, rfl⟩, trivial, rfl, Nat.le_refl _, fun hlt heq => ?_⟩
    simp only at heq
    refine key (UInt32.ofNat (1 + a.length)) (UInt32.ofNat msg.length) offset ?_ ?_
    · intro e
      have := congrArg UInt32.toNat e
      rw [UInt32.toNat_ofNat', Nat.mod_eq_of_lt (by omega)] at this
      simp at this
    · apply UInt32.toNat_inj.mp
      have e : offset + 4294967295 + 2 + UInt32.ofNat a.length = offset + UInt32.ofNat (1 + a.length) := by
        rw [UInt32.ofNat_add, UInt32.add_assoc offset, UInt32.add_assoc offset]
        rfl
      rw [e] at heq
      rw [heq, UInt32.toNat_ofNat', Nat.mod_eq_of_lt (by omega)]

theorem docsOf_spec (fname : Bytes) (rs : List (Bytes × Bytes)) : ∀ offset : UInt32, List.Forall₂ (fun (r : Bytes × Bytes) (d : Doc) => ∃ body, BodyOf r.2 body ∧
    d.path = fname ∧ d.dat = some body ∧ body.length ≤ r.2.length ∧
    (r.1.length + r.2.length + 2 < 2 ^ 32 → (d.stop - d.start).toNat ≠ body.length)) rs (docsOf fname offset rs) := by
  induction rs with
  | nil => intro _; exact .nil
  | cons r rs ih => intro offset; exact .cons (docOf_spec fname offset r) (ih _)

/-! ## The command line -/

section
variable {F : Type} (S : Strconv F)

/-- the options of dupenron -/
def EnronOpt (o : Opt) : Prop :=
  ((o.name = [110] ∨ o.name = [115]) ∧ o.style ≠ .bare ∧ (S.parseInt o.value).isSome) ∨
    (o.name = [111] ∧ ((o.style = .bare ∧ o.value = Flag.trueB) ∨ (o.style = .equals ∧ (Flag.parseBool o.value).isSome))) ∨
    ((o.name = [114] ∨ o.name = [112, 112, 114, 111, 102]) ∧ o.style ≠ .bare)

theorem EnronOpt.fine {o : Opt} (h : EnronOpt S o) : Flag.Fine (Enron.flags S) o := by
  obtain ⟨name, value, style, two⟩ := o
  rcases h with ⟨h1 | h1, h2, h3⟩ | ⟨h1, h2⟩ | ⟨h1 | h1, h2⟩ <;> simp only at h1 <;> subst h1
  all_goals refine ⟨rfl, (by simp), ?_⟩
  · exact ⟨h2, h3⟩
  · exact ⟨h2, h3⟩
  · exact h2
  · exact ⟨h2, rfl⟩
  · exact ⟨h2, rfl⟩

theorem lastBool_isOn' (opts : List Opt) (n : Bytes) : Flag.lastBool (opts.map fun o => (o.name, o.value)) n = isOn opts n := by
  unfold Flag.lastBool isOn
  rw [Flag.last_valueOf]

theorem lastInt_intOf (opts : List Opt) (n : Bytes) (d : Int) : lastInt S (opts.map fun o => (o.name, o.value)) n d = intOf S opts n d := by
  unfold lastInt intOf
  rw [Flag.last_valueOf]

/-- the root: the last -r, or "dupi.idx" -/
def enronRoot (opts : List Opt) : Bytes := (valueOf opts [114]).getD defaultRoot

theorem main_index {opts : List Opt} (ho : ∀ o ∈ opts, EnronOpt S o) (hoff : isOn opts [111] = false) {l more : List Bytes} {fname : Bytes} (hl : Rest l (fname :: more))
    (direct : Bool) (space : Bytes → Bool) (cwd : Bytes) (fs : Files) (hs : intOf S opts [115] 10 = 10) {s : Bytes} (hf : fs (absPath cwd fname) = some s)
    {rs : List (Bytes × Bytes)} {bad : Bool} (hr : Csv.readAll (s.length + 1) s = some (rs, bad)) :
    Enron.main S direct space cwd fs (opts.flatMap Opt.args ++ l) =
      some (.ok (.index (plainConfig (absPath cwd (enronRoot opts)) (intOf S opts [110] 16) 2) (docsOf fname 0 rs) !bad)) := by
  unfold Enron.main
  rw [Flag.parse_opts (fun o h => (ho o h).fine) hl]
  simp only [lastBool_isOn', hoff, Bool.false_eq_true, if_false, lastInt_intOf, hs, Flag.last_valueOf, hf, hr]
  rfl

/-- **C68, where it holds.**  On a csv file, written in any way, dupenron makes an index at the root with the number of shards of -n, adds a document for
each record, its data being the body of the message, and closes the index. -/
theorem C68_index_partial {opts : List Opt} (ho : ∀ o ∈ opts, EnronOpt S o) (hoff : isOn opts [111] = false) {l more : List Bytes} {fname : Bytes} (hl : Rest l (fname :: more))
    (direct : Bool) (space : Bytes → Bool) (cwd : Bytes) (fs : Files) (hs : intOf S opts [115] 10 = 10) {f : Bytes} (hf : fs (absPath cwd fname) = some f)
    {rs : List (Bytes × Bytes)} (hr : CsvText rs f) :
    ∃ docs, Enron.main S direct space cwd fs (opts.flatMap Opt.args ++ l) =
      some (.ok (.index (plainConfig (absPath cwd (enronRoot opts)) (intOf S opts [110] 16) 2) docs true)) ∧
      List.Forall₂ (fun (r : Bytes × Bytes) (d : Doc) => d.path = fname ∧ ∃ body, BodyOf r.2 body ∧ d.dat = some body) rs docs := by
  refine ⟨_, main_index S ho hoff hl direct space cwd fs hs hf (Csv.readAll_text hr (Nat.lt_succ_self _)), ?_⟩
  refine (docsOf_spec fname rs 0).imp ?_
  rintro r d ⟨body, h1, h2, h3, _⟩
  exact ⟨h2, body, h1, h3⟩

end

theorem CsvText.long {rs : List (Bytes × Bytes)} {f : Bytes} (h : CsvText rs f) : ∀ r ∈ rs, r.1.length + r.2.length < f.length := by
  induction h with
  | nil => simp
  | blank _ _ ih =>
    intro r hr
    have := ih r hr
    rw [List.length_append]; omega
  | cons ha hb _ _ ih =>
    intro r hr
    have h1 := Csv.FieldText.le ha
    have h2 := Csv.FieldText.le hb
    simp only [List.length_append, List.length_cons] at *
    rcases List.mem_cons.mp hr with rfl | hr
    · simp only; omega
    · have := ih r hr
      omega
  | last ha hb =>
    intro r hr
    have h1 := Csv.FieldText.le ha
    have h2 := Csv.FieldText.le hb
    simp only [List.length_append, List.length_cons, List.mem_singleton] at *
    subst hr
    simp only; omega

theorem readAt_length {f : Bytes} {off : Int} {n : Nat} {b : Bytes} (h : readAt f off n = .ok b) : b.length = n := by
  unfold readAt at h
  split at h
  · cases h
  split at h
  · injection h with h
    subst h
    simp [*]
  split at h
  · injection h with h
    subst h
    rw [List.length_take, List.length_drop]; omega
  · cases h

/-- **C68 is false** of the place of the document: no document found in the index can be loaded again.  Loading it from the file it came from gives an
error or other data than was indexed, whatever the records (shorter than 4 GiB). -/
theorem C68_false_load {cwd fname f : Bytes} {rs : List (Bytes × Bytes)} (hr : CsvText rs f) (hsmall : ∀ r ∈ rs, r.1.length + r.2.length + 2 < 2 ^ 32) (fs : Files)
    (hf : fs (absPath cwd fname) = some f) : ∀ s ∈ documents [(cwd, docsOf fname 0 rs)], ∀ r, s.shown.load fs = .ok r → r.dat ≠ some s.dat := by
  intro s hs r hl hd
  simp only [documents, List.flatMap_cons, List.flatMap_nil, List.append_nil, added, List.mem_map] at hs
  obtain ⟨d, hd1, rfl⟩ := hs
  have key := docsOf_spec fname rs 0
  obtain ⟨q, hq, body, b1, b2, b3, b4, b5⟩ : ∃ q ∈ rs, ∃ body, BodyOf q.2 body ∧ d.path = fname ∧ d.dat = some body ∧ body.length ≤ q.2.length ∧
      (q.1.length + q.2.length + 2 < 2 ^ 32 → (d.stop - d.start).toNat ≠ body.length) := by
    generalize docsOf fname 0 rs = ds at key hd1
    clear hr hsmall
    induction key with
    | nil => cases hd1
    | cons h _ ih =>
      rcases List.mem_cons.mp hd1 with rfl | h'
      · exact ⟨_, by simp, h⟩
      · obtain ⟨q, hq, h⟩ := ih h'
        exact ⟨q, by simp [hq], h⟩
  have hne := b5 (hsmall q hq)
  have hlong := CsvText.long hr q hq
  unfold Doc.load Document.shown at hl
  simp only [b2] at hl
  have hpath : placeName (Spec.place cwd fname) = absPath cwd fname := by
    rw [← absPath_place]
  rw [hpath, hf] at hl
  simp only at hl
  simp only [b3, Option.getD_some] at hd
  split at hl
  · injection hl with hl
    subst hl
    simp only [Option.some.injEq] at hd
    rw [hd] at hlong
    omega
  · split at hl
    · rename_i b hb
      injection hl with hl
      subst hl
      simp only [Option.some.injEq] at hd
      rw [← hd, ← readAt_length hb] at hne
      exact hne rfl
    · cases hl
    · cases hl

/-! ## The index that is made -/

section
variable {u : Uni} {srt : Sorter} (hsrt : IsSorter srt) (S : Strconv ℝ) (join : Bytes → Bytes → Bytes)
  (fused fused' : Bool) (grow : Nat → Nat) {ff fuel k : Nat} (hff : 2 ^ 32 ≤ ff) (hfuel : 2 ^ 32 + 2 ^ 32 + 2 ^ 32 < fuel) (hk : 2 ^ 32 < k)
include hsrt hff hfuel hk

/-- **C68**, continued.  If there is no index at the root this succeeds, and whatever the schedule, `dupi -r ROOT extract` afterwards prints the blots the bodies
have in common. -/
theorem C68_extract_partial {ops : List Disk.Op} {d : Disk} (hm : ∀ op ∈ ops, Made Json.codec op) (hs : Steps u Json.codec srt Disk.empty ops d)
    {opts : List Opt} (ho : ∀ o ∈ opts, EnronOpt S o) (hoff : isOn opts [111] = false) {l more : List Bytes} {fname : Bytes} (hl : Rest l (fname :: more))
    (direct : Bool) (space : Bytes → Bool) (cwd : Bytes) (fs : Files) (h10 : intOf S opts [115] 10 = 10) {f : Bytes} (hf : fs (absPath cwd fname) = some f)
    {rs : List (Bytes × Bytes)} (hr : CsvText rs f) (hn : 0 < intOf S opts [110] 16) (hn' : intOf S opts [110] 16 < 2 ^ 32)
    (ht : IsText (absPath cwd (enronRoot opts))) (hfree : catalogue ops (Spec.place cwd (enronRoot opts)) = none)
    {c : Config} (hc : c = plainConfig (absPath cwd (enronRoot opts)) (intOf S opts [110] 16) 2) :
    ∃ docs, Enron.main S direct space cwd fs (opts.flatMap Opt.args ++ l) = some (.ok (.index c docs true)) ∧
      List.Forall₂ (fun (r : Bytes × Bytes) (d : Doc) => d.path = fname ∧ ∃ body, BodyOf r.2 body ∧ d.dat = some body) rs docs ∧
      (Fits u c (documents [(cwd, docs)]) →
        (∃ d', Step u Json.codec srt d (.create cwd c docs) d') ∧
        ∀ d', Step u Json.codec srt d (.create cwd c docs) d' →
        ∀ {gopts' opts' : List Opt}, RootOpts gopts' → (∀ o ∈ opts', ExtractOpt S o) → isOn opts' jsonB = false → ∀ {l' rest : List Bytes}, Rest l' rest →
        ∀ p' : Proc, Spec.place p'.cwd (promised join p'.env gopts') = Spec.place cwd (enronRoot opts) →
        |sigmaOf S opts'| ≤ 2 ^ 20 →
        ∃ out, extractRun S join Json.codec srt fused fused' grow ff fuel k d' p' (gopts'.flatMap Opt.args ++ Verb.extract.name :: (opts'.flatMap Opt.args ++ l')) =
            some (.ok (if isOn opts' [98] then extractBlots out else extractText out)) ∧
          Prints u c (documents [(cwd, docs)]) (sigmaOf S opts') out) := by
  obtain ⟨docs, e1, e2⟩ := C68_index_partial S ho hoff hl direct space cwd fs h10 hf hr
  rw [← hc] at e1
  refine ⟨docs, e1, e2, fun hfit => ?_⟩
  have hU : Usable Json.codec c := by rw [hc]; exact plainConfig_usable ht hn hn' (by decide) (by decide)
  have hroot : c.indexRoot = absPath cwd (enronRoot opts) := by rw [hc]; rfl
  have hpl : Spec.place cwd c.indexRoot = Spec.place cwd (enronRoot opts) := by rw [hroot, place_absPath]
  have hop : Made Json.codec (.create cwd c docs) := ⟨hU, by rw [hroot]; exact absPath_head _ _⟩
  constructor
  · obtain ⟨x, g1, g2⟩ := create_rep (u := u) hU
    have hfn : Fits u c ([] ++ added cwd docs) := by
      simpa only [documents, List.flatMap_cons, List.flatMap_nil, List.append_nil, List.nil_append] using hfit
    obtain ⟨d1, hd1⟩ := Session.exists hU g2 cwd _ hfn (d := Dir.empty) (.inl rfl)
    exact ⟨_, .create (by rw [resolve_place, hpl]; exact (Steps.shows hm hs).free hfree) g1 hd1⟩
  · intro d' hd' gopts' opts' hg' ho' hj' l' rest hl' p' hp' hσ
    have hcat : catalogue (ops ++ [.create cwd c docs]) (Spec.place p'.cwd (promised join p'.env gopts')) = some (c, [(cwd, docs)]) := by
      simp only [catalogue, List.foldl_append, List.foldl_cons, List.foldl_nil, Catalogue.after, at_, hpl, hp', if_true]
    exact C63_extract hsrt S join fused fused' grow hff hfuel hk (ops := ops ++ [.create cwd c docs])
      (fun op hop' => (List.mem_append.mp hop').elim (hm op) fun h => by rw [List.mem_singleton] at h; subst h; exact hop) (hs.snoc hd') hg' ho' hj' hl' p' hcat
      hfit hσ

end

/-! ## A record that has not two fields -/

theorem read_bad {x : Bytes} (hx : x ≠ []) (hp : ∀ b ∈ x, b ≠ 34 ∧ b ≠ 44 ∧ b ≠ 10 ∧ b ≠ 13) {nl t : Bytes} (hnl : IsNL nl) : ∃ rest, Csv.read (x ++ (nl ++ t)) = some (.err, rest) := by
  have hl : Csv.readLine (x ++ (nl ++ t)) = (x ++ [10], t) := by
    rw [Csv.readLine_append fun b hb => ⟨(hp b hb).2.2.1, (hp b hb).2.2.2⟩, Csv.readLine_isNL hnl]
  have hne : Csv.lengthNL (x ++ [10]) ≠ (x ++ [10]).length := by
    have := List.length_pos_iff.mpr hx
    simp [Csv.lengthNL]; omega
  unfold Csv.read
  rw [Csv.skipEmpty, if_neg (by simp [hx]), hl, if_neg hne]
  simp only
  have := Csv.fields_end (.plain hp) (tail := nl ++ t) (.inr ⟨nl, t, hnl, rfl⟩) [] (fuel := (x ++ (nl ++ t)).length + 2) (by simp)
  rw [hl] at this
  rw [this]
  exact ⟨_, rfl⟩

theorem readAll_bad (space : Bytes → Bool) {rs : List (Bytes × Bytes)} (hrs : ∀ r ∈ rs, ¬ [13, 10] <:+: r.1 ∧ ¬ [13, 10] <:+: r.2) {x : Bytes} (hx : x ≠ [])
    (hp : ∀ b ∈ x, b ≠ 34 ∧ b ≠ 44 ∧ b ≠ 10 ∧ b ≠ 13) {nl t : Bytes} (hnl : IsNL nl) : ∀ {fuel : Nat}, rs.length < fuel →
    Csv.readAll fuel (rs.flatMap (Csv.writeRecord space) ++ (x ++ (nl ++ t))) = some (rs, true) := by
  induction rs with
  | nil =>
    intro fuel hf
    obtain ⟨n, rfl⟩ : ∃ n, fuel = n + 1 := ⟨fuel - 1, by omega⟩
    obtain ⟨rest, h⟩ := read_bad hx hp hnl (t := t)
    rw [List.flatMap_nil, List.nil_append, Csv.readAll, h]
  | cons r rs ih =>
    intro fuel hf
    obtain ⟨n, rfl⟩ : ∃ n, fuel = n + 1 := ⟨fuel - 1, by omega⟩
    obtain ⟨a, b⟩ := r
    obtain ⟨h1, h2⟩ := hrs (a, b) (by simp)
    have hrd := Csv.read_record (Csv.fieldPieces_text space h1) (Csv.fieldPieces_text space h2) (tail := [10] ++ (rs.flatMap (Csv.writeRecord space) ++ (x ++ (nl ++ t))))
      (.inr ⟨[10], _, .inl rfl, rfl⟩)
    rw [Csv.readLine_isNL (.inl rfl)] at hrd
    have e : ((a, b) :: rs).flatMap (Csv.writeRecord space) ++ (x ++ (nl ++ t)) =
        (Csv.fieldPieces space a).flatten ++ 44 :: ((Csv.fieldPieces space b).flatten ++ ([10] ++ (rs.flatMap (Csv.writeRecord space) ++ (x ++ (nl ++ t))))) := by
      rw [List.flatMap_cons, Csv.writeRecord_eq]; simp
    rw [e, Csv.readAll, hrd]
    simp only
    rw [ih (fun r hr => hrs r (by simp [hr])) (by rw [List.length_cons] at hf; omega)]
    rfl

theorem writeRecords_le (space : Bytes → Bool) (rs : List (Bytes × Bytes)) : rs.length ≤ (rs.flatMap (Csv.writeRecord space)).length := by
  induction rs with
  | nil => simp
  | cons r rs ih => rw [List.flatMap_cons, List.length_append, List.length_cons]; simp only [Csv.writeRecord_eq, List.length_append, List.length_cons]; omega

section
variable {F : Type} (S : Strconv F)

/-- **C68 is false** of a file with a record that is not a pair: the index is not closed, -/
theorem C68_false_close {opts : List Opt} (ho : ∀ o ∈ opts, EnronOpt S o) (hoff : isOn opts [111] = false) {l more : List Bytes} {fname : Bytes} (hl : Rest l (fname :: more))
    (direct : Bool) (space : Bytes → Bool) (cwd : Bytes) (fs : Files) (hs : intOf S opts [115] 10 = 10) {rs : List (Bytes × Bytes)}
    (hrs : ∀ r ∈ rs, ¬ [13, 10] <:+: r.1 ∧ ¬ [13, 10] <:+: r.2) {x : Bytes} (hx : x ≠ []) (hp : ∀ b ∈ x, b ≠ 34 ∧ b ≠ 44 ∧ b ≠ 10 ∧ b ≠ 13) {nl t : Bytes} (hnl : IsNL nl)
    (hf : fs (absPath cwd fname) = some (rs.flatMap (Csv.writeRecord space) ++ (x ++ (nl ++ t)))) :
    Enron.main S direct space cwd fs (opts.flatMap Opt.args ++ l) =
      some (.ok (.index (plainConfig (absPath cwd (enronRoot opts)) (intOf S opts [110] 16) 2) (docsOf fname 0 rs) false)) := by
  have := writeRecords_le space rs
  exact main_index S ho hoff hl direct space cwd fs hs hf (readAll_bad space hrs hx hp hnl (by rw [List.length_append]; omega))

end

/-- and an index that was made but not closed cannot be opened, however much of what was added has been written when the process ends: the records before
the bad one are lost. -/
theorem C68_false_unclosed {u : Uni} {J : CfgCodec} {srt : Sorter} {c : Config} (hU : Usable J c) (hJ : ∀ b, Tame (J.dec b)) {x : Indexer} (hx : Indexer.create c = .ok x)
    {cwd : Bytes} {docs : List Doc} {tr : Trace} {d' : Dir} (hr : Indexer.Run u J cwd x docs Dir.empty (Indexer.createOps c.numShards.toNat 0) tr d')
    {a : List Dupi.Op} {s : Nat → List Dupi.Op} {ops : List Dupi.Op} (ha : Cut tr.adds a) (hs : ∀ j, j < c.numShards.toNat → Cut (tr.serve j) (s j))
    (hi : Interleave (Trace.workers c.numShards.toNat a s) ops) : ∃ e, Index.open J srt (Dir.empty.run (tr.setup ++ ops)) = fail e := by
  obtain ⟨h1, _⟩ := create_ready (u := u) hU hx
  have R := hr.rep
  have hns := h1.nsh
  refine open_errs srt (fun b _ => hJ b) (.inl fun b hb => ?_)
  rw [run_append, ((workers_opsOn hi (ha.on R.adds) fun j hj => (hs j hj).on (R.serve j (by omega))).2.2 .fnm nofun fun j hj => nofun).run, R.setup,
    (createOps_off _ 0 .fnm fun j _ _ => ⟨nofun, nofun⟩).run] at hb
  exact absurd hb nofun

/-! ## C69: -o -/

theorem _root_.Dupi.Spec.FieldText.noCRLF {f t : Bytes} (h : FieldText f t) : ¬ [13, 10] <:+: f := by
  cases h with
  | plain h =>
    rintro ⟨a, b, rfl⟩
    exact (h 13 (by simp)).2.2.2 rfl
  | quoted h => exact h

theorem _root_.Dupi.Spec.CsvText.noCRLF {rs : List (Bytes × Bytes)} {s : Bytes} (h : CsvText rs s) : ∀ r ∈ rs, ¬ [13, 10] <:+: r.1 ∧ ¬ [13, 10] <:+: r.2 := by
  induction h with
  | nil => simp
  | blank _ _ ih => exact ih
  | cons ha hb _ _ ih =>
    intro r hr
    rcases List.mem_cons.mp hr with rfl | hr
    · exact ⟨ha.noCRLF, hb.noCRLF⟩
    · exact ih r hr
  | last ha hb =>
    intro r hr
    rw [List.mem_singleton] at hr
    subst hr
    exact ⟨ha.noCRLF, hb.noCRLF⟩

theorem _root_.Dupi.Spec.CsvText.empty {rs : List (Bytes × Bytes)} {s : Bytes} (h : CsvText rs s) (hs : s = []) : rs = [] := by
  cases h with
  | nil => rfl
  | blank hnl _ => rcases hnl with rfl | rfl <;> simp at hs
  | cons _ _ _ _ => simp at hs
  | last _ _ => simp at hs

theorem doubled_length (f : Bytes) : (f.flatMap fun b => if b = 34 then [34, 34] else [b]).length ≤ 2 * f.length := by
  induction f with
  | nil => simp
  | cons b f ih =>
    rw [List.flatMap_cons, List.length_append, List.length_cons]
    split <;> simp only [List.length_cons, List.length_nil] <;> omega

theorem _root_.Dupi.Spec.FieldText.length {f t : Bytes} (h : FieldText f t) : t.length ≤ 2 * f.length + 2 := by
  cases h with
  | plain _ => omega
  | quoted _ =>
    have := doubled_length f
    simp only [List.length_cons, List.length_append, List.length_nil, List.cons_append]
    omega

theorem copy_text (direct : Bool) (space : Bytes → Bool) : ∀ (n : Nat) {rs : List (Bytes × Bytes)} {s : Bytes} (o : Csv.Buf), CsvText rs s → o.buf.length ≤ 4096 →
    ∃ o', copy direct space n s o = some o' ∧ o'.out ++ o'.buf = o.out ++ o.buf ++ (rs.take n).flatMap (Csv.writeRecord space) ∧ o'.buf.length ≤ 4096 ∧
      (((rs.take n).flatMap (Csv.writeRecord space)).length + o.buf.length ≤ 4096 → o'.out = o.out) ∧ (o.buf ≠ [] ∨ rs.take n ≠ [] → o'.buf ≠ []) := by
  intro n
  induction n with
  | zero => intro rs s o _ hb; exact ⟨o, rfl, by simp, hb, fun _ => rfl, by simp⟩
  | succ n ih =>
    intro rs s o h hb
    rcases Csv.read_text h with ⟨rfl, h2⟩ | ⟨a, b, rs', s', rfl, h2, h3, _⟩
    · exact ⟨o, by rw [Enron.copy, h2], by simp, hb, fun _ => rfl, by simp⟩
    · obtain ⟨w1, w2, w3⟩ := Csv.Buf.write_spec direct (Csv.recordPieces space (a, b)) o hb
      have w4 := Csv.Buf.write_record direct space o hb (a, b)
      obtain ⟨o', p1, p2, p3, p4, p5⟩ := ih (o.write direct (Csv.recordPieces space (a, b))) h3 w2
      have hfl : (Csv.recordPieces space (a, b)).flatten = Csv.writeRecord space (a, b) := rfl
      refine ⟨o', by rw [Enron.copy, h2]; exact p1, ?_, p3, fun hl => ?_, fun _ => p5 (.inl w4)⟩
      · rw [p2, w1, hfl, List.take_succ_cons, List.flatMap_cons]; simp
      · rw [List.take_succ_cons, List.flatMap_cons, List.length_append] at hl
        have e := w3 (by rw [hfl]; omega)
        rw [p4, e]
        have := congrArg List.length w1
        rw [e, hfl] at this
        simp only [List.length_append] at this
        omega

section
variable {F : Type} (S : Strconv F)

theorem main_copy {opts : List Opt} (ho : ∀ o ∈ opts, EnronOpt S o) (hon : isOn opts [111] = true) {l more : List Bytes} {fname : Bytes} (hl : Rest l (fname :: more))
    (direct : Bool) (space : Bytes → Bool) (cwd : Bytes) (fs : Files) {f : Bytes} (hf : fs (absPath cwd fname) = some f) {rs : List (Bytes × Bytes)} (hr : CsvText rs f) :
    ∃ out lost, Enron.main S direct space cwd fs (opts.flatMap Opt.args ++ l) = some (.ok (.print out)) ∧
      out ++ lost = (rs.take (intOf S opts [110] 16).toNat).flatMap (Csv.writeRecord space) ∧ lost.length ≤ 4096 ∧
      ((out ++ lost).length ≤ 4096 → out = []) ∧ (rs.take (intOf S opts [110] 16).toNat ≠ [] → lost ≠ []) := by
  obtain ⟨o', p1, p2, p3, p4, p5⟩ := copy_text direct space (intOf S opts [110] 16).toNat ⟨[], []⟩ hr (by simp)
  refine ⟨o'.out, o'.buf, ?_, by simpa using p2, p3, fun h => p4 ?_, fun h => p5 (.inr h)⟩
  · unfold Enron.main
    rw [Flag.parse_opts (fun o h => (ho o h).fine) hl]
    simp only [lastBool_isOn', hon, if_true, lastInt_intOf, hf, p1]
  · rw [p2] at h; simpa using h

/-- **C69, where it holds.**  With -o, what is printed are the first records, -n of them, written as a csv file, up to 4096 bytes at the end. -/
theorem C69_copy_partial {opts : List Opt} (ho : ∀ o ∈ opts, EnronOpt S o) (hon : isOn opts [111] = true) {l more : List Bytes} {fname : Bytes} (hl : Rest l (fname :: more))
    (direct : Bool) (space : Bytes → Bool) (cwd : Bytes) (fs : Files) {f : Bytes} (hf : fs (absPath cwd fname) = some f) {rs : List (Bytes × Bytes)} (hr : CsvText rs f) :
    ∃ out lost, Enron.main S direct space cwd fs (opts.flatMap Opt.args ++ l) = some (.ok (.print out)) ∧ lost.length ≤ 4096 ∧
      CsvText (rs.take (intOf S opts [110] 16).toNat) (out ++ lost) := by
  obtain ⟨out, lost, h1, h2, h3, _⟩ := main_copy S ho hon hl direct space cwd fs hf hr
  refine ⟨out, lost, h1, h3, ?_⟩
  rw [h2]
  exact Csv.writeRecords_text space fun r hr' => hr.noCRLF r (List.mem_of_mem_take hr')

/-- **C69 is false**: the buffer of the writer is never passed on at the end.  If there is a record to be copied some of the text is missing; -/
theorem C69_false_end {opts : List Opt} (ho : ∀ o ∈ opts, EnronOpt S o) (hon : isOn opts [111] = true) {l more : List Bytes} {fname : Bytes} (hl : Rest l (fname :: more))
    (direct : Bool) (space : Bytes → Bool) (cwd : Bytes) (fs : Files) {f : Bytes} (hf : fs (absPath cwd fname) = some f) {rs : List (Bytes × Bytes)} (hr : CsvText rs f)
    (hne : rs ≠ []) (hn : 0 < intOf S opts [110] 16) :
    ∃ out lost, Enron.main S direct space cwd fs (opts.flatMap Opt.args ++ l) = some (.ok (.print out)) ∧ lost ≠ [] ∧
      CsvText (rs.take (intOf S opts [110] 16).toNat) (out ++ lost) := by
  obtain ⟨out, lost, h1, h2, _, _, h5⟩ := main_copy S ho hon hl direct space cwd fs hf hr
  refine ⟨out, lost, h1, h5 ?_, ?_⟩
  · obtain ⟨n, hn'⟩ : ∃ n, (intOf S opts [110] 16).toNat = n + 1 := ⟨(intOf S opts [110] 16).toNat - 1, by omega⟩
    rw [hn']
    cases rs with
    | nil => exact absurd rfl hne
    | cons r rs => simp
  · rw [h2]
    exact Csv.writeRecords_text space fun r hr' => hr.noCRLF r (List.mem_of_mem_take hr')

/-- and if the records are few and short nothing at all is printed. -/
theorem C69_false_short {opts : List Opt} (ho : ∀ o ∈ opts, EnronOpt S o) (hon : isOn opts [111] = true) {l more : List Bytes} {fname : Bytes} (hl : Rest l (fname :: more))
    (direct : Bool) (space : Bytes → Bool) (cwd : Bytes) (fs : Files) {f : Bytes} (hf : fs (absPath cwd fname) = some f) {rs : List (Bytes × Bytes)} (hr : CsvText rs f)
    (hshort : ((rs.take (intOf S opts [110] 16).toNat).map fun r => 2 * (r.1.length + r.2.length) + 6).sum ≤ 4096) :
    Enron.main S direct space cwd fs (opts.flatMap Opt.args ++ l) = some (.ok (.print [])) := by
  obtain ⟨out, lost, h1, h2, _, h4, _⟩ := main_copy S ho hon hl direct space cwd fs hf hr
  have hlen : ∀ rs' : List (Bytes × Bytes), (∀ r ∈ rs', ¬ [13, 10] <:+: r.1 ∧ ¬ [13, 10] <:+: r.2) →
      (rs'.flatMap (Csv.writeRecord space)).length ≤ (rs'.map fun r => 2 * (r.1.length + r.2.length) + 6).sum := by
    intro rs'
    induction rs' with
    | nil => simp
    | cons r rs' ih =>
      intro h
      have := ih fun r hr => h r (by simp [hr])
      have f1 := (Csv.fieldPieces_text space (h r (by simp)).1).length
      have f2 := (Csv.fieldPieces_text space (h r (by simp)).2).length
      rw [List.flatMap_cons, List.length_append, List.map_cons, List.sum_cons, Csv.writeRecord_eq]
      simp only [List.length_append, List.length_cons, List.length_nil]
      omega
  have := hlen (rs.take (intOf S opts [110] 16).toNat) fun r hr' => hr.noCRLF r (List.mem_of_mem_take hr')
  rw [h4 (by rw [h2]; omega)] at h1
  exact h1

end

/-! ## Non-vacuity -/

/-- "id,a b c … k." and "id2,\"x\n\nA B … K!\"", the second body after an empty line -/
def exEnronRecords : List (Bytes × Bytes) := [([97], exText1), ([98], 120 :: 10 :: 10 :: exText2)]
def exEnronFile : Bytes := [97, 44] ++ exText1 ++ [13, 10] ++ [98, 44, 34, 120, 10, 10] ++ exText2 ++ [34]

theorem exEnron_text : CsvText exEnronRecords exEnronFile := by
  have h1 : FieldText [97] [97] := .plain (by decide)
  have h2 : FieldText exText1 exText1 := .plain (by decide)
  have h3 : FieldText [98] [98] := .plain (by decide)
  have h4 : FieldText (120 :: 10 :: 10 :: exText2) (34 :: (120 :: 10 :: 10 :: exText2).flatMap (fun b => if b = 34 then [34, 34] else [b]) ++ [34]) := .quoted (by decide)
  have := CsvText.cons h1 h2 (.inr rfl) (.last h3 h4)
  exact this

def exEnronFs : Files := fun p => if p = [47, 101] then some exEnronFile else none

/-- `dupenron e` -/
theorem C68_nonvacuous (grow : Nat → Nat) : ∃ c docs, Enron.main exFloat false (fun _ => false) [47] exEnronFs [[101]] = some (.ok (.index c docs true)) ∧
    docs.map Doc.dat = [some exText1, some exText2] ∧ ∃ d', Step asciiUni Json.codec mergeSorter Disk.empty (.create [47] c docs) d' ∧
    ∃ out, extractRun exFloat exJoin Json.codec mergeSorter false false grow (2 ^ 32) (2 ^ 40) (2 ^ 33) d' exProc' [[45, 114], [47] ++ defaultRoot, Verb.extract.name] =
        some (.ok (extractText out)) ∧ Prints asciiUni c (documents [([47], docs)]) 2 out := by
  have hl : Rest [[101]] [[101]] := .plain (by simp)
  have hfs : exEnronFs (absPath [47] [101]) = some exEnronFile := by
    have : absPath [47] [101] = [47, 101] := by decide +kernel
    rw [this]; simp [exEnronFs]
  have hroot : absPath [47] (enronRoot []) = 47 :: defaultRoot := by decide +kernel
  have ht : IsText (absPath [47] (enronRoot [])) := isText_iff.mpr (by rw [hroot]; decide +kernel)
  have hm := main_index exFloat (opts := []) (by simp) rfl hl false (fun _ => false) [47] exEnronFs rfl hfs (Csv.readAll_text exEnron_text (Nat.lt_succ_self _))
  obtain ⟨docs, e1, _, e3⟩ := C68_extract_partial mergeSorter_isSorter exFloat exJoin false false grow (ff := 2 ^ 32) (fuel := 2 ^ 40) (k := 2 ^ 33) (by decide) (by decide) (by decide)
    (ops := []) (by simp) .nil (opts := []) (by simp) rfl hl false (fun _ => false) [47] exEnronFs rfl hfs exEnron_text (by decide) (by decide) ht rfl rfl
  have hd : docs = docsOf [101] 0 exEnronRecords := by
    have := e1.symm.trans hm
    simp only [Option.some.injEq, Except.ok.injEq, Act.index.injEq] at this
    exact this.2.1
  have hdd : documents [([47], docs)] = [⟨[47, 101], 2, 22, exText1⟩, ⟨[47, 101], 26, 46, exText2⟩] := by
    rw [hd]; decide +kernel
  have hnb : numBlots asciiUni (plainConfig (absPath [47] (enronRoot [])) (intOf exFloat [] [110] 16) 2) (documents [([47], docs)]) = 3 := by
    rw [hdd, hroot]; decide +kernel
  have hfit : Fits asciiUni (plainConfig (absPath [47] (enronRoot [])) (intOf exFloat [] [110] 16) 2) (documents [([47], docs)]) := by
    refine ⟨?_, ?_, by rw [hnb]; decide⟩
    · rw [hdd]; decide
    · rw [hdd]; decide
  obtain ⟨⟨d', h1⟩, h2⟩ := e3 hfit
  refine ⟨_, docs, e1, by rw [hd]; decide +kernel, d', h1, ?_⟩
  have := h2 d' h1 (gopts' := [⟨[114], 47 :: defaultRoot, .apart, false⟩]) (opts' := []) ⟨by simp [RootOpt], by simp [Apart]; intro v; cases v <;> decide⟩ (by simp) rfl
    (l' := []) (rest := []) (.plain (by simp)) exProc' (by decide +kernel) (by simp [sigmaOf, valueOf]; norm_num)
  simpa [sigmaOf, valueOf, isOn, Opt.args] using this

/-- `dupenron -o e` -/
theorem C69_nonvacuous : Enron.main exFloat false (fun _ => false) [47] exEnronFs [[45, 111], [101]] = some (.ok (.print [])) ∧ exEnronRecords ≠ [] := by
  refine ⟨?_, by decide⟩
  exact C69_false_short exFloat (opts := [⟨[111], Flag.trueB, .bare, false⟩]) (by simp [EnronOpt]) rfl (l := [[101]]) (fname := [101]) (more := []) (.plain (by simp)) false _ [47] exEnronFs
    (by have : absPath [47] [101] = [47, 101] := by decide +kernel
        rw [this]; simp [exEnronFs]) exEnron_text (by decide +kernel)

end Dupi.Props
