import Verif.Proof.ConfigExact
import Verif.Proof.JsonTame
import Verif.Props.ConfigRun
/-! # A configuration file is what it says: C78 -/

namespace Dupi.Json
open Spec

mutual
theorem text_mono {S S' : List Char → Bytes → Prop} (h : ∀ cs t, S cs t → S' cs t) {v : JVal} {t : Bytes} : JTextOf S v t → JTextOf S' v t
  | .null => .null
  | .true => .true
  | .false => .false
  | .num hn => .num hn
  | .str hs => .str (h _ _ hs)
  | .arr0 hw => .arr0 hw
  | .arr he => .arr (elems_mono h he)
  | .obj0 hw => .obj0 hw
  | .obj hm => .obj (members_mono h hm)
theorem elems_mono {S S' : List Char → Bytes → Prop} (h : ∀ cs t, S cs t → S' cs t) {vs : List JVal} {t : Bytes} : JElemsOf S vs t → JElemsOf S' vs t
  | .one a b c => .one a (text_mono h b) c
  | .cons a b c d => .cons a (text_mono h b) c (elems_mono h d)
theorem members_mono {S S' : List Char → Bytes → Prop} (h : ∀ cs t, S cs t → S' cs t) {ms : List (List Char × JVal)} {t : Bytes} : JMembersOf S ms t → JMembersOf S' ms t
  | .one a b c d e f => .one a (text_mono h b) c d (text_mono h e) f
  | .cons a b c d e f g => .cons a (text_mono h b) c d (text_mono h e) f (members_mono h g)
end

theorem chars_lax {cs : List Char} {t : Bytes} (h : JChars cs t) : LaxChars cs t := by
  induction h with
  | nil => exact .nil
  | cons h _ ih => exact .char h ih

theorem isText_append {a b : Bytes} (ha : IsText a) (hb : IsText b) : IsText (a ++ b) := by
  obtain ⟨x, rfl⟩ := ha
  obtain ⟨y, rfl⟩ := hb
  exact ⟨x ++ y, by simp [utf8]⟩

theorem isText_ascii {a : Bytes} (h : ∀ b ∈ a, b.toNat < 128) : IsText a := by
  induction a with
  | nil => exact ⟨[], rfl⟩
  | cons b a ih =>
    have := isText_append ⟨[Char.ofNat b.toNat], rfl⟩ (ih fun x hx => h x (by simp [hx]))
    rw [ascii_char (h b (by simp))] at this
    exact this

theorem isText_cons {b : UInt8} {a : Bytes} (hb : b.toNat < 128) (ha : IsText a) : IsText (b :: a) :=
  isText_append (isText_ascii (a := [b]) (by simpa using hb)) ha

theorem isText_blank {w : Bytes} (h : Blank w) : IsText w :=
  isText_ascii fun b hb => by rcases h b hb with rfl | rfl | rfl | rfl <;> decide

theorem isText_digits {t : Bytes} (h : IsDigits t) : IsText t := isText_ascii fun b hb => by have := h.2 b hb; omega

theorem isText_number {t : Bytes} (h : JNumber t) : IsText t := by
  obtain ⟨s, i, f, e, rfl, h1, h2, _, h3, h4⟩ := h
  refine isText_append ?_ (isText_append (isText_digits h2) (isText_append ?_ ?_))
  · rcases h1 with rfl | rfl
    · exact ⟨[], rfl⟩
    · exact isText_ascii (by simp)
  · rcases h3 with rfl | ⟨d, rfl, hd⟩
    · exact ⟨[], rfl⟩
    · exact isText_cons (by decide) (isText_digits hd)
  · rcases h4 with rfl | ⟨x, g, d, rfl, hx, hg, hd⟩
    · exact ⟨[], rfl⟩
    · refine isText_cons (by rcases hx with rfl | rfl <;> decide) (isText_append ?_ (isText_digits hd))
      rcases hg with rfl | rfl | rfl
      · exact ⟨[], rfl⟩
      · exact isText_ascii (by simp)
      · exact isText_ascii (by simp)

theorem isText_hex4 {n : Nat} {t : Bytes} (h : Hex4 n t) : IsText t := by
  obtain ⟨a, b, c, d, rfl, _, _, _, _, h1, h2, h3, h4, _⟩ := h
  have hx {b : UInt8} {v : Nat} (h : hexOf b = some v) : b.toNat < 128 := by
    unfold hexOf at h
    split at h
    · omega
    · split at h
      · omega
      · split at h
        · omega
        · cases h
  refine isText_ascii ?_
  simp only [List.mem_cons, List.not_mem_nil, or_false, forall_eq_or_imp, forall_eq]
  exact ⟨hx h1, hx h2, hx h3, hx h4⟩

theorem isText_char {c : Char} {t : Bytes} (h : JChar c t) : IsText t := by
  cases h with
  | plain => exact ⟨_, rfl⟩
  | short h =>
    refine isText_ascii ?_
    simp only [shortEscapes, List.mem_cons, List.not_mem_nil, or_false, Prod.mk.injEq] at h
    rcases h with ⟨_, rfl⟩ | ⟨_, rfl⟩ | ⟨_, rfl⟩ | ⟨_, rfl⟩ | ⟨_, rfl⟩ | ⟨_, rfl⟩ | ⟨_, rfl⟩ | ⟨_, rfl⟩ <;> simp
  | code h => exact isText_cons (by decide) (isText_cons (by decide) (isText_hex4 h))
  | pair h h' =>
    exact isText_cons (by decide) (isText_cons (by decide) (isText_append (isText_hex4 h) (isText_cons (by decide) (isText_cons (by decide) (isText_hex4 h')))))

theorem isText_chars {cs : List Char} {t : Bytes} (h : JChars cs t) : IsText t := by
  induction h with
  | nil => exact ⟨[], rfl⟩
  | cons h _ ih => exact isText_append (isText_char h) ih

mutual
theorem isText_text {v : JVal} {t : Bytes} : JText v t → IsText t
  | .null => isText_ascii (by simp)
  | .true => isText_ascii (by simp)
  | .false => isText_ascii (by simp)
  | .num h => isText_number h
  | .str h => isText_cons (by decide) (isText_append (isText_chars h) (isText_ascii (by simp)))
  | .arr0 h => isText_cons (by decide) (isText_append (isText_blank h) (isText_ascii (by simp)))
  | .arr h => isText_cons (by decide) (isText_append (isText_elems h) (isText_ascii (by simp)))
  | .obj0 h => isText_cons (by decide) (isText_append (isText_blank h) (isText_ascii (by simp)))
  | .obj h => isText_cons (by decide) (isText_append (isText_members h) (isText_ascii (by simp)))
theorem isText_elems {vs : List JVal} {t : Bytes} : JElems vs t → IsText t
  | .one a b c => isText_append (isText_blank a) (isText_append (isText_text b) (isText_blank c))
  | .cons a b c d => isText_append (isText_blank a) (isText_append (isText_text b) (isText_append (isText_blank c) (isText_cons (by decide) (isText_elems d))))
theorem isText_members {ms : List (List Char × JVal)} {t : Bytes} : JMembers ms t → IsText t
  | .one a b c d e f => isText_append (isText_blank a) (isText_append (isText_text b) (isText_append (isText_blank c) (isText_cons (by decide)
      (isText_append (isText_blank d) (isText_append (isText_text e) (isText_blank f))))))
  | .cons a b c d e f g => isText_append (isText_blank a) (isText_append (isText_text b) (isText_append (isText_blank c) (isText_cons (by decide)
      (isText_append (isText_blank d) (isText_append (isText_text e) (isText_append (isText_blank f) (isText_cons (by decide) (isText_members g))))))))
end

/-- JSON is UTF-8 -/
theorem isText_json {v : JVal} {t : Bytes} (h : IsJson v t) : IsText t := by
  obtain ⟨w, s, w', rfl, h1, h2, h3⟩ := h
  exact isText_append (isText_blank h1) (isText_append (isText_text h2) (isText_blank h3))

theorem errs_of_not_ok {α : Type} {x : M α} (h : Tame x) (hn : ∀ a, x ≠ .ok a) : Errs x := by
  rcases h with ⟨a, h⟩ | h
  · exact absurd h (hn a)
  · exact h

end Dupi.Json

namespace Dupi.Props
open Spec Cmd Disk Json

/-- the length of a sequence is that of the blots, times the interleave (for the 64-bit integers of Go) -/
def Agrees (c : Config) : Prop := (2 ^ 64 : Int) ∣ c.seqLen - c.blotConfig.interleave * c.blotConfig.seqLen

theorem check_iff {c : Config} (h : Ints c) : c.check = .ok () ↔ Agrees c := by
  have hs := h.seqLen
  obtain ⟨h1, h2⟩ := hs
  generalize hp : c.blotConfig.interleave * c.blotConfig.seqLen = p
  have key : u64ToI64 (i64ToU64 p) = c.seqLen ↔ (2 ^ 64 : Int) ∣ c.seqLen - p := by
    unfold u64ToI64 i64ToU64
    rw [UInt64.toNat_ofNat']
    have a := Int.emod_nonneg p (show (2 ^ 64 : Int) ≠ 0 by decide)
    have b := Int.emod_lt_of_pos p (show (0 : Int) < 2 ^ 64 by decide)
    rw [Nat.mod_eq_of_lt (by omega)]
    split <;> omega
  unfold Config.check Agrees
  rw [hp, ← key]
  by_cases e : u64ToI64 (i64ToU64 p) = c.seqLen
  · rw [if_neg (fun g => g e.symm)]; simp [e]
  · rw [if_pos (fun g => e g.symm)]; simp [e, fail]

theorem last_kind {α : Type} {P : α → JVal → Prop} {Q : α → Prop} (hQ : ∀ x v, P x v → Q x) {old : α} (ho : Q old) {vs : List JVal} {x : α} (h : Last P old vs x) : Q x := by
  have h := h.2
  cases hl : vs.getLast? with
  | none => rw [hl] at h; simp only at h; rw [h]; exact ho
  | some v => rw [hl] at h; exact hQ x v h

/-- **C78.**  Whatever the text, the numbers read fit 64 bits and the strings read are UTF-8. -/
theorem C78_values {t : Bytes} {c : Config} (h : Says t c) : Ints c ∧ IsText c.indexRoot ∧ IsText c.tokenConfig.name := by
  obtain ⟨_, _, _, ms, _, h1, h2, h3, h4, h5, ⟨ms6, _, h6⟩, ⟨ms7, _, h7, h8⟩⟩ := h
  have int {i : Int} {vs : List JVal} (h : Last WholeIs 0 vs i) : IsInt i := last_kind (Q := IsInt) (fun x v h => ⟨h.1, h.2.1⟩) ⟨by decide, by decide⟩ h
  have str {s : Bytes} {vs : List JVal} (h : Last StrIs [] vs s) : IsText s := last_kind (Q := IsText) (fun x v ⟨cs, _, h⟩ => ⟨cs, h⟩) ⟨[], rfl⟩ h
  exact ⟨⟨int h2, int h3, int h4, int h5, int h7, int h8⟩, str h1, str h6⟩

/-- **C78.**  A text says at most one configuration. -/
theorem C78_one {t : Bytes} {c c' : Config} (h : Says t c) (h' : Says t c') : c = c' :=
  Except.ok.inj (((unmarshal_exact t c).mpr h).symm.trans ((unmarshal_exact t c').mpr h'))

section
variable (files : Bytes → Option Bytes)

/-- **C78.**  `ReadConfig` returns the configuration that the file says, and whose lengths agree: no other, and nothing for other files. -/
theorem C78_read (file : Bytes) (c : Config) : Cmd.readConfig Json.codec files file = .ok c ↔ ∃ t, files file = some t ∧ Says t c ∧ Agrees c := by
  unfold Cmd.readConfig
  cases hf : files file with
  | none => simp [bind, Except.bind]
  | some t =>
    simp only [bind, Except.bind, Option.some.injEq, exists_eq_left']
    cases hd : Json.codec.dec t with
    | error e =>
      simp only [reduceCtorEq, false_iff]
      rintro ⟨h, _⟩
      rw [(unmarshal_exact t c).mpr h] at hd
      cases hd
    | ok c' =>
      have hs := (unmarshal_exact t c').mp hd
      have hc := check_iff (C78_values hs).1
      simp only
      cases hk : c'.check with
      | error e =>
        simp only [reduceCtorEq, false_iff]
        rintro ⟨h, ha⟩
        rw [C78_one h hs] at ha
        rw [hc.mpr ha] at hk
        cases hk
      | ok _ =>
        simp only [pure, Except.pure, Except.ok.injEq]
        constructor
        · rintro rfl; exact ⟨hs, hc.mp hk⟩
        · rintro ⟨h, _⟩; exact C78_one hs h

/-- **C78.**  A file that says no configuration (or one whose lengths do not agree), or that cannot be read: an error is returned. -/
theorem C78_refused {file : Bytes} (h : ¬ ∃ t c, files file = some t ∧ Says t c ∧ Agrees c) : Errs (Cmd.readConfig Json.codec files file) := by
  refine errs_of_not_ok ?_ fun c hc => h (by obtain ⟨t, ht⟩ := (C78_read files file c).mp hc; exact ⟨t, c, ht⟩)
  unfold Cmd.readConfig
  cases files file with
  | none => exact .fail _
  | some t => exact (codec_tame t).bind fun c _ => (check_tame c).bind fun _ _ => .ok _

/-- **C78.**  `dupi index -c FILE` with such a file, without -a: an error is returned before anything is done. -/
theorem C78_run (S : Strconv ℝ) (join : Bytes → Bytes → Bytes) {gopts opts : List Opt} (hg : RootOpts gopts) {file : Bytes} (ho : ConfigOpt S opts file)
    (ha : Flag.lastBool (opts.map fun o => (o.name, o.value)) [97] = false) {l paths : List Bytes} (hl : Rest l paths) (p : Proc)
    (h : ¬ ∃ t c, files file = some t ∧ Says t c ∧ Agrees c) :
    ∃ e, indexRun S join (Cmd.readConfig Json.codec files) p (gopts.flatMap Opt.args ++ Verb.index.name :: (opts.flatMap Opt.args ++ l)) = some (fail e) := by
  obtain ⟨st, h1, h2⟩ := C58_config_partial S ho.1 hl p.cwd (promised join p.env gopts) (Cmd.readConfig Json.codec files) ha file ho.2.2 ho.2.1
  obtain ⟨e, he⟩ := C78_refused files h
  rw [he] at h2
  refine ⟨e, ?_⟩
  unfold indexRun
  simp only [C57_runs_partial join p.env hg.1 hg.2 .index, h1, h2, bind, Except.bind, Except.map, fail]

end

theorem readFrom_eq (d : Dir) : Config.readFrom Json.codec d = Cmd.readConfig Json.codec (fun _ => d .cfg) [] := by
  unfold Config.readFrom Cmd.readConfig Dir.read
  cases d .cfg <;> rfl

/-- **C78.**  The same for the configuration of an index: it is opened, for reading or for adding, only with what its configuration file says. -/
theorem C78_open (srt : Sorter) (k : Disk) (cwd root : Bytes)
    (h : ¬ ∃ t c, k.dir (resolve cwd (absPath cwd root)) .cfg = some t ∧ Says t c ∧ Agrees c) :
    Errs (openIndex Json.codec srt k cwd root) ∧ Errs (openIndexer Json.codec k cwd root) := by
  have : Errs (Disk.readConfig Json.codec k cwd root) := by
    unfold Disk.readConfig
    rw [readFrom_eq]
    exact C78_refused _ h
  exact ⟨this.bind _, this.bind _⟩

theorem C78_opened {srt : Sorter} {k : Disk} {cwd root : Bytes} :
    (∀ x, openIndex Json.codec srt k cwd root = .ok x → ∃ t, k.dir (resolve cwd (absPath cwd root)) .cfg = some t ∧ Says t x.config ∧ Agrees x.config) ∧
    (∀ x, openIndexer Json.codec k cwd root = .ok x → ∃ t, k.dir (resolve cwd (absPath cwd root)) .cfg = some t ∧ Says t x.config ∧ Agrees x.config) := by
  constructor
  · intro x hx
    unfold openIndex at hx
    obtain ⟨c, h1, h2⟩ := bind_ok.mp hx
    unfold Disk.readConfig at h1
    rw [readFrom_eq] at h1
    have h3 := (C78_read _ _ _).mp h1
    unfold Index.openWith at h2
    obtain ⟨dmd, _, h2⟩ := bind_ok.mp h2
    obtain ⟨fnm, _, h2⟩ := bind_ok.mp h2
    obtain ⟨t, _, h2⟩ := bind_ok.mp h2
    split at h2
    · cases h2
    · obtain ⟨xs, _, h2⟩ := bind_ok.mp h2
      injection h2 with h2
      subst h2
      exact h3
  · intro x hx
    unfold openIndexer at hx
    obtain ⟨c, h1, h2⟩ := bind_ok.mp hx
    unfold Disk.readConfig at h1
    rw [readFrom_eq] at h1
    have h3 := (C78_read _ _ _).mp h1
    unfold Indexer.openWith at h2
    obtain ⟨n, _, h2⟩ := bind_ok.mp h2
    obtain ⟨a, _, h2⟩ := bind_ok.mp h2
    obtain ⟨fnm, _, h2⟩ := bind_ok.mp h2
    obtain ⟨t, _, h2⟩ := bind_ok.mp h2
    obtain ⟨_, _, h2⟩ := bind_ok.mp h2
    obtain ⟨xs, _, h2⟩ := bind_ok.mp h2
    obtain ⟨bs, _, h2⟩ := bind_ok.mp h2
    injection h2 with h2
    subst h2
    exact h3

/-- **C78.**  A configuration that was read is read again when it is written where there is none. -/
theorem C78_again {t : Bytes} {c : Config} (h : Says t c) (ha : Agrees c) (d : Dir) (hd : d .cfg = none) : Config.readFrom Json.codec (c.writeTo Json.codec d) = .ok c := by
  obtain ⟨h1, h2, h3⟩ := C78_values h
  exact C48_roundtrip c h1 ((check_iff h1).mpr ha) h2 h3 d (.inl hd)

/-- **C78.**  JSON texts are read as RFC 8259 has it; -/
theorem C78_json {v : JVal} {t : Bytes} (h : IsJson v t) (hd : depth v ≤ 10000) {ms : List (List Char × JVal)} (hv : v = .obj ms ∨ v = .null ∧ ms = []) {c : Config}
    (hc : ConfigFrom noConfig ms c) : Says t c := by
  obtain ⟨w, s, w', rfl, h1, h2, h3⟩ := h
  exact ⟨v, ⟨w, s, w', rfl, h1, text_mono (fun _ _ => chars_lax) h2, h3⟩, hd, ms, hv, hc⟩

/-- **C78**: and members with other names than those of the fields say nothing, wherever they are, whatever their values: a name that is misspelled is a name left out. -/
theorem C78_unknown (old : Config) (a b : List (List Char × JVal)) (k : List Char) (v : JVal)
    (hk : ∀ n ∈ ["IndexRoot", "SeqLen", "NumShards", "NumShatters", "DocFlushRate", "TokenConfig", "BlotConfig"], ¬ SameKey n.toList k) (c : Config) :
    ConfigFrom old (a ++ (k, v) :: b) c ↔ ConfigFrom old (a ++ b) c := by
  have h : ∀ n ∈ ["IndexRoot", "SeqLen", "NumShards", "NumShatters", "DocFlushRate", "TokenConfig", "BlotConfig"], given n (a ++ (k, v) :: b) = given n (a ++ b) := by
    intro n hn
    have := given_other (hk n hn) v b
    simp only [given] at this ⊢
    rw [List.filter_append, List.filter_append, List.map_append, List.map_append, this]
  unfold ConfigFrom
  rw [h _ (by simp), h _ (by simp), h _ (by simp), h _ (by simp), h _ (by simp), h _ (by simp), h _ (by simp)]

/-- `{"?":0}` with a byte FF that is no UTF-8 for the question mark -/
def exNotText : Bytes := [123, 34, 255, 34, 58, 48, 125]

/-- **C78**: a text that is not JSON may still be read: RFC 8259 has UTF-8 only, and here a byte that is not UTF-8 is taken for U+FFFD. -/
theorem C78_lenient : Says exNotText noConfig ∧ Agrees noConfig ∧ ¬ ∃ v, IsJson v exNotText := by
  refine ⟨?_, ⟨0, rfl⟩, fun ⟨v, h⟩ => ?_⟩
  · have hs : LaxChars [Char.ofNat 0xFFFD] [255] := by
      refine .bad (fun c h => ?_) .nil
      have h1 : (utf8 [c]).length ≤ 1 := h.length_le
      by_cases hc : 128 ≤ c.toNat
      · have h2 : IsText [255] := by
          obtain ⟨r, hr⟩ := h
          cases hu : utf8 [c] with
          | nil => simp [utf8] at hu
          | cons x xs =>
            rw [hu] at h1 hr
            injection hr with e1 e2
            have : xs = [] := by cases xs with | nil => rfl | cons _ _ => simp at h1
            subst this e1
            exact ⟨[c], hu.symm⟩
        exact absurd (isText_iff.mp h2) (by decide +kernel)
      · have : utf8 [c] = [UInt8.ofNat c.toNat] := by
          have := ascii_char (b := UInt8.ofNat c.toNat) (by rw [UInt8.toNat_ofNat']; omega)
          rw [UInt8.toNat_ofNat', Nat.mod_eq_of_lt (by omega), Char.ofNat_toNat] at this
          exact this
        rw [this] at h
        obtain ⟨r, hr⟩ := h
        injection hr with e1 e2
        have := congrArg UInt8.toNat e1
        rw [UInt8.toNat_ofNat', Nat.mod_eq_of_lt (by omega)] at this
        have : c.toNat = 255 := this
        omega
    refine ⟨.obj [([Char.ofNat 0xFFFD], .num [48])], ⟨[], exNotText, [], by simp, blank_nil, ?_, blank_nil⟩, by simp [depth, depthm], _, .inl rfl, ?_⟩
    · exact .obj (.one (w := []) (w1 := []) (w2 := []) (w3 := []) (tk := [34, 255, 34]) (t := [48]) blank_nil (.str hs) blank_nil blank_nil
        (.num ⟨[], [48], [], [], rfl, .inl rfl, ⟨by simp, by simp⟩, fun _ => rfl, .inl rfl, .inl rfl⟩) blank_nil)
    · have := (C78_unknown noConfig [] [] [Char.ofNat 0xFFFD] (.num [48]) (by unfold SameKey; decide +kernel) noConfig).mpr
        ((config_exact [] noConfig noConfig).mp rfl)
      exact this
  · exact absurd (isText_iff.mp (isText_json h)) (by decide +kernel)

/-- the text of C72_nonvacuous says its configuration; and a number with a fraction, a second value and an array are refused -/
theorem C78_nonvacuous : (Says (exFileText "/x") (exFileConfig (utf8 "/x".toList)) ∧ Agrees (exFileConfig (utf8 "/x".toList))) ∧
    (∀ t ∈ ["{\"SeqLen\":1.5}", "{} {}", "[]", "{\"SeqLen\":9223372036854775808}", "", "{\"SeqLen\":1,}", "{\"TokenConfig\":{\"Name\":1}}"],
      ¬ ∃ c, Says t.toUTF8.toList c) := by
  have hs := (unmarshal_exact _ _).mp (unmarshal_text (exFile_ints _) (exFile_text "/x"))
  refine ⟨⟨hs, ⟨0, rfl⟩⟩, ?_⟩
  have no (t : Bytes) (h : (Json.codec.dec t).isOk = false) : ¬ ∃ c, Says t c := by
    rintro ⟨c, hc⟩
    rw [(unmarshal_exact t c).mpr hc] at h
    cases h
  intro t ht
  refine no _ ?_
  revert t
  decide +kernel

end Dupi.Props
