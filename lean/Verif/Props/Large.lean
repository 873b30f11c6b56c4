import Verif.Props.Unblot
import Verif.Props.MakeAny
import Verif.Proof.Layout
import Verif.Proof.Size
import Verif.Props.Commands
/-! # Files of 4 GiB and more: C108 -/

namespace Dupi.Props
open Spec

/-- a document as `dupi index` adds it for a file: from 0 to the length of the file, a 32 bit number -/
def WholeFile (s : Document) : Prop := s.start = 0 ∧ s.stop.toNat = s.dat.length % 2 ^ 32

/-- the part of a file that is there again after loading: the range 0:0 stands for the whole file -/
def keptPart (dat : Bytes) : Bytes := if dat.length % 2 ^ 32 = 0 then dat else dat.take (dat.length % 2 ^ 32)

/-- what is loaded of a document -/
def _root_.Dupi.Spec.Document.kept (s : Document) : Document := { s with dat := keptPart s.dat }

theorem WholeFile.covers {s : Document} (hw : WholeFile s) : Covers s.kept s.dat := by
  obtain ⟨h0, h1⟩ := hw
  have h00 : s.start.toNat = 0 := by rw [h0]; rfl
  unfold Covers Document.kept keptPart
  simp only
  by_cases hz : s.dat.length % 2 ^ 32 = 0
  · have : s.stop = 0 := UInt32.toNat_inj.mp (by rw [h1, hz]; rfl)
    rw [if_pos ⟨h0, this⟩, if_pos hz]
  · rw [if_neg (fun e => hz (by rw [← h1, e.2]; rfl)), if_neg hz, h00, h1]
    refine ⟨Nat.zero_le _, Nat.mod_le _ _, ?_⟩
    simp [textAt]

/-- **C108, what is loaded.**  The document of a file of any length, loaded again from the file, has precisely the kept part
as its data. -/
theorem C108_load {fs : Files} {s : Document} (hw : WholeFile s) (hf : fs s.path = some s.dat) :
    s.shown.load fs = .ok ⟨s.path, 0, s.stop, some (keptPart s.dat)⟩ := by
  have := C34_load_partial fs s.kept s.dat hf hw.covers
  rw [show s.shown = s.kept.shown from rfl, this]
  show Except.ok _ = Except.ok _
  congr 1
  show Doc.mk s.path s.start (if s.start = 0 ∧ s.stop = 0 then _ else s.stop) _ = _
  rw [hw.1]
  by_cases h : (0 : UInt32) = 0 ∧ s.stop = 0
  · rw [if_pos h, h.2]
    congr 1
    apply UInt32.toNat_inj.mp
    rw [UInt32.toNat_ofNat', ← hw.2, h.2]
  · rw [if_neg h]; rfl

/-- **C108, when all of a file is loaded**: if it has less than 4 GiB, or a multiple of 4 GiB. -/
theorem C108_whole (dat : Bytes) : keptPart dat = dat ↔ dat.length < 2 ^ 32 ∨ 2 ^ 32 ∣ dat.length := by
  unfold keptPart
  by_cases hz : dat.length % 2 ^ 32 = 0
  · rw [if_pos hz]; exact ⟨fun _ => .inr (Nat.dvd_of_mod_eq_zero hz), fun _ => rfl⟩
  · rw [if_neg hz]
    constructor
    · intro h
      have := congrArg List.length h
      rw [List.length_take] at this
      left; omega
    · rintro (h | h)
      · rw [Nat.mod_eq_of_lt h, List.take_length]
      · exact absurd (Nat.mod_eq_zero_of_dvd h) hz

theorem unblotLoop_append (u : Uni) (fs : Files) (c : Config) (b : UInt32) (ds es : List Doc) : ∀ m w,
    Cmd.unblotLoop u fs c b (ds ++ es) m w = (Cmd.unblotLoop u fs c b ds m w).bind fun r => Cmd.unblotLoop u fs c b es r.1 r.2 := by
  induction ds with
  | nil => intro m w; rfl
  | cons d ds ih =>
    intro m w
    rw [List.cons_append, Cmd.unblotLoop, Cmd.unblotLoop]
    cases h : Index.findBlot u fs c b d with
    | error e => cases e with
      | err e => exact ih _ _
      | panic => rfl
      | diverge => rfl
    | ok r =>
      obtain ⟨⟨st, sp⟩, d'⟩ := r
      simp only [bind]
      cases slice (d'.dat.getD []) (st - d'.start).toNat (sp - d'.start).toNat with
      | error e => rfl
      | ok t => exact ih _ _

theorem hasBlot_inRange {u : Uni} {c : Config} {dat : Bytes} {b : UInt32} (hb : b.toNat < numBuckets c) :
    hasBlot u c dat b.toNat = true ↔ ∃ x ∈ blotsOf u c dat, x.toNat % numBuckets c = b.toNat := by
  have : b.toNat % (c.numShards.toNat * 65536) = b.toNat := Nat.mod_eq_of_lt hb
  simp only [hasBlot, List.any_eq_true, decide_eq_true_eq, this]
  rfl

/-- looking for a blot in a loaded document that has none -/
theorem findBlot_kept_none (u : Uni) {fs : Files} {c : Config} (hF : Findable c) {b : UInt32} {s : Document} (hw : WholeFile s)
    (hf : fs s.path = some s.dat) (hn : ¬ ∃ x ∈ blotsOf u c (keptPart s.dat), x.toNat % numBuckets c = b.toNat) :
    Index.findBlot u fs c b s.shown = fail (.msg "blot not found") := by
  have hload := C108_load hw hf
  have hfb := findBlot_shown (u := u) (c := c) b hload
  simp only [Option.isSome_some, if_true] at hfb
  have hfind := C27_find u fs hF b ⟨s.path, 0, s.stop, some (keptPart s.dat)⟩ _ rfl
  have : (blotsOf u c (keptPart s.dat)).findIdx? (fun x => x.toNat % numBuckets c = b.toNat) = none := by
    rw [List.findIdx?_eq_none_iff]
    intro x hx
    simpa using fun e => hn ⟨x, hx, e⟩
  rw [this] at hfind
  rw [hfb]; exact hfind

theorem unblotLoop_kept (u : Uni) (fs : Files) {c : Config} (hF : Findable c) (b : UInt32) (hb : b.toNat < numBuckets c) (ss : List Document)
    (hun : ∀ s ∈ ss, WholeFile s ∧ fs s.path = some s.dat ∧ (keptPart s.dat).length < 2 ^ 32) : ∀ (m : Cmd.Groups) (w : Nat),
    Cmd.unblotLoop u fs c b (ss.map Document.shown) m w =
      .ok ((ss.filter fun s => hasBlot u c (keptPart s.dat) b.toNat).foldl (fun m s => m.add (firstText u c b (keptPart s.dat)) s.shown) m,
        w + (ss.filter fun s => !hasBlot u c (keptPart s.dat) b.toNat).length) := by
  induction ss with
  | nil => intro m w; rfl
  | cons s ss ih =>
    intro m w
    obtain ⟨hw, hf, hl⟩ := hun s (by simp)
    have ih := ih fun s hs => hun s (by simp [hs])
    by_cases hh : hasBlot u c (keptPart s.dat) b.toNat = true
    · have hs : Document.loaded s.kept = s.shown := by
        unfold Document.loaded Document.shown
        show Doc.mk s.path s.start (if s.start = 0 ∧ s.stop = 0 then UInt32.ofNat (keptPart s.dat).length else s.stop) none = _
        by_cases h : s.start = 0 ∧ s.stop = 0
        · rw [if_pos h]
          have hz : s.dat.length % 2 ^ 32 = 0 := by rw [← hw.2, h.2]; rfl
          congr 1
          apply UInt32.toNat_inj.mp
          rw [UInt32.toNat_ofNat', hw.2]
          unfold keptPart
          rw [if_pos hz]
        · rw [if_neg h]
      have h1 := unblotLoop_spec u fs hF b w [s.kept] (by
        intro t ht; rw [List.mem_singleton] at ht; subst ht
        exact ⟨s.dat, hf, hw.covers, hl⟩) (by
        intro t ht; rw [List.mem_singleton] at ht; subst ht
        exact (hasBlot_inRange hb).mp hh) m
      rw [List.map_cons, ← List.singleton_append, unblotLoop_append]
      simp only [List.map_cons, List.map_nil, List.foldl_cons, List.foldl_nil] at h1
      rw [show s.shown = s.kept.shown from rfl, h1]
      simp only [Except.bind, hs]
      rw [ih, List.filter_cons_of_pos (by simpa using hh), List.filter_cons_of_neg (by simpa using hh), List.foldl_cons]
      rfl
    · have h1 := findBlot_kept_none u hF (b := b) hw hf (fun e => hh ((hasBlot_inRange hb).mpr e))
      rw [List.map_cons, Cmd.unblotLoop, h1]
      simp only
      rw [ih, List.filter_cons_of_neg (by simpa using hh), List.filter_cons_of_pos (by simpa using hh), List.length_cons,
        Nat.add_assoc, Nat.add_comm 1]

section
variable {u : Uni} {J : CfgCodec} {srt : Sorter} {c : Config} (hU : Usable J c) (hsrt : IsSorter srt)
include hU hsrt

/-- **C108, what unblot does.**  In an index of whole files, unchanged since, none of a length that is a multiple of 4 GiB (but 0):
the documents `Get` lists under a blot and whose kept part has the blot are grouped by the first text with this blot in the kept part.
Every other document that `Get` lists gives a warning and is in no group.  (What is missing: multiples of 4 GiB, see
`C108_false_text` and, for all lengths, `C108_unblot`.) -/
theorem C108_unblot_partial {h : Sessions} {x : Index} {q : QState} (hr : Reading u J srt c h x q) (hf : Fits u c (documents h))
    (hs : c.numShards < 65536) (fs : Files)
    (hun : ∀ s ∈ documents h, WholeFile s ∧ fs s.path = some s.dat ∧ (s.dat.length = 0 ∨ ¬ 2 ^ 32 ∣ s.dat.length))
    (grow : Nat → Nat) (b : UInt32) (hb : b.toNat < numBuckets c) (all : Bool) (fuel : Nat) (hfuel : (documents h).length < fuel) :
    ∃ m : Cmd.Groups, Cmd.unblot u fs grow x fuel q all b = .ok (m.filter (fun g => all || decide (2 ≤ g.2.length)),
        ((found u c (documents h) b.toNat).filter fun s => !hasBlot u c (keptPart s.dat) b.toNat).length) ∧ (m.map Prod.fst).Nodup ∧
      ∀ t, m.lookup t =
        (let ss := ((found u c (documents h) b.toNat).filter fun s => hasBlot u c (keptPart s.dat) b.toNat).filter
          fun s => firstText u c b (keptPart s.dat) = t
         if ss = [] then none else some (ss.map Document.shown)) := by
  obtain ⟨r, g1, g2, g3⟩ := C21_get hU hsrt hr hf grow b fuel hfuel (q' := q) rfl
  obtain ⟨_, _, _, _, hcfg, _⟩ := hr.rep hU hsrt hf
  have hF : Findable c := ⟨hU.cons, hU.shards, hs⟩
  have hloop := unblotLoop_kept u fs hF b hb (found u c (documents h) b.toNat) (by
    intro s hs
    obtain ⟨k1, k2, k3⟩ := hun s (List.mem_filter.mp hs).1
    refine ⟨k1, k2, ?_⟩
    unfold keptPart
    by_cases hz : s.dat.length % 2 ^ 32 = 0
    · rw [if_pos hz]
      rcases k3 with k3 | k3
      · omega
      · exact absurd (Nat.dvd_of_mod_eq_zero hz) k3
    · rw [if_neg hz, List.length_take]; omega) [] 0
  obtain ⟨k1, k2⟩ := groups_foldl (fun s => firstText u c b (keptPart s.dat)) Document.shown
    ((found u c (documents h) b.toNat).filter fun s => hasBlot u c (keptPart s.dat) b.toNat) [] List.nodup_nil
  refine ⟨_, ?_, k1, fun t => ?_⟩
  · simp only [Cmd.unblot, g1, bind, Except.bind, g3, hcfg, hloop, pure, Except.pure, Nat.zero_add]
  · rw [k2 t]; simp

end

/-! ## Multiples of 4 GiB: positions wrap -/

theorem toNat_ofNat_mod (n : Nat) : (UInt32.ofNat n).toNat = n % 2 ^ 32 := UInt32.toNat_ofNat'

/-- unblot on a document of a multiple of 4 GiB -/
theorem unblotLoop_wrap (u : Uni) {fs : Files} {c : Config} (hF : Findable c) {b : UInt32} {s : Document} (hw : WholeFile s)
    (hf : fs s.path = some s.dat) (h4 : 2 ^ 32 ∣ s.dat.length) {i : Nat} {r : Nat × Nat}
    (hi : (blotsOf u c s.dat).findIdx? (fun x => x.toNat % numBuckets c = b.toNat) = some i) (hp : passage u c s.dat i = some r) :
    Cmd.unblotLoop u fs c b [s.shown] [] 0 = if r.1 % 2 ^ 32 ≤ r.2 % 2 ^ 32
      then .ok ([(textAt s.dat (r.1 % 2 ^ 32, r.2 % 2 ^ 32), [s.shown])], 0) else panic' := by
  have hload := C108_load hw hf
  rw [(C108_whole s.dat).mpr (.inr h4)] at hload
  have hfb := findBlot_shown (u := u) (c := c) b hload
  simp only [Option.isSome_some, if_true] at hfb
  have hfind := C27_find u fs hF b ⟨s.path, 0, s.stop, some s.dat⟩ _ rfl
  rw [hi] at hfind
  obtain ⟨r', hp', hr⟩ := hfind
  rw [hp] at hp'; cases hp'
  obtain ⟨_, _, _, _, _, _, hle⟩ := (passage_some hF.cons s.dat i).2 r hp
  have hs : s.shown = ⟨s.path, 0, s.stop, none⟩ := by rw [← hw.1]; rfl
  rw [Cmd.unblotLoop, hfb, hr]
  simp only [UInt32.zero_add, UInt32.sub_zero, Option.getD_some, toNat_ofNat_mod, slice]
  by_cases h : r.1 % 2 ^ 32 ≤ r.2 % 2 ^ 32
  · rw [if_pos h, if_pos ⟨h, by have := Nat.mod_le r.2 (2 ^ 32); omega⟩]
    simp only [bind, Except.bind, Cmd.unblotLoop, Cmd.Groups.add, hs]
    rfl
  · rw [if_neg h, if_neg (fun e => h e.1)]
    rfl

section
variable {u : Uni} {J : CfgCodec} {srt : Sorter} {c : Config} (hU : Usable J c) (hsrt : IsSorter srt)
include hU hsrt

/-- **C108 fails for multiples of 4 GiB.**  In an index of one such file, unblot prints the bytes at the positions of the passage
modulo 4 GiB, or panics if the passage begins before a multiple of 4 GiB and ends at a lower position behind it. -/
theorem C108_false_text {h : Sessions} {x : Index} {q : QState} (hr : Reading u J srt c h x q) (hf : Fits u c (documents h))
    (hs : c.numShards < 65536) {fs : Files} {s : Document} (hd : documents h = [s]) (hw : WholeFile s) (hfs : fs s.path = some s.dat)
    (h4 : 2 ^ 32 ∣ s.dat.length) (grow : Nat → Nat) {b : UInt32} (hb : b.toNat < numBuckets c) {i : Nat} {r : Nat × Nat}
    (hi : (blotsOf u c s.dat).findIdx? (fun x => x.toNat % numBuckets c = b.toNat) = some i) (hp : passage u c s.dat i = some r)
    (fuel : Nat) (hfuel : 1 < fuel) :
    Cmd.unblot u fs grow x fuel q true b = if r.1 % 2 ^ 32 ≤ r.2 % 2 ^ 32
      then .ok ([(textAt s.dat (r.1 % 2 ^ 32, r.2 % 2 ^ 32), [s.shown])], 0) else panic' := by
  obtain ⟨r', g1, g2, g3⟩ := C21_get hU hsrt hr hf grow b fuel (by rw [hd]; exact hfuel) (q' := q) rfl
  obtain ⟨_, _, _, _, hcfg, _⟩ := hr.rep hU hsrt hf
  have hF : Findable c := ⟨hU.cons, hU.shards, hs⟩
  have hin : hasBlot u c s.dat b.toNat = true := by
    rw [hasBlot_inRange hb]
    obtain ⟨x, hx, he⟩ := List.findIdx?_eq_some_iff_findIdx_eq.mp hi |> fun e => by
      have := List.findIdx_getElem (w := (e.2 ▸ e.1 : List.findIdx _ _ < _))
      exact (⟨_, List.getElem_mem _, of_decide_eq_true this⟩ : ∃ x, x ∈ blotsOf u c s.dat ∧ x.toNat % numBuckets c = b.toNat)
    exact ⟨x, hx, he⟩
  have hfound : found u c (documents h) b.toNat = [s] := by
    rw [hd, found]; simp [hin]
  rw [hfound] at g3
  simp only [Cmd.unblot, g1, bind, Except.bind, g3, hcfg, List.map_cons, List.map_nil]
  rw [unblotLoop_wrap u hF hw hfs h4 hi hp]
  by_cases h : r.1 % 2 ^ 32 ≤ r.2 % 2 ^ 32
  · simp only [if_pos h, pure, Except.pure, Bool.true_or, List.filter_cons_of_pos, List.filter_nil]
  · simp only [if_neg h]

end

/-! ## Such files -/

/-- some blanks -/
def blankText (n : Nat) : Bytes := List.replicate n 32

theorem blanks_utf8 (n : Nat) : blankText n = utf8 (List.replicate n ' ') := by
  induction n with
  | zero => rfl
  | succ n ih => rw [blankText, List.replicate_succ, List.replicate_succ, utf8, List.flatMap_cons]; exact congrArg (32 :: ·) ih

theorem utf8_append (xs ys : List Char) : utf8 (xs ++ ys) = utf8 xs ++ utf8 ys := by simp [utf8]

theorem placed_skip (f : Char → Bool) {x : Char} (hx : f x = false) (hl : (utf8 [x]).length = 1) (xs : List Char) (p : Nat) :
    placed p (runs f (x :: xs)) = placed (p + 1) (runs f xs) := by
  have hc : ∀ g, (utf8 (x :: g)).length = 1 + (utf8 g).length := by
    intro g; rw [← List.singleton_append, utf8_append, List.length_append, hl]
  rw [runs]
  cases runs f xs with
  | nil => simp [placed, hx]
  | cons a gs =>
    obtain ⟨w, g⟩ := a
    simp only []
    split
    · rename_i h
      rw [hx] at h; subst h
      simp only [placed, Bool.false_eq_true, if_false, hc, Nat.add_assoc]
    · rename_i h
      rw [hx]
      rw [placed, if_neg (by simp), hl]

theorem placed_blanks (u : Uni) (n : Nat) (xs : List Char) : ∀ p,
    placed p (runs (isWordChar u) (List.replicate n ' ' ++ xs)) = placed (p + n) (runs (isWordChar u) xs) := by
  induction n with
  | zero => intro p; rfl
  | succ n ih =>
    intro p
    rw [List.replicate_succ, List.cons_append, placed_skip _ (isWordChar_space u) (by decide), ih, Nat.add_assoc, Nat.add_comm 1]

theorem placed_shift (gs : List (Bool × List Char)) (k : Nat) : ∀ p, placed (p + k) gs = (placed p gs).map fun w => (w.1 + k, w.2) := by
  induction gs with
  | nil => intro p; rfl
  | cons g gs ih =>
    intro p
    obtain ⟨w, cs⟩ := g
    have := ih (p + (utf8 cs).length)
    rw [show p + (utf8 cs).length + k = p + k + (utf8 cs).length by omega] at this
    simp only [placed, this]
    split <;> simp

theorem wordsAt_utf8 (u : Uni) (cs : List Char) : wordsAt u (utf8 cs) = placed 0 (runs (isWordChar u) cs.dropLast) := by
  unfold wordsAt; rw [text_utf8]

/-- blanks in front of a text shift its words -/
theorem wordsAt_blanks (u : Uni) (n : Nat) {w : Bytes} (hw : wordsAt u w ≠ []) :
    wordsAt u (blankText n ++ w) = (wordsAt u w).map fun x => (x.1 + n, x.2) := by
  cases ht : text w with
  | none => exact absurd (by unfold wordsAt; rw [ht]) hw
  | some cs =>
    have := text_some ht; subst this
    rw [blanks_utf8, ← utf8_append, wordsAt_utf8, wordsAt_utf8]
    cases cs with
    | nil => exact absurd (by rw [wordsAt_utf8]; rfl) hw
    | cons y ys => rw [List.dropLast_append_of_ne_nil (by simp), placed_blanks, placed_shift]

/-- so does a letter with blanks around it; the letter is one word more -/
theorem wordsAt_letter (u : Uni) (m n : Nat) {w : Bytes} (hw : wordsAt u w ≠ []) :
    wordsAt u (blankText m ++ (97 :: blankText (n + 1) ++ w)) = (m, [97]) :: (wordsAt u w).map fun x => (x.1 + (m + 1 + (n + 1)), x.2) := by
  cases ht : text w with
  | none => exact absurd (by unfold wordsAt; rw [ht]) hw
  | some cs =>
    have := text_some ht; subst this
    have e : (97 :: blankText (n + 1) ++ utf8 cs : Bytes) = utf8 ('a' :: (List.replicate (n + 1) ' ' ++ cs)) := by
      rw [show ('a' :: (List.replicate (n + 1) ' ' ++ cs)) = ['a'] ++ (List.replicate (n + 1) ' ' ++ cs) from rfl, utf8_append, utf8_append, ← blanks_utf8]; rfl
    rw [e, blanks_utf8, ← utf8_append, wordsAt_utf8, wordsAt_utf8]
    cases cs with
    | nil => exact absurd (by rw [wordsAt_utf8]; rfl) hw
    | cons y ys =>
      rw [List.dropLast_append_of_ne_nil (by simp), placed_blanks, List.dropLast_cons_of_ne_nil (by simp), List.dropLast_append_of_ne_nil (by simp),
        ← List.singleton_append, runs_word _ (by simp) (by simpa using isWordChar_a u) (by
          intro x hx
          rw [List.replicate_succ] at hx
          simp only [List.cons_append, List.head?_cons, Option.some.injEq] at hx
          rw [← hx]; exact isWordChar_space u)]
      simp only [placed, if_true]
      rw [placed_blanks, show (0 + m + (utf8 ['a']).length + (n + 1)) = 0 + (m + 1 + (n + 1)) by
        rw [show (utf8 ['a']).length = 1 by decide]; omega, placed_shift]
      rw [Nat.zero_add]; rfl

theorem wordsAt_only_blanks (u : Uni) (n : Nat) : wordsAt u (blankText n) = [] := by
  rw [blanks_utf8, wordsAt_utf8]
  have h := placed_blanks u (n - 1) [] 0
  rw [List.append_nil] at h
  rw [show (List.replicate n ' ').dropLast = List.replicate (n - 1) ' ' by simp, h]
  rfl

theorem words_blots {u : Uni} {c : Config} {dat dat' : Bytes} (h : (wordsAt u dat).map Prod.snd = (wordsAt u dat').map Prod.snd) :
    blotsOf u c dat = blotsOf u c dat' := by
  rw [wordsAt_snd, wordsAt_snd] at h
  rw [blotsOf_eq, blotsOf_eq, h]

/-- an index of one file -/
def oneFile (dat : Bytes) : Sessions := [([47], [⟨[47, 112], 0, UInt32.ofNat dat.length, some dat⟩])]

/-- its document -/
def fileDoc (dat : Bytes) : Document := ⟨[47, 112], 0, UInt32.ofNat dat.length, dat⟩

theorem oneFile_docs (dat : Bytes) : documents (oneFile dat) = [fileDoc dat] := by
  have : placeName (place [47] [47, 112]) = [47, 112] := by decide
  simp only [oneFile, documents, List.flatMap_cons, List.flatMap_nil, added, List.map_cons, List.map_nil, this, List.append_nil]
  rfl

theorem fileDoc_whole (dat : Bytes) : WholeFile (fileDoc dat) := ⟨rfl, toNat_ofNat_mod _⟩

theorem oneFile_fits {u : Uni} {c : Config} {dat : Bytes} (h : (blotsOf u c dat).length < 2 ^ 32) : Fits u c (documents (oneFile dat)) := by
  rw [oneFile_docs]
  refine ⟨by simp, by simp only [List.map_cons, List.map_nil, fileDoc]; decide, ?_⟩
  simp only [numBlots, List.map_cons, List.map_nil, fileDoc, List.sum_cons, List.sum_nil]
  omega

theorem wordsAt_noBlots {u : Uni} {c : Config} {w : Bytes} (e : wordsAt u w = []) : blotsOf u c w = [] := by
  have h0 : words u w = [] := by rw [← wordsAt_snd, e]; rfl
  rw [blotsOf_eq, h0]
  simp [blots]

theorem wordsAt_of_blots {u : Uni} {c : Config} {w : Bytes} (h : blotsOf u c w ≠ []) : wordsAt u w ≠ [] := by
  exact fun e => h (wordsAt_noBlots e)

section
variable {u : Uni} {J : CfgCodec} {srt : Sorter} {c : Config} (hU : Usable J c) (hsrt : IsSorter srt)
include hU hsrt

/-- **C108 is false for files above 4 GiB**: whatever text with a blot is behind 4 GiB of blanks, the index lists the file under the
blot, as it should, but unblot gives a warning and prints nothing. -/
theorem C108_false_unblot (hs : c.numShards < 65536) {w : Bytes} (hw : w.length < 2 ^ 32) {y : UInt32} (hy : y ∈ blotsOf u c w) (grow : Nat → Nat)
    (fuel : Nat) (hfuel : 1 < fuel) {fs : Files} (hfs : fs [47, 112] = some (blankText (2 ^ 32) ++ w)) :
    ∃ x q, Reading u J srt c (oneFile (blankText (2 ^ 32) ++ w)) x q ∧
      (∃ r, Query.get grow x fuel q ⟨UInt32.ofNat (y.toNat % numBuckets c), none⟩ = .ok r ∧ r.vis = [(fileDoc (blankText (2 ^ 32) ++ w)).shown]) ∧
      Cmd.unblot u fs grow x fuel q true (UInt32.ofNat (y.toNat % numBuckets c)) = .ok ([], 1) := by
  obtain ⟨n, hn⟩ : ∃ n, n = 2 ^ 32 := ⟨_, rfl⟩
  rw [← hn] at hfs ⊢
  have hne : blotsOf u c w ≠ [] := fun e => by rw [e] at hy; cases hy
  have hwa := wordsAt_blanks u n (wordsAt_of_blots hne)
  have hbl : blotsOf u c (blankText n ++ w) = blotsOf u c w := words_blots (by rw [hwa, List.map_map]; rfl)
  have hlen : (blankText n ++ w).length = n + w.length := by rw [List.length_append, blankText, List.length_replicate]
  have hw0 : 0 < w.length := by
    have := blotsOf_length_le u c w
    have := List.length_pos_iff.mpr hne
    omega
  generalize hdat : blankText n ++ w = dat at *
  have hfit : Fits u c (documents (oneFile dat)) := oneFile_fits (by rw [hbl]; have := blotsOf_length_le u c w; omega)
  obtain ⟨d, hd⟩ := History.exists hU [47] [⟨[47, 112], 0, UInt32.ofNat dat.length, some dat⟩] [] hfit
  obtain ⟨x, q, _, hr⟩ := reading_exists hU hsrt hd hfit
  have hr : Reading u J srt c (oneFile dat) x q := hr
  have hN : 0 < numBuckets c := by
    have := hU.shards; unfold numBuckets; omega
  have hb0 : (UInt32.ofNat (y.toNat % numBuckets c)).toNat = y.toNat % numBuckets c :=
    toNat_ofNat_lt (Nat.lt_of_le_of_lt (Nat.mod_le _ _) y.toNat_lt)
  have hb : (UInt32.ofNat (y.toNat % numBuckets c)).toNat < numBuckets c := by rw [hb0]; exact Nat.mod_lt _ hN
  have hkept : keptPart dat = blankText w.length := by
    unfold keptPart
    have : dat.length % 2 ^ 32 = w.length := by rw [hlen]; omega
    rw [if_neg (by omega), this, ← hdat, List.take_append_of_le_length (by rw [blankText, List.length_replicate]; omega), blankText, List.take_replicate,
      Nat.min_eq_left (by omega)]
    rfl
  have hin : hasBlot u c dat (UInt32.ofNat (y.toNat % numBuckets c)).toNat = true := (hasBlot_inRange hb).mpr ⟨y, by rw [hbl]; exact hy, hb0.symm⟩
  have hout : hasBlot u c (keptPart dat) (UInt32.ofNat (y.toNat % numBuckets c)).toNat = false := by
    rw [hkept, hasBlot, wordsAt_noBlots (wordsAt_only_blanks u _)]
    rfl
  have hfound : found u c (documents (oneFile dat)) (UInt32.ofNat (y.toNat % numBuckets c)).toNat = [fileDoc dat] := by
    rw [oneFile_docs, found, List.filter_cons, if_pos (show hasBlot u c (fileDoc dat).dat _ = true from hin), List.filter_nil]
  refine ⟨x, q, hr, ?_, ?_⟩
  · obtain ⟨r, g1, _, g3⟩ := C21_get hU hsrt hr hfit grow (UInt32.ofNat (y.toNat % numBuckets c)) fuel (by rw [oneFile_docs]; exact hfuel) (q' := q) rfl
    rw [hfound] at g3
    exact ⟨r, g1, g3⟩
  · obtain ⟨m, g1, _, g3⟩ := C108_unblot_partial hU hsrt hr hfit hs fs (by
      intro s hs
      rw [oneFile_docs, List.mem_singleton] at hs
      subst hs
      refine ⟨fileDoc_whole dat, hfs, .inr ?_⟩
      show ¬ 2 ^ 32 ∣ dat.length
      rw [hlen]; omega) grow _ hb true fuel (by rw [oneFile_docs]; exact hfuel)
    rw [hfound] at g1 g3
    simp only [fileDoc, hout, Bool.not_false, List.filter_cons_of_pos, List.filter_nil, List.length_cons, List.length_nil] at g1
    simp only [fileDoc, hout, Bool.false_eq_true, not_false_eq_true, List.filter_cons_of_neg, List.filter_nil, if_true] at g3
    rw [g1]
    cases m with
    | nil => rfl
    | cons g m =>
      have := g3 g.1
      simp [List.lookup] at this

/-- **and for files of 8 GiB**: unblot prints blanks for a text at the end of such a file -/
theorem C108_false_blanks (hs : c.numShards < 65536) {w : Bytes} (hw : w.length < 2 ^ 32) {y : UInt32} {i : Nat} {r : Nat × Nat}
    (hy : (blotsOf u c w)[i]? = some y) (hi : ∀ j z, j < i → (blotsOf u c w)[j]? = some z → z.toNat % numBuckets c ≠ y.toNat % numBuckets c)
    (hp : passage u c w i = some r) (hrw : r.2 < w.length) (grow : Nat → Nat)
    (fuel : Nat) (hfuel : 1 < fuel) {fs : Files} (hfs : fs [47, 112] = some (blankText (2 ^ 33 - w.length) ++ w)) :
    ∃ x q, Reading u J srt c (oneFile (blankText (2 ^ 33 - w.length) ++ w)) x q ∧
      Cmd.unblot u fs grow x fuel q true (UInt32.ofNat (y.toNat % numBuckets c)) =
        .ok ([(blankText (r.2 - r.1), [(fileDoc (blankText (2 ^ 33 - w.length) ++ w)).shown])], 0) := by
  obtain ⟨n, hn⟩ : ∃ n, n = 2 ^ 33 - w.length := ⟨_, rfl⟩
  rw [← hn] at hfs ⊢
  have hne : blotsOf u c w ≠ [] := fun e => by rw [e] at hy; cases hy
  have hwa := wordsAt_blanks u n (wordsAt_of_blots hne)
  have hbl : blotsOf u c (blankText n ++ w) = blotsOf u c w := words_blots (by rw [hwa, List.map_map]; rfl)
  have hlen : (blankText n ++ w).length = 2 ^ 33 := by rw [List.length_append, blankText, List.length_replicate]; omega
  obtain ⟨a, b, p1, p2, p3, p4, _⟩ := (passage_some hU.cons w i).2 r hp
  have hpass : passage u c (blankText n ++ w) i = some (r.1 + n, r.2 + n) := by
    unfold passage
    rw [hwa, List.getElem?_map, List.getElem?_map, p1, p2]
    simp only [Option.map_some, p3]
    congr 2
    omega
  generalize hdat : blankText n ++ w = dat at *
  have hfit : Fits u c (documents (oneFile dat)) := oneFile_fits (by rw [hbl]; have := blotsOf_length_le u c w; omega)
  obtain ⟨d, hd⟩ := History.exists hU [47] [⟨[47, 112], 0, UInt32.ofNat dat.length, some dat⟩] [] hfit
  obtain ⟨x, q, _, hr⟩ := reading_exists hU hsrt hd hfit
  have hr : Reading u J srt c (oneFile dat) x q := hr
  have hN : 0 < numBuckets c := by
    have := hU.shards; unfold numBuckets; omega
  have hb0 : (UInt32.ofNat (y.toNat % numBuckets c)).toNat = y.toNat % numBuckets c :=
    toNat_ofNat_lt (Nat.lt_of_le_of_lt (Nat.mod_le _ _) y.toNat_lt)
  have hfirst : (blotsOf u c dat).findIdx? (fun x => x.toNat % numBuckets c = (UInt32.ofNat (y.toNat % numBuckets c)).toNat) = some i := by
    rw [hbl, hb0]
    obtain ⟨hlt, he⟩ := List.getElem?_eq_some_iff.mp hy
    rw [List.findIdx?_eq_some_iff_getElem]
    refine ⟨hlt, by rw [he]; simp, fun j hj => ?_⟩
    have hlt' : j < (blotsOf u c w).length := by omega
    simpa using hi j _ hj (List.getElem?_eq_getElem hlt')
  refine ⟨x, q, hr, ?_⟩
  rw [C108_false_text hU hsrt hr hfit hs (oneFile_docs dat) (fileDoc_whole dat) hfs ⟨2, by show dat.length = _; omega⟩ grow
    (by rw [hb0]; exact Nat.mod_lt _ hN) hfirst hpass fuel hfuel]
  have e1 : (r.1 + n) % 2 ^ 32 = r.1 + (2 ^ 32 - w.length) := by omega
  have e2 : (r.2 + n) % 2 ^ 32 = r.2 + (2 ^ 32 - w.length) := by omega
  simp only [e1, e2]
  rw [if_pos (by omega)]
  congr 4
  show textAt dat _ = _
  rw [← hdat, textAt, blankText, List.drop_append_of_le_length (by rw [List.length_replicate]; omega), List.drop_replicate,
    List.take_append_of_le_length (by rw [List.length_replicate]; omega), List.take_replicate]
  rw [blankText]
  congr 1
  omega

/-- **or panics**, if the first word of the passage is the last byte of the first 4 GiB -/
theorem C108_false_panic (hs : c.numShards < 65536) {w : Bytes} (hw : w.length < 2 ^ 32) {b : Nat × Bytes}
    (hb : (wordsAt u w)[c.seqLen.toNat - 1]? = some b) (hbw : b.1 + b.2.length + 1 < w.length) (hseq : 0 < c.seqLen) (grow : Nat → Nat)
    (fuel : Nat) (hfuel : 1 < fuel) {fs : Files} (hfs : fs [47, 112] = some (blankText (2 ^ 32 - 1) ++ (97 :: blankText (2 ^ 32 - 1 - w.length + 1) ++ w))) :
    ∃ x q y, Reading u J srt c (oneFile (blankText (2 ^ 32 - 1) ++ (97 :: blankText (2 ^ 32 - 1 - w.length + 1) ++ w))) x q ∧
      Cmd.unblot u fs grow x fuel q true y = panic' := by
  obtain ⟨n, hn⟩ : ∃ n, n = 2 ^ 32 - 1 - w.length := ⟨_, rfl⟩
  obtain ⟨k, hk⟩ : ∃ k, k = 2 ^ 32 - 1 := ⟨_, rfl⟩
  rw [← hn] at hfs ⊢
  rw [← hk] at hfs ⊢
  have hwne : wordsAt u w ≠ [] := fun e => by rw [e] at hb; cases hb
  have hwa := wordsAt_letter u k n hwne
  have hlen : (blankText k ++ (97 :: blankText (n + 1) ++ w)).length = 2 ^ 33 := by
    simp only [List.length_append, blankText, List.length_replicate, List.length_cons]; omega
  generalize hdat : blankText k ++ (97 :: blankText (n + 1) ++ w) = dat at *
  have hpass : passage u c dat 0 = some (k, b.1 + (2 ^ 33 - w.length) + b.2.length) := by
    unfold passage
    obtain ⟨l, hl⟩ : ∃ l, c.seqLen.toNat = l + 1 := ⟨c.seqLen.toNat - 1, by omega⟩
    rw [hl, Nat.add_sub_cancel] at hb
    rw [hwa, hl, Nat.zero_add, List.getElem?_cons_zero, List.getElem?_cons_succ, List.getElem?_map, hb]
    simp only [Option.map_some]
    congr 3
    omega
  have hcnt : 2 * (wordsAt u dat).length ≤ w.length + 2 := by
    rw [hwa, List.length_cons, List.length_map, ← List.length_map (f := Prod.snd), wordsAt_snd, words_length]
    have := wordChars_le u w
    omega
  have hbl : (blotsOf u c dat).length ≤ (wordsAt u dat).length := by
    rw [blotsOf_eq, blots_length, List.length_map, ← wordsAt_snd, List.length_map]; omega
  have hfit : Fits u c (documents (oneFile dat)) := oneFile_fits (by omega)
  obtain ⟨d, hd⟩ := History.exists hU [47] [⟨[47, 112], 0, UInt32.ofNat dat.length, some dat⟩] [] hfit
  obtain ⟨x, q, _, hr⟩ := reading_exists hU hsrt hd hfit
  have hr : Reading u J srt c (oneFile dat) x q := hr
  have hlt : 0 < (blotsOf u c dat).length := (passage_some hU.cons dat 0).1.mpr (by rw [hpass]; rfl)
  have hN : 0 < numBuckets c := by
    have := hU.shards; unfold numBuckets; omega
  obtain ⟨y, ys, hy⟩ := List.exists_cons_of_length_pos hlt
  have hb0 : (UInt32.ofNat (y.toNat % numBuckets c)).toNat = y.toNat % numBuckets c :=
    toNat_ofNat_lt (Nat.lt_of_le_of_lt (Nat.mod_le _ _) y.toNat_lt)
  have hfirst : (blotsOf u c dat).findIdx? (fun x => x.toNat % numBuckets c = (UInt32.ofNat (y.toNat % numBuckets c)).toNat) = some 0 := by
    rw [hy, hb0, List.findIdx?_cons]; simp
  refine ⟨x, q, UInt32.ofNat (y.toNat % numBuckets c), hr, ?_⟩
  rw [C108_false_text hU hsrt hr hfit hs (oneFile_docs dat) (fileDoc_whole dat) hfs ⟨2, by show dat.length = _; omega⟩ grow
    (by rw [hb0]; exact Nat.mod_lt _ hN) hfirst hpass fuel hfuel]
  rw [if_neg]
  show ¬ (k % 2 ^ 32 ≤ (b.1 + (2 ^ 33 - w.length) + b.2.length) % 2 ^ 32)
  omega

end

/-! ## Examples -/

/-- "a b c.." -/
def exTail : Bytes := [97, 32, 98, 32, 99, 46, 46]

/-- there are such files: with passages of three words, and "a b c.." behind blanks, unblot warns, prints blanks, and panics -/
theorem C108_nonvacuous : ∃ J : CfgCodec,
    (∃ x q y, Reading asciiUni J mergeSorter exQConfig (oneFile (blankText (2 ^ 32) ++ exTail)) x q ∧
      Cmd.unblot asciiUni (fun _ => some (blankText (2 ^ 32) ++ exTail)) id x 2 q true y = .ok ([], 1)) ∧
    (∃ x q y d, Reading asciiUni J mergeSorter exQConfig (oneFile (blankText (2 ^ 33 - exTail.length) ++ exTail)) x q ∧
      Cmd.unblot asciiUni (fun _ => some (blankText (2 ^ 33 - exTail.length) ++ exTail)) id x 2 q true y = .ok ([(blankText 5, [d])], 0)) ∧
    ∃ x q y fs h, Reading asciiUni J mergeSorter exQConfig h x q ∧ Cmd.unblot asciiUni fs id x 2 q true y = panic' := by
  have hb : ∃ y, blotsOf asciiUni exQConfig exTail = [y] := List.length_eq_one_iff.mp (by decide +kernel)
  obtain ⟨y, hy⟩ := hb
  have hl : exTail.length < 2 ^ 32 := by decide
  refine ⟨⟨fun _ => [], fun _ => .ok exQConfig⟩, ?_, ?_, ?_⟩
  rotate_left
  · obtain ⟨x, q, h1, h2⟩ := C108_false_blanks exUsable mergeSorter_isSorter (u := asciiUni) (by decide) hl (y := y) (i := 0) (r := (0, 5)) (by rw [hy]; rfl)
      (fun j z hj => absurd hj (Nat.not_lt_zero _)) (by decide +kernel) (by decide) id 2 (by decide) (fs := fun _ => some (blankText (2 ^ 33 - exTail.length) ++ exTail)) rfl
    exact ⟨x, q, _, _, h1, h2⟩
  · obtain ⟨x, q, y, h1, h2⟩ := C108_false_panic exUsable mergeSorter_isSorter (u := asciiUni) (by decide) hl (b := (2, [98])) (by decide +kernel) (by decide)
      (by decide) id 2 (by decide) (fs := fun _ => some (blankText (2 ^ 32 - 1) ++ (97 :: blankText (2 ^ 32 - 1 - exTail.length + 1) ++ exTail))) rfl
    exact ⟨x, q, y, _, _, h1, h2⟩
  · obtain ⟨x, q, h1, _, h2⟩ := C108_false_unblot exUsable mergeSorter_isSorter (u := asciiUni) (by decide) hl (y := y) (by rw [hy]; simp) id 2 (by decide)
      (fs := fun _ => some (blankText (2 ^ 32) ++ exTail)) rfl
    exact ⟨x, q, _, h1, h2⟩

end Dupi.Props
