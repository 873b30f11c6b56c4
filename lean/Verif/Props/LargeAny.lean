import Verif.Props.Large
/-! # Any number of files of any length: C108 -/

namespace Dupi.Props
open Spec

/-- the text at two positions of which only the last 32 bits are known; there is none if the second is then before the first -/
def wrapText (dat : Bytes) (r : Nat × Nat) : Option Bytes :=
  if r.1 % 2 ^ 32 ≤ r.2 % 2 ^ 32 then some (textAt dat (r.1 % 2 ^ 32, r.2 % 2 ^ 32)) else none

/-- what unblot takes for the first text with the blot `b` of a file: nothing if the kept part has no such text -/
def toldText (u : Uni) (c : Config) (b : UInt32) (s : Document) : Option (Option Bytes) :=
  match (blotsOf u c (keptPart s.dat)).findIdx? fun x => x.toNat % numBuckets c = b.toNat with
  | none => none
  | some i => (passage u c (keptPart s.dat) i).map (wrapText (keptPart s.dat))

theorem unblotLoop_file (u : Uni) {fs : Files} {c : Config} (hF : Findable c) {b : UInt32} {s : Document} (hw : WholeFile s)
    (hf : fs s.path = some s.dat) (ds : List Doc) (m : Cmd.Groups) (w : Nat) :
    Cmd.unblotLoop u fs c b (s.shown :: ds) m w = match toldText u c b s with
      | none => Cmd.unblotLoop u fs c b ds m (w + 1)
      | some none => panic'
      | some (some t) => Cmd.unblotLoop u fs c b ds (m.add t s.shown) w := by
  have hload := C108_load hw hf
  have hfb := findBlot_shown (u := u) (c := c) b hload
  simp only [Option.isSome_some, if_true] at hfb
  have hfind := C27_find u fs hF b ⟨s.path, 0, s.stop, some (keptPart s.dat)⟩ _ rfl
  cases hi : (blotsOf u c (keptPart s.dat)).findIdx? (fun x => x.toNat % numBuckets c = b.toNat) with
  | none =>
    rw [hi] at hfind
    simp only at hfind
    rw [Cmd.unblotLoop, hfb, hfind, toldText, hi]
  | some i =>
    rw [hi] at hfind
    obtain ⟨r, hp, hr⟩ := hfind
    obtain ⟨_, _, _, _, _, _, hle⟩ := (passage_some hF.cons (keptPart s.dat) i).2 r hp
    have hs : s.shown = ⟨s.path, 0, s.stop, none⟩ := by rw [← hw.1]; rfl
    rw [Cmd.unblotLoop, hfb, hr, toldText, hi]
    simp only [hp, Option.map_some, wrapText, UInt32.zero_add, UInt32.sub_zero, Option.getD_some, toNat_ofNat_mod, slice]
    by_cases h : r.1 % 2 ^ 32 ≤ r.2 % 2 ^ 32
    · rw [if_pos h, if_pos ⟨h, by have := Nat.mod_le r.2 (2 ^ 32); omega⟩]
      simp only [bind, Except.bind, hs]
      rfl
    · rw [if_neg h, if_neg (fun e => h e.1)]
      rfl

theorem unblotLoop_files (u : Uni) {fs : Files} {c : Config} (hF : Findable c) {b : UInt32} (ss : List Document)
    (hun : ∀ s ∈ ss, WholeFile s ∧ fs s.path = some s.dat) : ∀ (m : Cmd.Groups) (w : Nat),
    Cmd.unblotLoop u fs c b (ss.map Document.shown) m w =
      if some none ∈ ss.map (toldText u c b) then panic'
      else .ok ((ss.filter fun s => (toldText u c b s).isSome).foldl (fun m s => m.add (((toldText u c b s).getD none).getD []) s.shown) m,
        w + (ss.filter fun s => (toldText u c b s).isNone).length) := by
  induction ss with
  | nil => intro m w; rfl
  | cons s ss ih =>
    intro m w
    obtain ⟨hw, hf⟩ := hun s (by simp)
    have ih := ih fun s hs => hun s (by simp [hs])
    rw [List.map_cons, unblotLoop_file u hF hw hf]
    cases ht : toldText u c b s with
    | none =>
      simp only
      rw [ih]
      simp only [List.map_cons, ht, List.mem_cons, reduceCtorEq, false_or, List.filter_cons, Option.isSome_none, Option.isNone_none, Bool.false_eq_true, if_false, if_true,
        List.length_cons]
      split
      · rfl
      · rw [Nat.add_assoc, Nat.add_comm 1]
    | some o =>
      cases o with
      | none => simp [ht]
      | some t =>
        simp only
        rw [ih]
        simp only [List.map_cons, ht, List.mem_cons, Option.some.injEq, reduceCtorEq, false_or, List.filter_cons, Option.isSome_some, Option.isNone_some, Bool.false_eq_true, if_false, if_true,
          List.foldl_cons, Option.getD_some]

section
variable {u : Uni} {J : CfgCodec} {srt : Sorter} {c : Config} (hU : Usable J c) (hsrt : IsSorter srt)
include hU hsrt

/-- **C108, what unblot does with files of any lengths.**  In an index of whole files, unchanged since: if one of the documents `Get` lists under the blot has its first text
with the blot where its end, modulo 4 GiB, is before its begin, unblot panics.  Otherwise it prints groups of documents: for each that has a text with the blot in its kept
part it takes the text that is at these places modulo 4 GiB.  Every other document gives a warning. -/
theorem C108_unblot {h : Sessions} {x : Index} {q : QState} (hr : Reading u J srt c h x q) (hf : Fits u c (documents h))
    (hs : c.numShards < 65536) (fs : Files) (hun : ∀ s ∈ documents h, WholeFile s ∧ fs s.path = some s.dat)
    (grow : Nat → Nat) (b : UInt32) (all : Bool) (fuel : Nat) (hfuel : (documents h).length < fuel) :
    ((∃ s ∈ found u c (documents h) b.toNat, toldText u c b s = some none) → Cmd.unblot u fs grow x fuel q all b = panic') ∧
    ((∀ s ∈ found u c (documents h) b.toNat, toldText u c b s ≠ some none) → ∃ m : Cmd.Groups,
      Cmd.unblot u fs grow x fuel q all b = .ok (m.filter (fun g => all || decide (2 ≤ g.2.length)),
        ((found u c (documents h) b.toNat).filter fun s => (toldText u c b s).isNone).length) ∧ (m.map Prod.fst).Nodup ∧
      ∀ t, m.lookup t =
        (let ss := (found u c (documents h) b.toNat).filter fun s => toldText u c b s = some (some t)
         if ss = [] then none else some (ss.map Document.shown))) := by
  obtain ⟨r, g1, g2, g3⟩ := C21_get hU hsrt hr hf grow b fuel hfuel (q' := q) rfl
  obtain ⟨_, _, _, _, hcfg, _⟩ := hr.rep hU hsrt hf
  have hF : Findable c := ⟨hU.cons, hU.shards, hs⟩
  have hloop := unblotLoop_files u (fs := fs) hF (b := b) (found u c (documents h) b.toNat) (fun s hs => hun s (List.mem_filter.mp hs).1) [] 0
  constructor
  · rintro ⟨s, hs, ht⟩
    rw [if_pos (List.mem_map.mpr ⟨s, hs, ht⟩)] at hloop
    simp only [Cmd.unblot, g1, bind, Except.bind, g3, hcfg, hloop]
  · intro hno
    rw [if_neg (fun hm => by
      obtain ⟨s, hs, ht⟩ := List.mem_map.mp hm
      exact hno s hs ht)] at hloop
    obtain ⟨k1, k2⟩ := groups_foldl (fun s => ((toldText u c b s).getD none).getD []) Document.shown
      ((found u c (documents h) b.toNat).filter fun s => (toldText u c b s).isSome) [] List.nodup_nil
    refine ⟨_, ?_, k1, fun t => ?_⟩
    · simp only [Cmd.unblot, g1, bind, Except.bind, g3, hcfg, hloop, pure, Except.pure, Nat.zero_add]
    · rw [k2 t]
      have : ((found u c (documents h) b.toNat).filter fun s => (toldText u c b s).isSome).filter (fun s => decide (((toldText u c b s).getD none).getD [] = t)) =
          (found u c (documents h) b.toNat).filter fun s => decide (toldText u c b s = some (some t)) := by
        rw [List.filter_filter]
        apply List.filter_congr
        intro s hs
        have := hno s hs
        cases ht : toldText u c b s with
        | none => simp
        | some o =>
          cases o with
          | none => exact absurd ht this
          | some t' => simp
      simp only [this]
      simp

end

/-- for files of less than 4 GiB it is the first text with the blot -/
theorem toldText_short {u : Uni} {c : Config} (hc : Consistent c) {b : UInt32} {s : Document} (hl : (keptPart s.dat).length < 2 ^ 32) {i : Nat} {r : Nat × Nat}
    (hi : (blotsOf u c (keptPart s.dat)).findIdx? (fun x => x.toNat % numBuckets c = b.toNat) = some i) (hp : passage u c (keptPart s.dat) i = some r) :
    toldText u c b s = some (some (textAt (keptPart s.dat) r)) := by
  obtain ⟨_, _, _, _, _, h1, h2⟩ := (passage_some hc (keptPart s.dat) i).2 r hp
  have e1 : r.1 % 2 ^ 32 = r.1 := Nat.mod_eq_of_lt (by omega)
  have e2 : r.2 % 2 ^ 32 = r.2 := Nat.mod_eq_of_lt (by omega)
  simp only [toldText, hi, hp, Option.map_some, wrapText, e1, e2, if_pos h1]

-- non-vacuity: places before and behind 4 GiB
example : wrapText [97, 98, 99, 100] (2 ^ 32 + 1, 2 ^ 32 + 3) = some [98, 99] ∧ wrapText [97, 98, 99, 100] (2 ^ 32 - 1, 2 ^ 32 + 3) = none ∧
    wrapText [97, 98, 99, 100] (1, 3) = some [98, 99] := by decide +kernel
example : ∃ b, toldText asciiUni exQConfig b ⟨[47, 112], 0, 7, exTail⟩ = some (some [97, 32, 98, 32, 99]) :=
  ⟨UInt32.ofNat (((blotsOf asciiUni exQConfig exTail).headD 0).toNat % numBuckets exQConfig), by decide +kernel⟩

end Dupi.Props
