import Verif.Model.DmdConc
import Verif.Props.Dmd
/-! # Concurrent lookups: C38 -/

namespace Dupi.Props
open Dmd

theorem calls_append (file : Bytes) (a : List Call) : ∀ (pos : Nat), ∃ pos', ∀ b, calls file pos (a ++ b) = calls file pos a ++ calls file pos' b := by
  induction a with
  | nil => intro pos; exact ⟨pos, fun b => rfl⟩
  | cons c a ih =>
    intro pos
    cases c with
    | seek g d => obtain ⟨p, h⟩ := ih (d.toNat * rcdSize); exact ⟨p, fun b => h b⟩
    | read g =>
      obtain ⟨p, h⟩ := ih (max pos (min file.length (pos + rcdSize)))
      exact ⟨p, fun b => by simp only [List.cons_append, calls, h b]⟩

/-- **C38 where it holds.**  Whatever all goroutines do before and after, a lookup whose seek and read are not separated by a call of another
goroutine gives the metadata of the document it asks for. -/
theorem C38_undisturbed_partial (file : Bytes) (pos : Nat) (before after : List Call) (g : Nat) (did : UInt32) :
    ∃ rs rs', calls file pos (before ++ .seek g did :: .read g :: after) = rs ++ (g, lookup file did) :: rs' ∧
      rs.length = (calls file pos before).length := by
  obtain ⟨p, h⟩ := calls_append file before pos
  refine ⟨calls file pos before, calls file (max (did.toNat * rcdSize) (min file.length (did.toNat * rcdSize + rcdSize))) after, ?_, rfl⟩
  rw [h]
  rfl

/-- A lookup that is overtaken by the seek of another goroutine gives the metadata of the other document. -/
theorem C38_false_seek (file : Bytes) (pos : Nat) (g g' : Nat) (did did' : UInt32) :
    calls file pos [.seek g did, .seek g' did', .read g] = [(g, lookup file did')] := rfl

/-- A lookup that is overtaken by a whole lookup of another goroutine gives the metadata of the document after the other one. -/
theorem C38_false_read (file : Bytes) (pos : Nat) (g g' : Nat) (did did' : UInt32) (hd : did'.toNat + 1 < 2 ^ 32)
    (hl : (did'.toNat + 1) * rcdSize ≤ file.length) :
    calls file pos [.seek g did, .seek g' did', .read g', .read g] = [(g', lookup file did'), (g, lookup file (did' + 1))] := by
  have e : max (did'.toNat * rcdSize) (min file.length (did'.toNat * rcdSize + rcdSize)) = (did' + 1).toNat * rcdSize := by
    rw [UInt32.toNat_add, show (1 : UInt32).toNat = 1 from rfl, Nat.mod_eq_of_lt (by omega)]
    simp only [rcdSize] at *
    omega
  simp only [calls, e]
  rfl

/-- The two documents of an index with different metadata get mixed up. -/
example : ∃ (file : Bytes) (a b : Fields), a ≠ b ∧ lookup file 0 = .ok a ∧ lookup file 1 = .ok b ∧
    calls file 0 [.seek 1 0, .seek 2 1, .read 1] = [(1, .ok b)] :=
  ⟨encode ⟨1, 2, 3⟩ ++ encode ⟨4, 5, 6⟩, ⟨1, 2, 3⟩, ⟨4, 5, 6⟩, by decide, rfl, rfl, rfl⟩

end Dupi.Props
