import Verif.Reverse.Props

/-! # Cases that meet the hypotheses of the theorems about full-text search -/

namespace BaikalDB.Reverse
open Spec

/-- Rows are inserted, terms are merged, a row is deleted and inserted again, the region is split. -/
def busy : Index Nat Nat :=
  (((((((((whole.handle false [1, 2] 3 fun _ => 1).handle false [2, 3] 4 fun t => t).merge 1 2).handle false [1, 2, 3] 9 fun _ => 3).merge 3 2).handle true
    [2, 3] 4 fun _ => 3).handle false [1, 3] 4 fun _ => 3).merge 2 3).narrow ⟨0, 8⟩).clean

theorem busy_run : ∃ tb, Run words busy tb 3 false ∧ tb 3 = some [1, 2] ∧ tb 4 = some [1, 3] ∧ tb 9 = none := by
  refine ⟨_, ((((((((((Run.start ⟨0, 0⟩).insert 3 [1, 2] (fun _ => 1) 1 ⟨Nat.zero_le _, .inl rfl⟩ rfl ⟨by decide, fun _ _ => ⟨Nat.zero_le _, Nat.le_refl _⟩⟩).insert 4 [2, 3] (fun t => t) 3
    ⟨Nat.zero_le _, .inl rfl⟩ rfl ⟨by decide, by decide⟩).merge 1 2).insert 9 [1, 2, 3] (fun _ => 3) 3 ⟨Nat.zero_le _, .inl rfl⟩ rfl
    ⟨by decide, fun _ _ => ⟨Nat.le_refl _, Nat.le_refl _⟩⟩).merge 3 2).delete 4 [2, 3] (fun _ => 3) 3 rfl ⟨by decide, fun _ _ => ⟨Nat.le_refl _, Nat.le_refl _⟩⟩).insert 4 [1, 3] (fun _ => 3) 3
    ⟨Nat.zero_le _, .inl rfl⟩ rfl ⟨by decide, fun _ _ => ⟨Nat.le_refl _, Nat.le_refl _⟩⟩).merge 2 3).narrow ⟨0, 8⟩ (fun k _ => ⟨Nat.zero_le _, .inl rfl⟩)).clean, ?_, ?_, ?_⟩
  · unfold Rows.within
    rw [if_pos ⟨Nat.zero_le _, .inr (by decide)⟩]; rfl
  · unfold Rows.within
    rw [if_pos ⟨Nat.zero_le _, .inr (by decide)⟩]; rfl
  · unfold Rows.within
    rw [if_neg]
    rintro ⟨_, h | h⟩ <;> revert h <;> decide

/-- (term 1 and term 3) or term 2. -/
def query : Query Nat := .any [.all [.find false [[1]], .find true [[3, 5]]], .find false [[2], [], [3, 9]]]

example : Ok query ∧ Ready busy.range false ∧ busy.search query = [3, 4] := by
  refine ⟨?_, .inr (.inr rfl), by decide +kernel⟩
  simp [query, Ok, OkAny, OkAll, HasTerms]

example : busy.search (.find false [[1, 2]]) = [3] ∧ busy.search (.find true [[1, 2]]) = [3, 4] := by decide +kernel

/-- An AND of lists of different lengths, and a split. -/
def many : Index Nat Nat := (List.range 20).foldl (fun x k => x.handle false ((if k % 2 = 0 then [2] else []) ++ if k % 3 = 0 then [3] else []) (k + 1) fun _ => k) whole

example : many.search (.find false [[2, 3]]) = [1, 7, 13, 19] ∧ (many.merge 5 2).search (.find false [[2, 3]]) = [1, 7, 13, 19] ∧
    (many.narrow ⟨0, 8⟩).clean.search (.find false [[2, 3]]) = [1, 7] ∧ (many.narrow ⟨8, 0⟩).search (.find false [[2, 3]]) = [13, 19] := by
  decide +kernel

example : seek 5 [⟨1, false⟩, ⟨3, true⟩, ⟨6, false⟩, ⟨9, false⟩] = [(⟨6, false⟩ : Node Nat), ⟨9, false⟩] := by decide +kernel

end BaikalDB.Reverse
