import Verif.Iter.Props
import Verif.KeyEnc.Model

/-!
# Where a scan loses entries, and examples
-/

namespace BaikalDB.Iter
open Route

def one8 : Bytes := [0x80#8, 0, 0, 0, 0, 0, 0, 1]

/-- The key of BIGINT 1 and of the largest BIGINT. -/
example : KeyEnc.encodeField .int64 (.i64 1#64) [] false = some one8 ∧
    KeyEnc.encodeField .int64 (.i64 0x7FFFFFFFFFFFFFFF#64) [] false = some (ones 8) := by decide

def exPre : Bytes := [0, 0, 0, 0, 0, 0, 0, 5, 0, 0, 0, 0, 0, 0, 0, 7]

/-- **C53.** `WHERE a = 1` on PRIMARY KEY (a, b, c, d) of BIGINTs: a row whose b, c and d are the largest BIGINT is not
found, since a closed right end is taken to be below the bytes of the end and 24 times 0xFF. -/
theorem C53_largest_values_counterexample (v : Bytes) :
    scan exPre true ⟨[], []⟩ ⟨one8, one8, false, false⟩ true (fun _ => false) [(exPre ++ one8 ++ ones 24, v)] = [] ∧
    Target exPre true ⟨[], []⟩ ⟨one8, one8, false, false⟩ (exPre ++ one8 ++ ones 24) := by
  constructor
  · have h : openIt exPre true ⟨[], []⟩ ⟨one8, one8, false, false⟩ =
        some ⟨exPre ++ one8, exPre ++ one8, exPre ++ one8, exPre ++ one8, false, false, false⟩ := by decide
    have hb : blt (exPre ++ one8 ++ ones 24) (exPre ++ one8 ++ ones 24) = false := by decide
    simp only [scan, h, if_true, forward, seekLow, seekHigh, Bool.not_false, Bool.false_eq_true, if_false,
      List.filter_cons, hb, Bool.and_false, List.filter_nil, List.takeWhile_nil]
  · exact ⟨one8 ++ ones 24, by rw [List.append_assoc], fun _ => ⟨BLe_nil _, .inl rfl⟩, by
      refine ⟨fun _ => ?_, .inr (.inr ⟨rfl, List.prefix_append _ _⟩)⟩
      show BLe _ _
      decide⟩

/-- With one more column the backward scan loses it as well. -/
theorem C53_largest_values_backward_counterexample (v : Bytes) :
    scan exPre true ⟨[], []⟩ ⟨one8, one8, false, false⟩ false (fun _ => false) [(exPre ++ one8 ++ ones 32, v)] = [] ∧
    Target exPre true ⟨[], []⟩ ⟨one8, one8, false, false⟩ (exPre ++ one8 ++ ones 32) := by
  constructor
  · have h : openIt exPre true ⟨[], []⟩ ⟨one8, one8, false, false⟩ =
        some ⟨exPre ++ one8, exPre ++ one8, exPre ++ one8, exPre ++ one8, false, false, false⟩ := by decide
    have hb : ble (exPre ++ one8 ++ ones 32) (exPre ++ one8 ++ ones 24) = false := by decide
    simp only [scan, h, Bool.false_eq_true, if_false, backward, seekLow, seekHigh, Bool.not_false, if_true,
      List.filter_cons, hb, Bool.and_false, List.filter_nil, List.reverse_nil, List.dropWhile_nil, List.takeWhile_nil]
  · exact ⟨one8 ++ ones 32, by rw [List.append_assoc], fun _ => ⟨BLe_nil _, .inl rfl⟩, by
      refine ⟨fun _ => ?_, .inr (.inr ⟨rfl, List.prefix_append _ _⟩)⟩
      show BLe _ _
      decide⟩

/-- Region [3, 8), the range a > 4 AND a <= 9, four entries, one of another index: 5 and 7 come back. -/
def exDb : Db := [([1, 3], [0]), ([1, 4, 9], [1]), ([1, 5], [2]), ([1, 7, 1], [3]), ([1, 9], [4]), ([2, 6], [5])]

example : Sorted exDb := by unfold Sorted exDb; decide
example : scan [1] true ⟨[3], [8]⟩ ⟨[4], [9], true, false⟩ true (fun _ => false) exDb = [([1, 5], [2]), ([1, 7, 1], [3])] := by
  decide
example : scan [1] true ⟨[3], [8]⟩ ⟨[4], [9], true, false⟩ false (fun _ => false) exDb = [([1, 7, 1], [3]), ([1, 5], [2])] := by
  decide
example : ∀ e ∈ exDb, ¬ ([1] ++ [9] ++ ones 24) <+: e.1 := by decide

end BaikalDB.Iter
