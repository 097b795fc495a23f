import Verif.Window.Props

/-! # C62: concrete cases, and where the code is wrong -/

namespace BaikalDB.Window
open Expr (EV VTy)
open Expr.Spec
open Spec
open BaikalDB.Sort (Key rowCompare rowOrd RowLe RowOK colVal colOrd)

/-- Rows with two INT64 columns. -/
abbrev R2 : Type := Nat × Nat
def colA (r : R2) : EV := intV (BitVec.ofNat 64 r.1)
def colB (r : R2) : EV := intV (BitVec.ofNat 64 r.2)
def byA : List (Key R2) := [⟨colA, true, true⟩]

/-- The window `ORDER BY a`. -/
def overA : Over R2 := ⟨[], some byA, none, [97#8]⟩

/-! ## Merged windows -/

/-- `ROW_NUMBER() OVER (ORDER BY a), SUM(b) OVER (ORDER BY a)`: the windows print alike and become one, with the frame of
ROW_NUMBER, which has none, so SUM is over the whole partition: for the first row 10 + 20 instead of 10. -/
theorem C62_merge_counterexample (fp : Fp) :
    ∃ nd, plan [(Fn.rowNumber, overA), (.sum colB, overA)] = .ok [([97#8], nd)] ∧
      nd.run fp [[(1, 10), (2, 20)]] = .ok [((1, 10), [intV 1, intV 30]), ((2, 20), [intV 2, intV 30])] ∧
      ∀ v, Value fp byA (.sum colB) [(1, 10), (2, 20)] (1, 10) 0 (frameOf byA (extent overA) [(1, 10), (2, 20)] (1, 10) 0) v → v ≠ intV 30 := by
  refine ⟨⟨[.rowNumber, .sum colB], [], byA, none⟩, rfl, rfl, ?_⟩
  intro v hv
  have hF : frameOf byA (extent overA) [((1, 10) : R2), (2, 20)] (1, 10) 0 = [(1, 10)] := by decide +kernel
  rw [hF] at hv
  obtain ⟨y, ⟨_, hy⟩, _, he⟩ := hv.2 (by decide +kernel) [10] (by decide +kernel)
  intro hc
  rw [hc] at hy
  have h30 : sem (intV 30) = some (.num 30) := by decide +kernel
  rw [h30] at hy
  injection hy with hy
  injection hy with hy
  rw [← hy] at he
  exact absurd (he (by decide) (by decide)) (by decide)

/-- The other way around both are right. -/
example (fp : Fp) : ∃ nd, plan [(Fn.sum colB, overA), (.rowNumber, overA)] = .ok [([97#8], nd)] ∧
    nd.run fp [[(1, 10), (2, 20)]] = .ok [((1, 10), [intV 10, intV 1]), ((2, 20), [intV 30, intV 2])] :=
  ⟨⟨[.sum colB, .rowNumber], [], byA, some ⟨false, ⟨.preceding, true, -1⟩, ⟨.current, false, -1⟩⟩⟩, rfl, rfl⟩

/-! ## Numbers out of range -/

/-- `ROWS 4294967297 PRECEDING` is taken for `ROWS 1 PRECEDING`: of three rows the last sums two. -/
theorem C62_rows_bound_counterexample (fp : Fp) :
    ∃ nd, planOne (.sum colB) { overA with frame := some ⟨true, ⟨.preceding, false, some (2 ^ 32 + 1)⟩, ⟨.current, false, none⟩⟩ } = .ok nd ∧
      nd.run fp [[(1, 1), (2, 2), (3, 4)]] = .ok [((1, 1), [intV 1]), ((2, 2), [intV 3]), ((3, 4), [intV 6])] :=
  ⟨⟨[.sum colB], [], byA, some ⟨true, ⟨.preceding, false, 1⟩, ⟨.current, false, -1⟩⟩⟩, rfl, rfl⟩

/-- `ROWS BETWEEN CURRENT ROW AND 2147483647 FOLLOWING` overflows an `int` at the second row. -/
theorem C62_following_counterexample (fp : Fp) :
    ∃ nd, planOne (.sum colB) { overA with frame := some ⟨true, ⟨.current, false, none⟩, ⟨.following, false, some (2 ^ 31 - 1)⟩⟩ } = .ok nd ∧
      nd.run fp [[(1, 1)]] = .ok [((1, 1), [intV 1])] ∧ nd.run fp [[(1, 1), (2, 2)]] = .error .ub :=
  ⟨⟨[.sum colB], [], byA, some ⟨true, ⟨.current, false, -1⟩, ⟨.following, false, 2 ^ 31 - 1⟩⟩⟩, rfl, rfl, rfl⟩

/-- `NTH_VALUE(b, 4294967297)` of two rows is the first, not NULL. -/
theorem C62_nth_value_counterexample (fp : Fp) :
    process fp byA (some ⟨false, ⟨.preceding, true, -1⟩, ⟨.following, true, -1⟩⟩) (.nthValue colB (2 ^ 32 + 1)) [(1, 10), (2, 20)] =
      .ok [intV 10, intV 10] := rfl

/-- `LEAD(b, 9223372036854775807)` overflows at the second row. -/
theorem C62_lead_counterexample (fp : Fp) :
    process fp byA none (.lead colB (2 ^ 63 - 1) none) [(1, 10), (2, 20)] = .error .ub := rfl

/-! ## Cutting partitions -/

/-- An empty batch that is not the last cuts a partition in two: the third row is number 1 again. -/
theorem C62_empty_batch_counterexample (fp : Fp) :
    (⟨[.rowNumber], [], byA, none⟩ : Node R2).run fp [[(1, 1), (2, 2)], [], [(3, 3)]] =
      .ok [((1, 1), [intV 1]), ((2, 2), [intV 2]), ((3, 3), [intV 1])] := rfl

/-- Strings with NUL bytes: `('a\0', 'b')` and `('a', '\0b')` are one partition. -/
theorem C62_nul_counterexample :
    let part : List (List Byte × List Byte → EV) := [fun r => ⟨.string, 0, r.1⟩, fun r => ⟨.string, 0, r.2⟩]
    let r : List Byte × List Byte := ([97#8, 0#8], [98#8])
    let r' : List Byte × List Byte := ([97#8], [0#8, 98#8])
    partKey part r = partKey part r' ∧ samePart part r r' = false := by
  decide +kernel

/-- More than eight expressions: NULL in the eighth and NULL in the ninth have one flag. -/
theorem C62_nine_counterexample :
    let part : List (List EV → EV) := (List.range 9).map fun i r => r.getD i nullV
    let r : List EV := List.replicate 7 (intV 1) ++ [nullV, intV 1]
    let r' : List EV := List.replicate 7 (intV 1) ++ [intV 1, nullV]
    partKey part r = partKey part r' ∧ samePart part r r' = false := by
  decide +kernel

/-! ## The theorem's assumptions hold of a query -/

/-- Doubles are opaque here; integer division stands in for theirs. -/
def toyFp : Fp := ⟨(· + ·), fun a b => a / b, fun k => BitVec.ofInt 64 k, fun v => v.u⟩

/-- Insertion sort, by the code's comparison. -/
def insertRow {σ : Type} (ks : List (Key σ)) (x : σ) : List σ → List σ
  | [] => [x]
  | y :: ys => if Sort.rowLess ks y x then y :: insertRow ks x ys else x :: y :: ys

/-- `SUM(b) OVER (PARTITION BY a ORDER BY b)` and `RANK() OVER (ORDER BY a)`. -/
def demo : List (Fn R2 × Over R2) :=
  [(.sum colB, ⟨[colA], some [⟨colB, true, true⟩], none, [98#8]⟩), (.rank, overA)]

example : ∃ nds, plan demo = .ok nds ∧ nds.map (·.1) = [[98#8], [97#8]] := ⟨_, rfl, rfl⟩

example : Apart demo := by
  refine ⟨?_, ?_⟩
  · intro a ha b hb he
    simp only [demo, List.mem_cons, List.not_mem_nil, or_false] at ha hb
    rcases ha with rfl | rfl <;> rcases hb with rfl | rfl
    · exact ⟨rfl, rfl, rfl⟩
    · exact absurd he (by decide)
    · exact absurd he (by decide)
    · exact ⟨rfl, rfl, rfl⟩
  · simp only [demo, List.pairwise_cons, List.mem_singleton, forall_eq]
    exact ⟨fun he => absurd he (by decide), by simp⟩

example : ∀ w ∈ demo, w.2.part.length ≤ 8 ∧ Over.Ok 3 w.2 ∧ FnOk [(1, 10), (2, 20), (1, 5)] w.1 ∧
    ∀ r ∈ ([(1, 10), (2, 20), (1, 5)] : List R2), SpecOk (fun _ => VTy.int64) w.2.part (w.2.order.getD []) r := by
  have hv : ∀ x : BitVec 64, NotNaN (intV x) ∧ ¬ NegZero (intV x) := fun x => by simp [NotNaN, NegZero, intV]
  intro w hw
  simp only [demo, List.mem_cons, List.not_mem_nil, or_false] at hw
  rcases hw with rfl | rfl
  · refine ⟨by decide, fun w h => by simp at h, fun r _ => Or.inr (by simp [colB, intV, IntTy]), fun r _ => ⟨fun a ha => ?_, fun k hk => ?_⟩⟩
    · simp only [List.mem_singleton] at ha
      subst ha
      exact ⟨Or.inl (by simp [IntTy]), Or.inr ⟨rfl, (hv _).1, (hv _).2, by simp⟩⟩
    · simp only [Option.getD_some, List.mem_singleton] at hk
      subst hk
      exact ⟨by simp [Expr.Spec.Ordered], Or.inr ⟨rfl, (hv _).1⟩⟩
  · refine ⟨by decide, fun w h => by simp [overA] at h, trivial, fun r _ => ⟨fun a ha => by simp [overA] at ha, fun k hk => ?_⟩⟩
    simp only [overA, byA, Option.getD_some, List.mem_singleton] at hk
    subst hk
    exact ⟨by simp [Expr.Spec.Ordered], Or.inr ⟨rfl, (hv _).1⟩⟩

/-- Two windows on three rows: the rows and both values of each. -/
example : (runWindows toyFp ⟨fun ks l => l.foldr (insertRow ks) [], id, 2, 10, fun l => [l]⟩
    [⟨[.sum colB], [colA], [⟨colB, true, true⟩], some ⟨false, ⟨.preceding, true, -1⟩, ⟨.current, false, -1⟩⟩⟩, ⟨[.rank], [], byA, none⟩]
    [[((1, 10), []), ((2, 20), []), ((1, 5), [])]]).toOption =
    some [((1, 5), [[intV 5], [intV 1]]), ((1, 10), [[intV 15], [intV 1]]), ((2, 20), [[intV 20], [intV 3]])] := by
  decide +kernel

/-- Frames, buckets and neighbours. -/
example (fp : Fp) : process fp byA (some ⟨true, ⟨.preceding, false, 1⟩, ⟨.following, false, 1⟩⟩) (.sum colB) [(1, 1), (2, 2), (3, 4), (4, 8)] =
    .ok [intV 3, intV 7, intV 14, intV 12] := rfl
example (fp : Fp) : process fp byA none (.ntile 3) [(1, 1), (2, 2), (3, 4), (4, 8)] = .ok [intV 1, intV 1, intV 2, intV 3] := rfl
example (fp : Fp) : process fp byA none (.denseRank) [(1, 1), (1, 2), (3, 4), (4, 8)] = .ok [intV 1, intV 1, intV 2, intV 3] := rfl
example (fp : Fp) : process fp byA none (.lag colB 1 (some fun _ => intV 9)) [(1, 1), (1, 2), (3, 4)] = .ok [intV 9, intV 1, intV 2] := rfl

end BaikalDB.Window
