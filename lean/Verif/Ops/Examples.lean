import Verif.Ops.Values
/-!
# Operators: cases the theorems cover, and cases the code gets wrong (C60)
-/
namespace BaikalDB.Ops
open BaikalDB.Expr BaikalDB.KeyEnc.Spec BaikalDB.Ops.Spec

namespace Ex
/-- An INT column holding `x`. -/
def i32 (x : Int) : EV := ⟨.int32, (BitVec.ofInt 32 x).setWidth 64, []⟩
/-- A BIGINT column holding `x`. -/
def i64 (x : Int) : EV := ⟨.int64, BitVec.ofInt 64 x, []⟩
/-- A BIGINT UNSIGNED column holding `x`. -/
def u64 (x : Nat) : EV := ⟨.uint64, BitVec.ofNat 64 x, []⟩
/-- The double 1.5. -/
def d15 : EV := ⟨.double, 0x3ff8000000000000#64, []⟩
/-- The double 3.0. -/
def d30 : EV := ⟨.double, 0x4008000000000000#64, []⟩
/-- The double 5.5. -/
def d55 : EV := ⟨.double, 0x4016000000000000#64, []⟩
/-- The text `1.5`. -/
def s15 : EV := ⟨.string, 0, [0x31#8, 0x2e#8, 0x35#8]⟩
/-- Some floating-point unit. -/
def fp0 : FP where
  ofInt x := if x = 0 then 0 else 0x3ff0000000000000#64
  ofStr _ := 0
  ofF32 x := x.setWidth 64
  add a _ := a
  sub a _ := a
  mul a _ := a
  div a _ := a

/-- Columns: 0 is an INT with value 7, 1 a BIGINT with -3, 2 a BIGINT UNSIGNED with 12, 3 an INT that is NULL. -/
def row : Nat → EV
  | 0 => i32 7
  | 1 => i64 (-3)
  | 2 => u64 12
  | _ => nullV

/-- `c0 * (2 + 3) - c1 % 2`. -/
def e1 : Node := .bin .minus (.bin .mul (.slot 0 .int32) (.bin .add (.lit (numberLit 2)) (.lit (numberLit 3))))
  (.bin .mod (.slot 1 .int64) (.lit (numberLit 2)))
/-- `(c2 + -c0) << 2`. -/
def e2 : Node := .bin .ls (.bin .add (.slot 2 .uint64) (.un .neg (.slot 0 .int32))) (.lit (numberLit 2))
end Ex

open Ex

example : IntExpr row e1 ∧ value row e1 = some 36 ∧ run fp0 e1 row = .ok (i64 36) := by
  refine ⟨?_, by decide, by rfl⟩
  simp [e1, IntExpr, IsArith, numberLit, row, i32, i64, Expr.Spec.IntTy]

example : Within row e1 := by
  have h0 : intOf (row 0) = some 7 := by decide
  have h1 : intOf (row 1) = some (-3) := by decide
  have l2 : intOf (numberLit 2) = some 2 := by decide
  have l3 : intOf (numberLit 3) = some 3 := by decide
  have lt : ∀ n, (numberLit n).ty = .int64 := fun _ => rfl
  simp [e1, Within, value, h0, h1, l2, l3, intOp, Takes, Unsigned, UnsignedTy, IsBit, lt, InRange]

example : IntExpr row e2 ∧ value row e2 = some 20 ∧ run fp0 e2 row = .ok (u64 20) := by
  refine ⟨?_, by decide, by rfl⟩
  simp [e2, IntExpr, IsArith, IsBit, numberLit, row, i32, u64, Expr.Spec.IntTy]

example : Within row e2 := by
  have h0 : intOf (row 0) = some 7 := by decide
  have h1 : intOf (row 2) = some 12 := by decide
  have l2 : intOf (numberLit 2) = some 2 := by decide
  have lt : ∀ n, (numberLit n).ty = .int64 := fun _ => rfl
  simp [e2, Within, value, h0, h1, l2, intOp, intUn, Takes, Unsigned, UnsignedTy, IsBit, lt, InRange]

/-- `3 < c0`, `c1 < 18446744073709551615 % 2`: constants on either side. -/
example : CmpKind (.lit (numberLit 3)) (.slot 0 .int32) false ∧
    run fp0 (.bin .lt (.lit (numberLit 3)) (.slot 0 .int32)) row = .ok (boolV true) :=
  ⟨CmpKind.constCol 0 .int32 _ trivial, by rfl⟩

example : CmpKind (.slot 0 .int32) (.slot 2 .uint64) true ∧
    run fp0 (.bin .lt (.slot 0 .int32) (.slot 2 .uint64)) row = .ok (boolV true) :=
  ⟨CmpKind.other _ _ (by simp [Constant]) (by simp [Constant]), by rfl⟩

example : ZeroExact fp0 := by
  intro x
  simp only [fp0]
  split
  · rename_i h; simp [h]; decide +kernel
  · rename_i h; simp only [h, iff_false]; decide +kernel

example : InRange (UnsignedTy .int32) 3 ∧ d30.ty = .double ∧ ¬ IsNaN64 d30.u ∧ f64Value d30.u = 3 * 2 ^ 1074 := by
  refine ⟨by simp [InRange, UnsignedTy], rfl, by decide +kernel, by decide +kernel⟩

example : List.Forall₂ Comparable [i32 1, ⟨.string, 0, [0x61#8]⟩] [i64 1, ⟨.string, 0, [0x62#8]⟩] ∧
    rowCmp .lt [i32 1, ⟨.string, 0, [0x61#8]⟩] [i64 1, ⟨.string, 0, [0x62#8]⟩] = some true := by
  refine ⟨.cons (Or.inl ⟨1, 1, by decide, by decide, by decide, by decide, Or.inl (by decide)⟩)
    (.cons (Or.inr ⟨rfl, rfl⟩) .nil), by decide⟩

/-- **C60 (counterexample).** Next to an unsigned column a negative number counts as a huge one: `u > -1` is false, for a
column holding 12. -/
theorem C60_negative_counterexample (fp : FP) :
    value row (.slot 2 .uint64) = some 12 ∧ value row (.un .neg (.lit (numberLit 1))) = some (-1) ∧
    run fp (.bin .gt (.slot 2 .uint64) (.un .neg (.lit (numberLit 1)))) row = .ok (boolV false) :=
  ⟨by decide, by decide, by rfl⟩

/-- **C60 (counterexample).** Next to an integer column a constant loses its fraction: with 1 in the column, `x = 1.5` is
true and `x < 1.5` false; the same for the text '1.5'. -/
theorem C60_fraction_counterexample (fp : FP) :
    run fp (.bin .eq (.slot 0 .int32) (.lit d15)) (fun _ => i32 1) = .ok (boolV true) ∧
    run fp (.bin .lt (.slot 0 .int32) (.lit d15)) (fun _ => i32 1) = .ok (boolV false) ∧
    run fp (.bin .eq (.slot 0 .int32) (.lit s15)) (fun _ => i32 1) = .ok (boolV true) := by
  have t : litCast fp d15 .int64 = .ok ⟨.int64, 1, []⟩ := by
    have h : floatTo d15 (IsNaN64 d15.u) (truncF64 d15.u) .int64 = .ok ⟨.int64, 1, []⟩ := by decide +kernel
    simp only [litCast, cast, d15, EV.isNull] at h ⊢
    simp [VTy.isInt, h]
  have go : ∀ op b, predInt op 1 1 = b → IsCmp op → run fp (.bin op (.slot 0 .int32) (.lit d15)) (fun _ => i32 1) = .ok b := by
    intro op b hb hop
    have hp := isPred_of hop
    have hT : argTy op [.int32, .int32] = .int64 := by rw [argTy_cmp hop (by decide) (by decide)]; rfl
    have hR : retTy op [.int32, .int32] = .bool := by simp [retTy, hp]
    have hc : cast fp (i32 1) .int64 = .ok ⟨.int64, 1, []⟩ := by rfl
    have hc' : cast fp ⟨.int64, 1, []⟩ .int64 = .ok ⟨.int64, 1, []⟩ := by rfl
    have hb' : binFn fp op .int64 ⟨.int64, 1, []⟩ ⟨.int64, 1, []⟩ = .ok (predInt op 1 1) :=
      binFn_cmp fp hop (u := false) rfl rfl (by rfl) (by rfl) (by simp [InRange]) (by simp [InRange])
    have hpc : preCalc fp (.bin op (.slot 0 .int32) (.lit d15)) = .ok (.bin op (.slot 0 .int32) (.lit d15)) := by
      simp [preCalc, Node.isConst, foldChild, bind, Except.bind, pure, Except.pure, swapNode, Node.isLit]
    have hts : operandTys op (.slot 0 .int32) (.lit d15) (.slot 0 .int32) (.lit d15) = [.int32, .int32] := by
      simp [operandTys, hp, Node.isSlot, Node.isConst, TNode.ty]
    have hrn : rightNode op (.slot 0 .int32) (.lit d15) (.slot 0 .int32) (.lit d15) = .lit d15 := by
      unfold rightNode; split <;> rfl
    subst hb
    simp only [run, hpc, infer, hts, hrn, hT, hR, castChild, t, Except.map, eval, hc, hc', hb', bind, Except.bind, pure,
      Except.pure]
    rfl
  exact ⟨go _ _ rfl (by decide), go _ _ rfl (by decide), by rfl⟩

/-- **C60 (counterexample).** Text is added as an integer, and `%` drops fractions: `'1.5' + 1` is 2, `5.5 % 3.0` is 2. -/
theorem C60_fraction_arithmetic_counterexample (fp : FP) :
    run fp (.bin .add (.lit s15) (.lit (numberLit 1))) row = .ok (i64 2) ∧
    run fp (.bin .mod (.slot 0 .double) (.slot 1 .double)) (fun i => if i = 0 then d55 else d30) = .ok (i64 2) := by
  refine ⟨by rfl, ?_⟩
  have c1 : cast fp d55 .int64 = .ok ⟨.int64, 5, []⟩ := by
    have h : floatTo d55 (IsNaN64 d55.u) (truncF64 d55.u) .int64 = .ok ⟨.int64, 5, []⟩ := by decide +kernel
    simp only [cast, d55, EV.isNull] at h ⊢
    simp [VTy.isInt, h]
  have c2 : cast fp d30 .int64 = .ok ⟨.int64, 3, []⟩ := by
    have h : floatTo d30 (IsNaN64 d30.u) (truncF64 d30.u) .int64 = .ok ⟨.int64, 3, []⟩ := by decide +kernel
    simp only [cast, d30, EV.isNull] at h ⊢
    simp [VTy.isInt, h]
  rw [run_cols]
  have hT : argTy .mod [.double, .double] = .int64 := rfl
  have hR : retTy .mod [.double, .double] = .int64 := rfl
  simp only [eval, hT, hR, bind, Except.bind, if_true, Nat.succ_ne_self, if_false, c1, c2]
  rfl

/-- **C60 (counterexample).** Undefined behaviour a user can reach: a signed sum beyond 64 bits, the smallest BIGINT
modulo -1, a shift by 64, the negation of an unsigned 2^63. -/
theorem C60_undefined_counterexample (fp : FP) :
    run fp (.bin .add (.slot 0 .int64) (.lit (numberLit 1))) (fun _ => i64 (2 ^ 63 - 1)) = .error .ub ∧
    run fp (.bin .mod (.slot 0 .int64) (.un .neg (.lit (numberLit 1)))) (fun _ => i64 (-2 ^ 63)) = .error .ub ∧
    run fp (.bin .ls (.slot 0 .int64) (.lit (numberLit 64))) (fun _ => i64 1) = .error .ub ∧
    run fp (.un .neg (.slot 0 .uint64)) (fun _ => u64 (2 ^ 63)) = .error .ub :=
  ⟨by rfl, by rfl, by rfl, by rfl⟩

/-- **C60 (counterexample).** Unsigned results wrap: `5 - 12` over unsigned columns is 18446744073709551609, and `-x` of an
unsigned 5 is 18446744073709551611. -/
theorem C60_wrap_counterexample (fp : FP) :
    run fp (.bin .minus (.slot 0 .uint64) (.slot 1 .uint64)) (fun i => if i = 0 then u64 5 else u64 12) =
      .ok (u64 18446744073709551609) ∧
    run fp (.un .neg (.slot 0 .uint64)) (fun _ => u64 5) = .ok (u64 18446744073709551611) :=
  ⟨by rfl, by rfl⟩

/-- **C60 (counterexample).** A number in SQL text from 2^63 on is read as a negative one: `x < 9223372036854775808` is
false. -/
theorem C60_literal_counterexample (fp : FP) :
    intOf (numberLit (2 ^ 63)) = some (-2 ^ 63) ∧
    run fp (.bin .lt (.slot 0 .int32) (.lit (numberLit (2 ^ 63)))) row = .ok (boolV false) :=
  ⟨by decide, by rfl⟩

/-- **C60 (counterexample).** In rows NULL is a value: `(NULL, 1) = (NULL, 1)` is true, and so is `('', 1) = (NULL, 1)`. -/
theorem C60_null_rows_counterexample :
    rowCmp .eq [nullV, i64 1] [nullV, i64 1] = some true ∧ rowCmp .eq [⟨.string, 0, []⟩, i64 1] [nullV, i64 1] = some true := by
  decide

end BaikalDB.Ops
