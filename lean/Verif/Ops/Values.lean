import Verif.Ops.Compare
/-!
# Operators on NULL, text, fractions, dates and rows (C60)
-/
namespace BaikalDB.Ops
open BaikalDB.Expr BaikalDB.KeyEnc.Spec BaikalDB.Ops.Spec

theorem run_cols (fp : FP) (op : BOp) (i j : Nat) (s t : VTy) (row : Nat → EV) :
    run fp (.bin op (.slot i s) (.slot j t)) row =
      eval fp row (.bin op (argTy op [s, t]) (retTy op [s, t]) (.slot i s) (.slot j t)) := by
  have hp : preCalc fp (.bin op (.slot i s) (.slot j t)) = .ok (.bin op (.slot i s) (.slot j t)) := by
    simp [preCalc, Node.isConst, foldChild, bind, Except.bind, pure, Except.pure, swapNode]
  have hts : operandTys op (.slot i s) (.slot j t) (.slot i s) (.slot j t) = [s, t] := by
    simp [operandTys, Node.isConst, TNode.ty]
  have hrn : rightNode op (.slot i s) (.slot j t) (.slot i s) (.slot j t) = .slot j t := by simp [rightNode, Node.isConst]
  simp only [run, hp, infer, hts, hrn, castChild, bind, Except.bind, pure, Except.pure]

theorem cast_isNull {fp : FP} {v w : EV} {t : VTy} (hv : v.ty = .null) (h : cast fp v t = .ok w) : w = v := by
  rw [cast_null fp t hv] at h; simp only [Except.ok.injEq] at h; exact h.symm

/-- **C60.** Every operator on two columns of any types gives NULL, and nothing else, when one of them is NULL. -/
theorem C60_null (fp : FP) (op : BOp) (i j : Nat) (s t : VTy) (row : Nat → EV)
    (hn : (row i).ty = .null ∨ (row j).ty = .null) {v : EV} (h : run fp (.bin op (.slot i s) (.slot j t)) row = .ok v) :
    v.ty = .null := by
  rw [run_cols] at h
  simp only [eval, bind, Except.bind] at h
  cases h1 : cast fp (row i) (argTy op [s, t]) with
  | error e => rw [h1] at h; exact absurd h (by simp)
  | ok a =>
    rw [h1] at h
    cases h2 : cast fp (row j) (argTy op [s, t]) with
    | error e => rw [h2] at h; exact absurd h (by simp)
    | ok b =>
      rw [h2] at h
      have hb : binFn fp op (argTy op [s, t]) a b = .ok nullV := by
        unfold binFn
        rcases hn with hn | hn
        · rw [if_pos (Or.inl (by rw [cast_isNull hn h1]; simp [EV.isNull, hn]))]
        · rw [if_pos (Or.inr (by rw [cast_isNull hn h2]; simp [EV.isNull, hn]))]
      simp only [hb] at h
      rw [cast_isNull rfl h]; rfl

/-- The machine converts zero to zero and nothing else to zero. -/
def Spec.ZeroExact (fp : FP) : Prop := ∀ x : Int, f64Value (fp.ofInt x) = 0 ↔ x = 0

/-- **C60.** The quotient of two integer columns is NULL exactly when the divisor is zero or one of them is NULL. -/
theorem C60_division (fp : FP) (hz : ZeroExact fp) (i j : Nat) (s t : VTy) (row : Nat → EV)
    (hi : IntExpr row (.slot i s)) (hj : IntExpr row (.slot j t)) :
    ∃ v, run fp (.bin .div (.slot i s) (.slot j t)) row = .ok v ∧
      (v.ty = .null ↔ intOf (row i) = none ∨ intOf (row j) = none ∨ intOf (row j) = some 0) := by
  rw [run_cols]
  have conv : ∀ (k : Nat) (q : VTy), IntExpr row (.slot k q) → ∃ w, cast fp (row k) .double = .ok w ∧
      ((intOf (row k) = none ∧ w.ty = .null) ∨ ∃ x, intOf (row k) = some x ∧ w.ty = .double ∧ w.u = fp.ofInt x) := by
    intro k q hk
    obtain ⟨h1, h2 | h2⟩ := hk
    · have hq : Expr.Spec.IntTy (row k).ty := h2 ▸ h1
      obtain ⟨x, e1, e2, _⟩ := sem_int hq
      refine ⟨{ row k with ty := .double, u := fp.ofInt x }, ?_, Or.inr ⟨x, intOf_sem.2 e1, rfl, rfl⟩⟩
      rcases intTy_cases hq with h | h | h | h | h | h | h | h <;>
        (unfold cast; rw [if_neg (by simp [EV.isNull, h])]; simp [h, e2])
    · exact ⟨row k, cast_null fp _ h2, Or.inl ⟨intOf_null h2, h2⟩⟩
  obtain ⟨a, a1, a2⟩ := conv i s hi
  obtain ⟨b, b1, b2⟩ := conv j t hj
  have hT : argTy .div [s, t] = .double := rfl
  have hR : retTy .div [s, t] = .double := rfl
  simp only [eval, hT, hR, a1, b1, bind, Except.bind]
  unfold binFn
  rcases a2 with ⟨a2, a3⟩ | ⟨x, a2, a3, a4⟩
  · rw [if_pos (Or.inl (by simp [EV.isNull, a3]))]
    exact ⟨nullV, cast_null fp _ rfl, by simp [nullV, a2]⟩
  · rcases b2 with ⟨b2, b3⟩ | ⟨y, b2, b3, b4⟩
    · rw [if_pos (Or.inr (by simp [EV.isNull, b3]))]
      exact ⟨nullV, cast_null fp _ rfl, by simp [nullV, b2]⟩
    · rw [if_neg (by simp [EV.isNull, a3, b3])]
      simp only [b4]
      by_cases h0 : y = 0
      · rw [if_pos ((hz y).2 h0)]
        exact ⟨nullV, cast_null fp _ rfl, by simp [nullV, b2, h0]⟩
      · rw [if_neg (fun h => h0 ((hz y).1 h))]
        exact ⟨_, cast_same fp rfl, by simp [a2, b2, h0]⟩

theorem strCmp_pred {op : BOp} (hop : IsCmp op) (a b : Bytes) :
    IsBool (predInt op (strCmp a b) 0) (CmpOrd op (bcmp a b)) := by
  have h := predInt_is hop (strCmp a b) 0
  have e : Cmp op (strCmp a b) 0 ↔ CmpOrd op (bcmp a b) := by
    simp only [IsCmp, List.mem_cons, List.not_mem_nil, or_false] at hop
    unfold strCmp
    rcases hop with h | h | h | h | h | h <;> subst h <;> cases bcmp a b <;> simp [Cmp, CmpOrd]
  exact ⟨h.1, fun hp => h.2.1 (e.2 hp), fun hp => h.2.2 (fun hq => hp (e.1 hq))⟩

/-- **C60.** Two text columns are compared byte by byte. -/
theorem C60_text (fp : FP) {op : BOp} (hop : IsCmp op) (i j : Nat) (row : Nat → EV) (hi : (row i).ty = .string)
    (hj : (row j).ty = .string) :
    ∃ v, run fp (.bin op (.slot i .string) (.slot j .string)) row = .ok v ∧ IsBool v (CmpOrd op (bcmp (row i).s (row j).s)) := by
  have hT : argTy op [.string, .string] = .string := by
    revert hop; cases op <;> simp [IsCmp] <;> rfl
  have hR : retTy op [.string, .string] = .bool := by simp [retTy, isPred_of hop]
  refine ⟨_, ?_, strCmp_pred hop (row i).s (row j).s⟩
  rw [run_cols]
  simp only [eval, hT, hR, bind, Except.bind, cast_same fp hi, cast_same fp hj]
  have hb : binFn fp op .string (row i) (row j) = .ok (predInt op (strCmp (row i).s (row j).s) 0) := by
    unfold binFn
    rw [if_neg (by simp [EV.isNull, hi, hj])]
    simp only [IsCmp, List.mem_cons, List.not_mem_nil, or_false] at hop
    rcases hop with h | h | h | h | h | h <;> subst h <;> simp only [BOp.isPred, if_true]
  rw [hb]
  exact cast_same fp rfl

/-- **C60.** Two columns of the same date or time type are compared by the number they store (whose order is the order
of the points in time, C30 and C31). -/
theorem C60_dates (fp : FP) {op : BOp} (hop : IsCmp op) (i j : Nat) (t : VTy)
    (ht : t = .datetime ∨ t = .timestamp ∨ t = .date ∨ t = .time) (row : Nat → EV) (hi : (row i).ty = t) (hj : (row j).ty = t) :
    ∃ v x y, run fp (.bin op (.slot i t) (.slot j t)) row = .ok v ∧ intOf (row i) = some x ∧ intOf (row j) = some y ∧
      IsBool v (Cmp op x y) := by
  have hT : argTy op [t, t] = t := by
    revert hop; rcases ht with h | h | h | h <;> subst h <;> cases op <;> simp [IsCmp] <;> rfl
  have hR : retTy op [t, t] = .bool := by simp [retTy, isPred_of hop]
  have hn : ¬ ((row i).isNull = true ∨ (row j).isNull = true) := by
    rcases ht with h | h | h | h <;> subst h <;> simp [EV.isNull, hi, hj]
  obtain ⟨x, y, hx, hy, hb⟩ : ∃ x y, intOf (row i) = some x ∧ intOf (row j) = some y ∧
      binFn fp op t (row i) (row j) = .ok (predInt op x y) := by
    unfold binFn
    rw [if_neg hn]
    simp only [IsCmp, List.mem_cons, List.not_mem_nil, or_false] at hop
    have li := (row i).u.isLt
    have lj := (row j).u.isLt
    rcases ht with h | h | h | h
    · subst h
      refine ⟨(row i).u.toNat, (row j).u.toNat, ?_, ?_, ?_⟩
      · simp only [intOf, Expr.Spec.sem, hi, Expr.Spec.intShape, Option.some.injEq]; omega
      · simp only [intOf, Expr.Spec.sem, hj, Expr.Spec.intShape, Option.some.injEq]; omega
      · rcases hop with h | h | h | h | h | h <;> subst h <;> simp only [BOp.isPred, if_true]
    · subst h
      refine ⟨(row i).uget 32, (row j).uget 32, ?_, ?_, ?_⟩
      · simp only [intOf, Expr.Spec.sem, hi, Expr.Spec.intShape, uget_eq]
      · simp only [intOf, Expr.Spec.sem, hj, Expr.Spec.intShape, uget_eq]
      · rcases hop with h | h | h | h | h | h <;> subst h <;> simp only [BOp.isPred, if_true]
    · subst h
      refine ⟨(row i).uget 32, (row j).uget 32, ?_, ?_, ?_⟩
      · simp only [intOf, Expr.Spec.sem, hi, Expr.Spec.intShape, uget_eq]
      · simp only [intOf, Expr.Spec.sem, hj, Expr.Spec.intShape, uget_eq]
      · rcases hop with h | h | h | h | h | h <;> subst h <;> simp only [BOp.isPred, if_true]
    · subst h
      refine ⟨(row i).sget 32, (row j).sget 32, ?_, ?_, ?_⟩
      · simp only [intOf, Expr.Spec.sem, hi, Expr.Spec.intShape, sget_eq _ (show 32 ≤ 64 by decide)]
      · simp only [intOf, Expr.Spec.sem, hj, Expr.Spec.intShape, sget_eq _ (show 32 ≤ 64 by decide)]
      · rcases hop with h | h | h | h | h | h <;> subst h <;> simp only [BOp.isPred, if_true]
  refine ⟨_, x, y, ?_, hx, hy, predInt_is hop x y⟩
  rw [run_cols]
  simp only [eval, hT, hR, bind, Except.bind, cast_same fp hi, cast_same fp hj, hb]
  exact cast_same fp rfl

/-- An integer column against a literal that converts to the number `y`. -/
theorem col_lit (fp : FP) {op : BOp} (hop : IsCmp op) {i : Nat} {s : VTy} {row : Nat → EV} (hi : IntExpr row (.slot i s))
    {c w : EV} {y : Int} (hl : litCast fp c (if UnsignedTy s then .uint64 else .int64) = .ok w)
    (hw : w.ty = if UnsignedTy s then .uint64 else .int64) (hy : w.u = BitVec.ofInt 64 y) (hr : InRange (UnsignedTy s) y) :
    ∃ v, run fp (.bin op (.slot i s) (.lit c)) row = .ok v ∧ Truth op v (intOf (row i)) (some y) := by
  obtain ⟨ta, va, ia, ra⟩ := slot_rep (fp := fp) hi
  have ia' := ia
  simp only [infer, Except.ok.injEq] at ia'
  subst ia'
  have hp : preCalc fp (.bin op (.slot i s) (.lit c)) = .ok (.bin op (.slot i s) (.lit c)) := by
    simp [preCalc, Node.isConst, foldChild, bind, Except.bind, pure, Except.pure, swapNode, Node.isLit]
  have hts : operandTys op (.slot i s) (.lit c) (.slot i s) (.lit c) = [s, s] := by
    simp [operandTys, isPred_of hop, Node.isSlot, Node.isConst, TNode.ty]
  have hrn : rightNode op (.slot i s) (.lit c) (.slot i s) (.lit c) = .lit c := by
    unfold rightNode; split <;> rfl
  obtain ⟨u, hu⟩ : ∃ u, u = UnsignedTy s := ⟨_, rfl⟩
  rw [← hu] at hl hw hr
  have hT : argTy op [s, s] = if u then .uint64 else .int64 := by
    rw [argTy_cmp hop (Or.inl hi.1) (Or.inl hi.1), if_pos ⟨hi.1, hi.1⟩, Bool.or_self, isUint_eq, hu]
  have hR : retTy op [s, s] = .bool := by simp [retTy, isPred_of hop]
  have hTc : (if u then VTy.uint64 else VTy.int64) = .int64 ∨ (if u then VTy.uint64 else VTy.int64) = .uint64 ∨
      (if u then VTy.uint64 else VTy.int64) = .double ∨ ((if u then VTy.uint64 else VTy.int64) = .string ∧ (TNode.slot i s).ty = .null) := by
    rcases ite_ty u with h | h
    · exact Or.inl h
    · exact Or.inr (Or.inl h)
  obtain ⟨ca, va', wa, a1, a2, a3, a4, a5, a6⟩ := operand ra hTc
  have hnd : (if u then VTy.uint64 else VTy.int64) ≠ .double := by cases u <;> simp
  have hrun : ∀ r, binFn fp op (if u then .uint64 else .int64) wa w = .ok r → (r.ty = .bool ∨ r.ty = .null) →
      run fp (.bin op (.slot i s) (.lit c)) row = .ok r := by
    intro r hr ht
    have hcc : castChild fp (if u then .uint64 else .int64) (.lit c) = .ok (.lit w) := by
      simp only [castChild, hl, Except.map]
    simp only [run, hp, infer, hts, hrn, hT, hR, a1, hcc, eval, a2, a3, cast_same fp hw, hr, bind, Except.bind, pure, Except.pure]
    exact ret_cast fp ht
  have nw : w.isNull = false := by unfold EV.isNull; rw [hw]; cases u <;> rfl
  cases hx : intOf (row i) with
  | none =>
    refine ⟨nullV, hrun _ ?_ (Or.inr rfl), fun _ => rfl, by simp⟩
    unfold binFn; rw [if_pos (by simp [EV.isNull, a4 hx])]
  | some x =>
    have na : wa.isNull = false := by unfold EV.isNull; rw [a5 x hx]; cases u <;> rfl
    have rx : InRange u x := by rw [hu]; exact value_range hi trivial hx
    have hb := binFn_cmp fp hop na nw (a6 x hx hnd) hy rx hr
    have hp := predInt_is hop x y
    refine ⟨_, hrun _ hb (Or.inl hp.1), by simp, ?_⟩
    intro m n h1 h2
    simp only [Option.some.injEq] at h1 h2
    subst h1 h2
    exact hp

/-- **C60.** An integer column compared with a number written with a fraction part or an exponent, or with a quoted
number: the comparison is with that number, provided it is a whole number in the column's 64-bit range. -/
theorem C60_column_number (fp : FP) {op : BOp} (hop : IsCmp op) {i : Nat} {s : VTy} {row : Nat → EV} (hi : IntExpr row (.slot i s))
    (c : EV) (y : Int) (hr : InRange (UnsignedTy s) y)
    (hc : (c.ty = .double ∧ ¬ IsNaN64 c.u ∧ f64Value c.u = y * 2 ^ 1074) ∨ (c.ty = .string ∧ c.s = toStr y)) :
    ∃ v, run fp (.bin op (.slot i s) (.lit c)) row = .ok v ∧ Truth op v (intOf (row i)) (some y) := by
  obtain ⟨u, hu⟩ : ∃ u, u = UnsignedTy s := ⟨_, rfl⟩
  have hr' := hr
  rw [← hu] at hr'
  have hne : ¬ (((if u then VTy.uint64 else VTy.int64) = .datetime ∨ (if u then VTy.uint64 else VTy.int64) = .timestamp ∨
      (if u then VTy.uint64 else VTy.int64) = .date ∨ (if u then VTy.uint64 else VTy.int64) = .time) ∧
      (c.ty.isInt = true ∨ isDouble c.ty = true ∨ c.ty = .bool)) := by cases u <;> simp
  refine col_lit fp hop hi (w := ⟨if u then .uint64 else .int64, BitVec.ofInt 64 y, c.s⟩) (y := y) ?_ (by rw [hu]) rfl hr
  rw [← hu]
  unfold litCast
  rw [if_neg hne]
  rcases hc with ⟨h1, h2, h3⟩ | ⟨h1, h2⟩
  · unfold cast
    rw [if_neg (by cases u <;> simp [EV.isNull, h1])]
    have ht : truncF64 c.u = y := by
      unfold truncF64; rw [h3]
      exact Int.mul_tdiv_cancel _ (Int.pow_ne_zero (by decide))
    have hf : floatTo c (IsNaN64 c.u) (truncF64 c.u) (if u then .uint64 else .int64) =
        .ok ⟨if u then .uint64 else .int64, BitVec.ofInt 64 y, c.s⟩ := by
      unfold floatTo
      rw [ht, if_neg]
      · cases u <;> simp [VTy.width, putLow64]
      · cases u <;> simp [cRange, h2, InRange] at hr' ⊢ <;> omega
    have hd : (c.ty = .double ∧ (if u then VTy.uint64 else VTy.int64).isInt = true) := by
      refine ⟨h1, ?_⟩; cases u <;> rfl
    revert hf hd
    cases u <;> intro hf hd <;> simp only [Bool.false_eq_true, if_false, if_true] at hf hd ⊢ <;> rw [if_pos hd] <;> exact hf
  · have hst := strtoull_toStr (x := y) (by cases u <;> simp [InRange] at hr' <;> omega)
    have hg : getInt c = some ((BitVec.ofInt 64 y).toNat : Int) := by simp [getInt, h1, h2, hst]
    have hof : BitVec.ofInt 64 (((BitVec.ofInt 64 y).toNat : Nat) : Int) = BitVec.ofInt 64 y := by
      rw [BitVec.ofInt_natCast, BitVec.ofNat_toNat]; rfl
    have hct : castTo c (if u then .uint64 else .int64) = some ⟨if u then .uint64 else .int64, BitVec.ofInt 64 y, c.s⟩ := by
      unfold castTo
      rw [if_neg (by cases u <;> simp [EV.isNull, h1])]
      cases u <;> simp only [Bool.false_eq_true, if_false, if_true, hg, Option.map_some, VTy.width, putLow64, hof]
    unfold cast
    rw [if_neg (by cases u <;> simp [EV.isNull, h1])]
    revert hct
    cases u <;> intro hct <;> simp only [Bool.false_eq_true, if_false, if_true] at hct ⊢ <;> simp [h1, hct]

/-- **C60.** A number in SQL text below 2^63 is that number. -/
theorem C60_literal (n : Nat) (h : n < 2 ^ 63) : (numberLit n).ty = .int64 ∧ intOf (numberLit n) = some (n : Int) := by
  refine ⟨rfl, intOf_int64 rfl ?_ ⟨by omega, by omega⟩⟩
  unfold numberLit
  rw [if_pos (show n < 2 ^ 64 by omega)]
  rw [BitVec.ofInt_natCast]

/-- One step of the lexicographic comparison. -/
theorem comparable_sgn {a b : EV} (h : Comparable a b) : ∃ c, compareDiff a b = some c ∧ Expr.Spec.sgn c = valCmp a b := by
  rcases h with ⟨x, y, h1, h2, h3, h4, h5⟩ | ⟨h1, h2⟩
  · have : (a.ty.isUint = false ∧ b.ty.isUint = false) ∨ (0 ≤ x ∧ 0 ≤ y) := by
      rw [isUint_eq, isUint_eq]; exact h5
    obtain ⟨c, e1, e2⟩ := C28_mixed_integers h1 h2 (intOf_sem.1 h3) (intOf_sem.1 h4) this
    exact ⟨c, e1, by rw [e2]; simp [valCmp, h3, h4]⟩
  · obtain ⟨c, e1, e2⟩ := C28_mixed_strings (a := a) (b := b) (Or.inl h1) (Or.inl h2)
    refine ⟨c, e1, ?_⟩
    rw [e2]
    have : intOf a = none := by simp [intOf, Expr.Spec.sem, h1, Expr.Spec.intShape]
    simp [valCmp, this]

theorem rowLoop_lex (less more last : Bool) {as bs : List EV} (h : List.Forall₂ Comparable as bs) :
    rowLoop less more last as bs = some (match Spec.lex valCmp as bs with | .lt => less | .gt => more | .eq => last) := by
  induction h with
  | nil => rfl
  | cons hab _ ih =>
    rename_i a b as bs
    obtain ⟨c, e1, e2⟩ := comparable_sgn hab
    simp only [rowLoop, e1, Spec.lex, Option.bind_eq_bind, Option.bind_some]
    unfold Expr.Spec.sgn at e2
    rw [← e2]
    by_cases h1 : c < 0
    · rw [if_pos h1, (int_compare_lt c 0).2 h1]; rfl
    · by_cases h2 : c > 0
      · rw [if_neg h1, if_pos h2, (int_compare_gt c 0).2 h2]; rfl
      · rw [if_neg h1, if_neg h2, (int_compare_eq c 0).2 (by omega)]
        exact ih

/-- **C60.** Rows `(a, b, …) op (c, d, …)` of integers or texts without NULLs are compared lexicographically. -/
theorem C60_rows {op : BOp} (hop : IsCmp op) {as bs : List EV} (h : List.Forall₂ Comparable as bs) :
    ∃ r : Bool, rowCmp op as bs = some r ∧ (r = true ↔ CmpOrd op (Spec.lex valCmp as bs)) := by
  simp only [IsCmp, List.mem_cons, List.not_mem_nil, or_false] at hop
  rcases hop with ho | ho | ho | ho | ho | ho <;> subst ho <;> simp only [rowCmp, rowLoop_lex _ _ _ h] <;>
    refine ⟨_, rfl, ?_⟩ <;> cases Spec.lex valCmp as bs <;> simp [CmpOrd]

end BaikalDB.Ops
